import Verif.Const.Model

/-!
# What a literal is

The value a literal has at run time, for whole modules: the emitted code has the shape of the module,
and wherever the module has a literal, running the code there makes a value with exactly the bytes
written.
-/
namespace Verif.Const.Spec
open Verif.Rtti (Mem loadN)

/-! ## The literals of a module -/

mutual
/-- The contents of the literals of an operation. -/
def contentsOf : Op → List (List UInt8)
  | .string t => [utf8 t]
  | .bytes b => [b]
  | .other _ body => contents body

def contents : List Op → List (List UInt8)
  | [] => []
  | op :: ops => contentsOf op ++ contents ops
end

mutual
def hasStringOp : Op → Bool
  | .string _ => true
  | .bytes _ => false
  | .other _ body => hasString body

/-- Some literal of the module is a string. -/
def hasString : List Op → Bool
  | [] => false
  | op :: ops => hasStringOp op || hasString ops
end

/-- A module of a source text shorter than 4 GiB: the literals are shorter than that, and there are
fewer of them than that. -/
def Small (ops : List Op) : Prop :=
  (contents ops).length < 2 ^ 32 ∧ ∀ c ∈ contents ops, c.length < 2 ^ 32

/-! ## WebAssembly -/

/-- The bytes a range of an array denotes. -/
def range (elems : List UInt8) (offset len : UInt32) : List UInt8 :=
  (elems.drop offset.toNat).take len.toNat

/-- A byte-string value whose bytes are these. -/
def IsBytes (c : List UInt8) (v : WVal) : Prop :=
  ∃ e o l, v = .bytes e o l ∧ o.toNat + l.toNat ≤ e.length ∧ range e o l = c

/-- A string value, one leaf, whose bytes are these. -/
def IsText (c : List UInt8) (v : WVal) : Prop :=
  ∃ e o l, v = .leaf e o l ∧ o.toNat + l.toNat ≤ e.length ∧ range e o l = c

/-- The code pushes one value with this property, whatever is on the stack. -/
def Pushes (segs : List (List UInt8)) (is : List Instr) (P : WVal → Prop) : Prop :=
  ∃ v, P v ∧ ∀ st, wrun segs is st = some (v :: st)

mutual
inductive WMeans (segs : List (List UInt8)) : Op → WCode → Prop where
  | string {t is} : Pushes segs is (IsText (utf8 t)) → WMeans segs (.string t) (.instrs is)
  | bytes {b is} : Pushes segs is (IsBytes b) → WMeans segs (.bytes b) (.instrs is)
  | other {id body code} : WMeansAll segs body code → WMeans segs (.other id body) (.other id code)

inductive WMeansAll (segs : List (List UInt8)) : List Op → List WCode → Prop where
  | nil : WMeansAll segs [] []
  | cons {op ops c cs} : WMeans segs op c → WMeansAll segs ops cs →
      WMeansAll segs (op :: ops) (c :: cs)
end

/-! ## Native -/

/-- A byte-string object as the runtime reads it (`struct TributeBytes`, runtime lib.rs 224-228): the
address of the bytes, then their number. -/
def BytesAt (m : Mem) (p : Nat) (c : List UInt8) : Prop :=
  loadN m (p + 8) 8 = c.length ∧ ∀ i : Nat, ∀ h : i < c.length, m (loadN m p 8 + i) = c[i]

/-- The data of the program is where the linker put it. -/
def Loaded (img : Image) (rodata : List (String × List UInt8)) (m : Mem) : Prop :=
  ∀ n c, (n, c) ∈ rodata →
    img.dataAt n + c.length ≤ 2 ^ 64 ∧ img.dataAt n < 2 ^ 64 ∧
      ∀ i : Nat, ∀ h : i < c.length, m (img.dataAt n + i) = c[i]

/-- The allocator of the runtime answers 24 bytes that overlap none of the data. -/
def GoodAlloc (img : Image) (rodata : List (String × List UInt8)) (m : Mem) : Prop :=
  img.allocate 24 m + 24 ≤ 2 ^ 64 ∧
    ∀ n c, (n, c) ∈ rodata →
      img.dataAt n + c.length ≤ img.allocate 24 m ∨ img.allocate 24 m + 24 ≤ img.dataAt n

/-- A new object with the reference count one and no type index, and nothing else changed: `p` is
the address behind the header of 8 bytes. -/
def NewObject (m m' : Mem) (p : Nat) : Prop :=
  8 ≤ p ∧ loadN m' (p - 8) 4 = 1 ∧ loadN m' (p - 4) 4 = 0 ∧
    ∀ x, x < p - 8 ∨ p + 16 ≤ x → m' x = m x

/-- In every memory that holds the data, the code makes a new object with these bytes. -/
def Makes (img : Image) (rodata : List (String × List UInt8)) (is : List Clif) (res : Nat)
    (val : Nat → NVal) (c : List UInt8) : Prop :=
  ∀ m, Loaded img rodata m → GoodAlloc img rodata m →
    ∃ p m', nrun img rodata m is res = some (val p, m') ∧ BytesAt m' p c ∧ NewObject m m' p ∧
      Loaded img rodata m'

mutual
inductive NMeans (img : Image) (rodata : List (String × List UInt8)) : Op → NCode → Prop where
  | string {t is} : Makes img rodata is 10 .leaf (utf8 t) →
      NMeans img rodata (.string t) (.instrs is)
  | bytes {b is} : Makes img rodata is 9 .word b → NMeans img rodata (.bytes b) (.instrs is)
  | other {id body code} : NMeansAll img rodata body code →
      NMeans img rodata (.other id body) (.other id code)

inductive NMeansAll (img : Image) (rodata : List (String × List UInt8)) :
    List Op → List NCode → Prop where
  | nil : NMeansAll img rodata [] []
  | cons {op ops c cs} : NMeans img rodata op c → NMeansAll img rodata ops cs →
      NMeansAll img rodata (op :: ops) (c :: cs)
end

/-- None of the program's own functions has a name that the compiler uses for data or for the
allocator. -/
def NoClash (img : Image) : Prop :=
  "__tribute_alloc" ∉ img.funcs ∧ ∀ i : Nat, "__tribute_rodata_" ++ toString i ∉ img.funcs

end Verif.Const.Spec
