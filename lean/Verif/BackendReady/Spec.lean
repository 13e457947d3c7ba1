import Verif.BackendReady.Model

/-!
# What "ready for the backend" means

Written without the check: which types a module mentions, directly or through other types, in which
kind of place; which of them a target can represent; which names occur; what is asked of operations.
-/

namespace Verif.BackendReady

/-- `a` is `x` or a list that contains it, at any depth. -/
inductive Holds : Attr → Attr → Prop where
  | self (a) : Holds a a
  | item {l a x} : a ∈ l → Holds a x → Holds (.list l) x

/-- A place: a type and the kind of place it is mentioned in. -/
abbrev Place := TyRef × Surface

def IsCore (d : TypeData) (n : String) : Prop := d.dialect = "core" ∧ d.name = n

/-- What a type mentions: a function type its result and its parameters as values, another type its
parameters, both what is in their attributes. -/
inductive Mentions (s : Store) : Place → Place → Prop where
  | result {t sf d r ps} : s[t]? = some d → IsCore d "func" → d.params = r :: ps →
      Mentions s (t, sf) (r, .result)
  | param {t sf d r ps p} : s[t]? = some d → IsCore d "func" → d.params = r :: ps → p ∈ ps →
      Mentions s (t, sf) (p, .value)
  | inside {t sf d p} : s[t]? = some d → ¬ IsCore d "func" → p ∈ d.params →
      Mentions s (t, sf) (p, .metadata)
  | attr {t sf d k a u} : s[t]? = some d → (k, a) ∈ d.attrs → Holds a (.type u) →
      Mentions s (t, sf) (u, .metadata)

/-- Mentioned directly or through other types. -/
inductive Through (s : Store) : Place → Place → Prop where
  | refl (x) : Through s x x
  | step {x y z} : Mentions s x y → Through s y z → Through s x z

/-- The name of the attribute that holds the signature of an operation, if it has one. -/
inductive SignatureKey : Backend → OpData → String → Prop where
  | func {b d} : d.dialect = b.dialect → d.name = "func" → SignatureKey b d "type"
  | native {d} : d.dialect = "clif" → d.name = "call_indirect" ∨ d.name = "return_call_indirect" →
      SignatureKey .native d "sig"
  | wasm {d} : d.dialect = "wasm" → d.name = "call_indirect" ∨ d.name = "return_call_indirect" →
      SignatureKey .wasm d "func.indirect_call_signature"

mutual
/-- `o` with its blocks occurs in an operation: it is the operation or is nested in it. -/
inductive InOp : OpData × List Block → Op → Prop where
  | self {d bs} : InOp (d, bs) (.mk d bs)
  | nested {o d bs} : InBlocks o bs → InOp o (.mk d bs)
/-- … in one of the blocks. -/
inductive InBlocks : OpData × List Block → List Block → Prop where
  | mk {o bs as ops p} : Block.mk as ops ∈ bs → p ∈ ops → InOp o p → InBlocks o bs
end

/-- `o` is an operation of the module: the module itself or inside it. -/
def Module.Has (m : Module) (o : OpData × List Block) : Prop :=
  o = (m.data, m.body.getD []) ∨ InBlocks o (m.body.getD [])

/-- `a` is an argument of a block of the operation. -/
def HasArg (o : OpData × List Block) (a : Arg) : Prop := ∃ as ops, Block.mk as ops ∈ o.2 ∧ a ∈ as

/-- What a module mentions itself. -/
inductive Shows (b : Backend) (m : Module) : Place → Prop where
  | alias {n t} : (n, t) ∈ m.aliases → Shows b m (t, .metadata)
  | result {o t} : m.Has o → t ∈ o.1.results → Shows b m (t, .result)
  | operand {o t} : m.Has o → t ∈ o.1.operands → Shows b m (t, .value)
  | signature {o k t} : m.Has o → (k, .type t) ∈ o.1.attrs → SignatureKey b o.1 k → Shows b m (t, .signature)
  | attr {o k a t} : m.Has o → (k, a) ∈ o.1.attrs → ¬ SignatureKey b o.1 k → Holds a (.type t) →
      Shows b m (t, .metadata)
  | arg {o a} : m.Has o → HasArg o a → Shows b m (a.ty, .value)
  | argAttr {o a k x t} : m.Has o → HasArg o a → (k, x) ∈ a.attrs → Holds x (.type t) →
      Shows b m (t, .metadata)

/-- The module mentions the type in that kind of place, directly or through other types. -/
def Reaches (s : Store) (b : Backend) (m : Module) (x : Place) : Prop :=
  ∃ y, Shows b m y ∧ Through s y x

/-- A name in an attribute map: a key, or a symbol in a value. -/
inductive Named : Attrs → String → Prop where
  | key {as k a} : (k, a) ∈ as → Named as k
  | sym {as k a n} : (k, a) ∈ as → Holds a (.sym n) → Named as n

/-- The names a module mentions: its type aliases, in the attributes of its operations and block
arguments, in the attributes of the types it mentions. -/
inductive Names (s : Store) (b : Backend) (m : Module) : String → Prop where
  | alias {n t} : (n, t) ∈ m.aliases → Names s b m n
  | op {o n} : m.Has o → Named o.1.attrs n → Names s b m n
  | arg {o a n} : m.Has o → HasArg o a → Named a.attrs n → Names s b m n
  | type {t sf d n} : Reaches s b m (t, sf) → s[t]? = some d → Named d.attrs n → Names s b m n

/-- A declared type: a struct, an enum, a reference to one, a variant. -/
def Declared (d : TypeData) : Prop :=
  d.dialect = "adt" ∧ (d.name = "struct" ∨ d.name = "enum" ∨ d.name = "typeref" ∨ d.name = "variant_inst" ∨
    d.attrs.lookup "is_variant" = some (.bool true))

/-- A reference type of WebAssembly. -/
def WasmRef (d : TypeData) : Prop :=
  d.dialect = "wasm" ∧ (d.name = "anyref" ∨ d.name = "i31ref" ∨ d.name = "structref" ∨
    d.name = "arrayref" ∨ d.name = "funcref")

/-- Numbers, the empty value and addresses, which both targets have. -/
def Scalar (d : TypeData) : Prop :=
  IsCore d "nil" ∨ IsCore d "i1" ∨ IsCore d "i32" ∨ IsCore d "i64" ∨ IsCore d "f32" ∨ IsCore d "f64" ∨
    IsCore d "ptr"

/-- Small numbers: values on native code only. -/
def Small (d : TypeData) : Prop := IsCore d "i8" ∨ IsCore d "i16"

/-- What a value can be at run time. -/
def ValueType : Backend → TypeData → Prop
  | .native, d => Scalar d ∨ Small d
  | .wasm, d => Scalar d ∨ IsCore d "bytes" ∨ IsCore d "array" ∨ IsCore d "func" ∨ Declared d ∨ WasmRef d

/-- What a type may be in a kind of place. -/
def Allowed (b : Backend) (d : TypeData) : Surface → Prop
  | .value => ValueType b d
  | .result => ValueType b d
  | .signature => IsCore d "func"
  | .metadata => Scalar d ∨ Small d ∨ IsCore d "func" ∨ IsCore d "bytes" ∨ IsCore d "ref" ∨ IsCore d "array" ∨
      Declared d ∨ (b = .wasm ∧ WasmRef d)

/-- A type is fine in a place: allowed there, and a function type has a result. -/
def FineAt (s : Store) (b : Backend) (x : Place) : Prop :=
  ∃ d, s[x.1]? = some d ∧ Allowed b d x.2 ∧ (IsCore d "func" → d.params ≠ [])

/-- The signature in an attribute is a function type with an empty result and these parameters. -/
def EmptyResult (s : Store) (t : TyRef) (ps : List TyRef) : Prop :=
  ∃ d r rd, s[t]? = some d ∧ IsCore d "func" ∧ d.params = r :: ps ∧ s[r]? = some rd ∧ IsCore rd "nil"

/-- An indirect tail call on WebAssembly names its exact signature: empty result, an index of the table
first, then arguments of exactly the parameter types. -/
def ExactTailCall (s : Store) (d : OpData) : Prop :=
  ∃ t i x args, d.attrs.lookup "func.indirect_call_signature" = some (.type t) ∧ d.operands = i :: args ∧
    s[i]? = some x ∧ IsCore x "i32" ∧ EmptyResult s t args

/-- What is asked of an operation as such: its signature is a type; its calling convention, if it is
marked, is one of the three; a function in the third has an empty result; a tail call has no result. -/
structure OpFine (s : Store) (b : Backend) (d : OpData) : Prop where
  signature : ∀ k a, (k, a) ∈ d.attrs → SignatureKey b d k → ∃ t, a = .type t
  convention : ∀ a, d.attrs.lookup "tribute.calling_convention" = some a → ∃ i : Int, a = .int i ∧ 0 ≤ i ∧ i ≤ 2
  cps : d.attrs.lookup "tribute.calling_convention" = some (.int 2) → d.dialect = b.dialect → d.name = "func" →
    ∃ t ps, d.attrs.lookup "type" = some (.type t) ∧ EmptyResult s t ps
  transfer : d.name = "return_call" ∨ d.name = "return_call_indirect" → d.results = []

/-- The operations are those of the target.  Modules may be nested: anywhere for native code, directly
in the body on WebAssembly. -/
structure OpsFine (s : Store) (b : Backend) (m : Module) : Prop where
  body : m.body ≠ none
  native : b = .native → ∀ o, InBlocks o (m.body.getD []) →
    o.1.dialect = "clif" ∨ (o.1.dialect = "core" ∧ o.1.name = "module")
  wasm : b = .wasm → ∀ o, InBlocks o (m.body.getD []) →
    o.1.dialect = "wasm" ∨ (o.1.dialect = "core" ∧ o.1.name = "module")
  nestedWasm : b = .wasm → ∀ o, InBlocks o (m.body.getD []) → ∀ p, InBlocks p o.2 → p.1.dialect = "wasm"
  tailCalls : b = .wasm → ∀ o, InBlocks o (m.body.getD []) → o.1.dialect = "wasm" →
    o.1.name = "return_call_indirect" → ExactTailCall s o.1

/-- The module is ready for the backend. -/
structure Ready (s : Store) (b : Backend) (m : Module) : Prop where
  ops : OpsFine s b m
  types : ∀ x, Reaches s b m x → FineAt s b x
  names : ¬ Names s b m "__tribute_cps_control"
  each : ∀ o, m.Has o → OpFine s b o.1

/-- What an error says of the module. -/
def Says (s : Store) (b : Backend) (m : Module) : Err → Prop
  | .stuck => False
  | .noBody => m.body = none
  | .operation d n => ∃ o, InBlocks o (m.body.getD []) ∧ o.1.dialect = d ∧ o.1.name = n ∧ d ≠ b.dialect ∧
      (d = "core" → n = "module" → b = .wasm ∧ ∃ q, InBlocks q (m.body.getD []) ∧ InBlocks o q.2)
  | .tailCall d => b = .wasm ∧ d.dialect = "wasm" ∧ d.name = "return_call_indirect" ∧
      (∃ bs, InBlocks (d, bs) (m.body.getD [])) ∧ ¬ ExactTailCall s d
  | .illegalType t sf => Reaches s b m (t, sf) ∧ ∃ d, s[t]? = some d ∧ ¬ Allowed b d sf
  | .noResult t => ∃ sf d, Reaches s b m (t, sf) ∧ s[t]? = some d ∧ IsCore d "func" ∧ d.params = []
  | .carrier => Names s b m "__tribute_cps_control"
  | .notAType d => (∃ bs, m.Has (d, bs)) ∧ ∃ k a, (k, a) ∈ d.attrs ∧ SignatureKey b d k ∧ ∀ t, a ≠ .type t
  | .badConvention d => (∃ bs, m.Has (d, bs)) ∧ ∃ a, d.attrs.lookup "tribute.calling_convention" = some a ∧
      ∀ i : Int, a = .int i → i < 0 ∨ 2 < i
  | .cpsResult d => (∃ bs, m.Has (d, bs)) ∧ d.dialect = b.dialect ∧ d.name = "func" ∧
      d.attrs.lookup "tribute.calling_convention" = some (.int 2) ∧
      ¬ ∃ t ps, d.attrs.lookup "type" = some (.type t) ∧ EmptyResult s t ps
  | .transferResult d => (∃ bs, m.Has (d, bs)) ∧ (d.name = "return_call" ∨ d.name = "return_call_indirect") ∧
      d.results ≠ []

/-- Types refer to types interned before them only (`intern` takes the references it is given by
earlier calls, and no type is changed later), and what the module mentions is interned. -/
structure Interned (s : Store) (b : Backend) (m : Module) : Prop where
  types : ∀ t sf y, Mentions s (t, sf) y → y.1 < t
  module : ∀ x, Shows b m x → x.1 < s.length

end Verif.BackendReady
