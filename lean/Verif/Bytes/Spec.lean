import Verif.Bytes.Model
/-! Specification for C05 and C12: byte values are mathematical lists of bytes. -/
namespace Verif.Bytes

/-- The list `l` restricted to the positions `s ≤ i < e`. -/
def range (l : List Byte) (s e : Nat) : List Byte := (l.drop s).take (e - s)

/-- One call on lists: `none` means the program is aborted. -/
def specStep (vals : List (List Byte)) : Op → Option (List (List Byte))
  | .literal bs => some (vals ++ [bs])
  | .lineRead bs => if bs.length ≤ maxAlloc then some (vals ++ [bs]) else none
  | .concat a b => do
    let x ← vals[a]?
    let y ← vals[b]?
    if x.length + y.length ≤ maxAlloc then some (vals ++ [x ++ y]) else none
  | .slice x s e => do
    let x ← vals[x]?
    if s.toNat ≤ e.toNat ∧ e.toNat ≤ x.length then some (vals ++ [range x s.toNat e.toNat]) else none

/-- The values after a history of calls. -/
def specRun (ops : List Op) : Option (List (List Byte)) := ops.foldlM specStep []

/-- The value `x` holds the bytes `v`: its length field is right and reading all its bytes through
its pointer gives `v`. -/
def Holds (mem : List (List Cell)) (x : TBytes) (v : List Byte) : Prop :=
  x.len = v.length ∧ readCells mem x.ptr x.len = .ok v

end Verif.Bytes
