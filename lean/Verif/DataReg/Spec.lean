import Verif.DataReg.Model
/-!
# What the data section contains

Every entry is emitted as a segment at its offset. `ByteAt es a b`: some segment puts byte `b` at
address `a`.
-/
namespace Verif.DataReg

def ByteAt (es : List Entry) (a : Nat) (b : UInt8) : Prop :=
  ∃ e ∈ es, ∃ i : Nat, e.data[i]? = some b ∧ a = e.offset.toNat + i

/-- Number of bytes stored. -/
def stored (es : List Entry) : Nat := (es.map fun e => e.data.length).sum

end Verif.DataReg
