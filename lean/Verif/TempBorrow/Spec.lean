import Verif.TempBorrow.Model
import Verif.RcInsert.Spec
import Verif.Dominance.Spec

/-!
# When it is safe not to count a loaded value

A loaded value that is not counted is kept alive only by the object it was loaded from.  So whenever it is used, that
object must have been held without interruption since the load, and must still be the one that was loaded from.
-/

namespace Verif.TempBorrow

open Verif.Live Verif.RcInsert

/-- On a path through the body, operation `i` of the `k`-th block. -/
def OnPath (body : Body) (p : List Nat) (k i : Nat) (op : Op) : Prop :=
  ∃ b blk, p[k]? = some b ∧ body[b]? = some blk ∧ blk.ops[i]? = some op

/-- The order of the points of a path. -/
def Earlier (k i k' i' : Nat) : Prop := k < k' ∨ (k = k' ∧ i < i')

/-- Entering the `k`-th block of the path defines the value. -/
def EnteringDefines (body : Body) (p : List Nat) (k v : Nat) : Prop :=
  ∃ b blk, p[k]? = some b ∧ body[b]? = some blk ∧ v ∈ blk.args

/-- `a` is computed from `b` by a cast or by adding an offset. -/
def OffsetOf (body : Body) (a b : Nat) : Prop :=
  ∃ blk ∈ body, ∃ op ∈ blk.ops, (op.kind = .cast ∨ op.kind = .iadd) ∧ a ∈ op.results ∧ op.operands.head? = some b

/-- The address is inside the object that `o` points to: it is `o`, or computed from it. -/
def Inside (body : Body) (a o : Nat) : Prop := Relation.ReflTransGen (OffsetOf body) a o

/-- The ledger at the start of the `k`-th block of the path. -/
def ledgerEntering (c : Config) (l : Live) (p : List Nat) : Nat → Option Ledger
  | 0 => some (initial c)
  | k + 1 => match runPath c l (p.take (k + 1)) (initial c), p[k]?, p[k + 1]? with
    | some own, some b, some s => some (enter c b s own)
    | _, _, _ => none

/-- The ledger before operation `i` of the `k`-th block of the path (and before the instructions that the pass put in
front of it). -/
def ledgerAt (c : Config) (l : Live) (p : List Nat) (k i : Nat) : Option Ledger :=
  match ledgerEntering c l p k, p[k]? with
  | some own, some b => match c.inp.body[b]? with
    | some blk => (execAll c b ⟨own, none⟩ ((entryRetains c b blk).map .retain ++
        (releasesAt c l b blk .start).map .release ++ chunks c l b blk 0 (blk.ops.take i))).map St.own
    | none => none
  | _, _ => none

/-- At point `(k, i)` of the path the value `t` is what a load at the earlier point `(k0, i0)` read from an object that `o`
points to; since then neither `t` nor `o` was defined again; and, if the function counts references to `o`, at least one
was held at every point since then. -/
def BackedSince (c : Config) (l : Live) (p : List Nat) (k i t o k0 i0 : Nat) : Prop :=
  ∃ ld a, OnPath c.inp.body p k0 i0 ld ∧ ld.kind = .load ∧ ld.results = [t] ∧ ld.operands.head? = some a ∧
    Inside c.inp.body a o ∧ t ≠ o ∧ Earlier k0 i0 k i ∧
    (∀ k' i' op, OnPath c.inp.body p k' i' op → Earlier k0 i0 k' i' → Earlier k' i' k i → t ∉ op.results ∧ o ∉ op.results) ∧
    (∀ k', k0 < k' → k' ≤ k → ¬ EnteringDefines c.inp.body p k' t ∧ ¬ EnteringDefines c.inp.body p k' o) ∧
    (Owned c o → ∀ k' i' op, OnPath c.inp.body p k' i' op → Earlier k0 i0 k' i' → ¬ Earlier k i k' i' →
      ∃ own, ledgerAt c l p k' i' = some own ∧ 1 ≤ own o)

/-- The object that the value points to cannot have been freed at point `(k, i)`: the function holds a reference to it, or
its caller does (borrowed parameters), or it is being constructed; or it was loaded from such an object, which was kept
alive since then. -/
inductive Kept (c : Config) (l : Live) (p : List Nat) (k i : Nat) : Nat → Prop where
  | counted {v} : Owned c v → (∃ own, ledgerAt c l p k i = some own ∧ 1 ≤ own v) → Kept c l p k i v
  | parameter {v} : v ∈ c.params → Kept c l p k i v
  | constructed {v} : c.interm v = true → Kept c l p k i v
  | loaded {v o k0 i0} : BackedSince c l p k i v o k0 i0 → Kept c l p k i o → Kept c l p k i v

/-- What an operation may do with a value that is not counted: read through it, write through it, compare it,
convert it. -/
def Harmless (op : Op) (j : Nat) : Prop :=
  (op.kind = .load ∧ j = 0) ∨ (op.kind = .store ∧ j = 1) ∨ op.kind = .icmp ∨
    (op.kind = .cast ∧ j = 0 ∧ op.operands.length = 1 ∧ op.results.length = 1)

/-- The values that are the given one under another name: results of casts. -/
def SameAs (body : Body) (v w : Nat) : Prop :=
  Relation.ReflTransGen (fun x y => ∃ blk ∈ body, ∃ op ∈ blk.ops, op.kind = .cast ∧ op.operands.head? = some x ∧ y ∈ op.results) v w

/-- Bodies as they come out of the earlier passes: the conditions of `Regular` without what it asks of the analysis of
borrowed parameters and temporaries. -/
structure Plain (c : Config) : Prop where
  args : ∀ blk ∈ c.inp.body, ∀ v ∈ blk.args, c.inp.info.static v = false ∧
    ∀ b ∈ c.inp.body, ∀ op ∈ b.ops, v ∉ op.results
  loads : ∀ b i op, At c b i op → op.kind = .load → ∀ v ∈ op.results, op.results = [v] ∧
    c.inp.info.static v = false ∧ ∀ b ∈ c.inp.body, ∀ op ∈ b.ops, op.kind = .cast → v ∉ op.results
  casts : CastsInOrder (c.inp.body.flatMap (·.ops))
  /-- Values are defined before they are used. -/
  entry : ∀ v ∈ c.inp.ptrs, ¬ LiveIn { c.inp with deps := [] } v 0
  last : ∀ (b : Nat) (blk : Block) (i : Nat) (op : Op), c.inp.body[b]? = some blk → blk.ops[i]? = some op → isTerminator op = true →
    i + 1 = blk.ops.length
  /-- No reference is returned twice, and none to an object under construction. -/
  ret : ∀ b i op, At c b i op → op.kind = .ret →
    ((op.operands.map (rootOf c.inp)).filter (c.inp.ptrs.contains ·)).Nodup ∧
    ∀ v ∈ op.operands, rootOf c.inp v ∈ c.inp.ptrs → c.interm (rootOf c.inp v) = false
  /-- No reference is passed twice with a jump, none to an object under construction, and none that is still needed under
  its old name. -/
  jump : ∀ b i op, At c b i op → op.kind = .jump →
    (∃ s blk, op.succs = [s] ∧ c.inp.body[s]? = some blk ∧ op.operands.length = blk.args.length) ∧
    (((moved c b i op).map (rootOf c.inp)).filter (c.inp.ptrs.contains ·)).Nodup ∧
    ∀ v ∈ moved c b i op, rootOf c.inp v ∈ c.inp.ptrs →
      c.interm (rootOf c.inp v) = false ∧ ¬ LiveOut c.inp (rootOf c.inp v) b
  branch : ∀ b i op, At c b i op → (op.kind = .brif ∨ op.kind = .brTable ∨ op.kind = .trap) →
    (∀ v ∈ op.operands, touched c.inp v = []) ∧
    ∀ s ∈ op.succs, ∀ blk, c.inp.body[s]? = some blk → ∀ v ∈ blk.args, c.inp.info.anyref v = false
  succs : ∀ b i op, At c b i op → op.succs ≠ [] → op.kind = .jump ∨ op.kind = .brif ∨ op.kind = .brTable
  tail : ∀ b i op, At c b i op → (op.kind = .returnCall ∨ op.kind = .returnCallIndirect) →
    (∀ v ∈ lent c b i op, touched c.inp v = []) ∧
    ∀ v ∈ takenOver c b i op, rootOf c.inp v ∈ c.inp.ptrs → c.interm (rootOf c.inp v) = false
  contracts : ∀ b i op ct, At c b i op → c.contract b i = some ct →
    (ct.isTail = true ∧ (op.kind = .returnCall ∨ op.kind = .returnCallIndirect)) ∨
    (ct.isTail = false ∧ (op.kind = .call ∨ op.kind = .other))
  interm_local : ∀ v b, c.interm v = true → ¬ LiveIn c.inp v b
  /-- Every value is defined once. -/
  ssa : (c.inp.body.flatMap (fun blk => blk.args ++ blk.ops.flatMap (·.results))).Nodup
  /-- No block goes back to the entry. -/
  first : ∀ blk ∈ c.inp.body, 0 ∉ succsOf blk

/-- The conditions of `Tidy`, likewise. -/
structure PlainTidy (c : Config) : Prop where
  interm : ∀ v, c.interm v = true → ∃ b i op, At c b i op ∧ op.kind ≠ .load ∧ v ∈ op.results
  ends : ∀ blk ∈ c.inp.body, ∃ op, blk.ops.getLast? = some op ∧ isTerminator op = true
  noResults : ∀ b i op, At c b i op → isTerminator op = true → op.results = []
  jumpTypes : ∀ b i op s, At c b i op → op.kind = .jump → target c op = some s →
    ∀ x ∈ op.operands.zip s.args, rootOf c.inp x.1 ∈ c.inp.ptrs → c.inp.info.anyref x.2 = true

end Verif.TempBorrow
