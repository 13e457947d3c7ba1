import Mathlib.Data.Fintype.Card
import Mathlib.Data.Finset.Card
/-!
# Dominance analysis

Model of `crates/trunk-ir/src/dominance.rs` 20-152.

Simplifications:
* the blocks of the region are numbered by their position in the region (so they are distinct);
  a successor that is not a block of the region is `none`;
* hash sets are finite sets and hash maps are functions to `Option`; indexing a missing key is a
  panic (`none` in the result of the sweep);
* the outer `while changed` loop takes a step bound; `Props` shows that a bound always exists and
  does not influence the result.
-/
namespace Verif.Dominance

/-- A region: for each block, the successors of its last operation. -/
structure Cfg (n : Nat) where
  succs : Fin n → List (Option (Fin n))

variable {n : Nat}

/-- `blocks.first()`, dominance.rs 25. -/
def entry (n : Nat) : Option (Fin n) := if h : 0 < n then some ⟨0, h⟩ else none

/-- All blocks in region order. -/
def blocks (n : Nat) : List (Fin n) := List.finRange n

/-- Successors inside the region (the filter of dominance.rs 62-66). -/
def Cfg.inSuccs (g : Cfg n) (b : Fin n) : List (Fin n) := (g.succs b).filterMap id

/-- The predecessor lists built at dominance.rs 34-51. -/
def Cfg.preds (g : Cfg n) (b : Fin n) : List (Fin n) :=
  (blocks n).flatMap fun x => (g.succs x).filterMap fun s => if s = some b then some x else none

/-- `valid` after the predecessor loop, dominance.rs 32-45. -/
def Cfg.valid0 (g : Cfg n) : Bool := (blocks n).all fun b => (g.succs b).all fun s => s.isSome

/-- The depth-first search, dominance.rs 53-70.  The head of the list is the top of the stack. -/
def dfs (g : Cfg n) (pending : List (Fin n)) (reachable : Finset (Fin n)) : Finset (Fin n) :=
  match pending with
  | [] => reachable
  | b :: rest =>
    if b ∈ reachable then dfs g rest reachable
    else dfs g ((g.inSuccs b).reverse ++ rest) (insert b reachable)
termination_by ((Finset.univ \ reachable).card, pending.length)
decreasing_by
  · apply Prod.Lex.right; simp
  · apply Prod.Lex.left
    apply Finset.card_lt_card
    rw [Finset.ssubset_iff_of_subset]
    · exact ⟨b, by simp_all, by simp⟩
    · intro x; simp

/-- `reachable`, dominance.rs 53-70. -/
def Cfg.reachable (g : Cfg n) : Finset (Fin n) :=
  match entry n with
  | none => ∅
  | some e => dfs g [e] ∅

/-- Contents of the `dominators` map. -/
abbrev DomMap (n : Nat) := Fin n → Option (Finset (Fin n))

/-- Initial contents, dominance.rs 72-81. -/
def Cfg.initDom (g : Cfg n) (e : Fin n) : DomMap n := fun b =>
  if b ∈ g.reachable then some (if b = e then {e} else g.reachable) else none

/-- State of the fixpoint loop. -/
structure St (n : Nat) where
  dom : DomMap n
  valid : Bool
  changed : Bool

/-- The intersection over the remaining predecessors, dominance.rs 101-103. -/
def interRest (dom : DomMap n) (next : Finset (Fin n)) : List (Fin n) → Option (Finset (Fin n))
  | [] => some next
  | p :: ps => do
    let d ← dom p
    interRest dom (next.filter (· ∈ d)) ps

/-- Body of the `for` loop, dominance.rs 86-110.  `none` is a panic (missing map key). -/
def Cfg.visit (g : Cfg n) (e : Fin n) (s : St n) (b : Fin n) : Option (St n) :=
  if b = e ∨ b ∉ g.reachable then some s
  else
    match (g.preds b).filter (· ∈ g.reachable) with
    | [] => some { s with valid := false }
    | first :: rest => do
      let d ← s.dom first
      let next ← interRest s.dom d rest
      let next := insert b next
      let old ← s.dom b
      if next ≠ old then
        some { s with dom := fun c => if c = b then some next else s.dom c, changed := true }
      else some s

/-- One round of the `while` body, dominance.rs 84-111. -/
def Cfg.sweep (g : Cfg n) (e : Fin n) (s : St n) : Option (St n) :=
  (blocks n).foldlM (g.visit e) { s with changed := false }

/-- Outcome of the loop. -/
inductive Outcome (α : Type) where
  | done (a : α)
  | panic
  | outOfSteps

/-- `while changed`, dominance.rs 83-112, for at most `fuel` rounds. -/
def Cfg.loop (g : Cfg n) (e : Fin n) : Nat → St n → Outcome (St n)
  | 0, _ => .outOfSteps
  | fuel + 1, s =>
    match g.sweep e s with
    | none => .panic
    | some s' => if s'.changed then g.loop e fuel s' else .done s'

/-- `struct DominatorTree`, dominance.rs 9-18 (the fields used by queries). -/
structure Tree (n : Nat) where
  reachable : Finset (Fin n)
  dominators : DomMap n
  valid : Bool

/-- `DominatorTree::compute`, dominance.rs 22-124. -/
def Cfg.compute (g : Cfg n) (fuel : Nat) : Outcome (Tree n) :=
  match entry n with
  | none => .done ⟨g.reachable, fun _ => none, g.valid0⟩
  | some e =>
    match g.loop e fuel ⟨g.initDom e, g.valid0, true⟩ with
    | .done s => .done ⟨g.reachable, s.dom, s.valid⟩
    | .panic => .panic
    | .outOfSteps => .outOfSteps

/-- `is_reachable`, dominance.rs 138-140. -/
def Tree.isReachable (t : Tree n) (b : Fin n) : Bool := decide (b ∈ t.reachable)

/-- `dominates`, dominance.rs 142-146. -/
def Tree.dominates (t : Tree n) (a b : Fin n) : Bool :=
  match t.dominators b with
  | some s => decide (a ∈ s)
  | none => false

end Verif.Dominance
