import Mathlib.Data.List.Basic

/-!
Model of `crates/trunk-ir/src/analysis.rs` (the cache of analyses that the passes of a phase
share) and of the way the inliner uses it (`crates/trunk-ir/src/transforms/inline.rs` 333–362).

The program under compilation is any type `Ir`; the analyses are any type `An` of names with a
result type each.  The hash map is an association list; sharing of results (`Arc`) is not
modelled, results are values.
-/

namespace Verif.Analyses

/-- `OpRef`. -/
abbrev OpRef := Nat

/-- analysis.rs 81: `Arc<dyn Any + Send + Sync>`, a value that carries its type. -/
structure AnyRes {An : Type} (Res : An → Type) where
  ty : An
  val : Res ty

variable {Ir An : Type} [DecidableEq An] {Res : An → Type}

/-- `downcast::<A>()`, `none` when the value is of another type. -/
def AnyRes.downcast (x : AnyRes Res) (a : An) : Option (Res a) :=
  if h : x.ty = a then some (h ▸ x.val) else none

/-- analysis.rs 79–82: `AnalysisCache`. -/
abbrev Cache (Res : An → Type) := List ((An × OpRef) × AnyRes Res)

/-- analysis.rs 66–72: `Analysis::compute` of each analysis. -/
abbrev Compute (Ir : Type) (Res : An → Type) := (a : An) → Ir → OpRef → Res a

/-- analysis.rs 86–88: `AnalysisCache::new`. -/
def Cache.new : Cache Res := []

/-- analysis.rs 117–127: `get`.  The answer is `none` where the code panics (`expect`). -/
def Cache.get (compute : Compute Ir Res) (c : Cache Res) (ir : Ir) (a : An) (t : OpRef) :
    Cache Res × Option (Res a) :=
  match c.lookup (a, t) with
  | some x => (c, x.downcast a)
  | none =>
    let x : AnyRes Res := ⟨a, compute a ir t⟩
    (((a, t), x) :: c, x.downcast a)

/-- analysis.rs 130–137: `get_cached`.  `some none` where the code panics. -/
def Cache.getCached (c : Cache Res) (a : An) (t : OpRef) : Option (Option (Res a)) :=
  (c.lookup (a, t)).map (·.downcast a)

/-- analysis.rs 140–142: `invalidate`. -/
def Cache.invalidate (c : Cache Res) (a : An) (t : OpRef) : Cache Res :=
  c.filter (fun e => !decide (e.1 = (a, t)))

/-- analysis.rs 145–147: `invalidate_all`. -/
def Cache.invalidateAll (c : Cache Res) (t : OpRef) : Cache Res :=
  c.filter (fun e => !decide (e.1.2 = t))

/-- analysis.rs 150–152: `clear`. -/
def Cache.clear (_ : Cache Res) : Cache Res := []

/-- analysis.rs 155–157: `len`. -/
def Cache.len (c : Cache Res) : Nat := c.length

/-- What passes do during a phase. -/
inductive Event (Ir An : Type) where
  | edit (f : Ir → Ir)
  | get (a : An) (t : OpRef)
  | invalidate (a : An) (t : OpRef)
  | invalidateAll (t : OpRef)
  | clear

/-- The program, the cache, and which analyses have been computed so far (last first). -/
structure State (Ir : Type) (Res : An → Type) where
  ir : Ir
  cache : Cache Res
  computed : List (An × OpRef)

/-- One event. -/
def State.step (compute : Compute Ir Res) (s : State Ir Res) : Event Ir An → State Ir Res
  | .edit f => { s with ir := f s.ir }
  | .get a t =>
    { s with
      cache := (s.cache.get compute s.ir a t).1
      computed := if (s.cache.lookup (a, t)).isSome then s.computed else (a, t) :: s.computed }
  | .invalidate a t => { s with cache := s.cache.invalidate a t }
  | .invalidateAll t => { s with cache := s.cache.invalidateAll t }
  | .clear => { s with cache := s.cache.clear }

/-- analysis.rs 104–110: `scope`: a phase starts with an empty cache. -/
def run (compute : Compute Ir Res) (ir : Ir) (h : List (Event Ir An)) : State Ir Res :=
  h.foldl (State.step compute) ⟨ir, Cache.new, []⟩

/-- inline.rs 333–362: the loop of `inline_functions_with_config`.  `round` is what the
applicator does in one round with a pattern made from the graph: the new program and the number
of changes.  `none` when `fuel` rounds do not suffice (the code has no such bound) or `get`
panics. -/
def inlineLoop (compute : Compute Ir Res) (graph : An) (m : OpRef)
    (round : Res graph → Ir → Ir × Nat) :
    Nat → Nat → Ir → Cache Res → Option (Ir × Cache Res × Nat)
  | 0, _, _, _ => none
  | fuel + 1, count, ir, c =>
    match c.get compute ir graph m with
    | (_, none) => none
    | (c', some g) =>
      let r := round g ir
      if r.2 = 0 then some (r.1, c', count)
      else inlineLoop compute graph m round fuel (count + r.2) r.1 (c'.invalidate graph m)

end Verif.Analyses
