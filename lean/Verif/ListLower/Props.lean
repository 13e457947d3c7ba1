import Verif.ListLower.Whole

/-!
# C80: lists on the native target

The property: a native program computes with lists what the program says. A list is a chain of nodes; whatever the function
does, it ends the same way before and after list operations are lowered, `head` and `tail` of an empty list abort the program
instead of reading memory that is not there, and no list operation is left for the code generator.
-/

namespace Verif.ListLower

open Verif.ScfToCf

variable {I : Interp}

/-- C80, for functions in which `list.head` and `list.tail` do not read results of such operations that stand later in the
text. Each end of the function is an end of the lowered function, and conversely (so if one does not end, neither does the
other). What is missing: other functions, see `C80_violated`. -/
theorem C80_same_behaviour_partial (N : Names) (c : Ctx) (h : WF c) (hf : formedB N c.blocks) (hD : Distinct N)
    (ho : InOrder N c.blocks) (D : Nodes N I) (L : Lists D) (args : List I.V) (s : I.S) :
    (∀ out s', Behaves I c.blocks args s out s' → ∃ out', SameEnd N out out' ∧ Behaves I (lower N c).blocks args s out' s') ∧
    (∀ out' s', Behaves I (lower N c).blocks args s out' s' → ∃ out, SameEnd N out out' ∧ Behaves I c.blocks args s out s') := by
  obtain ⟨f, b⟩ := loop_behaves L args s _ c (ready_of h hf ho)
  have hf' : formedB N (lowerAll N c).blocks := loop_formed hD _ c hf
  constructor
  · intro out s' hb
    obtain ⟨o', h1, h2⟩ := f out s' hb
    exact ⟨o', h1, (behaves_sub L hf' args s o' s').2 h2⟩
  · intro out' s' hb
    exact b out' s' ((behaves_sub L hf' args s out' s').1 hb)

/-- C80: no list operation is left (same restriction). -/
theorem C80_no_list_operation_partial (N : Names) (c : Ctx) (h : WF c) (hf : formedB N c.blocks) (hD : Distinct N)
    (ho : InOrder N c.blocks) : listlessB N (lower N c).blocks := by
  refine listless_blocks hD _ (loop_left hD _ c (ready_of h hf ho) (found_blocks _ hf ?_))
  intro o hm
  exact List.mem_map.2 ⟨o, List.mem_reverse.2 hm, rfl⟩

/-! ## A concrete meaning -/

inductive Val where
  | null
  | node (a b : Val)
  | bool (b : Bool)
  | int (i : Int)
  deriving DecidableEq, Repr

def Val.field : Val → Bool → Val
  | .node a _, false => a
  | .node _ b, true => b
  | _, _ => .null

def Val.truth : Val → Bool
  | .bool b => b
  | _ => false

def exNames : Names where
  kind := fun n => match n with
    | 0 => some (.empty 0) | 1 => some (.prepend 0) | 2 => some (.isEmpty 0)
    | 3 => some (.observe 0 false) | 4 => some (.observe 0 true) | _ => none
  null := fun _ => 10
  node := fun _ => 11
  field := fun _ f => if f then 13 else 12
  isNull := 14
  unreachable := 15

/-- What the operations do; the world is not touched. -/
def exPlain (n : Nat) (vs : List Val) : Option (List Val) :=
  match n, vs with
  | 0, [] => some [.null]
  | 10, [] => some [.null]
  | 1, [a, b] => some [.node a b]
  | 11, [a, b] => some [.node a b]
  | 2, [v] => some [.bool (decide (v = .null))]
  | 14, [v] => some [.bool (decide (v = .null))]
  | 3, [v] => if v = .null then none else some [v.field false]
  | 4, [v] => if v = .null then none else some [v.field true]
  | 12, [v] => some [v.field false]
  | 13, [v] => some [v.field true]
  | _, _ => none

def exInterp : Interp where
  V := Val
  S := Unit
  plain := fun n vs s => (exPlain n vs).map (fun out => (out, s))
  const := .int
  eq := fun a b => .bool (decide (a = b))
  truth := Val.truth
  undef := .null
  dec := inferInstance
  eq_truth := fun _ _ => rfl

def exNodes : Nodes exNames exInterp where
  null := Val.null
  node := Val.node
  bool := Val.bool
  truth := fun _ => rfl
  node_ne := fun _ _ h => by cases h
  opNull := fun _ _ => rfl
  opNode := fun _ _ _ _ => rfl
  opIsNull := fun _ _ => rfl
  field := Val.field
  opField := fun _ tail _ _ => by cases tail <;> rfl
  fieldElement := fun _ _ => rfl
  fieldRest := fun _ _ => rfl

theorem exKind {n : Nat} {k : ListOp} (h : exNames.kind n = some k) :
    (n = 0 ∧ k = .empty 0) ∨ (n = 1 ∧ k = .prepend 0) ∨ (n = 2 ∧ k = .isEmpty 0) ∨ (n = 3 ∧ k = .observe 0 false) ∨
      (n = 4 ∧ k = .observe 0 true) := by
  simp only [exNames] at h
  split at h <;> simp_all

theorem exLists : Lists exNodes where
  empty := fun n ty s h => by
    rcases exKind h with ⟨rfl, _⟩ | ⟨_, h⟩ | ⟨_, h⟩ | ⟨_, h⟩ | ⟨_, h⟩ <;> first | rfl | cases h
  prepend := fun n ty x xs s h => by
    rcases exKind h with ⟨_, h⟩ | ⟨rfl, _⟩ | ⟨_, h⟩ | ⟨_, h⟩ | ⟨_, h⟩ <;> first | rfl | cases h
  isEmpty := fun n ty xs s h => by
    rcases exKind h with ⟨_, h⟩ | ⟨_, h⟩ | ⟨rfl, _⟩ | ⟨_, h⟩ | ⟨_, h⟩ <;> first | (cases xs <;> rfl) | cases h
  head := fun n ty x xs s h => by
    rcases exKind h with ⟨_, h⟩ | ⟨_, h⟩ | ⟨_, h⟩ | ⟨rfl, _⟩ | ⟨_, h⟩ <;> first | rfl | cases h
  tail := fun n ty x xs s h => by
    rcases exKind h with ⟨_, h⟩ | ⟨_, h⟩ | ⟨_, h⟩ | ⟨_, h⟩ | ⟨rfl, _⟩ <;> first | rfl | cases h
  trap := fun n ty f s h => by
    rcases exKind h with ⟨_, h⟩ | ⟨_, h⟩ | ⟨_, h⟩ | ⟨rfl, _⟩ | ⟨rfl, _⟩ <;> first | rfl | cases h
  prependOther := fun n ty x v s h _ => by
    rcases exKind h with ⟨_, h⟩ | ⟨rfl, _⟩ | ⟨_, h⟩ | ⟨_, h⟩ | ⟨_, h⟩ <;> first | rfl | cases h
  isEmptyOther := fun n ty v s h hv => by
    have : v ≠ Val.null := fun hx => hv [] hx
    rcases exKind h with ⟨_, h⟩ | ⟨_, h⟩ | ⟨rfl, _⟩ | ⟨_, h⟩ | ⟨_, h⟩ <;>
      first | (cases h; done) | (cases v <;> first | rfl | exact absurd rfl this)
  observeOther := fun n ty f v s h hv => by
    have : v ≠ Val.null := fun hx => hv [] hx
    rcases exKind h with ⟨_, h⟩ | ⟨_, h⟩ | ⟨_, h⟩ | ⟨rfl, h⟩ | ⟨rfl, h⟩ <;> cases h <;> cases v <;>
      first | rfl | exact absurd rfl this

theorem exDistinct : Distinct exNames where
  null := fun _ => rfl
  node := fun _ => rfl
  field := fun _ f => by cases f <;> rfl
  isNull := rfl

def exCtx : Ctx where
  blocks := [.mk 0 [0] [
    .plain 2 [0] [1],
    .ite 1 [2] [.mk 1 [] [.plain 0 [] [3], .yield [3]]]
      [.mk 2 [] [.plain 4 [0] [4], .plain 3 [4] [5], .plain 1 [5, 4] [6], .yield [6]]],
    .exit 7 [2]]]
  nextLabel := 3
  nextValue := 7

/-- Decides the rules of the IR for a concrete function. -/
theorem exWF : WF exCtx where
  nonempty := by simp [exCtx]
  labels := by decide
  defs := by decide
  branches := by simp [exCtx, scopesB, scopesO, Op.scopes]
  tidy := by simp [exCtx, tidyB, tidyO, Op.tidy, Op.isTerm]
  placed := by simp [exCtx, placedB, placedO, Op.placed]
  freshLabel := by decide
  freshValue := by decide

theorem exFormed : formedB exNames exCtx.blocks := by
  simp [exCtx, formedB, formedO, Op.formed, exNames]

theorem exInOrder : InOrder exNames exCtx.blocks := by
  unfold InOrder
  decide

/-- `[1, 2, 3]`. -/
def exList : Val := .node (.int 1) (.node (.int 2) (.node (.int 3) .null))

/-- The hypotheses hold for a function with two observations within a branch; with `[1, 2, 3]` it gives `[2, 2, 3]`, with `[1]`
it aborts, both before and after. -/
example : Behaves exInterp exCtx.blocks [exList] () (.exit 7 [.node (.int 2) (.node (.int 2) (.node (.int 3) .null))]) () ∧
    (∃ out', SameEnd exNames (.exit 7 [.node (.int 2) (.node (.int 2) (.node (.int 3) .null))]) out' ∧
      Behaves exInterp (lower exNames exCtx).blocks [exList] () out' ()) ∧
    Behaves exInterp exCtx.blocks [.node (.int 1) .null] () .trap () ∧
    (∃ out', SameEnd exNames .trap out' ∧ Behaves exInterp (lower exNames exCtx).blocks [.node (.int 1) .null] () out' ()) ∧
    listlessB exNames (lower exNames exCtx).blocks := by
  have h1 : Behaves exInterp exCtx.blocks [exList] () (.exit 7 [.node (.int 2) (.node (.int 2) (.node (.int 3) .null))]) () :=
    ⟨0, 3, _, rfl, rfl⟩
  have h2 : Behaves exInterp exCtx.blocks [.node (.int 1) .null] () .trap () := ⟨0, 3, _, rfl, rfl⟩
  exact ⟨h1, (C80_same_behaviour_partial exNames exCtx exWF exFormed exDistinct exInOrder exNodes exLists _ _).1 _ _ h1, h2,
    (C80_same_behaviour_partial exNames exCtx exWF exFormed exDistinct exInOrder exNodes exLists _ _).1 _ _ h2,
    C80_no_list_operation_partial exNames exCtx exWF exFormed exDistinct exInOrder⟩

/-- The lowered function gives exactly that list, and reaches `func.unreachable`. -/
example : Behaves exInterp (lower exNames exCtx).blocks [exList] ()
      (.exit 7 [.node (.int 2) (.node (.int 2) (.node (.int 3) .null))]) () ∧
    Behaves exInterp (lower exNames exCtx).blocks [.node (.int 1) .null] () (.exit 15 []) () :=
  ⟨⟨0, 6, _, rfl, rfl⟩, ⟨0, 6, _, rfl, rfl⟩⟩

/-! ## Observations that read results of later ones -/

/-- `b0(a): br b2`, `b1: t2 = tail t1; return t2`, `b2: t1 = tail a; br b1`. The definition of `t1` dominates its use. -/
def badCtx : Ctx where
  blocks := [.mk 0 [0] [.br [] 2], .mk 1 [] [.plain 4 [1] [2], .exit 7 [2]], .mk 2 [] [.plain 4 [0] [1], .br [] 1]]
  nextLabel := 3
  nextValue := 3

theorem badWF : WF badCtx where
  nonempty := by simp [badCtx]
  labels := by decide
  defs := by decide
  branches := by simp [badCtx, scopesB, scopesO, Op.scopes, Block.label]
  tidy := by simp [badCtx, tidyB, tidyO, Op.tidy, Op.isTerm]
  placed := by simp [badCtx, placedB, placedO, Op.placed]
  freshLabel := by decide
  freshValue := by decide

theorem behaves_det {bs : List Block} {args : List I.V} {s : I.S} {o1 o2 : Out I.V} {s1 s2 : I.S}
    (h1 : Behaves I bs args s o1 s1) (h2 : Behaves I bs args s o2 s2) : o1 = o2 ∧ s1 = s2 := by
  obtain ⟨l, n, e, hl, hr⟩ := h1
  obtain ⟨l', n', e', hl', hr'⟩ := h2
  rw [hl, Option.some.injEq] at hl'
  subst hl'
  have a := run_mono (Nat.le_max_left n n') _ _ _ _ _ _ hr
  have b := run_mono (Nat.le_max_right n n') _ _ _ _ _ _ hr'
  rw [a, Option.some.injEq, Prod.mk.injEq, Prod.mk.injEq] at b
  exact ⟨b.1, b.2.2⟩

/-- C80 is false in general: the list operand noted down before anything was lowered is used after the operation that defined
it is gone. The function above returns `[3]` for `[1, 2, 3]`; lowered, it reads a value that nothing defines (here: aborts). -/
theorem C80_violated : WF badCtx ∧ formedB exNames badCtx.blocks ∧
    Behaves exInterp badCtx.blocks [exList] () (.exit 7 [.node (.int 3) .null]) () ∧
    (∀ out' s', Behaves exInterp (lower exNames badCtx).blocks [exList] () out' s' →
      ¬ SameEnd exNames (.exit 7 [.node (.int 3) .null]) out') := by
  refine ⟨badWF, ?_, ⟨0, 4, _, rfl, rfl⟩, ?_⟩
  · simp [badCtx, formedB, formedO, Op.formed, exNames]
  · intro out' s' h
    have h' : Behaves exInterp (lower exNames badCtx).blocks [exList] () (.exit 15 []) () := ⟨0, 8, _, rfl, rfl⟩
    obtain ⟨rfl, _⟩ := behaves_det h' h
    rintro (h | ⟨h, _⟩)
    · cases h
    · rcases h with h | h <;> cases h

end Verif.ListLower
