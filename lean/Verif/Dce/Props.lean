import Verif.Dce.Proofs
/-!
# C17: dead-code elimination preserves behaviour
-/
namespace Verif.Dce

theorem elim_spec {pure : OpName → Bool} (max : Nat) (rec : Bool) {ext : Value → Nat} {rs : Regions}
    {u : Uses} (hu : ExactUses ext rs u) :
    let r := eliminateDeadCode pure max rec rs u
    (∀ v, r.uses v = ext v + r.scope.count v) ∧ (∀ v, r.uses v ≤ u v) ∧
    ShrunkRegions pure (fun v => r.uses v = 0) rs r.scope ∧
    (r.reachedFixpoint = true → rec = true →
      ¬ OccursRegions (fun o => isDead pure r.uses o = true) r.scope) :=
  loop_spec rec _ ext _ rs u 0 fun v => by rw [hu v, headsRegions_count]

/-! ### A concrete program

`%1 = const; %2 = add %1 %1; %3 = add %2 %2; print %1; return %1`, where `%3` and then `%2` are
dead, and an `if`-like operation with a region that holds a dead operation. Names: 0 `const`,
1 `add`, 2 `print`, 3 `return`, 4 `if`, 5 `div`; 0, 1 and 5 are pure. -/

def exPure (n : OpName) : Bool := n == 0 || n == 1 || n == 5

def exInner : Blocks :=
  .cons [] (.cons (.mk ⟨1, [1, 1], [], [7]⟩ .nil) (.cons (.mk ⟨3, [1], [], []⟩ .nil) .nil)) .nil

def exBody : Ops :=
  .cons (.mk ⟨0, [], [], [1]⟩ .nil)
  (.cons (.mk ⟨1, [1, 1], [], [2]⟩ .nil)
  (.cons (.mk ⟨1, [2, 2], [], [3]⟩ .nil)
  (.cons (.mk ⟨4, [1], [], [4]⟩ (.cons exInner .nil))
  (.cons (.mk ⟨2, [1], [], []⟩ .nil)
  (.cons (.mk ⟨3, [1], [], []⟩ .nil) .nil)))))

def exProg : Regions := .cons (.cons [] exBody .nil) .nil

def exUses : Uses := fun v => exProg.count v

/-- An interpretation: the state is the list of printed values. -/
def exInterp : Interp Nat (List Nat) := fun name vals _ regs s =>
  if name = 0 then .next [5] s
  else if name = 1 then .next [vals.sum] s
  else if name = 2 then .next [] (vals ++ s)
  else if name = 4 then
    match regs with
    | [r] =>
      match r [] s with
      | .leave vs s' => .next vs s'
      | .trap => .trap
      | .stuck => .stuck
      | .outOfFuel => .outOfFuel
    | _ => .stuck
  else if name = 5 then .trap
  else .leave vals s

example : ExactUses (fun _ => 0) exProg exUses := fun v => by
  rw [headsRegions_count]; simp [exUses]

/-- Three operations go (one of them inside the nested region). -/
example : (eliminateDeadCode exPure 0 true exProg exUses).removed = 3 ∧
    (eliminateDeadCode exPure 0 true exProg exUses).reachedFixpoint = true ∧
    (eliminateDeadCode exPure 0 true exProg exUses).scope.heads.map Head.name = [0, 4, 3, 2, 3] := by
  decide

/-! ### Theorems -/

/-- Nothing but pure operations is removed, and no remaining operation of the scope (and none
outside it) uses a result of a removed one. -/
theorem C17_only_dead (pure : OpName → Bool) (max : Nat) (rec : Bool) {ext : Value → Nat}
    {rs : Regions} {u : Uses} (hu : ExactUses ext rs u) :
    let out := (eliminateDeadCode pure max rec rs u).scope
    ShrunkRegions pure (fun v => ¬ UsedIn v out ∧ ext v = 0) rs out := by
  have h := elim_spec (pure := pure) max rec hu
  refine shrunkRegions_mono (fun v hv => ?_) h.2.2.1
  have := h.1 v
  constructor
  · intro hc
    have := (countRegions_pos _).2 hc
    omega
  · omega

/-- Behaviour is preserved, for every interpretation of the operations in which those marked pure
have no effect: running any region of the scope gives the same values and the same final state
(effects included), for any arguments, environment and number of steps, unless the original run was
malformed or, when pure operations may trap (`traps`), trapped. -/
theorem C17_behaviour (pure : OpName → Bool) (max : Nat) (rec : Bool) {ext : Value → Nat}
    {rs : Regions} {u : Uses} (hu : ExactUses ext rs u) {Val S : Type} (traps : Bool)
    (I : Interp Val S) (hP : RespectsPure traps I pure) (hF : FaultsUnobserved traps I)
    {i : Nat} {before after : Blocks} (hb : rs.toList[i]? = some before)
    (ha : (eliminateDeadCode pure max rec rs u).scope.toList[i]? = some after)
    (n : Nat) (env : Env Val) (args : List Val) (s : S) :
    (run I n before 0 env args s).Refines traps (run I n after 0 env args s) := by
  have h := elim_spec (pure := pure) max rec hu
  obtain ⟨h1, h2⟩ := (toList_shrunk h.2.2.1).2 i before after hb ha
  refine run_sim hP hF n before after h1 (fun v hv => ?_) 0 env env (fun _ _ => rfl) args s
  have := h.1 v
  have := h2 v
  omega

/-- The scope keeps its regions. -/
theorem C17_regions_kept (pure : OpName → Bool) (max : Nat) (rec : Bool) {ext : Value → Nat}
    {rs : Regions} {u : Uses} (hu : ExactUses ext rs u) :
    (eliminateDeadCode pure max rec rs u).scope.toList.length = rs.toList.length :=
  (toList_shrunk (elim_spec (pure := pure) max rec hu).2.2.1).1.symm

/-- The example interpretation satisfies the hypotheses, with traps; and without them when `div` is
not counted as pure. -/
example : RespectsPure true exInterp exPure := by
  intro name hp vals succs regs s
  have : name = 0 ∨ name = 1 ∨ name = 5 := by simpa [exPure, or_assoc] using hp
  rcases this with rfl | rfl | rfl
  · exact .inl ⟨[5], rfl⟩
  · exact .inl ⟨[vals.sum], rfl⟩
  · exact .inr ⟨rfl, rfl⟩

example : RespectsPure false exInterp (fun n => n == 0 || n == 1) := by
  intro name hp vals succs regs s
  have : name = 0 ∨ name = 1 := by simpa using hp
  rcases this with rfl | rfl
  · exact .inl ⟨[5], rfl⟩
  · exact .inl ⟨[vals.sum], rfl⟩

example (traps : Bool) : FaultsUnobserved traps exInterp := by
  intro name vals succs r1 r2 s hl hr
  unfold exInterp
  split
  · exact .inl rfl
  split
  · exact .inl rfl
  split
  · exact .inl rfl
  split
  · cases r1 with
    | nil =>
      cases r2 with
      | nil => exact .inl rfl
      | cons b bs => simp at hl
    | cons a as =>
      cases r2 with
      | nil => simp at hl
      | cons b bs =>
        cases as with
        | cons a2 as =>
          cases bs with
          | nil => simp at hl
          | cons b2 bs => exact .inl rfl
        | nil =>
          cases bs with
          | cons b2 bs => simp at hl
          | nil =>
            have := hr 0 a b rfl rfl [] s
            simp only []
            rcases this with h | h | ⟨ht, h⟩
            · rw [h]; exact .inl rfl
            · rw [h]; exact .inr (.inl rfl)
            · rw [h]; exact .inr (.inr ⟨ht, rfl⟩)
  split
  · exact .inl rfl
  · exact .inl rfl

example : run exInterp 5 (.cons [] exBody .nil) 0 (fun _ => none) [] [] = .leave [5] [5] := by rfl

/-- Every impure operation is still there, in the same order and with the same operands, provided
operations marked pure carry no regions (none of the registered ones does). -/
theorem C17_impure_kept (pure : OpName → Bool) (max : Nat) (rec : Bool) {ext : Value → Nat}
    {rs : Regions} {u : Uses} (hu : ExactUses ext rs u)
    (hr : ¬ OccursRegions (fun o => pure o.head.name = true ∧ o.regions ≠ .nil) rs) :
    (eliminateDeadCode pure max rec rs u).scope.heads.filter (fun h => !pure h.name) =
      rs.heads.filter (fun h => !pure h.name) :=
  impureRegions (elim_spec (pure := pure) max rec hu).2.2.1 hr

example : ¬ OccursRegions (fun o => exPure o.head.name = true ∧ o.regions ≠ .nil) exProg := by
  simp [exProg, exBody, exInner, OccursRegions, OccursBlocks, OccursOps, OccursOp, Op.head,
    Op.regions, exPure]

/-- When the pass reports a fixpoint, every pure operation that is left, at any depth, has a result
that is used. -/
theorem C17_fixpoint (pure : OpName → Bool) (max : Nat) {ext : Value → Nat}
    {rs : Regions} {u : Uses} (hu : ExactUses ext rs u)
    (hf : (eliminateDeadCode pure max true rs u).reachedFixpoint = true) :
    let out := (eliminateDeadCode pure max true rs u).scope
    ¬ OccursRegions (fun o => pure o.head.name = true ∧
      ∀ r ∈ o.head.results, ¬ UsedIn r out ∧ ext r = 0) out := by
  have h := elim_spec (pure := pure) max true hu
  intro out hocc
  refine h.2.2.2 hf rfl ?_
  have key : (fun o : Op => isDead pure (eliminateDeadCode pure max true rs u).uses o = true) =
      (fun o => pure o.head.name = true ∧ ∀ r ∈ o.head.results, ¬ UsedIn r out ∧ ext r = 0) := by
    funext o
    obtain ⟨hd, rs'⟩ := o
    apply propext
    rw [isDead_iff]
    refine and_congr_right fun _ => forall_congr' fun r => imp_congr_right fun _ => ?_
    rw [h.1 r, UsedIn, ← countRegions_pos]
    show _ ↔ ¬ 0 < Regions.count r (eliminateDeadCode pure max true rs u).scope ∧ _
    omega
  rw [key]
  exact hocc

/-- A dead division that traps is removed: the original program stops before printing, the result
prints. This is why `C17_behaviour` excludes traps of pure operations. -/
theorem C17_dead_trap_removed :
    let prog : Regions := .cons (.cons [] (.cons (.mk ⟨0, [], [], [1]⟩ .nil)
      (.cons (.mk ⟨5, [1, 1], [], [2]⟩ .nil) (.cons (.mk ⟨2, [1], [], []⟩ .nil)
      (.cons (.mk ⟨3, [1], [], []⟩ .nil) .nil)))) .nil) .nil
    let out := (eliminateDeadCode exPure 0 true prog (fun v => prog.count v)).scope
    (∃ bs, prog.toList = [bs] ∧ run exInterp 5 bs 0 (fun _ => none) [] [] = .trap) ∧
    (∃ bs, out.toList = [bs] ∧ run exInterp 5 bs 0 (fun _ => none) [] [] = .leave [5] [5]) :=
  ⟨⟨_, rfl, rfl⟩, ⟨_, rfl, rfl⟩⟩

end Verif.Dce
