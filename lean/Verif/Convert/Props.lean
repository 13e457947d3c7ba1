import Verif.Convert.Proofs

/-!
# Dialect conversion

C99: legality follows the rules registered; a conversion that succeeds leaves nothing illegal, and one
that fails names exactly the operations that are left; patterns are applied until none applies;
what is legal is left alone.
-/
namespace Verif.Convert
open Spec

/-! ## An example -/

/-- The source dialect is illegal, the target dialect legal, and functions of dialect `ext` are left
alone. -/
def rules : List Rule :=
  [.illegalDialect "src", .legalDialect "dst", .legalOp ("ext", "func"), .recursiveLegalOp ("ext", "func"),
    .dynamicOp ("src", "maybe") fun op => if op.data = 0 then .legal else .defer]

/-- `src.step` counts down, and then becomes `dst.done`. -/
def stepPattern : Pattern
  | .mk d n x body =>
    if d = "src" ∧ n = "step" then
      match x with
      | 0 => some { fate := .replace (.mk "dst" "done" 0 body) }
      | x + 1 => some { fate := .replace (.mk "src" "step" x body) }
    else none

def chain (n : Nat) : List Op :=
  [.mk "core" "module" 0 [.mk "src" "step" n [.mk "src" "step" 0 []]],
    .mk "ext" "func" 0 [.mk "src" "step" n []]]

def target : Target := (build rules).getD {}

theorem build_rules : build rules = some target := rfl

/-! ## Rules -/

/-- **C99** (rules). The legality of an operation is what the rules say, whatever order they were
registered in. -/
theorem C99_legality {rules : List Rule} {t : Target} (hb : build rules = some t) (op : Op) (c : Check) :
    t.isLegal op = c ↔ Legality rules op c :=
  (legality_iff (rep_build hb) op c).symm

/-- **C99** (rules). The order of registration does not matter. -/
theorem C99_order {rules rules' : List Rule} {t t' : Target} (hb : build rules = some t)
    (hb' : build rules' = some t') (hp : List.Perm rules rules') (op : Op) :
    t.isLegal op = t'.isLegal op ∧ t.isRecursivelyLegal op = t'.isRecursivelyLegal op := by
  have h := rep_build hb
  have h' := rep_congr (fun _ => hp.symm.mem_iff) (rep_build hb')
  have e : t.isLegal op = t'.isLegal op := (legality_iff h op _).1 ((legality_iff h' op _).2 rfl)
  refine ⟨e, ?_⟩
  rw [Bool.eq_iff_iff, ← shields_iff h, ← shields_iff h']

/-- **C99** (rules). An operation that shields what is nested in it is legal itself. -/
theorem C99_shieldsLegal {rules : List Rule} {op : Op} (hs : Shields rules op) :
    Legality rules op .legal := shields_legal hs

example : ∃ t, build rules = some t ∧ t.isLegal (.mk "src" "maybe" 0 []) = .legal ∧
    t.isLegal (.mk "src" "maybe" 1 []) = .illegal ∧ t.isLegal (.mk "core" "x" 1 []) = .unknown :=
  ⟨_, rfl, by decide, by decide, by decide⟩

/-- A rule may not contradict another. -/
example : build [.legalDialect "a", .illegalDialect "a"] = none := rfl

/-! ## Success and failure -/

/-- **C99** (success). A conversion that succeeds leaves no operation that does not meet its aim. -/
theorem C99_success {rules : List Rule} {t : Target} (hb : build rules = some t) {ps : List Pattern}
    {scope : Scope} {n : Nat} {mode : Mode} {ops : List Op} {r : Result}
    (h : applyConversion t ps scope n mode ops = .ok r) : ∀ op, Within rules r.ops op → ¬ Bad rules mode op := by
  intro op hw hbad
  have hr := rep_build hb
  simp only [applyConversion] at h
  split at h
  · next he =>
    cases h
    have := (verifyOps_iff hr mode _ op (t.isLegal op)).2
      ⟨hw, hbad, (legality_iff hr op _).2 rfl⟩
    rw [List.isEmpty_iff.1 he] at this
    simp at this
  · cases h

/-- **C99** (failure). A conversion that fails names exactly the operations left that do not meet its
aim, with their legality; there is at least one. -/
theorem C99_failure {rules : List Rule} {t : Target} (hb : build rules = some t) {ps : List Pattern}
    {scope : Scope} {n : Nat} {mode : Mode} {ops : List Op} {bad : List (Op × Check)}
    (h : applyConversion t ps scope n mode ops = .error bad) :
    bad ≠ [] ∧ ∀ op c, (op, c) ∈ bad ↔
      Within rules (applyPartial t ps scope n ops).ops op ∧ Bad rules mode op ∧ Legality rules op c := by
  have hr := rep_build hb
  simp only [applyConversion] at h
  split at h
  · cases h
  · next he =>
    cases h
    exact ⟨fun e => he (by rw [e]; rfl), fun op c => verifyOps_iff hr mode _ op c⟩

example : ∃ r, applyConversion target [stepPattern] .module 10 .partialMode (chain 3) = .ok r ∧
    r.iterations = 5 ∧ r.totalChanges = 5 ∧ r.reachedFixpoint = true := by
  refine ⟨applyPartial target [stepPattern] .module 10 (chain 3), ?_, by decide +kernel,
    by decide +kernel, by decide +kernel⟩
  have : (verifyOps target .partialMode (applyPartial target [stepPattern] .module 10 (chain 3)).ops).isEmpty
      = true := by decide +kernel
  simp [applyConversion, this]

example : ∃ bad, applyConversion target [] .module 10 .partialMode (chain 3) = .error bad ∧
    bad.length = 2 := by
  refine ⟨verifyOps target .partialMode (applyPartial target [] .module 10 (chain 3)).ops, ?_,
    by decide +kernel⟩
  have : (verifyOps target .partialMode (applyPartial target [] .module 10 (chain 3)).ops).isEmpty
      = false := by decide +kernel
  simp [applyConversion, this]

/-! ## Patterns -/

/-- **C99** (patterns). When the driver reports a fixpoint, no pattern has anything left to do. What
is missing: it does not always get there, see `C99_rounds_partial` and `C99_rounds_violated`. -/
theorem C99_fixpoint_partial {rules : List Rule} {t : Target} (hb : build rules = some t)
    (ps : List Pattern) (scope : Scope) (n : Nat) (ops : List Op)
    (h : (applyPartial t ps scope n ops).reachedFixpoint = true) :
    ∀ op, Within rules (applyPartial t ps scope n ops).ops op → ¬ Pending rules ps op :=
  loop_fixpoint (rep_build hb) ps scope n 0 0 ops h

/-- **C99** (patterns). When it does not, every round it was allowed changed something. -/
theorem C99_unfinished {t : Target} (ps : List Pattern) (scope : Scope) (n : Nat) (ops : List Op)
    (h : (applyPartial t ps scope n ops).reachedFixpoint = false) :
    (applyPartial t ps scope n ops).iterations = n ∧ n ≤ (applyPartial t ps scope n ops).totalChanges := by
  have := loop_unfinished (t := t) ps scope n 0 0 ops h
  simpa [applyPartial] using this

/-- **C99** (patterns). If the patterns have something to do for every operation that does not meet the
aim of the conversion, then a conversion that reached its fixpoint succeeds. -/
theorem C99_complete {rules : List Rule} {t : Target} (hb : build rules = some t) {ps : List Pattern}
    {scope : Scope} {n : Nat} {mode : Mode} {ops : List Op}
    (hc : ∀ op, Bad rules mode op → ∃ p ∈ ps, Applies p op)
    (h : (applyPartial t ps scope n ops).reachedFixpoint = true) :
    applyConversion t ps scope n mode ops = .ok (applyPartial t ps scope n ops) := by
  have hr := rep_build hb
  have : verifyOps t mode (applyPartial t ps scope n ops).ops = [] := by
    rw [List.eq_nil_iff_forall_not_mem]
    rintro ⟨op, c⟩ hm
    obtain ⟨hw, hbad, _⟩ := (verifyOps_iff hr mode _ op c).1 hm
    refine C99_fixpoint_partial hb ps scope n ops h op hw ⟨?_, hc op hbad⟩
    intro hl
    cases mode with
    | partialMode => exact absurd (legality_unique hr hl hbad) (by decide)
    | full => exact hbad hl
  simp [applyConversion, this]

/-- **C99** (patterns). The driver reaches its fixpoint if legality and patterns look only at the
operation itself, patterns make progress, and there is less to do than the rounds allowed. -/
theorem C99_rounds_partial {rules : List Rule} {t : Target} (hb : build rules = some t)
    {ps : List Pattern} {rank : String → String → Nat → Nat} (hh : HeadOnly rules ps)
    (hp : Progress rules ps rank) (scope : Scope) {n k : Nat} {ops : List Op} (hk : k < n)
    (hbelow : Below rules ps rank k ops) :
    (applyPartial t ps scope n ops).reachedFixpoint = true :=
  loop_reaches (rep_build hb) hh hp scope n k 0 0 ops hk hbelow

/-- **C99** (patterns). Where nothing may be done, nothing is done. -/
theorem C99_idle {rules : List Rule} {t : Target} (hb : build rules = some t) (ps : List Pattern)
    (scope : Scope) (n : Nat) (ops : List Op)
    (h : ∀ op, Within rules ops op → Legality rules op .legal ∨ ∀ p ∈ ps, ¬ Applies p op) :
    applyPartial t ps scope (n + 1) ops = ⟨ops, 1, 0, true⟩ := by
  have i := runOne_idle (rep_build hb) ps scope ops
  have h0 : (runOne t ps scope ops).2 = 0 := by
    refine i.1.2 fun o hw hp => ?_
    rcases h o hw with hl | hl
    · exact hp.1 hl
    · obtain ⟨p, hpm, ha⟩ := hp.2
      exact hl p hpm ha
  simp [applyPartial, loop, h0, i.2 h0]

/-- **C99** (patterns). Operations that shield what is nested in them keep their place and contents,
whatever the patterns do. -/
theorem C99_shielded {rules : List Rule} {t : Target} (hb : build rules = some t) (ps : List Pattern)
    (scope : Scope) (n : Nat) {ops kept : List Op} (hk : ∀ op ∈ kept, Shields rules op)
    (hs : kept.Sublist ops) : kept.Sublist (applyPartial t ps scope n ops).ops :=
  loop_keeps ps scope (fun o ho => (shields_iff (rep_build hb) o).1 (hk o ho)) n 0 0 ops hs

/-! ## The conditions can be met, and the limit on rounds shows -/

theorem stepPattern_applies {op : Op} : Applies stepPattern op ↔ op.dialect = "src" ∧ op.name = "step" := by
  cases op with
  | mk d n x b =>
    simp only [Applies, stepPattern, Op.dialect, Op.name]
    constructor
    · rintro ⟨rw, h, _⟩
      split at h
      · assumption
      · cases h
    · intro h
      rw [if_pos h]
      cases x <;> exact ⟨_, rfl, .inr (.inl (by simp))⟩

def stepRules : List Rule := [.legalDialect "dst", .legalOp ("ext", "func"), .recursiveLegalOp ("ext", "func")]

theorem step_headOnly : HeadOnly stepRules [stepPattern] where
  legality op b c := by
    have h := rep_build (rules := stepRules) rfl
    rw [legality_iff h, legality_iff h]
    exact Iff.rfl
  shields op b := by
    have h := rep_build (rules := stepRules) rfl
    rw [shields_iff h, shields_iff h]
    exact Iff.rfl
  applies p hp op b := by
    simp only [List.mem_singleton] at hp
    subst hp
    rw [stepPattern_applies, stepPattern_applies]
    exact Iff.rfl

def stepRank : String → String → Nat → Nat := fun _ _ x => x

theorem dst_legal (n : String) (x : Nat) (b : List Op) : Legality stepRules (.mk "dst" n x b) .legal :=
  (legality_iff (rep_build (rules := stepRules) rfl) _ _).2 (by
    by_cases h : n = "func" <;> simp [Target.isLegal, ask, Op.key, Op.dialect, Op.name])

theorem step_progress : Progress stepRules [stepPattern] stepRank := by
  intro p hp op rw h _ k hk hb
  simp only [List.mem_singleton] at hp
  subst hp
  have hns : ∀ d n x b, d ≠ "ext" → ¬ Shields stepRules (.mk d n x b) := by
    intro d n x b hd hs
    rcases hs with ⟨hm, _⟩ | ⟨hm, _⟩ <;> simp [stepRules, Op.key, Op.dialect, hd] at hm
  cases op with
  | mk d n x b =>
    simp only [stepPattern] at h
    split at h
    · next hdn =>
      obtain ⟨rfl, rfl⟩ := hdn
      cases x with
      | zero =>
        cases h
        refine ⟨?_, below_nil⟩
        intro o hw hpe
        simp only [Rewrite.inPlace, List.nil_append] at hw
        rcases within_single.1 hw with rfl | ⟨_, hi⟩
        · exact absurd (dst_legal _ _ _) hpe.1
        · exact hb o hi hpe
      | succ x =>
        cases h
        refine ⟨?_, below_nil⟩
        intro o hw hpe
        simp only [Rewrite.inPlace, List.nil_append] at hw
        rcases within_single.1 hw with rfl | ⟨_, hi⟩
        · simp only [stepRank, Op.data] at hk ⊢; omega
        · exact hb o hi hpe
    · cases h

example : ∃ t, build stepRules = some t ∧
    (applyPartial t [stepPattern] .module defaultMaxIterations (chain 8)).reachedFixpoint = true := by
  refine ⟨_, rfl, C99_rounds_partial rfl step_headOnly step_progress .module (k := 9) (by decide) ?_⟩
  intro o hw hpe
  have aux : ∀ d n x b o, Within stepRules [.mk d n x b] o → o = .mk d n x b ∨ Within stepRules b o := by
    intro d n x b o h
    rcases within_single.1 h with h | ⟨_, h⟩
    · exact .inl h
    · exact .inr h
  unfold chain at hw
  rcases within_cons.1 hw with hw | hw
  · rcases aux _ _ _ _ _ hw with rfl | hw
    · obtain ⟨_, p, hp, ha⟩ := hpe
      simp only [List.mem_singleton] at hp
      subst hp
      rw [stepPattern_applies] at ha
      simp [Op.dialect] at ha
    · rcases aux _ _ _ _ _ hw with rfl | hw
      · simp [stepRank, Op.data]
      · rcases aux _ _ _ _ _ hw with rfl | hw
        · simp [stepRank, Op.data]
        · exact absurd hw within_nil
  · rcases aux _ _ _ _ _ hw with rfl | hw
    · obtain ⟨_, p, hp, ha⟩ := hpe
      simp only [List.mem_singleton] at hp
      subst hp
      rw [stepPattern_applies] at ha
      simp [Op.dialect] at ha
    · rcases aux _ _ _ _ _ hw with rfl | hw
      · simp [stepRank, Op.data]
      · exact absurd hw within_nil

example : ∃ t, build rules = some t ∧ applyPartial t [stepPattern] .module 1
    [.mk "ext" "func" 0 [.mk "src" "step" 3 []]] = ⟨[.mk "ext" "func" 0 [.mk "src" "step" 3 []]], 1, 0, true⟩ :=
  ⟨_, rfl, rfl⟩

def stepTarget : Target := (build stepRules).getD {}

theorem step_round (x : Nat) : runOne stepTarget [stepPattern] .module [.mk "src" "step" (x + 1) []] =
    ([.mk "src" "step" x []], 1) := by
  have h1 : stepTarget.isRecursivelyLegal (.mk "src" "step" (x + 1) []) = false := rfl
  have h2 : stepTarget.isLegal (.mk "src" "step" (x + 1) []) = .unknown := rfl
  simp [runOne, visitOps, visitOp, visitHere, h1, h2, Op.withBody, Op.dialect, Op.name, Op.data,
    firstMatch, stepPattern, Rewrite.hasMutations, Rewrite.inPlace]

theorem step_rounds : ∀ n x it ch, loop stepTarget [stepPattern] .module n it ch
    [.mk "src" "step" (x + n) []] = ⟨[.mk "src" "step" x []], it + n, ch + n, false⟩
  | 0, x, it, ch => rfl
  | n + 1, x, it, ch => by
    have := step_rounds n x (it + 1) (ch + 1)
    simp only [loop, ← Nat.add_assoc, step_round]
    simp only [Nat.one_ne_zero, if_false, this, Result.mk.injEq, true_and, and_true]
    omega

/-- **C99** is false of patterns that need more than ten rounds: the conversion succeeds although a
pattern still has something to do. -/
theorem C99_rounds_violated : ∃ t ops r op, build stepRules = some t ∧
    applyConversion t [stepPattern] .module defaultMaxIterations .partialMode ops = .ok r ∧
    Within stepRules r.ops op ∧ Pending stepRules [stepPattern] op := by
  refine ⟨stepTarget, [.mk "src" "step" 12 []], ⟨[.mk "src" "step" 2 []], 10, 10, false⟩,
    .mk "src" "step" 2 [], rfl, ?_, .here (by simp), ?_⟩
  · have h1 : applyPartial stepTarget [stepPattern] .module defaultMaxIterations [.mk "src" "step" 12 []]
        = ⟨[.mk "src" "step" 2 []], 10, 10, false⟩ := step_rounds 10 2 0 0
    have h2 : (verifyOps stepTarget .partialMode [.mk "src" "step" 2 []]).isEmpty = true := by
      decide +kernel
    simp [applyConversion, h1, h2]
  · refine ⟨?_, stepPattern, by simp, stepPattern_applies.2 ⟨rfl, rfl⟩⟩
    intro hl
    have := (C99_legality (rules := stepRules) (t := stepTarget) rfl _ _).2 hl
    exact absurd this (by decide)

end Verif.Convert
