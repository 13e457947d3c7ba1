import Verif.Convert.Spec

/-! Helper lemmas for dialect conversion. -/
namespace Verif.Convert
open Spec

/-! ## Rules -/

/-- A target holds exactly the rules that were registered. -/
structure Rep (t : Target) (rules : List Rule) : Prop where
  ld : ∀ d, d ∈ t.legalDialects ↔ .legalDialect d ∈ rules
  id : ∀ d, d ∈ t.illegalDialects ↔ .illegalDialect d ∈ rules
  lo : ∀ k, k ∈ t.legalOps ↔ .legalOp k ∈ rules
  io : ∀ k, k ∈ t.illegalOps ↔ .illegalOp k ∈ rules
  rl : ∀ k, k ∈ t.recursiveLegalOps ↔ .recursiveLegalOp k ∈ rules
  rd : ∀ k, k ∈ t.recursiveDynamicOps ↔ .recursiveDynamicOp k ∈ rules
  dop : ∀ k f, t.dynamicOps.lookup k = some f ↔ .dynamicOp k f ∈ rules
  dd : ∀ k f, t.dynamicDialects.lookup k = some f ↔ .dynamicDialect k f ∈ rules
  du : ∀ f, t.dynamicUnknown = some f ↔ .dynamicUnknown f ∈ rules
  disjD : ∀ d, d ∈ t.legalDialects → d ∈ t.illegalDialects → False
  disjO : ∀ k, k ∈ t.legalOps → k ∈ t.illegalOps → False

theorem rep_new : Rep {} [] := by
  constructor <;> simp

theorem lookup_add {α β} [BEq α] [LawfulBEq α] {l : List (α × β)} {k : α} {f : β}
    (h : l.lookup k = none) (k' : α) (f' : β) :
    ((k, f) :: l).lookup k' = some f' ↔ (k' = k ∧ f' = f) ∨ l.lookup k' = some f' := by
  by_cases e : k' = k
  · subst e
    simp only [List.lookup_cons, BEq.rfl, Option.some.injEq, true_and, h, reduceCtorEq, or_false]
    exact eq_comm
  · have : (k' == k) = false := by simpa using e
    simp [List.lookup_cons, this, e]

theorem rep_add {t t' : Target} {rules : List Rule} {r : Rule} (h : Rep t rules)
    (ha : t.add r = some t') : Rep t' (r :: rules) := by
  cases r <;> simp only [Target.add] at ha <;> split at ha <;> try (cases ha; done)
  case legalDialect.isFalse d hn =>
    cases ha
    simp only [Bool.or_eq_true, List.contains_iff_mem, not_or] at hn
    refine ⟨?_, ?_, ?_, ?_, ?_, ?_, ?_, ?_, ?_, ?_, h.disjO⟩
    · intro x; simp [h.ld]
    · intro x; simp [h.id]
    · intro x; simp [h.lo]
    · intro x; simp [h.io]
    · intro x; simp [h.rl]
    · intro x; simp [h.rd]
    · intro x f; simp [h.dop]
    · intro x f; simp [h.dd]
    · intro f; simp [h.du]
    · intro x h1 h2
      rcases List.mem_cons.1 h1 with rfl | h1
      · exact hn.1 h2
      · exact h.disjD x h1 h2
  case illegalDialect.isFalse d hn =>
    cases ha
    simp only [Bool.or_eq_true, List.contains_iff_mem, not_or] at hn
    refine ⟨?_, ?_, ?_, ?_, ?_, ?_, ?_, ?_, ?_, ?_, h.disjO⟩
    · intro x; simp [h.ld]
    · intro x; simp [h.id]
    · intro x; simp [h.lo]
    · intro x; simp [h.io]
    · intro x; simp [h.rl]
    · intro x; simp [h.rd]
    · intro x f; simp [h.dop]
    · intro x f; simp [h.dd]
    · intro f; simp [h.du]
    · intro x h1 h2
      rcases List.mem_cons.1 h2 with rfl | h2
      · exact hn.1 h1
      · exact h.disjD x h1 h2
  case legalOp.isFalse d hn =>
    cases ha
    simp only [Bool.or_eq_true, List.contains_iff_mem, not_or] at hn
    refine ⟨?_, ?_, ?_, ?_, ?_, ?_, ?_, ?_, ?_, h.disjD, ?_⟩
    · intro x; simp [h.ld]
    · intro x; simp [h.id]
    · intro x; simp [h.lo]
    · intro x; simp [h.io]
    · intro x; simp [h.rl]
    · intro x; simp [h.rd]
    · intro x f; simp [h.dop]
    · intro x f; simp [h.dd]
    · intro f; simp [h.du]
    · intro x h1 h2
      rcases List.mem_cons.1 h1 with rfl | h1
      · exact hn.1 h2
      · exact h.disjO x h1 h2
  case illegalOp.isFalse d hn =>
    cases ha
    simp only [Bool.or_eq_true, List.contains_iff_mem, not_or] at hn
    refine ⟨?_, ?_, ?_, ?_, ?_, ?_, ?_, ?_, ?_, h.disjD, ?_⟩
    · intro x; simp [h.ld]
    · intro x; simp [h.id]
    · intro x; simp [h.lo]
    · intro x; simp [h.io]
    · intro x; simp [h.rl]
    · intro x; simp [h.rd]
    · intro x f; simp [h.dop]
    · intro x f; simp [h.dd]
    · intro f; simp [h.du]
    · intro x h1 h2
      rcases List.mem_cons.1 h2 with rfl | h2
      · exact hn.1 h1
      · exact h.disjO x h1 h2
  case dynamicOp.isFalse k f hn =>
    cases ha
    have hn' : t.dynamicOps.lookup k = none := Option.not_isSome_iff_eq_none.1 hn
    refine ⟨?_, ?_, ?_, ?_, ?_, ?_, ?_, ?_, ?_, h.disjD, h.disjO⟩
    · intro x; simp [h.ld]
    · intro x; simp [h.id]
    · intro x; simp [h.lo]
    · intro x; simp [h.io]
    · intro x; simp [h.rl]
    · intro x; simp [h.rd]
    · intro x g; rw [lookup_add hn']; simp [h.dop]
    · intro x g; simp [h.dd]
    · intro g; simp [h.du]
  case dynamicDialect.isFalse k f hn =>
    cases ha
    have hn' : t.dynamicDialects.lookup k = none := Option.not_isSome_iff_eq_none.1 hn
    refine ⟨?_, ?_, ?_, ?_, ?_, ?_, ?_, ?_, ?_, h.disjD, h.disjO⟩
    · intro x; simp [h.ld]
    · intro x; simp [h.id]
    · intro x; simp [h.lo]
    · intro x; simp [h.io]
    · intro x; simp [h.rl]
    · intro x; simp [h.rd]
    · intro x g; simp [h.dop]
    · intro x g; rw [lookup_add hn']; simp [h.dd]
    · intro g; simp [h.du]
  case dynamicUnknown.isFalse f hn =>
    cases ha
    have hn' : t.dynamicUnknown = none := by simpa using hn
    refine ⟨?_, ?_, ?_, ?_, ?_, ?_, ?_, ?_, ?_, h.disjD, h.disjO⟩
    · intro x; simp [h.ld]
    · intro x; simp [h.id]
    · intro x; simp [h.lo]
    · intro x; simp [h.io]
    · intro x; simp [h.rl]
    · intro x; simp [h.rd]
    · intro x g; simp [h.dop]
    · intro x g; simp [h.dd]
    · intro g
      have := h.du g
      rw [hn'] at this
      simp only [reduceCtorEq, false_iff] at this
      simp [this, eq_comm]
  all_goals
    cases ha
    refine ⟨?_, ?_, ?_, ?_, ?_, ?_, ?_, ?_, ?_, h.disjD, h.disjO⟩
    · intro x; simp [h.ld]
    · intro x; simp [h.id]
    · intro x; simp [h.lo]
    · intro x; simp [h.io]
    · intro x; simp [h.rl]
    · intro x; simp [h.rd]
    · intro x g; simp [h.dop]
    · intro x g; simp [h.dd]
    · intro g; simp [h.du]

theorem rep_congr {t : Target} {a b : List Rule} (hab : ∀ r, r ∈ a ↔ r ∈ b) (h : Rep t a) : Rep t b :=
  ⟨fun d => (h.ld d).trans (hab _), fun d => (h.id d).trans (hab _), fun d => (h.lo d).trans (hab _),
    fun d => (h.io d).trans (hab _), fun d => (h.rl d).trans (hab _), fun d => (h.rd d).trans (hab _),
    fun d f => (h.dop d f).trans (hab _), fun d f => (h.dd d f).trans (hab _),
    fun f => (h.du f).trans (hab _), h.disjD, h.disjO⟩

theorem rep_addAll : ∀ {rs : List Rule} {t t' : Target} {rules : List Rule}, Rep t rules →
    t.addAll rs = some t' → Rep t' (rs.reverse ++ rules)
  | [], _, _, _, h, e => by cases e; exact h
  | r :: rs, t, t', rules, h, e => by
    simp only [Target.addAll] at e
    cases ht : t.add r with
    | none => simp [ht] at e
    | some t1 =>
      simp only [ht, Option.bind_some] at e
      have := rep_addAll (rep_add h ht) e
      simpa using this

theorem rep_build {rules : List Rule} {t : Target} (h : build rules = some t) : Rep t rules :=
  rep_congr (by intro r; simp) (rep_addAll rep_new h)

/-! ## Legality -/

def level (t : Target) (op : Op) : Nat → Option Check
  | 0 => ask (t.dynamicOps.lookup op.key) op
  | 1 => if t.legalOps.contains op.key then some .legal
      else if t.illegalOps.contains op.key then some .illegal else none
  | 2 => ask (t.dynamicDialects.lookup op.dialect) op
  | 3 => if t.legalDialects.contains op.dialect then some .legal
      else if t.illegalDialects.contains op.dialect then some .illegal else none
  | 4 => ask t.dynamicUnknown op
  | _ => none

theorem ask_iff {f : Option (Op → Decision)} {op : Op} {c : Check} :
    ask f op = some c ↔
      ∃ g, f = some g ∧ (g op = .legal ∧ c = .legal ∨ g op = .illegal ∧ c = .illegal) := by
  unfold ask
  cases f with
  | none => simp
  | some g =>
    cases h : g op <;> simp [h, Decision.intoCheck, eq_comm]

theorem says_iff {t : Target} {rules : List Rule} (h : Rep t rules) (op : Op) :
    ∀ n c, Says rules op n c ↔ level t op n = some c
  | 0, c => by
    simp only [Says, level, ask_iff, h.dop]
  | 1, c => by
    simp only [Says, level, ← h.lo, ← h.io, List.contains_iff_mem]
    by_cases h1 : op.key ∈ t.legalOps
    · have h2 : ¬ op.key ∈ t.illegalOps := fun h2 => h.disjO _ h1 h2
      simp [h1, h2, eq_comm]
    · by_cases h2 : op.key ∈ t.illegalOps <;> simp [h1, h2, eq_comm]
  | 2, c => by
    simp only [Says, level, ask_iff, h.dd]
  | 3, c => by
    simp only [Says, level, ← h.ld, ← h.id, List.contains_iff_mem]
    by_cases h1 : op.dialect ∈ t.legalDialects
    · have h2 : ¬ op.dialect ∈ t.illegalDialects := fun h2 => h.disjD _ h1 h2
      simp [h1, h2, eq_comm]
    · by_cases h2 : op.dialect ∈ t.illegalDialects <;> simp [h1, h2, eq_comm]
  | 4, c => by
    simp only [Says, level, ask_iff, h.du]
  | n + 5, c => by simp [Says, level]

theorem isLegal_levels (t : Target) (op : Op) : t.isLegal op =
    match level t op 0 with
    | some c => c
    | none => match level t op 1 with
      | some c => c
      | none => match level t op 2 with
        | some c => c
        | none => match level t op 3 with
          | some c => c
          | none => (level t op 4).getD .unknown := by
  unfold Target.isLegal level
  cases ask (t.dynamicOps.lookup op.key) op with
  | some c => rfl
  | none =>
    by_cases h1 : t.legalOps.contains op.key = true
    · simp only [h1, if_true]
    · simp only [h1, if_false, Bool.false_eq_true]
      by_cases h2 : t.illegalOps.contains op.key = true
      · simp only [h2, if_true]
      · simp only [h2, if_false, Bool.false_eq_true]
        cases ask (t.dynamicDialects.lookup op.dialect) op with
        | some c => rfl
        | none =>
          by_cases h3 : t.legalDialects.contains op.dialect = true
          · simp only [h3, if_true]
          · simp only [h3, if_false, Bool.false_eq_true]
            by_cases h4 : t.illegalDialects.contains op.dialect = true
            · simp only [h4, if_true]
            · simp only [h4, if_false, Bool.false_eq_true]

theorem legality_isLegal {t : Target} {rules : List Rule} (h : Rep t rules) (op : Op) :
    Legality rules op (t.isLegal op) := by
  have hs := says_iff h op
  rw [isLegal_levels]
  have no : ∀ {n}, level t op n = none → ∀ c', ¬ Says rules op n c' := by
    intro n hn c' hc
    rw [hs, hn] at hc
    cases hc
  cases h0 : level t op 0 with
  | some c => exact .inl ⟨0, (hs _ _).2 h0, by simp⟩
  | none =>
    cases h1 : level t op 1 with
    | some c =>
      refine .inl ⟨1, (hs _ _).2 h1, ?_⟩
      intro m hm
      have : m = 0 := by omega
      subst this; exact no h0
    | none =>
      cases h2 : level t op 2 with
      | some c =>
        refine .inl ⟨2, (hs _ _).2 h2, ?_⟩
        intro m hm
        have : m = 0 ∨ m = 1 := by omega
        rcases this with rfl | rfl
        · exact no h0
        · exact no h1
      | none =>
        cases h3 : level t op 3 with
        | some c =>
          refine .inl ⟨3, (hs _ _).2 h3, ?_⟩
          intro m hm
          have : m = 0 ∨ m = 1 ∨ m = 2 := by omega
          rcases this with rfl | rfl | rfl
          · exact no h0
          · exact no h1
          · exact no h2
        | none =>
          cases h4 : level t op 4 with
          | some c =>
            refine .inl ⟨4, (hs _ _).2 h4, ?_⟩
            intro m hm
            have : m = 0 ∨ m = 1 ∨ m = 2 ∨ m = 3 := by omega
            rcases this with rfl | rfl | rfl | rfl
            · exact no h0
            · exact no h1
            · exact no h2
            · exact no h3
          | none =>
            refine .inr ⟨rfl, ?_⟩
            intro n
            match n with
            | 0 => exact no h0
            | 1 => exact no h1
            | 2 => exact no h2
            | 3 => exact no h3
            | 4 => exact no h4
            | n + 5 => intro c' hc; exact hc

theorem legality_unique {t : Target} {rules : List Rule} (h : Rep t rules) {op : Op} {c c' : Check}
    (h1 : Legality rules op c) (h2 : Legality rules op c') : c = c' := by
  have hs := says_iff h op
  rcases h1 with ⟨n, s1, l1⟩ | ⟨rfl, l1⟩ <;> rcases h2 with ⟨m, s2, l2⟩ | ⟨rfl, l2⟩
  · rcases Nat.lt_trichotomy n m with hlt | rfl | hlt
    · exact absurd s1 (l2 n hlt c)
    · have a := (hs _ _).1 s1
      have b := (hs _ _).1 s2
      rw [a] at b
      exact Option.some.inj b
    · exact absurd s2 (l1 m hlt c')
  · exact absurd s1 (l2 n c)
  · exact absurd s2 (l1 m c')
  · rfl

theorem legality_iff {t : Target} {rules : List Rule} (h : Rep t rules) (op : Op) (c : Check) :
    Legality rules op c ↔ t.isLegal op = c :=
  ⟨fun hl => legality_unique h (legality_isLegal h op) hl, fun e => e ▸ legality_isLegal h op⟩

theorem shields_iff {t : Target} {rules : List Rule} (h : Rep t rules) (op : Op) :
    Shields rules op ↔ t.isRecursivelyLegal op = true := by
  unfold Shields Target.isRecursivelyLegal
  rw [legality_iff h]
  simp only [Bool.or_eq_true, Bool.and_eq_true, List.contains_iff_mem, h.rd, h.rl, beq_iff_eq, ← h.dop]
  cases hl : t.dynamicOps.lookup op.key with
  | none => simp
  | some f => simp

theorem shields_legal {rules : List Rule} {op : Op}
    (hs : Shields rules op) : Legality rules op .legal := by
  rcases hs with ⟨_, f, hf, hl⟩ | ⟨_, hl⟩
  · exact .inl ⟨0, ⟨f, hf, .inl ⟨hl, rfl⟩⟩, by simp⟩
  · exact hl

theorem noConstraints {t : Target} (h : t.hasConstraints = false) (op : Op) :
    t.isLegal op ≠ .legal ∧ t.isRecursivelyLegal op = false := by
  obtain ⟨a, b, c, d, e, f, g, i, j⟩ := t
  simp only [Target.hasConstraints, Bool.or_eq_false_iff, Bool.not_eq_false', List.isEmpty_iff,
    Option.isSome_eq_false_iff, Option.isNone_iff_eq_none] at h
  obtain ⟨⟨⟨⟨⟨⟨⟨⟨rfl, rfl⟩, rfl⟩, rfl⟩, rfl⟩, rfl⟩, rfl⟩, rfl⟩, rfl⟩ := h
  constructor <;> simp [Target.isLegal, Target.isRecursivelyLegal, ask]

theorem guard_legal (t : Target) (op : Op) :
    (t.hasConstraints && t.isLegal op == .legal) = (t.isLegal op == .legal) := by
  cases h : t.hasConstraints with
  | true => simp
  | false =>
    have := (noConstraints h op).1
    simp [this]

theorem guard_rec (t : Target) (op : Op) :
    (t.hasConstraints && t.isRecursivelyLegal op) = t.isRecursivelyLegal op := by
  cases h : t.hasConstraints with
  | true => simp
  | false => simp [(noConstraints h op).2]

/-! ## Operations within -/

theorem within_cons {rules : List Rule} {op : Op} {ops : List Op} {o : Op} :
    Within rules (op :: ops) o ↔ Within rules [op] o ∨ Within rules ops o := by
  constructor
  · intro h
    cases h with
    | here hm =>
      rcases List.mem_cons.1 hm with rfl | hm
      · exact .inl (.here (by simp))
      · exact .inr (.here hm)
    | inside hm hs hw =>
      rcases List.mem_cons.1 hm with rfl | hm
      · exact .inl (.inside (by simp) hs hw)
      · exact .inr (.inside hm hs hw)
  · rintro (h | h)
    · cases h with
      | here hm => exact .here (by simp at hm; simp [hm])
      | inside hm hs hw => exact .inside (by simp at hm; simp [hm]) hs hw
    · cases h with
      | here hm => exact .here (by simp [hm])
      | inside hm hs hw => exact .inside (by simp [hm]) hs hw

theorem within_nil {rules : List Rule} {o : Op} : ¬ Within rules [] o := by
  intro h
  cases h with
  | here hm => simp at hm
  | inside hm => simp at hm

theorem within_append {rules : List Rule} {a b : List Op} {o : Op} :
    Within rules (a ++ b) o ↔ Within rules a o ∨ Within rules b o := by
  induction a with
  | nil =>
    constructor
    · exact .inr
    · rintro (h | h)
      · exact absurd h within_nil
      · exact h
  | cons x a ih =>
    rw [List.cons_append, within_cons, ih, within_cons (ops := a), or_assoc]

theorem within_single {rules : List Rule} {op o : Op} :
    Within rules [op] o ↔ o = op ∨ (¬ Shields rules op ∧ Within rules op.body o) := by
  constructor
  · intro h
    cases h with
    | here hm => exact .inl (by simpa using hm)
    | inside hm hs hw =>
      simp only [List.mem_singleton] at hm
      subst hm
      exact .inr ⟨hs, hw⟩
  · rintro (rfl | ⟨hs, hw⟩)
    · exact .here (by simp)
    · exact .inside (by simp) hs hw

theorem failed_iff {t : Target} {rules : List Rule} (h : Rep t rules) (mode : Mode) (op : Op) :
    failed mode (t.isLegal op) = true ↔ Bad rules mode op := by
  cases mode
  · simp [failed, Bad, legality_iff h]
  · simp [failed, Bad, legality_iff h]

mutual
theorem verifyOp_iff {t : Target} {rules : List Rule} (h : Rep t rules) (mode : Mode) :
    ∀ (op o : Op) (c : Check), (o, c) ∈ verifyOp t mode op ↔
      Within rules [op] o ∧ Bad rules mode o ∧ Legality rules o c
  | .mk d n x body, o, c => by
    have ih := verifyOps_iff h mode body o c
    rw [within_single, shields_iff h, legality_iff h]
    simp only [verifyOp, List.mem_append]
    constructor
    · rintro (h1 | h1)
      · split at h1
        · next hf =>
          simp only [List.mem_singleton, Prod.mk.injEq] at h1
          obtain ⟨rfl, rfl⟩ := h1
          exact ⟨.inl rfl, (failed_iff h mode _).1 hf, rfl⟩
        · simp at h1
      · split at h1
        · simp at h1
        · next hr =>
          obtain ⟨a, b, c'⟩ := ih.1 h1
          exact ⟨.inr ⟨hr, a⟩, b, (legality_iff h _ _).1 c'⟩
    · rintro ⟨rfl | ⟨hr, hw⟩, hb, hc⟩
      · left
        rw [(failed_iff h mode _).2 hb]
        simp [hc]
      · right
        rw [if_neg hr]
        exact ih.2 ⟨hw, hb, (legality_iff h _ _).2 hc⟩

theorem verifyOps_iff {t : Target} {rules : List Rule} (h : Rep t rules) (mode : Mode) :
    ∀ (ops : List Op) (o : Op) (c : Check), (o, c) ∈ verifyOps t mode ops ↔
      Within rules ops o ∧ Bad rules mode o ∧ Legality rules o c
  | [], o, c => by
    constructor
    · intro hm; simp [verifyOps] at hm
    · rintro ⟨hw, _⟩; exact absurd hw within_nil
  | op :: ops, o, c => by
    simp only [verifyOps, List.mem_append]
    rw [verifyOp_iff h mode op o c, verifyOps_iff h mode ops o c, within_cons (ops := ops), or_and_right]
end

/-! ## The driver -/

theorem changes_iff (rw : Rewrite) : rw.hasMutations = true ↔ Changes rw := by
  rcases rw with ⟨b, f, m⟩
  simp only [Rewrite.hasMutations, Changes, Bool.or_eq_true, Bool.not_eq_true', List.isEmpty_eq_false_iff, or_assoc]
  refine or_congr Iff.rfl (or_congr ?_ Iff.rfl)
  cases f <;> simp

theorem firstMatch_none {op : Op} : ∀ {ps : List Pattern},
    firstMatch ps op = none ↔ ∀ p ∈ ps, ¬ Applies p op
  | [] => by simp [firstMatch]
  | p :: ps => by
    have ih := firstMatch_none (op := op) (ps := ps)
    simp only [firstMatch, List.mem_cons, forall_eq_or_imp]
    cases hp : p op with
    | none =>
      rw [ih]
      constructor
      · intro hh; exact ⟨fun ⟨rw, e, _⟩ => (by rw [hp] at e; cases e), hh⟩
      · exact fun hh => hh.2
    | some rw =>
      by_cases hm : rw.hasMutations = true
      · simp only [hm, if_true]
        constructor
        · intro hh; cases hh
        · intro hh; exact absurd ⟨rw, hp, (changes_iff rw).1 hm⟩ hh.1
      · simp only [hm, if_false, Bool.false_eq_true]
        rw [ih]
        constructor
        · intro hh
          refine ⟨fun ⟨rw', e, hm'⟩ => ?_, hh⟩
          rw [hp] at e
          cases e
          exact hm ((changes_iff rw).2 hm')
        · exact fun hh => hh.2

theorem firstMatch_some {op : Op} {rw : Rewrite} : ∀ {ps : List Pattern},
    firstMatch ps op = some rw → ∃ p ∈ ps, p op = some rw ∧ Changes rw
  | [], h => by simp [firstMatch] at h
  | p :: ps, h => by
    simp only [firstMatch] at h
    cases hp : p op with
    | none =>
      rw [hp] at h
      obtain ⟨q, hq, hh⟩ := firstMatch_some h
      exact ⟨q, by simp [hq], hh⟩
    | some r =>
      rw [hp] at h
      by_cases hm : r.hasMutations = true
      · simp only [hm, if_true, Option.some.injEq] at h
        subst h
        exact ⟨p, by simp, hp, (changes_iff _).1 hm⟩
      · simp only [hm, if_false, Bool.false_eq_true] at h
        obtain ⟨q, hq, hh⟩ := firstMatch_some h
        exact ⟨q, by simp [hq], hh⟩

theorem withBody_self (d n : String) (x : Nat) (b : List Op) :
    (Op.mk d n x b).withBody b = .mk d n x b := rfl

/-- `visitHere` without the guard. -/
theorem visitHere_eq {t : Target} {rules : List Rule} (h : Rep t rules) (ps : List Pattern) (op : Op)
    (v : Visit) :
    (Legality rules (op.withBody v.ops) .legal ∨ firstMatch ps (op.withBody v.ops) = none) ∧
      visitHere t ps op v = ⟨[op.withBody v.ops], v.moduleOps, v.changes⟩ ∨
    ¬ Legality rules (op.withBody v.ops) .legal ∧ ∃ rw, firstMatch ps (op.withBody v.ops) = some rw ∧
      visitHere t ps op v =
        ⟨rw.inPlace (op.withBody v.ops), v.moduleOps ++ rw.moduleOps, v.changes + 1⟩ := by
  unfold visitHere
  rw [guard_legal, legality_iff h]
  by_cases hl : t.isLegal (op.withBody v.ops) = .legal
  · left
    simp [hl]
  · cases hf : firstMatch ps (op.withBody v.ops) with
    | none => left; simp [hl]
    | some rw => right; simp [hl]

mutual
theorem visitOp_idle {t : Target} {rules : List Rule} (h : Rep t rules) (ps : List Pattern) :
    ∀ op : Op, ((visitOp t ps op).changes = 0 ↔ ∀ o, Within rules [op] o → ¬ Pending rules ps o) ∧
      ((visitOp t ps op).changes = 0 → (visitOp t ps op).ops = [op] ∧ (visitOp t ps op).moduleOps = [])
  | .mk d n x body => by
    have ih := visitOps_idle h ps body
    have hrec := shields_iff h (.mk d n x body)
    simp only [visitOp, guard_rec]
    by_cases hr : t.isRecursivelyLegal (.mk d n x body) = true
    · rw [if_pos hr]
      refine ⟨⟨fun _ o hw hp => ?_, fun _ => rfl⟩, fun _ => ⟨rfl, rfl⟩⟩
      rcases within_single.1 hw with rfl | ⟨hn, _⟩
      · exact hp.1 (shields_legal (hrec.2 hr))
      · exact hn (hrec.2 hr)
    · rw [if_neg hr]
      have hns : ¬ Shields rules (.mk d n x body) := fun hs => hr (hrec.1 hs)
      rcases visitHere_eq h ps (.mk d n x body) (visitOps t ps body) with ⟨hc, e⟩ | ⟨hl, rw, hf, e⟩
      · rw [e]
        refine ⟨⟨?_, ?_⟩, ?_⟩
        · intro h0 o hw hp
          simp only at h0
          have hb := (ih.2 h0).1
          rw [hb] at hc
          rcases within_single.1 hw with rfl | ⟨_, hi⟩
          · rcases hc with hc | hc
            · exact hp.1 hc
            · obtain ⟨p, hpm, ha⟩ := hp.2
              exact firstMatch_none.1 hc p hpm ha
          · exact ih.1.1 h0 o hi hp
        · intro hn
          exact ih.1.2 fun o hi => hn o (within_single.2 (.inr ⟨hns, hi⟩))
        · intro h0
          simp only at h0
          have hb := ih.2 h0
          simp only [hb.1, hb.2]
          exact ⟨rfl, trivial⟩
      · rw [e]
        refine ⟨⟨fun h0 => ?_, fun hn => ?_⟩, fun h0 => ?_⟩
        · simp only at h0; omega
        · exfalso
          have h0 := ih.1.2 fun o hi => hn o (within_single.2 (.inr ⟨hns, hi⟩))
          have hb := (ih.2 h0).1
          rw [hb] at hl hf
          obtain ⟨p, hp, h1, h2⟩ := firstMatch_some hf
          exact hn (.mk d n x body) (within_single.2 (.inl rfl)) ⟨hl, p, hp, rw, h1, h2⟩
        · simp only at h0; omega

theorem visitOps_idle {t : Target} {rules : List Rule} (h : Rep t rules) (ps : List Pattern) :
    ∀ ops : List Op, ((visitOps t ps ops).changes = 0 ↔ ∀ o, Within rules ops o → ¬ Pending rules ps o) ∧
      ((visitOps t ps ops).changes = 0 → (visitOps t ps ops).ops = ops ∧ (visitOps t ps ops).moduleOps = [])
  | [] => by
    refine ⟨⟨fun _ o hw => absurd hw within_nil, fun _ => rfl⟩, fun _ => ⟨rfl, rfl⟩⟩
  | op :: ops => by
    have i1 := visitOp_idle h ps op
    have i2 := visitOps_idle h ps ops
    simp only [visitOps]
    refine ⟨⟨?_, ?_⟩, ?_⟩
    · intro h0 o hw
      rcases within_cons.1 hw with hw | hw
      · exact i1.1.1 (by omega) o hw
      · exact i2.1.1 (by omega) o hw
    · intro hn
      have a := i1.1.2 fun o hw => hn o (within_cons.2 (.inl hw))
      have b := i2.1.2 fun o hw => hn o (within_cons.2 (.inr hw))
      omega
    · intro h0
      have a := i1.2 (by omega)
      have b := i2.2 (by omega)
      simp [a.1, a.2, b.1, b.2]
end

theorem runOne_idle {t : Target} {rules : List Rule} (h : Rep t rules) (ps : List Pattern)
    (scope : Scope) (ops : List Op) :
    ((runOne t ps scope ops).2 = 0 ↔ ∀ o, Within rules ops o → ¬ Pending rules ps o) ∧
      ((runOne t ps scope ops).2 = 0 → (runOne t ps scope ops).1 = ops) := by
  have i := visitOps_idle h ps ops
  refine ⟨i.1, ?_⟩
  intro h0
  obtain ⟨a, b⟩ := i.2 h0
  unfold runOne
  cases scope <;> simp [a, b]

theorem loop_fixpoint {t : Target} {rules : List Rule} (h : Rep t rules) (ps : List Pattern)
    (scope : Scope) : ∀ (n it ch : Nat) (ops : List Op),
      (loop t ps scope n it ch ops).reachedFixpoint = true →
      ∀ o, Within rules (loop t ps scope n it ch ops).ops o → ¬ Pending rules ps o
  | 0, _, _, _, hr => by simp [loop] at hr
  | n + 1, it, ch, ops, hr => by
    simp only [loop] at hr ⊢
    by_cases h0 : (runOne t ps scope ops).2 = 0
    · rw [if_pos h0]
      have i := runOne_idle h ps scope ops
      simp only
      rw [i.2 h0]
      exact i.1.1 h0
    · rw [if_neg h0] at hr ⊢
      exact loop_fixpoint h ps scope n _ _ _ hr

theorem loop_unfinished {t : Target} (ps : List Pattern) (scope : Scope) :
    ∀ (n it ch : Nat) (ops : List Op), (loop t ps scope n it ch ops).reachedFixpoint = false →
      (loop t ps scope n it ch ops).iterations = it + n ∧
        ch + n ≤ (loop t ps scope n it ch ops).totalChanges
  | 0, _, _, _, _ => by simp [loop]
  | n + 1, it, ch, ops, hr => by
    simp only [loop] at hr ⊢
    by_cases h0 : (runOne t ps scope ops).2 = 0
    · rw [if_pos h0] at hr; cases hr
    · rw [if_neg h0] at hr ⊢
      have := loop_unfinished ps scope n (it + 1) (ch + (runOne t ps scope ops).2) _ hr
      omega

/-! ## Operations that shield -/

theorem visitOps_keeps {t : Target} (ps : List Pattern) : ∀ ops : List Op,
    (ops.filter fun o => t.isRecursivelyLegal o).Sublist (visitOps t ps ops).ops
  | [] => by simp [visitOps]
  | op :: ops => by
    have ih := visitOps_keeps (t := t) ps ops
    simp only [visitOps, List.filter_cons]
    split
    · next hr =>
      have : (visitOp t ps op).ops = [op] := by
        cases op with
        | mk d n x b =>
          simp only [visitOp]
          rw [guard_rec, if_pos hr]
      rw [this]
      exact List.Sublist.cons_cons _ ih
    · exact ih.trans (List.sublist_append_right _ _)

theorem sublist_keeps {t : Target} (ps : List Pattern) (scope : Scope) {a ops : List Op}
    (ha : ∀ o ∈ a, t.isRecursivelyLegal o = true) (hs : a.Sublist ops) :
    a.Sublist (runOne t ps scope ops).1 := by
  have e : a.filter (fun o => t.isRecursivelyLegal o) = a := List.filter_eq_self.2 ha
  have h1 : a.Sublist (ops.filter fun o => t.isRecursivelyLegal o) := by
    rw [← e]; exact hs.filter _
  have h2 := h1.trans (visitOps_keeps ps ops)
  unfold runOne
  cases scope
  · exact h2.trans (List.sublist_append_left _ _)
  · exact h2

theorem loop_keeps {t : Target} (ps : List Pattern) (scope : Scope) {a : List Op}
    (ha : ∀ o ∈ a, t.isRecursivelyLegal o = true) : ∀ (n it ch : Nat) (ops : List Op),
      a.Sublist ops → a.Sublist (loop t ps scope n it ch ops).ops
  | 0, _, _, _, hs => hs
  | n + 1, it, ch, ops, hs => by
    simp only [loop]
    have := sublist_keeps ps scope ha hs
    split
    · exact this
    · exact loop_keeps ps scope ha n _ _ _ this

/-! ## Rounds -/

theorem below_nil {rules ps rank k} : Below rules ps rank k [] :=
  fun _ hw => absurd hw within_nil

theorem below_append {rules ps rank k} {a b : List Op} (ha : Below rules ps rank k a)
    (hb : Below rules ps rank k b) : Below rules ps rank k (a ++ b) := by
  intro o hw hp
  rcases within_append.1 hw with hw | hw
  · exact ha o hw hp
  · exact hb o hw hp

mutual
theorem visitOp_below {t : Target} {rules : List Rule} (h : Rep t rules) {ps : List Pattern}
    {rank : String → String → Nat → Nat} (hh : HeadOnly rules ps) (hp : Progress rules ps rank) {k : Nat} :
    ∀ op : Op, Below rules ps rank (k + 1) [op] →
      Below rules ps rank k (visitOp t ps op).ops ∧ Below rules ps rank k (visitOp t ps op).moduleOps
  | .mk d n x body, hb => by
    have hrec := shields_iff h (.mk d n x body)
    simp only [visitOp, guard_rec]
    by_cases hr : t.isRecursivelyLegal (.mk d n x body) = true
    · rw [if_pos hr]
      refine ⟨fun o hw hpe => ?_, below_nil⟩
      rcases within_single.1 hw with rfl | ⟨hn, _⟩
      · exact absurd (shields_legal (hrec.2 hr)) hpe.1
      · exact absurd (hrec.2 hr) hn
    · rw [if_neg hr]
      have hns : ¬ Shields rules (.mk d n x body) := fun hs => hr (hrec.1 hs)
      have ih := visitOps_below h hh hp (k := k) body
        (fun o hw => hb o (within_single.2 (.inr ⟨hns, hw⟩)))
      rcases visitHere_eq h ps (.mk d n x body) (visitOps t ps body) with ⟨hc, e⟩ | ⟨hl, rw, hf, e⟩
      · rw [e]
        refine ⟨fun o hw hpe => ?_, ih.2⟩
        rcases within_single.1 hw with rfl | ⟨_, hi⟩
        · rcases hc with hc | hc
          · exact absurd hc hpe.1
          · obtain ⟨p, hpm, ha⟩ := hpe.2
            exact absurd ha (firstMatch_none.1 hc p hpm)
        · exact ih.1 o hi hpe
      · rw [e]
        obtain ⟨p, hpm, h1, h2⟩ := firstMatch_some hf
        have hpend : Pending rules ps (.mk d n x body) := by
          refine ⟨?_, p, hpm, ?_⟩
          · exact fun hl' => hl ((hh.legality _ _ _).2 hl')
          · exact (hh.applies p hpm _ _).1 ⟨rw, h1, h2⟩
        have hlt := hb _ (within_single.2 (.inl rfl)) hpend
        have hpr := hp p hpm _ rw h1 h2 k (by
          simp only [Op.withBody, Op.dialect, Op.name, Op.data] at hlt ⊢; omega) ih.1
        exact ⟨hpr.1, below_append ih.2 hpr.2⟩

theorem visitOps_below {t : Target} {rules : List Rule} (h : Rep t rules) {ps : List Pattern}
    {rank : String → String → Nat → Nat} (hh : HeadOnly rules ps) (hp : Progress rules ps rank) {k : Nat} :
    ∀ ops : List Op, Below rules ps rank (k + 1) ops →
      Below rules ps rank k (visitOps t ps ops).ops ∧ Below rules ps rank k (visitOps t ps ops).moduleOps
  | [], _ => ⟨below_nil, below_nil⟩
  | op :: ops, hb => by
    have i1 := visitOp_below h hh hp (k := k) op fun o hw => hb o (within_cons.2 (.inl hw))
    have i2 := visitOps_below h hh hp (k := k) ops fun o hw => hb o (within_cons.2 (.inr hw))
    simp only [visitOps]
    exact ⟨below_append i1.1 i2.1, below_append i1.2 i2.2⟩
end

theorem runOne_below {t : Target} {rules : List Rule} (h : Rep t rules) {ps : List Pattern}
    {rank : String → String → Nat → Nat} (hh : HeadOnly rules ps) (hp : Progress rules ps rank) {k : Nat}
    (scope : Scope) (ops : List Op) (hb : Below rules ps rank (k + 1) ops) :
    Below rules ps rank k (runOne t ps scope ops).1 := by
  have := visitOps_below (t := t) h hh hp ops hb
  unfold runOne
  cases scope
  · exact below_append this.1 this.2
  · exact this.1

theorem loop_reaches {t : Target} {rules : List Rule} (h : Rep t rules) {ps : List Pattern}
    {rank : String → String → Nat → Nat} (hh : HeadOnly rules ps) (hp : Progress rules ps rank)
    (scope : Scope) : ∀ (n k it ch : Nat) (ops : List Op), k < n → Below rules ps rank k ops →
      (loop t ps scope n it ch ops).reachedFixpoint = true
  | 0, k, _, _, _, hk, _ => by omega
  | n + 1, k, it, ch, ops, hk, hb => by
    simp only [loop]
    by_cases h0 : (runOne t ps scope ops).2 = 0
    · rw [if_pos h0]
    · rw [if_neg h0]
      cases k with
      | zero =>
        exfalso
        apply h0
        refine (runOne_idle h ps scope ops).1.2 fun o hw hpe => ?_
        exact absurd (hb o hw hpe) (by omega)
      | succ k =>
        exact loop_reaches h hh hp scope n k _ _ _ (by omega) (runOne_below h hh hp scope ops hb)

end Verif.Convert
