import Verif.Case.Proofs

/-!
# C35 and C52: case expressions
-/

namespace Verif.Case

/-- Example declarations: `enum Option(a) { Some(a), None }` is number 0. -/
def exDecls : Decls := fun e => if e = 0 then some (fun as => [as, []]) else none

/-- `Option(Option(Nat))` -/
def optOpt : T := .enum 0 [.enum 0 [.nat]]

abbrev someP (p : Pat) : Pat := .variant 0 [p]
abbrev noneP : Pat := .variant 1 []
abbrev someV (v : Val) : Val := .ctor 0 [v]
abbrev noneV : Val := .ctor 1 []

/-- `case x { Some(y) -> …, None -> … }` -/
def exArms : List Arm := [⟨someP (.bind 7), none⟩, ⟨noneP, none⟩]

/-- `case x { Some(y) if y is not None -> …, Some(_) -> …, None -> … }`, on `Option(Option(Nat))` -/
def exGuarded : List Arm :=
  [⟨someP (.bind 7), some (fun env => match env with | [(_, .ctor 0 _)] => true | _ => false)⟩,
   ⟨someP .wild, none⟩, ⟨noneP, none⟩]

theorem exArms_typed : ∀ a ∈ exArms, PatTy exDecls a.pat optOpt ∧ Flat a.pat := by
  intro a ha
  simp only [exArms, List.mem_cons, List.not_mem_nil, or_false] at ha
  rcases ha with rfl | rfl
  · exact ⟨by simp [PatTy, PatTyPre, optOpt, exDecls], by simp [Flat, Always]⟩
  · exact ⟨by simp [PatTy, PatTyPre, optOpt, exDecls], by simp [Flat]⟩

theorem exSome_typed : HasTy exDecls (someV (someV (.lit (.nat 3)))) optOpt := by
  simp [HasTy, HasTyL, optOpt, exDecls, Lit.ty]

theorem exSomeNone_typed : HasTy exDecls (someV noneV) optOpt := by
  simp [HasTy, HasTyL, optOpt, exDecls]

/-! ## C35: what is accepted as exhaustive is exhaustive -/

/-- C35, partial: when the checker records a case as exhaustive, every value of the type of the
scrutinee is matched by an arm without a guard.  Missing: variant patterns with patterns other than
variables and wildcards for their fields, for which this is false (below). -/
theorem C35_exhaustive_partial {D : Decls} {t : T} {arms : List Arm}
    (hv : verdict D (some t) arms = .exhaustive) (ht : ∀ a ∈ arms, PatTy D a.pat t) (hf : ∀ a ∈ arms, Flat a.pat)
    {v : Val} (h : HasTy D v t) : Covered arms v :=
  verdict_covered hv (fun a ha => ⟨ht a ha, hf a ha⟩) h

example : verdict exDecls (some optOpt) exArms = .exhaustive ∧ (∀ a ∈ exArms, PatTy exDecls a.pat optOpt ∧ Flat a.pat) ∧
    HasTy exDecls (someV (someV (.lit (.nat 3)))) optOpt :=
  ⟨by decide, exArms_typed, exSome_typed⟩

/-- A list case with patterns for the lengths 0 and 1 and a rest pattern is accepted. -/
example : verdict exDecls (some (.list .nat))
    [⟨.list [], none⟩, ⟨.list [.bind 1], none⟩, ⟨.listRest [.bind 1, .wild] (some 2), none⟩] = .exhaustive := by
  decide

/-- C35: a case whose scrutinee type is not known yet is recorded as exhaustive only when its last
arm accepts everything. -/
theorem C35_unknown_type {D : Decls} {arms : List Arm} (hv : verdict D none arms = .exhaustive) (v : Val) :
    Covered arms v := by
  unfold verdict at hv
  split at hv
  · simp at hv
  · split at hv
    · rename_i hl
      exact lastCatchAll_covered hl v
    · simp at hv

example : verdict exDecls none [⟨someP (.bind 1), none⟩, ⟨.as_ .wild 2, none⟩] = .exhaustive := by decide

/-- C35: the arms that have a guard never count. -/
theorem C35_guards_ignored {D : Decls} {t : T} {arms : List Arm} (hg : ∀ a ∈ arms, a.guard ≠ none)
    (hi : ∀ d e as, t = .enum e as → D e = some d → d as ≠ []) :
    verdict D (some t) arms ≠ .exhaustive := by
  have hu : unguarded arms = [] := by
    simp only [unguarded, List.map_eq_nil_iff, List.filter_eq_nil_iff]
    intro a ha h
    exact hg a ha (Option.isNone_iff_eq_none.mp h)
  have hl : lastCatchAll arms = false := by
    cases h : lastCatchAll arms with
    | false => rfl
    | true =>
      obtain ⟨a, ha, h', _⟩ := lastCatchAll_covered h (.lit .unit)
      exact absurd h' (hg a ha)
  unfold verdict
  rw [hl]
  split
  · simp
  · cases t with
    | list t => simp [listCovers, hu]
    | enum e as =>
      cases hd : D e with
      | none => simp [hd]
      | some d =>
        have := hi d e as rfl hd
        have hn : (List.range (d as).length).all (fun k => ((unguarded arms).filterMap coveredVariant).contains k) = false := by
          rw [List.all_eq_false]
          refine ⟨0, ?_, by simp [hu]⟩
          rw [List.mem_range]
          exact List.length_pos_iff.mpr this
        simp only [hd, hn]
        simp
    | bool => simp [hu]
    | _ => simp

example : ∀ a ∈ [(⟨.wild, some fun _ => true⟩ : Arm)], a.guard ≠ none := by
  intro a ha
  simp only [List.mem_cons, List.not_mem_nil, or_false] at ha
  subst ha
  simp

/-- C35, the other direction for enums: a case whose arms are variant patterns and that covers every
value is accepted, provided every variant has a value. -/
theorem C35_enum_accepted {D : Decls} {e : Nat} {as : List T} {d : List T → List (List T)} (hd : D e = some d)
    {arms : List Arm} (hne : arms ≠ []) (hp : ∀ a ∈ arms, ∃ k ps, a.pat = .variant k ps)
    (hi : ∀ k < (d as).length, ∃ fs, HasTy D (.ctor k fs) (.enum e as))
    (hc : ∀ v, HasTy D v (.enum e as) → Covered arms v) : verdict D (some (.enum e as)) arms = .exhaustive := by
  unfold verdict
  have : arms.isEmpty = false := by cases arms <;> simp_all
  rw [this]
  simp only [Bool.false_eq_true, if_false, hd]
  split
  · rfl
  · rw [if_pos]
    rw [List.all_eq_true]
    intro k hk
    obtain ⟨fs, hfs⟩ := hi k (List.mem_range.mp hk)
    obtain ⟨a, ha, hg, hm⟩ := hc _ hfs
    obtain ⟨j, ps, hjp⟩ := hp a ha
    rw [hjp] at hm
    simp only [Matches, Val.ctor.injEq] at hm
    obtain ⟨_, ⟨rfl, _⟩, _⟩ := hm
    rw [List.contains_iff_mem, List.mem_filterMap]
    refine ⟨a.pat, ?_, by rw [hjp]; rfl⟩
    simp only [unguarded, List.mem_map, List.mem_filter]
    exact ⟨a, ⟨ha, by simp [hg]⟩, rfl⟩

example : (∀ a ∈ exArms, ∃ k ps, a.pat = .variant k ps) ∧
    ∀ v, HasTy exDecls v optOpt → Covered exArms v := by
  refine ⟨?_, fun v h => C35_exhaustive_partial (by decide) (fun a ha => (exArms_typed a ha).1)
    (fun a ha => (exArms_typed a ha).2) h⟩
  intro a ha
  simp only [exArms, List.mem_cons, List.not_mem_nil, or_false] at ha
  rcases ha with rfl | rfl <;> exact ⟨_, _, rfl⟩

theorem matchesPre_length {ps : List Pat} {vs : List Val} (h : MatchesPre ps vs) : ps.length ≤ vs.length := by
  induction ps generalizing vs with
  | nil => simp
  | cons p ps ih =>
    obtain ⟨v, vs', rfl, _, h2⟩ := h
    simpa using ih h2

theorem exists_least (l : List Nat) (h : l ≠ []) : ∃ m ∈ l, ∀ n ∈ l, m ≤ n := by
  induction l with
  | nil => exact absurd rfl h
  | cons x xs ih =>
    by_cases hx : xs = []
    · subst hx; exact ⟨x, .head _, by simp⟩
    · obtain ⟨m, hm, hl⟩ := ih hx
      by_cases hxm : x ≤ m
      · refine ⟨x, .head _, fun n hn => ?_⟩
        cases hn with
        | head => exact Nat.le_refl _
        | tail _ hn => exact Nat.le_trans hxm (hl n hn)
      · refine ⟨m, .tail _ hm, fun n hn => ?_⟩
        cases hn with
        | head => omega
        | tail _ hn => exact hl n hn

theorem le_bound (l : List Arm) : ∃ N, ∀ a ∈ l, ∀ ps, (a.pat = .list ps) → ps.length < N := by
  induction l with
  | nil => exact ⟨0, fun a ha => by cases ha⟩
  | cons b l ih =>
    obtain ⟨N, hN⟩ := ih
    refine ⟨N + (match b.pat with | .list ps => ps.length + 1 | _ => 0), fun a ha ps hp => ?_⟩
    cases ha with
    | head => rw [hp]; simp only; omega
    | tail _ ha => exact Nat.lt_of_lt_of_le (hN a ha ps hp) (by omega)

/-- C35, the other direction for lists: a case whose arms are list patterns of variables and wildcards
and that covers the lists of every length is accepted. -/
theorem C35_list_accepted {D : Decls} {t : T} {arms : List Arm}
    (hp : ∀ a ∈ arms, ∃ ps, (∀ p ∈ ps, Always p) ∧ (a.pat = .list ps ∨ ∃ r, a.pat = .listRest ps r))
    {w : Val} (hc : ∀ n, Covered arms (.list (List.replicate n w))) :
    verdict D (some (.list t)) arms = .exhaustive := by
  have hall : ∀ {ps : List Pat}, (∀ p ∈ ps, Always p) → ps.all catchAll = true := fun h =>
    List.all_eq_true.mpr (fun p hp => (catchAll_iff p).mpr (h p hp))
  have hun : ∀ {a}, a ∈ arms → a.guard = none → a.pat ∈ unguarded arms := by
    intro a ha hg
    simp only [unguarded, List.mem_map, List.mem_filter]
    exact ⟨a, ⟨ha, by simp [hg]⟩, rfl⟩
  have hpre : (unguarded arms).filterMap prefixLen ≠ [] := by
    obtain ⟨N, hN⟩ := le_bound arms
    obtain ⟨a, ha, hg, hm⟩ := hc N
    obtain ⟨ps, hps, h | ⟨r, h⟩⟩ := hp a ha
    · rw [h] at hm
      simp only [Matches, Val.list.injEq] at hm
      obtain ⟨_, rfl, hl, _⟩ := hm
      have := hN a ha ps h
      simp at hl
      omega
    · intro h0
      have : ps.length ∈ (unguarded arms).filterMap prefixLen :=
        List.mem_filterMap.mpr ⟨a.pat, hun ha hg, by rw [h]; simp [prefixLen, hall hps]⟩
      rw [h0] at this
      cases this
  have hcov : listCovers arms = true := by
    obtain ⟨m, hm, hleast⟩ := exists_least _ hpre
    rw [listCovers, List.any_eq_true]
    refine ⟨m, hm, List.all_eq_true.mpr (fun n hn => ?_)⟩
    rw [List.mem_range] at hn
    obtain ⟨a, ha, hg, hma⟩ := hc n
    obtain ⟨ps, hps, h | ⟨r, h⟩⟩ := hp a ha
    · rw [List.contains_iff_mem, List.mem_filterMap]
      rw [h] at hma
      simp only [Matches, Val.list.injEq] at hma
      obtain ⟨_, rfl, hl, _⟩ := hma
      refine ⟨a.pat, hun ha hg, ?_⟩
      rw [h]
      simp only [List.length_replicate] at hl
      simp [exactLen, hall hps, hl]
    · have h1 : ps.length ∈ (unguarded arms).filterMap prefixLen :=
        List.mem_filterMap.mpr ⟨a.pat, hun ha hg, by rw [h]; simp [prefixLen, hall hps]⟩
      have h2 := hleast _ h1
      rw [h] at hma
      simp only [Matches, Val.list.injEq] at hma
      obtain ⟨_, rfl, hl⟩ := hma
      have := matchesPre_length hl
      simp at this
      omega
  have : arms.isEmpty = false := by
    cases arms with
    | nil => obtain ⟨a, ha, _⟩ := hc 0; cases ha
    | cons _ _ => rfl
  unfold verdict
  rw [this]
  simp only [Bool.false_eq_true, if_false, hcov, if_true]
  split <;> rfl

example : ∀ n, Covered [⟨.list [], none⟩, ⟨.listRest [.bind 1] (some 2), none⟩] (.list (List.replicate n (.lit (.nat 0)))) := by
  intro n
  cases n with
  | zero => exact ⟨_, .head _, rfl, [], rfl, rfl, trivial⟩
  | succ n => exact ⟨_, .tail _ (.head _), rfl, _, rfl, _, _, rfl, trivial, trivial⟩

/-- C35, refuted for nested patterns: `case x { Some(Some(y)) -> …, None -> … }` is recorded as
exhaustive although no arm matches `Some(None)`. -/
theorem C35_nested_violated : ∃ (D : Decls) (t : T) (arms : List Arm) (v : Val),
    (∀ a ∈ arms, PatTy D a.pat t ∧ a.guard = none) ∧ HasTy D v t ∧ verdict D (some t) arms = .exhaustive ∧
      ∀ a ∈ arms, ¬ Matches a.pat v := by
  refine ⟨exDecls, optOpt, [⟨someP (someP (.bind 7)), none⟩, ⟨noneP, none⟩], someV noneV, ?_, exSomeNone_typed,
    by decide, ?_⟩
  · intro a ha
    simp only [List.mem_cons, List.not_mem_nil, or_false] at ha
    rcases ha with rfl | rfl
    · exact ⟨by simp [PatTy, PatTyPre, optOpt, exDecls], rfl⟩
    · exact ⟨by simp [PatTy, PatTyPre, optOpt, exDecls], rfl⟩
  · intro a ha
    simp only [List.mem_cons, List.not_mem_nil, or_false] at ha
    rcases ha with rfl | rfl
    · simp [Matches, MatchesPre]
    · simp [Matches]

/-! ## C52: the first arm that accepts the value runs -/

/-- C52, the source-logical lowering: for arms that can be compiled and a value of their type, the
first arm that accepts the value runs, with each variable bound to the part of the value at its
place; the "no arm" code runs exactly when no arm accepts.  A case recorded as exhaustive has to
cover the value (C35). -/
theorem C52_logical {D : Decls} {t : T} {ty : Option T} {arms : List Arm} {v : Val} (hv : HasTy D v t)
    (ht : ∀ a ∈ arms, PatTy D a.pat t) (hl : ∀ a ∈ arms, lowers true a.pat = true)
    (hc : verdict D ty arms = .exhaustive → Covered arms v) :
    (∃ i env, runL D ty arms v = .arm i env ∧ First arms v i env) ∨
      (runL D ty arms v = .noArm ∧ ∀ a ∈ arms, ¬ a.Accepts v) := by
  have := chainL_right hv (verdict D ty arms == .exhaustive) 0 arms
    (fun a ha => ⟨ht a ha, hl a ha, Or.inl rfl⟩) (fun h => hc (by simpa using h))
  rcases this with ⟨k, env, h1, h2⟩ | h
  · exact Or.inl ⟨k, env, by rw [runL, h1, Nat.zero_add], h2⟩
  · exact Or.inr h

/-- C52, partial, the lowering the pipeline uses: for arms that can be compiled, a value of their type
that some arm without a guard matches, and flat patterns, the first arm that accepts the value
runs, with each variable bound to the part of the value at its place.  Missing: nested patterns and
values that no arm matches, refuted below. -/
theorem C52_pipeline_partial {D : Decls} {t : T} {arms : List Arm} {v : Val} (hv : HasTy D v t)
    (ht : ∀ a ∈ arms, PatTy D a.pat t) (hl : ∀ a ∈ arms, lowers false a.pat = true)
    (hf : ∀ a ∈ arms, Flat a.pat) (hc : Covered arms v) :
    ∃ i env, run arms v = .arm i env ∧ First arms v i env := by
  rcases chain_right hv false 0 arms (fun a ha => ⟨ht a ha, hl a ha, Or.inr (hf a ha)⟩) hc with
    ⟨k, env, h1, h2⟩ | ⟨_, h⟩
  · exact ⟨k, env, by rw [run, h1, Nat.zero_add], h2⟩
  · obtain ⟨a, ha, hg, hm⟩ := hc
    exact absurd ⟨hm, fun g h => by rw [hg] at h; simp at h⟩ (h a ha)

/-- C52, partial: a case that the checker records as exhaustive runs, for every value of the type, the
first arm that accepts it.  Missing: nested patterns. -/
theorem C52_accepted_partial {D : Decls} {t : T} {arms : List Arm} (he : verdict D (some t) arms = .exhaustive)
    (ht : ∀ a ∈ arms, PatTy D a.pat t) (hl : ∀ a ∈ arms, lowers false a.pat = true)
    (hf : ∀ a ∈ arms, Flat a.pat) {v : Val} (hv : HasTy D v t) :
    ∃ i env, run arms v = .arm i env ∧ First arms v i env :=
  C52_pipeline_partial hv ht hl hf (C35_exhaustive_partial he ht hf hv)

example : verdict exDecls (some optOpt) exGuarded = .exhaustive ∧ (∀ a ∈ exGuarded, lowers false a.pat = true) ∧
    run exGuarded (someV (someV (.lit (.nat 3)))) = .arm 0 [(7, someV (.lit (.nat 3)))] ∧
    run exGuarded (someV noneV) = .arm 1 [] ∧ run exGuarded noneV = .arm 2 [] := by
  refine ⟨by decide, ?_, ?_, ?_, ?_⟩
  · intro a ha
    simp only [exGuarded, List.mem_cons, List.not_mem_nil, or_false] at ha
    rcases ha with rfl | rfl | rfl <;> simp [lowers]
  · simp [run, exGuarded, chain, check, armRegion, bindP, bindAll]
  · simp [run, exGuarded, chain, check, armRegion, bindP, bindAll]
  · simp [run, exGuarded, chain, check, enter, bindP, bindAll]

/-- C52, partial: a case with a single arm, or whose last arm has a guard, is right for all values,
matched or not: the first arm that accepts the value runs, and the "no arm" code when none does.
Missing: nested patterns. -/
theorem C52_tested_partial {D : Decls} {t : T} {arms : List Arm} {v : Val} (hv : HasTy D v t)
    (ht : ∀ a ∈ arms, PatTy D a.pat t) (hl : ∀ a ∈ arms, lowers false a.pat = true)
    (hf : ∀ a ∈ arms, Flat a.pat)
    (hg : arms.length = 1 ∨ ∀ a, arms.getLast? = some a → a.guard ≠ none) :
    (∃ i env, run arms v = .arm i env ∧ First arms v i env) ∨
      (run arms v = .noArm ∧ ∀ a ∈ arms, ¬ a.Accepts v) := by
  have ho : ArmsOk false D t arms := fun a ha => ⟨ht a ha, hl a ha, Or.inr (hf a ha)⟩
  have : Right 0 v arms (run arms v) := by
    rcases hg with hg | hg
    · obtain ⟨a, rfl⟩ := List.length_eq_one_iff.mp hg
      exact chain_right_single hv 0 a ho
    · exact chain_right_guarded hv false 0 arms ho hg
  rcases this with ⟨k, env, h1, h2⟩ | h
  · exact Or.inl ⟨k, env, by rw [h1, Nat.zero_add], h2⟩
  · exact Or.inr h

example : run [⟨someP (.bind 7), none⟩] noneV = .noArm ∧
    run [⟨someP (.bind 7), none⟩] (someV noneV) = .arm 0 [(7, noneV)] ∧
    run [⟨.bind 1, none⟩] noneV = .arm 0 [(1, noneV)] ∧
    run [⟨noneP, none⟩, ⟨.bind 1, some fun _ => false⟩] (someV noneV) = .noArm := by
  simp [run, chain, check, armRegion, bindP, bindAll, irrefutable, enter]

/-- C52: the two lowerings agree where both are right. -/
theorem C52_agree_partial {D : Decls} {t : T} {arms : List Arm} (he : verdict D (some t) arms = .exhaustive)
    (ht : ∀ a ∈ arms, PatTy D a.pat t) (hl : ∀ a ∈ arms, lowers false a.pat = true ∧ lowers true a.pat = true)
    (hf : ∀ a ∈ arms, Flat a.pat) {v : Val} (hv : HasTy D v t) : run arms v = runL D (some t) arms v := by
  obtain ⟨i, env, h1, a, a1, a2, a3, a4⟩ := C52_accepted_partial he ht (fun a ha => (hl a ha).1) hf hv
  have hc := C35_exhaustive_partial he ht hf hv
  rcases C52_logical (ty := some t) hv ht (fun a ha => (hl a ha).2) (fun _ => hc) with
    ⟨j, env', h2, b, b1, b2, b3, b4⟩ | ⟨_, h⟩
  · have : i = j := by
      rcases Nat.lt_trichotomy i j with h | h | h
      · exact absurd a2 (b4 i h a a1)
      · exact h
      · exact absurd b2 (a4 j h b b1)
    subst this
    rw [a1] at b1
    injection b1 with b1
    subst b1
    rw [h1, h2, a3, b3]
  · exact absurd a2 (h a (List.mem_of_getElem? a1))

example : ∀ a ∈ exArms, lowers false a.pat = true ∧ lowers true a.pat = true := by
  intro a ha
  simp only [exArms, List.mem_cons, List.not_mem_nil, or_false] at ha
  rcases ha with rfl | rfl <;> simp [lowers, lowersL]

/-- C52, refuted for nested patterns: in `case x { Some(Some(y)) -> …, Some(None) -> …, None -> … }`
the pipeline's code tests only the outer constructor, so for `Some(None)`, which the second arm
accepts, it enters the first arm and reads the field of a `Some` that is not there. -/
theorem C52_nested_violated : ∃ (D : Decls) (t : T) (arms : List Arm) (v : Val),
    (∀ a ∈ arms, PatTy D a.pat t ∧ lowers false a.pat = true) ∧ HasTy D v t ∧
      verdict D (some t) arms = .exhaustive ∧ First arms v 1 [] ∧ run arms v = .undefined := by
  refine ⟨exDecls, optOpt, [⟨someP (someP (.bind 7)), none⟩, ⟨someP noneP, none⟩, ⟨noneP, none⟩], someV noneV, ?_,
    exSomeNone_typed, by decide, ?_, ?_⟩
  · intro a ha
    simp only [List.mem_cons, List.not_mem_nil, or_false] at ha
    rcases ha with rfl | rfl | rfl <;> exact ⟨by simp [PatTy, PatTyPre, optOpt, exDecls], by simp [lowers]⟩
  · refine ⟨_, rfl, ⟨by simp [Matches, MatchesPre], fun g h => by simp at h⟩, by simp [bound, boundL], ?_⟩
    intro j hj b hb
    have : j = 0 := by omega
    subst this
    simp at hb
    subst hb
    simp [Arm.Accepts, Matches, MatchesPre]
  · simp [run, chain, check, armRegion, bindP, bindAll]

/-- C52, refuted where only a warning is given: for a tuple scrutinee no case is rejected, and the
last arm runs for the values that no arm matches. -/
theorem C52_uncovered_violated : ∃ (D : Decls) (t : T) (arms : List Arm) (v : Val) (env : Env),
    (∀ a ∈ arms, PatTy D a.pat t ∧ lowers false a.pat = true ∧ Flat a.pat) ∧ HasTy D v t ∧
      verdict D (some t) arms = .warning ∧ (∀ a ∈ arms, ¬ Matches a.pat v) ∧ run arms v = .arm 1 env := by
  refine ⟨exDecls, .tuple [.nat, .nat],
    [⟨.tuple [.lit (.nat 0), .bind 1], none⟩, ⟨.tuple [.lit (.nat 1), .bind 2], none⟩],
    .tuple [.lit (.nat 5), .lit (.nat 6)], [(2, .lit (.nat 6))], ?_, ?_, by decide, ?_, ?_⟩
  · intro a ha
    simp only [List.mem_cons, List.not_mem_nil, or_false] at ha
    rcases ha with rfl | rfl <;>
      exact ⟨by simp [PatTy, PatTyL, Lit.ty], by simp [lowers, lowersL, litLowers], by simp [Flat, FlatL]⟩
  · simp [HasTy, HasTyL, Lit.ty]
  · intro a ha
    simp only [List.mem_cons, List.not_mem_nil, or_false] at ha
    rcases ha with rfl | rfl <;> simp [Matches, MatchesPre]
  · simp [run, chain, check, checkAll, litCheck, enter, bindP, bindAll]

/-- C52, refuted for a scrutinee whose type is not known when the case is checked: nothing is reported,
and the last arm runs for values that no arm matches. -/
theorem C52_unknown_type_violated : ∃ (D : Decls) (t : T) (arms : List Arm) (v : Val),
    (∀ a ∈ arms, PatTy D a.pat t ∧ lowers false a.pat = true ∧ Flat a.pat) ∧ HasTy D v t ∧
      verdict D none arms = .silent ∧ (∀ a ∈ arms, ¬ Matches a.pat v) ∧ run arms v = .arm 1 [] := by
  refine ⟨exDecls, .nat, [⟨.lit (.nat 0), none⟩, ⟨.lit (.nat 1), none⟩], .lit (.nat 5), ?_, ?_, by decide, ?_, ?_⟩
  · intro a ha
    simp only [List.mem_cons, List.not_mem_nil, or_false] at ha
    rcases ha with rfl | rfl <;> exact ⟨by simp [PatTy, Lit.ty], by simp [lowers, litLowers], by simp [Flat]⟩
  · simp [HasTy, Lit.ty]
  · intro a ha
    simp only [List.mem_cons, List.not_mem_nil, or_false] at ha
    rcases ha with rfl | rfl <;> simp [Matches]
  · simp [run, chain, check, litCheck, enter, bindP]

/-- C52, refuted for float patterns: the case is well typed and recorded as exhaustive, but the
compiler panics while generating its code. -/
theorem C52_float_violated : ∃ (D : Decls) (t : T) (arms : List Arm),
    (∀ a ∈ arms, PatTy D a.pat t ∧ Flat a.pat) ∧ verdict D (some t) arms = .exhaustive ∧
      ∃ a ∈ arms, lowers false a.pat = false ∧ lowers true a.pat = false := by
  refine ⟨exDecls, .float, [⟨.lit (.float 0), none⟩, ⟨.wild, none⟩], ?_, by decide,
    ⟨_, .head _, by simp [lowers, litLowers], by simp [lowers, litLowers]⟩⟩
  intro a ha
  simp only [List.mem_cons, List.not_mem_nil, or_false] at ha
  rcases ha with rfl | rfl <;> exact ⟨by simp [PatTy, Lit.ty], by simp [Flat]⟩

end Verif.Case
