import Verif.Case.Spec

/-!
# Case expressions: lemmas
-/

namespace Verif.Case

section
variable {P : Pat → Prop} (hw : P .wild) (hb : ∀ x, P (.bind x)) (hl : ∀ l, P (.lit l))
  (hv : ∀ k ps, (∀ p ∈ ps, P p) → P (.variant k ps)) (hr : P .record)
  (ht : ∀ ps, (∀ p ∈ ps, P p) → P (.tuple ps)) (hli : ∀ ps, (∀ p ∈ ps, P p) → P (.list ps))
  (hlr : ∀ ps r, (∀ p ∈ ps, P p) → P (.listRest ps r)) (ha : ∀ p x, P p → P (.as_ p x)) (he : P .error)
include hw hb hl hv hr ht hli hlr ha he

mutual
theorem Pat.ind : ∀ p, P p
  | .wild => hw
  | .bind x => hb x
  | .lit l => hl l
  | .variant k ps => hv k ps (Pat.indL ps)
  | .record => hr
  | .tuple ps => ht ps (Pat.indL ps)
  | .list ps => hli ps (Pat.indL ps)
  | .listRest ps r => hlr ps r (Pat.indL ps)
  | .as_ p x => ha p x (Pat.ind p)
  | .error => he
theorem Pat.indL : ∀ ps : List Pat, ∀ p ∈ ps, P p
  | [] => fun p h => by cases h
  | q :: qs => fun p h => by
    cases h with
    | head => exact Pat.ind q
    | tail _ h => exact Pat.indL qs p h
end
end

/-! ## Pattern tests -/

theorem always_matches (p : Pat) (h : Always p) (v : Val) : Matches p v := by
  induction p using Pat.ind with
  | hw => trivial
  | hb x => trivial
  | ha p x ih => exact ih h
  | _ => exact h.elim

theorem catchAll_iff (p : Pat) : catchAll p = true ↔ Always p := by
  induction p using Pat.ind with
  | ha p x ih => simpa [catchAll, Always] using ih
  | _ => simp [catchAll, Always]

theorem flatL_iff {ps : List Pat} : FlatL ps ↔ ∀ p ∈ ps, Flat p := by
  induction ps with
  | nil => simp [FlatL]
  | cons p ps ih => simp [FlatL, ih]

theorem lowersL_iff {deep : Bool} {ps : List Pat} : lowersL deep ps = true ↔ ∀ p ∈ ps, lowers deep p = true := by
  induction ps with
  | nil => simp [lowersL]
  | cons p ps ih => simp [lowersL, ih]

theorem hasTy_tuple {D : Decls} {v : Val} {ts : List T} (h : HasTy D v (.tuple ts)) :
    ∃ vs, v = .tuple vs ∧ HasTyL D vs ts := by
  cases v with
  | lit l => cases l <;> simp [HasTy, Lit.ty] at h
  | ctor k fs => simp [HasTy] at h
  | tuple vs => exact ⟨vs, rfl, by simpa [HasTy] using h⟩
  | list vs => simp [HasTy] at h
  | other i n => simp [HasTy] at h

theorem hasTy_list {D : Decls} {v : Val} {t : T} (h : HasTy D v (.list t)) :
    ∃ vs, v = .list vs ∧ HasTyA D vs t := by
  cases v with
  | lit l => cases l <;> simp [HasTy, Lit.ty] at h
  | ctor k fs => simp [HasTy] at h
  | tuple vs => simp [HasTy] at h
  | list vs => exact ⟨vs, rfl, by simpa [HasTy] using h⟩
  | other i n => simp [HasTy] at h

theorem hasTy_enum {D : Decls} {v : Val} {e : Nat} {as : List T} (h : HasTy D v (.enum e as)) :
    ∃ k fs d tys, v = .ctor k fs ∧ D e = some d ∧ (d as)[k]? = some tys ∧ HasTyL D fs tys := by
  cases v with
  | lit l => cases l <;> simp [HasTy, Lit.ty] at h
  | ctor k fs =>
    simp only [HasTy] at h
    obtain ⟨d, tys, h1, h2, h3⟩ := h
    exact ⟨k, fs, d, tys, rfl, h1, h2, h3⟩
  | tuple vs => simp [HasTy] at h
  | list vs => simp [HasTy] at h
  | other i n => simp [HasTy] at h

theorem hasTy_bool {D : Decls} {v : Val} (h : HasTy D v .bool) : ∃ b, v = .lit (.bool b) := by
  cases v with
  | lit l => cases l <;> simp [HasTy, Lit.ty] at h; exact ⟨_, rfl⟩
  | ctor k fs => simp [HasTy] at h
  | tuple vs => simp [HasTy] at h
  | list vs => simp [HasTy] at h
  | other i n => simp [HasTy] at h

theorem hasTyL_length {D : Decls} {vs : List Val} {ts : List T} (h : HasTyL D vs ts) : vs.length = ts.length := by
  induction vs generalizing ts with
  | nil => simp [HasTyL] at h; simp [h]
  | cons v vs ih =>
    cases ts with
    | nil => simp [HasTyL] at h
    | cons t ts => simp only [HasTyL] at h; simp [ih h.2]

theorem patTyL_pre {D : Decls} {ps : List Pat} {ts : List T} (h : PatTyL D ps ts) :
    PatTyPre D ps ts ∧ ps.length = ts.length := by
  induction ps generalizing ts with
  | nil => simp [PatTyL] at h; simp [PatTyPre, h]
  | cons p ps ih =>
    cases ts with
    | nil => simp [PatTyL] at h
    | cons t ts =>
      simp only [PatTyL] at h
      simp only [PatTyPre]
      exact ⟨⟨h.1, (ih h.2).1⟩, by simp [(ih h.2).2]⟩

/-- The generated test decides matching. -/
def Decides (deep : Bool) (p : Pat) : Prop := ∀ D v t, HasTy D v t → PatTy D p t → lowers deep p = true →
  (deep = true ∨ Flat p) → ∃ b, check deep p v = some b ∧ (b = true ↔ Matches p v)

theorem checkAll_decides {deep : Bool} {ps : List Pat} (hi : ∀ p ∈ ps, Decides deep p) {D : Decls}
    {vs : List Val} {ts : List T} (hv : HasTyL D vs ts) (hp : PatTyPre D ps ts)
    (hl : ∀ p ∈ ps, lowers deep p = true) (hf : deep = true ∨ ∀ p ∈ ps, Flat p) :
    ∃ b, checkAll deep ps vs = some b ∧ (b = true ↔ MatchesPre ps vs) := by
  induction ps generalizing vs ts with
  | nil => exact ⟨true, by simp [checkAll], by simp [MatchesPre]⟩
  | cons p ps ih =>
    cases ts with
    | nil => simp [PatTyPre] at hp
    | cons t ts =>
      simp only [PatTyPre] at hp
      cases vs with
      | nil => simp [HasTyL] at hv
      | cons v vs =>
        simp only [HasTyL] at hv
        obtain ⟨b, h1, h2⟩ := hi p (.head _) D v t hv.1 hp.1 (hl p (.head _)) (hf.imp id (fun h => h p (.head _)))
        obtain ⟨c, h3, h4⟩ := ih (fun p hp => hi p (.tail _ hp)) hv.2 hp.2 (fun p hp => hl p (.tail _ hp))
          (hf.imp id (fun h p hp => h p (.tail _ hp)))
        refine ⟨b && c, by simp [checkAll, h1, h3], ?_⟩
        rw [Bool.and_eq_true, h2, h4]
        simp only [MatchesPre, List.cons.injEq]
        constructor
        · rintro ⟨a1, a2⟩; exact ⟨v, vs, ⟨rfl, rfl⟩, a1, a2⟩
        · rintro ⟨_, _, ⟨rfl, rfl⟩, a1, a2⟩; exact ⟨a1, a2⟩

theorem checkSuffix_decides {deep exact : Bool} {ps : List Pat} (hi : ∀ p ∈ ps, Decides deep p) {D : Decls}
    {vs : List Val} {t : T} (hv : HasTyA D vs t) (hp : PatTyA D ps t)
    (hl : ∀ p ∈ ps, lowers deep p = true) (hf : deep = true ∨ ∀ p ∈ ps, Flat p) :
    ∃ b, checkSuffix deep ps exact vs = some b ∧
      (b = true ↔ MatchesPre ps vs ∧ (exact = true → vs.length = ps.length)) := by
  induction ps generalizing vs with
  | nil =>
    refine ⟨_, by rw [checkSuffix], ?_⟩
    cases exact <;> simp [MatchesPre]
  | cons p ps ih =>
    cases vs with
    | nil => exact ⟨false, by simp [checkSuffix], by simp [MatchesPre]⟩
    | cons v vs =>
      simp only [HasTyA] at hv
      simp only [PatTyA] at hp
      obtain ⟨b, h1, h2⟩ := hi p (.head _) D v t hv.1 hp.1 (hl p (.head _)) (hf.imp id (fun h => h p (.head _)))
      obtain ⟨c, h3, h4⟩ := ih (fun p hp => hi p (.tail _ hp)) hv.2 hp.2 (fun p hp => hl p (.tail _ hp))
        (hf.imp id (fun h p hp => h p (.tail _ hp)))
      have hm : MatchesPre (p :: ps) (v :: vs) ↔ Matches p v ∧ MatchesPre ps vs := by
        simp only [MatchesPre, List.cons.injEq]
        constructor
        · rintro ⟨_, _, ⟨rfl, rfl⟩, a1, a2⟩; exact ⟨a1, a2⟩
        · rintro ⟨a1, a2⟩; exact ⟨v, vs, ⟨rfl, rfl⟩, a1, a2⟩
      rw [hm]
      cases b with
      | false =>
        refine ⟨false, by simp [checkSuffix, h1], ?_⟩
        have : ¬ Matches p v := fun hm => by simpa using h2.mpr hm
        simp [this]
      | true =>
        refine ⟨c, by simp [checkSuffix, h1, h3], ?_⟩
        rw [h4]
        simp [h2.mp rfl]

theorem matchesPre_always {D : Decls} {ps : List Pat} {ts : List T} {vs : List Val} (h : ∀ p ∈ ps, Always p)
    (hp : PatTyPre D ps ts) (hv : HasTyL D vs ts) : MatchesPre ps vs := by
  induction ps generalizing ts vs with
  | nil => simp [MatchesPre]
  | cons p ps ih =>
    cases ts with
    | nil => simp [PatTyPre] at hp
    | cons t ts =>
      cases vs with
      | nil => simp [HasTyL] at hv
      | cons v vs =>
        simp only [PatTyPre] at hp
        simp only [HasTyL] at hv
        exact ⟨v, vs, rfl, always_matches p (h p (.head _)) v, ih (fun p hp => h p (.tail _ hp)) hp.2 hv.2⟩

theorem check_decides (deep : Bool) (p : Pat) : Decides deep p := by
  induction p using Pat.ind with
  | hw => exact fun D v t _ _ _ _ => ⟨true, by simp [check], by simp [Matches]⟩
  | hb x => exact fun D v t _ _ _ _ => ⟨true, by simp [check], by simp [Matches]⟩
  | he => exact fun D v t _ _ _ _ => ⟨true, by simp [check], by simp [Matches]⟩
  | hr => intro D v t _ _ h; simp [lowers] at h
  | ha p x ih =>
    intro D v t h1 h2 h3 h4
    simp only [PatTy] at h2
    simp only [lowers] at h3
    simp only [Flat] at h4
    simpa [check, Matches] using ih D v t h1 h2 h3 h4
  | hl l =>
    intro D v t h1 h2 h3 _
    simp only [PatTy] at h2
    simp only [lowers] at h3
    cases l <;> simp only [litLowers, Bool.false_eq_true] at h3 <;> simp only [Lit.ty, Option.some.injEq] at h2 <;>
      subst h2
    all_goals
      cases v with
      | lit m =>
        cases m <;> simp [HasTy, Lit.ty] at h1
        refine ⟨_, by simp only [check, litCheck]; rfl, by simp [Matches]⟩
      | ctor k fs => simp [HasTy] at h1
      | tuple vs => simp [HasTy] at h1
      | list vs => simp [HasTy] at h1
      | other i n => simp [HasTy] at h1
  | hv k ps ih =>
    intro D v t h1 h2 h3 h4
    cases t <;> simp only [PatTy] at h2
    case enum e as =>
      obtain ⟨d, tys, d1, d2, d3⟩ := h2
      obtain ⟨j, fs, d', tys', rfl, e1, e2, e3⟩ := hasTy_enum h1
      rw [d1] at e1
      injection e1 with e1
      subst e1
      by_cases hjk : j = k
      · subst hjk
        rw [d2] at e2
        injection e2 with e2
        subst e2
        have hm : Matches (.variant j ps) (.ctor j fs) ↔ MatchesPre ps fs := by
          simp only [Matches, Val.ctor.injEq, true_and]
          exact ⟨fun ⟨_, h, h'⟩ => h ▸ h', fun h => ⟨fs, rfl, h⟩⟩
        rw [hm]
        cases deep with
        | false =>
          have hfl : ∀ p ∈ ps, Always p := by
            rcases h4 with h4 | h4
            · simp at h4
            · simpa [Flat] using h4
          exact ⟨true, by simp [check], by simp [matchesPre_always hfl d3 e3]⟩
        | true =>
          simp only [lowers, if_true] at h3
          by_cases hps : ps = []
          · subst hps
            exact ⟨true, by simp [check], by simp [MatchesPre]⟩
          · obtain ⟨b, b1, b2⟩ := checkAll_decides ih e3 d3 (lowersL_iff.mp h3) (Or.inl rfl)
            have : ps.isEmpty = false := by cases ps <;> simp_all
            exact ⟨b, by simp [check, this, b1], b2⟩
      · refine ⟨false, by simp [check, hjk], ?_⟩
        simp only [Matches, Val.ctor.injEq]
        constructor
        · intro h; simp at h
        · rintro ⟨_, ⟨h, _⟩, _⟩; exact absurd h hjk
  | ht ps ih =>
    intro D v t h1 h2 h3 h4
    cases t <;> simp only [PatTy] at h2
    case tuple ts =>
      obtain ⟨vs, rfl, hvs⟩ := hasTy_tuple h1
      obtain ⟨g1, g2⟩ := patTyL_pre h2
      simp only [lowers] at h3
      simp only [Flat] at h4
      obtain ⟨b, b1, b2⟩ := checkAll_decides ih hvs g1 (lowersL_iff.mp h3) (h4.imp id flatL_iff.mp)
      refine ⟨b, by simp [check, b1], ?_⟩
      rw [b2]
      simp only [Matches, Val.tuple.injEq]
      exact ⟨fun h => ⟨vs, rfl, (hasTyL_length hvs).trans g2.symm, h⟩, fun ⟨_, h, _, h'⟩ => h ▸ h'⟩
  | hli ps ih =>
    intro D v t h1 h2 h3 h4
    cases t <;> simp only [PatTy] at h2
    case list t =>
      obtain ⟨vs, rfl, hvs⟩ := hasTy_list h1
      simp only [lowers] at h3
      simp only [Flat] at h4
      obtain ⟨b, b1, b2⟩ := checkSuffix_decides (exact := true) ih hvs h2 (lowersL_iff.mp h3) (h4.imp id flatL_iff.mp)
      refine ⟨b, by simp [check, b1], ?_⟩
      rw [b2]
      simp only [Matches, Val.list.injEq, true_implies]
      exact ⟨fun h => ⟨vs, rfl, h.2, h.1⟩, fun ⟨_, h, h', h''⟩ => by subst h; exact ⟨h'', h'⟩⟩
  | hlr ps r ih =>
    intro D v t h1 h2 h3 h4
    cases t <;> simp only [PatTy] at h2
    case list t =>
      obtain ⟨vs, rfl, hvs⟩ := hasTy_list h1
      simp only [lowers] at h3
      simp only [Flat] at h4
      obtain ⟨b, b1, b2⟩ := checkSuffix_decides (exact := false) ih hvs h2 (lowersL_iff.mp h3) (h4.imp id flatL_iff.mp)
      refine ⟨b, by simp [check, b1], ?_⟩
      rw [b2]
      simp only [Matches, Val.list.injEq, Bool.false_eq_true, false_implies, and_true]
      exact ⟨fun h => ⟨vs, rfl, h⟩, fun ⟨_, h, h'⟩ => h ▸ h'⟩

/-! ## Bindings -/

theorem bindAll_bound {ps : List Pat} (hi : ∀ p ∈ ps, ∀ v, Matches p v → bindP p v = some (bound p v))
    {vs : List Val} (h : MatchesPre ps vs) : bindAll ps vs = some (boundL ps vs) := by
  induction ps generalizing vs with
  | nil => simp [bindAll, boundL]
  | cons p ps ih =>
    obtain ⟨v, vs', rfl, h1, h2⟩ := h
    simp [bindAll, boundL, hi p (.head _) v h1, ih (fun p hp => hi p (.tail _ hp)) h2]

theorem bindSuffix_bound {ps : List Pat} (hi : ∀ p ∈ ps, ∀ v, Matches p v → bindP p v = some (bound p v))
    {r : Option Nat} {vs : List Val} (h : MatchesPre ps vs) :
    bindSuffix ps r vs = some (boundL ps vs ++ match r with
      | none => []
      | some x => [(x, .list (vs.drop ps.length))]) := by
  induction ps generalizing vs with
  | nil => cases r <;> simp [bindSuffix, boundL]
  | cons p ps ih =>
    obtain ⟨v, vs', rfl, h1, h2⟩ := h
    have := ih (fun p hp => hi p (.tail _ hp)) h2
    rw [bindSuffix, hi p (.head _) v h1]
    simp only [this, boundL]
    cases r <;> simp

theorem bindP_bound (p : Pat) : ∀ v, Matches p v → bindP p v = some (bound p v) := by
  induction p using Pat.ind with
  | hw => intro v _; simp [bindP, bound]
  | hb x => intro v _; simp [bindP, bound]
  | he => intro v _; simp [bindP, bound]
  | hl l => intro v _; simp [bindP, bound]
  | hr => intro v h; simp [Matches] at h
  | ha p x ih => intro v h; simp only [Matches] at h; simp [bindP, bound, ih v h]
  | hv k ps ih =>
    intro v h
    simp only [Matches] at h
    obtain ⟨fs, rfl, h⟩ := h
    simp [bindP, bound, bindAll_bound ih h]
  | ht ps ih =>
    intro v h
    simp only [Matches] at h
    obtain ⟨fs, rfl, _, h⟩ := h
    simp [bindP, bound, bindAll_bound ih h]
  | hli ps ih =>
    intro v h
    simp only [Matches] at h
    obtain ⟨fs, rfl, _, h⟩ := h
    simp [bindP, bound, bindSuffix_bound ih (r := none) h]
  | hlr ps r ih =>
    intro v h
    simp only [Matches] at h
    obtain ⟨fs, rfl, h⟩ := h
    cases r <;> simp [bindP, bound, bindSuffix_bound ih h]

/-! ## Chains of arms -/

/-- The arms fit the type and can be compiled. -/
def ArmsOk (deep : Bool) (D : Decls) (t : T) (arms : List Arm) : Prop :=
  ∀ a ∈ arms, PatTy D a.pat t ∧ lowers deep a.pat = true ∧ (deep = true ∨ Flat a.pat)

/-- The outcome, for arms counted from `i`, is what the specification says. -/
def Right (i : Nat) (v : Val) (arms : List Arm) (o : Outcome) : Prop :=
  (∃ k env, o = .arm (i + k) env ∧ First arms v k env) ∨ (o = .noArm ∧ ∀ a ∈ arms, ¬ a.Accepts v)

theorem Right.here {i : Nat} {v : Val} {a : Arm} {rest : List Arm} (h : a.Accepts v) :
    Right i v (a :: rest) (.arm i (bound a.pat v)) :=
  Or.inl ⟨0, _, rfl, a, rfl, h, rfl, fun j hj => absurd hj (by omega)⟩

theorem Right.later {i : Nat} {v : Val} {a : Arm} {rest : List Arm} {o : Outcome} (h : ¬ a.Accepts v)
    (hr : Right (i + 1) v rest o) : Right i v (a :: rest) o := by
  rcases hr with ⟨k, env, rfl, b, b1, b2, b3, b4⟩ | ⟨rfl, hn⟩
  · refine Or.inl ⟨k + 1, env, by rw [Nat.add_right_comm, Nat.add_assoc], b, by simpa using b1, b2, b3, fun j hj c hc => ?_⟩
    cases j with
    | zero => simp at hc; subst hc; exact h
    | succ j => exact b4 j (by omega) c (by simpa using hc)
  · refine Or.inr ⟨rfl, fun c hc => ?_⟩
    cases hc with
    | head => exact h
    | tail _ hc => exact hn c hc

theorem armRegion_right {i : Nat} {v : Val} {a : Arm} {rest : List Arm} {o : Outcome} (hm : Matches a.pat v)
    (hr : ¬ a.Accepts v → Right (i + 1) v rest o) : Right i v (a :: rest) (armRegion i a v o) := by
  rw [armRegion, bindP_bound a.pat v hm]
  cases hg : a.guard with
  | none => exact Right.here ⟨hm, fun g h => by rw [hg] at h; simp at h⟩
  | some g =>
    by_cases hgv : g (bound a.pat v) = true
    · simp only [hgv, if_true]
      exact Right.here ⟨hm, fun g' h => by rw [hg] at h; injection h with h; subst h; exact hgv⟩
    · simp only [hgv, if_false, Bool.false_eq_true]
      have hn : ¬ a.Accepts v := fun h => hgv (h.2 g hg)
      exact (hr hn).later hn

theorem covered_cons {a : Arm} {rest : List Arm} {v : Val} (h : Covered (a :: rest) v) (hn : ¬ a.Accepts v) :
    Covered rest v := by
  obtain ⟨b, hb, hg, hm⟩ := h
  cases hb with
  | head => exact absurd ⟨hm, fun g h => by rw [hg] at h; simp at h⟩ hn
  | tail _ hb => exact ⟨b, hb, hg, hm⟩

theorem enter_right {i : Nat} {v : Val} {a : Arm} (hg : a.guard.isNone = true) (hc : Covered [a] v) :
    Right i v [a] (enter i a.pat v) := by
  obtain ⟨b, hb, _, hm⟩ := hc
  simp only [List.mem_cons, List.not_mem_nil, or_false] at hb
  subst hb
  rw [enter, bindP_bound _ _ hm]
  exact Right.here ⟨hm, fun g h => by rw [h] at hg; simp at hg⟩

theorem chain_right {D : Decls} {t : T} {v : Val} (hv : HasTy D v t) (isElse : Bool) (i : Nat)
    (arms : List Arm) (ho : ArmsOk false D t arms) (hc : Covered arms v) :
    Right i v arms (chain isElse i v arms) := by
  induction arms generalizing isElse i with
  | nil => obtain ⟨a, ha, _⟩ := hc; cases ha
  | cons a rest ih =>
    rw [chain]
    split
    · rename_i hh
      simp only [Bool.and_eq_true] at hh
      have := List.isEmpty_iff.mp hh.1.1
      subst this
      exact enter_right hh.1.2 hc
    · obtain ⟨p1, p2, p3⟩ := ho a (.head _)
      obtain ⟨b, b1, b2⟩ := check_decides false a.pat D v t hv p1 p2 p3
      have hrest : ¬ a.Accepts v → Right (i + 1) v rest (chain true (i + 1) v rest) :=
        fun hn => ih true (i + 1) (fun a ha => ho a (.tail _ ha)) (covered_cons hc hn)
      cases b with
      | true => simp only [b1]; exact armRegion_right (b2.mp rfl) hrest
      | false =>
        simp only [b1]
        have hn : ¬ a.Accepts v := fun h => by simpa using b2.mpr h.1
        exact (hrest hn).later hn

theorem chain_right_guarded {D : Decls} {t : T} {v : Val} (hv : HasTy D v t) (isElse : Bool) (i : Nat)
    (arms : List Arm) (ho : ArmsOk false D t arms) (hg : ∀ a, arms.getLast? = some a → a.guard ≠ none) :
    Right i v arms (chain isElse i v arms) := by
  induction arms generalizing isElse i with
  | nil => exact Or.inr ⟨rfl, fun a ha => by cases ha⟩
  | cons a rest ih =>
    rw [chain]
    split
    · rename_i hh
      simp only [Bool.and_eq_true] at hh
      have := List.isEmpty_iff.mp hh.1.1
      subst this
      exact absurd (Option.isNone_iff_eq_none.mp hh.1.2) (hg a rfl)
    · obtain ⟨p1, p2, p3⟩ := ho a (.head _)
      obtain ⟨b, b1, b2⟩ := check_decides false a.pat D v t hv p1 p2 p3
      have hrest : Right (i + 1) v rest (chain true (i + 1) v rest) :=
        ih true (i + 1) (fun a ha => ho a (.tail _ ha)) (fun b hb => hg b (by
          cases rest with
          | nil => simp at hb
          | cons c rest => simpa [List.getLast?_cons_cons] using hb))
      cases b with
      | true => simp only [b1]; exact armRegion_right (b2.mp rfl) (fun _ => hrest)
      | false =>
        simp only [b1]
        have hn : ¬ a.Accepts v := fun h => by simpa using b2.mpr h.1
        exact hrest.later hn

theorem irrefutable_always {p : Pat} (h : irrefutable p = true) : Always p := by
  cases p <;> simp_all [irrefutable, Always]

theorem chain_right_single {D : Decls} {t : T} {v : Val} (hv : HasTy D v t) (i : Nat)
    (a : Arm) (ho : ArmsOk false D t [a]) : Right i v [a] (chain false i v [a]) := by
  rw [chain]
  split
  · rename_i hh
    simp only [Bool.and_eq_true, Bool.or_eq_true, Bool.false_eq_true, false_or] at hh
    exact enter_right hh.1.2 ⟨a, .head _, Option.isNone_iff_eq_none.mp hh.1.2,
      always_matches _ (irrefutable_always hh.2) v⟩
  · obtain ⟨p1, p2, p3⟩ := ho a (.head _)
    obtain ⟨b, b1, b2⟩ := check_decides false a.pat D v t hv p1 p2 p3
    have hrest : Right (i + 1) v [] (chain true (i + 1) v []) := Or.inr ⟨rfl, fun a ha => by cases ha⟩
    cases b with
    | true => simp only [b1]; exact armRegion_right (b2.mp rfl) (fun _ => hrest)
    | false =>
      simp only [b1]
      have hn : ¬ a.Accepts v := fun h => by simpa using b2.mpr h.1
      exact hrest.later hn

theorem chainL_right {D : Decls} {t : T} {v : Val} (hv : HasTy D v t) (ex : Bool) (i : Nat)
    (arms : List Arm) (ho : ArmsOk true D t arms) (hc : ex = true → Covered arms v) :
    Right i v arms (chainL ex i v arms) := by
  induction arms generalizing i with
  | nil => exact Or.inr ⟨rfl, fun a ha => by cases ha⟩
  | cons a rest ih =>
    rw [chainL]
    split
    · rename_i hh
      simp only [Bool.and_eq_true] at hh
      have := List.isEmpty_iff.mp hh.1.1
      subst this
      exact enter_right hh.2 (hc hh.1.2)
    · obtain ⟨p1, p2, p3⟩ := ho a (.head _)
      obtain ⟨b, b1, b2⟩ := check_decides true a.pat D v t hv p1 p2 p3
      have hrest : ¬ a.Accepts v → Right (i + 1) v rest (chainL ex (i + 1) v rest) :=
        fun hn => ih (i + 1) (fun a ha => ho a (.tail _ ha)) (fun h => covered_cons (hc h) hn)
      cases b with
      | true => simp only [b1]; exact armRegion_right (b2.mp rfl) hrest
      | false =>
        simp only [b1]
        have hn : ¬ a.Accepts v := fun h => by simpa using b2.mpr h.1
        exact (hrest hn).later hn

/-! ## The exhaustiveness check -/

theorem mem_unguarded {arms : List Arm} {p : Pat} (h : p ∈ unguarded arms) :
    ∃ a ∈ arms, a.guard = none ∧ a.pat = p := by
  simp only [unguarded, List.mem_map, List.mem_filter] at h
  obtain ⟨a, ⟨ha, hg⟩, rfl⟩ := h
  exact ⟨a, ha, Option.isNone_iff_eq_none.mp hg, rfl⟩

theorem lastCatchAll_covered {arms : List Arm} (h : lastCatchAll arms = true) (v : Val) : Covered arms v := by
  induction arms with
  | nil => simp [lastCatchAll] at h
  | cons a rest ih =>
    cases rest with
    | nil =>
      simp only [lastCatchAll, Bool.and_eq_true] at h
      exact ⟨a, .head _, Option.isNone_iff_eq_none.mp h.1, always_matches _ ((catchAll_iff _).mp h.2) v⟩
    | cons b rest =>
      obtain ⟨c, hc, h1⟩ := ih (by simpa [lastCatchAll] using h)
      exact ⟨c, .tail _ hc, h1⟩

theorem matchesPre_len {ps : List Pat} (h : ∀ p ∈ ps, Always p) {vs : List Val} (hl : ps.length ≤ vs.length) :
    MatchesPre ps vs := by
  induction ps generalizing vs with
  | nil => simp [MatchesPre]
  | cons p ps ih =>
    cases vs with
    | nil => simp at hl
    | cons v vs =>
      exact ⟨v, vs, rfl, always_matches p (h p (.head _)) v, ih (fun p hp => h p (.tail _ hp)) (by simpa using hl)⟩

theorem all_always {ps : List Pat} (h : ps.all catchAll = true) : ∀ p ∈ ps, Always p :=
  fun p hp => (catchAll_iff p).mp (List.all_eq_true.mp h p hp)

theorem exactLen_matches {p : Pat} {n : Nat} (h : exactLen p = some n) {vs : List Val} (hl : vs.length = n) :
    Matches p (.list vs) := by
  unfold exactLen at h
  split at h
  · split at h
    · rename_i ps ha
      injection h with h
      exact ⟨vs, rfl, by omega, matchesPre_len (all_always ha) (by omega)⟩
    · simp at h
  · split at h
    · rename_i ps _ ha
      injection h with h
      exact ⟨vs, rfl, by omega, matchesPre_len (all_always ha) (by omega)⟩
    · simp at h
  · simp at h

theorem prefixLen_matches {p : Pat} {n : Nat} (h : prefixLen p = some n) {vs : List Val} (hl : n ≤ vs.length) :
    Matches p (.list vs) := by
  unfold prefixLen at h
  split at h
  · split at h
    · rename_i ps _ ha
      injection h with h
      exact ⟨vs, rfl, matchesPre_len (all_always ha) (by omega)⟩
    · simp at h
  · split at h
    · rename_i ps _ _ ha
      injection h with h
      exact ⟨vs, rfl, matchesPre_len (all_always ha) (by omega)⟩
    · simp at h
  · simp at h

theorem listCovers_covered {arms : List Arm} (h : listCovers arms = true) (vs : List Val) :
    Covered arms (.list vs) := by
  rw [listCovers, List.any_eq_true] at h
  obtain ⟨m, hm, hall⟩ := h
  rw [List.mem_filterMap] at hm
  obtain ⟨p, hp, hpm⟩ := hm
  by_cases hl : m ≤ vs.length
  · obtain ⟨a, ha, hg, rfl⟩ := mem_unguarded hp
    exact ⟨a, ha, hg, prefixLen_matches hpm hl⟩
  · have := List.all_eq_true.mp hall vs.length (List.mem_range.mpr (by omega))
    rw [List.contains_iff_mem, List.mem_filterMap] at this
    obtain ⟨q, hq, hql⟩ := this
    obtain ⟨a, ha, hg, rfl⟩ := mem_unguarded hq
    exact ⟨a, ha, hg, exactLen_matches hql rfl⟩

theorem boolLit_matches {p : Pat} {b : Bool} (h : boolLit p = some b) : Matches p (.lit (.bool b)) := by
  induction p using Pat.ind with
  | hl l => cases l <;> simp [boolLit] at h; subst h; simp [Matches]
  | ha p x ih => simp only [boolLit] at h; simpa [Matches] using ih h
  | _ => simp [boolLit] at h

theorem coveredVariant_matches {D : Decls} {p : Pat} {k : Nat} (h : coveredVariant p = some k) (hf : Flat p)
    {e : Nat} {as : List T} (hp : PatTy D p (.enum e as)) {fs : List Val} (hv : HasTy D (.ctor k fs) (.enum e as)) :
    Matches p (.ctor k fs) := by
  induction p using Pat.ind with
  | hv j ps _ =>
    simp only [coveredVariant, Option.some.injEq] at h
    subst h
    simp only [PatTy] at hp
    simp only [HasTy] at hv
    obtain ⟨d, tys, d1, d2, d3⟩ := hp
    obtain ⟨d', tys', e1, e2, e3⟩ := hv
    rw [d1] at e1
    injection e1 with e1
    subst e1
    rw [d2] at e2
    injection e2 with e2
    subst e2
    simp only [Flat] at hf
    exact ⟨fs, rfl, matchesPre_always hf d3 e3⟩
  | ha p x ih =>
    simp only [coveredVariant] at h
    simp only [Flat] at hf
    simp only [PatTy] at hp
    simpa [Matches] using ih h hf hp
  | _ => simp [coveredVariant] at h

theorem verdict_covered {D : Decls} {t : T} {arms : List Arm} (hv : verdict D (some t) arms = .exhaustive)
    (ht : ∀ a ∈ arms, PatTy D a.pat t ∧ Flat a.pat) {v : Val} (h : HasTy D v t) : Covered arms v := by
  unfold verdict at hv
  split at hv
  · simp at hv
  · split at hv
    · rename_i hl
      exact lastCatchAll_covered hl v
    · cases t with
      | list t =>
        simp only at hv
        split at hv
        · rename_i hl
          obtain ⟨vs, rfl, _⟩ := hasTy_list h
          exact listCovers_covered hl vs
        · simp at hv
      | enum e as =>
        simp only at hv
        split at hv
        · simp at hv
        · rename_i d hd
          split at hv
          · rename_i hall
            obtain ⟨k, fs, d', tys, rfl, e1, e2, e3⟩ := hasTy_enum h
            rw [hd] at e1
            injection e1 with e1
            subst e1
            have hk : k < (d as).length := (List.getElem?_eq_some_iff.mp e2).1
            have := List.all_eq_true.mp hall k (List.mem_range.mpr hk)
            rw [List.contains_iff_mem, List.mem_filterMap] at this
            obtain ⟨q, hq, hqk⟩ := this
            obtain ⟨a, ha, hg, rfl⟩ := mem_unguarded hq
            exact ⟨a, ha, hg, coveredVariant_matches hqk (ht a ha).2 (ht a ha).1 h⟩
          · simp at hv
      | bool =>
        simp only at hv
        split at hv
        · rename_i hb
          obtain ⟨b, rfl⟩ := hasTy_bool h
          rw [Bool.and_eq_true] at hb
          have : ((unguarded arms).filterMap boolLit).contains b = true := by cases b; exact hb.2; exact hb.1
          rw [List.contains_iff_mem, List.mem_filterMap] at this
          obtain ⟨q, hq, hqk⟩ := this
          obtain ⟨a, ha, hg, rfl⟩ := mem_unguarded hq
          exact ⟨a, ha, hg, boolLit_matches hqk⟩
        · simp at hv
      | _ => simp at hv

end Verif.Case
