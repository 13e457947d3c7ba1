import Verif.Effects.Dir

/-! Code with a continuation follows the machine. -/

namespace Verif.Effects

variable {W : Type}

/-! ## Contexts -/

theorem findH_append {a : Ab} {o : Opn} {C C0 K : List Frame} {f : Frame} {h : Arm} {ρ : SEnv}
    {C1 : List Frame} (h0 : ∀ hs dx d ρ, Frame.hdl hs dx d ρ ∉ C0)
    (hf : findH a o (C ++ C0) = some (K, f, h, ρ, C1)) :
    ∃ C', C1 = C' ++ C0 ∧ findH a o C = some (K, f, h, ρ, C') := by
  induction C generalizing K with
  | nil =>
    obtain ⟨⟨hs, dx, d, rfl, -⟩, h2⟩ := findH_spec hf
    exact absurd (by rw [List.nil_append] at h2; rw [h2]; simp) (h0 hs dx d ρ)
  | cons g C ih =>
    have other : (findH a o (C ++ C0)).map (fun r => (g :: r.1, r.2)) = some (K, f, h, ρ, C1) →
        ∃ C', C1 = C' ++ C0 ∧
          (findH a o C).map (fun r => (g :: r.1, r.2)) = some (K, f, h, ρ, C') := by
      intro hm
      obtain ⟨⟨K1, r⟩, h1, h2⟩ := Option.map_eq_some_iff.1 hm
      simp only [Prod.mk.injEq] at h2
      obtain ⟨rfl, rfl⟩ := h2
      obtain ⟨C', rfl, h3⟩ := ih h1
      exact ⟨C', rfl, by rw [h3]; rfl⟩
    cases g with
    | letF x b ρ0 => simpa [findH] using other (by simpa [findH] using hf)
    | fnF K0 => simpa [findH] using other (by simpa [findH] using hf)
    | armF K0 => simpa [findH] using other (by simpa [findH] using hf)
    | hdl hs dx d ρ0 =>
      cases h1 : findArm hs a o with
      | none => simpa [findH, h1] using other (by simpa [findH, h1] using hf)
      | some h0 =>
        simp only [List.cons_append, findH, h1, Option.some.injEq, Prod.mk.injEq] at hf
        obtain ⟨rfl, rfl, rfl, rfl, rfl⟩ := hf
        exact ⟨C, rfl, by simp [findH, h1]⟩

theorem ctx_find {A C kv P} (h : CtxRel A C kv P) {a : Ab} {o : Opn} {K : List Frame} {f : Frame}
    {hh : Arm} {ρ : SEnv} {C' : List Frame} (hf : findH a o C = some (K, f, hh, ρ, C')) :
    ∃ P1 p P2 A', P = P1 ++ p :: P2 ∧ p.frame = f ∧ PendOk P2 p ∧ CtxRel A' C' p.kv P2 := by
  induction h generalizing K with
  | root => simp [findH] at hf
  | done A C p P hp hC ih =>
    simp only [Pend.frame, findH] at hf
    cases h1 : findArm p.hs a o with
    | some h0 =>
      simp only [h1, Option.some.injEq, Prod.mk.injEq] at hf
      obtain ⟨-, rfl, -, -, rfl⟩ := hf
      exact ⟨[], p, P, A, rfl, rfl, hp, hC⟩
    | none =>
      simp only [h1, Option.map_eq_some_iff] at hf
      obtain ⟨⟨K1, r⟩, h2, h3⟩ := hf
      simp only [Prod.mk.injEq] at h3
      obtain ⟨-, rfl⟩ := h3
      obtain ⟨P1, q, P2, A', rfl, h4, h5, h6⟩ := ih h2
      exact ⟨p :: P1, q, P2, A', rfl, h4, h5, h6⟩
  | esc A1 A2 P1 P2 p C K0 kv E hE h0 h1 h2 ih1 ih2 =>
    simp only [findH, Option.map_eq_some_iff] at hf
    obtain ⟨⟨K1, r⟩, h7, h3⟩ := hf
    simp only [Prod.mk.injEq] at h3
    obtain ⟨-, rfl⟩ := h3
    obtain ⟨Q1, q, Q2, A', rfl, h4, h5, h6⟩ := ih1 h7
    exact ⟨P1 ++ p :: Q1, q, Q2, A', by simp, h4, h5, h6⟩
  | skip A K0 C kv P hC ih =>
    simp only [findH, Option.map_eq_some_iff] at hf
    obtain ⟨⟨K1, r⟩, h2, h3⟩ := hf
    simp only [Prod.mk.injEq] at h3
    obtain ⟨-, rfl⟩ := h3
    exact ih h2
  | letF A P x b ρ C E k own rk kv ok hx hb hk hC ih =>
    simp only [findH, Option.map_eq_some_iff] at hf
    obtain ⟨⟨K1, r⟩, h2, h3⟩ := hf
    simp only [Prod.mk.injEq] at h3
    obtain ⟨-, rfl⟩ := h3
    exact ih h2

theorem ctx_hin {A C kv P} (h : CtxRel A C kv P) : HIn C P := by
  induction h with
  | root => intro hs dx d ρ hm; simp at hm
  | done A C p P hp hC ih =>
    intro hs dx d ρ hm
    rcases List.mem_cons.1 hm with e | hm
    · exact ⟨p, by simp, e.symm⟩
    · obtain ⟨q, hq, he⟩ := ih hs dx d ρ hm
      exact ⟨q, by simp [hq], he⟩
  | esc A1 A2 P1 P2 p C K0 kv E hE h0 h1 h2 ih1 ih2 =>
    intro hs dx d ρ hm
    obtain ⟨q, hq, he⟩ := ih1 hs dx d ρ (by simpa using hm)
    exact ⟨q, by simp [hq], he⟩
  | skip A K0 C kv P hC ih => exact ih.cons (by simp)
  | letF A P x b ρ C E k own rk kv ok hx hb hk hC ih => exact ih.cons (by simp)

theorem ctx_tag {A C kv P} (h : CtxRel A C kv P) :
    ∀ q ∈ P, q.E.lookup (.t 6) = some (.tag q.tag) := by
  induction h with
  | root => simp
  | done A C p P hp hC ih =>
    intro q hq
    rcases List.mem_cons.1 hq with rfl | hq
    · exact hp.tag
    · exact ih q hq
  | esc A1 A2 P1 P2 p C K0 kv E hE h0 h1 h2 ih1 ih2 => exact ih2
  | skip A K0 C kv P hC ih => exact ih
  | letF A P x b ρ C E k own rk kv ok hx hb hk hC ih => exact ih

theorem handled_append (C C' : List Frame) : handled (C ++ C') = handled C ++ handled C' := by
  induction C with
  | nil => simp [handled]
  | cons f C ih => simp [handled, ih]

/-- The installed handlers are those that the machine counts. -/
theorem ctx_handled {A C kv P} (h : CtxRel A C kv P) :
    ∀ q ∈ P, ∀ a ∈ armAbs q.hs, a ∈ handled C := by
  induction h with
  | root => simp
  | done A C p P hp hC ih =>
    intro q hq a ha
    simp only [Pend.frame, handled, handledF, List.mem_append]
    rcases List.mem_cons.1 hq with rfl | hq
    · exact .inl ha
    · exact .inr (ih q hq a ha)
  | esc A1 A2 P1 P2 p C K0 kv E hE h0 h1 h2 ih1 ih2 =>
    intro q hq a ha
    have := ih2 q hq a ha
    rw [handled_append] at this
    simpa [handled, handledF] using this
  | skip A K0 C kv P hC ih =>
    intro q hq a ha
    simp [handled, ih q hq a ha]
  | letF A P x b ρ C E k own rk kv ok hx hb hk hC ih =>
    intro q hq a ha
    simp [handled, ih q hq a ha]

/-- The mark of an arm may be added below a handler. -/
theorem ctx_mark {A X kv P} (h : CtxRel A X kv P) : ∀ (K1 C1 Ki : List Frame) (hs : List Arm)
    (dx : Var) (d : Exp) (ρ : SEnv), X = K1 ++ .hdl hs dx d ρ :: C1 →
    CtxRel A (K1 ++ .hdl hs dx d ρ :: .armF Ki :: C1) kv P := by
  induction h with
  | root => intro K1 C1 Ki hs dx d ρ e; simp at e
  | done A C p P hp hC ih =>
    intro K1 C1 Ki hs dx d ρ e
    cases K1 with
    | nil =>
      obtain ⟨e1, rfl⟩ := List.cons.inj e
      rw [List.nil_append, ← e1]
      exact .done none _ p P hp (.skip A Ki C _ P hC)
    | cons f K1 =>
      obtain ⟨rfl, rfl⟩ := List.cons.inj e
      exact .done A _ p P hp (ih K1 C1 Ki hs dx d ρ rfl)
  | esc A1 A2 P1 P2 p C K0 kv E hE h0 h1 h2 ih1 ih2 =>
    intro K1 C1 Ki hs dx d ρ e
    cases K1 with
    | nil => cases (List.cons.inj e).1
    | cons f K1 =>
      obtain ⟨rfl, rfl⟩ := List.cons.inj e
      refine .esc A1 A2 P1 P2 p _ K0 kv E hE h0 (ih1 K1 C1 Ki hs dx d ρ rfl) ?_
      have := ih2 (K0 ++ [p.frame] ++ K1) C1 Ki hs dx d ρ (by simp)
      simpa using this
  | skip A K0 C kv P hC ih =>
    intro K1 C1 Ki hs dx d ρ e
    cases K1 with
    | nil => cases (List.cons.inj e).1
    | cons f K1 =>
      obtain ⟨rfl, rfl⟩ := List.cons.inj e
      exact .skip A K0 _ kv P (ih K1 C1 Ki hs dx d ρ rfl)
  | letF A P x b ρ0 C E k own rk kv ok hx hb hk hC ih =>
    intro K1 C1 Ki hs dx d ρ e
    cases K1 with
    | nil => cases (List.cons.inj e).1
    | cons f K1 =>
      obtain ⟨rfl, rfl⟩ := List.cons.inj e
      exact .letF A P x b ρ0 _ E k own rk kv ok hx hb hk (ih K1 C1 Ki hs dx d ρ rfl)

theorem EvRel.suffix {P1 P2 ms} (h : EvRel (P1 ++ P2) ms) : EvRel P2 ms :=
  fun p hp => h p (List.mem_append_right _ hp)

theorem POk.suffix {P1 P2 c} (h : POk (P1 ++ P2) c) : POk P2 c where
  nodup := by
    have := h.nodup
    rw [List.map_append] at this
    exact (List.nodup_append.1 this).2.1
  lt := fun p hp => h.lt p (List.mem_append_right _ hp)
  ok := fun p hp => h.ok p (List.mem_append_right _ hp)

/-! ## Frames -/

theorem Base.skip {A own rk ρ ms E} (h : Base A own rk ρ ms E) {r : Reg} {v : TVal}
    (hr : ∀ x, r ≠ .v x) (ho : r ≠ .own) : Base A own rk ρ ms ((r, v) :: E) where
  env := h.env.skip hr
  hown := by
    intro e
    rw [lk, if_neg ho.symm]
    exact h.hown e
  res := by
    intro r' e
    obtain ⟨h1, K, kv, tg, h2, h3, h4, h5⟩ := h.res r' e
    refine ⟨h1, K, kv, tg, h2, h3, ?_, ?_⟩
    · intro hm
      rw [lk, if_neg (fun e => hr _ e.symm)]
      exact h4 hm
    · rw [lk, if_neg ho.symm]
      exact h5

theorem Base.sub {A own rk ρ ms E} (h : Base A own rk ρ ms E) {ms' : List Var}
    (hs : ∀ x ∈ ms', x ∈ ms) : Base A own rk ρ ms' E where
  env := h.env.sub hs
  hown := h.hown
  res := by
    intro r' e
    obtain ⟨h1, K, kv, tg, h2, h3, h4, h5⟩ := h.res r' e
    exact ⟨h1, K, kv, tg, h2, h3, fun hm => h4 (hs _ hm), h5⟩

/-- Without the `resume`. -/
theorem Base.drop {A own rk ρ ms E} (h : Base A own rk ρ ms E) {ms' : List Var}
    (A' : Option RInfo) (hs : ∀ x ∈ ms', x ∈ ms ∧ some x ≠ rk) :
    Base A' own none ρ ms' E where
  env := h.env.mono fun x hx _ => hs x hx
  hown := h.hown
  res := by simp

theorem Base.cons {A own rk ρ ms E} (h : Base A own rk ρ ms E) {x : Var} {u : SVal}
    {u' : TVal} (hu : VRel u u') (hx : some x ≠ rk) :
    Base A own rk ((x, u) :: ρ) ms ((.v x, u') :: E) where
  env := h.env.cons hu
  hown := by
    intro e
    rw [lk, if_neg (by simp)]
    exact h.hown e
  res := by
    intro r' e
    subst e
    obtain ⟨h1, K, kv, tg, h2, h3, h4, h5⟩ := h.res r' rfl
    have hne : r' ≠ x := fun e => hx (by rw [e])
    have e1 : (r' == x) = false := by simpa using hne
    refine ⟨h1, K, kv, tg, h2, ?_, ?_, ?_⟩
    · simp only [List.lookup, e1]; exact h3
    · intro hm
      rw [lk, if_neg (by simpa using hne)]
      exact h4 hm
    · rw [lk, if_neg (by simp)]
      exact h5

/-- The frame of a function or closure that was called. -/
theorem entry {P : List Pend} {A : Option RInfo} {ms own ps us us' ρ Ec b kv}
    (hu : List.Forall₂ VRel us us') (hl : ps.length = us.length)
    (hok : okE ⟨ps ++ keys ρ, own, 3, none⟩ b = true)
    (hE : ∀ x ∈ mentions b, x ∉ ps → ∀ u, ρ.lookup x = some u →
      ∃ u', List.lookup (Reg.v x) Ec = some u' ∧ VRel u u')
    (hown : own = true → ∃ t, Ec.lookup .own = some (.tag t)) (hms : EvRel P ms) :
    CodeOk P A own none (ps.zip us ++ ρ) b
      ((.k 0 :: ps.map Reg.v).zip (kv :: us') ++ (evPart (some (.ev ms)) ++ Ec)) 0 0 kv where
  ok := by rw [keys_zip _ hl]; exact hok
  base :=
    { env := by
        refine EnvRel.skip (EnvRel.zip hu hl ?_) (by simp)
        intro x hx _ hp u hu
        obtain ⟨u', h1, h2⟩ := hE x hx hp u hu
        exact ⟨u', by simpa [evPart, lk] using h1, h2⟩
      hown := by
        intro e
        obtain ⟨t, ht⟩ := hown e
        refine ⟨t, ?_⟩
        rw [List.zip_cons_cons, List.cons_append, lk, if_neg (by simp), lookup_zipv (by simp)]
        simpa [evPart, lk] using ht
      res := by simp }
  k := by simp [lk]
  ev := ⟨ms, by
    rw [List.zip_cons_cons, List.cons_append, lk, if_neg (by simp), lookup_zipv (by simp)]
    rfl, hms⟩
  ev0 := ⟨ms, by
    rw [List.zip_cons_cons, List.cons_append, lk, if_neg (by simp), lookup_zipv (by simp)]
    rfl, hms⟩

/-! ## The claims -/

section
variable (M : Mach W) (F : List (Fn × (List Var × Exp))) (G : List (Fn × (List Reg × T)))
  (uf : SVal) (wf : W) (C0 : List Frame)

/-- The answer leads to the state in which the value is returned to the outermost context. -/
def Goal' (n : Nat) (P : List Pend) (R : TVal) (w : W) (c : Nat) : Prop :=
  ∃ m u u' w' c', m ≤ n ∧ Fin' M F uf wf m (.rt u, C0, w') ∧ VRel u u' ∧
    Unw M G P R w c u' w' c'

def EvClaim (n : Nat) : Prop :=
  ∀ (P : List Pend) (A : Option RInfo) (own : Bool) (rk : Option Var)
    (ρ : SEnv) (e : Exp) (E : TEnv) (k v : Nat) (kv : TVal) (C : List Frame) (w : W) (c : Nat),
    CodeOk P A own rk ρ e E k v kv → CtxRel A C kv P → POk P c →
    Fin' M F uf wf n (.ev ρ e, C ++ C0, w) →
    ∃ R w1 c1, Runs M G E ((low e).cps (keys ρ) own true k v) w c R w1 c1 ∧
      Goal' M F G uf wf C0 n P R w1 c1

def RtClaim (n : Nat) : Prop :=
  ∀ (P : List Pend) (A : Option RInfo) (u : SVal) (u' kv : TVal)
    (ms : List (Ab × (Nat × (TVal × TVal)))) (C : List Frame) (w : W) (c : Nat),
    VRel u u' → EvRel P ms → CtxRel A C kv P → POk P c →
    Fin' M F uf wf n (.rt u, C ++ C0, w) →
    ∃ R w1 c1, Applies M G kv [u'] (some (.ev ms)) w c R w1 c1 ∧
      Goal' M F G uf wf C0 n P R w1 c1

end

variable {M : Mach W} {F : List (Fn × (List Var × Exp))} {G : List (Fn × (List Reg × T))}
  {uf : SVal} {wf : W} {C0 : List Frame}

theorem Goal'.mono {n m P R w c} (h : Goal' M F G uf wf C0 n P R w c) (hl : n ≤ m) :
    Goal' M F G uf wf C0 m P R w c := by
  obtain ⟨i, u, u', w', c', h1, h2⟩ := h
  exact ⟨i, u, u', w', c', by omega, h2⟩

/-- An escape passes the handlers it does not belong to. -/
theorem unw_skip {P1 P2 : List Pend} {g : Nat} {v R' : TVal} {w w' : W} {c c' : Nat}
    (h1 : ∀ q ∈ P1, q.E.lookup (.t 6) = some (.tag q.tag)) (h2 : ∀ q ∈ P1, q.tag ≠ g)
    (h : Unw M G P2 (.esc g v) w c R' w' c') : Unw M G (P1 ++ P2) (.esc g v) w c R' w' c' := by
  induction P1 with
  | nil => exact h
  | cons q P1 ih =>
    refine ⟨.esc g v, w, c, ?_, ih (fun q hq => h1 q (by simp [hq])) fun q hq => h2 q (by simp [hq])⟩
    unfold answer
    refine .caseN_esc (g := g) (v1 := v) List.lookup_cons_self ?_
    refine .caseE_ne (g := g) (g' := q.tag) (v1 := v) List.lookup_cons_self ?_
      (fun e => h2 q (by simp) e.symm) (.ret List.lookup_cons_self)
    rw [lk, if_neg (by simp)]
    exact h1 q (by simp)

theorem rt_of {n : Nat} (ih : ∀ m < n, EvClaim M F G uf wf C0 m) : RtClaim M F G uf wf C0 n := by
  intro P A u u' kv ms C w c hu hms hctx hP hfin
  induction hctx generalizing ms n with
  | root =>
    exact ⟨u', w, c, ⟨_, _, _, _, rfl, frame_ok rfl, .ret rfl⟩,
      n, u, u', w, c, Nat.le_refl _, by simpa using hfin, hu, rfl, rfl, rfl⟩
  | done A C p P hp hC _ =>
    obtain ⟨n', s, rfl, hs, hfin'⟩ := Fin'.rt (C := C ++ C0) hfin
    simp only [Pend.frame, step, Option.some.injEq] at hs
    subst hs
    obtain ⟨ms1, h1, h2⟩ := hp.ev1
    obtain ⟨ms0, h3, h4⟩ := hp.ev0
    obtain ⟨R1, w1, c1, hr, m, u1, u1', w', c', hm, hf, hu1, hunw⟩ :=
      ih n' (by omega) P A p.own none ((p.dx, u) :: p.ρ) p.d
        ((.v p.dx, u') :: (.t 7, .nrm u') :: p.E) p.k (p.v + 1) p.kv C w c
        { ok := hp.okd
          base :=
            { env := (hp.env.skip (by simp)).cons hu
              hown := by
                intro e
                obtain ⟨t, ht⟩ := hp.hown e
                exact ⟨t, by simp [lk, ht]⟩
              res := by simp }
          k := by simp [lk, hp.k]
          ev := ⟨ms1, by simp [lk, h1], h2⟩
          ev0 := ⟨ms0, by simp [lk, h3], h4⟩ }
        hC (POk.suffix (P1 := [p]) hP) hfin'
    refine ⟨.nrm u', w, c, ⟨_, _, _, _, rfl, frame_ok rfl, .normal (v1 := u') rfl (.ret rfl)⟩,
      m, u1, u1', w', c', by omega, hf, hu1, R1, w1, c1, ?_, hunw⟩
    exact .caseN_nrm (v1 := u') List.lookup_cons_self hr
  | esc A1 A2 P1 P2 p C K0 kv0 E hE h0 h1 h2 ih1 ih2 =>
    obtain ⟨n', s, rfl, hs, hfin'⟩ := Fin'.rt (C := C ++ C0) hfin
    simp only [step, Option.some.injEq] at hs
    subst hs
    obtain ⟨ms0, h3, h4⟩ := h0.ev0
    have hP2 : POk (p :: P2) c := hP.suffix
    obtain ⟨R, w1, c1, hr, m, u1, u1', w', c', hm, hf, hu1, hunw⟩ :=
      ih1 (fun m hm => ih m (by omega)) ms0 h4 (POk.suffix (P1 := [p]) hP2) hfin'
    refine ⟨.esc p.tag u', w, c, ⟨_, _, _, _, rfl, frame_ok rfl, ?_⟩,
      m, u1, u1', w', c', by omega, hf, hu1, ?_⟩
    · refine .escape (g := p.tag) (v1 := u') ?_ rfl (.ret List.lookup_cons_self)
      simpa [evPart, lk] using hE
    · refine unw_skip (fun q hq => ctx_tag h2 q (by simp [hq])) ?_ ?_
      · intro q hq e
        have := hP.nodup
        rw [List.map_append, List.nodup_append] at this
        exact this.2.2 q.tag (List.mem_map_of_mem hq) p.tag (by simp) e
      · refine ⟨R, w1, c1, ?_, hunw⟩
        refine .caseN_esc (g := p.tag) (v1 := u') List.lookup_cons_self ?_
        refine .caseE_eq (g := p.tag) (v1 := u') List.lookup_cons_self ?_ ?_
        · rw [lk, if_neg (by simp)]
          exact h0.tag
        · exact .inv (kv := p.kv) (e := .ev ms0) (u := u') (by simp [lk, h0.k]) (by simp [lk, h3])
            List.lookup_cons_self hr
  | skip A K0 C kv P hC ih1 =>
    obtain ⟨n', s, rfl, hs, hfin'⟩ := Fin'.rt (C := C ++ C0) hfin
    simp only [step, Option.some.injEq] at hs
    subst hs
    obtain ⟨R, w1, c1, hr, hg⟩ := ih1 (fun m hm => ih m (by omega)) ms hms hP hfin'
    exact ⟨R, w1, c1, hr, hg.mono (by omega)⟩
  | letF A P x b ρ C E k own rk kv ok hx hb hk hC _ =>
    obtain ⟨n', s, rfl, hs, hfin'⟩ := Fin'.rt (C := C ++ C0) hfin
    simp only [step, Option.some.injEq] at hs
    subst hs
    obtain ⟨R1, w1, c1, hr, hg⟩ :=
      ih n' (by omega) P A own rk ((x, u) :: ρ) b
        ((.v x, u') :: (.ev 0, .ev ms) :: E) k 0 kv C w c
        { ok := ok
          base := (hb.skip (by simp) (by simp)).cons hu hx
          k := by simp [lk, hk]
          ev := ⟨ms, by simp [lk], hms⟩
          ev0 := ⟨ms, by simp [lk], hms⟩ }
        hC hP hfin'
    exact ⟨R1, w1, c1, ⟨_, _, _, _, rfl, frame_ok rfl, hr⟩, hg.mono (by omega)⟩

theorem lookup_extend {as : List Ab} {ms : List (Ab × (Nat × (TVal × TVal)))} {x : Nat × (TVal × TVal)}
    {a : Ab} : (as.foldl (fun ms a => (a, x) :: ms) ms).lookup a =
      if a ∈ as then some x else ms.lookup a := by
  induction as generalizing ms with
  | nil => simp
  | cons b as ih =>
    rw [List.foldl_cons, ih]
    by_cases h1 : a ∈ as
    · simp [h1]
    · by_cases h2 : a = b
      · subst h2; simp [h1]
      · have e : (a == b) = false := by simpa using h2
        simp [h1, h2, List.lookup, e]

theorem mem_abilities {hs : List Arm} {a : Ab} : a ∈ abilities (lowArms hs) ↔ a ∈ armAbs hs := by
  simp [abilities, armAbs, lowArms_eq, List.mem_dedup, lowArm_ab, Function.comp_def]

theorem handle_of {n : Nat} (ihe : EvClaim M F G uf wf C0 n) {P : List Pend} {A : Option RInfo}
    {own : Bool} {ρ : SEnv} {b : Exp} {hs : List Arm} {dx : Var} {d : Exp} {E : TEnv} {k v : Nat}
    {kv : TVal} {C : List Frame} {w : W} {c : Nat}
    (hdis : ¬ Nests ((.ev ρ (.handle b hs dx d), C ++ C0, w) : SState W))
    (hokb : okE ⟨keys ρ, own, 3, none⟩ b = true)
    (hoka : okArms (keys ρ) own hs = true)
    (hokd : okE ⟨dx :: keys ρ, own, 3, none⟩ d = true)
    (hown : own = true → ∃ t, E.lookup .own = some (.tag t))
    (henv : EnvRel (mentions (.handle b hs dx d)) none ρ E)
    (hk : E.lookup (.k k) = some kv)
    (hev : ∃ ms, E.lookup (.ev v) = some (.ev ms) ∧ EvRel P ms)
    (hev0 : ∃ ms, E.lookup (.ev 0) = some (.ev ms) ∧ EvRel P ms)
    (hctx : CtxRel A C kv P) (hP : POk P c)
    (hfin : Fin' M F uf wf n (.ev ρ b, .hdl hs dx d ρ :: (C ++ C0), w)) :
    ∃ R w1 c1, Runs M G E (handleCode (keys ρ) own true k v (mentions b) (low b) (lowArms hs) dx
        (low d)) w c R w1 c1 ∧ Goal' M F G uf wf C0 n P R w1 c1 := by
  obtain ⟨ms, hev, hms⟩ := hev
  obtain ⟨ms0, hev0, hms0⟩ := hev0
  -- the body
  have eb : EnvRel (mentions b) none ρ E := henv.sub (by simp +contextual [mentions])
  obtain ⟨vb, hvb, hvb'⟩ := capture (ps := []) (own := own) eb (by simp) hown (extra := [])
    (by simp)
  rw [List.append_nil] at hvb hvb'
  have hcb := capture_env (ps := []) (own := own) (extra := []) eb (by simpa using hvb')
  let bodyV : TVal := .clo ((capsOf (keys ρ) own (mentions b) []).zip vb) [.k 0]
    ((low b).cps (keys ρ) own true 0 0)
  let doneV : TVal := .clo [] [.t 0] doneBody
  let E2 : TEnv := (.t 3, doneV) :: (.t 2, bodyV) :: E
  -- the dispatch closures
  have ea : EnvRel (mentionsArms hs) none ρ E2 :=
    ((henv.sub (by simp +contextual [mentions])).skip (by simp)).skip (by simp)
  obtain ⟨vh, hvh, hvh'⟩ := capture (ps := []) (own := false) ea (by simp) (by simp) (extra := [])
    (by simp)
  rw [List.append_nil] at hvh hvh'
  have hch := capture_env (ps := []) (own := false) (extra := []) ea (by simpa using hvh')
  let hdV : TVal := .clo ((capsOf (keys ρ) false (mentionsArms hs) []).zip vh)
    [.k 0, .own, .t 0, .t 1] (hdCode (keys ρ) (lowArms hs))
  let E3 : TEnv := (.t 4, hdV) :: E2
  have hfnm : ∀ x ∈ mentionsArms (fnArms hs), x ∈ mentionsArms hs := by
    clear * -
    induction hs with
    | nil => simp [fnArms]
    | cons h hs ih =>
      intro x hx
      simp only [fnArms, List.filter_cons] at hx
      simp only [mentionsArms, List.mem_append]
      split at hx
      · simp only [mentionsArms, List.mem_append] at hx
        exact hx.imp id (ih x)
      · exact .inr (ih x hx)
  have et : EnvRel (mentionsArms (fnArms hs)) none ρ E3 := (ea.sub hfnm).skip (by simp)
  obtain ⟨vt, hvt, hvt'⟩ := capture (ps := []) (own := false) et (by simp) (by simp) (extra := [])
    (by simp)
  rw [List.append_nil] at hvt hvt'
  have hct := capture_env (ps := []) (own := false) (extra := []) et (by simpa using hvt')
  let trV : TVal := .clo ((capsOf (keys ρ) false (mentionsArms (fnArms hs)) []).zip vt)
    [.t 0, .t 1] (trCode (keys ρ) own (lowArms hs))
  let ms' := (abilities (lowArms hs)).foldl (fun ms a => (a, (c, (trV, hdV))) :: ms) ms
  let E6 : TEnv := (.ev (v + 1), .ev ms') :: (.t 6, .tag c) :: (.t 5, trV) :: E3
  have hms'P : EvRel P ms' := by
    intro q hq a ha
    show List.lookup a (List.foldl _ _ _) = _
    rw [lookup_extend, if_neg]
    · exact hms q hq a ha
    · rw [mem_abilities]
      intro h
      obtain ⟨x, hx, rfl⟩ := List.mem_map.1 h
      exact hdis ⟨x, hx, by
        rw [handled_append]
        exact List.mem_append_left _ (ctx_handled hctx q hq _ ha)⟩
  let p : Pend := ⟨hs, dx, d, ρ, own, c, trV, hdV, kv, E6, k, v⟩
  have hms'p : EvRel (p :: P) ms' := by
    intro q hq a ha
    rcases List.mem_cons.1 hq with rfl | hq
    · show List.lookup a (List.foldl _ _ _) = _
      rw [lookup_extend, if_pos (mem_abilities.2 ha)]
    · exact hms'P q hq a ha
  have hpo : PendOk P p :=
    { okd := hokd
      hown := by
        intro e
        obtain ⟨t, ht⟩ := hown e
        exact ⟨t, by simp [p, E6, E3, E2, lk, ht]⟩
      env := by
        have : EnvRel (mentions d) none ρ E := henv.sub (by simp +contextual [mentions])
        exact (((((this.skip (by simp)).skip (by simp)).skip (by simp)).skip (by simp)).skip
          (by simp)).skip (by simp)
      k := by simp [p, E6, E3, E2, lk, hk]
      ev1 := ⟨ms', by simp [p, E6], hms'P⟩
      ev0 := ⟨ms0, by simp [p, E6, E3, E2, lk, hev0], hms0⟩
      tag := by simp [p, E6, lk] }
  have hPp : POk (p :: P) (c + 1) :=
    { nodup := by
        rw [List.map_cons, List.nodup_cons]
        refine ⟨?_, hP.nodup⟩
        intro hm
        obtain ⟨q, hq, e⟩ := List.mem_map.1 hm
        have := hP.lt q hq
        have e' : q.tag = c := e
        omega
      lt := by
        intro q hq
        rcases List.mem_cons.1 hq with rfl | hq
        · exact Nat.lt_succ_self c
        · exact Nat.lt_succ_of_lt (hP.lt q hq)
      ok := by
        intro q hq
        rcases List.mem_cons.1 hq with rfl | hq
        · exact ⟨hoka, ⟨_, rfl, fun x hx _ u hu => hch x hx (by simp) (by simp) u hu⟩,
            ⟨_, rfl, fun x hx _ u hu => hct x hx (by simp) (by simp) u hu⟩⟩
        · exact hP.ok q hq }
  obtain ⟨R, w1, c1, hr, m, u, u', w', c', hm, hf, hu, R1, w2, c2, hr1, hunw⟩ :=
    ihe (p :: P) none own none ρ b
      ((.k 0, doneV) :: (.ev 0, .ev ms') :: (capsOf (keys ρ) own (mentions b) []).zip vb) 0 0 doneV
      (p.frame :: C) w (c + 1)
      { ok := hokb
        base :=
          { env := ((show EnvRel (mentions b) none ρ _ from
              fun x hx _ u hu => hcb x hx (by simp) (by simp) u hu).skip (by simp)).skip (by simp)
            hown := by
              intro e
              obtain ⟨t, ht⟩ := hown e
              refine ⟨t, ?_⟩
              rw [lk, if_neg (by simp), lk, if_neg (by simp), hvb' _ (by subst e; exact own_mem_capsOf)]
              exact ht
            res := by simp }
        k := by simp
        ev := ⟨ms', by simp [lk], hms'p⟩
        ev0 := ⟨ms', by simp [lk], hms'p⟩ }
      (.done A C p P hpo hctx) hPp hfin
  refine ⟨R1, w2, c2, ?_, m, u, u', w', c', hm, hf, hu, hunw⟩
  unfold handleCode
  refine .lam hvb ?_
  refine .lam (vs := []) rfl ?_
  rw [armsMs_low, lowArms_filter, armsMs_low]
  refine .lam hvh ?_
  refine .lam hvt ?_
  refine .freshTag ?_
  refine .extend (ms := ms) (g := c) (vt := trV) (vh := hdV) ?_ ?_ ?_ ?_ ?_
  · simp [lk, hev]
  · simp
  · simp [lk, trV]
  · simp [lk, hdV]
  refine .callC (gv := bodyV) (e := .ev ms') (vs := [doneV]) ?_ ?_ ?_
    ⟨_, _, _, _, rfl, frame_ok rfl, hr⟩ hr1
  · simp [lk, bodyV]
  · simp [ms', trV, hdV]
  · simp [lookups, lk, doneV]

theorem ev_of (hC0 : ∀ hs dx d ρ, Frame.hdl hs dx d ρ ∉ C0)
    (hF : ∀ f ps b, F.lookup f = some (ps, b) → G.lookup f = some (lowFun (ps, b)) ∧
      okE ⟨ps, false, 3, none⟩ b = true)
    {n : Nat} (ihe : ∀ m < n, EvClaim M F G uf wf C0 m) (ihr : ∀ m < n, RtClaim M F G uf wf C0 m) :
    EvClaim M F G uf wf C0 n := by
  intro P A own rk ρ e E k v kv C w c hco hctx hP hfin
  have hin : HIn (C ++ C0) P := by
    intro hs dx d ρ hm
    rcases List.mem_append.1 hm with hm | hm
    · exact ctx_hin hctx hs dx d ρ hm
    · exact absurd hm (hC0 _ _ _ _)
  obtain ⟨ms, hev, hms⟩ := id hco.ev
  have hok := hco.ok
  have henv := hco.base.env
  by_cases hd : direct true e = true
  · -- no continuation needed
    obtain ⟨m, u, u', w1, hm, hfm, hu, hr⟩ := dir_sim (G := G) hP.ok n ρ e E (C ++ C0) w c own 3 rk
      (some v) hfin hd hok henv hco.base.hown (fun _ => ⟨v, ms, rfl, hev, hms⟩) hin
    obtain ⟨R, w2, c2, ha, hg⟩ := ihr m hm P A u u' kv ms C w1 c hu hms hctx hP hfm
    refine ⟨R, w2, c2, ?_, hg.mono (by omega)⟩
    rw [cps_direct hd]
    exact .bind hr (.inv (by simp [lk, hco.k]) (by simp [lk, hev]) List.lookup_cons_self ha)
  obtain ⟨n', s, rfl, hs, hfin'⟩ := hfin.ev
  cases e with
  | var => simp [direct] at hd
  | prim => simp [direct] at hd
  | lam => simp [direct] at hd
  | lamD => simp [direct] at hd
  | appD => simp [direct] at hd
  | fnop => simp [direct] at hd
  | call f xs =>
    simp only [okE, Bool.and_eq_true, nm_iff] at hok
    simp only [step] at hs
    cases h1 : F.lookup f with
    | none => simp [h1] at hs
    | some d =>
      obtain ⟨ps, b⟩ := d
      cases h2 : slookups ρ xs with
      | none => simp [h2] at hs
      | some us =>
        simp only [h1, h2] at hs
        by_cases hl : ps.length = us.length
        · simp only [hl, if_true, Option.some.injEq] at hs
          subst hs
          obtain ⟨us', h5, h6⟩ := lookups_rel henv (xs := xs)
            (fun x hx => ⟨by simpa [mentions] using hx, hok.2 x hx⟩) h2
          obtain ⟨hG, hokb⟩ := hF f ps b h1
          obtain ⟨R, w1, c1, hr, hg⟩ := ihe n' (by omega) P A false none (ps.zip us ++ []) b _
            0 0 kv C w c
            (entry (ρ := []) (Ec := []) (kv := kv) h6 hl (by simpa using hokb) (by simp) (by simp)
              hms) hctx hP (by simpa using hfin')
          rw [keys_zip _ hl] at hr
          refine ⟨R, w1, c1, ?_, hg.mono (by omega)⟩
          simp only [low]
          refine .callF hG hev (vs := kv :: us') (by simp [lookups, hco.k, h5])
            (frame_ok (by simp [hl, h6.length_eq])) ?_ (.ret List.lookup_cons_self)
          simpa using hr
        · simp [hl] at hs
  | app g xs =>
    simp only [okE, Bool.and_eq_true, nm_iff] at hok
    simp only [step] at hs
    cases h1 : ρ.lookup g with
    | none => simp [h1] at hs
    | some gv =>
      cases h2 : slookups ρ xs with
      | none => simp [h2] at hs
      | some us =>
        obtain ⟨gv', h3, h4⟩ := henv g (by simp [mentions]) (hok.2 g (by simp)) gv h1
        obtain ⟨us', h5, h6⟩ := lookups_rel henv (xs := xs)
          (fun x hx => ⟨by simp [mentions, hx], hok.2 x (by simp [hx])⟩) h2
        cases h4 with
        | base => simp [h1, h2] at hs
        | cloD => simp [h1, h2] at hs
        | clo ps b ρ' Ec own' g' hokb hown' hE' hg' =>
          simp only [h1, h2] at hs
          by_cases hl : ps.length = us.length
          · simp only [hl, if_true, Option.some.injEq] at hs
            subst hs
            obtain ⟨R, w1, c1, hr, hg⟩ := ihe n' (by omega) P A own' none (ps.zip us ++ ρ') b _
              0 0 kv C w c
              (entry (Ec := Ec) (kv := kv) h6 hl hokb
                (fun x hx hp u hu => ⟨g' x, hE' x u hx hp hu, hg' x u hx hp hu⟩) hown' hms)
              hctx hP hfin'
            rw [keys_zip _ hl] at hr
            refine ⟨R, w1, c1, ?_, hg.mono (by omega)⟩
            simp only [low]
            refine .callC h3 hev (vs := kv :: us') (by simp [lookups, hco.k, h5])
              ⟨_, _, _, _, rfl, frame_ok (by simp [hl, h6.length_eq]), hr⟩
              (.ret List.lookup_cons_self)
          · simp [hl] at hs
  | op a o xs =>
    simp only [okE, Bool.and_eq_true, nm_iff] at hok
    simp only [step] at hs
    cases h2 : slookups ρ xs with
    | none => simp [h2] at hs
    | some us =>
      obtain ⟨us', h5, h6⟩ := lookups_rel henv (xs := xs)
        (fun x hx => ⟨by simpa [mentions] using hx, hok.2 x hx⟩) h2
      cases h7 : findH a o (C ++ C0) with
      | none => simp [h2, h7] at hs
      | some r =>
        obtain ⟨K, f, ⟨kd, a', o', ps, rk', b⟩, ρ', C1⟩ := r
        cases kd with
        | fn => simp [h2, h7] at hs
        | op =>
          simp only [h2, h7] at hs
          by_cases hl : ps.length = us.length
          · simp only [hl, if_true, Option.some.injEq] at hs
            subst hs
            obtain ⟨C', rfl, h8⟩ := findH_append hC0 h7
            obtain ⟨⟨hs, dx, d, rfl, hfa⟩, hCe⟩ := findH_spec h8
            obtain ⟨P1, p, P2, A', rfl, hpf, hpo, hctx'⟩ := ctx_find hctx h8
            simp only [Pend.frame, Frame.hdl.injEq] at hpf
            obtain ⟨rfl, rfl, rfl, rfl⟩ := hpf
            obtain ⟨hmem, hab, hopn⟩ := findArm_mem hfa
            simp only [Arm.ab, Arm.opn] at hab hopn
            subst hab hopn
            have hp : p ∈ P1 ++ p :: P2 := by simp
            have hho := hP.ok p hp
            have hoka := okArms_mem hho.ok hmem
            simp only [okArm, Bool.and_eq_true, Bool.not_eq_true', decide_eq_false_iff_not] at hoka
            obtain ⟨Eh, hhd, hEh⟩ := hho.hd
            have hms' : ∀ x ∈ mentions b, x ∈ mentionsArms p.hs :=
              fun x hx => mentionsArms_mem hmem x (by simpa [mentionsArm] using hx)
            let fr : Frame := .hdl p.hs p.dx p.d p.ρ
            let E0 : TEnv := (.v rk', kv) :: ([(.k 0, kv), (.own, .tag p.tag), (.t 0, .opi a' o'),
              (.t 1, .tup us')] ++ (evPart (some (.ev ms)) ++ Eh))
            let esc : TVal := .clo [(.own, .tag p.tag)] [.t 0] escBody
            let E1 : TEnv := (.k 1, esc) :: ((ps.map Reg.v).zip us' ++ E0)
            have hE1 : EnvRel (mentions b) (some rk')
                (ps.zip us ++ (rk', .cont (K ++ [fr])) :: p.ρ) E1 := by
              refine EnvRel.skip ?_ (by simp)
              refine EnvRel.zip h6 hl ?_
              intro x hx hne _ u hu
              have hne' : x ≠ rk' := fun e => hne (by rw [e])
              have e1 : (x == rk') = false := by simpa using hne'
              simp only [List.lookup, e1] at hu
              obtain ⟨u', h9, h10⟩ := hEh x (hms' x hx) (by simp) u hu
              exact ⟨u', by simpa [E0, lk, hne', evPart] using h9, h10⟩
            have low1 : ∀ r, (∀ x ∈ ps, r ≠ .v x) → r ≠ .k 1 → E1.lookup r = E0.lookup r := by
              intro r h h'
              show List.lookup r (_ :: _) = _
              rw [lk, if_neg h', lookup_zipv h]
            have hown1 : E1.lookup .own = some (.tag p.tag) := by
              rw [low1 _ (by simp) (by simp)]
              simp [E0, lk]
            have hev1 : E1.lookup (.ev 0) = some (.ev ms) := by
              rw [low1 _ (by simp) (by simp)]
              simp [E0, lk, evPart]
            obtain ⟨R, w1, c1, hr, hg⟩ := ihe n' (by omega) (P1 ++ p :: P2)
              (some ⟨K ++ [fr], kv, p.tag⟩) true (some rk')
              (ps.zip us ++ (rk', .cont (K ++ [fr])) :: p.ρ) b E1 1 0 esc
              (.armF (K ++ [fr]) :: C') w c
              { ok := by rw [keys_zip _ hl]; exact hoka.2
                base :=
                  { env := hE1
                    hown := fun _ => ⟨_, hown1⟩
                    res := by
                      intro r e
                      cases e
                      refine ⟨rfl, _, _, _, rfl, ?_, ?_, hown1⟩
                      · rw [lookup_append_of_none (lookup_zip_none hoka.1)]
                        simp
                      · intro _
                        rw [low1 _ (fun x hx e => hoka.1 (by cases e; exact hx)) (by simp)]
                        simp [E0, lk] }
                k := by simp [E1, lk]
                ev := ⟨ms, hev1, hms⟩
                ev0 := ⟨ms, hev1, hms⟩ }
              (.esc A' A P1 P2 p C' K kv _ (by simp [lk]) hpo hctx'
                (by rw [List.append_assoc]; simpa [hCe, Pend.frame] using hctx))
              hP hfin'
            rw [keys_zip _ hl] at hr
            refine ⟨R, w1, c1, ?_, hg.mono (by omega)⟩
            simp only [low]
            refine .perform hev hco.k h5 (hms p hp a' (List.mem_map.2 ⟨_, hmem, rfl⟩)) ?_
              (.ret List.lookup_cons_self)
            refine ⟨Eh, _, _, _, hhd, frame_ok rfl, ?_⟩
            rw [hdCode]
            refine Runs.chain (hs := p.hs) rfl hfa ?_
            simp only [lowArm, opArm]
            refine .bind (v1 := kv) (.ret rfl) ?_
            refine .unpack (vs := us') rfl (by simp [hl, h6.length_eq]) ?_
            refine .lam (vs := [.tag p.tag]) ?_ hr
            rw [lookups, lookup_zipv (by simp)]
            rfl
          · simp [hl] at hs
  | resume r x =>
    simp only [okE, Bool.and_eq_true, decide_eq_true_eq, nm_iff] at hok
    obtain ⟨⟨⟨-, rfl⟩, hnx⟩, -⟩ := hok
    obtain ⟨-, K, kvp, tg, rfl, hρr, hEr, hown⟩ := hco.base.res r rfl
    simp only [step, hρr] at hs
    cases h1 : ρ.lookup x with
    | none => simp [h1] at hs
    | some y =>
      simp only [h1, Option.some.injEq] at hs
      subst hs
      obtain ⟨y', h2, h3⟩ := henv x (by simp [mentions]) (hnx x (by simp)) y h1
      generalize hA : some (RInfo.mk K kvp tg) = A at hctx
      cases hctx with
      | root => cases hA
      | done => cases hA
      | letF => cases hA
      | skip => cases hA
      | esc A1 A2 P1 P2 p C K' kvp' Ee hE h0 hc1 hc2 =>
        cases hA
        have hc3 := ctx_mark hc2 K' C (K' ++ [p.frame]) p.hs p.dx p.d p.ρ (by simp [Pend.frame])
        obtain ⟨R, w1, c1, hr, hg⟩ := ihr n' (by omega) _ A2 y y' kvp ms _ w c h3 hms hc3 hP
          (by simpa [Pend.frame] using hfin')
        refine ⟨R, w1, c1, ?_, hg.mono (by omega)⟩
        have hcar : (∃ v1, R = .nrm v1) ∨ ∃ g v1, R = .esc g v1 := by
          obtain ⟨m, u, u', w', c', -, -, -, hunw⟩ := hg
          cases P1 with
          | nil =>
            obtain ⟨R1, w2, c2, h4, -⟩ := hunw
            exact h4.caseN_carrier List.lookup_cons_self
          | cons q P1 =>
            obtain ⟨R1, w2, c2, h4, -⟩ := hunw
            exact h4.caseN_carrier List.lookup_cons_self
        simp only [low, resumeCode]
        refine .callC (hEr (by simp [mentions])) hev (vs := [y']) (by simp [lookups, h2]) hr ?_
        rcases hcar with ⟨v1, rfl⟩ | ⟨g, v1, rfl⟩
        · refine .caseN_nrm (v1 := v1) List.lookup_cons_self ?_
          refine .callC (gv := .clo Ee [.t 0] escBody) (e := .ev ms) (vs := [v1])
            (v1 := .esc p.tag v1) (w1 := w1) (c1 := c1) (by simp [lk, hco.k]) (by simp [lk, hev])
            (by simp [lookups]) ?_ ?_
          · refine ⟨_, _, _, _, rfl, frame_ok rfl, ?_⟩
            refine .escape (g := p.tag) (v1 := v1) ?_ rfl (.ret List.lookup_cons_self)
            simpa [evPart, lk] using hE
          · refine .caseE_eq (g := p.tag) (v1 := v1) List.lookup_cons_self ?_ ?_
            · simp [lk, hown]
            · exact .normal List.lookup_cons_self (.ret List.lookup_cons_self)
        · exact .caseN_esc (g := g) (v1 := v1) List.lookup_cons_self (.ret List.lookup_cons_self)
  | letE x a b =>
    simp only [okE, Bool.and_eq_true, nm_iff] at hok
    simp only [step, Option.some.injEq] at hs
    subst hs
    simp only [direct] at hd
    obtain ⟨ms0, hev0, hms0⟩ := id hco.ev0
    have hbb : Base A own rk ρ (mentions b) E := hco.base.sub (by simp +contextual [mentions])
    have hxr : some x ≠ rk := hok.1.1 x (by simp)
    by_cases ha : direct true a = true
    · obtain ⟨m, u, u', w1, hm, hfm, hu, hr⟩ := dir_sim (G := G) hP.ok n' ρ a E
        (.letF x b ρ :: (C ++ C0)) w c own 3 none (some v) hfin' ha hok.1.2
        (henv.mono fun y hy _ => ⟨by simp [mentions, hy], hok.1.1 y (by simp [hy])⟩)
        hco.base.hown (fun _ => ⟨v, ms, rfl, hev, hms⟩) (hin.cons (by simp))
      obtain ⟨m', s', rfl, hs', hfm'⟩ := hfm.rt
      simp only [step, Option.some.injEq] at hs'
      subst hs'
      obtain ⟨R, w2, c2, hr2, hg⟩ := ihe m' (by omega) P A own rk ((x, u) :: ρ) b
        ((.v x, u') :: E) k v kv C w1 c
        { ok := hok.2
          base := hbb.cons hu hxr
          k := by simp [lk, hco.k]
          ev := ⟨ms, by simp [lk, hev], hms⟩
          ev0 := ⟨ms0, by simp [lk, hev0], hms0⟩ } hctx hP hfm'
      refine ⟨R, w2, c2, ?_, hg.mono (by omega)⟩
      have hb : direct true b = false := by simpa [ha] using hd
      simp only [low, ha, hb, Bool.and_false, Bool.false_eq_true, if_false, if_true]
      exact .bind hr hr2
    · have ha' : direct true a = false := by simpa using ha
      obtain ⟨vs, h1, h2⟩ := capture (ps := []) (own := own) hbb.env (rk := rk)
        (fun r hr e => by
          obtain ⟨-, K, kvr, tg, -, -, h4, -⟩ := hbb.res r e.symm
          exact ⟨kvr, h4 hr⟩) hbb.hown (extra := [.k k]) (by simp [hco.k])
      have h3 := capture_env (ps := []) (own := own) hbb.env h2
      obtain ⟨R, w1, c1, hr, hg⟩ := ihe n' (by omega) P none own none ρ a
        ((.k (k + 1), .clo ((capsOf (keys ρ) own (mentions b) [] ++ [Reg.k k]).zip vs) [.v x]
          ((low b).cps (x :: keys ρ) own true k 0)) :: E) (k + 1) v _ (.letF x b ρ :: C) w c
        { ok := hok.1.2
          base := (hco.base.drop none (fun y hy =>
            ⟨by simp [mentions, hy], hok.1.1 y (by simp [hy])⟩)).skip (by simp) (by simp)
          k := List.lookup_cons_self
          ev := ⟨ms, by simp [lk, hev], hms⟩
          ev0 := ⟨ms0, by simp [lk, hev0], hms0⟩ }
        (.letF A P x b ρ C _ k own rk kv hok.2 hxr
          { env := fun y hy hn u hu => h3 y hy hn (by simp) u hu
            hown := by
              intro e
              subst e
              obtain ⟨t, ht⟩ := hbb.hown rfl
              exact ⟨t, by rw [h2 _ (List.mem_append_left _ own_mem_capsOf), ht]⟩
            res := by
              intro r e
              obtain ⟨h4, K, kvr, tg, h5, h6, h7, h8⟩ := hbb.res r e
              refine ⟨h4, K, kvr, tg, h5, h6, ?_, ?_⟩
              · intro hr
                rw [h2 _ (List.mem_append_left _ (mem_capsOf (lookup_mem_keys h6) hr (by simp)))]
                exact h7 hr
              · subst h4
                rw [h2 _ (List.mem_append_left _ own_mem_capsOf)]
                exact h8 }
          (by rw [h2 _ (by simp)]; exact hco.k) hctx) hP hfin'
      refine ⟨R, w1, c1, ?_, hg.mono (by omega)⟩
      simp only [low, ha', Bool.false_and, Bool.false_eq_true, if_false]
      exact .lam h1 hr
  | ite x a b =>
    simp only [okE, Bool.and_eq_true, nm_iff] at hok
    simp only [step] at hs
    simp only [direct, Bool.not_eq_true] at hd
    cases h1 : ρ.lookup x with
    | none => simp [h1] at hs
    | some gv =>
      obtain ⟨gv', h3, h4⟩ := henv x (by simp [mentions]) (hok.1.1 x (by simp)) gv h1
      cases h4 with
      | clo => simp [h1] at hs
      | cloD => simp [h1] at hs
      | base z =>
        simp only [h1, Option.some.injEq] at hs
        subst hs
        by_cases hz : z = 0
        · simp only [hz, ne_eq, not_true_eq_false, if_false] at hfin'
          obtain ⟨R, w1, c1, hr, hg⟩ := ihe n' (by omega) P A own rk ρ b E k v kv C w c
            ⟨hok.2, hco.base.sub (by simp +contextual [mentions]), hco.k, hco.ev, hco.ev0⟩ hctx hP
            hfin'
          refine ⟨R, w1, c1, ?_, hg.mono (by omega)⟩
          simp only [low, hd, Bool.false_eq_true, if_false]
          exact .cond h3 (by simpa [hz] using hr)
        · simp only [ne_eq, hz, not_false_eq_true, if_true] at hfin'
          obtain ⟨R, w1, c1, hr, hg⟩ := ihe n' (by omega) P A own rk ρ a E k v kv C w c
            ⟨hok.1.2, hco.base.sub (by simp +contextual [mentions]), hco.k, hco.ev, hco.ev0⟩ hctx hP
            hfin'
          refine ⟨R, w1, c1, ?_, hg.mono (by omega)⟩
          simp only [low, hd, Bool.false_eq_true, if_false]
          exact .cond h3 (by simpa [hz] using hr)
  | handle b hs dx d =>
    simp only [okE, Bool.and_eq_true, decide_eq_true_eq] at hok
    obtain ⟨⟨⟨⟨hrk, -⟩, hokb⟩, hoka⟩, hokd⟩ := hok
    subst hrk
    simp only [step, Option.some.injEq] at hs
    subst hs
    obtain ⟨R, w1, c1, hr, hg⟩ := handle_of (ihe n' (by omega)) (hfin.2 0 _ rfl) hokb hoka hokd
      hco.base.hown henv hco.k hco.ev hco.ev0 hctx hP hfin'
    refine ⟨R, w1, c1, ?_, hg.mono (by omega)⟩
    simp only [low, if_true]
    exact hr

end Verif.Effects
