import Verif.Effects.Rel

/-! Code that needs no continuation. -/

namespace Verif.Effects

variable {W : Type}

/-! ## Steps to the final state -/

/-- The machine reaches the given final state in `n` steps. -/
def Fin' (M : Mach W) (F : List (Fn × (List Var × Exp))) (uf : SVal) (wf : W) (n : Nat)
    (s : SState W) : Prop :=
  steps M F n s = some (.rt uf, [], wf) ∧ ∀ i s', steps M F i s = some s' → ¬ Nests s'

variable {M : Mach W} {F : List (Fn × (List Var × Exp))} {uf : SVal} {wf : W}

theorem Fin'.ev {n ρ e C w} (h : Fin' M F uf wf n (.ev ρ e, C, w)) :
    ∃ n' s, n = n' + 1 ∧ step M F (.ev ρ e, C, w) = some s ∧ Fin' M F uf wf n' s := by
  cases n with
  | zero => simp [Fin', steps] at h
  | succ n =>
    obtain ⟨h, hn⟩ := h
    simp only [steps, Option.bind_eq_some_iff] at h
    obtain ⟨s, h1, h2⟩ := h
    refine ⟨n, s, rfl, h1, h2, fun i s' hi => hn (i + 1) s' ?_⟩
    simp only [steps, h1, Option.bind_some]
    exact hi

theorem Fin'.rt {n v f C w} (h : Fin' M F uf wf n (.rt v, f :: C, w)) :
    ∃ n' s, n = n' + 1 ∧ step M F (.rt v, f :: C, w) = some s ∧ Fin' M F uf wf n' s := by
  cases n with
  | zero => simp [Fin', steps] at h
  | succ n =>
    obtain ⟨h, hn⟩ := h
    simp only [steps, Option.bind_eq_some_iff] at h
    obtain ⟨s, h1, h2⟩ := h
    refine ⟨n, s, rfl, h1, h2, fun i s' hi => hn (i + 1) s' ?_⟩
    simp only [steps, h1, Option.bind_some]
    exact hi

/-! ## Finding handlers and arms -/

theorem findH_spec {a : Ab} {o : Opn} {C K : List Frame} {f : Frame} {h : Arm} {ρ : SEnv}
    {C' : List Frame} (hf : findH a o C = some (K, f, h, ρ, C')) :
    (∃ hs dx d, f = .hdl hs dx d ρ ∧ findArm hs a o = some h) ∧ C = K ++ f :: C' := by
  induction C generalizing K with
  | nil => simp [findH] at hf
  | cons g C ih =>
    have other : (findH a o C).map (fun r => (g :: r.1, r.2)) = some (K, f, h, ρ, C') →
        (∃ hs dx d, f = .hdl hs dx d ρ ∧ findArm hs a o = some h) ∧ g :: C = K ++ f :: C' := by
      intro hm
      obtain ⟨⟨K1, r⟩, h1, h2⟩ := Option.map_eq_some_iff.1 hm
      simp only [Prod.mk.injEq] at h2
      obtain ⟨rfl, rfl⟩ := h2
      obtain ⟨h3, rfl⟩ := ih h1
      exact ⟨h3, rfl⟩
    cases g with
    | letF x b ρ0 => exact other (by simpa [findH] using hf)
    | fnF K0 => exact other (by simpa [findH] using hf)
    | armF K0 => exact other (by simpa [findH] using hf)
    | hdl hs dx d ρ0 =>
      simp only [findH] at hf
      cases h1 : findArm hs a o with
      | none => exact other (by simpa [h1] using hf)
      | some h0 =>
        simp only [h1, Option.some.injEq, Prod.mk.injEq] at hf
        obtain ⟨rfl, rfl, rfl, rfl, rfl⟩ := hf
        exact ⟨⟨hs, dx, d, rfl, h1⟩, rfl⟩

theorem findArm_mem {hs : List Arm} {a : Ab} {o : Opn} {h : Arm} (hf : findArm hs a o = some h) :
    h ∈ hs ∧ h.ab = a ∧ h.opn = o := by
  refine ⟨List.mem_of_find?_eq_some hf, ?_⟩
  have := List.find?_some hf
  simpa using this

theorem lowArms_eq (hs : List Arm) : lowArms hs = hs.map lowArm := by
  induction hs with
  | nil => rfl
  | cons h hs ih => simp [lowArms, ih]

theorem okArms_mem {Γ : List Var} {own : Bool} {hs : List Arm}
    (h : okArms Γ own hs = true) {x : Arm} (hx : x ∈ hs) : okArm Γ own x = true := by
  induction hs with
  | nil => simp at hx
  | cons y hs ih =>
    simp only [okArms, Bool.and_eq_true] at h
    rcases List.mem_cons.1 hx with rfl | hx
    · exact h.1
    · exact ih h.2 hx

theorem mentionsArms_mem {hs : List Arm} {h : Arm} (hh : h ∈ hs) :
    ∀ x ∈ mentionsArm h, x ∈ mentionsArms hs := by
  induction hs with
  | nil => simp at hh
  | cons y hs ih =>
    intro x hx
    simp only [mentionsArms, List.mem_append]
    rcases List.mem_cons.1 hh with rfl | hh
    · exact .inl hx
    · exact .inr (ih hh x hx)

theorem lowArm_ab (h : Arm) : (lowArm h).a = h.ab := by cases h; rfl
theorem lowArm_o (h : Arm) : (lowArm h).o = h.opn := by cases h; rfl
theorem lowArm_kd (h : Arm) : (lowArm h).kd = h.kind := by cases h; rfl
theorem lowArm_ms (h : Arm) : (lowArm h).ms = mentionsArm h := by cases h; rfl

theorem armsMs_low (hs : List Arm) : armsMs (lowArms hs) = mentionsArms hs := by
  induction hs with
  | nil => rfl
  | cons h hs ih =>
    simp only [lowArms, armsMs, List.flatMap_cons, mentionsArms, lowArm_ms] at ih ⊢
    rw [ih]

theorem lowArms_filter (hs : List Arm) :
    (lowArms hs).filter (fun h => h.kd = .fn) = lowArms (fnArms hs) := by
  simp only [lowArms_eq, fnArms, List.filter_map]
  congr 1
  refine List.filter_congr fun h _ => ?_
  simp [lowArm_kd]

theorem findArm_fn {hs : List Arm} {a : Ab} {o : Opn} {h : Arm} (hf : findArm hs a o = some h)
    (hk : h.kind = .fn) : findArm (fnArms hs) a o = some h := by
  induction hs with
  | nil => simp [findArm] at hf
  | cons y hs ih =>
    simp only [findArm, List.find?_cons] at hf
    simp only [findArm, fnArms, List.filter_cons]
    by_cases e : decide (y.ab = a ∧ y.opn = o) = true
    · simp only [e, Option.some.injEq] at hf
      subst hf
      simp only [hk, decide_true, if_true, List.find?_cons, e]
    · simp only [Bool.not_eq_true] at e
      simp only [e] at hf
      have := ih hf
      simp only [findArm, fnArms] at this
      split
      · simp only [List.find?_cons, e]
        exact this
      · exact this

variable {G : List (Fn × (List Reg × T))}

/-- The comparisons lead to the arm for the operation. -/
theorem Runs.chain {E : TEnv} {a : Ab} {o : Opn} {code : ArmL → T} {hs : List Arm} {h : Arm}
    {w w' : W} {c c' : Nat} {v : TVal} (hE : E.lookup (.t 0) = some (.opi a o))
    (hf : findArm hs a o = some h) (hr : Runs M G E (code (lowArm h)) w c v w' c') :
    Runs M G E (chain (.t 0) code (lowArms hs)) w c v w' c' := by
  induction hs with
  | nil => simp [findArm] at hf
  | cons y hs ih =>
    simp only [findArm, List.find?_cons] at hf
    cases hs with
    | nil =>
      by_cases e : decide (y.ab = a ∧ y.opn = o) = true
      · simp only [e, Option.some.injEq] at hf
        subst hf
        exact hr
      · simp only [Bool.not_eq_true] at e
        simp [e] at hf
    | cons z hs =>
      simp only [lowArms, Verif.Effects.chain]
      by_cases e : decide (y.ab = a ∧ y.opn = o) = true
      · simp only [e, Option.some.injEq] at hf
        subst hf
        simp only [decide_eq_true_eq] at e
        obtain ⟨rfl, rfl⟩ := e
        rw [lowArm_ab, lowArm_o]
        exact .opcase_eq hE hr
      · simp only [Bool.not_eq_true] at e
        simp only [e] at hf
        simp only [decide_eq_false_iff_not] at e
        rw [lowArm_ab, lowArm_o]
        exact .opcase_ne hE (fun h => e ⟨h.1.symm, h.2.symm⟩) (ih hf)

/-! ## Direct code -/

theorem direct_false {e : Exp} (h : direct true e = true) : direct false e = true := by
  induction e using Exp.rec (motive_2 := fun _ => True) (motive_3 := fun _ => True) with
  | letE x a b iha ihb =>
    simp only [direct, Bool.and_eq_true] at h ⊢
    exact ⟨iha h.1, ihb h.2⟩
  | ite x a b iha ihb =>
    simp only [direct, Bool.and_eq_true] at h ⊢
    exact ⟨iha h.1, ihb h.2⟩
  | mk => trivial
  | nil => trivial
  | cons => trivial
  | _ => simp_all [direct]

theorem cps_direct {e : Exp} {p : Bool} (h : direct p e = true) (Γ : List Var) (own : Bool)
    (k v : Nat) : (low e).cps Γ own p k v = ofDir ((low e).dir Γ own (some v)) k v := by
  cases e with
  | handle b hs dx d =>
    cases p with
    | true => simp [direct] at h
    | false => simp [low]
  | letE x a b => simp only [direct] at h; simp only [low, h, if_true]
  | ite x a b => simp only [direct] at h; simp only [low, h, if_true]
  | _ => first | rfl | simp [direct] at h

/-- The handlers among the waiting frames are installed. -/
def HIn (C : List Frame) (P : List Pend) : Prop :=
  ∀ hs dx d ρ, Frame.hdl hs dx d ρ ∈ C → ∃ p ∈ P, p.frame = .hdl hs dx d ρ

theorem HIn.cons {C P} (h : HIn C P) {f : Frame} (hf : ∀ hs dx d ρ, f ≠ .hdl hs dx d ρ) :
    HIn (f :: C) P := by
  intro hs dx d ρ hm
  rcases List.mem_cons.1 hm with e | hm
  · exact absurd e.symm (hf _ _ _ _)
  · exact h _ _ _ _ hm

theorem HIn.suffix {C C' K P} (h : HIn C P) (e : C = K ++ C') : HIn C' P := by
  subst e
  exact fun hs dx d ρ hm => h hs dx d ρ (List.mem_append_right _ hm)

theorem frame_ok {env : TEnv} {ps : List Reg} {args : List TVal} {ev : Option TVal}
    (h : ps.length = args.length) :
    frame env ps args ev =
      some (ps.zip args ++ (evPart ev ++ env)) := by
  simp [frame, h]

theorem dir_sim {P : List Pend} (hP : ∀ p ∈ P, HOk p) (n : Nat) :
    ∀ (ρ : SEnv) (e : Exp) (E : TEnv) (C : List Frame) (w : W) (c : Nat) (own : Bool) (lvl : Nat)
      (rk : Option Var) (ev : Option Nat),
    Fin' M F uf wf n (.ev ρ e, C, w) → direct true e = true →
    okE ⟨keys ρ, own, lvl, rk⟩ e = true → EnvRel (mentions e) rk ρ E →
    (own = true → ∃ t, E.lookup .own = some (.tag t)) →
    (2 ≤ lvl → ∃ v ms, ev = some v ∧ E.lookup (.ev v) = some (.ev ms) ∧ EvRel P ms) →
    HIn C P →
    ∃ m u u' w', m < n ∧ Fin' M F uf wf m (.rt u, C, w') ∧ VRel u u' ∧
      Runs M G E ((low e).dir (keys ρ) own ev) w c u' w' c := by
  induction n using Nat.strongRecOn with
  | _ n IH =>
  intro ρ e E C w c own lvl rk ev hfin hd hok henv hown hev hC
  obtain ⟨n', s, rfl, hs, hfin'⟩ := hfin.ev
  cases e with
  | var x =>
    simp only [step, Option.map_eq_some_iff] at hs
    obtain ⟨u, hu, rfl⟩ := hs
    simp only [okE, nm_iff] at hok
    obtain ⟨u', h1, h2⟩ := henv x (by simp [mentions]) (hok x (by simp)) u hu
    exact ⟨n', u, u', w, by omega, hfin', h2, .ret h1⟩
  | prim q xs =>
    simp only [step] at hs
    cases h1 : (slookups ρ xs).bind sbases with
    | none => simp [h1] at hs
    | some bs =>
      obtain ⟨us, h2, h3⟩ := Option.bind_eq_some_iff.1 h1
      simp only [h1, Option.map_eq_some_iff] at hs
      obtain ⟨⟨b, w'⟩, h4, rfl⟩ := hs
      simp only [okE, nm_iff] at hok
      obtain ⟨us', h5, h6⟩ := lookups_rel henv (xs := xs)
        (fun x hx => ⟨by simpa [mentions] using hx, hok x hx⟩) h2
      exact ⟨n', .base b, .base b, w', by omega, hfin', .base b,
        .prim h5 (bases_rel h6 h3) h4 (.ret List.lookup_cons_self)⟩
  | lam ps b =>
    simp only [step, Option.some.injEq] at hs
    subst hs
    simp only [okE, Bool.and_eq_true, nm_iff] at hok
    have henv' : EnvRel (mentions b) none ρ E :=
      henv.mono fun x hx _ => ⟨by simpa [mentions] using hx, hok.1 x hx⟩
    obtain ⟨vs, h1, h2⟩ := capture (ps := ps) (own := own) henv' (by simp) hown (extra := [])
      (by simp)
    rw [List.append_nil] at h1 h2
    have h3 := capture_env (ps := ps) (own := own) (extra := []) henv' (by simpa using h2)
    refine ⟨n', _, _, w, by omega, hfin', ?_, .lam h1 (.ret List.lookup_cons_self)⟩
    classical
    refine VRel.clo ps b ρ _ own
      (fun x => (((capsOf (keys ρ) own (mentions b) ps).zip vs).lookup (.v x)).getD (.tag 0))
      hok.2 ?_ ?_ ?_
    · intro ho
      subst ho
      obtain ⟨t, ht⟩ := hown rfl
      exact ⟨t, by rw [h2 _ own_mem_capsOf, ht]⟩
    · intro x u hx hp hu
      obtain ⟨u', h4, -⟩ := h3 x hx (by simp) hp u hu
      simp [h4]
    · intro x u hx hp hu
      obtain ⟨u', h4, h5⟩ := h3 x hx (by simp) hp u hu
      simpa [h4] using h5
  | lamD ps b =>
    simp only [step, Option.some.injEq] at hs
    subst hs
    simp only [okE, Bool.and_eq_true, nm_iff, Bool.not_eq_true', List.all_eq_true, Bool.or_eq_true,
      decide_eq_true_eq, decide_eq_false_iff_not] at hok
    obtain ⟨⟨⟨⟨hnm, rfl⟩, hcl⟩, hokb⟩, hdb⟩ := hok
    have hcaps : capsOf (keys ρ) false (mentions b) ps = [] := by
      apply List.eq_nil_iff_forall_not_mem.2
      intro r hr
      rcases of_mem_capsOf hr with ⟨x, -, h1, h2, h3⟩ | ⟨-, h⟩
      · exact (hcl x h1).elim (fun h => h h2) h3
      · cases h
    refine ⟨n', _, _, w, by omega, hfin', ?_, .lam (vs := []) (by simp [hcaps, lookups])
      (.ret List.lookup_cons_self)⟩
    rw [hcaps]
    refine VRel.cloD ps b ρ hokb hdb ?_
    intro x hx hp
    cases h1 : ρ.lookup x with
    | none => rfl
    | some u => exact ((hcl x (lookup_mem_keys h1)).elim (fun h => h hx) hp).elim
  | call f xs => simp [direct] at hd
  | app f xs => simp [direct] at hd
  | op a o xs => simp [direct] at hd
  | resume k x => simp [direct] at hd
  | handle b hs dx d => simp [direct] at hd
  | appD g xs =>
    simp only [okE, nm_iff] at hok
    simp only [step] at hs
    cases h1 : ρ.lookup g with
    | none => simp [h1] at hs
    | some gv =>
      cases h2 : slookups ρ xs with
      | none => simp [h2] at hs
      | some us =>
        obtain ⟨gv', h3, h4⟩ := henv g (by simp [mentions]) (hok g (by simp)) gv h1
        obtain ⟨us', h5, h6⟩ := lookups_rel henv (xs := xs)
          (fun x hx => ⟨by simp [mentions, hx], hok x (by simp [hx])⟩) h2
        cases h4 with
        | base => simp [h1, h2] at hs
        | clo => simp [h1, h2] at hs
        | cloD ps b ρ' hokb hdb hn =>
          simp only [h1, h2] at hs
          by_cases hl : ps.length = us.length
          · simp only [hl, if_true, Option.some.injEq] at hs
            subst hs
            obtain ⟨m, u, u', w', hm, hfm, hu, hr⟩ := IH n' (by omega) (ps.zip us ++ ρ') b
              ((ps.map Reg.v).zip us' ++ []) C w c false 1 none none hfin' hdb
              (by rw [keys_zip _ hl]; exact hokb)
              (EnvRel.zip h6 hl (fun x hx _ hp u hu => by rw [hn x hx hp] at hu; cases hu))
              (by simp) (by simp) hC
            rw [keys_zip _ hl] at hr
            refine ⟨m, u, u', w', by omega, hfm, hu, ?_⟩
            simp only [low]
            refine .callD h3 h5 (frame_ok ?_) ?_ (.ret List.lookup_cons_self)
            · simp [hl, h6.length_eq]
            · exact hr
          · simp [hl] at hs
  | fnop a o xs =>
    simp only [okE, Bool.and_eq_true, decide_eq_true_eq, nm_iff] at hok
    obtain ⟨v, ms, rfl, hv, hms⟩ := hev hok.1
    simp only [step] at hs
    cases h2 : slookups ρ xs with
    | none => simp [h2] at hs
    | some us =>
      obtain ⟨us', h5, h6⟩ := lookups_rel henv (xs := xs)
        (fun x hx => ⟨by simpa [mentions] using hx, hok.2 x hx⟩) h2
      cases h7 : findH a o C with
      | none => simp [h2, h7] at hs
      | some r =>
        obtain ⟨K, f, ⟨kd, a', o', ps, rk', b⟩, ρ', C'⟩ := r
        cases kd with
        | op => simp [h2, h7] at hs
        | fn =>
          simp only [h2, h7] at hs
          by_cases hl : ps.length = us.length
          · simp only [hl, if_true, Option.some.injEq] at hs
            subst hs
            obtain ⟨⟨hs, dx, d, rfl, hfa⟩, hCe⟩ := findH_spec h7
            obtain ⟨p, hp, hpf⟩ := hC hs dx d ρ' (by rw [hCe]; simp)
            simp only [Pend.frame, Frame.hdl.injEq] at hpf
            obtain ⟨rfl, rfl, rfl, rfl⟩ := hpf
            obtain ⟨hmem, hab, hopn⟩ := findArm_mem hfa
            simp only [Arm.ab, Arm.opn] at hab hopn
            subst hab hopn
            have hpo := hP p hp
            have hoka := okArms_mem hpo.ok hmem
            simp only [okArm, Bool.and_eq_true, Bool.not_eq_true'] at hoka
            obtain ⟨Et, htr, hEt⟩ := hpo.tr
            have hfa' := findArm_fn hfa rfl
            have hms' : ∀ x ∈ mentions b, x ∈ mentionsArms (fnArms p.hs) :=
              fun x hx => mentionsArms_mem (findArm_mem hfa').1 x (by simpa [mentionsArm] using hx)
            -- the frame of the arm
            let E0 : TEnv := [(.t 0, .opi a' o'), (.t 1, .tup us')] ++ ([(.ev 0, .ev ms)] ++ Et)
            let E1 : TEnv := (.k 1, .clo [] [.t 0] idBody) :: ((ps.map Reg.v).zip us' ++ E0)
            have hE1 : EnvRel (mentions b) none (ps.zip us ++ p.ρ) E1 := by
              refine EnvRel.skip ?_ (by simp)
              refine EnvRel.zip h6 hl ?_
              intro x hx _ _ u hu
              obtain ⟨u', h8, h9⟩ := hEt x (hms' x hx) (by simp) u hu
              exact ⟨u', by simpa [E0, lk] using h8, h9⟩
            have hev1 : E1.lookup (.ev 0) = some (.ev ms) := by
              show List.lookup (Reg.ev 0) (_ :: _) = _
              simp only [List.lookup, show (Reg.ev 0 == Reg.k 1) = false from rfl]
              rw [lookup_zipv (by simp)]
              rfl
            obtain ⟨m, u, u', w', hm, hfm, hu, hr⟩ := IH n' (by omega) (ps.zip us ++ p.ρ) b E1
              (.fnF (K ++ [.hdl p.hs p.dx p.d p.ρ]) :: C') w c false 2 none (some 0) hfin'
              hoka.2 (by rw [keys_zip _ hl]; exact hoka.1.2) hE1 (by simp)
              (fun _ => ⟨0, ms, rfl, hev1, hms⟩)
              (HIn.cons (HIn.suffix (K := K ++ [.hdl p.hs p.dx p.d p.ρ]) hC (by simp [hCe]))
                (by simp))
            rw [keys_zip _ hl] at hr
            obtain ⟨m', s', rfl, hs', hfm'⟩ := hfm.rt
            simp only [step, Option.some.injEq] at hs'
            subst hs'
            refine ⟨m', u, u', w', by omega, ?_, hu, ?_⟩
            · rw [hCe]; simpa using hfm'
            simp only [low]
            refine .tailop hv h5 (hms p hp a' ?_) ?_ (.ret List.lookup_cons_self)
            · exact List.mem_map.2 ⟨_, hmem, rfl⟩
            refine ⟨Et, _, _, _, htr, frame_ok rfl, ?_⟩
            rw [trCode, lowArms_filter, hoka.1.1]
            refine Runs.chain (hs := fnArms p.hs) rfl hfa' ?_
            · simp only [fnArm, lowArm]
              refine .unpack (vs := us') rfl (by simp [hl, h6.length_eq]) ?_
              refine .lam (vs := []) rfl ?_
              rw [cps_direct (direct_false hoka.2)]
              refine .bind hr ?_
              refine .inv (kv := .clo [] [.t 0] idBody) (e := .ev ms) (u := u') ?_ ?_ (by simp) ?_
              · rfl
              · rw [lk, if_neg (by simp)]
                exact hev1
              · exact ⟨[], _, _, _, rfl, frame_ok rfl, .ret rfl⟩
          · simp [hl] at hs
  | letE x a b =>
    simp only [direct, Bool.and_eq_true] at hd
    simp only [okE, Bool.and_eq_true, nm_iff] at hok
    simp only [step, Option.some.injEq] at hs
    subst hs
    obtain ⟨m, u, u', w1, hm, hfm, hu, hr⟩ := IH n' (by omega) ρ a E (.letF x b ρ :: C) w c own lvl
      none ev hfin' hd.1 hok.1.2
      (henv.mono fun y hy _ => ⟨by simp [mentions, hy], hok.1.1 y (by simp [hy])⟩) hown hev
      (hC.cons (by simp))
    obtain ⟨m', s', rfl, hs', hfm'⟩ := hfm.rt
    simp only [step, Option.some.injEq] at hs'
    subst hs'
    obtain ⟨m2, u2, u2', w2, hm2, hfm2, hu2, hr2⟩ := IH m' (by omega) ((x, u) :: ρ) b
      ((.v x, u') :: E) C w1 c own lvl rk ev hfm' hd.2 hok.2
      (EnvRel.cons (henv.sub fun y hy => by simp [mentions, hy]) hu)
      (by simpa [lk] using hown) (by simpa [lk] using hev) hC
    exact ⟨m2, u2, u2', w2, by omega, hfm2, hu2, .bind hr hr2⟩
  | ite x a b =>
    simp only [direct, Bool.and_eq_true] at hd
    simp only [okE, Bool.and_eq_true, nm_iff] at hok
    simp only [step] at hs
    cases h1 : ρ.lookup x with
    | none => simp [h1] at hs
    | some gv =>
      obtain ⟨gv', h3, h4⟩ := henv x (by simp [mentions]) (hok.1.1 x (by simp)) gv h1
      cases h4 with
      | clo => simp [h1] at hs
      | cloD => simp [h1] at hs
      | base z =>
        simp only [h1, Option.some.injEq] at hs
        subst hs
        by_cases hz : z = 0
        · simp only [hz, ne_eq, not_true_eq_false, if_false] at hfin'
          obtain ⟨m, u, u', w', hm, hfm, hu, hr⟩ := IH n' (by omega) ρ b E C w c own lvl rk ev
            hfin' hd.2 hok.2 (henv.sub fun y hy => by simp [mentions, hy]) hown hev hC
          exact ⟨m, u, u', w', by omega, hfm, hu, .cond h3 (by simpa [hz] using hr)⟩
        · simp only [ne_eq, hz, not_false_eq_true, if_true] at hfin'
          obtain ⟨m, u, u', w', hm, hfm, hu, hr⟩ := IH n' (by omega) ρ a E C w c own lvl rk ev
            hfin' hd.1 hok.1.2 (henv.sub fun y hy => by simp [mentions, hy]) hown hev hC
          exact ⟨m, u, u', w', by omega, hfm, hu, .cond h3 (by simpa [hz] using hr)⟩

end Verif.Effects
