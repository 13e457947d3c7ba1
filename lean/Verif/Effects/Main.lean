import Verif.Effects.Sim

/-! `main`, which has no continuation of its own. -/

namespace Verif.Effects

variable {W : Type} {M : Mach W} {F : List (Fn × (List Var × Exp))}
  {G : List (Fn × (List Reg × T))} {uf : SVal} {wf : W}

theorem claim {C0 : List Frame} (hC0 : ∀ hs dx d ρ, Frame.hdl hs dx d ρ ∉ C0)
    (hF : ∀ f ps b, F.lookup f = some (ps, b) → G.lookup f = some (lowFun (ps, b)) ∧
      okE ⟨ps, false, 3, none⟩ b = true) (n : Nat) : EvClaim M F G uf wf C0 n := by
  induction n using Nat.strongRecOn with
  | _ n ih => exact ev_of hC0 hF ih fun m hm => rt_of fun i hi => ih i (by omega)

theorem main_sim (hF : ∀ f ps b, F.lookup f = some (ps, b) → G.lookup f = some (lowFun (ps, b)) ∧
      okE ⟨ps, false, 3, none⟩ b = true) (n : Nat) :
    ∀ (ρ : SEnv) (e : Exp) (E : TEnv) (C0 : List Frame) (w : W) (c : Nat),
    (∀ hs dx d ρ, Frame.hdl hs dx d ρ ∉ C0) → Fin' M F uf wf n (.ev ρ e, C0, w) →
    direct false e = true → okE ⟨keys ρ, false, 0, none⟩ e = true →
    EnvRel (mentions e) none ρ E →
    ∃ m u u' w' c', m < n ∧ Fin' M F uf wf m (.rt u, C0, w') ∧ VRel u u' ∧
      Runs M G E ((low e).dir (keys ρ) false none) w c u' w' c' := by
  induction n using Nat.strongRecOn with
  | _ n IH =>
  intro ρ e E C0 w c hC0 hfin hd hok henv
  by_cases hdt : direct true e = true
  · obtain ⟨m, u, u', w', h1, h2, h3, h4⟩ := dir_sim (G := G) (P := []) (by simp) n ρ e E C0 w c
      false 0 none none hfin hdt hok henv (by simp) (by simp)
      (fun hs dx d ρ hm => absurd hm (hC0 _ _ _ _))
    exact ⟨m, u, u', w', c, h1, h2, h3, h4⟩
  obtain ⟨n', s, rfl, hs, hfin'⟩ := hfin.ev
  cases e with
  | letE x a b =>
    simp only [direct, Bool.and_eq_true] at hd
    simp only [okE, Bool.and_eq_true, nm_iff] at hok
    simp only [step, Option.some.injEq] at hs
    subst hs
    obtain ⟨m, u, u', w1, c1, hm, hfm, hu, hr⟩ := IH n' (by omega) ρ a E (.letF x b ρ :: C0) w c
      (by simpa using hC0) hfin' hd.1 hok.1.2 (henv.sub (by simp +contextual [mentions]))
    obtain ⟨m', s', rfl, hs', hfm'⟩ := hfm.rt
    simp only [step, Option.some.injEq] at hs'
    subst hs'
    obtain ⟨m2, u2, u2', w2, c2, hm2, hfm2, hu2, hr2⟩ := IH m' (by omega) ((x, u) :: ρ) b
      ((.v x, u') :: E) C0 w1 c1 hC0 hfm' hd.2 hok.2
      (EnvRel.cons (henv.sub (by simp +contextual [mentions])) hu)
    exact ⟨m2, u2, u2', w2, c2, by omega, hfm2, hu2, .bind hr hr2⟩
  | ite x a b =>
    simp only [direct, Bool.and_eq_true] at hd
    simp only [okE, Bool.and_eq_true, nm_iff] at hok
    simp only [step] at hs
    cases h1 : ρ.lookup x with
    | none => simp [h1] at hs
    | some gv =>
      obtain ⟨gv', h3, h4⟩ := henv x (by simp [mentions]) (by simp) gv h1
      cases h4 with
      | clo => simp [h1] at hs
      | cloD => simp [h1] at hs
      | base z =>
        simp only [h1, Option.some.injEq] at hs
        subst hs
        by_cases hz : z = 0
        · simp only [hz, ne_eq, not_true_eq_false, if_false] at hfin'
          obtain ⟨m, u, u', w', c', hm, hfm, hu, hr⟩ := IH n' (by omega) ρ b E C0 w c hC0
            hfin' hd.2 hok.2 (henv.sub (by simp +contextual [mentions]))
          exact ⟨m, u, u', w', c', by omega, hfm, hu, .cond h3 (by simpa [hz] using hr)⟩
        · simp only [ne_eq, hz, not_false_eq_true, if_true] at hfin'
          obtain ⟨m, u, u', w', c', hm, hfm, hu, hr⟩ := IH n' (by omega) ρ a E C0 w c hC0
            hfin' hd.1 hok.1.2 (henv.sub (by simp +contextual [mentions]))
          exact ⟨m, u, u', w', c', by omega, hfm, hu, .cond h3 (by simpa [hz] using hr)⟩
  | handle b hs dx d =>
    simp only [okE, Bool.and_eq_true] at hok
    obtain ⟨⟨⟨-, hokb⟩, hoka⟩, hokd⟩ := hok
    simp only [step, Option.some.injEq] at hs
    subst hs
    obtain ⟨R, w1, c1, hr, m, u, u', w', c', hm, hf, hu, rfl, rfl, rfl⟩ :=
      handle_of (claim hC0 hF n') (P := []) (A := none) (C := []) (c := c) (v := 0) (k := 0)
        (E := (.k 0, .clo [] [.t 0] idBody) :: (.ev 0, .ev []) :: E)
        (hfin.2 0 _ rfl) hokb hoka hokd (by simp) ((henv.skip (by simp)).skip (by simp)) List.lookup_cons_self
        ⟨[], by simp [lk], by simp [EvRel]⟩ ⟨[], by simp [lk], by simp [EvRel]⟩ .root
        ⟨by simp, by simp, by simp⟩ hfin'
    refine ⟨m, u, R, w1, c1, by omega, hf, hu, ?_⟩
    simp only [low]
    exact .emptyEv (.lam (vs := []) rfl hr)
  | _ => simp [direct] at hdt hd

theorem lookup_code {P : Prog} {f : Fn} {d : List Var × Exp} (h : P.funs.lookup f = some d) :
    P.code.lookup f = some (lowFun d) ∧ (f, d) ∈ P.funs := by
  unfold Prog.code
  generalize P.funs = l at h ⊢
  induction l with
  | nil => simp at h
  | cons x l ih =>
    obtain ⟨g, d'⟩ := x
    by_cases e : f = g
    · subst e
      simp only [List.lookup, beq_self_eq_true, Option.some.injEq] at h
      subst h
      simp
    · have e' : (f == g) = false := by simpa using e
      simp only [List.lookup, e'] at h
      obtain ⟨h1, h2⟩ := ih h
      simp only [List.map_cons, List.lookup, e']
      exact ⟨h1, List.mem_cons_of_mem _ h2⟩

/-- The compiled program gives the answer of the source program. -/
theorem correct {P : Prog} (hok : P.ok = true) {w w' : W} {b : Int} (h : AnswersApart M P w b w') :
    Compiled M P w b w' := by
  simp only [Prog.ok, Bool.and_eq_true, List.all_eq_true] at hok
  obtain ⟨n, hn⟩ := h
  obtain ⟨m, u, u', w1, c1, -, hf, hu, k, hk⟩ := main_sim (M := M) (F := P.funs) (G := P.code)
    (uf := .base b) (wf := w')
    (fun f ps b h => by
      obtain ⟨h1, h2⟩ := lookup_code h
      exact ⟨h1, hok.1.1 _ h2⟩) n [] P.main [] [] w 0 (by simp) hn hok.2 hok.1.2
    (by intro x _ _ u hu; simp at hu)
  have : m = 0 := by
    cases m with
    | zero => rfl
    | succ m => simp [Fin', steps, step] at hf
  subst this
  simp only [Fin', steps, Option.some.injEq, Prod.mk.injEq, Ctl.rt.injEq] at hf
  obtain ⟨⟨rfl, -, rfl⟩, -⟩ := hf
  cases hu
  exact ⟨k, c1, hk⟩

end Verif.Effects
