import Verif.Typing.Sound

/-!
# Functions and modules
-/

namespace Verif.Typing
open Verif.Types Verif.Solver Verif.Scheme

/-! ## Deferred method calls -/

def OkDef (d : Deferred) : Prop := Ok 0 d.recv ∧ Ok 0 d.result ∧ ∀ t ∈ d.args, Ok 0 t

theorem mapO_apply {δ : UVar → S} {σ : TLog} (hσ : OkLog σ) {n : Nat} {ts us : List Ty} (ht : ∀ t ∈ ts, Ok 0 t)
    (h : mapO (apply σ [] n) ts = some us) :
    (∀ u ∈ us, Ok 0 u) ∧ us.length = ts.length ∧ (EvSat δ σ → us.map (ev δ []) = ts.map (ev δ [])) := by
  have hf := mapO_some h
  refine ⟨?_, hf.length_eq.symm, fun hd => ?_⟩
  · intro u hu
    obtain ⟨t, h0, h1⟩ := Forall₂_right hf u hu
    exact apply_ok hσ (by intro v r hm; cases hm) n (ht t h0) h1
  · clear h ht
    induction hf with
    | nil => rfl
    | cons h1 _ ih => rw [List.map_cons, List.map_cons, ih, apply_ev hσ hd n h1]

theorem resolveRound_sound {G : Env} (hG : EnvOk G) {n : Nat} (ds : List Deferred) {st st' : St} {cs : List Con}
    {rem : List Deferred} {ok : Bool} (hst : SInv st) (hd : ∀ d ∈ ds, OkDef d)
    (h : resolveRound G n ds st = some (cs, rem, ok, st')) :
    SInv st' ∧ st'.σ = st.σ ∧ (∀ c ∈ cs, OkCon c) ∧ (∀ d ∈ rem, d ∈ ds) ∧
      (ok = true → ∀ δ, EvSat δ st.σ → (∀ c ∈ cs, conEv δ c) → ∀ d ∈ ds, d ∈ rem ∨ DefSat (sigOf G) δ d) := by
  induction ds generalizing st st' cs rem ok with
  | nil =>
    simp only [resolveRound, Option.some.injEq, Prod.mk.injEq] at h
    obtain ⟨rfl, rfl, rfl, rfl⟩ := h
    exact ⟨hst, rfl, by simp, by simp, by simp⟩
  | cons d ds ih =>
    have hd' : ∀ d ∈ ds, OkDef d := fun x hx => hd x (.tail _ hx)
    obtain ⟨d1, d2, d3⟩ := hd d (.head _)
    simp only [resolveRound, Option.bind_eq_bind, Option.bind_eq_some_iff] at h
    obtain ⟨rt, ha, h⟩ := h
    cases hm : G.method d.name rt with
    | none =>
      simp only [hm, Option.bind_eq_some_iff] at h
      obtain ⟨⟨cs1, rem1, ok1, st1⟩, h1, h⟩ := h
      simp only [Option.some.injEq, Prod.mk.injEq] at h
      obtain ⟨rfl, rfl, rfl, rfl⟩ := h
      obtain ⟨i1, i2, i3, i4, i5⟩ := ih hst hd' h1
      refine ⟨i1, i2, i3, ?_, ?_⟩
      · intro x hx
        rcases List.mem_cons.1 hx with rfl | hx
        · exact .head _
        · exact .tail _ (i4 x hx)
      · intro hok δ hδ hc x hx
        rcases List.mem_cons.1 hx with rfl | hx
        · exact .inl (.head _)
        · rcases i5 hok δ hδ hc x hx with h | h
          · exact .inl (.tail _ h)
          · exact .inr h
    | some e =>
      simp only [hm] at h
      cases hs : G.fns[e.fn]? with
      | none => simp [hs] at h
      | some s =>
        simp only [hs, Option.bind_eq_some_iff] at h
        obtain ⟨⟨i, st1⟩, hi, h⟩ := h
        obtain ⟨o1, o2, o3, o4⟩ := solver_inst (hG.fns s (List.mem_of_getElem? hs)) hst hi
        dsimp only at h
        cases hf : funParts i.ty with
        | none => simp [hf] at h
        | some q =>
          obtain ⟨ps, r, row⟩ := q
          simp only [hf, Option.bind_eq_some_iff] at h
          obtain ⟨args, hargs, ⟨cs1, rem1, ok1, st2⟩, h1, h⟩ := h
          simp only [Option.some.injEq, Prod.mk.injEq] at h
          obtain ⟨rfl, rfl, rfl, rfl⟩ := h
          obtain ⟨p1, p2, p3⟩ := funParts_ok o1 hf
          obtain ⟨i1, i2, i3, i4, i5⟩ := ih o3 hd' h1
          refine ⟨i1, by rw [i2, o4], ?_, fun x hx => .tail _ (i4 x hx), ?_⟩
          · intro c hc
            rcases List.mem_append.1 hc with hc | hc
            · rcases List.mem_cons.1 hc with rfl | hc
              · exact ⟨d2, p2⟩
              · exact zipWith_teq_ok (mapO_apply (δ := fun _ => default) o3.ok d3 hargs).1 p1 c hc
            · rcases List.mem_cons.1 hc with rfl | hc
              · exact ⟨p3, okRow_nil none⟩
              · exact i3 c hc
          · intro hok δ hδ hc x hx
            simp only [Bool.and_eq_true, decide_eq_true_eq] at hok
            have hδ1 : EvSat δ st1.σ := by rw [o4]; exact hδ
            rcases List.mem_cons.1 hx with rfl | hx
            · right
              obtain ⟨_, a2, a3⟩ := mapO_apply (δ := δ) o3.ok d3 hargs
              have c1 : ev δ [] x.result = ev δ [] r := hc (.teq _ _) (List.mem_append.2 (.inl (.head _)))
              have c2 := zipWith_ev (δ := δ) (as := args) (bs := ps) (by rw [a2]; exact hok.1)
                (fun c hc' => hc c (List.mem_append.2 (.inl (.tail _ hc'))))
              refine ⟨e.fn, ?_, s, hs, δ, ?_⟩
              · rw [← apply_ev hst.ok hδ n ha]
                exact method_select δ hm
              · rw [← a3 hδ1, c2, c1, ← funParts_ev hf]
                exact o2 δ
            · exact i5 hok.2 δ hδ1
                (fun c hc' => hc c (List.mem_append.2 (.inr (.tail _ hc')))) x hx

theorem resolveLoop_sound {G : Env} (hG : EnvOk G) {n m : Nat} {ds : List Deferred} {st st' : St} {ok : Bool}
    (hst : SInv st) (hd : ∀ d ∈ ds, OkDef d) (h : resolveLoop G n m ds st = some ([], ok, st')) (hok : ok = true) :
    SInv st' ∧ ∀ δ, EvSat δ st'.σ → EvSat δ st.σ ∧ ∀ d ∈ ds, DefSat (sigOf G) δ d := by
  induction m generalizing ds st ok with
  | zero =>
    simp only [resolveLoop, Option.some.injEq, Prod.mk.injEq] at h
    obtain ⟨rfl, rfl, rfl⟩ := h
    exact ⟨hst, fun δ hδ => ⟨hδ, by simp⟩⟩
  | succ m ih =>
    simp only [resolveLoop, Option.bind_eq_bind, Option.bind_eq_some_iff] at h
    obtain ⟨⟨cs, rem, ok1, st1⟩, h1, h⟩ := h
    obtain ⟨i1, i2, i3, i4, i5⟩ := resolveRound_sound hG ds hst hd h1
    dsimp only at h
    split at h
    · rename_i he
      have he : cs = [] := by simpa using he
      subst he
      simp only [Option.some.injEq, Prod.mk.injEq] at h
      obtain ⟨rfl, rfl, rfl⟩ := h
      refine ⟨i1, fun δ hδ => ?_⟩
      rw [i2] at hδ
      refine ⟨hδ, fun d hdm => ?_⟩
      rcases i5 hok δ hδ (by simp) d hdm with h | h
      · cases h
      · exact h
    · simp only [Option.bind_eq_some_iff] at h
      obtain ⟨⟨bs, st2⟩, h2, ⟨rem2, ok2, st3⟩, h3, h⟩ := h
      simp only [Option.some.injEq, Prod.mk.injEq] at h
      obtain ⟨rfl, rfl, rfl⟩ := h
      simp only [Bool.and_eq_true] at hok
      obtain ⟨⟨k1, k2⟩, k3⟩ := hok
      have hbs : false ∉ bs := by
        intro hm
        have := List.all_eq_true.1 k2 false hm
        simp at this
      obtain ⟨j1, j2⟩ := solve_ev i1 i3 h2 hbs
      obtain ⟨l1, l2⟩ := ih j1 (fun d hdm => hd d (i4 d hdm)) h3 k3
      refine ⟨l1, fun δ hδ => ?_⟩
      obtain ⟨e1, e2⟩ := l2 δ hδ
      obtain ⟨e3, e4⟩ := (j2 δ).1 e1
      rw [i2] at e3
      refine ⟨e3, fun d hdm => ?_⟩
      rcases i5 k1 δ e3 e4 d hdm with h | h
      · exact e2 d h
      · exact h

/-! ## The scheme of a checked function -/

theorem newScheme_ev {st : St} (hst : SInv st) {n : Nat} {t : Ty} (ht : Ok 0 t) {s : PolyTy}
    (h : newScheme st n t = some s) :
    OkS s ∧ ∀ τ, Inst s τ → ∃ δ, EvSat δ st.σ ∧ ev δ [] t = τ := by
  simp only [newScheme, Option.bind_eq_bind, Option.bind_eq_some_iff] at h
  obtain ⟨ty, ha, vs, hc, g, hr, h⟩ := h
  simp only [Option.some.injEq] at h
  subst h
  have hty : Ok 0 ty := apply_ok hst.ok hst.rows n ht ha
  have ha2 := apply_idem hst.resolved n ha
  rw [collect_eq n ty ty ha2, pushAll_eq] at hc
  simp only [List.nil_append, List.not_mem_nil, not_false_eq_true, decide_true, List.filter_true,
    Option.some.injEq] at hc
  have hvs : vs = firsts (tyVars ty) := by simpa using hc.symm
  have hun : ∀ v ∈ vs, st.σ.lookup v = none := by
    intro v hv
    rw [hvs, mem_firsts] at hv
    exact apply_unbound n ha ((mem_tyVars ty).1 hv)
  have hn : vs.Nodup := by rw [hvs]; exact firsts_nodup _
  rw [replace_eq (fun v hv => lookup_zipIdx_none (fun hm => hv (hun v hm))) (fun v _ => rfl) n ty ty ha2] at hr
  simp only [Option.some.injEq] at hr
  have hg : g = bodyOf vs ty := hr.symm
  subst hg
  refine ⟨bodyOf_ok hn hty, ?_⟩
  rintro τ ⟨δ, β, hβ, rfl⟩
  have hsat := extend_sat hst.inv.triT (override δ vs β)
  refine ⟨extend st.σ (override δ vs β), hsat, ?_⟩
  rw [← apply_ev hst.ok hsat n ha, bodyOf_ev hty]
  exact ev_congr ty (fun v ho => extend_unbound (apply_unbound n ha ho))

theorem inferredTy_ev {δ : UVar → S} {a : Bool} {t : Ty} {r : Row} : ev δ [] (inferredTy a t r) = ev δ [] t := by
  rw [inferredTy]
  split
  · rfl
  · cases hf : funParts t with
    | none => rfl
    | some q =>
      obtain ⟨ps, u, row⟩ := q
      simp only
      split <;> rw [ev_fn, funParts_ev hf]

theorem inferredTy_ok {a : Bool} {t : Ty} {r : Row} (ht : Ok 0 t) (hr : OkRow r) : Ok 0 (inferredTy a t r) := by
  rw [inferredTy]
  split
  · exact ht
  · cases hf : funParts t with
    | none => exact ht
    | some q =>
      obtain ⟨ps, u, row⟩ := q
      obtain ⟨h1, h2, h3⟩ := funParts_ok ht hf
      simp only
      split
      · exact tFunc_ok h1 h2 hr
      · exact tFunc_ok h1 h2 hr

/-! ## Functions -/

theorem good_new : Good K.new :=
  ⟨by simp [K.new, Ctx.new], by simp [K.new, Ctx.new], okRow_nil none, by simp [K.new], by simp [K.new],
    by simp [K.new]⟩

theorem gam_new (δ : UVar → S) : Gam δ K.new = TEnv.empty := by
  funext x τ
  simp [Gam, K.lookup, K.new, TEnv.empty]

/-- The state in which the body of a function is checked. -/
def bodyStart (d : Fn) (ps : List Ty) (row : Row) (k : K) : K :=
  { K.bindAll d.params ps k with cur := if d.annotated then row else ⟨[], none⟩ }

/-- What the first walk over the body forgets (`none` if it does not get that far). -/
def firstLost (G : Env) (n : Nat) (d : Fn) : Prop :=
  ∀ b ft k ps r row t k', d.body = some b → K.new.inst d.sig = some (ft, k) → funParts ft = some (ps, r, row) →
    infer G n b (bodyStart d ps row k) = some (t, k') → k'.lost = false

theorem checkFn_sound' {G : Env} (hG : EnvOk G) {n : Nat} {d : Fn} (hd : WfFn d) {v : Verdict} {s : PolyTy}
    (h : checkFn G n d = some (v, s)) (hv : v.ok = true) (hl : v.lost = false ∨ firstLost G n d) :
    OkS s ∧ ∀ τ, Inst s τ → Inst d.sig τ ∧ FnTy (sigOf G) d τ := by
  rw [checkFn] at h
  cases hb : d.body with
  | none =>
    simp only [hb, Option.some.injEq, Prod.mk.injEq] at h
    obtain ⟨rfl, rfl⟩ := h
    exact ⟨hd.sig, fun τ hτ => ⟨hτ, fun body hbody => by rw [hb] at hbody; cases hbody⟩⟩
  | some body =>
    simp only [hb, Option.bind_eq_bind, Option.bind_eq_some_iff] at h
    obtain ⟨⟨ft, k0⟩, h0, h⟩ := h
    obtain ⟨s0, o0, i0⟩ := inst_same hd.sig h0
    dsimp only at h
    cases hf : funParts ft with
    | none => simp [hf] at h
    | some q =>
      obtain ⟨ps, r, row⟩ := q
      obtain ⟨p1, p2, p3⟩ := funParts_ok o0 hf
      simp only [hf, Option.bind_eq_some_iff] at h
      obtain ⟨⟨_, k3⟩, hck, ⟨bs, st⟩, hso, ⟨rem, ok, st'⟩, hre, s', hns, h⟩ := h
      simp only [Option.some.injEq, Prod.mk.injEq] at h
      obtain ⟨rfl, rfl⟩ := h
      simp only [Bool.and_eq_true, List.isEmpty_iff] at hv
      obtain ⟨⟨v1, v2⟩, rfl⟩ := hv
      have hbs : false ∉ bs := by
        intro hm
        have := List.all_eq_true.1 v1 false hm
        simp at this
      -- the state in which the body is checked
      have f0 := s0.fr good_new
      have f1 := bindAll_go f0.good d.params ps p1
      have hcur : OkRow (if d.annotated then row else ⟨[], none⟩) := by
        split
        · exact p3
        · exact okRow_nil none
      have f2 := cur_fr f1.good hcur
      obtain ⟨ss, w, rfl⟩ := hd.block body hb
      have ha := hd.anns _ hb
      simp only [check, start, Option.bind_eq_bind, Option.bind_eq_some_iff] at hck
      obtain ⟨⟨t, k2⟩, ⟨⟨t1, k1⟩, hinf, hk2⟩, ⟨k3', hcv, hk3⟩⟩ := hck
      simp only [Option.some.injEq, Prod.mk.injEq] at hk2 hk3
      obtain ⟨rfl, rfl⟩ := hk2
      obtain ⟨rfl, rfl⟩ := hk3
      simp only [synth] at hinf
      obtain ⟨g1, o1⟩ := infer_fr hG _ f2.good ha hinf
      simp only [modeCons, Mode.cons] at hcv
      have g2 := add_fr g1.good (cs := [.teq t1 r]) (by simpa [OkCon] using ⟨o1, p2⟩)
      obtain ⟨ns, g3⟩ := conv_grow hG _ g2.good o1 ha hcv
      -- solving
      obtain ⟨j1, j2⟩ := solve_ev SInv.init g3.good.cons hso hbs
      obtain ⟨l1, l2⟩ := resolveLoop_sound hG j1 g3.good.defer hre v2
      obtain ⟨m1, m2⟩ := newScheme_ev l1 (inferredTy_ok o0 g3.good.cur) hns
      refine ⟨m1, fun τ hτ => ?_⟩
      obtain ⟨δ, hδ, hτ'⟩ := m2 τ hτ
      rw [inferredTy_ev] at hτ'
      have hinst := i0 δ
      rw [hτ'] at hinst
      obtain ⟨e1, e2⟩ := l2 δ hδ
      have e3 := ((j2 δ).1 e1).2
      have hsat3 : Sat (sigOf G) δ k3' := ⟨e3, e2⟩
      have hsat2 := hsat3.back g3
      have hsat1 := hsat2.back g2.toGo
      have heq : ev δ [] t1 = ev δ [] r := hsat2.teq (Go.refl g2.good) (.head _)
      have hl1 : k1.lost = false := by
        rcases hl with hl | hl
        · exact g2.lost (g3.lost hl)
        · exact hl _ _ _ _ _ _ _ _ hb h0 hf hinf
      have hu : Unseen (E.block ss w).nodes { K.bindAll d.params ps k0 with
          cur := if d.annotated then row else ⟨[], none⟩ } := by
        refine ⟨hd.nodes _ hb, fun m _ => ?_⟩
        have : (K.bindAll d.params ps k0).refs.lookup m = none := by
          rw [f1.refs m (by simp), s0.refs]
          rfl
        exact this
      have hty := infer_sound hG _ f2.good ha hu hinf hl1 δ hsat1
      refine ⟨⟨δ, hinst⟩, fun b' hb' => ?_⟩
      rw [hb] at hb'
      simp only [Option.some.injEq] at hb'
      subst hb'
      refine ⟨ps.map (ev δ []), ev δ [] r, by rw [← hτ', funParts_ev hf], ?_, ?_⟩
      · obtain ⟨c, ks, es, rr, hbody, hlen⟩ := hd.arity
        obtain ⟨β, hβ, hτβ⟩ := hinst
        rw [hbody, ev_node rfl, ← hτ', funParts_ev hf, S.fn] at hτβ
        simp only [S.node.injEq] at hτβ
        have := congrArg List.length hτβ.2
        simp at this
        simp
        omega
      · have hg : Gam δ { K.bindAll d.params ps k0 with cur := if d.annotated then row else ⟨[], none⟩ }
            = TEnv.empty.bindAll (d.params.zip (ps.map (ev δ []))) := by
          refine (gam_eq (k := K.bindAll d.params ps k0) rfl rfl).trans ?_
          rw [gam_bindAll, f0.gam, gam_new]
        rw [hg, heq] at hty
        exact hty

theorem checkFns_sound {P : Prog} (hP : P.Wf) {n : Nat} (ds : List Fn)
    {done : List PolyTy} {v : Verdict} {ss : List PolyTy} (hds : ∀ d ∈ ds, WfFn d) (hdone : ∀ s ∈ done, OkS s)
    (h : checkFns P n done ds = some (v, ss)) (hv : v.ok = true)
    (hl : v.lost = false ∨ ∀ d ∈ ds, ∀ G, EnvOk G → firstLost G n d) :
    ∃ ss', ss = done ++ ss' ∧ ss'.length = ds.length ∧
      ∀ (i : Nat) d s, ds[i]? = some d → ss'[i]? = some s → ∀ τ, Inst s τ → Inst d.sig τ ∧
        FnTy (P.sig (done ++ ss'.take i ++ (ds.drop i).map Fn.sig)) d τ := by
  induction ds generalizing done v ss with
  | nil =>
    simp only [checkFns, Option.some.injEq, Prod.mk.injEq] at h
    obtain ⟨rfl, rfl⟩ := h
    exact ⟨[], by simp, rfl, by simp⟩
  | cons d ds ih =>
    simp only [checkFns, Option.bind_eq_bind, Option.bind_eq_some_iff] at h
    obtain ⟨⟨v1, s1⟩, h1, ⟨v2, ss2⟩, h2, h⟩ := h
    simp only [Option.some.injEq, Prod.mk.injEq] at h
    obtain ⟨rfl, rfl⟩ := h
    simp only [Bool.and_eq_true] at hv
    have hG : EnvOk (P.env (done ++ (d :: ds).map Fn.sig)) := by
      refine ⟨fun s hs => ?_, hP.ctors, hP.heads⟩
      rcases List.mem_append.1 hs with hs | hs
      · exact hdone s hs
      · obtain ⟨d', hd', rfl⟩ := List.mem_map.1 hs
        exact (hds d' hd').sig
    have hl1 : v1.lost = false ∨ firstLost (P.env (done ++ (d :: ds).map Fn.sig)) n d := by
      rcases hl with hl | hl
      · simp only [Bool.or_eq_false_iff] at hl; exact .inl hl.1
      · exact .inr (hl d (.head _) _ hG)
    have hl2 : v2.lost = false ∨ ∀ d ∈ ds, ∀ G, EnvOk G → firstLost G n d := by
      rcases hl with hl | hl
      · simp only [Bool.or_eq_false_iff] at hl; exact .inl hl.2
      · exact .inr (fun d' hd' => hl d' (.tail _ hd'))
    obtain ⟨o1, t1⟩ := checkFn_sound' hG (hds d (.head _)) h1 hv.1 hl1
    obtain ⟨ss', rfl, hlen, hrest⟩ := ih (done := done ++ [s1]) (fun d' hd' => hds d' (.tail _ hd')) (by
      intro s hs
      rcases List.mem_append.1 hs with hs | hs
      · exact hdone s hs
      · simp at hs; subst hs; exact o1) h2 hv.2 hl2
    refine ⟨s1 :: ss', by simp, by simp [hlen], ?_⟩
    intro i d' s hd' hs τ hτ
    cases i with
    | zero =>
      simp only [List.getElem?_cons_zero, Option.some.injEq] at hd' hs
      subst hd' hs
      obtain ⟨a, b⟩ := t1 τ hτ
      rw [sigOf_env] at b
      exact ⟨a, by simpa using b⟩
    | succ i =>
      simp only [List.getElem?_cons_succ] at hd' hs
      obtain ⟨a, b⟩ := hrest i d' s hd' hs τ hτ
      exact ⟨a, by simpa using b⟩

end Verif.Typing
