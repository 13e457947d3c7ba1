import Verif.Closure.Sim
/-!
# Running two programs related by `Alpha`
-/
namespace Verif.Closure
open Verif.CallConv (Conv)
variable {B σ : Type}

def OptRel (q : Prog) : Option (Val B) → Option (Val B) → Prop
  | none, none => True
  | some v, some w => VR q v w
  | _, _ => False

/-- Related activations: after some steps of its own the second is at related code. -/
def FRel (S : Sem B σ) (q : Prog) (fr fr' : Frame B) : Prop :=
  ∃ m code env, (∀ enter s, eval S q enter fr'.evVar fr'.evVal fr'.code fr'.env s =
      eval S q enter fr'.evVar fr'.evVal code env s) ∧
    Alpha q fr.evVar fr'.evVar m fr.code code ∧ EnvRel q m fr.env env ∧ OptRel q fr.evVal fr'.evVal

/-- The functions of the first program are, up to `Alpha`, functions of the second. -/
def PRel (p q : Prog) : Prop :=
  ∀ f fn, p.find f = some fn → ∃ b, q.find f = some ⟨fn.params, b⟩ ∧ (fn.params.map Prod.fst).Nodup ∧
    Alpha q (firstEvidence fn.params) (firstEvidence fn.params)
      (PMap.none.updAll (fn.params.map Prod.fst) (fn.params.map Prod.fst)) fn.body b

theorem envRel_none (q : Prog) : EnvRel q PMap.none ([] : Env B) [] := by
  intro v v' h; cases h

theorem fresh_none (y : Var) : PMap.none.Fresh y := by intro v h; cases h

theorem optRel_bind {q : Prog} {env env' : Env B} {x x' : Option Var}
    (h : (x = none ∧ x' = none) ∨ ∃ a b v w, x = some a ∧ x' = some b ∧ look env a = some v ∧
      look env' b = some w ∧ VR q v w) :
    OptRel q (x.bind (look env)) (x'.bind (look env')) := by
  rcases h with ⟨rfl, rfl⟩ | ⟨a, b, v, w, rfl, rfl, h1, h2, h3⟩
  · trivial
  · simp only [Option.bind_some, h1, h2]; exact h3

theorem firstEvidence_cases {ps ps' : List (Var × Ty)} (h : ps.map Prod.snd = ps'.map Prod.snd) :
    (firstEvidence ps = none ∧ firstEvidence ps' = none) ∨
    ∃ a t b r r', ps = (a, t) :: r ∧ ps' = (b, t) :: r' ∧ firstEvidence ps = some a ∧ firstEvidence ps' = some b := by
  cases ps with
  | nil => cases ps' with
    | nil => left; exact ⟨rfl, rfl⟩
    | cons _ _ => simp at h
  | cons p r => cases ps' with
    | nil => simp at h
    | cons p' r' =>
      obtain ⟨a, t⟩ := p
      obtain ⟨b, t'⟩ := p'
      simp only [List.map_cons, List.cons.injEq] at h
      obtain ⟨rfl, _⟩ := h
      by_cases he : t = evTy
      · right; exact ⟨a, t, b, r, r', rfl, rfl, by simp [firstEvidence, he], by simp [firstEvidence, he]⟩
      · left; simp [firstEvidence, he]

theorem vrs_get {q : Prog} {vs ws : List (Val B)} (h : VRs q vs ws) : ∀ {i : Nat} {v : Val B}, vs[i]? = some v →
    ∃ w, ws[i]? = some w ∧ VR q v w := by
  induction h with
  | nil => intro i v h; simp at h
  | cons h1 _ ih =>
    intro i v hv
    cases i with
    | zero => simp only [List.getElem?_cons_zero, Option.some.injEq] at hv; subst hv; exact ⟨_, by simp, h1⟩
    | succ i => simpa using ih (by simpa using hv)

theorem callFn_rel (S : Sem B σ) {p q : Prog} (hp : PRel p q) {f : Sym} {vs ws : List (Val B)}
    (hv : VRs q vs ws) {fr : Frame B} (h : callFn p f vs = some fr) :
    ∃ fr', callFn q f ws = some fr' ∧ FRel S q fr fr' := by
  unfold callFn at h
  cases hf : p.find f with
  | none => rw [hf] at h; cases h
  | some fn =>
    rw [hf] at h
    simp only at h
    split at h
    · next hl =>
      cases h
      obtain ⟨b, hq, hn, ha⟩ := hp f fn hf
      have hl' : ws.length = fn.params.length := by rw [← VRs_length hv, hl]
      have hE : EnvRel q (PMap.none.updAll (fn.params.map Prod.fst) (fn.params.map Prod.fst))
          (bindAll [] (fn.params.map Prod.fst) vs) (bindAll [] (fn.params.map Prod.fst) ws) :=
        (envRel_none q).updAll hv rfl (by simp [hl]) hn (fun y _ => fresh_none y)
      refine ⟨⟨b, bindAll [] (fn.params.map Prod.fst) ws, firstEvidence fn.params,
        (firstEvidence fn.params).bind (look (bindAll [] (fn.params.map Prod.fst) ws))⟩, by
          simp [callFn, hq, hl'], ?_⟩
      refine ⟨_, b, _, fun _ _ => rfl, ha, hE, ?_⟩
      apply optRel_bind
      rcases firstEvidence_cases (ps := fn.params) (ps' := fn.params) rfl with h | ⟨a, t, c, r, r', h1, h2, h3, h4⟩
      · left; exact h
      · right
        cases vs with
        | nil => simp [h1] at hl
        | cons v vs =>
          cases hv with
          | cons hv1 hv2 =>
            refine ⟨a, c, v, _, h3, h4, ?_, ?_, hv1⟩
            · exact look_bindAll_get (i := 0) hn (by simp [h1]) (by simp)
            · exact look_bindAll_get (i := 0) hn (by simp [h2]) (by simp)
    · cases h

theorem updAll_get {m : PMap} : ∀ {xs ys : List Var} {i : Nat} {x y : Var}, xs.Nodup → xs[i]? = some x →
    ys[i]? = some y → (m.updAll xs ys) x = some y := by
  intro xs
  induction xs generalizing m with
  | nil => intro ys i x y _ h; simp at h
  | cons a xs ih =>
    intro ys i x y hn hx hy
    rw [List.nodup_cons] at hn
    cases ys with
    | nil => simp at hy
    | cons b ys =>
      simp only [PMap.updAll]
      cases i with
      | zero =>
        simp only [List.getElem?_cons_zero, Option.some.injEq] at hx hy
        subst hx; subst hy
        clear ih
        have : ∀ {xs ys : List Var} {m : PMap}, a ∉ xs → (m.updAll xs ys) a = m a := by
          intro xs
          induction xs with
          | nil => intro ys m _; simp [PMap.updAll]
          | cons c xs ih =>
            intro ys m hc
            simp only [List.mem_cons, not_or] at hc
            cases ys with
            | nil => simp [PMap.updAll]
            | cons d ys => simp only [PMap.updAll]; rw [ih hc.2]; simp [PMap.upd, hc.1]
        rw [this hn.1]; simp [PMap.upd]
      | succ i => exact ih hn.2 (by simpa using hx) (by simpa using hy)

theorem EnvRel.congr {q : Prog} {m : PMap} {env env' : Env B} (h : EnvRel q m env env') {v v' : Var} {x x' : Val B}
    (hm : m v = some v') (h1 : look env v = some x) (h2 : look env' v' = some x') : VR q x x' := by
  obtain ⟨a, b, g1, g2, g3⟩ := h v v' hm
  rw [h1] at g1; rw [h2] at g2; cases g1; cases g2; exact g3

/-- Evidence of a tagged lambda on both sides. -/
theorem innerEv_rel {q : Prog} {ps ps' : List (Var × Ty)} {env env' : Env B} {vs ws : List (Val B)}
    (hv : VRs q vs ws) (hl : vs.length = ps.length) (hn : (ps.map Prod.fst).Nodup) (hn' : (ps'.map Prod.fst).Nodup)
    (hs : ps.map Prod.snd = ps'.map Prod.snd) (c : Conv) (i : Nat) :
    OptRel q ((innerEv (.at c i) none ps).bind (look (bindAll env (ps.map Prod.fst) vs)))
      ((innerEv (.at c i) none ps').bind (look (bindAll env' (ps'.map Prod.fst) ws))) := by
  cases i with
  | zero => trivial
  | succ i =>
    simp only [innerEv]
    apply optRel_bind
    rcases firstEvidence_cases hs with h | ⟨a, t, b, r, r', h1, h2, h3, h4⟩
    · left; exact h
    · right
      cases vs with
      | nil => simp [h1] at hl
      | cons v vs =>
        cases hv with
        | cons hv1 hv2 =>
          exact ⟨a, b, v, _, h3, h4, look_bindAll_get (i := 0) hn (by simp [h1]) (by simp),
            look_bindAll_get (i := 0) hn' (by simp [h2]) (by simp), hv1⟩

theorem updOpt_cases {m : PMap} {re : Option Var} {y v v' : Var} (h : updOpt m re y v = some v') :
    (re = some v ∧ v' = y) ∨ (re ≠ some v ∧ m v = some v') := by
  cases re with
  | none => right; exact ⟨by simp, h⟩
  | some e =>
    simp only [updOpt, PMap.upd] at h
    split at h
    · next he => left; exact ⟨by rw [he], (Option.some.inj h).symm⟩
    · next he => right; exact ⟨fun g => he (Option.some.inj g).symm, h⟩

/-- The scope of a lifted function's body, against the scope of the lambda's. -/
theorem lift_env {q : Prog} {re : Option Var} {caps ps ps' gs : List Var} {evv : Var} {env envS envT : Env B}
    {vs ws cs : List (Val B)} {e e' : Val B}
    (hv : VRs q vs ws) (hl : vs.length = ps.length) (hl' : ps'.length = ps.length) (hn : ps.Nodup)
    (hc : cs.length = caps.length) (hg : gs.length = caps.length)
    (hcs : ∀ v ∈ caps, (look env v).isSome)
    (hcr : ∀ (i : Nat) v x c, caps[i]? = some v → look env v = some x → cs[i]? = some c → VR q x c)
    (hd : ∀ x ∈ ps, x ∉ caps ++ re.toList) (hd2 : ∀ e ∈ re.toList, e ∉ caps)
    (hS : ∀ v, v ∉ re.toList → look envS v = look env v) (hSe : ∀ x ∈ re.toList, look envS x = some e)
    (hTg : ∀ (i : Nat) g c, gs[i]? = some g → cs[i]? = some c → look envT g = some c)
    (hTp : ∀ (i : Nat) x w, ps'[i]? = some x → ws[i]? = some w → look envT x = some w)
    (hTe : re ≠ none → look envT evv = some e' ∧ VR q e e') :
    EnvRel q (liftMap re caps ps evv ps' gs) (bindAll envS ps vs) envT := by
  intro v v' hm
  unfold liftMap at hm
  rcases updAll_cases hm with ⟨i, h1, h2⟩ | ⟨h1, h2⟩
  · have hvc : v ∈ caps := List.mem_of_getElem? h1
    obtain ⟨x, hx⟩ := Option.isSome_iff_exists.mp (hcs v hvc)
    have hi : i < cs.length := by
      rw [hc]; exact (List.getElem?_eq_some_iff.mp h1).1
    refine ⟨x, cs[i], ?_, ?_, hcr i v x _ h1 hx (List.getElem?_eq_getElem hi)⟩
    · rw [look_bindAll_not (fun h => hd v h (by simp [hvc])), hS v (fun h => hd2 v h hvc), hx]
    · exact hTg i v' _ h2 (List.getElem?_eq_getElem hi)
  · rcases updOpt_cases h1 with ⟨rfl, rfl⟩ | ⟨hre, h3⟩
    · obtain ⟨t1, t2⟩ := hTe (by simp)
      refine ⟨e, e', ?_, t1, t2⟩
      rw [look_bindAll_not (fun h => hd v h (by simp)), hSe v (by simp)]
    · rcases updAll_cases h3 with ⟨i, g1, g2⟩ | ⟨h4, _⟩
      · have hi : i < vs.length := by rw [hl]; exact (List.getElem?_eq_some_iff.mp g1).1
        obtain ⟨w, hw, hr⟩ := vrs_get hv (List.getElem?_eq_getElem hi)
        exact ⟨vs[i], w, look_bindAll_get hn g1 (List.getElem?_eq_getElem hi), hTp i v' w g2 hw, hr⟩
      · cases h4

theorem vrs_insertAt {q : Prog} {vs ws : List (Val B)} (h : VRs q vs ws) {v w : Val B} (hv : VR q v w) :
    ∀ {i : Nat}, VRs q (insertAt i v vs) (insertAt i w ws) := by
  induction h with
  | nil =>
    intro i
    cases i with
    | zero => exact .cons hv .nil
    | succ i => exact .cons hv .nil
  | cons h1 h2 ih =>
    intro i
    cases i with
    | zero => exact .cons hv (.cons h1 h2)
    | succ i => exact .cons h1 ih

theorem eval_entry (S : Sem B σ) (q : Prog) (enter) (E : Option Var) (ev : Option (Val B)) {caps gs : List Var}
    {cst envv : Var} {k : Code} {env : Env B} {s : σ} {cs : List (Val B)}
    (h : caps ≠ [] → look env envv = some (.data cs)) (hc : cst ∉ gs)
    (hl : gs.length = cs.length) (hg : gs.length = caps.length) :
    eval S q enter E ev (entry caps cst envv gs k) env s =
      eval S q enter E ev k (if caps = [] then env else bindAll ((cst, .data cs) :: env) gs cs) s := by
  unfold entry
  by_cases hcaps : caps = []
  · simp [hcaps]
  · rw [if_neg hcaps, if_neg hcaps]
    simp only [eval, looks, h hcaps, act, Act.andThen]
    rw [eval_loads S q enter E ev (cs := cs) (by simp [look]) hc (by simpa using hl)]
    simp

theorem lift_call (S : Sem B σ) {q : Prog} {env : Env B} {re : Option Var} {slot : Slot} {ps : List (Var × Ty)}
    {body : Code} {f : Sym} {w : Val B} (hvr : VR q (.clo env re slot ps body) (.pair f w slot))
    {ev ev' : Option (Val B)} (hev : OptRel q ev ev') {vs ws : List (Val B)} (hv : VRs q vs ws)
    {p : Prog} {conv : Option Conv} {site : Site} {fr : Frame B}
    (h : callVal p ev conv site (.clo env re slot ps body) vs = some fr) :
    ∃ fr', callVal q ev' conv site (.pair f w slot) ws = some fr' ∧ FRel S q fr fr' := by
  cases hvr with
  | lift cs hf hn hL hA hre hcl hcs hcr hd hd2 hw =>
    next fn caps evv envv cst ps' gs body' =>
    obtain ⟨hlen, hglen, hle, hnd, hparams, hbody⟩ := hL
    simp only [callVal] at h ⊢
    split at h
    · next hg =>
      obtain ⟨g1, g2, g3⟩ := hg
      have hws : ws.length = ps.length := by rw [← VRs_length hv, g3]
      have hps'n : ps'.Nodup := by
        simp only [List.nodup_cons] at hnd
        exact (List.nodup_append.mp hnd.2.2.2).1
      have hgsn : gs.Nodup := by
        simp only [List.nodup_cons] at hnd
        exact (List.nodup_append.mp hnd.2.2.2).2.1
      have hdis : ∀ x ∈ ps', x ∉ gs := by
        simp only [List.nodup_cons] at hnd
        intro x h1 h2
        exact (List.nodup_append.mp hnd.2.2.2).2.2 x h1 x h2 rfl
      simp only [List.nodup_cons, List.mem_cons, List.mem_append, not_or] at hnd
      obtain ⟨⟨n1, n2, n3, n4⟩, ⟨n5, n6, n7⟩, ⟨n8, n9⟩, _⟩ := hnd
      have hzip : (ps'.zip (ps.map Prod.snd)).map Prod.fst = ps' := by
        rw [List.map_fst_zip]; simp [hlen]
      have hzip2 : (ps'.zip (ps.map Prod.snd)).map Prod.snd = ps.map Prod.snd := by
        rw [List.map_snd_zip]; simp [hlen]
      rw [if_pos ⟨g1, g2⟩]
      cases slot with
      | legacy =>
        simp only [Option.some.injEq] at h
        subst h
        simp only [withEnv, Option.bind_some]
        have hpar : fn.params = (evv, evTy) :: (envv, anyTy) :: ps'.zip (ps.map Prod.snd) := hparams
        have hcf : callFn q f (ev'.getD .null :: w :: ws) =
            some ⟨fn.body, bindAll [(envv, w), (evv, ev'.getD .null)] ps' ws, some evv, some (ev'.getD .null)⟩ := by
          have hlast : look (bindAll [(envv, w), (evv, ev'.getD .null)] ps' ws) evv = some (ev'.getD .null) := by
            rw [look_bindAll_not n3]; simp [look, Ne.symm n1]
          simp only [callFn, hf]
          rw [if_pos (by simp [hpar, hws, hlen])]
          simp [hpar, firstEvidence, bindAll, hzip, hlast]
        refine ⟨_, hcf, ?_⟩
        have hvne : VR q (ev.getD .null) (ev'.getD .null) := by
          cases ev with
          | none => cases ev' with
            | none => exact .null
            | some _ => cases hev
          | some _ => cases ev' with
            | none => cases hev
            | some _ => exact hev
        refine ⟨liftMap re caps (ps.map Prod.fst) evv ps' gs, body',
          (if caps = [] then bindAll [(envv, w), (evv, ev'.getD .null)] ps' ws else
            bindAll ((cst, .data cs) :: bindAll [(envv, w), (evv, ev'.getD .null)] ps' ws) gs cs), ?_, ?_, ?_, hvne⟩
        · intro enter s
          simp only [hbody]
          refine eval_entry S q enter _ _ (cs := cs) ?_ n9 (by omega) hglen
          intro hcaps
          rw [look_bindAll_not n6]
          simp [look, hw, hcaps]
        · have := hA
          simp only [innerEv] at this
          rw [show firstEvidence fn.params = some evv by simp [hpar, firstEvidence]] at this
          exact this
        · refine lift_env (env := env) (e := ev.getD .null) (e' := ev'.getD .null) hv (by simpa using g3) (by simpa using hlen) hn
            hcl hglen hcs hcr hd hd2 ?_ ?_ ?_ ?_ ?_
          · intro v hvn
            cases re with
            | none => rfl
            | some x =>
              simp only [Option.toList_some, List.mem_singleton] at hvn
              simp [bindEv, look, Ne.symm hvn]
          · intro x hx
            cases re with
            | none => simp at hx
            | some y =>
              simp only [Option.toList_some, List.mem_singleton] at hx
              simp [bindEv, look, hx]
          · intro i g c hg1 hc1
            have : caps ≠ [] := by
              intro e; rw [e] at hglen
              have := List.length_eq_zero_iff.mp hglen
              simp [this] at hg1
            rw [if_neg this]
            exact look_bindAll_get hgsn hg1 hc1
          · intro i x y hx hy
            have hxp : x ∈ ps' := List.mem_of_getElem? hx
            have base := look_bindAll_get (env := [(envv, w), (evv, ev'.getD .null)]) hps'n hx hy
            split
            · exact base
            · rw [look_bindAll_not (hdis x hxp)]
              have : cst ≠ x := fun e => n8 (e ▸ hxp)
              simpa [look, this] using base
          · intro _
            refine ⟨?_, hvne⟩
            have base : look (bindAll [(envv, w), (evv, ev'.getD .null)] ps' ws) evv = some (ev'.getD .null) := by
              rw [look_bindAll_not n3]; simp [look, Ne.symm n1]
            split
            · exact base
            · rw [look_bindAll_not n4]
              simpa [look, Ne.symm n2] using base
      | «at» c i =>
        have hre0 : re = none := hre (by simp)
        subst hre0
        have hile := hle c i rfl
        simp only [Option.some.injEq] at h
        subst h
        simp only [withEnv]
        rw [if_pos (by omega), insertAt_eq (by omega)]
        simp only [Option.bind_some]
        have hpar : fn.params = insertAt i (envv, anyTy) (ps'.zip (ps.map Prod.snd)) := hparams
        have hpn : fn.params.map Prod.fst = insertAt i envv ps' := by
          rw [hpar, insertAt_map, hzip]
        have hcf : callFn q f (insertAt i w ws) =
            some ⟨fn.body, bindAll [] (insertAt i envv ps') (insertAt i w ws), firstEvidence fn.params,
              (firstEvidence fn.params).bind (look (bindAll [] (insertAt i envv ps') (insertAt i w ws)))⟩ := by
          simp only [callFn, hf]
          rw [if_pos (by rw [hpar, insertAt_length, insertAt_length]; simp [hws, hlen]), hpn]
        refine ⟨_, hcf, ?_⟩
        have hps : ∀ {j : Nat} {x : Var} {y : Val B}, ps'[j]? = some x → ws[j]? = some y →
            look (bindAll [] (insertAt i envv ps') (insertAt i w ws)) x = some y := by
          intro j x y hx hy
          have hxp : x ∈ ps' := List.mem_of_getElem? hx
          have hne : envv ≠ x := fun e => n6 (e ▸ hxp)
          rw [look_bindAll_insert hne (by rw [hlen]; exact hile) (by rw [hlen, hws])]
          exact look_bindAll_get hps'n hx hy
        refine ⟨liftMap none caps (ps.map Prod.fst) evv ps' gs, body',
          (if caps = [] then bindAll [] (insertAt i envv ps') (insertAt i w ws) else
            bindAll ((cst, .data cs) :: bindAll [] (insertAt i envv ps') (insertAt i w ws)) gs cs), ?_, hA, ?_, ?_⟩
        · intro enter s
          simp only [hbody]
          refine eval_entry S q enter _ _ (cs := cs) ?_ n9 (by omega) hglen
          intro hcaps
          rw [look_bindAll_insert_same n6 (by omega) (by omega)]
          simp [hw, hcaps]
        · refine lift_env (env := env) (e := .null) (e' := .null) hv (by simpa using g3) (by simpa using hlen) hn
            hcl hglen hcs hcr hd hd2 (fun _ _ => rfl) (by simp) ?_ ?_ (by simp)
          · intro j g c hg1 hc1
            have : caps ≠ [] := by
              intro e; rw [e] at hglen
              have := List.length_eq_zero_iff.mp hglen
              simp [this] at hg1
            rw [if_neg this]
            exact look_bindAll_get hgsn hg1 hc1
          · intro j x y hx hy
            have hxp : x ∈ ps' := List.mem_of_getElem? hx
            have base := hps hx hy
            split
            · exact base
            · rw [look_bindAll_not (hdis x hxp)]
              have : cst ≠ x := fun e => n8 (e ▸ hxp)
              simpa [look, this] using base
        · apply optRel_bind
          cases i with
          | zero =>
            left
            refine ⟨rfl, ?_⟩
            rw [hpar]; simp [insertAt, firstEvidence, anyTy, evTy]
          | succ i =>
            cases ps with
            | nil => simp at hile
            | cons a pr =>
              cases ps' with
              | nil => simp at hlen
              | cons b pr' =>
                cases vs with
                | nil => simp at g3
                | cons v vs =>
                  cases hv with
                  | cons hv1 hv2 =>
                    next w0 ws0 =>
                    obtain ⟨a, t⟩ := a
                    by_cases he : t = evTy
                    · right
                      refine ⟨a, b, v, w0, by simp [innerEv, firstEvidence, he], ?_, ?_, ?_, hv1⟩
                      · rw [hpar]; simp [insertAt, firstEvidence, he]
                      · exact look_bindAll_get (i := 0) hn (by simp) (by simp)
                      · exact hps (j := 0) (by simp) (by simp)
                    · left
                      refine ⟨by simp [innerEv, firstEvidence, he], ?_⟩
                      rw [hpar]; simp [insertAt, firstEvidence, he]
    · cases h

theorem optRel_getD {q : Prog} {ev ev' : Option (Val B)} (hev : OptRel q ev ev') :
    VR q (ev.getD .null) (ev'.getD .null) := by
  cases ev with
  | none => cases ev' with
    | none => exact .null
    | some _ => cases hev
  | some _ => cases ev' with
    | none => cases hev
    | some _ => exact hev

theorem clo_call (S : Sem B σ) {q : Prog} {env env' : Env B} {re re' : Option Var} {slot : Slot}
    {ps ps' : List (Var × Ty)} {body body' : Code}
    (hvr : VR q (.clo env re slot ps body) (.clo env' re' slot ps' body'))
    {ev ev' : Option (Val B)} (hev : OptRel q ev ev') {vs ws : List (Val B)} (hv : VRs q vs ws)
    {p : Prog} {conv : Option Conv} {site : Site} {fr : Frame B}
    (h : callVal p ev conv site (.clo env re slot ps body) vs = some fr) :
    ∃ fr', callVal q ev' conv site (.clo env' re' slot ps' body') ws = some fr' ∧ FRel S q fr fr' := by
  cases hvr with
  | clo m hdef hrel hslot hre1 hre2 hfr hn' hn hs hA =>
    have hE : EnvRel q m env env' := by
      intro v v' hm
      obtain ⟨a, b⟩ := hdef v v' hm
      obtain ⟨x, hx⟩ := Option.isSome_iff_exists.mp a
      obtain ⟨y, hy⟩ := Option.isSome_iff_exists.mp b
      exact ⟨x, y, hx, hy, hrel _ _ _ _ hm hx hy⟩
    have hpl : ps.length = ps'.length := by simpa using congrArg List.length hs
    simp only [callVal] at h ⊢
    split at h
    · next hg =>
      obtain ⟨g1, g2, g3⟩ := hg
      have hvl := VRs_length hv
      rw [if_pos ⟨g1, g2, by omega⟩]
      cases slot with
      | legacy =>
        simp only [Option.some.injEq] at h
        subst h
        have hvne := optRel_getD hev
        have hE2 : EnvRel q (updOpt m re (re'.getD 0))
            (bindEv re (ev.getD .null) env) (bindEv re' (ev'.getD .null) env') := by
          cases re with
          | none =>
            cases re' with
            | none => exact hE
            | some e' =>
              intro v v' hm
              obtain ⟨x, y, h1, h2, h3⟩ := hE v v' hm
              refine ⟨x, y, h1, ?_, h3⟩
              have : e' ≠ v' := fun e => hre2 rfl e' rfl v (e ▸ hm)
              simpa [bindEv, look, this] using h2
          | some e =>
            obtain ⟨e', rfl, hu⟩ := hre1 e rfl
            intro v v' hm
            rcases updOpt_cases hm with ⟨h1, h2⟩ | ⟨h1, h2⟩
            · cases h1
              simp only [Option.getD_some] at h2
              subst h2
              exact ⟨_, _, by simp [bindEv, look], by simp [bindEv, look], hvne⟩
            · obtain ⟨x, y, g1, g2, g3⟩ := hE v v' h2
              have hne : e ≠ v := fun e => h1 (by rw [e])
              have hne' : e' ≠ v' := fun e => hne (hu v (e ▸ h2)).symm
              exact ⟨x, y, by simpa [bindEv, look, hne] using g1, by simpa [bindEv, look, hne'] using g2, g3⟩
        exact ⟨_, rfl, _, body', _, fun _ _ => rfl, hA, hE2.updAll hv (by simp [hpl]) (by simp [g3]) hn' hfr, hvne⟩
      | «at» c i =>
        obtain ⟨rfl, rfl⟩ := hslot (by simp)
        simp only [Option.some.injEq] at h
        subst h
        exact ⟨_, rfl, _, body', _, fun _ _ => rfl, hA, hE.updAll hv (by simp [hpl]) (by simp [g3]) hn' hfr,
          innerEv_rel hv (by omega) hn hn' hs c i⟩
    · cases h

theorem callVal_rel (S : Sem B σ) {p q : Prog} (hp : PRel p q) {c d : Val B} (hc : VR q c d)
    {ev ev' : Option (Val B)} (hev : OptRel q ev ev') {vs ws : List (Val B)} (hv : VRs q vs ws)
    {conv : Option Conv} {site : Site} {fr : Frame B} (h : callVal p ev conv site c vs = some fr) :
    ∃ fr', callVal q ev' conv site d ws = some fr' ∧ FRel S q fr fr' := by
  cases hc with
  | base | null | data => cases h
  | fn f =>
    simp only [callVal] at h ⊢
    split at h
    · cases h
    · next hs => rw [if_neg hs]; exact callFn_rel S hp hv h
  | pair hvw =>
    next f v w slot =>
    simp only [callVal] at h ⊢
    split at h
    · next hs =>
      rw [if_pos hs]
      have hvl := VRs_length hv
      cases slot with
      | legacy =>
        simp only [withEnv, Option.bind_some] at h ⊢
        exact callFn_rel S hp (.cons (optRel_getD hev) (.cons hvw hv)) h
      | «at» c i =>
        simp only [withEnv] at h ⊢
        split at h
        · next hi =>
          rw [if_pos (by omega)]
          rw [insertAt_eq hi] at h
          rw [insertAt_eq (by omega)]
          simp only [Option.bind_some] at h ⊢
          exact callFn_rel S hp (vrs_insertAt hv hvw) h
        · cases h
    · cases h
  | clo m h1 h2 h3 h4 h5 h6 h7 h8 h9 h10 => exact clo_call S (.clo m h1 h2 h3 h4 h5 h6 h7 h8 h9 h10) hev hv h
  | lift cs h1 h2 h3 h4 h5 h6 h7 h8 h9 h10 h11 => exact lift_call S (.lift cs h1 h2 h3 h4 h5 h6 h7 h8 h9 h10 h11) hev hv h

inductive ARel (S : Sem B σ) (q : Prog) : Act B σ → Act B σ → Prop
  | err (a) : ARel S q .err a
  | val {s v w} : VR q v w → ARel S q (.val s v) (.val s w)
  | enter {fr fr'} : FRel S q fr fr' → ARel S q (.enter fr) (.enter fr')

theorem bases_rel {q : Prog} {vs ws : List (Val B)} (h : VRs q vs ws) {bs : List B} (hb : bases vs = some bs) :
    bases ws = some bs := by
  induction h generalizing bs with
  | nil => exact hb
  | cons h1 _ ih =>
    cases h1 with
    | base b =>
      simp only [bases] at hb ⊢
      obtain ⟨cs, h1, h2⟩ := Option.map_eq_some_iff.mp hb
      rw [ih h1]; simp [h2]
    | _ => simp [bases] at hb

theorem vrs_of_data {q : Prog} {vs ws : List (Val B)} (hl : vs.length = ws.length)
    (h : ∀ (i : Nat) v w, vs[i]? = some v → ws[i]? = some w → VR q v w) : VRs q vs ws := by
  induction vs generalizing ws with
  | nil => cases ws with
    | nil => exact .nil
    | cons _ _ => simp at hl
  | cons v vs ih => cases ws with
    | nil => simp at hl
    | cons w ws =>
      exact .cons (h 0 v w (by simp) (by simp)) (ih (by simpa using hl) (fun i a b h1 h2 =>
        h (i + 1) a b (by simpa using h1) (by simpa using h2)))

theorem ofFrame_rel (S : Sem B σ) {q : Prog} {a b : Option (Frame B)}
    (h : ∀ fr, a = some fr → ∃ fr', b = some fr' ∧ FRel S q fr fr') :
    ARel S q (Act.ofFrame a) (Act.ofFrame b) := by
  cases a with
  | none => exact .err _
  | some fr =>
    obtain ⟨fr', rfl, hf⟩ := h fr rfl
    exact .enter hf

theorem act_rel (S : Sem B σ) {p q : Prog} (hp : PRel p q) {ev ev' : Option (Val B)} (hev : OptRel q ev ev')
    {vs ws : List (Val B)} (hv : VRs q vs ws) (s : σ) (o : Opr) :
    ARel S q (act S p ev s o vs) (act S q ev' s o ws) := by
  cases o with
  | prim n =>
    simp only [act]
    cases hb : bases vs with
    | none => exact .err _
    | some bs =>
      rw [bases_rel hv hb]
      simp only [Option.bind_some]
      cases S.prim n bs s with
      | none => exact .err _
      | some r => exact .val (.base _)
  | pack =>
    refine .val (.data (VRs_length hv) ?_)
    intro i v w h1 h2
    obtain ⟨w', h3, h4⟩ := vrs_get hv h1
    rw [h2] at h3; cases h3; exact h4
  | get i =>
    cases hv with
    | nil => exact .err _
    | cons h1 h2 =>
      cases h2 with
      | cons _ _ => simp only [act]; exact .err _
      | nil =>
        cases h1 with
        | data hl hr =>
          next vs ws =>
          simp only [act]
          cases hi : vs[i]? with
          | none => exact .err _
          | some v =>
            obtain ⟨w, hw, hvw⟩ := vrs_get (vrs_of_data hl hr) hi
            rw [hw]
            exact .val hvw
        | _ => exact .err _
  | null => cases hv with
    | nil => exact .val .null
    | cons _ _ => exact .err _
  | cast => cases hv with
    | nil => exact .err _
    | cons h1 h2 => cases h2 with
      | nil => exact .val h1
      | cons _ _ => exact .err _
  | call f => exact ofFrame_rel S (fun fr h => callFn_rel S hp hv h)
  | callInd conv site => cases hv with
    | nil => exact .err _
    | cons h1 h2 => exact ofFrame_rel S (fun fr h => callVal_rel S hp h1 hev h2 h)
  | closureNew f conv ty => cases hv with
    | nil => exact .err _
    | cons h1 h2 => cases h2 with
      | nil =>
        simp only [act]
        cases contract conv ty with
        | none => exact .err _
        | some slot => exact .val (.pair h1)
      | cons _ _ => exact .err _
  | constant f => cases hv with
    | nil => exact .val (.fn f)
    | cons _ _ => exact .err _

theorem act_andThen (S : Sem B σ) {q : Prog} {a b : Act B σ} (h : ARel S q a b)
    {enter enter' : Frame B → σ → Res B σ} (he : ∀ fr fr' s, FRel S q fr fr' → RRel q (enter fr s) (enter' fr' s))
    {k k' : σ → Val B → Res B σ} (hk : ∀ s v w, VR q v w → RRel q (k s v) (k' s w)) (s : σ) :
    RRel q (a.andThen enter s k) (b.andThen enter' s k') := by
  cases h with
  | err => exact .err _
  | val h => exact hk _ _ _ h
  | enter h => exact (he _ _ s h).andThen hk

theorem mem_of_map_some {m : PMap} {caps caps' : List Var} (h : caps.map m = caps'.map some) :
    (∀ v ∈ caps, ∃ v' ∈ caps', m v = some v') ∧ (∀ v' ∈ caps', ∃ v ∈ caps, m v = some v') := by
  constructor
  · intro v hv
    have : m v ∈ caps'.map some := by rw [← h]; exact List.mem_map_of_mem hv
    obtain ⟨v', h1, h2⟩ := List.mem_map.mp this
    exact ⟨v', h1, h2.symm⟩
  · intro v' hv
    have : some v' ∈ caps.map m := by rw [h]; exact List.mem_map_of_mem hv
    obtain ⟨v, h1, h2⟩ := List.mem_map.mp this
    exact ⟨v, h1, h2⟩

theorem rebinds_at {c : Conv} {i : Nat} {E : Option Var} {caps : List Var} : rebinds (.at c i) E caps = none := by
  cases E <;> rfl

theorem rebinds_some {slot : Slot} {E : Option Var} {caps : List Var} {e : Var} (h : rebinds slot E caps = some e) :
    slot = .legacy ∧ E = some e ∧ e ∉ caps := by
  cases slot with
  | «at» c i => rw [rebinds_at] at h; cases h
  | legacy =>
    cases E with
    | none => cases h
    | some x =>
      simp only [rebinds] at h
      split at h
      · cases h
      · next hx => cases h; exact ⟨rfl, rfl, hx⟩

theorem looks_some {env : Env B} : ∀ {xs : List Var} {vs : List (Val B)}, looks env xs = some vs →
    vs.length = xs.length ∧ (∀ (i : Nat) x, xs[i]? = some x → ∃ v, vs[i]? = some v ∧ look env x = some v) := by
  intro xs
  induction xs with
  | nil => intro vs h; simp only [looks, Option.some.injEq] at h; subst h; simp
  | cons x xs ih =>
    intro vs h
    simp only [looks] at h
    cases h1 : look env x with
    | none => rw [h1] at h; simp at h
    | some v =>
      cases h2 : looks env xs with
      | none => rw [h1, h2] at h; simp at h
      | some ws =>
        rw [h1, h2] at h
        simp only [Option.some.injEq] at h
        subst h
        obtain ⟨g1, g2⟩ := ih h2
        refine ⟨by simp [g1], ?_⟩
        intro i y hy
        cases i with
        | zero => simp only [List.getElem?_cons_zero, Option.some.injEq] at hy; subst hy; exact ⟨v, by simp, h1⟩
        | succ i => simpa using g2 i y (by simpa using hy)

theorem only_some {m : PMap} {l : List Var} {v v' : Var} (h : m.only l v = some v') : v ∈ l ∧ m v = some v' := by
  unfold PMap.only at h
  split at h
  · next hv => exact ⟨hv, h⟩
  · cases h

theorem updOpt_self {m : PMap} {e e' : Var} (h : m e = some e') : updOpt m (some e) e' = m := by
  funext v
  simp only [updOpt, PMap.upd]
  split
  · next hv => rw [hv, h]
  · rfl

/-- One activation. -/
theorem sim (S : Sem B σ) {p q : Prog} (hp : PRel p q) {enter enter' : Frame B → σ → Res B σ}
    (he : ∀ fr fr' s, FRel S q fr fr' → RRel q (enter fr s) (enter' fr' s))
    {ev ev' : Option (Val B)} (hev : OptRel q ev ev') {E E' : Option Var} {m : PMap} {c c' : Code}
    (h : Alpha q E E' m c c') : ∀ {env env' : Env B} {s : σ}, EnvRel q m env env' →
    RRel q (eval S p enter E ev c env s) (eval S q enter' E' ev' c' env' s) := by
  induction h with
  | ret hx =>
    intro env env' s hE
    obtain ⟨x, y, h1, h2, h3⟩ := hE _ _ hx
    simp only [eval, h1, h2]
    exact .ok h3
  | tail ha =>
    intro env env' s hE
    obtain ⟨vs, ws, h1, h2, h3⟩ := looks_rel hE ha
    simp only [eval, h1, h2]
    refine act_andThen S (act_rel S hp hev h3 s _) he ?_ s
    intro s v w h; exact .ok h
  | op ha hf _ ih =>
    intro env env' s hE
    obtain ⟨vs, ws, h1, h2, h3⟩ := looks_rel hE ha
    simp only [eval, h1, h2]
    refine act_andThen S (act_rel S hp hev h3 s _) he ?_ s
    intro s v w h; exact ih (hE.upd hf h)
  | cond hc _ _ hf _ iht ihe ihk =>
    intro env env' s hE
    obtain ⟨x, y, h1, h2, h3⟩ := hE _ _ hc
    simp only [eval, h1, h2]
    cases h3 with
    | base b =>
      simp only
      split
      · exact (iht hE).andThen (fun _ _ _ h => ihk (hE.upd hf h))
      · exact (ihe hE).andThen (fun _ _ _ h => ihk (hE.upd hf h))
    | _ => exact .err _
  | lambda slot hslot hcaps hinj hEv hs hn hn' hfr hbody hf _ _ ihk =>
    intro env env' s hE
    next E E' m r r' caps caps' conv ty ps ps' body body' k k' _ _ =>
    obtain ⟨vs, ws, h1, h2, _⟩ := looks_rel hE hcaps
    simp only [eval, h1, h2, hslot]
    refine ihk (hE.upd hf ?_)
    obtain ⟨mc1, mc2⟩ := mem_of_map_some hcaps
    have key : ∀ e, rebinds slot E caps = some e → ∃ e', rebinds slot E' caps' = some e' ∧ m e = some e' := by
      intro e hre
      obtain ⟨rfl, rfl, hec⟩ := rebinds_some hre
      obtain ⟨e', rfl, hme⟩ := hEv e rfl
      refine ⟨e', ?_, hme⟩
      simp only [rebinds]
      rw [if_neg]
      intro hc
      obtain ⟨v, hv1, hv2⟩ := mc2 e' hc
      exact hec (hinj v e e' hv2 hme ▸ hv1)
    have hmap : updOpt (m.only (caps ++ (rebinds slot E caps).toList)) (rebinds slot E caps)
        ((rebinds slot E' caps').getD 0) = m.only (caps ++ (rebinds slot E caps).toList) := by
      cases hre : rebinds slot E caps with
      | none => rfl
      | some e =>
        obtain ⟨e', h3, h4⟩ := key e hre
        rw [h3]
        exact updOpt_self (by simp [PMap.only, h4])
    refine .clo (m.only (caps ++ (rebinds slot E caps).toList)) ?_ ?_ ?_ ?_ ?_ ?_ hn' hn hs ?_
    · intro v v' hv
      obtain ⟨x, y, g1, g2, _⟩ := hE _ _ (only_some hv).2
      simp [g1, g2]
    · intro v v' x x' hv g1 g2
      exact hE.congr (only_some hv).2 g1 g2
    · intro hsl
      cases slot with
      | legacy => exact absurd rfl hsl
      | «at» c i => exact ⟨rebinds_at, rebinds_at⟩
    · intro e hre
      obtain ⟨e', h3, h4⟩ := key e hre
      exact ⟨e', h3, fun v hv => hinj v e e' (only_some hv).2 h4⟩
    · intro hre e' hre' v hv
      obtain ⟨g1, g2⟩ := only_some hv
      rw [hre] at g1
      simp only [Option.toList_none, List.append_nil] at g1
      obtain ⟨v', g3, g4⟩ := mc1 v g1
      rw [g2] at g4; cases g4
      exact (rebinds_some hre').2.2 g3
    · rw [hmap]; exact hfr
    · rw [hmap]; exact hbody
  | lift slot hslot hcaps hfind hn hd hL hbody hfe hfr hne _ _ ihk =>
    intro env env' s hE
    next E E' m r r' caps caps' conv ty ps body k k' e f fn evv envv cst ps' gs body' _ _ =>
    obtain ⟨vs, ws, h1, h2, h3⟩ := looks_rel hE hcaps
    simp only [eval, h1, h2, hslot]
    have hcl : caps.length = caps'.length := by simpa using congrArg List.length hcaps
    obtain ⟨l1, l2⟩ := looks_some h1
    have hact : act S q ev' s (if caps = [] then .null else .pack) ws =
        .val s (if caps = [] then .null else .data ws) := by
      split
      · next hc =>
        subst hc
        simp only [looks, Option.some.injEq] at h1
        subst h1
        cases h3
        rfl
      · rfl
    rw [hact]
    simp only [Act.andThen, looks, look, if_pos, act, hslot]
    have hE2 : EnvRel q m env ((e, if caps = [] then .null else .data ws) :: env') := by
      intro v v' hv
      obtain ⟨x, y, g1, g2, g3⟩ := hE v v' hv
      have : e ≠ v' := fun h => hfe v (h ▸ hv)
      exact ⟨x, y, g1, by simpa [look, this] using g2, g3⟩
    refine ihk (hE2.upd hfr ?_)
    refine .lift ws hfind hn hL hbody ?_ (by rw [← VRs_length h3, l1]) ?_ ?_ hd ?_ rfl
    · intro hsl
      cases slot with
      | legacy => exact absurd rfl hsl
      | «at» c i => exact rebinds_at
    · intro v hv
      obtain ⟨i, hi, hvi⟩ := List.getElem_of_mem hv
      obtain ⟨x, _, hx⟩ := l2 i v (by rw [List.getElem?_eq_getElem hi, hvi])
      simp [hx]
    · intro i v x c g1 g2 g3
      obtain ⟨y, g4, g5⟩ := l2 i v g1
      rw [g2] at g5; cases g5
      obtain ⟨w, g6, g7⟩ := vrs_get h3 g4
      rw [g3] at g6; cases g6
      exact g7
    · intro x hx
      simp only [Option.mem_toList] at hx
      exact (rebinds_some hx).2.2

theorem run_rel (S : Sem B σ) {p q : Prog} (hp : PRel p q) : ∀ (n : Nat) (fr fr' : Frame B) (s : σ),
    FRel S q fr fr' → RRel q (run S p n fr s) (run S q n fr' s) := by
  intro n
  induction n with
  | zero => intro fr fr' s _; exact .out
  | succ n ih =>
    intro fr fr' s ⟨m, code, env, h1, h2, h3, h4⟩
    simp only [run]
    rw [h1]
    exact sim S hp ih h4 h2 h3

theorem vrs_bases (q : Prog) (bs : List B) : VRs q (bs.map Val.base) (bs.map Val.base) := by
  induction bs with
  | nil => exact .nil
  | cons b bs ih => exact .cons (.base b) ih

theorem result_rel (S : Sem B σ) {p q : Prog} (hp : PRel p q) (n : Nat) (f : Sym) (bs : List B) (s : σ) :
    RRel q (result S p n f bs s) (result S q n f bs s) := by
  unfold result
  cases h : callFn p f (bs.map .base) with
  | none => exact .err _
  | some fr =>
    obtain ⟨fr', h1, h2⟩ := callFn_rel S hp (vrs_bases q bs) h
    rw [h1]
    exact run_rel S hp n fr fr' s h2

theorem same_of_rrel {q : Prog} {r r' : Res B σ} (h : RRel q r r') (hr : r ≠ .err) : Same r r' := by
  cases h with
  | err => exact absurd rfl hr
  | out => exact .out
  | ok h =>
    refine .ok ?_
    intro b
    cases h with
    | base c => exact Iff.rfl
    | _ => simp

end Verif.Closure
