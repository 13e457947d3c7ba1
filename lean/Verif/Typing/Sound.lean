import Verif.Typing.Frame3

/-!
# The constraints of the first walk imply the typing rules
-/

namespace Verif.Typing
open Verif.Types Verif.Solver Verif.Scheme

/-! ## Environments -/

/-- The declarations of an environment. -/
def sigOf (G : Env) : Sig where
  fn f τ := ∃ s, G.fns[f]? = some s ∧ Inst s τ
  ctor c τ := ∃ s, G.ctors[c]? = some s ∧ Inst s τ
  method := select G.methods
  str := G.str
  list := G.list

theorem sigOf_env (P : Prog) (ss : List PolyTy) : sigOf (P.env ss) = P.sig ss := rfl

/-- The variables of the state. -/
def Gam (δ : UVar → S) (k : K) : TEnv := fun x τ => ∃ s, k.lookup x = some s ∧ InstOf δ s τ

theorem gam_eq {δ : UVar → S} {k k' : K} (h1 : k'.names = k.names) (h2 : k'.c.schemes = k.c.schemes) :
    Gam δ k' = Gam δ k := by
  funext x τ
  simp only [Gam, K.lookup, h1, h2]

theorem Fr.gam {ns : List Nat} {k k' : K} (h : Fr ns k k') (δ : UVar → S) : Gam δ k' = Gam δ k :=
  gam_eq h.names h.schemes

theorem gam_set {δ : UVar → S} {k k' : K} {x : Nat} {s : PolyTy} (h1 : k'.names = x :: k.names)
    (h2 : k'.c.schemes = s :: k.c.schemes) : Gam δ k' = (Gam δ k).set x (InstOf δ s) := by
  funext y τ
  simp only [Gam, TEnv.set, K.lookup, h1, h2, List.zip_cons_cons]
  by_cases h : y = x
  · subst h
    simp
  · simp only [List.lookup_cons, beq_eq_false_iff_ne.2 h, if_neg h]

theorem instOf_mono {δ : UVar → S} {t : Ty} : InstOf δ ⟨0, [], t⟩ = (· = ev δ [] t) := by
  funext τ
  apply propext
  constructor
  · rintro ⟨β, hβ, rfl⟩
    have : β = [] := by simpa using hβ
    subst this
    rfl
  · rintro rfl
    exact ⟨[], rfl, rfl⟩

theorem gam_bind (δ : UVar → S) (k : K) (x : Nat) (t : Ty) :
    Gam δ (k.bind x t) = (Gam δ k).set x (· = ev δ [] t) := by
  rw [← instOf_mono]
  exact gam_set rfl rfl

theorem gam_bindAll (δ : UVar → S) (xs : List Nat) (ts : List Ty) (k : K) :
    Gam δ (K.bindAll xs ts k) = (Gam δ k).bindAll (xs.zip (ts.map (ev δ []))) := by
  induction xs generalizing ts k with
  | nil => simp [K.bindAll, TEnv.bindAll]
  | cons x xs ih =>
    cases ts with
    | nil => simp [K.bindAll, TEnv.bindAll]
    | cons t ts => simp only [K.bindAll, ih, gam_bind, List.map_cons, List.zip_cons_cons, TEnv.bindAll]

theorem gam_congr {δ δ' : UVar → S} {k : K}
    (h : ∀ s ∈ k.c.schemes, ∀ β, ev δ' β s.body = ev δ β s.body) : Gam δ' k = Gam δ k := by
  funext x τ
  apply propext
  constructor
  · rintro ⟨s, hs, β, hβ, rfl⟩
    exact ⟨s, hs, β, hβ, h s (List.of_mem_zip (lookup_mem hs)).2 β⟩
  · rintro ⟨s, hs, β, hβ, rfl⟩
    exact ⟨s, hs, β, hβ, (h s (List.of_mem_zip (lookup_mem hs)).2 β).symm⟩

theorem tenv_append (Γ : TEnv) (a b : List (Nat × S)) : Γ.bindAll (a ++ b) = (Γ.bindAll a).bindAll b := by
  induction a generalizing Γ with
  | nil => rfl
  | cons p a ih => obtain ⟨x, τ⟩ := p; exact ih _

/-! ## Types -/

theorem ev_fn {δ : UVar → S} {ps : List Ty} {r : Ty} {row : Row} :
    ev δ [] (tFunc ps r row) = S.fn (ps.map (ev δ [])) (ev δ [] r) := by
  rw [tFunc, ev_node rfl, S.fn, head]
  simp

theorem funParts_ev {δ : UVar → S} {t : Ty} {ps : List Ty} {r : Ty} {row : Row}
    (h : funParts t = some (ps, r, row)) : ev δ [] t = S.fn (ps.map (ev δ [])) (ev δ [] r) := by
  cases t with
  | uni v => simp [funParts] at h
  | node hd ks es o =>
    cases hd <;> simp [funParts] at h
    cases hl : ks.getLast? with
    | none => simp [hl] at h
    | some u =>
      simp [hl] at h
      obtain ⟨rfl, rfl, rfl⟩ := h
      obtain ⟨ys, rfl⟩ := List.getLast?_eq_some_iff.1 hl
      rw [ev_node rfl, S.fn, head]
      simp

theorem ev_lit (δ : UVar → S) (G : Env) (l : Lit) : ev δ [] (litTy G l) = (sigOf G).lit l := by
  cases l <;> rfl

theorem ev_list (δ : UVar → S) (G : Env) (t : Ty) : ev δ [] (listTy G t) = (sigOf G).listOf (ev δ [] t) := by
  rw [listTy, tNamed, ev_node rfl]
  rfl

theorem ev_tuple (δ : UVar → S) (ts : List Ty) : ev δ [] (tTuple ts) = S.tuple (ts.map (ev δ [])) := by
  rw [tTuple, ev_node rfl]
  rfl

theorem tupleParts_ev {δ : UVar → S} {t : Ty} {ts : List Ty} (h : tupleParts t = some ts) :
    ev δ [] t = S.tuple (ts.map (ev δ [])) := by
  cases t with
  | uni v => simp [tupleParts] at h
  | node hd ks es o =>
    cases hd <;> simp [tupleParts] at h
    subst h
    rw [ev_node rfl]
    rfl

theorem listElem_ev {δ : UVar → S} {G : Env} {t el : Ty} (h : listElem G t = some el) :
    ev δ [] t = (sigOf G).listOf (ev δ [] el) := by
  obtain ⟨nm, es, o, rfl⟩ := listElem_some h
  rw [ev_node rfl]
  rfl

theorem listOf_inj {D : Sig} {a b : S} (h : D.listOf a = D.listOf b) : a = b := by
  simp only [Sig.listOf, S.named, S.node.injEq, List.cons.injEq, and_true, true_and] at h
  exact h

theorem fn_inj' {a b : List S} {r s : S} (h : S.fn a r = S.fn b s) : a = b ∧ r = s := by
  simp only [S.fn, S.node.injEq, true_and] at h
  have := List.append_inj' h rfl
  exact ⟨this.1, by simpa using this.2⟩

theorem zipWith_ev {δ : UVar → S} {as bs : List Ty} (hl : as.length = bs.length)
    (h : ∀ c ∈ List.zipWith Con.teq as bs, conEv δ c) : as.map (ev δ []) = bs.map (ev δ []) := by
  induction as generalizing bs with
  | nil =>
    cases bs with
    | nil => rfl
    | cons b bs => simp at hl
  | cons a as ih =>
    cases bs with
    | nil => simp at hl
    | cons b bs =>
      simp only [List.zipWith_cons_cons, List.mem_cons, forall_eq_or_imp] at h
      rw [List.map_cons, List.map_cons, ih (by simpa using hl) h.2]
      exact congrArg (· :: _) h.1

/-! ## Assignments -/

def DefSat (D : Sig) (δ : UVar → S) (d : Deferred) : Prop :=
  ∃ f, D.method d.name (tag (ev δ [] d.recv)) = some f ∧
    D.fn f (S.fn (d.args.map (ev δ [])) (ev δ [] d.result))

/-- The assignment satisfies the constraints, and the deferred method calls have their types. -/
structure Sat (D : Sig) (δ : UVar → S) (k : K) : Prop where
  cons : ∀ c ∈ k.c.cons, conEv δ c
  defer : ∀ d ∈ k.defer, DefSat D δ d

theorem Sat.back {D : Sig} {δ : UVar → S} {ns : List Nat} {k k' : K} (h : Sat D δ k') (g : Go ns k k') : Sat D δ k :=
  ⟨fun c hc => h.cons c (g.cons c hc), fun d hd => h.defer d (g.defer d hd)⟩

theorem Sat.teq {D : Sig} {δ : UVar → S} {k k' : K} {ns : List Nat} {a b : Ty} {cs : List Con}
    (h : Sat D δ k') (g : Go ns (k.add cs) k') (hm : Con.teq a b ∈ cs) : ev δ [] a = ev δ [] b :=
  (h.back g).cons _ (mem_add hm)

theorem inferCall_sound {D : Sig} {δ : UVar → S} {callee : Ty} {args : List Ty} {k : K}
    (h : Sat D δ (inferCall callee args k).2) :
    ev δ [] callee = S.fn (args.map (ev δ [])) (ev δ [] (inferCall callee args k).1) := by
  have h := h.cons
  simp only [inferCall, merge_cons] at h
  have h1 := h _ (mem_add (.head _))
  have h2 : ∀ c ∈ List.zipWith Con.teq (k.freshTys args.length).1 args, conEv δ c :=
    fun c hc => h c (mem_add (.tail _ hc))
  have h3 := zipWith_ev (freshTys_length _ _) h2
  simp only [conEv] at h1
  rw [h1, ev_fn, h3]
  rfl

/-! ## Patterns -/

mutual
theorem inferPat_sound {G : Env} (hG : EnvOk G) {δ : UVar → S} : ∀ (p : Pat) {k k' : K} {t : Ty} {ap : AP},
    Good k → inferPat G p k = some (t, ap, k') → (∀ c ∈ k'.c.cons, conEv δ c) →
    ∀ (st : Ty) (k1 : K), Ok 0 st → Good k1 → ev δ [] t = ev δ [] st → (bindPat G ap st k1).lost = false →
    ∃ b, PatTy (sigOf G) p (ev δ [] st) b ∧ Gam δ (bindPat G ap st k1) = (Gam δ k1).bindAll b
  | .wild, k, k', t, ap, g, h, hs, st, k1, hst, g1, he, hl => by
    simp only [inferPat, Option.some.injEq, Prod.mk.injEq] at h
    obtain ⟨rfl, rfl, rfl⟩ := h
    exact ⟨[], by simp [PatTy], by simp [bindPat, TEnv.bindAll]⟩
  | .bind x, k, k', t, ap, g, h, hs, st, k1, hst, g1, he, hl => by
    simp only [inferPat, Option.some.injEq, Prod.mk.injEq] at h
    obtain ⟨rfl, rfl, rfl⟩ := h
    refine ⟨[(x, ev δ [] st)], by simp [PatTy], ?_⟩
    simp only [bindPat, TEnv.bindAll]
    exact gam_bind δ k1 x st
  | .lit l, k, k', t, ap, g, h, hs, st, k1, hst, g1, he, hl => by
    simp only [inferPat, Option.some.injEq, Prod.mk.injEq] at h
    obtain ⟨rfl, rfl, rfl⟩ := h
    refine ⟨[], ?_, by simp [bindPat, TEnv.bindAll]⟩
    simp only [PatTy, and_true]
    rw [← he, ev_lit]
  | .ctor c ps, k, k', t, ap, g, h, hs, st, k1, hst, g1, he, hl => by
    simp only [inferPat, Option.bind_eq_bind, Option.bind_eq_some_iff] at h
    obtain ⟨⟨ct, k2⟩, h1, h⟩ := h
    obtain ⟨s1, o1, s, hsc, hi⟩ := instAt_same hG.ctors h1
    have f1 := s1.fr g
    have hD : (sigOf G).ctor c (ev δ [] ct) := ⟨s, hsc, δ, hi δ⟩
    dsimp only at h
    cases hf : funParts ct with
    | none =>
      simp only [hf] at h
      split at h
      · rename_i hps
        simp only [Option.some.injEq, Prod.mk.injEq] at h
        obtain ⟨rfl, rfl, rfl⟩ := h
        refine ⟨[], ?_, by simp [bindPat, bindFields, TEnv.bindAll]⟩
        simp only [PatTy]
        exact .inl ⟨by simpa using hps, trivial, by rw [← he]; exact hD,
          by rw [← he]; exact fun τs ρ => ctorHead_inst (hG.heads s (List.mem_of_getElem? hsc)) hi hf⟩
      · cases h
    | some q =>
      obtain ⟨params, res, row⟩ := q
      simp only [hf, Option.bind_eq_some_iff] at h
      obtain ⟨⟨fs, k3⟩, h2, h⟩ := h
      simp only [Option.some.injEq, Prod.mk.injEq] at h
      obtain ⟨rfl, rfl, rfl⟩ := h
      obtain ⟨p1, p2, _⟩ := funParts_ok o1 hf
      simp only [bindPat] at hl ⊢
      obtain ⟨b, hb, hg⟩ := inferFields_sound hG ps f1.good p1 h2 hs k1 g1 hl
      refine ⟨b, ?_, hg⟩
      simp only [PatTy]
      refine .inr ⟨params.map (ev δ []), ?_, hb⟩
      rw [← he, ← funParts_ev hf]
      exact hD
  | .tuple ps, k, k', t, ap, g, h, hs, st, k1, hst, g1, he, hl => by
    simp only [inferPat, Option.bind_eq_bind, Option.bind_eq_some_iff] at h
    obtain ⟨⟨ts, aps, k2⟩, h1, h⟩ := h
    simp only [Option.some.injEq, Prod.mk.injEq] at h
    obtain ⟨rfl, rfl, rfl⟩ := h
    obtain ⟨f, o1, a1⟩ := inferPats_fr hG ps g h1
    simp only [bindPat] at hl ⊢
    cases hp : tupleParts st with
    | none =>
      simp only [hp] at hl
      have f2 := (same_freshTys aps.length k1).fr g1
      have f3 := lose_fr f2.good true
      have f4 := bindPats_go aps f3.good a1 (freshTys_ok aps.length k1) (G := G)
      cases lose_lost (f4.lost hl)
    | some us =>
      simp only [hp] at hl ⊢
      have hu := tupleParts_ev (δ := δ) hp
      rw [ev_tuple, hu] at he
      simp only [S.tuple, S.node.injEq, true_and] at he
      obtain ⟨b, hb, hg⟩ := inferPats_sound hG ps g h1 hs us k1 (tupleParts_ok hst hp) g1 he hl
      refine ⟨b, ?_, hg⟩
      simp only [PatTy]
      exact ⟨us.map (ev δ []), hu, hb⟩
  | .list ps, k, k', t, ap, g, h, hs, st, k1, hst, g1, he, hl => by
    simp only [inferPat, Option.bind_eq_bind, Option.bind_eq_some_iff] at h
    obtain ⟨⟨aps, k2⟩, h1, h⟩ := h
    simp only [Option.some.injEq, Prod.mk.injEq] at h
    obtain ⟨rfl, rfl, rfl⟩ := h
    have f0 := (same_fresh k).fr g
    obtain ⟨f, a1⟩ := inferElemPats_fr hG (fresh_ok k) ps f0.good h1
    simp only [bindPat] at hl ⊢
    cases hp : listElem G st with
    | none =>
      simp only [hp] at hl
      have f2 := (same_fresh k1).fr g1
      have f3 := lose_fr f2.good true
      have f4 := bindElems_go aps f3.good a1 (fresh_ok k1) (G := G)
      cases lose_lost (f4.lost hl)
    | some el =>
      simp only [hp] at hl ⊢
      have hu := listElem_ev (δ := δ) hp
      rw [ev_list, hu] at he
      obtain ⟨b, hb, hg⟩ := inferElemPats_sound hG (fresh_ok k) ps f0.good h1 hs el k1 (listElem_ok hst hp) g1
        (listOf_inj he) hl
      refine ⟨b, ?_, hg⟩
      simp only [PatTy]
      exact ⟨_, hu, hb⟩
  | .listRest ps r, k, k', t, ap, g, h, hs, st, k1, hst, g1, he, hl => by
    simp only [inferPat, Option.bind_eq_bind, Option.bind_eq_some_iff] at h
    obtain ⟨⟨aps, k2⟩, h1, h⟩ := h
    simp only [Option.some.injEq, Prod.mk.injEq] at h
    obtain ⟨rfl, rfl, rfl⟩ := h
    have f0 := (same_fresh k).fr g
    obtain ⟨f, a1⟩ := inferElemPats_fr hG (fresh_ok k) ps f0.good h1
    simp only [bindPat] at hl ⊢
    cases hp : listElem G st with
    | none =>
      simp only [hp] at hl
      have f2 := (same_fresh k1).fr g1
      have f3 := lose_fr f2.good true
      have f4 := bindElems_go aps f3.good a1 (fresh_ok k1) (G := G)
      have f5 := bindRest_go (G := G) (fresh_ok k1) r f4.good
      cases lose_lost (f4.lost (f5.lost hl))
    | some el =>
      simp only [hp] at hl ⊢
      have hu := listElem_ev (δ := δ) hp
      rw [ev_list, hu] at he
      have oe := listElem_ok hst hp
      have f4 := bindElems_go aps g1 a1 oe (G := G)
      have f5 := bindRest_go (G := G) oe r f4.good
      obtain ⟨b, hb, hg⟩ := inferElemPats_sound hG (fresh_ok k) ps f0.good h1 hs el k1 oe g1
        (listOf_inj he) (f5.lost hl)
      cases r with
      | none =>
        refine ⟨b, ?_, hg⟩
        simp only [PatTy]
        exact ⟨_, hu, hb⟩
      | some x =>
        refine ⟨b ++ [(x, ev δ [] st)], ?_, ?_⟩
        · simp only [PatTy]
          exact ⟨_, b, hu, hb, rfl⟩
        · simp only [bindRest]
          rw [gam_bind, hg, tenv_append, ev_list, ← hu]
          rfl
  | .as p x, k, k', t, ap, g, h, hs, st, k1, hst, g1, he, hl => by
    simp only [inferPat, Option.bind_eq_bind, Option.bind_eq_some_iff] at h
    obtain ⟨⟨u, aq, k2⟩, h1, h⟩ := h
    simp only [Option.some.injEq, Prod.mk.injEq] at h
    obtain ⟨rfl, rfl, rfl⟩ := h
    simp only [bindPat] at hl ⊢
    have f := bind_go g1 x hst
    obtain ⟨b, hb, hg⟩ := inferPat_sound hG p g h1 hs st (k1.bind x st) hst f.good he hl
    refine ⟨(x, ev δ [] st) :: b, ?_, ?_⟩
    · simp only [PatTy]
      exact ⟨b, hb, rfl⟩
    · rw [hg, gam_bind]
      rfl
theorem inferFields_sound {G : Env} (hG : EnvOk G) {δ : UVar → S} : ∀ (ps : List Pat) {params : List Ty}
    {k k' : K} {fs : List (Ty × AP)}, Good k → (∀ t ∈ params, Ok 0 t) → inferFields G params ps k = some (fs, k') →
    (∀ c ∈ k'.c.cons, conEv δ c) → ∀ (k1 : K), Good k1 → (bindFields G fs k1).lost = false →
    ∃ b, PatTyL (sigOf G) ps (params.map (ev δ [])) b ∧ Gam δ (bindFields G fs k1) = (Gam δ k1).bindAll b
  | [], params, k, k', fs, g, hp, h, hs, k1, g1, hl => by
    simp only [inferFields] at h
    split at h
    · rename_i hpe
      simp only [Option.some.injEq, Prod.mk.injEq] at h
      obtain ⟨rfl, rfl⟩ := h
      refine ⟨[], ?_, by simp [bindFields, TEnv.bindAll]⟩
      have : params = [] := by simpa using hpe
      simp [PatTyL, this]
    · cases h
  | p :: ps, params, k, k', fs, g, hp, h, hs, k1, g1, hl => by
    cases params with
    | nil => simp [inferFields] at h
    | cons u us =>
      simp only [inferFields, Option.bind_eq_bind, Option.bind_eq_some_iff] at h
      obtain ⟨⟨t, ap, k2⟩, h1, ⟨fs', k3⟩, h2, h⟩ := h
      simp only [Option.some.injEq, Prod.mk.injEq] at h
      obtain ⟨rfl, rfl⟩ := h
      obtain ⟨f1, o1, a1⟩ := inferPat_fr hG p g h1
      have f2 := add_fr f1.good (cs := [.teq t u]) (by simpa [OkCon] using ⟨o1, hp u (.head _)⟩)
      have hp' : ∀ t ∈ us, Ok 0 t := fun t ht => hp t (.tail _ ht)
      obtain ⟨f3, o3⟩ := inferFields_fr hG ps f2.good hp' h2
      have heq : ev δ [] t = ev δ [] u := hs _ (f3.cons _ (mem_add (.head _)))
      simp only [bindFields] at hl ⊢
      have f4 := bindPat_go ap g1 a1 o1 (G := G)
      have f5 := bindFields_go fs' f4.good o3 (G := G)
      obtain ⟨b1, hb1, hg1⟩ := inferPat_sound hG p g h1 (fun c hc => hs c (f3.cons c (f2.cons c hc))) t k1 o1 g1 rfl
        (f5.lost hl)
      obtain ⟨b2, hb2, hg2⟩ := inferFields_sound hG ps f2.good hp' h2 hs _ f4.good hl
      refine ⟨b1 ++ b2, ?_, ?_⟩
      · simp only [PatTyL]
        exact ⟨ev δ [] u, us.map (ev δ []), b1, b2, rfl, rfl, by rw [← heq]; exact hb1, hb2⟩
      · rw [hg2, hg1, tenv_append]
theorem inferPats_sound {G : Env} (hG : EnvOk G) {δ : UVar → S} : ∀ (ps : List Pat) {k k' : K} {ts : List Ty}
    {aps : List AP}, Good k → inferPats G ps k = some (ts, aps, k') →
    (∀ c ∈ k'.c.cons, conEv δ c) → ∀ (us : List Ty) (k1 : K), (∀ u ∈ us, Ok 0 u) → Good k1 →
    ts.map (ev δ []) = us.map (ev δ []) → (bindPats G aps us k1).lost = false →
    ∃ b, PatTyL (sigOf G) ps (us.map (ev δ [])) b ∧ Gam δ (bindPats G aps us k1) = (Gam δ k1).bindAll b
  | [], k, k', ts, aps, g, h, hs, us, k1, hu, g1, he, hl => by
    simp only [inferPats, Option.some.injEq, Prod.mk.injEq] at h
    obtain ⟨rfl, rfl, rfl⟩ := h
    refine ⟨[], ?_, by simp [bindPats, TEnv.bindAll]⟩
    simp only [PatTyL, and_true]
    exact he.symm
  | p :: ps, k, k', ts, aps, g, h, hs, us, k1, hu, g1, he, hl => by
    simp only [inferPats, Option.bind_eq_bind, Option.bind_eq_some_iff] at h
    obtain ⟨⟨t, ap, k2⟩, h1, ⟨ts', aps', k3⟩, h2, h⟩ := h
    simp only [Option.some.injEq, Prod.mk.injEq] at h
    obtain ⟨rfl, rfl, rfl⟩ := h
    obtain ⟨f1, o1, a1⟩ := inferPat_fr hG p g h1
    obtain ⟨f2, o2, a2⟩ := inferPats_fr hG ps f1.good h2
    cases us with
    | nil => simp at he
    | cons u us =>
      simp only [List.map_cons, List.cons.injEq] at he
      have hu' : ∀ v ∈ us, Ok 0 v := fun v hv => hu v (.tail _ hv)
      simp only [bindPats] at hl ⊢
      have f4 := bindPat_go ap g1 a1 (hu u (.head _)) (G := G)
      have f5 := bindPats_go aps' f4.good a2 hu' (G := G)
      obtain ⟨b1, hb1, hg1⟩ := inferPat_sound hG p g h1 (fun c hc => hs c (f2.cons c hc)) u k1 (hu u (.head _)) g1
        he.1 (f5.lost hl)
      obtain ⟨b2, hb2, hg2⟩ := inferPats_sound hG ps f1.good h2 hs us _ hu' f4.good he.2 hl
      refine ⟨b1 ++ b2, ?_, ?_⟩
      · simp only [PatTyL]
        exact ⟨ev δ [] u, us.map (ev δ []), b1, b2, rfl, rfl, hb1, hb2⟩
      · rw [hg2, hg1, tenv_append]
theorem inferElemPats_sound {G : Env} (hG : EnvOk G) {δ : UVar → S} {el : Ty} (he : Ok 0 el) : ∀ (ps : List Pat)
    {k k' : K} {aps : List AP}, Good k → inferElemPats G el ps k = some (aps, k') →
    (∀ c ∈ k'.c.cons, conEv δ c) → ∀ (el' : Ty) (k1 : K), Ok 0 el' → Good k1 →
    ev δ [] el = ev δ [] el' → (bindElems G el' aps k1).lost = false →
    ∃ b, PatTyL (sigOf G) ps (ps.map (fun _ => ev δ [] el')) b ∧
      Gam δ (bindElems G el' aps k1) = (Gam δ k1).bindAll b
  | [], k, k', aps, g, h, hs, el', k1, hu, g1, hq, hl => by
    simp only [inferElemPats, Option.some.injEq, Prod.mk.injEq] at h
    obtain ⟨rfl, rfl⟩ := h
    exact ⟨[], by simp [PatTyL], by simp [bindElems, TEnv.bindAll]⟩
  | p :: ps, k, k', aps, g, h, hs, el', k1, hu, g1, hq, hl => by
    simp only [inferElemPats, Option.bind_eq_bind, Option.bind_eq_some_iff] at h
    obtain ⟨⟨t, ap, k2⟩, h1, ⟨aps', k3⟩, h2, h⟩ := h
    simp only [Option.some.injEq, Prod.mk.injEq] at h
    obtain ⟨rfl, rfl⟩ := h
    obtain ⟨f1, o1, a1⟩ := inferPat_fr hG p g h1
    have f2 := add_fr f1.good (cs := [.teq t el]) (by simpa [OkCon] using ⟨o1, he⟩)
    obtain ⟨f3, a3⟩ := inferElemPats_fr hG he ps f2.good h2
    have heq : ev δ [] t = ev δ [] el := hs _ (f3.cons _ (mem_add (.head _)))
    simp only [bindElems] at hl ⊢
    have f4 := bindPat_go ap g1 a1 hu (G := G)
    have f5 := bindElems_go aps' f4.good a3 hu (G := G)
    obtain ⟨b1, hb1, hg1⟩ := inferPat_sound hG p g h1 (fun c hc => hs c (f3.cons c (f2.cons c hc))) el' k1 hu g1
      (heq.trans hq) (f5.lost hl)
    obtain ⟨b2, hb2, hg2⟩ := inferElemPats_sound hG he ps f2.good h2 hs el' _ hu f4.good hq hl
    refine ⟨b1 ++ b2, ?_, ?_⟩
    · simp only [PatTyL, List.map_cons]
      exact ⟨ev δ [] el', ps.map (fun _ => ev δ [] el'), b1, b2, rfl, rfl, hb1, hb2⟩
    · rw [hg2, hg1, tenv_append]
end

/-! ## Methods -/

theorem method_mem {G : Env} {m : Nat} {t : Ty} {e : Method} (h : G.method m t = some e) :
    G.methods.filter (fun e => e.name == m && e.matches t) = [e] := by
  rw [Env.method] at h
  split at h
  · rename_i heq; simp at h; subst h; exact heq
  · cases h

theorem matches_iff {δ : UVar → S} {t : Ty} (e : Method) (ht : (tag (ev δ [] t)).isSome ∧ (∀ v, t ≠ .uni v) ∧ ∀ i ks es r, t ≠ .node (.bound i) ks es r) :
    e.matches t = (recvTag e == tag (ev δ [] t)) := by
  obtain ⟨ht, hn⟩ := ht
  cases t with
  | uni v => exact absurd rfl (hn.1 v)
  | node hd ks es o =>
    have hb : isBound hd = false := by
      cases hd <;> first | rfl | exact absurd rfl (hn.2 _ _ _ _)
    rw [ev_node hb] at ht ⊢
    obtain ⟨nm, fn, ty⟩ := e
    cases ty with
    | uni v => cases hd <;> simp [head, tag] at ht <;> simp [Method.matches, recvTag, funParts, tag, head]
    | node h2 ks2 es2 o2 =>
      cases h2
      case func c =>
        match ks2 with
        | [] => cases hd <;> simp [head, tag] at ht <;> simp [Method.matches, recvTag, funParts, tag, head]
        | [a] => cases hd <;> simp [head, tag] at ht <;> simp [Method.matches, recvTag, funParts, tag, head]
        | a :: b :: l =>
          obtain ⟨u, hu⟩ : ∃ u, (a :: b :: l).getLast? = some u := by
            simp [List.getLast?_cons]
          have hm : Method.matches ⟨nm, fn, .node (.func c) (a :: b :: l) es2 o2⟩ (.node hd ks es o)
              = sameCtor a (.node hd ks es o) := by
            simp [Method.matches, funParts, hu]
          rw [hm]
          cases a with
          | uni v => cases hd <;> simp [head, tag] at ht <;> simp [recvTag, tag, head, sameCtor]
          | node h3 ks3 es3 o3 =>
            cases h3 <;> cases hd <;> simp [head, tag] at ht <;> simp [recvTag, tag, head, sameCtor]
            all_goals
              rw [Bool.eq_iff_iff]
              simp
      all_goals cases hd <;> simp [head, tag] at ht <;> simp [Method.matches, recvTag, funParts, tag, head]

theorem sameCtor_tag {δ : UVar → S} {p t : Ty} (h : sameCtor p t = true) :
    (tag (ev δ [] t)).isSome ∧ (∀ v, t ≠ .uni v) ∧ ∀ i ks es r, t ≠ .node (.bound i) ks es r := by
  cases t with
  | uni v => cases p <;> simp [sameCtor] at h
  | node hd ks es o =>
    cases p with
    | uni v => simp [sameCtor] at h
    | node h2 ks2 es2 o2 =>
      cases h2 <;> cases hd <;> simp [sameCtor] at h <;>
        refine ⟨?_, by simp, by simp⟩ <;> (rw [ev_node rfl]; rfl)

theorem method_select {G : Env} {m : Nat} {t : Ty} {e : Method} (δ : UVar → S) (h : G.method m t = some e) :
    (sigOf G).method m (tag (ev δ [] t)) = some e.fn := by
  have hm := method_mem h
  have he : e ∈ G.methods.filter (fun e => e.name == m && e.matches t) := by rw [hm]; exact .head _
  have hmt : e.matches t = true := by
    have := (List.mem_filter.1 he).2
    simp at this
    exact this.2
  have hsome : (tag (ev δ [] t)).isSome ∧ (∀ v, t ≠ .uni v) ∧ ∀ i ks es r, t ≠ .node (.bound i) ks es r := by
    rw [Method.matches] at hmt
    split at hmt
    · exact sameCtor_tag hmt
    · cases hmt
  have hfil : G.methods.filter (fun e => e.name == m && (tag (ev δ [] t)).isSome && recvTag e == tag (ev δ [] t))
      = [e] := by
    rw [← hm]
    refine List.filter_congr (fun x _ => ?_)
    rw [matches_iff x hsome, hsome.1, Bool.and_true]
  simp only [sigOf, select, hfil]

theorem methResult_sound {G : Env} (hG : EnvOk G) {recv t : Ty} {args : List E} {k k' : K} {e : Method}
    (h : methResult G e.fn recv args k = some (t, k')) (hl : k'.lost = false) (δ : UVar → S) :
    args = [] ∧ (sigOf G).fn e.fn (S.fn [ev δ [] recv] (ev δ [] t)) := by
  simp only [methResult, Option.bind_eq_bind, Option.bind_eq_some_iff] at h
  obtain ⟨⟨ct, k1⟩, h1, h⟩ := h
  obtain ⟨s1, o1, s, hs, hi⟩ := instAt_same hG.fns h1
  dsimp only at h
  cases hf : funParts ct with
  | none =>
    simp only [hf, Option.some.injEq, Prod.mk.injEq] at h
    obtain ⟨rfl, rfl⟩ := h
    cases lose_lost hl
  | some q =>
    obtain ⟨ps, r, row⟩ := q
    simp only [hf, Option.some.injEq, Prod.mk.injEq] at h
    obtain ⟨rfl, rfl⟩ := h
    have := lose_lost hl
    simp at this
    obtain ⟨ha, rfl⟩ := this
    refine ⟨by simpa using ha, s, hs, δ, ?_⟩
    have := hi δ
    rw [funParts_ev hf] at this
    exact this

/-! ## Expressions -/

theorem ref_sound {node x : Nat} {k k' : K} {t : Ty} (g : Good k) (hn : k.refs.lookup node = none)
    (h : k.ref node x = some (t, k')) (δ : UVar → S) : Gam δ k x (ev δ [] t) := by
  rw [K.ref] at h
  cases hl : k.lookup x with
  | none => simp [hl] at h
  | some s =>
    simp only [hl, hn] at h
    split at h
    · exact ⟨s, hl, (inst_same (lookup_ok g hl) h).2.2 δ⟩
    · cases hi : k.inst s with
      | none => simp [hi] at h
      | some p =>
        obtain ⟨u, k1⟩ := p
        simp [hi] at h
        obtain ⟨rfl, rfl⟩ := h
        exact ⟨s, hl, (inst_same (lookup_ok g hl) hi).2.2 δ⟩

theorem instOf_exists (δ : UVar → S) (s : PolyTy) : ∃ τ, InstOf δ s τ :=
  ⟨_, List.replicate s.params default, by simp, rfl⟩

/-- The references of `ns` have not been visited. -/
def Unseen (ns : List Nat) (k : K) : Prop := ns.Nodup ∧ ∀ m ∈ ns, k.refs.lookup m = none

theorem Unseen.left {a b : List Nat} {k : K} (h : Unseen (a ++ b) k) : Unseen a k :=
  ⟨(List.nodup_append.1 h.1).1, fun m hm => h.2 m (List.mem_append.2 (.inl hm))⟩

theorem Unseen.right {a b : List Nat} {k k' : K} (h : Unseen (a ++ b) k) (g : Go a k k') : Unseen b k' :=
  ⟨(List.nodup_append.1 h.1).2.1, fun m hm => by
    rw [g.refs m (fun ha => (List.nodup_append.1 h.1).2.2 m ha m hm rfl)]
    exact h.2 m (List.mem_append.2 (.inr hm))⟩

theorem Unseen.go {b : List Nat} {k k' : K} (h : Unseen b k) (g : Go [] k k') : Unseen b k' :=
  Unseen.right (a := []) h g

mutual
theorem infer_sound {G : Env} (hG : EnvOk G) {n : Nat} : ∀ (e : E) {k k' : K} {t : Ty}, Good k →
    (∀ a ∈ e.anns, Ok 0 a) → Unseen e.nodes k → infer G n e k = some (t, k') → k'.lost = false →
    ∀ δ, Sat (sigOf G) δ k' → HasTy (sigOf G) e (Gam δ k) (ev δ [] t)
  | .lit l, k, k', t, g, ha, hu, h, hl, δ, hs => by
    simp only [infer, Option.some.injEq, Prod.mk.injEq] at h
    obtain ⟨rfl, rfl⟩ := h
    simp only [HasTy]
    exact ev_lit δ G l
  | .loc node x, k, k', t, g, ha, hu, h, hl, δ, hs => by
    simp only [infer] at h
    simp only [HasTy]
    exact ref_sound g (hu.2 node (.head _)) h δ
  | .fn f, k, k', t, g, ha, hu, h, hl, δ, hs => by
    simp only [infer] at h
    obtain ⟨_, _, s, h1, h2⟩ := instAt_same hG.fns h
    simp only [HasTy]
    exact ⟨s, h1, δ, h2 δ⟩
  | .call c as, k, k', t, g, ha, hu, h, hl, δ, hs => by
    simp only [infer, Option.bind_eq_bind, Option.bind_eq_some_iff] at h
    obtain ⟨⟨ct, k1⟩, h1, ⟨ts, k2⟩, h2, h⟩ := h
    simp only [Option.some.injEq] at h
    simp only [E.anns, List.mem_append] at ha
    obtain ⟨f1, o1⟩ := infer_fr hG c g (fun a h => ha a (.inl h)) h1
    obtain ⟨f2, o2⟩ := inferL_fr hG as f1.good (fun a h => ha a (.inr h)) h2
    obtain ⟨f3, o3⟩ := inferCall_fr f2.good o1 o2
    have hc := inferCall_sound (D := sigOf G) (δ := δ) (callee := ct) (args := ts) (k := k2) (by rw [h]; exact hs)
    rw [h] at f3 o3 hc
    have hl2 := f3.lost hl
    have s2 := hs.back f3.toGo
    have e1 := infer_sound hG c g (fun a h => ha a (.inl h)) hu.left h1 (f2.lost hl2) δ (s2.back f2.toGo)
    have e2 := inferL_sound hG as f1.good (fun a h => ha a (.inr h)) (hu.right f1.toGo) h2 hl2 δ s2
    rw [hc] at e1
    rw [f1.gam] at e2
    simp only [HasTy]
    exact ⟨_, e1, e2⟩
  | .cons c as, k, k', t, g, ha, hu, h, hl, δ, hs => by
    simp only [infer, Option.bind_eq_bind, Option.bind_eq_some_iff] at h
    obtain ⟨⟨ct, k1⟩, h1, ⟨ts, k2⟩, h2, h⟩ := h
    obtain ⟨s1, o1, s, hsc, hi⟩ := instAt_same hG.ctors h1
    have f1 := s1.fr g
    obtain ⟨f2, o2⟩ := inferL_fr hG as f1.good ha h2
    simp only [HasTy]
    dsimp only at h
    split at h
    · rename_i hemp
      simp only [Option.some.injEq, Prod.mk.injEq] at h
      obtain ⟨rfl, rfl⟩ := h
      exact .inl ⟨by simpa using hemp, s, hsc, δ, hi δ⟩
    · rename_i hemp
      simp only [Option.some.injEq] at h
      obtain ⟨f3, o3⟩ := inferCall_fr f2.good o1 o2
      have hc := inferCall_sound (D := sigOf G) (δ := δ) (callee := ct) (args := ts) (k := k2) (by rw [h]; exact hs)
      rw [h] at f3 o3 hc
      have e2 := inferL_sound hG as f1.good ha (hu.go f1.toGo) h2 (f3.lost hl) δ (hs.back f3.toGo)
      rw [f1.gam] at e2
      refine .inr ⟨by simpa using hemp, _, ?_, e2⟩
      rw [← hc]
      exact ⟨s, hsc, δ, hi δ⟩
  | .meth r m as, k, k', t, g, ha, hu, h, hl, δ, hs => by
    simp only [infer, Option.bind_eq_bind, Option.bind_eq_some_iff] at h
    obtain ⟨⟨rt, k1⟩, h1, h⟩ := h
    simp only [E.anns, List.mem_append] at ha
    obtain ⟨f1, o1⟩ := infer_fr hG r g (fun a h => ha a (.inl h)) h1
    simp only [HasTy]
    dsimp only at h
    cases hm : G.method m rt with
    | some e =>
      simp only [hm] at h
      obtain ⟨f2, o2⟩ := methResult_fr hG f1.good h
      obtain ⟨rfl, hfn⟩ := methResult_sound hG h hl δ
      have e1 := infer_sound hG r g (fun a h => ha a (.inl h)) hu.left h1 (f2.lost hl) δ (hs.back f2.toGo)
      exact ⟨_, e.fn, [], e1, method_select δ hm, hfn, by simp [HasTyL]⟩
    | none =>
      simp only [hm, Option.bind_eq_some_iff] at h
      obtain ⟨⟨ts, k2⟩, h2, h⟩ := h
      simp only [Option.some.injEq, Prod.mk.injEq] at h
      obtain ⟨rfl, rfl⟩ := h
      have f2 := (same_fresh k1).fr f1.good
      obtain ⟨f3, o3⟩ := inferL_fr hG as f2.good (fun a h => ha a (.inr h)) h2
      have f4 := defer_fr f3.good (d := ⟨rt, m, k1.fresh.1, rt :: ts⟩) ⟨o1, fresh_ok k1, by
        intro u hu
        rcases List.mem_cons.1 hu with rfl | hu
        · exact o1
        · exact o3 u hu⟩
      have s3 := hs.back f4.toGo
      have hl3 := f4.lost hl
      have f12 := f1.then f2
      have e1 := infer_sound hG r g (fun a h => ha a (.inl h)) hu.left h1 (f2.lost (f3.lost hl3)) δ
        ((s3.back f3.toGo).back f2.toGo)
      have e2 := inferL_sound hG as f2.good (fun a h => ha a (.inr h)) (hu.right f12.toGo) h2 hl3 δ s3
      rw [f12.gam] at e2
      obtain ⟨f, hf1, hf2⟩ := hs.defer ⟨rt, m, k1.fresh.1, rt :: ts⟩ (List.mem_append.2 (.inr (.head _)))
      exact ⟨_, f, _, e1, hf1, hf2, e2⟩
  | .bin b l r, k, k', t, g, ha, hu, h, hl, δ, hs => by
    simp only [infer, Option.some.injEq, Prod.mk.injEq] at h
    obtain ⟨rfl, rfl⟩ := h
    cases lose_lost hl
  | .block ss v, k, k', t, g, ha, hu, h, hl, δ, hs => by
    simp only [infer, Option.bind_eq_bind, Option.bind_eq_some_iff] at h
    obtain ⟨k1, h1, ⟨u, k2⟩, h2, h⟩ := h
    simp only [Option.some.injEq, Prod.mk.injEq] at h
    obtain ⟨rfl, rfl⟩ := h
    simp only [E.anns, List.mem_append] at ha
    have f1 := inferSS_go hG ss g (fun a h => ha a (.inl h)) h1
    obtain ⟨f2, o2⟩ := infer_fr hG v f1.good (fun a h => ha a (.inr h)) h2
    have s2 : Sat (sigOf G) δ k2 := ⟨hs.cons, hs.defer⟩
    have hl2 : k2.lost = false := hl
    have e2 := infer_sound hG v f1.good (fun a h => ha a (.inr h)) (hu.right f1) h2 hl2 δ s2
    simp only [HasTy]
    exact inferSS_sound hG ss g (fun a h => ha a (.inl h)) hu.left h1 (f2.lost hl2) δ (s2.back f2.toGo) _ e2
  | .case s arms, k, k', t, g, ha, hu, h, hl, δ, hs => by
    simp only [infer, Option.bind_eq_bind, Option.bind_eq_some_iff] at h
    obtain ⟨⟨st, k1⟩, h1, k2, h2, h⟩ := h
    simp only [Option.some.injEq, Prod.mk.injEq] at h
    obtain ⟨rfl, rfl⟩ := h
    simp only [E.anns, List.mem_append] at ha
    obtain ⟨f1, o1⟩ := infer_fr hG s g (fun a h => ha a (.inl h)) h1
    have f2 := (same_fresh k1).fr f1.good
    have f3 := inferArms_fr hG o1 (fresh_ok k1) arms f2.good (fun a h => ha a (.inr h)) h2
    have f12 := f1.then f2
    have e1 := infer_sound hG s g (fun a h => ha a (.inl h)) hu.left h1 (f2.lost (f3.lost hl)) δ
      ((hs.back f3.toGo).back f2.toGo)
    have e2 := inferArms_sound hG o1 (fresh_ok k1) arms f2.good (fun a h => ha a (.inr h)) (hu.right f12.toGo) h2
      hl δ hs
    rw [f12.gam] at e2
    simp only [HasTy]
    exact ⟨_, e1, e2⟩
  | .lam node ps b, k, k', t, g, ha, hu, h, hl, δ, hs => by
    simp only [infer, Option.bind_eq_bind, Option.bind_eq_some_iff] at h
    obtain ⟨⟨bt, k2⟩, h1, h⟩ := h
    simp only [Option.some.injEq, Prod.mk.injEq] at h
    obtain ⟨rfl, rfl⟩ := h
    simp only [E.anns, List.mem_append] at ha
    have hp := paramTys_ok ps k (fun a h => ha a (.inl h))
    have f1 := (paramTys_same ps k).fr g
    have f2 := (same_freshRow (paramTys ps k).2).fr f1.good
    have f3 := cur_fr f2.good (freshRow_ok (paramTys ps k).2)
    have f4 := bindAll_go f3.good (ps.map Prod.fst) _ hp
    have f13 := (f1.then f2).then f3
    have hu1 := hu.go (f13.toGo.then f4)
    have s2 : Sat (sigOf G) δ k2 := ⟨hs.cons, hs.defer⟩
    have e1 := infer_sound hG b f4.good (fun a h => ha a (.inr h)) hu1 h1 hl δ s2
    rw [gam_bindAll, f13.gam] at e1
    simp only [HasTy]
    exact ⟨_, _, ev_fn, paramTys_ann δ ps k, e1⟩
  | .tuple es, k, k', t, g, ha, hu, h, hl, δ, hs => by
    simp only [infer, Option.bind_eq_bind, Option.bind_eq_some_iff] at h
    obtain ⟨⟨ts, k1⟩, h1, h⟩ := h
    simp only [Option.some.injEq, Prod.mk.injEq] at h
    obtain ⟨rfl, rfl⟩ := h
    simp only [HasTy]
    exact ⟨_, ev_tuple δ ts, inferL_sound hG es g ha hu h1 hl δ hs⟩
  | .list es, k, k', t, g, ha, hu, h, hl, δ, hs => by
    simp only [infer, Option.bind_eq_bind, Option.bind_eq_some_iff] at h
    obtain ⟨k1, h1, h⟩ := h
    simp only [Option.some.injEq, Prod.mk.injEq] at h
    obtain ⟨rfl, rfl⟩ := h
    have f0 := (same_fresh k).fr g
    have e := inferElems_sound hG (fresh_ok k) es f0.good ha (hu.go f0.toGo) h1 hl δ hs
    rw [f0.gam] at e
    simp only [HasTy]
    exact ⟨_, ev_list δ G k.fresh.1, e⟩
theorem inferL_sound {G : Env} (hG : EnvOk G) {n : Nat} : ∀ (es : List E) {k k' : K} {ts : List Ty}, Good k →
    (∀ a ∈ annsL es, Ok 0 a) → Unseen (nodesL es) k → inferL G n es k = some (ts, k') → k'.lost = false →
    ∀ δ, Sat (sigOf G) δ k' → HasTyL (sigOf G) es (Gam δ k) (ts.map (ev δ []))
  | [], k, k', ts, g, ha, hu, h, hl, δ, hs => by
    simp only [inferL, Option.some.injEq, Prod.mk.injEq] at h
    obtain ⟨rfl, rfl⟩ := h
    simp [HasTyL]
  | e :: es, k, k', ts, g, ha, hu, h, hl, δ, hs => by
    simp only [inferL, Option.bind_eq_bind, Option.bind_eq_some_iff] at h
    obtain ⟨⟨t, k1⟩, h1, ⟨ts', k2⟩, h2, h⟩ := h
    simp only [Option.some.injEq, Prod.mk.injEq] at h
    obtain ⟨rfl, rfl⟩ := h
    simp only [annsL, List.mem_append] at ha
    obtain ⟨f1, o1⟩ := infer_fr hG e g (fun a h => ha a (.inl h)) h1
    obtain ⟨f2, o2⟩ := inferL_fr hG es f1.good (fun a h => ha a (.inr h)) h2
    have e1 := infer_sound hG e g (fun a h => ha a (.inl h)) hu.left h1 (f2.lost hl) δ (hs.back f2.toGo)
    have e2 := inferL_sound hG es f1.good (fun a h => ha a (.inr h)) (hu.right f1.toGo) h2 hl δ hs
    rw [f1.gam] at e2
    simp only [HasTyL, List.map_cons]
    exact ⟨_, _, rfl, e1, e2⟩
theorem inferElems_sound {G : Env} (hG : EnvOk G) {n : Nat} {el : Ty} (he : Ok 0 el) : ∀ (es : List E) {k k' : K},
    Good k → (∀ a ∈ annsL es, Ok 0 a) → Unseen (nodesL es) k → inferElems G n el es k = some k' →
    k'.lost = false → ∀ δ, Sat (sigOf G) δ k' → HasTyL (sigOf G) es (Gam δ k) (es.map (fun _ => ev δ [] el))
  | [], k, k', g, ha, hu, h, hl, δ, hs => by simp [HasTyL]
  | e :: es, k, k', g, ha, hu, h, hl, δ, hs => by
    simp only [inferElems, Option.bind_eq_bind, Option.bind_eq_some_iff] at h
    obtain ⟨⟨t, k1⟩, h1, h2⟩ := h
    simp only [annsL, List.mem_append] at ha
    obtain ⟨f1, o1⟩ := infer_fr hG e g (fun a h => ha a (.inl h)) h1
    have f2 := add_fr f1.good (cs := [.teq t el]) (by simpa [OkCon] using ⟨o1, he⟩)
    have f3 := inferElems_fr hG he es f2.good (fun a h => ha a (.inr h)) h2
    have heq := hs.teq f3.toGo (.head _)
    have e1 := infer_sound hG e g (fun a h => ha a (.inl h)) hu.left h1 (f2.lost (f3.lost hl)) δ
      ((hs.back f3.toGo).back f2.toGo)
    have e2 := inferElems_sound hG he es f2.good (fun a h => ha a (.inr h)) (hu.right (f1.then f2).toGo) h2 hl δ hs
    rw [(f1.then f2).gam] at e2
    rw [heq] at e1
    simp only [HasTyL, List.map_cons]
    exact ⟨_, _, rfl, e1, e2⟩
theorem inferSS_sound {G : Env} (hG : EnvOk G) {n : Nat} : ∀ (ss : List Stmt) {k k' : K}, Good k →
    (∀ a ∈ annsSS ss, Ok 0 a) → Unseen (nodesSS ss) k → inferSS G n ss k = some k' → k'.lost = false →
    ∀ δ, Sat (sigOf G) δ k' → ∀ Q, Q (Gam δ k') → Stmts (sigOf G) ss (Gam δ k) Q
  | [], k, k', g, ha, hu, h, hl, δ, hs, Q, hQ => by
    simp only [inferSS, Option.some.injEq] at h
    subst h
    simp only [Stmts]
    exact hQ
  | .expr e :: ss, k, k', g, ha, hu, h, hl, δ, hs, Q, hQ => by
    simp only [inferSS, Option.bind_eq_bind, Option.bind_eq_some_iff] at h
    obtain ⟨⟨t, k1⟩, h1, h2⟩ := h
    simp only [annsSS, List.mem_append] at ha
    obtain ⟨f1, o1⟩ := infer_fr hG e g (fun a h => ha a (.inl h)) h1
    have f2 := inferSS_go hG ss f1.good (fun a h => ha a (.inr h)) h2
    have e1 := infer_sound hG e g (fun a h => ha a (.inl h)) hu.left h1 (f2.lost hl) δ (hs.back f2)
    have e2 := inferSS_sound hG ss f1.good (fun a h => ha a (.inr h)) (hu.right f1.toGo) h2 hl δ hs Q hQ
    rw [f1.gam] at e2
    simp only [Stmts]
    exact ⟨⟨_, e1⟩, e2⟩
  | .bind x (some t) e :: ss, k, k', g, ha, hu, h, hl, δ, hs, Q, hQ => by
    simp only [inferSS, Option.bind_eq_bind, Option.bind_eq_some_iff] at h
    obtain ⟨⟨u, k1⟩, h1, k2, h2, h3⟩ := h
    simp only [annsSS, List.mem_append, Option.toList_some, List.mem_singleton] at ha
    have f0 := cur_fr g (okRow_nil none)
    have hae : ∀ a ∈ e.anns, Ok 0 a := fun a h => ha a (.inl (.inr h))
    obtain ⟨f1, o1⟩ := infer_fr hG e f0.good hae h1
    have ot := ha t (.inl (.inl rfl))
    have f2 := add_fr f1.good (cs := [.teq u t]) (by simpa [OkCon] using ⟨o1, ot⟩)
    have f3 := letEnd_go f2.good g.cur ot h2
    have f4 := inferSS_go hG ss f3.good (fun a h => ha a (.inr h)) h3
    have hl3 := f4.lost hl
    have hl1 := f2.lost (f3.lost hl3)
    have s3 := hs.back f4
    have hu0 : Unseen (e.nodes ++ nodesSS ss) { k with cur := ⟨[], none⟩ } := hu
    have f12 := f1.then f2
    have e2 := inferSS_sound hG ss f3.good (fun a h => ha a (.inr h)) (hu0.right (f12.toGo.then f3)) h3 hl δ hs Q hQ
    have ih := fun δ hs => infer_sound hG e f0.good hae hu0.left h1 hl1 δ hs
    have f012 := (f0.trans f1).then f2
    cases x with
    | none =>
      have fn := letEnd_none f2.good g.cur ot h2
      rw [(f012.then fn).gam] at e2
      have s2 := s3.back f3
      have heq : ev δ [] u = ev δ [] t := s2.teq (Go.refl f2.good) (.head _)
      simp only [Stmts]
      exact ⟨⟨_, ih δ (s2.back f2.toGo), δ, heq⟩, e2⟩
    | some x =>
      obtain ⟨s, hsk, _, hnm, hsc, hdf, hlost, hinst⟩ := letEnd_some f2.good g.cur ot h2
      rw [gam_set hnm hsc, f012.gam] at e2
      simp only [Stmts]
      refine ⟨InstOf δ s, instOf_exists δ s, fun τ hτ => ?_, e2⟩
      obtain ⟨δ', c1, c2, c3, c4⟩ := hinst δ s3.cons τ hτ
      have s2 : Sat (sigOf G) δ' (k1.add [.teq u t]) := by
        refine ⟨c1, fun d hd => ?_⟩
        rcases hlost hl3 with h0 | h0
        · rw [h0] at hd; cases hd
        · rw [c4 h0]; exact (s3.back f3).defer d hd
      have heq : ev δ' [] u = ev δ' [] t := s2.teq (Go.refl f2.good) (.head _)
      have e1 := ih δ' (s2.back f2.toGo)
      rw [heq, c2] at e1
      have hg : Gam δ' { k with cur := ⟨[], none⟩ } = Gam δ k :=
        gam_congr (k := k) (fun s' hs' β => c3 s' (by rw [f012.schemes]; exact hs') β)
      rw [hg] at e1
      exact ⟨e1, δ', c2.symm⟩
  | .bind x none e :: ss, k, k', g, ha, hu, h, hl, δ, hs, Q, hQ => by
    simp only [inferSS, Option.bind_eq_bind, Option.bind_eq_some_iff] at h
    obtain ⟨⟨u, k1⟩, h1, k2, h2, h3⟩ := h
    simp only [annsSS, List.mem_append] at ha
    have f0 := cur_fr g (okRow_nil none)
    have hae : ∀ a ∈ e.anns, Ok 0 a := fun a h => ha a (.inl (.inr h))
    obtain ⟨f1, o1⟩ := infer_fr hG e f0.good hae h1
    have f3 := letEnd_go f1.good g.cur o1 h2
    have f4 := inferSS_go hG ss f3.good (fun a h => ha a (.inr h)) h3
    have hl3 := f4.lost hl
    have s3 := hs.back f4
    have hu0 : Unseen (e.nodes ++ nodesSS ss) { k with cur := ⟨[], none⟩ } := hu
    have e2 := inferSS_sound hG ss f3.good (fun a h => ha a (.inr h)) (hu0.right (f1.toGo.then f3)) h3 hl δ hs Q hQ
    have ih := fun δ hs => infer_sound hG e f0.good hae hu0.left h1 (f3.lost hl3) δ hs
    have f01 := f0.trans f1
    cases x with
    | none =>
      have fn := letEnd_none f1.good g.cur o1 h2
      rw [(f01.then fn).gam] at e2
      simp only [Stmts]
      exact ⟨⟨_, ih δ (s3.back f3), trivial⟩, e2⟩
    | some x =>
      obtain ⟨s, hsk, _, hnm, hsc, hdf, hlost, hinst⟩ := letEnd_some f1.good g.cur o1 h2
      rw [gam_set hnm hsc, f01.gam] at e2
      simp only [Stmts]
      refine ⟨InstOf δ s, instOf_exists δ s, fun τ hτ => ?_, e2⟩
      obtain ⟨δ', c1, c2, c3, c4⟩ := hinst δ s3.cons τ hτ
      have s2 : Sat (sigOf G) δ' k1 := by
        refine ⟨c1, fun d hd => ?_⟩
        rcases hlost hl3 with h0 | h0
        · rw [h0] at hd; cases hd
        · rw [c4 h0]; exact (s3.back f3).defer d hd
      have e1 := ih δ' s2
      rw [c2] at e1
      have hg : Gam δ' { k with cur := ⟨[], none⟩ } = Gam δ k :=
        gam_congr (k := k) (fun s' hs' β => c3 s' (by rw [f01.schemes]; exact hs') β)
      rw [hg] at e1
      exact ⟨e1, trivial⟩
theorem inferArms_sound {G : Env} (hG : EnvOk G) {n : Nat} {st res : Ty} (hst : Ok 0 st) (hr : Ok 0 res) :
    ∀ (arms : List Arm) {k k' : K}, Good k → (∀ a ∈ annsArms arms, Ok 0 a) → Unseen (nodesArms arms) k →
    inferArms G n st res arms k = some k' → k'.lost = false → ∀ δ, Sat (sigOf G) δ k' →
    ArmsTy (sigOf G) arms (Gam δ k) (ev δ [] st) (ev δ [] res)
  | [], k, k', g, ha, hu, h, hl, δ, hs => by simp [ArmsTy]
  | .mk p b :: arms, k, k', g, ha, hu, h, hl, δ, hs => by
    simp only [inferArms, Option.bind_eq_bind, Option.bind_eq_some_iff] at h
    obtain ⟨⟨pt, ap, k1⟩, h1, ⟨t, k2⟩, h2, h3⟩ := h
    simp only [annsArms, List.mem_append] at ha
    obtain ⟨f1, o1, a1⟩ := inferPat_fr hG p g h1
    have f2 := add_fr f1.good (cs := [.teq pt st]) (by simpa [OkCon] using ⟨o1, hst⟩)
    have f3 := bindPat_go ap f2.good a1 hst (G := G)
    obtain ⟨f4, o4⟩ := infer_fr hG b f3.good (fun a h => ha a (.inl h)) h2
    have f5 := add_fr f4.good (cs := [.teq t res]) (by simpa [OkCon] using ⟨o4, hr⟩)
    have f13 := (f1.then f2).toGo.then f3
    have f6 := pop_fr g ((f13.trans f4.toGo).then f5.toGo)
    have f7 := inferArms_fr hG hst hr arms f6.good (fun a h => ha a (.inr h)) h3
    have s6 := hs.back f7.toGo
    have s5 : Sat (sigOf G) δ (k2.add [.teq t res]) := ⟨s6.cons, s6.defer⟩
    have hl5 : (k2.add [.teq t res]).lost = false := f7.lost hl
    have s4 := s5.back f5.toGo
    have s3 := s4.back f4.toGo
    have s2 := s3.back f3
    have heq : ev δ [] pt = ev δ [] st := s2.teq (Go.refl f2.good) (.head _)
    have her : ev δ [] t = ev δ [] res := s5.teq (Go.refl f5.good) (.head _)
    obtain ⟨bd, hb, hg⟩ := inferPat_sound hG p g h1 (s2.back f2.toGo).cons st _ hst f2.good heq (f4.lost (f5.lost hl5))
    have e1 := infer_sound hG b f3.good (fun a h => ha a (.inl h)) (hu.left.go f13) h2 (f5.lost hl5) δ s4
    rw [hg, (f1.then f2).gam, her] at e1
    have e2 := inferArms_sound hG hst hr arms f6.good (fun a h => ha a (.inr h)) (hu.right f6.toGo) h3 hl δ hs
    rw [f6.gam] at e2
    simp only [ArmsTy]
    exact ⟨⟨bd, hb, e1⟩, e2⟩
end

end Verif.Typing
