import Verif.Typing.Fun

/-!
# Plain functions: nothing is forgotten; and declarations that allow more
-/

namespace Verif.Typing
open Verif.Types Verif.Solver Verif.Scheme

/-! ## Plain expressions -/

theorem bindAll_lost (xs : List Nat) (ts : List Ty) (k : K) : (K.bindAll xs ts k).lost = k.lost := by
  induction xs generalizing ts k with
  | nil => rfl
  | cons x xs ih =>
    cases ts with
    | nil => rfl
    | cons t ts => rw [K.bindAll, ih]; rfl

theorem bindAll_defer (xs : List Nat) (ts : List Ty) (k : K) : (K.bindAll xs ts k).defer = k.defer := by
  induction xs generalizing ts k with
  | nil => rfl
  | cons x xs ih =>
    cases ts with
    | nil => rfl
    | cons t ts => rw [K.bindAll, ih]; rfl

/-- Nothing was forgotten and no method call was deferred. -/
def Clean (k k' : K) : Prop := k.lost = false ∧ k.defer = [] → k'.lost = false ∧ k'.defer = []

theorem Clean.trans {a b c : K} (h1 : Clean a b) (h2 : Clean b c) : Clean a c := fun h => h2 (h1 h)
theorem Same.clean {k k' : K} (h : Same k k') : Clean k k' := by
  intro hk; rw [h.lost, h.defer]; exact hk
theorem clean_of {k k' : K} (h1 : k'.lost = k.lost) (h2 : k'.defer = k.defer) : Clean k k' := by
  intro hk; rw [h1, h2]; exact hk

theorem inferCall_clean (c : Ty) (ts : List Ty) (k : K) : Clean k (inferCall c ts k).2 := by
  have s1 := same_freshTys ts.length k
  have s2 := same_fresh (k.freshTys ts.length).2
  have s3 := same_contVars ts.length (k.freshTys ts.length).2.fresh.2
  have s4 := same_freshRow ((k.freshTys ts.length).2.fresh.2.contVars ts.length)
  exact (s1.trans (s2.trans (s3.trans s4))).clean.trans (clean_of rfl rfl)

mutual
theorem inferPat_clean {G : Env} (hG : EnvOk G) : ∀ (p : Pat) {k k' : K} {t : Ty} {ap : AP}, p.plain →
    inferPat G p k = some (t, ap, k') → Clean k k' ∧ ∀ (st : Ty) (k1 : K), Clean k1 (bindPat G ap st k1)
  | .wild, k, k', t, ap, hp, h => by
    simp only [inferPat, Option.some.injEq, Prod.mk.injEq] at h
    obtain ⟨rfl, rfl, rfl⟩ := h
    exact ⟨(same_fresh k).clean, fun st k1 => by simp only [bindPat]; exact clean_of rfl rfl⟩
  | .bind x, k, k', t, ap, hp, h => by
    simp only [inferPat, Option.some.injEq, Prod.mk.injEq] at h
    obtain ⟨rfl, rfl, rfl⟩ := h
    exact ⟨(same_fresh k).clean, fun st k1 => by simp only [bindPat]; exact clean_of rfl rfl⟩
  | .lit l, k, k', t, ap, hp, h => by
    simp only [inferPat, Option.some.injEq, Prod.mk.injEq] at h
    obtain ⟨rfl, rfl, rfl⟩ := h
    exact ⟨clean_of rfl rfl, fun st k1 => by simp only [bindPat]; exact clean_of rfl rfl⟩
  | .ctor c ps, k, k', t, ap, hp, h => by
    simp only [Pat.plain] at hp
    simp only [inferPat, Option.bind_eq_bind, Option.bind_eq_some_iff] at h
    obtain ⟨⟨ct, k1⟩, h1, h⟩ := h
    obtain ⟨s1, o1, _⟩ := instAt_same hG.ctors h1
    dsimp only at h
    cases hf : funParts ct with
    | none =>
      simp only [hf] at h
      split at h
      · simp only [Option.some.injEq, Prod.mk.injEq] at h
        obtain ⟨rfl, rfl, rfl⟩ := h
        exact ⟨s1.clean, fun st k1 => by simp only [bindPat, bindFields]; exact clean_of rfl rfl⟩
      · cases h
    | some q =>
      obtain ⟨params, res, row⟩ := q
      simp only [hf, Option.bind_eq_some_iff] at h
      obtain ⟨⟨fs, k2⟩, h2, h⟩ := h
      simp only [Option.some.injEq, Prod.mk.injEq] at h
      obtain ⟨rfl, rfl, rfl⟩ := h
      obtain ⟨a1, a2⟩ := inferFields_clean hG ps hp h2
      exact ⟨s1.clean.trans a1, fun st k1 => by simp only [bindPat]; exact a2 k1⟩
  | .tuple ps, k, k', t, ap, hp, h => by simp only [Pat.plain] at hp
  | .list ps, k, k', t, ap, hp, h => by simp only [Pat.plain] at hp
  | .listRest ps r, k, k', t, ap, hp, h => by simp only [Pat.plain] at hp
  | .as p x, k, k', t, ap, hp, h => by
    simp only [Pat.plain] at hp
    simp only [inferPat, Option.bind_eq_bind, Option.bind_eq_some_iff] at h
    obtain ⟨⟨u, aq, k1⟩, h1, h⟩ := h
    simp only [Option.some.injEq, Prod.mk.injEq] at h
    obtain ⟨rfl, rfl, rfl⟩ := h
    obtain ⟨a1, a2⟩ := inferPat_clean hG p hp h1
    exact ⟨a1, fun st k1 => by
      simp only [bindPat]
      exact Clean.trans (b := k1.bind x st) (clean_of rfl rfl) (a2 st _)⟩
theorem inferFields_clean {G : Env} (hG : EnvOk G) : ∀ (ps : List Pat) {params : List Ty} {k k' : K}
    {fs : List (Ty × AP)}, plainPats ps → inferFields G params ps k = some (fs, k') →
    Clean k k' ∧ ∀ k1 : K, Clean k1 (bindFields G fs k1)
  | [], params, k, k', fs, hp, h => by
    simp only [inferFields] at h
    split at h
    · simp only [Option.some.injEq, Prod.mk.injEq] at h
      obtain ⟨rfl, rfl⟩ := h
      exact ⟨clean_of rfl rfl, fun k1 => by simp only [bindFields]; exact clean_of rfl rfl⟩
    · cases h
  | p :: ps, params, k, k', fs, hp, h => by
    simp only [plainPats] at hp
    cases params with
    | nil => simp [inferFields] at h
    | cons u us =>
      simp only [inferFields, Option.bind_eq_bind, Option.bind_eq_some_iff] at h
      obtain ⟨⟨t, ap, k1⟩, h1, ⟨fs', k2⟩, h2, h⟩ := h
      simp only [Option.some.injEq, Prod.mk.injEq] at h
      obtain ⟨rfl, rfl⟩ := h
      obtain ⟨a1, a2⟩ := inferPat_clean hG p hp.1 h1
      obtain ⟨b1, b2⟩ := inferFields_clean hG ps hp.2 h2
      exact ⟨(a1.trans (b := k1) (clean_of (k' := k1.add [.teq t u]) rfl rfl)).trans b1,
        fun k1 => by simp only [bindFields]; exact (a2 t k1).trans (b2 _)⟩
end

theorem letEnd_clean {n : Nat} {x : Option Nat} {outer : Row} {t : Ty} {k k' : K}
    (h : letEnd n x outer t k = some k') : Clean k k' := by
  intro hk
  cases x with
  | none =>
    simp only [letEnd, Option.some.injEq] at h
    subst h
    exact hk
  | some x =>
    simp only [letEnd] at h
    cases hl : ((K.merge k.cur { k with cur := outer }).fresh.2.add
      [.teq (K.merge k.cur { k with cur := outer }).fresh.1 t]).c.letBind n t k.cur with
    | none => simp [hl] at h
    | some c =>
      simp only [hl, Option.some.injEq] at h
      subst h
      have hd : ((K.merge k.cur { k with cur := outer }).fresh.2.add
        [.teq (K.merge k.cur { k with cur := outer }).fresh.1 t]).defer = [] := hk.2
      have hl : ((K.merge k.cur { k with cur := outer }).fresh.2.add
        [.teq (K.merge k.cur { k with cur := outer }).fresh.1 t]).lost = false := hk.1
      exact ⟨by simp [K.lose, hd, hl], hd⟩

theorem inst_clean {s : PolyTy} {k k' : K} {t : Ty} (h : k.inst s = some (t, k')) : Clean k k' := by
  rw [K.inst] at h
  cases hi : k.c.instantiate s with
  | none => simp [hi] at h
  | some p =>
    simp [hi] at h
    obtain ⟨_, rfl⟩ := h
    exact clean_of rfl rfl

theorem ref_clean {node x : Nat} {k k' : K} {t : Ty} (h : k.ref node x = some (t, k')) : Clean k k' := by
  rw [K.ref] at h
  cases hl : k.lookup x with
  | none => simp [hl] at h
  | some s =>
    simp only [hl] at h
    split at h
    · exact inst_clean h
    · cases hr : k.refs.lookup node with
      | some u =>
        simp [hr] at h
        obtain ⟨_, rfl⟩ := h
        exact clean_of rfl rfl
      | none =>
        simp only [hr] at h
        cases hi : k.inst s with
        | none => simp [hi] at h
        | some p =>
          obtain ⟨u, k1⟩ := p
          simp [hi] at h
          obtain ⟨_, rfl⟩ := h
          exact (inst_clean hi).trans (clean_of rfl rfl)

mutual
theorem infer_clean {G : Env} (hG : EnvOk G) {n : Nat} : ∀ (e : E) {k k' : K} {t : Ty}, e.plain →
    infer G n e k = some (t, k') → Clean k k'
  | .lit l, k, k', t, hp, h => by
    simp only [infer, Option.some.injEq, Prod.mk.injEq] at h
    obtain ⟨rfl, rfl⟩ := h
    exact clean_of rfl rfl
  | .loc node x, k, k', t, hp, h => by
    simp only [infer] at h
    exact ref_clean h
  | .fn f, k, k', t, hp, h => by
    simp only [infer] at h
    exact (instAt_same hG.fns h).1.clean
  | .call c as, k, k', t, hp, h => by
    simp only [E.plain] at hp
    simp only [infer, Option.bind_eq_bind, Option.bind_eq_some_iff] at h
    obtain ⟨⟨ct, k1⟩, h1, ⟨ts, k2⟩, h2, h⟩ := h
    simp only [Option.some.injEq] at h
    have := inferCall_clean ct ts k2
    rw [h] at this
    exact ((infer_clean hG c hp.1 h1).trans (inferL_clean hG as hp.2 h2)).trans this
  | .cons c as, k, k', t, hp, h => by
    simp only [E.plain] at hp
    simp only [infer, Option.bind_eq_bind, Option.bind_eq_some_iff] at h
    obtain ⟨⟨ct, k1⟩, h1, ⟨ts, k2⟩, h2, h⟩ := h
    have c1 := (instAt_same hG.ctors h1).1.clean.trans (inferL_clean hG as hp h2)
    dsimp only at h
    split at h
    · simp only [Option.some.injEq, Prod.mk.injEq] at h
      obtain ⟨rfl, rfl⟩ := h
      exact c1
    · simp only [Option.some.injEq] at h
      have := inferCall_clean ct ts k2
      rw [h] at this
      exact c1.trans this
  | .meth r m as, k, k', t, hp, h => by simp only [E.plain] at hp
  | .bin b l r, k, k', t, hp, h => by simp only [E.plain] at hp
  | .block ss v, k, k', t, hp, h => by
    simp only [E.plain] at hp
    simp only [infer, Option.bind_eq_bind, Option.bind_eq_some_iff] at h
    obtain ⟨k1, h1, ⟨u, k2⟩, h2, h⟩ := h
    simp only [Option.some.injEq, Prod.mk.injEq] at h
    obtain ⟨rfl, rfl⟩ := h
    exact ((inferSS_clean hG ss hp.1 h1).trans (infer_clean hG v hp.2 h2)).trans (clean_of rfl rfl)
  | .case s arms, k, k', t, hp, h => by
    simp only [E.plain] at hp
    simp only [infer, Option.bind_eq_bind, Option.bind_eq_some_iff] at h
    obtain ⟨⟨st, k1⟩, h1, k2, h2, h⟩ := h
    simp only [Option.some.injEq, Prod.mk.injEq] at h
    obtain ⟨rfl, rfl⟩ := h
    exact ((infer_clean hG s hp.1 h1).trans (same_fresh k1).clean).trans (inferArms_clean hG arms hp.2 h2)
  | .lam node ps b, k, k', t, hp, h => by
    simp only [E.plain] at hp
    simp only [infer, Option.bind_eq_bind, Option.bind_eq_some_iff] at h
    obtain ⟨⟨bt, k2⟩, h1, h⟩ := h
    simp only [Option.some.injEq, Prod.mk.injEq] at h
    obtain ⟨rfl, rfl⟩ := h
    have s1 := (paramTys_same ps k).trans (same_freshRow (paramTys ps k).2)
    refine ((s1.clean.trans ?_).trans (infer_clean hG b hp h1)).trans (clean_of rfl rfl)
    exact clean_of (by rw [bindAll_lost]) (by rw [bindAll_defer])
  | .tuple es, k, k', t, hp, h => by
    simp only [E.plain] at hp
    simp only [infer, Option.bind_eq_bind, Option.bind_eq_some_iff] at h
    obtain ⟨⟨ts, k1⟩, h1, h⟩ := h
    simp only [Option.some.injEq, Prod.mk.injEq] at h
    obtain ⟨rfl, rfl⟩ := h
    exact inferL_clean hG es hp h1
  | .list es, k, k', t, hp, h => by
    simp only [E.plain] at hp
    simp only [infer, Option.bind_eq_bind, Option.bind_eq_some_iff] at h
    obtain ⟨k1, h1, h⟩ := h
    simp only [Option.some.injEq, Prod.mk.injEq] at h
    obtain ⟨rfl, rfl⟩ := h
    exact (same_fresh k).clean.trans (inferElems_clean hG es hp h1)
theorem inferL_clean {G : Env} (hG : EnvOk G) {n : Nat} : ∀ (es : List E) {k k' : K} {ts : List Ty}, plainL es →
    inferL G n es k = some (ts, k') → Clean k k'
  | [], k, k', ts, hp, h => by
    simp only [inferL, Option.some.injEq, Prod.mk.injEq] at h
    obtain ⟨rfl, rfl⟩ := h
    exact clean_of rfl rfl
  | e :: es, k, k', ts, hp, h => by
    simp only [plainL] at hp
    simp only [inferL, Option.bind_eq_bind, Option.bind_eq_some_iff] at h
    obtain ⟨⟨t, k1⟩, h1, ⟨ts', k2⟩, h2, h⟩ := h
    simp only [Option.some.injEq, Prod.mk.injEq] at h
    obtain ⟨rfl, rfl⟩ := h
    exact (infer_clean hG e hp.1 h1).trans (inferL_clean hG es hp.2 h2)
theorem inferElems_clean {G : Env} (hG : EnvOk G) {n : Nat} {el : Ty} : ∀ (es : List E) {k k' : K}, plainL es →
    inferElems G n el es k = some k' → Clean k k'
  | [], k, k', hp, h => by
    simp only [inferElems, Option.some.injEq] at h
    subst h
    exact clean_of rfl rfl
  | e :: es, k, k', hp, h => by
    simp only [plainL] at hp
    simp only [inferElems, Option.bind_eq_bind, Option.bind_eq_some_iff] at h
    obtain ⟨⟨t, k1⟩, h1, h2⟩ := h
    exact ((infer_clean hG e hp.1 h1).trans (c := k1.add [.teq t el]) (clean_of rfl rfl)).trans
      (inferElems_clean hG es hp.2 h2)
theorem inferSS_clean {G : Env} (hG : EnvOk G) {n : Nat} : ∀ (ss : List Stmt) {k k' : K}, plainSS ss →
    inferSS G n ss k = some k' → Clean k k'
  | [], k, k', hp, h => by
    simp only [inferSS, Option.some.injEq] at h
    subst h
    exact clean_of rfl rfl
  | .expr e :: ss, k, k', hp, h => by
    simp only [plainSS] at hp
    simp only [inferSS, Option.bind_eq_bind, Option.bind_eq_some_iff] at h
    obtain ⟨⟨t, k1⟩, h1, h2⟩ := h
    exact (infer_clean hG e hp.1 h1).trans (inferSS_clean hG ss hp.2 h2)
  | .bind x (some t) e :: ss, k, k', hp, h => by
    simp only [plainSS] at hp
    simp only [inferSS, Option.bind_eq_bind, Option.bind_eq_some_iff] at h
    obtain ⟨⟨u, k1⟩, h1, k2, h2, h3⟩ := h
    have c1 : Clean k k1 := infer_clean hG e (k := { k with cur := ⟨[], none⟩ }) hp.1 h1
    have c2 : Clean k1 k2 := letEnd_clean (k := k1.add [.teq u t]) h2
    exact (c1.trans c2).trans (inferSS_clean hG ss hp.2 h3)
  | .bind x none e :: ss, k, k', hp, h => by
    simp only [plainSS] at hp
    simp only [inferSS, Option.bind_eq_bind, Option.bind_eq_some_iff] at h
    obtain ⟨⟨u, k1⟩, h1, k2, h2, h3⟩ := h
    have c1 : Clean k k1 := infer_clean hG e (k := { k with cur := ⟨[], none⟩ }) hp.1 h1
    exact (c1.trans (letEnd_clean h2)).trans (inferSS_clean hG ss hp.2 h3)
theorem inferArms_clean {G : Env} (hG : EnvOk G) {n : Nat} {st res : Ty} : ∀ (arms : List Arm) {k k' : K},
    plainArms arms → inferArms G n st res arms k = some k' → Clean k k'
  | [], k, k', hp, h => by
    simp only [inferArms, Option.some.injEq] at h
    subst h
    exact clean_of rfl rfl
  | .mk p b :: arms, k, k', hp, h => by
    simp only [plainArms] at hp
    simp only [inferArms, Option.bind_eq_bind, Option.bind_eq_some_iff] at h
    obtain ⟨⟨pt, ap, k1⟩, h1, ⟨t, k2⟩, h2, h3⟩ := h
    obtain ⟨a1, a2⟩ := inferPat_clean hG p hp.1 h1
    have c1 : Clean k1 (bindPat G ap st (k1.add [.teq pt st])) := a2 st (k1.add [.teq pt st])
    have c2 : Clean k2 k' := inferArms_clean hG arms (k := K.pop k (k2.add [.teq t res])) hp.2.2 h3
    exact ((a1.trans c1).trans (infer_clean hG b hp.2.1 h2)).trans c2
end

theorem firstLost_plain {G : Env} (hG : EnvOk G) {n : Nat} {d : Fn} (hd : WfFn d)
    (hp : ∀ b, d.body = some b → b.plain) : firstLost G n d := by
  intro b ft k ps r row t k' hb hi hf h
  have c1 : Clean K.new k := (inst_same hd.sig hi).1.clean
  have c2 : Clean k (bodyStart d ps row k) := clean_of (bindAll_lost _ _ _) (bindAll_defer _ _ _)
  exact ((c1.trans c2).trans (infer_clean hG b (hp b hb) h) ⟨rfl, rfl⟩).1

/-! ## Declarations that allow more -/

/-- `D'` allows all that `D` does, for the functions `F`. -/
structure More (D D' : Sig) (F : Nat → Prop) : Prop where
  fn : ∀ f, F f → ∀ τ, D.fn f τ → D'.fn f τ
  ctor : D'.ctor = D.ctor
  method : D'.method = D.method
  str : D'.str = D.str
  list : D'.list = D.list

mutual
theorem patTy_more {D D' : Sig} {F : Nat → Prop} (h : More D D' F) : ∀ (p : Pat) {τ : S} {b : List (Nat × S)},
    PatTy D p τ b → PatTy D' p τ b
  | .wild, τ, b, hp => by simpa only [PatTy] using hp
  | .bind x, τ, b, hp => by simpa only [PatTy] using hp
  | .lit l, τ, b, hp => by
    simp only [PatTy] at hp ⊢
    refine ⟨?_, hp.2⟩
    rw [hp.1]
    cases l <;> simp [Sig.lit, h.str]
  | .ctor c ps, τ, b, hp => by
    simp only [PatTy, h.ctor] at hp ⊢
    rcases hp with hp | ⟨τs, h1, h2⟩
    · exact .inl hp
    · exact .inr ⟨τs, h1, patTyL_more h ps h2⟩
  | .tuple ps, τ, b, hp => by
    simp only [PatTy] at hp ⊢
    obtain ⟨τs, h1, h2⟩ := hp
    exact ⟨τs, h1, patTyL_more h ps h2⟩
  | .list ps, τ, b, hp => by
    simp only [PatTy, Sig.listOf, h.list] at hp ⊢
    obtain ⟨el, h1, h2⟩ := hp
    exact ⟨el, h1, patTyL_more h ps h2⟩
  | .listRest ps none, τ, b, hp => by
    simp only [PatTy, Sig.listOf, h.list] at hp ⊢
    obtain ⟨el, h1, h2⟩ := hp
    exact ⟨el, h1, patTyL_more h ps h2⟩
  | .listRest ps (some x), τ, b, hp => by
    simp only [PatTy, Sig.listOf, h.list] at hp ⊢
    obtain ⟨el, b', h1, h2, h3⟩ := hp
    exact ⟨el, b', h1, patTyL_more h ps h2, h3⟩
  | .as p x, τ, b, hp => by
    simp only [PatTy] at hp ⊢
    obtain ⟨b', h1, h2⟩ := hp
    exact ⟨b', patTy_more h p h1, h2⟩
theorem patTyL_more {D D' : Sig} {F : Nat → Prop} (h : More D D' F) : ∀ (ps : List Pat) {τs : List S}
    {b : List (Nat × S)}, PatTyL D ps τs b → PatTyL D' ps τs b
  | [], τs, b, hp => by simpa only [PatTyL] using hp
  | p :: ps, τs, b, hp => by
    simp only [PatTyL] at hp ⊢
    obtain ⟨τ, τs', b1, b2, h1, h2, h3, h4⟩ := hp
    exact ⟨τ, τs', b1, b2, h1, h2, patTy_more h p h3, patTyL_more h ps h4⟩
end

theorem select_mem {ms : List Method} {m : Nat} {h : Option Head} {f : Nat} (hs : select ms m h = some f) :
    ∃ e ∈ ms, e.name = m ∧ e.fn = f := by
  rw [select] at hs
  split at hs
  · rename_i e he
    have : e ∈ ms.filter (fun e => e.name == m && h.isSome && recvTag e == h) := by rw [he]; exact .head _
    have := List.mem_filter.1 this
    simp only [Bool.and_eq_true, beq_iff_eq] at this
    simp only [Option.some.injEq] at hs
    exact ⟨e, this.1, this.2.1.1, hs⟩
  · cases hs

mutual
theorem hasTy_more {ms : List Method} {D D' : Sig} {F : Nat → Prop} (h : More D D' F) (hms : D.method = select ms) :
    ∀ (e : E) {Γ : TEnv} {τ : S}, (∀ f, e.mentions ms f → F f) → HasTy D e Γ τ → HasTy D' e Γ τ
  | .lit l, Γ, τ, hF, hp => by
    simp only [HasTy] at hp ⊢
    rw [hp]
    cases l <;> simp [Sig.lit, h.str]
  | .loc _ x, Γ, τ, hF, hp => by simpa only [HasTy] using hp
  | .fn f, Γ, τ, hF, hp => by
    simp only [HasTy] at hp ⊢
    exact h.fn f (hF f (by simp [E.mentions])) τ hp
  | .call e es, Γ, τ, hF, hp => by
    simp only [HasTy] at hp ⊢
    simp only [E.mentions] at hF
    obtain ⟨τs, h1, h2⟩ := hp
    exact ⟨τs, hasTy_more h hms e (fun f hf => hF f (.inl hf)) h1, hasTyL_more h hms es (fun f hf => hF f (.inr hf)) h2⟩
  | .cons c es, Γ, τ, hF, hp => by
    simp only [HasTy, h.ctor] at hp ⊢
    simp only [E.mentions] at hF
    rcases hp with hp | ⟨h0, τs, h1, h2⟩
    · exact .inl hp
    · exact .inr ⟨h0, τs, h1, hasTyL_more h hms es hF h2⟩
  | .meth r m es, Γ, τ, hF, hp => by
    simp only [HasTy, h.method] at hp ⊢
    simp only [E.mentions] at hF
    obtain ⟨ρ, f, τs, h1, h2, h3, h4⟩ := hp
    have hm : ∃ e ∈ ms, e.name = m ∧ e.fn = f := by rw [hms] at h2; exact select_mem h2
    exact ⟨ρ, f, τs, hasTy_more h hms r (fun f hf => hF f (.inr (.inl hf))) h1, h2, h.fn f (hF f (.inl hm)) _ h3,
      hasTyL_more h hms es (fun f hf => hF f (.inr (.inr hf))) h4⟩
  | .bin b l r, Γ, τ, hF, hp => by
    simp only [HasTy] at hp ⊢
    simp only [E.mentions] at hF
    exact ⟨hp.1, hasTy_more h hms l (fun f hf => hF f (.inl hf)) hp.2.1,
      hasTy_more h hms r (fun f hf => hF f (.inr hf)) hp.2.2⟩
  | .block ss v, Γ, τ, hF, hp => by
    simp only [HasTy] at hp ⊢
    simp only [E.mentions] at hF
    exact stmts_more h hms ss (fun f hf => hF f (.inl hf))
      (fun Γ' hq => hasTy_more h hms v (fun f hf => hF f (.inr hf)) hq) hp
  | .case s arms, Γ, τ, hF, hp => by
    simp only [HasTy] at hp ⊢
    simp only [E.mentions] at hF
    obtain ⟨ρ, h1, h2⟩ := hp
    exact ⟨ρ, hasTy_more h hms s (fun f hf => hF f (.inl hf)) h1, arms_more h hms arms (fun f hf => hF f (.inr hf)) h2⟩
  | .lam _ ps b, Γ, τ, hF, hp => by
    simp only [HasTy] at hp ⊢
    simp only [E.mentions] at hF
    obtain ⟨τs, ρ, h1, h2, h3⟩ := hp
    exact ⟨τs, ρ, h1, h2, hasTy_more h hms b hF h3⟩
  | .tuple es, Γ, τ, hF, hp => by
    simp only [HasTy] at hp ⊢
    simp only [E.mentions] at hF
    obtain ⟨τs, h1, h2⟩ := hp
    exact ⟨τs, h1, hasTyL_more h hms es hF h2⟩
  | .list es, Γ, τ, hF, hp => by
    simp only [HasTy, Sig.listOf, h.list] at hp ⊢
    simp only [E.mentions] at hF
    obtain ⟨el, h1, h2⟩ := hp
    exact ⟨el, h1, hasTyL_more h hms es hF h2⟩
theorem hasTyL_more {ms : List Method} {D D' : Sig} {F : Nat → Prop} (h : More D D' F) (hms : D.method = select ms) :
    ∀ (es : List E) {Γ : TEnv} {τs : List S}, (∀ f, mentionsL ms f es → F f) → HasTyL D es Γ τs → HasTyL D' es Γ τs
  | [], Γ, τs, hF, hp => by simpa only [HasTyL] using hp
  | e :: es, Γ, τs, hF, hp => by
    simp only [HasTyL] at hp ⊢
    simp only [mentionsL] at hF
    obtain ⟨τ, τs', h1, h2, h3⟩ := hp
    exact ⟨τ, τs', h1, hasTy_more h hms e (fun f hf => hF f (.inl hf)) h2,
      hasTyL_more h hms es (fun f hf => hF f (.inr hf)) h3⟩
theorem stmts_more {ms : List Method} {D D' : Sig} {F : Nat → Prop} (h : More D D' F) (hms : D.method = select ms) :
    ∀ (ss : List Stmt) {Γ : TEnv} {Q Q' : TEnv → Prop}, (∀ f, mentionsSS ms f ss → F f) → (∀ Γ, Q Γ → Q' Γ) →
      Stmts D ss Γ Q → Stmts D' ss Γ Q'
  | [], Γ, Q, Q', hF, hQ, hp => by
    simp only [Stmts] at hp ⊢
    exact hQ _ hp
  | .expr e :: ss, Γ, Q, Q', hF, hQ, hp => by
    simp only [Stmts] at hp ⊢
    simp only [mentionsSS] at hF
    obtain ⟨⟨τ, h1⟩, h2⟩ := hp
    exact ⟨⟨τ, hasTy_more h hms e (fun f hf => hF f (.inl hf)) h1⟩,
      stmts_more h hms ss (fun f hf => hF f (.inr hf)) hQ h2⟩
  | .bind none ann e :: ss, Γ, Q, Q', hF, hQ, hp => by
    simp only [Stmts] at hp ⊢
    simp only [mentionsSS] at hF
    obtain ⟨⟨τ, h1, h0⟩, h2⟩ := hp
    exact ⟨⟨τ, hasTy_more h hms e (fun f hf => hF f (.inl hf)) h1, h0⟩,
      stmts_more h hms ss (fun f hf => hF f (.inr hf)) hQ h2⟩
  | .bind (some x) ann e :: ss, Γ, Q, Q', hF, hQ, hp => by
    simp only [Stmts] at hp ⊢
    simp only [mentionsSS] at hF
    obtain ⟨T, h0, h1, h2⟩ := hp
    exact ⟨T, h0, fun τ hτ => ⟨hasTy_more h hms e (fun f hf => hF f (.inl hf)) (h1 τ hτ).1, (h1 τ hτ).2⟩,
      stmts_more h hms ss (fun f hf => hF f (.inr hf)) hQ h2⟩
theorem arms_more {ms : List Method} {D D' : Sig} {F : Nat → Prop} (h : More D D' F) (hms : D.method = select ms) :
    ∀ (arms : List Arm) {Γ : TEnv} {ρ τ : S}, (∀ f, mentionsArms ms f arms → F f) → ArmsTy D arms Γ ρ τ →
      ArmsTy D' arms Γ ρ τ
  | [], Γ, ρ, τ, hF, hp => by simp [ArmsTy]
  | .mk p e :: arms, Γ, ρ, τ, hF, hp => by
    simp only [ArmsTy] at hp ⊢
    simp only [mentionsArms] at hF
    obtain ⟨⟨b, h1, h2⟩, h3⟩ := hp
    exact ⟨⟨b, patTy_more h p h1, hasTy_more h hms e (fun f hf => hF f (.inl hf)) h2⟩,
      arms_more h hms arms (fun f hf => hF f (.inr hf)) h3⟩
end

/-! ## Modules -/

theorem accepted_fns {P : Prog} (hP : P.Wf) {n : Nat} {v : Verdict} {ss : List PolyTy}
    (h : checkProg P n = some (v, ss)) (hv : v.ok = true) (hl : v.lost = false ∨ P.plain) :
    ss.length = P.fns.length ∧ ∀ (f : Nat) d s, P.fns[f]? = some d → ss[f]? = some s → ∀ τ, Inst s τ →
      Inst d.sig τ ∧ FnTy (P.sig (ss.take f ++ (P.fns.drop f).map Fn.sig)) d τ := by
  have hl' : v.lost = false ∨ ∀ d ∈ P.fns, ∀ G, EnvOk G → firstLost G n d := by
    rcases hl with hl | hl
    · exact .inl hl
    · exact .inr (fun d hd G hG => firstLost_plain hG (hP.fns d hd) (hl d hd))
  obtain ⟨ss', rfl, h1, h2⟩ := checkFns_sound hP P.fns hP.fns (by simp) h hv hl'
  exact ⟨by simpa using h1, by simpa using h2⟩

theorem honest_typed {P : Prog} {ss : List PolyTy} (hlen : ss.length = P.fns.length)
    (h : ∀ (f : Nat) d s, P.fns[f]? = some d → ss[f]? = some s → ∀ τ, Inst s τ →
      Inst d.sig τ ∧ FnTy (P.sig (ss.take f ++ (P.fns.drop f).map Fn.sig)) d τ) (hh : Honest P ss) :
    WellTyped P ss ∧ Respects P ss := by
  refine ⟨⟨hlen, fun i d s hd hs τ hτ body hb => ?_⟩, fun f d s hd hs τ hτ => (h f d s hd hs τ hτ).1⟩
  obtain ⟨τs, ρ, h1, h2, h3⟩ := (h i d s hd hs τ hτ).2 body hb
  refine ⟨τs, ρ, h1, h2, ?_⟩
  have hi : i < ss.length := (List.getElem?_eq_some_iff.1 hs).1
  have hm : More (P.sig (ss.take i ++ (P.fns.drop i).map Fn.sig)) (P.sig ss) (fun f => body.mentions P.methods f) := by
    refine ⟨fun f hf τ => ?_, rfl, rfl, rfl, rfl⟩
    rintro ⟨s', hs', hτ'⟩
    by_cases hfi : f < i
    · rw [List.getElem?_append_left (by simp; omega), List.getElem?_take_of_lt hfi] at hs'
      exact ⟨s', hs', hτ'⟩
    · rw [List.getElem?_append_right (by simp; omega)] at hs'
      simp only [List.length_take, List.getElem?_map, List.getElem?_drop, Option.map_eq_some_iff] at hs'
      obtain ⟨d', hd', rfl⟩ := hs'
      have hidx : i + (f - min i ss.length) = f := by omega
      rw [hidx] at hd'
      have hf' : f < ss.length := by rw [hlen]; exact (List.getElem?_eq_some_iff.1 hd').1
      exact ⟨ss[f], List.getElem?_eq_getElem hf',
        hh i f d body d' ss[f] hd hb (by omega) hf hd' (List.getElem?_eq_getElem hf') τ hτ'⟩
  exact hasTy_more hm rfl body (fun f hf => hf) h3

end Verif.Typing
