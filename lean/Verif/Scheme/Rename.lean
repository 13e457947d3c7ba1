import Verif.Scheme.Ctx

/-!
# Instances are renamings: lemmas
-/

namespace Verif.Scheme
open Verif.Types Verif.Solver

theorem onTy_renameVars_node (f : UVar → UVar) (g : Nat → Nat) (hd : Head) (ks : List Ty)
    (es : List Eff) (r : Option Nat) :
    (renameVars f g).onTy (.node hd ks es r)
      = .node hd (ks.map (renameVars f g).onTy) (es.map (renameVars f g).onEff) (r.map g) := by
  cases r <;> simp [Sub.onTy, renameVars, Sub.tail, onTyL_eq, onEffL_eq]

theorem onEff_mk (θ : Sub) (e : Eff) : θ.onEff e = .mk e.ability (e.args.map θ.onTy) := by
  cases e; simp [Sub.onEff, onTyL_eq, Eff.ability, Eff.args]

theorem rename_comp (f : UVar → UVar) (g : Nat → Nat) (t : Ty) :
    (withRows g).onTy ((withTys (fun v => .uni (f v))).onTy t) = (renameVars f g).onTy t := by
  induction t using Ty.ind with
  | hu v => rfl
  | hn hd ks es r ihk ihe =>
    rw [onTy_withTys_node, onTy_withRows_node, onTy_renameVars_node]
    congr 1
    · rw [List.map_map]
      exact List.map_congr_left (fun a ha => ihk a ha)
    · rw [List.map_map]
      refine List.map_congr_left (fun e he => ?_)
      simp only [Function.comp, onEff_mk, Eff.ability, Eff.args, List.map_map]
      congr 1
      exact List.map_congr_left (fun a ha => ihe e he a ha)

theorem rowVarsE_map {es es' : List Eff} (f : Eff → Eff) (hes : es' = es.map f)
    (h : ∀ e ∈ es, Eff.rowVars (f e) = Eff.rowVars e) : Eff.rowVarsL es' = Eff.rowVarsL es := by
  subst hes
  induction es with
  | nil => rfl
  | cons e es ih =>
    rw [List.map_cons, Eff.rowVarsL, Eff.rowVarsL, h e (.head _), ih (fun e he => h e (.tail _ he))]

theorem rowVarsL_map {ks : List Ty} (f : Ty → Ty) (h : ∀ k ∈ ks, Ty.rowVars (f k) = Ty.rowVars k) :
    Ty.rowVarsL (ks.map f) = Ty.rowVarsL ks := by
  induction ks with
  | nil => rfl
  | cons e es ih =>
    rw [List.map_cons, Ty.rowVarsL, Ty.rowVarsL, h e (.head _), ih (fun e he => h e (.tail _ he))]

theorem rowVars_withUni (f : UVar → UVar) (t : Ty) :
    Ty.rowVars ((withTys (fun v => .uni (f v))).onTy t) = Ty.rowVars t := by
  induction t using Ty.ind with
  | hu v => rfl
  | hn hd ks es r ihk ihe =>
    rw [onTy_withTys_node, Ty.rowVars, Ty.rowVars, rowVarsL_map _ ihk, rowVarsE_map _ rfl]
    intro e he
    cases e with
    | mk a as =>
      rw [onEff_mk, Eff.rowVars, Eff.rowVars]
      exact rowVarsL_map _ (ihe _ he)

/-- The renaming that takes the `i`-th of `vs` to the `i`-th of `us`. -/
def renTo (vs us : List UVar) (v : UVar) : UVar := ((vs.zip us).lookup v).getD v

theorem assign_uni (vs us : List UVar) : assign vs (us.map .uni) = fun v => .uni (renTo vs us v) := by
  funext v
  rw [assign, renTo]
  induction vs generalizing us with
  | nil => rfl
  | cons w vs ih =>
    cases us with
    | nil => rfl
    | cons u us =>
      simp only [List.map_cons, List.zip_cons_cons, List.lookup_cons]
      by_cases h : v = w
      · subst h; simp
      · simp [beq_eq_false_iff_ne.mpr h, ih]

theorem renTo_other {vs us : List UVar} {v : UVar} (h : v ∉ vs) : renTo vs us v = v := by
  have := assign_other (ts := us.map .uni) h
  rw [assign_uni] at this
  injection this

theorem renTo_map {vs us : List UVar} (hn : vs.Nodup) (hl : us.length = vs.length) :
    vs.map (renTo vs us) = us := by
  apply List.ext_getElem?
  intro i
  rw [List.getElem?_map]
  cases hv : vs[i]? with
  | none =>
    rw [List.getElem?_eq_none_iff] at hv
    exact (List.getElem?_eq_none_iff.mpr (by omega)).symm
  | some v =>
    have hi : i < us.length := by
      rw [hl]; exact (List.getElem?_eq_some_iff.mp hv).1
    have h2 := assign_at (ts := us.map .uni) hn hv
      (t := .uni us[i]) (by simp [List.getElem?_eq_getElem hi])
    rw [assign_uni] at h2
    injection h2 with h2
    simp [h2, List.getElem?_eq_getElem hi]

theorem lookup_inj {m : List (Nat × Nat)} (hn : (m.map Prod.snd).Nodup) {v w x : Nat}
    (h1 : m.lookup v = some x) (h2 : m.lookup w = some x) : v = w := by
  have a : (v, x) ∈ m := lookup_mem h1
  have b : (w, x) ∈ m := lookup_mem h2
  clear h1 h2
  induction m with
  | nil => simp at a
  | cons p m ih =>
    rw [List.map_cons, List.nodup_cons] at hn
    rcases List.mem_cons.mp a with a1 | a1 <;> rcases List.mem_cons.mp b with b1 | b1
    · rw [← a1] at b1; cases b1; rfl
    · subst a1; exact (hn.1 (List.mem_map.mpr ⟨(w, x), b1, rfl⟩)).elim
    · subst b1; exact (hn.1 (List.mem_map.mpr ⟨(v, x), a1, rfl⟩)).elim
    · exact ih hn.2 a1 b1

theorem copy_core {vs us : List UVar} (hn : vs.Nodup) (hl : us.length = vs.length) (hu : us.Nodup)
    (t : Ty) (q : List Nat) (k : Nat) :
    let r := freshen q ((withTys (assign vs (us.map .uni))).onTy t) ⟨k, []⟩
    RenamedCopy t vs q ⟨r.1, us, (r.2.map.map Prod.snd).reverse⟩ := by
  obtain ⟨f1, f2, f3⟩ := freshen_start q ((withTys (assign vs (us.map .uni))).onTy t) k
  rw [assign_uni] at *
  rw [rowVars_withUni] at f3
  refine ⟨renTo vs us, renOf q (freshen q ((withTys (fun v => .uni (renTo vs us v))).onTy t) ⟨k, []⟩).2.map,
    ?_, ⟨renTo_map hn hl, hu, fun v hv => renTo_other hv⟩, ?_, ?_, ?_⟩
  · rw [← rename_comp]; exact f2.symm
  · intro v hv hq
    cases hx : (freshen q ((withTys (fun v => .uni (renTo vs us v))).onTy t) ⟨k, []⟩).2.map.lookup v with
    | none => exact absurd hx (f3 v hv hq)
    | some x =>
      simp only [renOf, if_pos hq, hx, Option.getD_some, List.mem_reverse, List.mem_map]
      exact ⟨_, lookup_mem hx, rfl⟩
  · intro v w hv hw hqv hqw he
    generalize (freshen q ((withTys (fun v => .uni (renTo vs us v))).onTy t) ⟨k, []⟩).2 = s at *
    cases hx : s.map.lookup v with
    | none => exact absurd hx (f3 v hv hqv)
    | some x =>
      cases hy : s.map.lookup w with
      | none => exact absurd hy (f3 w hw hqw)
      | some y =>
        simp only [renOf, if_pos hqv, if_pos hqw, hx, hy, Option.getD_some] at he
        subst he
        exact lookup_inj f1.nodup hx hy
  · intro v hv
    simp only [renOf, if_neg hv]

/-- The scheme body made from `t` by quantifying `vs`. -/
def bodyOf (vs : List UVar) (t : Ty) : Ty := (withTys (bindOf vs.zipIdx [])).onTy t

theorem instantiate_copy {vs : List UVar} (hn : vs.Nodup) (t : Ty) (hb : NoBound t) (q : List Nat)
    (st : St) :
    ∃ i st', instantiate ⟨vs.length, q, bodyOf vs t⟩ st = some (i, st') ∧ RenamedCopy t vs q i := by
  rw [instantiate, freshTys_eq]
  simp only
  generalize reserve st.next (Ty.rowVars (bodyOf vs t)) = N
  rw [bodyOf, substB_assign hn (by simp) t hb]
  refine ⟨_, _, rfl, ?_⟩
  exact copy_core hn (by simp) ((List.nodup_range' (step := 1)).map (fun a b hab => by cases hab; rfl))
    t q _

theorem bodyOf_nil (t : Ty) : bodyOf [] t = t := by
  rw [bodyOf]
  have : (bindOf ([] : List UVar).zipIdx []) = Ty.uni := by funext v; simp [bindOf]
  rw [this, withTys_uni]

theorem ctx_instantiate_copy {vs : List UVar} (hn : vs.Nodup) (t : Ty) (hb : NoBound t) (q : List Nat)
    (c : Ctx) :
    ∃ i c', Ctx.instantiate ⟨vs.length, q, bodyOf vs t⟩ c = some (i, c') ∧ RenamedCopy t vs q i := by
  have key : (if vs.length = 0 then Except.ok (bodyOf vs t)
      else substB (((List.range' c.nextTy vs.length).map UVar.src).map .uni) (bodyOf vs t))
      = .ok ((withTys (assign vs (((List.range' c.nextTy vs.length).map UVar.src).map .uni))).onTy t) := by
    split
    · rename_i h0
      have : vs = [] := List.length_eq_zero_iff.mp h0
      subst this
      rw [bodyOf_nil]
      have : assign [] (((List.range' c.nextTy ([] : List UVar).length).map UVar.src).map .uni) = Ty.uni := by
        funext v; simp [assign]
      rw [this, withTys_uni]
    · rw [bodyOf, substB_assign hn (by simp) t hb]
  rw [Ctx.instantiate, ctx_freshTys_eq]
  simp only [key]
  refine ⟨_, _, rfl, ?_⟩
  exact copy_core hn (by simp) ((List.nodup_range' (step := 1)).map (fun a b hab => by cases hab; rfl))
    t q _

theorem generalize_eq {σ : TLog} {ρ : RLog} {n : Nat} {t t' : Ty} (h : apply σ ρ n t = some t') :
    generalize σ ρ n t = some (if tyVars t' = [] then t else bodyOf (firsts (tyVars t')) t',
      firsts (tyVars t')) := by
  rw [generalize, collect_eq n t t' h]
  have e : pushAll [] (tyVars t') = firsts (tyVars t') := by rw [pushAll_eq]; simp
  rw [e]
  simp only [firsts_eq_nil]
  by_cases h0 : tyVars t' = []
  · simp [h0, firsts]
  · rw [if_neg h0, if_neg h0, replace_eq (t' := t') ?_ (by simp) n t h]
    · rfl
    · intro v hv
      apply lookup_zipIdx_none
      intro hm
      exact hv (apply_unbound n h ((mem_tyVars _).mp ((mem_firsts).mp hm)))

theorem generalizeExcluding_eq {σ : TLog} {ρ : RLog} {n : Nat} {t t' : Ty} {ex : List UVar}
    (h : apply σ ρ n t = some t') :
    generalizeExcluding σ ρ n t ex
      = some (bodyOf ((firsts (tyVars t')).filter (fun v => ¬ v ∈ ex)) t',
          (firsts (tyVars t')).filter (fun v => ¬ v ∈ ex)) := by
  rw [generalizeExcluding, collect_eq n t t' h]
  have e : pushAll [] (tyVars t') = firsts (tyVars t') := by rw [pushAll_eq]; simp
  rw [e]
  simp only
  rw [replace_eq (t' := t') ?_ (by simp) n t h]
  · rfl
  · intro v hv
    apply lookup_zipIdx_none
    intro hm
    exact hv (apply_unbound n h ((mem_tyVars _).mp ((mem_firsts).mp (List.mem_filter.mp hm).1)))

end Verif.Scheme
