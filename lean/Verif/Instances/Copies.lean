import Verif.Instances.Refs
import Verif.Instances.Nodes
import Mathlib.Data.Set.Defs

/-!
# What the functions at the end are made of
-/

namespace Verif.Instances
open Verif.Types Verif.Mono

/-! ## Metadata tables -/

/-- The table `tab` is the table `ct` with entries for copies at the type arguments of `L`. -/
structure Clones (E : Env) (L : Set Inst) (ct tab : Table) : Prop where
  old : ∀ id, id.variant = none → tab.lookup id = ct.lookup id
  new : ∀ id t, tab.lookup id = some t → ∀ i ∈ L, id.variant = some (E.hash i.2) →
    ∃ t0, ct.lookup ⟨id.raw, none⟩ = some t0 ∧ t = substT i.2 t0

theorem nodeId_eta {id : NodeId} {v : Option Nat} (h : id.variant = v) : id = ⟨id.raw, v⟩ := by
  cases id; simp_all

theorem lookup_clone {ts : List Ty} {v : Nat} {tab : Table} {origins : List NodeId} {k : NodeId} {y : Ty}
    (h : (origins.filterMap fun id => (tab.lookup id).map fun t => (id.withVariant v, substT ts t)).lookup k = some y) :
    ∃ id ∈ origins, ∃ t, tab.lookup id = some t ∧ k = id.withVariant v ∧ y = substT ts t := by
  obtain ⟨id, hid, h⟩ := List.mem_filterMap.mp (lookup_mem h)
  obtain ⟨t, ht, he⟩ := Option.map_eq_some_iff.mp h
  simp only [Prod.mk.injEq] at he
  exact ⟨id, hid, t, ht, he.1.symm, he.2.symm⟩

theorem clones_step {E : Env} {L : Set Inst} {ct tab : Table} {i : Inst} {origins : List NodeId}
    (hL : ∀ i ∈ L, ∀ j ∈ L, E.hash i.2 = E.hash j.2 → i.2 = j.2) (hi : i ∈ L)
    (ho : ∀ id ∈ origins, id.variant = none) (h : Clones E L ct tab) :
    Clones E L ct (cloneTable i.2 (E.hash i.2) origins tab) := by
  refine ⟨fun id hv => ?_, fun id t ht j hj hv => ?_⟩
  · rw [cloneTable, lookup_append]
    split
    · rename_i y hy
      obtain ⟨id', _, t, _, hk, _⟩ := lookup_clone hy
      subst hk
      simp [NodeId.withVariant] at hv
    · exact h.old id hv
  · rw [cloneTable, lookup_append] at ht
    split at ht
    · rename_i y hy
      simp only [Option.some.injEq] at ht
      subst ht
      obtain ⟨id', hm, t, ht, hk, hy'⟩ := lookup_clone hy
      subst hk
      simp only [NodeId.withVariant, Option.some.injEq] at hv
      have := hL i hi j hj hv
      refine ⟨t, ?_, by rw [← this]; exact hy'⟩
      rw [h.old id' (ho id' hm)] at ht
      rw [nodeId_eta (ho id' hm)] at ht
      exact ht
    · exact h.new id t ht j hj hv

/-- Every instance is made from a function whose nodes are nodes of the source. -/
def Origins (ds : List Decl) (is : List Inst) : Prop :=
  ∀ i ∈ is, ∀ f, (funsL [] ds).lookup i.1 = some f → f.id.variant = none ∧ ∀ id ∈ idsE f.body, id.variant = none

theorem generate_origins {E : Env} {ds : List Decl} {i : Inst} {new : New} (h : generate E ds i = some new) :
    new.origins = [] ∨ ∃ f, (funsL [] ds).lookup i.1 = some f ∧ new.origins = f.id :: idsE f.body := by
  simp only [generate] at h
  split at h
  · rename_i f hl
    split at h
    · simp only [Option.some.injEq] at h; subst h; exact .inl rfl
    · split at h
      · split at h
        · simp only [Option.some.injEq] at h; subst h; exact .inr ⟨f, hl, rfl⟩
        · simp at h
      · simp at h
  · split at h
    · split at h
      · simp only [Option.some.injEq] at h; subst h; exact .inl rfl
      · split at h
        · simp only [Option.some.injEq] at h; subst h; exact .inl rfl
        · simp at h
    · split at h
      · simp at h
      · simp only [Option.some.injEq] at h; subst h; exact .inl rfl

theorem generateL_clones {E : Env} {L : Set Inst} {ct : Table} {ds : List Decl}
    (hL : ∀ i ∈ L, ∀ j ∈ L, E.hash i.2 = E.hash j.2 → i.2 = j.2) {is : List Inst} (hi : ∀ i ∈ is, i ∈ L)
    (ho : Origins ds is) : ∀ {st st' : State}, generateL E ds is st = some st' →
    (Clones E L ct st.calleeTypes → Clones E L ct st'.calleeTypes) ∧
    (Clones E L ct st.nodeTypes → Clones E L ct st'.nodeTypes) := by
  induction is with
  | nil =>
    intro st st' h
    simp only [generateL, Option.some.injEq] at h
    subst h
    exact ⟨fun h => h, fun h => h⟩
  | cons i is ih =>
    intro st st' h
    simp only [generateL] at h
    split at h
    · simp at h
    · rename_i new hn
      split at h
      · obtain ⟨h1, h2⟩ := ih (fun j hj => hi j (.tail _ hj)) (fun j hj => ho j (.tail _ hj)) h
        have ho' : ∀ id ∈ new.origins, id.variant = none := by
          cases generate_origins hn with
          | inl e => rw [e]; intro id hid; simp at hid
          | inr e =>
            obtain ⟨f, hf, e⟩ := e
            rw [e]
            have := ho i (.head _) f hf
            intro id hid
            cases List.mem_cons.mp hid with
            | inl e => subst e; exact this.1
            | inr e => exact this.2 id e
        exact ⟨fun hc => h1 (clones_step hL (hi i (.head _)) ho' hc),
          fun hc => h2 (clones_step hL (hi i (.head _)) ho' hc)⟩
      · simp at h

theorem generateL_types {E : Env} {ds : List Decl} {is : List Inst} (hf : ∀ i ∈ is, Found E.ss i) :
    ∀ {st st' : State}, generateL E ds is st = some st' → ∀ i ∈ is, ∀ f, (funsL [] ds).lookup i.1 = some f →
      ∀ t ∈ typesE f.body, ∃ t', Scheme.substB i.2 t = .ok t' := by
  induction is with
  | nil => intro st st' h i hi; simp at hi
  | cons j is ih =>
    intro st st' h i hi f hl t ht
    simp only [generateL] at h
    split at h
    · simp at h
    · rename_i new hn
      split at h
      · cases List.mem_cons.mp hi with
        | inr hi => exact ih (fun k hk => hf k (.tail _ hk)) h i hi f hl t ht
        | inl e =>
          subst e
          obtain ⟨s, _, hs, _⟩ := hf i (.head _)
          simp only [generate, hs, hl] at hn
          split at hn
          · split at hn
            · rename_i hall
              have := List.all_eq_true.mp hall t ht
              cases hsb : Scheme.substB i.2 t with
              | error e => rw [hsb] at this; simp [Except.toBool] at this
              | ok t' => exact ⟨t', rfl⟩
            · simp at hn
          · simp at hn
      · simp at h

theorem round_generate {E : Env} {st st' : State} {new : List Inst} (h : round E st new = some st') :
    ∃ st1, generateL E st.decls new st = some st1 ∧ st'.calleeTypes = st1.calleeTypes ∧
      st'.nodeTypes = st1.nodeTypes := by
  simp only [round] at h
  split at h
  · simp at h
  · rename_i s1 h1
    simp only [Option.some.injEq] at h
    subst h
    exact ⟨s1, h1, rfl, rfl⟩

theorem substT_ok {ts : List Ty} {t t' : Ty} (h : Scheme.substB ts t = .ok t') : substT ts t = t' := by
  simp [substT, h]

/-! ## References -/

theorem redirectR_cases (nm : Names) (ss : Schemes) (K : List Inst) (r : TRef) :
    redirectR nm ss K r = r ∨ ∃ f s ts n, r.res = .func f ∧ ss.lookup f = some s ∧ extract s r.ty = some ts ∧
      (f, ts) ∈ K ∧ mangle nm f ts = some n ∧ redirectR nm ss K r = ⟨.func n, r.ty⟩ := by
  cases hr : r.res with
  | func f =>
    cases hs : ss.lookup f with
    | none => exact .inl (by simp [redirectR, hr, hs])
    | some s =>
      cases ht : extract s r.ty with
      | none => exact .inl (by simp [redirectR, hr, hs, ht])
      | some ts =>
        by_cases hm : (f, ts) ∈ K
        · cases hn : mangle nm f ts with
          | none => exact .inl (by simp [redirectR, hr, hs, ht, hm, hn])
          | some n =>
            exact .inr ⟨f, s, ts, n, rfl, hs, ht, hm, hn, by simp [redirectR, hr, hs, ht, hm, hn]⟩
        · exact .inl (by simp [redirectR, hr, hs, ht, hm])
  | _ => exact .inl (by simp [redirectR, hr])

section
variable {E : Env} {src : List Decl} {ct : Table}
  (hs : ∀ n s, E.ss.lookup n = some s → '$' ∉ n)
  (hw : ∀ n s, E.ss.lookup n = some s → WF s.body ∧ Plain s.body)
include hs

theorem redirect_idem {K : List Inst} (hK : ∀ i ∈ K, Found E.ss i) (r : TRef) :
    redirectR E.nm E.ss K (redirectR E.nm E.ss K r) = redirectR E.nm E.ss K r := by
  cases redirectR_cases E.nm E.ss K r with
  | inl h => rw [h, h]
  | inr h =>
    obtain ⟨f, s, ts, n, hr, hl, ht, hm, hn, he⟩ := h
    rw [he]
    cases hl' : E.ss.lookup n with
    | none => simp [redirectR, hl']
    | some s' => exact absurd (mangle_dollar hn (found_args (hK _ hm))) (hs n s' hl')

include hw

theorem redirected_step {K K' : List Inst} (hK : ∀ i ∈ K', Found E.ss i) (hsub : ∀ i ∈ K, i ∈ K') {ty ty' : Ty}
    {r0 : Res} {r : Res} (hty : ∀ f ts s, (f, ts) ∈ K → E.ss.lookup f = some s → InstOf ts s.body ty → InstOf ts s.body ty')
    (h : Redirected E K ty r0 r) : Redirected E K' ty' r0 (redirectR E.nm E.ss K' ⟨r, ty'⟩).res := by
  have hr : Redirected E K' ty' r0 r := by
    cases h with
    | inl h => exact .inl h
    | inr h =>
      obtain ⟨f, ts, s, n, h1, h2, h3, h4, h5, h6, h7⟩ := h
      exact .inr ⟨f, ts, s, n, h1, h2, hsub _ h3, h4, h5, hty f ts s h3 h4 h6, h7⟩
  cases redirectR_cases E.nm E.ss K' ⟨r, ty'⟩ with
  | inl e => rw [e]; exact hr
  | inr e =>
    obtain ⟨f, s, ts, n, hr', hl, ht, hm, hn, he⟩ := e
    simp only at hr' ht
    rw [he]
    cases hr with
    | inl e =>
      rw [← e, hr']
      exact .inr ⟨f, ts, s, n, rfl, rfl, hm, hl, (extract_length ht).1, extract_sound2 (hw _ _ hl).1 (hw _ _ hl).2 ht, hn⟩
    | inr e =>
      obtain ⟨f', ts', s', n', h1, h2, h3, h4, h5, h6, h7⟩ := e
      rw [h2] at hr'
      simp only [Res.func.injEq] at hr'
      subst hr'
      exact absurd (mangle_dollar h7 (found_args (hK _ h3))) (hs _ _ hl)

end

/-- `SameFun` with the nodes. -/
def Same (E : Env) (K : List Inst) (f g : Fun) : Prop := SameFun E K f g ∧ idsE g.body = idsE f.body

/-- The invariant of the rounds; all known instances are in `L`. -/
structure Inv2 (E : Env) (src : List Decl) (ct : Table) (L : Set Inst) (st : State) : Prop where
  known : ∀ i ∈ st.known, Found E.ss i ∧ ∀ t ∈ i.2, Formed t ∧ concrete t = true
  look : ∀ n, '$' ∉ n → ((funsL [] src).lookup n = none ∧ (funsL [] st.decls).lookup n = none) ∨
    ∃ f g, (funsL [] src).lookup n = some f ∧ (funsL [] st.decls).lookup n = some g ∧ Same E st.known f g
  plain : ∀ n g, (n, g) ∈ funsL [] st.decls → '$' ∉ n → ∃ f, (n, f) ∈ funsL [] src ∧ Same E st.known f g
  copy : ∀ n g, (n, g) ∈ funsL [] st.decls → '$' ∈ n → ∃ i ∈ st.known, mangle E.nm i.1 i.2 = some n ∧
    ∃ f, (funsL [] src).lookup i.1 = some f ∧ CopyAt E st.known i.2 f g
  normal : ∀ n g, (n, g) ∈ funsL [] st.decls → ∀ u ∈ usesE g.body, redirectR E.nm E.ss st.known u.2 = u.2
  table : Clones E L ct st.calleeTypes

theorem forall₂_left {α β : Type} {R : α → β → Prop} {l : List α} {l' : List β} (h : List.Forall₂ R l l')
    {x : α} (hx : x ∈ l) : ∃ y ∈ l', R x y := by
  induction h with
  | nil => simp at hx
  | cons hr _ ih =>
    cases List.mem_cons.mp hx with
    | inl h => subst h; exact ⟨_, .head _, hr⟩
    | inr h => obtain ⟨y, hy, hr⟩ := ih h; exact ⟨y, .tail _ hy, hr⟩

theorem forall₂_mono {α β : Type} {R S : α → β → Prop} {l : List α} {l' : List β} (h : List.Forall₂ R l l')
    (hm : ∀ x ∈ l, ∀ y ∈ l', R x y → S x y) : List.Forall₂ S l l' := by
  induction h with
  | nil => exact .nil
  | cons hr _ ih =>
    exact .cons (hm _ (.head _) _ (.head _) hr) (ih (fun x hx y hy => hm x (.tail _ hx) y (.tail _ hy)))

/-- What is known of a reference in a program of the rounds. -/
theorem use_facts {E : Env} {src : List Decl} {ct : Table} {L : Set Inst} {st : State}
    (hc : Checked E src ct) (hsub : ∀ i ∈ st.known, i ∈ L) (hi : Inv2 E src ct L st) {n : Name} {g : Fun}
    (hg : (n, g) ∈ funsL [] st.decls) {u : NodeId × TRef} (hu : u ∈ usesE g.body) :
    Formed u.2.ty ∧ ∀ t, st.calleeTypes.lookup u.1 = some t → t = u.2.ty := by
  by_cases hd : '$' ∈ n
  · obtain ⟨i, hik, hin, f, hf, hcopy⟩ := hi.copy n g hg hd
    obtain ⟨u0, hu0, h1, h2, _⟩ := forall₂_right hcopy.uses hu
    have hm := lookup_mem hf
    refine ⟨formed_subst (fun t ht => ((hi.known i hik).2 t ht).1) _ _ (hc.types _ _ hm u0 hu0) h2, fun t ht => ?_⟩
    rw [h1] at ht
    obtain ⟨t0, ht0, he⟩ := hi.table.new _ t ht i (hsub i hik) rfl
    have hv := (checked_nodes hc hm).2 u0.1 (uses_idsE _ u0 hu0)
    simp only at ht0
    rw [← nodeId_eta hv] at ht0
    rw [hc.callee _ _ hm u0 hu0 t0 ht0] at he
    rw [he, substT_ok h2]
  · obtain ⟨f, hf, hsame, _⟩ := hi.plain n g hg hd
    obtain ⟨u0, hu0, h1, h2, _⟩ := forall₂_right hsame.uses hu
    refine ⟨by rw [h2]; exact hc.types _ _ hf u0 hu0, fun t ht => ?_⟩
    rw [h1, hi.table.old u0.1 ((checked_nodes hc hf).2 u0.1 (uses_idsE _ u0 hu0))] at ht
    rw [h2]
    exact hc.callee _ _ hf u0 hu0 t ht

theorem fresh_known {E : Env} {src : List Decl} {ct : Table} {L : Set Inst} {st : State}
    (hc : Checked E src ct) (hsub : ∀ i ∈ st.known, i ∈ L) (hi : Inv2 E src ct L st) :
    ∀ i ∈ fresh st.known (visitDs E.ss st.calleeTypes st.decls),
      Found E.ss i ∧ ∀ t ∈ i.2, Formed t ∧ concrete t = true := by
  intro i hm
  obtain ⟨⟨n, g⟩, hp, u, hu, h⟩ := (visitDs_iff st.decls []).mp (fresh_mem hm).1
  refine ⟨tryRecord_found h, ?_⟩
  obtain ⟨hf, ht⟩ := use_facts hc hsub hi hp hu
  have hty : (st.calleeTypes.lookup u.1).getD u.2.ty = u.2.ty := by
    cases hl : st.calleeTypes.lookup u.1 with
    | none => rfl
    | some t => simp [ht t hl]
  unfold tryRecord at h
  split at h
  · split at h
    · simp at h
    · rename_i s hs
      rw [hty] at h
      split at h
      · simp at h
      · rename_i ts hts
        simp only [List.mem_singleton] at h
        subst h
        unfold record at hts
        split at hts
        · simp at hts
        · rename_i as has
          split at hts
          · rename_i hcon
            simp only [Option.some.injEq] at hts
            subst hts
            exact fun t ht => ⟨extract_formed hf has t ht, List.all_eq_true.mp hcon t ht⟩
          · simp at hts
  · simp at h

theorem same_step {E : Env} {K K' : List Inst} (hs : ∀ n s, E.ss.lookup n = some s → '$' ∉ n)
    (hw : ∀ n s, E.ss.lookup n = some s → WF s.body ∧ Plain s.body) (hK : ∀ i ∈ K', Found E.ss i)
    (hsub : ∀ i ∈ K, i ∈ K') {f g : Fun} (h : Same E K f g) : Same E K' f (g.rew E.nm E.ss K') := by
  obtain ⟨h, hn⟩ := h
  refine ⟨⟨h.id, h.params, ?_, ?_⟩, ?_⟩
  · simp only [Fun.rew, uses_rewE]
    rw [List.forall₂_map_right_iff]
    refine forall₂_mono h.uses (fun u _ u' _ hr => ?_)
    obtain ⟨h1, h2, h3⟩ := hr
    refine ⟨h1, ?_, ?_⟩
    · simp only [redirect_ty]; exact h2
    · simp only [redirect_ty]
      exact redirected_step hs hw hK hsub (fun _ _ _ _ _ h => h) h3
  · simp only [Fun.rew, tags_rewE]; exact h.tags
  · simp only [Fun.rew, ids_rewE]; exact hn

theorem copy_step {E : Env} {K K' : List Inst} (hs : ∀ n s, E.ss.lookup n = some s → '$' ∉ n)
    (hw : ∀ n s, E.ss.lookup n = some s → WF s.body ∧ Plain s.body) (hK : ∀ i ∈ K', Found E.ss i)
    (hsub : ∀ i ∈ K, i ∈ K') {ts : List Ty} {f g : Fun} (h : CopyAt E K ts f g) :
    CopyAt E K' ts f (g.rew E.nm E.ss K') := by
  refine ⟨h.id, h.params, ?_, ?_⟩
  · simp only [Fun.rew, uses_rewE]
    rw [List.forall₂_map_right_iff]
    refine forall₂_mono h.uses (fun u _ u' _ hr => ?_)
    obtain ⟨h1, h2, h3⟩ := hr
    refine ⟨h1, ?_, ?_⟩
    · simp only [redirect_ty]; exact h2
    · simp only [redirect_ty]
      exact redirected_step hs hw hK hsub (fun _ _ _ _ _ h => h) h3
  · simp only [Fun.rew, tags_rewE]; exact h.tags

theorem copy_new {E : Env} {K K' : List Inst} (hs : ∀ n s, E.ss.lookup n = some s → '$' ∉ n)
    (hw : ∀ n s, E.ss.lookup n = some s → WF s.body ∧ Plain s.body)
    (hK : ∀ i ∈ K', Found E.ss i ∧ ∀ t ∈ i.2, Formed t ∧ concrete t = true)
    (hsub : ∀ i ∈ K, i ∈ K') {ts : List Ty} {f f' : Fun} (h : Same E K f f')
    (hty : ∀ t ∈ typesE f'.body, ∃ t', Scheme.substB ts t = .ok t') :
    CopyAt E K' ts f ((copyFun E f' ts).rew E.nm E.ss K') := by
  obtain ⟨h, hn⟩ := h
  refine ⟨?_, h.params, ?_, ?_⟩
  · simp [Fun.rew, copyFun, NodeId.withVariant, h.id]
  · simp only [Fun.rew, copyFun, uses_rewE, uses_substE, List.map_map]
    rw [List.forall₂_map_right_iff]
    refine forall₂_mono h.uses (fun u _ u' hu' hr => ?_)
    obtain ⟨h1, h2, h3⟩ := hr
    obtain ⟨t', ht'⟩ := hty u'.2.ty ((mem_typesE _ _).mpr (.inl ⟨u', hu', rfl⟩))
    refine ⟨?_, ?_, ?_⟩
    · simp [NodeId.withVariant, h1]
    · simp only [Function.comp, redirect_ty, substR, substT_ok ht', ← h2]
      exact ht'
    · simp only [Function.comp, redirect_ty, substR, substT_ok ht']
      refine redirected_step hs hw (fun i hi => (hK i hi).1) hsub (fun f ts' s hm hl hin => ?_) h3
      exact instOf_subst (fun t ht => by
        have := (hK _ (hsub _ hm)).2 t ht
        exact concrete_noBound t this.1 this.2) _ (hw _ _ hl).1 (hw _ _ hl).2 _ _ hin ht'
  · simp only [Fun.rew, copyFun, tags_rewE, tags_substE, h.tags]
    rw [List.forall₂_map_right_iff]
    refine List.forall₂_same.mpr (fun r hr => ?_)
    obtain ⟨t', ht'⟩ := hty r.ty ((mem_typesE _ _).mpr (.inr ⟨r, by rw [h.tags]; exact hr, rfl⟩))
    exact ⟨rfl, by simp only [substR, substT_ok ht']; exact ht'⟩

theorem round_inv2 {E : Env} {src : List Decl} {ct : Table} {L : Set Inst} {st st' : State}
    (hsrc : Source E src) (hc : Checked E src ct) (hL : ∀ i ∈ L, ∀ j ∈ L, E.hash i.2 = E.hash j.2 → i.2 = j.2)
    (hsub' : ∀ i ∈ st'.known, i ∈ L) (hi : Inv2 E src ct L st)
    (h : round E st (fresh st.known (visitDs E.ss st.calleeTypes st.decls)) = some st') : Inv2 E src ct L st' := by
  generalize hnew : fresh st.known (visitDs E.ss st.calleeTypes st.decls) = new at h
  have hfound : ∀ i ∈ new, Found E.ss i := by rw [← hnew]; exact fresh_found
  obtain ⟨h1, h2, h3⟩ := round_functions hfound h
  obtain ⟨st1, hgen, hct, _⟩ := round_generate h
  have hs := hsrc.schemes
  have hw : ∀ n s, E.ss.lookup n = some s → WF s.body ∧ Plain s.body := fun n s hl =>
    ⟨(hc.schemes n s hl).1, (hc.schemes n s hl).2.1⟩
  have hsubst : ∀ i ∈ st.known, i ∈ st'.known := fun i hm => by rw [h2]; exact List.mem_append_left _ hm
  have hsub : ∀ i ∈ st.known, i ∈ L := fun i hm => hsub' i (hsubst i hm)
  have hknew := fresh_known hc hsub hi
  rw [hnew] at hknew
  have hK : ∀ i ∈ st'.known, Found E.ss i ∧ ∀ t ∈ i.2, Formed t ∧ concrete t = true := fun i hm => by
    rw [h2] at hm
    cases List.mem_append.mp hm with
    | inl hm => exact hi.known i hm
    | inr hm => exact hknew i hm
  have hKf : ∀ i ∈ st'.known, Found E.ss i := fun i hm => (hK i hm).1
  have hplain : ∀ i ∈ new, '$' ∉ i.1 := fun i hm => by
    obtain ⟨s, _, hl, _⟩ := hfound i hm
    exact hs _ _ hl
  rw [← h2] at h1
  have hmem : ∀ n g, (n, g) ∈ funsL [] st'.decls → ∃ g', g = g'.rew E.nm E.ss st'.known ∧
      ((n, g') ∈ funsL [] st.decls ∨ (n, g') ∈ made E st.decls new) := by
    intro n g hg
    rw [h1] at hg
    obtain ⟨⟨n', g'⟩, hm, he⟩ := List.mem_map.mp hg
    simp only [Prod.mk.injEq] at he
    obtain ⟨rfl, rfl⟩ := he
    exact ⟨g', rfl, List.mem_append.mp hm⟩
  refine ⟨hK, fun n hn => ?_, fun n g hg hn => ?_, fun n g hg hn => ?_, fun n g hg u hu => ?_, ?_⟩
  · have hl : (funsL [] st'.decls).lookup n = ((funsL [] st.decls).lookup n).map (·.rew E.nm E.ss st'.known) := by
      rw [h1, lookup_map, lookup_append]
      cases h4 : (funsL [] st.decls).lookup n with
      | some g => rfl
      | none =>
        cases h5 : (made E st.decls new).lookup n with
        | none => rfl
        | some g =>
          obtain ⟨i, hi', f, _, hm, _⟩ := made_mem.mp (lookup_mem h5)
          exact absurd (mangle_dollar hm (found_args (hfound i hi'))) hn
    cases hi.look n hn with
    | inl h => exact .inl ⟨h.1, by rw [hl, h.2]; rfl⟩
    | inr h =>
      obtain ⟨f, g, hf, hg, hsame⟩ := h
      exact .inr ⟨f, _, hf, by rw [hl, hg]; rfl, same_step hs hw hKf hsubst hsame⟩
  · obtain ⟨g', rfl, hm⟩ := hmem n g hg
    cases hm with
    | inl hm =>
      obtain ⟨f, hf, hsame⟩ := hi.plain n g' hm hn
      exact ⟨f, hf, same_step hs hw hKf hsubst hsame⟩
    | inr hm =>
      obtain ⟨i, hi', f, _, hm, _⟩ := made_mem.mp hm
      exact absurd (mangle_dollar hm (found_args (hfound i hi'))) hn
  · obtain ⟨g', rfl, hm⟩ := hmem n g hg
    cases hm with
    | inl hm =>
      obtain ⟨i, hik, hin, f, hf, hcopy⟩ := hi.copy n g' hm hn
      exact ⟨i, hsubst i hik, hin, f, hf, copy_step hs hw hKf hsubst hcopy⟩
    | inr hm =>
      obtain ⟨i, hi', f', hf', hin, rfl⟩ := made_mem.mp hm
      have hik : i ∈ st'.known := by rw [h2]; exact List.mem_append_right _ hi'
      cases hi.look i.1 (hplain i hi') with
      | inl h => rw [hf'] at h; simp at h
      | inr h =>
        obtain ⟨f, g, hf, hg', hsame⟩ := h
        rw [hf'] at hg'
        simp only [Option.some.injEq] at hg'
        subst hg'
        exact ⟨i, hik, hin, f, hf, copy_new hs hw hK hsubst hsame (generateL_types hfound hgen i hi' f' hf')⟩
  · obtain ⟨g', rfl, hm⟩ := hmem n g hg
    simp only [Fun.rew, uses_rewE, List.mem_map] at hu
    obtain ⟨u', _, rfl⟩ := hu
    exact redirect_idem hs hKf u'.2
  · rw [hct]
    refine (generateL_clones hL (fun i hm => hsub' i (by rw [h2]; exact List.mem_append_right _ hm)) ?_ hgen).1 hi.table
    intro i hm f hf
    cases hi.look i.1 (hplain i hm) with
    | inl h => rw [hf] at h; simp at h
    | inr h =>
      obtain ⟨f0, g, hf0, hg', hsame, hids⟩ := h
      rw [hf] at hg'
      simp only [Option.some.injEq] at hg'
      subst hg'
      have := checked_nodes hc (lookup_mem hf0)
      rw [hsame.id, hids]
      exact this

theorem redirect_nil (nm : Names) (ss : Schemes) (r : TRef) : redirectR nm ss [] r = r := by
  cases redirectR_cases nm ss [] r with
  | inl h => exact h
  | inr h => obtain ⟨f, s, ts, n, _, _, _, hm, _⟩ := h; simp at hm

end Verif.Instances
