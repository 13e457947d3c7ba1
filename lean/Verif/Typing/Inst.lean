import Verif.Typing.Ev
import Verif.Scheme.Fresh

/-!
# Instantiation, generalisation, merging of effects: lemmas
-/

namespace Verif.Typing
open Verif.Types Verif.Solver Verif.Scheme

/-! ## Fresh row variables -/

theorem freshen_node (q : List Nat) (h : Head) (ks : List Ty) (es : List Eff) (r : Option Nat) (s : FS) :
    freshen q (.node h ks es r) s =
      (.node h (freshenL q ks s).1 (freshenE q es (freshenL q ks s).2).1
        (freshenTail q r (freshenE q es (freshenL q ks s).2).2).1,
       (freshenTail q r (freshenE q es (freshenL q ks s).2).2).2) := by
  rw [freshen]

theorem freshenL_map {α : Type} (q : List Nat) (f : Ty → α) (ts : List Ty)
    (h : ∀ t ∈ ts, ∀ s, f (freshen q t s).1 = f t) (s : FS) :
    (freshenL q ts s).1.map f = ts.map f := by
  induction ts generalizing s with
  | nil => rfl
  | cons t ts ih =>
    simp only [freshenL, List.map_cons]
    rw [h t (.head _), ih (fun t ht => h t (.tail _ ht))]

theorem freshenE_simple (q : List Nat) (es : List Eff) (h : ∀ e ∈ es, e.args = []) (s : FS) :
    (freshenE q es s).1 = es := by
  induction es generalizing s with
  | nil => rfl
  | cons e es ih =>
    obtain ⟨a, as⟩ := e
    have : as = [] := h _ (.head _)
    subst this
    simp only [freshenE, freshenEff, freshenL]
    rw [ih (fun e he => h e (.tail _ he))]

theorem freshen_ev {δ : UVar → S} {β : List S} {q : List Nat} (t : Ty) (s : FS) :
    ev δ β (freshen q t s).1 = ev δ β t := by
  induction t using Ty.ind generalizing s with
  | hu v => rw [freshen]
  | hn h ks es r ihk ihe =>
    rw [freshen_node]
    by_cases hb : isBound h = true
    · cases h <;> simp_all [isBound, ev]
    · have hb : isBound h = false := by simpa using hb
      rw [ev_node hb, ev_node hb, freshenL_map q (ev δ β) ks (fun t ht s => ihk t ht s)]

theorem freshenL_all {P : Ty → Prop} (q : List Nat) (ts : List Ty)
    (h : ∀ t ∈ ts, ∀ s, P (freshen q t s).1) (s : FS) : ∀ t ∈ (freshenL q ts s).1, P t := by
  induction ts generalizing s with
  | nil => intro t ht; cases ht
  | cons t ts ih =>
    simp only [freshenL]
    intro u hu
    rcases List.mem_cons.1 hu with rfl | hu
    · exact h t (.head _) s
    · exact ih (fun t ht => h t (.tail _ ht)) _ u hu

theorem freshen_ok {m : Nat} {q : List Nat} (t : Ty) (h : Ok m t) (s : FS) : Ok m (freshen q t s).1 := by
  induction t using Ty.ind generalizing s with
  | hu v => rw [freshen]; exact h
  | hn hd ks es r ihk ihe =>
    rw [freshen_node]
    rw [ok_node] at h ⊢
    refine ⟨h.1, freshenL_all q ks (fun t ht s => ihk t ht (h.2.1 t ht) s) s, ?_⟩
    rw [freshenE_simple q es h.2.2.1]
    exact h.2.2

/-! ## Substitution of quantified variables -/

theorem substBL_some {ts : List Ty} {l l' : List Ty} (h : substBL ts l = .ok l') :
    List.Forall₂ (fun a b => substB ts a = .ok b) l l' := by
  induction l generalizing l' with
  | nil => simp [substBL] at h; subst h; exact .nil
  | cons a l ih =>
    rw [substBL] at h
    cases ha : substB ts a with
    | error e => simp [ha] at h
    | ok b =>
      cases hl : substBL ts l with
      | error e => simp [ha, hl] at h
      | ok l'' => simp [ha, hl] at h; subst h; exact .cons ha (ih hl)

theorem substE_simple {ts : List Ty} {es es' : List Eff} (hs : ∀ e ∈ es, e.args = [])
    (h : substE ts es = .ok es') : es' = es := by
  induction es generalizing es' with
  | nil => simp [substE] at h; exact h
  | cons e es ih =>
    obtain ⟨a, as⟩ := e
    have : as = [] := hs _ (.head _)
    subst this
    simp only [substE, substEff, substBL] at h
    cases hl : substE ts es with
    | error e => simp [hl] at h
    | ok l'' =>
      simp [hl] at h
      rw [← h, ih (fun e he => hs e (.tail _ he)) hl]

theorem substB_node_some {ts : List Ty} {h : Head} {ks : List Ty} {es : List Eff} {r : Option Nat}
    {t' : Ty} (hb : isBound h = false) (hs : substB ts (.node h ks es r) = .ok t') :
    ∃ ks' es', t' = .node h ks' es' r ∧ substBL ts ks = .ok ks' ∧ substE ts es = .ok es' := by
  rw [substB] at hs
  · cases hk : substBL ts ks with
    | error e => simp [hk] at hs
    | ok ks' =>
      cases he : substE ts es with
      | error e => simp [hk, he] at hs
      | ok es' => simp [hk, he] at hs; exact ⟨ks', es', hs.symm, rfl, rfl⟩
  · rintro i rfl; simp [isBound] at hb

theorem substB_ev {δ : UVar → S} {β : List S} {ts : List Ty} (t : Ty) {t' : Ty}
    (h : substB ts t = .ok t') : ev δ β t' = ev δ (ts.map (ev δ β)) t := by
  induction t using Ty.ind generalizing t' with
  | hu v => rw [substB] at h; cases h; simp [ev]
  | hn hd ks es r ihk ihe =>
    by_cases hb : isBound hd = true
    · cases hd <;> simp_all [isBound]
      rename_i i
      rw [substB] at h
      cases hi : ts[i]? with
      | none => simp [hi] at h
      | some u =>
        simp [hi] at h
        subst h
        simp [ev, hi]
    · have hb : isBound hd = false := by simpa using hb
      obtain ⟨ks', es', rfl, hk, _⟩ := substB_node_some hb h
      rw [ev_node hb, ev_node hb]
      congr 1
      have h2 := substBL_some hk
      clear hk h
      induction h2 with
      | nil => rfl
      | cons h1 _ ihl =>
        simp only [List.map_cons]
        rw [ihk _ (.head _) h1, ihl (fun k hk => ihk k (.tail _ hk))]

theorem substB_ok {ts : List Ty} (hts : ∀ t ∈ ts, Ok 0 t) (t : Ty) {t' : Ty} {m : Nat} (ht : Ok m t)
    (h : substB ts t = .ok t') : Ok 0 t' := by
  induction t using Ty.ind generalizing t' with
  | hu v => rw [substB] at h; cases h; simp [Ok]
  | hn hd ks es r ihk ihe =>
    rw [ok_node] at ht
    by_cases hb : isBound hd = true
    · cases hd <;> simp_all [isBound]
      rename_i i
      rw [substB] at h
      cases hi : ts[i]? with
      | none => simp [hi] at h
      | some u =>
        simp [hi] at h
        subst h
        exact hts u (List.mem_of_getElem? hi)
    · have hb : isBound hd = false := by simpa using hb
      obtain ⟨ks', es', rfl, hk, he⟩ := substB_node_some hb h
      rw [ok_node]
      refine ⟨?_, ?_, ?_⟩
      · have := ht.1
        cases hd <;> simp_all [isBound, OkHead]
      · intro k hk'
        obtain ⟨k0, h0, h1⟩ := Forall₂_right (substBL_some hk) k hk'
        exact ihk k0 h0 (ht.2.1 k0 h0) h1
      · rw [substE_simple ht.2.2.1 he]; exact ht.2.2

/-! ## Instances -/

/-- A scheme of the fragment. -/
def OkS (s : PolyTy) : Prop := Ok s.params s.body

theorem ctx_freshTys {k : Nat} {c : Ctx} : (Ctx.freshTys k c).1.length = k ∧
    (Ctx.freshTys k c).2.cons = c.cons ∧ (Ctx.freshTys k c).2.schemes = c.schemes := by
  rw [ctx_freshTys_eq]; simp

theorem map_uni_ok (vs : List UVar) : ∀ t ∈ vs.map Ty.uni, Ok 0 t := by
  intro t ht
  obtain ⟨v, _, rfl⟩ := List.mem_map.1 ht
  simp [Ok]

theorem ctx_inst {s : PolyTy} {c c' : Ctx} {i : Scheme.Inst} (hs : OkS s)
    (h : c.instantiate s = some (i, c')) :
    Ok 0 i.ty ∧ (∀ δ, InstOf δ s (ev δ [] i.ty)) ∧ c'.cons = c.cons ∧ c'.schemes = c.schemes := by
  rw [Ctx.instantiate] at h
  obtain ⟨fl, fc, fs⟩ := ctx_freshTys (k := s.params) (c := c)
  generalize Ctx.freshTys s.params c = f at *
  by_cases h0 : s.params = 0
  · simp [h0] at h
    obtain ⟨rfl, rfl⟩ := h
    have hs : Ok 0 s.body := by have := hs; rw [OkS, h0] at this; exact this
    refine ⟨freshen_ok _ hs _, fun δ => ⟨[], by simp [h0], ?_⟩, fc, fs⟩
    exact freshen_ev _ _
  · simp only [if_neg h0] at h
    cases hb : substB (f.1.map .uni) s.body with
    | error e => simp [hb] at h
    | ok t =>
      simp [hb] at h
      obtain ⟨rfl, rfl⟩ := h
      refine ⟨freshen_ok _ (substB_ok (map_uni_ok _) _ hs hb) _,
        fun δ => ⟨(f.1.map Ty.uni).map (ev δ []), by simp [fl], ?_⟩, fc, fs⟩
      simp only
      rw [freshen_ev, substB_ev _ hb]

theorem solver_freshTys {k : Nat} {st : St} : (Scheme.freshTys k st).1.length = k ∧
    (Scheme.freshTys k st).2.σ = st.σ ∧ (Scheme.freshTys k st).2.ρ = st.ρ ∧
    st.next ≤ (Scheme.freshTys k st).2.next := by
  rw [freshTys_eq]; simp

theorem freshenTail_le (q : List Nat) (r : Option Nat) (s : FS) : s.next ≤ (freshenTail q r s).2.next := by
  cases r with
  | none => simp [freshenTail]
  | some v =>
    simp only [freshenTail]
    split
    · split <;> simp
    · simp

theorem freshen_le (q : List Nat) (t : Ty) (s : FS) : s.next ≤ (freshen q t s).2.next := by
  induction t using Ty.ind generalizing s with
  | hu v => rw [freshen]; exact Nat.le_refl _
  | hn hd ks es r ihk ihe =>
    have hL : ∀ (ts : List Ty), (∀ t ∈ ts, ∀ s : FS, s.next ≤ (freshen q t s).2.next) → ∀ s : FS,
        s.next ≤ (freshenL q ts s).2.next := by
      intro ts
      induction ts with
      | nil => intro _ s; exact Nat.le_refl _
      | cons t ts ih =>
        intro h s
        simp only [freshenL]
        exact Nat.le_trans (h t (.head _) s) (ih (fun t ht => h t (.tail _ ht)) _)
    have hE : ∀ (es : List Eff), (∀ e ∈ es, ∀ a ∈ e.args, ∀ s : FS, s.next ≤ (freshen q a s).2.next) →
        ∀ s : FS, s.next ≤ (freshenE q es s).2.next := by
      intro es
      induction es with
      | nil => intro _ s; exact Nat.le_refl _
      | cons e es ih =>
        intro h s
        obtain ⟨a, as⟩ := e
        simp only [freshenE, freshenEff]
        exact Nat.le_trans (hL as (h _ (.head _)) s) (ih (fun e he => h e (.tail _ he)) _)
    rw [freshen_node]
    exact Nat.le_trans (hL ks ihk s) (Nat.le_trans (hE es ihe _) (freshenTail_le _ _ _))

theorem solver_inst {s : PolyTy} {st st' : St} {i : Scheme.Inst} (hs : OkS s) (hst : SInv st)
    (h : Scheme.instantiate s st = some (i, st')) :
    Ok 0 i.ty ∧ (∀ δ, InstOf δ s (ev δ [] i.ty)) ∧ SInv st' ∧ st'.σ = st.σ := by
  rw [Scheme.instantiate] at h
  have hr := (reserve_le st.next (Ty.rowVars s.body)).1
  generalize hN : reserve st.next (Ty.rowVars s.body) = N at *
  obtain ⟨fl, fc, fs, fn⟩ := solver_freshTys (k := s.params) (st := { st with next := N })
  generalize Scheme.freshTys s.params { st with next := N } = f at *
  cases hb : substB (f.1.map .uni) s.body with
  | error e => simp [hb] at h
  | ok t =>
    simp [hb] at h
    obtain ⟨rfl, rfl⟩ := h
    refine ⟨freshen_ok _ (substB_ok (map_uni_ok _) _ hs hb) _,
      fun δ => ⟨(f.1.map Ty.uni).map (ev δ []), by simp [fl], ?_⟩, ?_, fc⟩
    · simp only
      rw [freshen_ev, substB_ev _ hb]
    · have hle := freshen_le s.rows t ⟨f.2.next, []⟩
      have := hst.mono (N := (freshen s.rows t ⟨f.2.next, []⟩).2.next) (by simp at hle fn ⊢; omega)
      rw [fc, fs]
      exact this

/-! ## Generalisation -/

/-- `δ` with the variables `vs` standing for `β`. -/
def override (δ : UVar → S) (vs : List UVar) (β : List S) : UVar → S :=
  fun v => match vs.zipIdx.lookup v with
    | some i => (β[i]?).getD default
    | none => δ v

theorem bodyOf_ev {δ : UVar → S} {β : List S} {vs : List UVar} {t : Ty} (h : Ok 0 t) :
    ev δ β (bodyOf vs t) = ev (override δ vs β) [] t := by
  rw [bodyOf, ev_onTy, ev_ok h (β' := [])]
  refine ev_congr t (fun v _ => ?_)
  simp only [withTys, bindOf, List.lookup_nil, override]
  cases vs.zipIdx.lookup v <;> simp [tBound, ev]

theorem override_other {δ : UVar → S} {β : List S} {vs : List UVar} {v : UVar} (h : v ∉ vs) :
    override δ vs β v = δ v := by
  rw [override, lookup_zipIdx_none h]

theorem onTy_ok {m : Nat} {f : UVar → Ty} (t : Ty) (hf : ∀ v, Occurs v t → Ok m (f v)) (h : Ok 0 t) :
    Ok m ((withTys f).onTy t) := by
  induction t using Ty.ind with
  | hu v => simp only [Sub.onTy, withTys]; exact hf v (by simp [Occurs])
  | hn hd ks es r ihk ihe =>
    rw [ok_node] at h
    rw [onTy_withTys_node, ok_node]
    refine ⟨h.1.mono (Nat.zero_le _), ?_, ?_⟩
    · intro k hk
      obtain ⟨k0, h0, rfl⟩ := List.mem_map.1 hk
      exact ihk k0 h0 (fun v hv => hf v (occurs_node.2 (.inl ⟨k0, h0, hv⟩))) (h.2.1 k0 h0)
    · refine ⟨fun e he => ?_, ?_⟩
      · obtain ⟨e0, h0, rfl⟩ := List.mem_map.1 he
        rw [onEff_args, h.2.2.1 e0 h0]; rfl
      · have : (es.map (withTys f).onEff).map Eff.ability = es.map Eff.ability := by
          rw [List.map_map]; exact List.map_congr_left (fun e _ => by simp)
        simp only [this]; exact h.2.2.2

theorem bodyOf_ok {vs : List UVar} (hn : vs.Nodup) {t : Ty} (h : Ok 0 t) : Ok vs.length (bodyOf vs t) := by
  refine onTy_ok t (fun v _ => ?_) h
  simp only [bindOf, List.lookup_nil]
  by_cases hv : v ∈ vs
  · obtain ⟨i, hi⟩ := List.mem_iff_getElem?.mp hv
    rw [lookup_zipIdx hn i hi]
    have := (List.getElem?_eq_some_iff.mp hi).1
    simp [tBound, Ok, OkHead, OkL]
    exact this
  · rw [lookup_zipIdx_none hv]; simp [Ok]

theorem SInv.resolved {st : St} (h : SInv st) : RowsResolved st.ρ :=
  fun _ _ hv => rowApply_unbound h.inv.triR _ hv

theorem envVars_some {σ : TLog} {ρ : RLog} {n : Nat} {ss : List PolyTy} {out out' : List UVar}
    (h : envVars σ ρ n ss out = some out') : ∀ s ∈ ss, ∃ b, apply σ ρ n s.body = some b := by
  induction ss generalizing out with
  | nil => intro s hs; cases hs
  | cons s ss ih =>
    rw [envVars] at h
    cases hb : apply σ ρ n s.body with
    | none => simp [hb] at h
    | some b =>
      simp only [hb] at h
      cases hc : collect σ ρ n b out with
      | none => simp [hc] at h
      | some o =>
        simp only [hc] at h
        intro q hq
        rcases List.mem_cons.1 hq with rfl | hq
        · exact ⟨b, hb⟩
        · exact ih h q hq

/-- The scheme of a `let` binding: every instance of it is the type of the value under some
assignment that satisfies the constraints and does not change the types of the other variables. -/
theorem letBind_ev {n : Nat} {value : Ty} {eff : Row} {c c' : Ctx} (hc : ∀ x ∈ c.cons, OkCon x)
    (hv : Ok 0 value) (h : c.letBind n value eff = some c') :
    ∃ s, c' = { c with schemes := s :: c.schemes } ∧ OkS s ∧
      ∀ δ, (∀ x ∈ c.cons, conEv δ x) → ∀ τ, InstOf δ s τ →
        ∃ δ', (∀ x ∈ c.cons, conEv δ' x) ∧ ev δ' [] value = τ ∧
          (∀ s' ∈ c.schemes, ∀ β, ev δ' β s'.body = ev δ β s'.body) ∧ (s.params = 0 → δ' = δ) := by
  rw [Ctx.letBind] at h
  cases hs : solve n c.cons St.init with
  | none => simp [hs] at h
  | some x =>
    obtain ⟨bs, st⟩ := x
    simp only [hs] at h
    by_cases hf : false ∈ bs
    · simp only [if_pos hf, Option.some.injEq] at h
      refine ⟨_, h.symm, hv, fun δ hδ τ hτ => ?_⟩
      obtain ⟨β, hβ, rfl⟩ := hτ
      have : β = [] := by simpa using hβ
      subst this
      exact ⟨δ, hδ, rfl, fun _ _ _ => rfl, fun _ => rfl⟩
    · simp only [if_neg hf] at h
      obtain ⟨hst, hiff⟩ := solve_ev SInv.init hc hs hf
      have hinit : ∀ δ, EvSat δ St.init.σ := by intro δ v t hm; cases hm
      cases ha : apply st.σ st.ρ n value with
      | none => simp [ha] at h
      | some ty =>
        simp only [ha] at h
        have hty : Ok 0 ty := apply_ok hst.ok hst.rows n hv ha
        by_cases hp : (rowApply st.ρ eff).isPure = true
        · simp only [if_pos hp] at h
          cases h1 : envVars st.σ st.ρ n c.schemes [] with
          | none => simp [h1] at h
          | some tvs =>
            cases h2 : envRows st.σ st.ρ n c.schemes [] with
            | none => simp [h1, h2] at h
            | some rvs =>
              have ha2 := apply_idem hst.resolved n ha
              simp only [h1, h2, generalizeExcluding_eq ha2, Option.some.injEq] at h
              set vs := (firsts (tyVars ty)).filter (fun v => ¬ v ∈ tvs) with hvs
              have hn : vs.Nodup := (firsts_nodup _).filter _
              refine ⟨_, h.symm, bodyOf_ok hn hty, fun δ hδ τ hτ => ?_⟩
              have hsat : EvSat δ st.σ := (hiff δ).2 ⟨hinit δ, hδ⟩
              obtain ⟨β, hβ, rfl⟩ := hτ
              by_cases h0 : vs.length = 0
              · have hnil : vs = [] := List.length_eq_zero_iff.1 h0
                refine ⟨δ, hδ, ?_, fun _ _ _ => rfl, fun _ => rfl⟩
                rw [hnil, bodyOf_nil, ← apply_ev hst.ok hsat n ha]
                exact ev_ok hty
              · have hsat' := extend_sat hst.inv.triT (override δ vs β)
                refine ⟨extend st.σ (override δ vs β), ((hiff _).1 hsat').2, ?_, ?_, fun hz => absurd hz h0⟩
                · rw [← apply_ev hst.ok hsat' n ha, bodyOf_ev hty]
                  exact ev_congr ty (fun v ho => extend_unbound (apply_unbound n ha ho))
                · intro s' hs' β'
                  obtain ⟨b, hb⟩ := envVars_some h1 s' hs'
                  rw [← apply_ev hst.ok hsat' n hb, ← apply_ev hst.ok hsat n hb]
                  refine ev_congr b (fun v ho => ?_)
                  rw [extend_unbound (apply_unbound n hb ho)]
                  refine override_other (fun hm => ?_)
                  have := (List.mem_filter.1 hm).2
                  simp only [decide_eq_true_eq] at this
                  exact this ((envVars_mem hst.resolved h1 v).2 (.inr ⟨s', hs', b, hb, (mem_tyVars b).2 ho⟩))
        · simp only [if_neg hp, Option.some.injEq] at h
          refine ⟨_, h.symm, hty, fun δ hδ τ hτ => ?_⟩
          have hsat : EvSat δ st.σ := (hiff δ).2 ⟨hinit δ, hδ⟩
          obtain ⟨β, hβ, rfl⟩ := hτ
          have : β = [] := by simpa using hβ
          subst this
          exact ⟨δ, hδ, (apply_ev hst.ok hsat n ha).symm, fun _ _ _ => rfl, fun _ => rfl⟩

/-! ## Merging of effects -/

theorem mergeEffs_ok {base es : List Eff} (h1 : OkRow ⟨base, none⟩) (h2 : ∀ e ∈ es, e.args = []) :
    OkRow ⟨EffectTrack.mergeEffs base es, none⟩ := by
  induction es generalizing base with
  | nil => exact h1
  | cons e es ih =>
    rw [EffectTrack.mergeEffs]
    split
    · exact ih h1 (fun e he => h2 e (.tail _ he))
    · rename_i hany
      refine ih ⟨?_, ?_⟩ (fun e he => h2 e (.tail _ he))
      · intro x hx
        rcases List.mem_append.1 hx with hx | hx
        · exact h1.1 x hx
        · simp at hx; subst hx; exact h2 _ (.head _)
      · simp only [List.map_append, List.map_cons, List.map_nil]
        rw [List.nodup_append]
        refine ⟨h1.2, by simp, ?_⟩
        intro a ha b hb
        simp at hb
        subst hb
        rintro rfl
        obtain ⟨r, hr, hre⟩ := List.mem_map.1 ha
        exact hany (List.any_eq_true.2 ⟨r, hr, by simp [hre]⟩)

theorem OkRow.rest {es : List Eff} {r r' : Option Nat} (h : OkRow ⟨es, r⟩) : OkRow ⟨es, r'⟩ := h

theorem merge_ok {c : EffectTrack.Ctx} {r : Row} (hc : OkRow c.cur) (hr : OkRow r) :
    OkRow (c.merge r).cur := by
  have key := mergeEffs_ok (base := c.cur.effects) (es := r.effects) hc hr.1
  simp only [EffectTrack.Ctx.merge]
  split
  · exact hc
  split
  · exact hr
  split
  · exact key
  · exact key
  · exact key
  · split <;> exact key

end Verif.Typing
