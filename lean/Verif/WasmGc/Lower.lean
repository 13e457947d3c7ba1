import Verif.WasmGc.Valid

/-! From operations on declared types to indexed operations, and the whole module. -/

namespace Verif.WasmGc

open Spec

variable {D : Decls} {m : List (Fn AOp)}

theorem mention_lookup {f : Fn AOp} {a : AOp} {t : Ty} (hf : f ∈ m) (ha : a ∈ f.body)
    (hm : mention (adtToGc a) = some t) (ht : Declared t) :
    ∃ i, (indices (adtLower m)).lookup t = some i := by
  refine indices_mention (f := { params := f.params, result := f.result, body := f.body.map adtToGc })
    (op := adtToGc a) ?_ ?_ hm (declared_abstract ht)
  · simp only [adtLower, List.mem_map]; exact ⟨f, hf, rfl⟩
  · simp only [List.mem_map]; exact ⟨a, ha, rfl⟩

theorem readable_physical {t : Ty} (h : readable t = true) : physicalFieldTy t = t := by
  cases t <;> simp_all [readable, physicalFieldTy]

theorem erased_strict {r : Ty} (h : Erased true r) : False := by simp [Erased] at h

theorem lower_wt {f : Fn AOp} {a : AOp} {i : IOp} {result : Ty} {env : List Ty} (hf : f ∈ m)
    (ha : a ∈ f.body) (ho : OpOk true D m result env a)
    (hi : indexOp (indices (adtLower m)) (adtToGc a) = some i) :
    IWt D (indices (adtLower m)) (m.map fun f => (f.params, f.result)) result env i ∧
      i.resultTy = Spec.resultTy a ∧ ((∃ vs, i = .ret vs) ↔ ∃ vs, a = .ret vs) := by
  have lk : ∀ {t : Ty}, mention (adtToGc a) = some t → Declared t →
      ∃ i, (indices (adtLower m)).lookup t = some i := fun h h' => mention_lookup hf ha h h'
  cases a with
  | const z => simp only [adtToGc, indexOp, Option.some.injEq] at hi; subst hi; simp [IWt, IOp.resultTy, Spec.resultTy]
  | add x y =>
    simp only [adtToGc, indexOp, Option.some.injEq] at hi; subst hi
    exact ⟨ho, rfl, by simp⟩
  | structNew rty t args =>
    simp only [adtToGc, indexOp, Option.map_eq_some_iff] at hi
    obtain ⟨k, hk, rfl⟩ := hi
    obtain ⟨h1, h2, h3, h4⟩ := ho
    exact ⟨⟨t, h1, h2.resolve_right erased_strict, hk, h3, h4⟩, rfl, by simp⟩
  | structGet rty t r fi =>
    simp only [adtToGc, indexOp, Option.map_eq_some_iff] at hi
    obtain ⟨k, hk, rfl⟩ := hi
    obtain ⟨h1, ⟨ty, e, h2⟩, h3, h4⟩ := ho
    exact ⟨⟨t, h1, ⟨ty, e, h2.resolve_right erased_strict⟩, hk, h3, h4 rfl⟩, rfl, by simp⟩
  | structSet t r v fi =>
    simp only [adtToGc, indexOp, Option.map_eq_some_iff] at hi
    obtain ⟨k, hk, rfl⟩ := hi
    obtain ⟨h1, h2, h3, h4⟩ := ho
    exact ⟨⟨t, h1, h2, hk, h3, h4⟩, rfl, by simp⟩
  | variantNew e l tag args =>
    simp only [adtToGc, indexOp, Option.map_eq_some_iff] at hi
    obtain ⟨k, hk, rfl⟩ := hi
    exact ⟨⟨.variant e l tag, trivial, .inl rfl, hk, ho.1, ho.2⟩, rfl, by simp⟩
  | variantIs e l tag r =>
    simp only [adtToGc, indexOp, Option.some.injEq] at hi
    subst hi
    obtain ⟨k, hk⟩ := lk (t := .variant e l tag) rfl trivial
    exact ⟨⟨⟨.variant e l tag, k, trivial, hk, hk⟩, ho⟩, rfl, by simp⟩
  | variantCast e l tag r =>
    simp only [adtToGc, indexOp, Option.some.injEq] at hi
    subst hi
    obtain ⟨k, hk⟩ := lk (t := .variant e l tag) rfl trivial
    exact ⟨⟨.inl ⟨.variant e l tag, k, trivial, .inl rfl, hk, hk⟩, ho⟩, rfl, by simp⟩
  | variantGet rty e l tag r fi =>
    simp only [adtToGc, indexOp, Option.map_eq_some_iff] at hi
    obtain ⟨k, hk, rfl⟩ := hi
    obtain ⟨h1, h2, h3⟩ := ho
    have hp := readable_physical (h3 rfl)
    refine ⟨⟨.variant e l tag, trivial, ⟨_, h1, .inl rfl⟩, hk, h2, by rw [hp]; exact h3 rfl⟩, ?_, by simp⟩
    simp [IOp.resultTy, Spec.resultTy, hp]
  | refNull rty t =>
    simp only [adtToGc, indexOp, Option.some.injEq] at hi
    subst hi
    refine ⟨?_, rfl, by simp⟩
    rcases ho with ⟨h1, h2⟩ | ⟨rfl, h2⟩
    · obtain ⟨k, hk⟩ := lk (t := t) rfl h1
      exact .inl ⟨t, k, h1, h2, hk, hk⟩
    · refine .inr ⟨indices_abstract ?_, rfl, h2⟩
      rcases h2 with rfl | rfl <;> rfl
  | refCast rty t r =>
    simp only [adtToGc, indexOp, Option.some.injEq] at hi
    subst hi
    refine ⟨⟨?_, ho.2⟩, rfl, by simp⟩
    rcases ho.1 with ⟨h1, h2⟩ | ⟨rfl, h2⟩
    · obtain ⟨k, hk⟩ := lk (t := t) rfl h1
      exact .inl ⟨t, k, h1, h2, hk, hk⟩
    · refine .inr ⟨indices_abstract ?_, rfl, h2⟩
      rcases h2 with rfl | rfl <;> rfl
  | call k rty args =>
    simp only [adtToGc, indexOp, Option.some.injEq] at hi
    subst hi
    obtain ⟨gf, h1, rfl, h2⟩ := ho
    exact ⟨⟨gf.params, by simp [h1], h2⟩, rfl, by simp⟩
  | ret vs =>
    simp only [adtToGc, indexOp, Option.some.injEq] at hi; subst hi
    exact ⟨ho, rfl, by simp⟩

/-- Functions before and after lowering. -/
def FnLow (m : List (Fn AOp)) (f : Fn AOp) (f' : Fn IOp) : Prop :=
  f'.params = f.params ∧ f'.result = f.result ∧
    List.Forall₂ (fun a i => indexOp (indices (adtLower m)) (adtToGc a) = some i) f.body f'.body

theorem gcLower_spec {m' : List (Fn IOp)} (h : gcLower (adtLower m) = some m') :
    List.Forall₂ (FnLow m) m m' := by
  have h1 := mapM_spec h
  unfold adtLower at h1
  rw [List.forall₂_map_left_iff] at h1
  refine h1.imp ?_
  intro f f' hf
  simp only [indexFn, Option.map_eq_some_iff] at hf
  obtain ⟨b, hb, rfl⟩ := hf
  have h2 := mapM_spec hb
  rw [List.forall₂_map_left_iff] at h2
  exact ⟨rfl, rfl, h2⟩

theorem body_low {f : Fn AOp} {result : Ty} (hf : f ∈ m) : ∀ {ops : List AOp} {ops' : List IOp}
    {env : List Ty}, (∀ a ∈ ops, a ∈ f.body) →
    List.Forall₂ (fun a i => indexOp (indices (adtLower m)) (adtToGc a) = some i) ops ops' →
    BodyOk true D m result env ops →
    IBody D (indices (adtLower m)) (m.map fun f => (f.params, f.result)) result env ops' ∧
      ops'.filterMap IOp.resultTy = ops.filterMap Spec.resultTy
  | _, _, env, _, .nil, hb => hb.elim
  | a :: ops, i :: ops', env, hsub, .cons h t, hb => by
    unfold BodyOk at hb
    obtain ⟨ho, hb⟩ := hb
    obtain ⟨hw, hr, hret⟩ := lower_wt hf (hsub a (by simp)) ho h
    split at hb
    · cases t
      obtain ⟨vs, rfl⟩ := hret.2 ⟨_, rfl⟩
      exact ⟨⟨hw, trivial⟩, rfl⟩
    · exact hb.elim
    · rename_i h1 h2
      have hna : ∀ vs, a ≠ .ret vs := by
        intro vs e
        cases ops with
        | nil => exact h1 vs e rfl
        | cons x xs => exact h2 vs x xs e rfl
      have hni : ∀ vs, i ≠ .ret vs := by
        intro vs e
        obtain ⟨ws, e'⟩ := hret.1 ⟨vs, e⟩
        exact hna ws e'
      obtain ⟨b1, b2⟩ := body_low hf (fun x hx => hsub x (by simp [hx])) t hb
      rw [← hr] at b1
      refine ⟨?_, ?_⟩
      · unfold IBody
        refine ⟨hw, ?_⟩
        split
        · trivial
        · exact absurd rfl (hni _)
        · exact b1
      · simp only [List.filterMap_cons, hr, b2]

/-- The whole module. -/
theorem compile_valid {w : WModule} (hm : ModuleOk true D m) (hc : compile m = some w) :
    ValidModule w := by
  unfold compile at hc
  cases hg : gcLower (adtLower m) with
  | none => simp [hg] at hc
  | some m' =>
    simp only [hg] at hc
    have hlow := gcLower_spec hg
    -- typing of the lowered functions
    have hbody : ∀ f f', f ∈ m → FnLow m f f' →
        IBody D (indices (adtLower m)) (m.map fun f => (f.params, f.result)) f'.result f'.params f'.body ∧
          valTys f' = values f := by
      intro f f' hf hl
      obtain ⟨e1, e2, e3⟩ := hl
      obtain ⟨b1, b2⟩ := body_low hf (fun _ h => h) e3 (hm.1 f hf)
      refine ⟨by rw [e1, e2]; exact b1, ?_⟩
      simp only [valTys, values, e1, b2]
    have hpair : ∀ f' ∈ m', ∃ f ∈ m, FnLow m f f' := fun f' hf' => forall₂_mem hlow hf'
    unfold emitModule at hc
    cases hv : visitFns { map := seeds } m' with
    | none => simp [hv] at hc
    | some c =>
      simp only [hv] at hc
      cases hd : gcDefs c with
      | none => simp [hd] at hc
      | some defs =>
        simp only [hd, Option.map_eq_some_iff] at hc
        obtain ⟨wf, hwf, rfl⟩ := hc
        obtain ⟨inv, le, done⟩ := visitFns_spec (D := D) (g := adtLower m) m' (inv_seeds D _)
          (by
            intro f' hf' op hop
            obtain ⟨f, hf, hl⟩ := hpair f' hf'
            exact (hbody f f' hf hl).1.iok op hop) hv
        have fin : Final D (adtLower m) c defs := ⟨inv, le.map _ _ (by decide), hd⟩
        have hfns := mapM_spec hwf
        -- types that name declared types are known
        have known : ∀ f ∈ m, ∀ ty ∈ f.result :: values f, nominal ty = true → Known c ty := by
          intro f hf ty hty hn
          obtain ⟨k, hk, op, hop, hmk⟩ := hm.2 f hf ty hty hn
          obtain ⟨i, hi, hki⟩ := List.getElem_of_mem hk
          obtain ⟨k', hk', hl⟩ := forall₂_get hlow i k (by rw [← hki]; simp)
          obtain ⟨j, hj, hoj⟩ := List.getElem_of_mem hop
          obtain ⟨o', ho', hix⟩ := forall₂_get hl.2.2 j op (by rw [← hoj]; simp)
          have hmem' : k' ∈ m' := List.mem_of_getElem? hk'
          have hdn := done k' hmem' o' (List.mem_of_getElem? ho')
          cases op <;> simp only [Makes] at hmk
          · subst hmk
            simp only [adtToGc, indexOp, Option.map_eq_some_iff] at hix
            obtain ⟨_, _, rfl⟩ := hix
            exact hdn.1
          · subst hmk
            simp only [adtToGc, indexOp, Option.map_eq_some_iff] at hix
            obtain ⟨_, _, rfl⟩ := hix
            exact hdn.1
          · subst hmk
            obtain ⟨x, hx⟩ := mention_lookup hk hop (t := Ty.variant _ _ _) rfl trivial
            simp only [adtToGc, indexOp, hx, Option.some.injEq] at hix
            subst hix
            exact hdn.1
          · obtain ⟨rfl, hdc⟩ := hmk
            obtain ⟨x, hx⟩ := mention_lookup hk hop rfl hdc
            simp only [adtToGc, indexOp, hx, Option.some.injEq] at hix
            subst hix
            exact hdn.1
          · obtain ⟨rfl, hdc⟩ := hmk
            obtain ⟨x, hx⟩ := mention_lookup hk hop rfl hdc
            simp only [adtToGc, indexOp, hx, Option.some.injEq] at hix
            subst hix
            exact hdn.1
        have emitted : ∀ f' fw, emitFn { defs := defs, map := c.map } f' = some fw →
            List.Forall₂ (fun t v => valtype c.map t = some v) f'.params fw.params ∧
            resultVTs c.map f'.result = some fw.results ∧
            List.Forall₂ (fun t v => valtype c.map t = some v) (valTys f') fw.locals ∧
            emitOps { defs := defs, map := c.map } (valTys f') f'.params.length f'.body = some fw.body := by
          intro f' fw h
          unfold emitFn at h
          split at h
          · rename_i ps rs ls b e1 e2 e3 e4
            simp only [Option.some.injEq] at h
            subst h
            exact ⟨mapM_spec e1, e2, mapM_spec e3, e4⟩
          · contradiction
        refine ⟨?_, ?_⟩
        · -- type definitions
          intro d hdm
          obtain ⟨us, hus, hu⟩ := fin.split
          have hlen := fin.length
          rw [hus] at hdm
          rcases List.mem_append.1 hdm with hb | hb
          · simp only [builtinDefs, List.mem_cons, List.not_mem_nil, or_false] at hb
            rcases hb with rfl | rfl | rfl | rfl | rfl | rfl | rfl | rfl | rfl <;> simp [defOk, vtOk] <;> omega
          · obtain ⟨i, _, hi⟩ := forall₂_mem hu hb
            simp only [userDef, Option.map_eq_some_iff] at hi
            obtain ⟨fs, hfs, rfl⟩ := hi
            simp only [defOk, List.all_eq_true]
            intro p hp
            obtain ⟨k, _, hk⟩ := forall₂_mem (mapM_spec hfs) hp
            cases hF : (c.builders i).fields k with
            | none => simp only [hF, fieldDef, Option.some.injEq] at hk; subst hk; rfl
            | some F =>
              simp only [hF, fieldDef, Option.map_eq_some_iff] at hk
              obtain ⟨v, hv', rfl⟩ := hk
              exact fin.valtype_ok hv'
        · -- functions
          intro fw hfw
          obtain ⟨f', hf', he⟩ := forall₂_mem hfns hfw
          obtain ⟨f, hf, hl⟩ := hpair f' hf'
          obtain ⟨hib, hvt⟩ := hbody f f' hf hl
          obtain ⟨e1, e2, e3, e4⟩ := emitted f' fw he
          have hplen := e1.length_eq
          refine ⟨?_, ?_, ?_, ?_⟩
          · -- locals start with the parameters
            have e3' : List.Forall₂ (fun t v => valtype c.map t = some v) f'.params
                (fw.locals.take f'.params.length) := by
              have := List.forall₂_take f'.params.length e3
              simpa [valTys] using this
            rw [← hplen]
            have uniq : ∀ {l : List Ty} {a b : List VT},
                List.Forall₂ (fun t v => valtype c.map t = some v) l a →
                List.Forall₂ (fun t v => valtype c.map t = some v) l b → a = b := by
              intro l a b ha
              induction ha generalizing b with
              | nil => intro hb; cases hb; rfl
              | cons h _ ih =>
                intro hb
                cases hb with
                | cons h' t' =>
                  rw [h] at h'
                  simp only [Option.some.injEq] at h'
                  rw [h', ih t']
            exact uniq e3' e1
          · intro v hvm
            obtain ⟨t, _, ht⟩ := forall₂_mem e3 hvm
            exact fin.valtype_ok ht
          · intro v hvm
            unfold resultVTs at e2
            split at e2
            · simp only [Option.some.injEq] at e2; rw [← e2] at hvm; simp at hvm
            · simp only [Option.map_eq_some_iff] at e2
              obtain ⟨x, hx, e2⟩ := e2
              rw [← e2] at hvm
              simp only [List.mem_singleton] at hvm
              subst hvm
              exact fin.valtype_ok hx
          · refine checkBody_of_checks _ _ _ ?_
            refine body_done fin (sigs := m.map fun f => (f.params, f.result)) (result := f'.result)
              (tys := valTys f') ⟨rfl, e3, e2, ?_, ?_⟩ f'.body f'.params fw.body _ [] rfl hib
              (done f' hf') ?_ e4
            · -- signatures
              simp only
              rw [List.forall₂_map_left_iff, List.forall₂_map_right_iff]
              have : ∀ {l : List (Fn AOp)} {l' : List (Fn IOp)} {l'' : List WFn},
                  List.Forall₂ (FnLow m) l l' →
                  List.Forall₂ (fun f' fw => emitFn { defs := defs, map := c.map } f' = some fw) l' l'' →
                  List.Forall₂ (fun (a : Fn AOp) (b : WFn) =>
                    List.Forall₂ (fun t v => valtype c.map t = some v) a.params b.params ∧
                      resultVTs c.map a.result = some b.results) l l'' := by
                intro l l' l'' h1
                induction h1 generalizing l'' with
                | nil => intro h2; cases h2; exact .nil
                | cons h _ ih =>
                  intro h2
                  cases h2 with
                  | cons h' t' =>
                    obtain ⟨x1, x2, _, _⟩ := emitted _ _ h'
                    obtain ⟨y1, y2, _⟩ := h
                    exact .cons ⟨by rw [← y1]; exact x1, by rw [← y2]; exact x2⟩ (ih t')
              exact this hlow hfns
            · intro ty hty hn
              rw [hvt] at hty
              exact known f hf ty (by simp [hty]) hn
            · intro k v hk _
              exact .inr (by simpa [hplen] using hk)

end Verif.WasmGc
