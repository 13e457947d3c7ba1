import Verif.PrimNorm.Spec

namespace Verif.PrimNorm

/-! ### The tables -/

theorem is_iff {t : Ty} {a b : String} : t.is a b = true ↔ t.dialect = a ∧ t.name = b := by
  simp [Ty.is]

theorem convertPrimitive_iff {t u : Ty} : convertPrimitive t = some u ↔ Prim t u := by
  constructor
  · intro h
    obtain ⟨d, n, l, r⟩ := t
    unfold convertPrimitive at h
    split at h
    · next h1 =>
      simp only [Bool.or_eq_true, is_iff] at h1
      cases h
      rcases h1 with (⟨rfl, rfl⟩ | ⟨rfl, rfl⟩) | ⟨rfl, rfl⟩
      · exact .int l r
      · exact .nat l r
      · exact .bool l r
    · split at h
      · next h1 => cases h; obtain ⟨rfl, rfl⟩ := is_iff.1 h1; exact .float l r
      · split at h
        · next h1 => cases h; obtain ⟨rfl, rfl⟩ := is_iff.1 h1; exact .anyref l r
        · split at h
          · next h1 => cases h; obtain ⟨rfl, rfl⟩ := is_iff.1 h1; exact .intref l r
          · split at h
            · next h1 => cases h; obtain ⟨rfl, rfl⟩ := is_iff.1 h1; exact .closure l r
            · cases h
  · intro h
    cases h <;> simp [convertPrimitive, Ty.is]

theorem rule_of {t u x : Ty} {a b : String}
    (h : (if t.is a b then some x else none) = some u) :
    t = ⟨a, b, t.label, t.rest⟩ ∧ u = x := by
  split at h
  · next h1 =>
    obtain ⟨rfl, rfl⟩ := is_iff.1 h1
    cases h
    exact ⟨rfl, rfl⟩
  · cases h

theorem convertType_mem {t u : Ty} : ∀ {cs : List (Ty → Option Ty)},
    convertType cs t = some u → ∃ c ∈ cs, c t = some u
  | [], h => by cases h
  | c :: cs, h => by
    rw [convertType] at h
    cases hc : c t with
    | some x => rw [hc] at h; exact ⟨c, by simp, by rw [hc]; exact h⟩
    | none =>
      rw [hc] at h
      obtain ⟨c', hm, hc'⟩ := convertType_mem h
      exact ⟨c', by simp [hm], hc'⟩

theorem convertType_iff {t u : Ty} :
    convertType conversions t = some u ↔ Prim t u ∨ Further t u := by
  constructor
  · intro h
    obtain ⟨c, hm, hc⟩ := convertType_mem h
    simp only [conversions, List.mem_cons, List.not_mem_nil, or_false] at hm
    rcases hm with rfl | rfl | rfl | rfl | rfl | rfl | rfl | rfl | rfl | rfl | rfl | rfl | rfl | rfl
    · obtain ⟨h1, rfl⟩ := rule_of hc; rw [h1]; exact .inl (.int _ _)
    · obtain ⟨h1, rfl⟩ := rule_of hc; rw [h1]; exact .inl (.nat _ _)
    · obtain ⟨h1, rfl⟩ := rule_of hc; rw [h1]; exact .inl (.bool _ _)
    · obtain ⟨h1, rfl⟩ := rule_of hc; rw [h1]; exact .inr (.i1 _ _)
    · obtain ⟨h1, rfl⟩ := rule_of hc; rw [h1]; exact .inl (.float _ _)
    · obtain ⟨h1, rfl⟩ := rule_of hc; rw [h1]; exact .inl (.intref _ _)
    · obtain ⟨h1, rfl⟩ := rule_of hc; rw [h1]; exact .inl (.anyref _ _)
    · obtain ⟨h1, rfl⟩ := rule_of hc; rw [h1]; exact .inr (.step _ _)
    · obtain ⟨h1, rfl⟩ := rule_of hc; rw [h1]; exact .inr (.cont _ _)
    · obtain ⟨h1, rfl⟩ := rule_of hc; rw [h1]; exact .inr (.wrapper _ _)
    · obtain ⟨h1, rfl⟩ := rule_of hc; rw [h1]; exact .inr (.typeref _ _)
    · obtain ⟨h1, rfl⟩ := rule_of hc; rw [h1]; exact .inl (.closure _ _)
    · obtain ⟨h1, rfl⟩ := rule_of hc; rw [h1]; exact .inr (.array _ _)
    · beta_reduce at hc
      split at hc
      · next h1 =>
        obtain ⟨d, n, l, r⟩ := t
        simp only [Bool.and_eq_true, is_iff, beq_iff_eq] at h1
        obtain ⟨⟨rfl, rfl⟩, rfl⟩ := h1
        cases hc
        exact .inr (.marker _)
      · cases hc
  · rintro (h | h) <;> cases h <;> simp [conversions, convertType, Ty.is]

theorem becomesPrim_iff {t u : Ty} : BecomesPrim t u ↔ u = (convertPrimitive t).getD t := by
  unfold BecomesPrim
  cases h : convertPrimitive t with
  | some x =>
    have hp := convertPrimitive_iff.1 h
    simp only [Option.getD_some]
    constructor
    · rintro (h' | ⟨hn, -⟩)
      · rw [← convertPrimitive_iff, h] at h'; cases h'; rfl
      · exact absurd ⟨x, hp⟩ hn
    · rintro rfl; exact .inl hp
  | none =>
    have hn : ¬ ∃ x, Prim t x := by
      rintro ⟨x, hx⟩
      rw [← convertPrimitive_iff, h] at hx
      cases hx
    simp only [Option.getD_none]
    constructor
    · rintro (h' | ⟨-, rfl⟩)
      · exact absurd ⟨u, h'⟩ hn
      · rfl
    · rintro rfl; exact .inr ⟨hn, rfl⟩

theorem becomesSig_iff {t u : Ty} : BecomesSig t u ↔ u = convertOr t := by
  unfold BecomesSig convertOr
  cases h : convertType conversions t with
  | some x =>
    have hp := convertType_iff.1 h
    simp only [Option.getD_some]
    constructor
    · rintro (h' | h' | ⟨hn, -⟩)
      · have := convertType_iff.2 (.inl h'); rw [h] at this; cases this; rfl
      · have := convertType_iff.2 (.inr h'); rw [h] at this; cases this; rfl
      · exact absurd ⟨x, hp⟩ hn
    · rintro rfl
      rcases hp with hp | hp
      · exact .inl hp
      · exact .inr (.inl hp)
  | none =>
    have hn : ¬ ∃ x, Prim t x ∨ Further t x := by
      rintro ⟨x, hx⟩
      rw [← convertType_iff, h] at hx
      cases hx
    simp only [Option.getD_none]
    constructor
    · rintro (h' | h' | ⟨-, rfl⟩)
      · exact absurd ⟨u, .inl h'⟩ hn
      · exact absurd ⟨u, .inr h'⟩ hn
      · rfl
    · rintro rfl; exact .inr (.inr ⟨hn, rfl⟩)

theorem prim_image {t u : Ty} (h : Prim t u) : convertPrimitive u = none := by
  cases h <;>
    simp [convertPrimitive, Ty.is, i32Ty, f64Ty, anyrefTy, i31refTy, closureTy]

theorem getD_image (t : Ty) : convertPrimitive ((convertPrimitive t).getD t) = none := by
  cases h : convertPrimitive t with
  | some x => exact prim_image (convertPrimitive_iff.1 h)
  | none => exact h

theorem convertOr_idem (t : Ty) : convertOr (convertOr t) = convertOr t := by
  unfold convertOr
  cases h : convertType conversions t with
  | none => simp [h]
  | some x =>
    simp only [Option.getD_some]
    rcases convertType_iff.1 h with hp | hp <;> cases hp <;>
      simp [conversions, convertType, Ty.is, i32Ty, f64Ty, anyrefTy, i31refTy, closureTy, stepTy,
        contTy, rwTy, structrefTy, arrayrefTy, markerTy]

/-! ### One more round changes nothing -/

theorem lookup_setType (t t' : FuncTy) : ∀ (attrs : List (String × Attr)),
    attrs.lookup "type" = some (.type t) → (setType t' attrs).lookup "type" = some (.type t')
  | [], h => by cases h
  | (k, a) :: attrs, h => by
    by_cases hk : k = "type"
    · subst hk
      simp [setType]
    · have hb : (k == "type") = false := by simpa using hk
      have hb' : ("type" == k) = false := by simpa using fun e => hk e.symm
      rw [List.lookup_cons, hb'] at h
      have ih := lookup_setType t t' attrs h
      simp only [setType, List.map_cons, hb]
      simp only [Bool.false_eq_true, if_false, List.lookup_cons, hb']
      exact ih

theorem lookup_setType_ne (t' : FuncTy) (k : String) (hk : k ≠ "type") :
    ∀ (attrs : List (String × Attr)), (setType t' attrs).lookup k = attrs.lookup k
  | [] => rfl
  | (k', a) :: attrs => by
    have ih := lookup_setType_ne t' k hk attrs
    by_cases hk' : k' = "type"
    · subst hk'
      have hb : (k == "type") = false := by simpa using hk
      simp only [setType, List.map_cons, beq_self_eq_true, if_true, List.lookup_cons, hb]
      exact ih
    · have hb : (k' == "type") = false := by simpa using hk'
      simp only [setType, List.map_cons, hb, Bool.false_eq_true, if_false, List.lookup_cons]
      cases hc : k == k' with
      | true => rfl
      | false => exact ih

theorem convertSignature_image {t t' : FuncTy} {c : Bool} (h : convertSignature t = some (t', c)) :
    t'.result = convertOr t.result ∧ t'.params = t.params.map convertOr ∧
    (c = false → t'.params = t.params) ∧ convertSignature t' = none := by
  unfold convertSignature at h
  simp only at h
  split at h
  · cases h
  · simp only [Option.some.injEq, Prod.mk.injEq] at h
    obtain ⟨rfl, rfl⟩ := h
    refine ⟨rfl, rfl, ?_, ?_⟩
    · intro hc
      simpa using hc
    · simp only [convertSignature, convertOr_idem, List.map_map]
      have : t.params.map (convertOr ∘ convertOr) = t.params.map convertOr := by
        apply List.map_congr_left
        intro x _
        exact convertOr_idem x
      simp [this]

theorem convertSignature_none {t : FuncTy} (h : convertSignature t = none) :
    convertOr t.result = t.result ∧ t.params.map convertOr = t.params := by
  unfold convertSignature at h
  simp only at h
  split at h
  · next hc =>
    simp only [Bool.and_eq_true, beq_iff_eq] at hc
    exact ⟨hc.2, hc.1⟩
  · cases h

/-- Two lists of blocks that differ in their arguments only. -/
def SameOps : List Block → List Block → Prop
  | [], [] => True
  | .mk _ ops :: bs, .mk _ ops' :: bs' => ops = ops' ∧ bs = bs'
  | _, _ => False

theorem SameOps.refl (bs : List Block) : SameOps bs bs := by
  cases bs with
  | nil => trivial
  | cons b bs => cases b; exact ⟨rfl, rfl⟩

theorem updateEntry_same {hr : Bool} {bs bs' : List Block} {ps : List Ty}
    (h : updateEntry hr bs ps = some bs') : SameOps bs bs' := by
  unfold updateEntry at h
  split at h
  · cases h; exact .refl _
  · cases bs with
    | nil =>
      simp only at h
      split at h
      · cases h; trivial
      · cases h
    | cons b bs =>
      cases b
      simp only at h
      split at h
      · cases h
      · cases h; exact ⟨rfl, rfl⟩

theorem visit_same {bs bs' : List Block} (hs : SameOps bs bs') (h : visitBlocks bs = (bs, 0)) :
    visitBlocks bs' = (bs', 0) := by
  cases bs with
  | nil => cases bs' with
    | nil => exact h
    | cons b' bs' => exact hs.elim
  | cons b bs =>
    cases bs' with
    | nil => cases b; exact hs.elim
    | cons b' bs' =>
      obtain ⟨args, ops⟩ := b
      obtain ⟨args', ops'⟩ := b'
      obtain ⟨rfl, rfl⟩ := hs
      simp only [visitBlocks, visitBlock, Prod.mk.injEq, List.cons.injEq, Block.mk.injEq] at h ⊢
      obtain ⟨⟨⟨-, h1⟩, h2⟩, h3⟩ := h
      exact ⟨⟨⟨trivial, h1⟩, h2⟩, h3⟩

/-- What `rewriteSignature` makes. -/
theorem rewriteSignature_some {d : OpData} {bs : List Block} {o : Op}
    (h : rewriteSignature d bs = some o) :
    ∃ t t' c bs', d.attrs.lookup "type" = some (.type t) ∧ convertSignature t = some (t', c) ∧
      (if c then updateEntry d.hasRegion bs t'.params else some bs) = some bs' ∧
      o = .mk { d with attrs := setType t' d.attrs, operands := [], results := [] } bs' := by
  unfold rewriteSignature at h
  split at h
  · next t ht =>
    split at h
    · cases h
    · next t' c hc =>
      split at h
      · cases h
      · next bs' hb =>
        cases h
        exact ⟨t, t', c, bs', ht, hc, hb, rfl⟩
  · cases h

theorem rewriteSignature_again {d : OpData} {bs : List Block} {d' : OpData} {bs' : List Block}
    (h : rewriteSignature d bs = some (.mk d' bs')) :
    d'.dialect = d.dialect ∧ d'.name = d.name ∧ d'.results = [] ∧
    rewriteSignature d' bs' = none ∧ SameOps bs bs' := by
  obtain ⟨t, t', c, bs'', ht, hc, hb, ho⟩ := rewriteSignature_some h
  cases ho
  refine ⟨rfl, rfl, rfl, ?_, ?_⟩
  · simp only [rewriteSignature, lookup_setType t t' _ ht, (convertSignature_image hc).2.2.2]
  · split at hb
    · exact updateEntry_same hb
    · cases hb; exact .refl _

theorem patterns_none_iff {d : OpData} {bs : List Block} : patterns d bs = none ↔
    funcSignature d bs = none ∧ wasmFuncSignature d bs = none ∧ normalizeCall d = none ∧
    normalizeCallIndirect d = none ∧ normalizeResults d bs = none := by
  unfold patterns
  simp only [Option.or_eq_none_iff]
  constructor
  · rintro ⟨⟨⟨a, b⟩, c⟩, d, e⟩; exact ⟨a, b, c, d, e⟩
  · rintro ⟨a, b, c, d, e⟩; exact ⟨⟨⟨a, b⟩, c⟩, d, e⟩

theorem patterns_some {d : OpData} {bs : List Block} {o : Op} (h : patterns d bs = some o) :
    funcSignature d bs = some o ∨ wasmFuncSignature d bs = some o ∨ normalizeCall d = some o ∨
    normalizeCallIndirect d = some o ∨ normalizeResults d bs = some o := by
  unfold patterns at h
  simp only [Option.or_eq_some_iff] at h
  rcases h with ((h | ⟨-, h⟩) | ⟨-, h⟩) | ⟨-, h | ⟨-, h⟩⟩
  · exact .inl h
  · exact .inr (.inl h)
  · exact .inr (.inr (.inl h))
  · exact .inr (.inr (.inr (.inl h)))
  · exact .inr (.inr (.inr (.inr h)))

theorem normalizeCall_some {d : OpData} {o : Op} (h : normalizeCall d = some o) :
    d.dialect = "func" ∧ d.name = "call" ∧ ∃ v t rs t', d.results = (v, t) :: rs ∧
      convertPrimitive t = some t' ∧
      o = .mk { dialect := "func", name := "call", attrs := d.attrs.filter (·.1 == "callee"), operands := d.operands, results := [(v, t')] } [] := by
  unfold normalizeCall at h
  split at h
  · next hc =>
    simp only [Bool.and_eq_true, beq_iff_eq] at hc
    refine ⟨hc.1, hc.2, ?_⟩
    split at h
    · cases h
    · next v t rs hr =>
      split at h
      · cases h
      · next t' ht => cases h; exact ⟨v, t, rs, t', hr, ht, rfl⟩
  · cases h

theorem normalizeCallIndirect_some {d : OpData} {o : Op} (h : normalizeCallIndirect d = some o) :
    d.dialect = "func" ∧ d.name = "call_indirect" ∧ ∃ v t rs t', d.results = (v, t) :: rs ∧
      convertPrimitive t = some t' ∧
      o = .mk { dialect := "func", name := "call_indirect", operands := d.operands, results := [(v, t')] } [] := by
  unfold normalizeCallIndirect at h
  split at h
  · next hc =>
    simp only [Bool.and_eq_true, beq_iff_eq] at hc
    refine ⟨hc.1.1, hc.1.2, ?_⟩
    split at h
    · cases h
    · next v t rs hr =>
      split at h
      · cases h
      · next t' ht => cases h; exact ⟨v, t, rs, t', hr, ht, rfl⟩
  · cases h

theorem normalizeResults_some {d : OpData} {bs : List Block} {o : Op}
    (h : normalizeResults d bs = some o) :
    handledElsewhere d = false ∧
    o = .mk { d with results := d.results.map fun r => (r.1, (convertPrimitive r.2).getD r.2) } bs := by
  unfold normalizeResults at h
  split at h
  · cases h
  · split at h
    · cases h
    · next hh => cases h; exact ⟨by simpa using hh, rfl⟩

/-- After a pattern has applied none applies. -/
theorem patterns_again {d : OpData} {bs : List Block} {d' : OpData} {bs' : List Block}
    (h : patterns d bs = some (.mk d' bs')) :
    patterns d' bs' = none ∧ (SameOps bs bs' ∨ bs' = []) := by
  rw [patterns_none_iff]
  rcases patterns_some h with h | h | h | h | h
  · unfold funcSignature at h
    split at h
    · next hc =>
      simp only [Bool.and_eq_true, beq_iff_eq] at hc
      obtain ⟨h1, h2, h3, h4, h5⟩ := rewriteSignature_again h
      refine ⟨⟨?_, ?_, ?_, ?_, ?_⟩, .inl h5⟩
      · simp [funcSignature, h4]
      · simp [wasmFuncSignature, h4]
      · simp [normalizeCall, h3]
      · simp [normalizeCallIndirect, h3]
      · simp [normalizeResults, h3]
    · cases h
  · unfold wasmFuncSignature at h
    split at h
    · next hc =>
      simp only [Bool.and_eq_true, beq_iff_eq] at hc
      obtain ⟨h1, h2, h3, h4, h5⟩ := rewriteSignature_again h
      refine ⟨⟨?_, ?_, ?_, ?_, ?_⟩, .inl h5⟩
      · simp [funcSignature, h4]
      · simp [wasmFuncSignature, h4]
      · simp [normalizeCall, h3]
      · simp [normalizeCallIndirect, h3]
      · simp [normalizeResults, h3]
    · cases h
  · obtain ⟨-, -, v, t, rs, t', -, ht, ho⟩ := normalizeCall_some h
    cases ho
    have hi := prim_image (convertPrimitive_iff.1 ht)
    refine ⟨⟨?_, ?_, ?_, ?_, ?_⟩, .inr rfl⟩
    · simp [funcSignature]
    · simp [wasmFuncSignature]
    · simp [normalizeCall, hi]
    · simp [normalizeCallIndirect]
    · simp [normalizeResults, hi]
  · obtain ⟨-, -, v, t, rs, t', -, ht, ho⟩ := normalizeCallIndirect_some h
    cases ho
    have hi := prim_image (convertPrimitive_iff.1 ht)
    refine ⟨⟨?_, ?_, ?_, ?_, ?_⟩, .inr rfl⟩
    · simp [funcSignature]
    · simp [wasmFuncSignature]
    · simp [normalizeCall]
    · simp [normalizeCallIndirect, hi]
    · simp [normalizeResults, hi]
  · obtain ⟨hh, ho⟩ := normalizeResults_some h
    cases ho
    simp only [handledElsewhere, Bool.or_eq_false_iff] at hh
    obtain ⟨hf, hw⟩ := hh
    have hf' : d.dialect = "func" → d.name ≠ "func" ∧ d.name ≠ "call" ∧ d.name ≠ "call_indirect" := by
      intro hd
      simpa [hd, and_assoc] using hf
    have hw' : ¬ (d.dialect = "wasm" ∧ d.name = "func") := by
      rintro ⟨h1, h2⟩
      simp [h1, h2] at hw
    refine ⟨⟨?_, ?_, ?_, ?_, ?_⟩, .inl (.refl _)⟩
    · simp only [funcSignature]
      rw [if_neg]
      simp only [Bool.and_eq_true, beq_iff_eq]
      rintro ⟨h1, h2⟩
      exact (hf' h1).1 h2
    · simp only [wasmFuncSignature]
      rw [if_neg]
      simpa using hw'
    · simp only [normalizeCall]
      rw [if_neg]
      simp only [Bool.and_eq_true, beq_iff_eq]
      rintro ⟨h1, h2⟩
      exact (hf' h1).2.1 h2
    · simp only [normalizeCallIndirect]
      rw [if_neg]
      simp only [Bool.and_eq_true, beq_iff_eq]
      rintro ⟨⟨h1, h2⟩, -⟩
      exact (hf' h1).2.2 h2
    · simp [normalizeResults, getD_image]

mutual
theorem visitOp_idem : ∀ o : Op, visitOp (visitOp o).1 = ((visitOp o).1, 0)
  | .mk d blocks => by
    have ih := visitBlocks_idem blocks
    rw [visitOp]
    cases hp : patterns d (visitBlocks blocks).1 with
    | none =>
      simp only [visitOp, ih, hp]
    | some o =>
      obtain ⟨d', bs'⟩ := o
      obtain ⟨h1, h2⟩ := patterns_again hp
      have h3 : visitBlocks bs' = (bs', 0) := by
        rcases h2 with h2 | rfl
        · exact visit_same h2 ih
        · rfl
      simp only [visitOp, h3, h1]
theorem visitBlocks_idem : ∀ bs : List Block,
    visitBlocks (visitBlocks bs).1 = ((visitBlocks bs).1, 0)
  | [] => rfl
  | b :: bs => by
    have h1 := visitBlock_idem b
    have h2 := visitBlocks_idem bs
    simp only [visitBlocks, h1, h2]
theorem visitBlock_idem : ∀ b : Block, visitBlock (visitBlock b).1 = ((visitBlock b).1, 0)
  | .mk args ops => by
    have h := visitOps_idem ops
    simp only [visitBlock, h]
theorem visitOps_idem : ∀ os : List Op, visitOps (visitOps os).1 = ((visitOps os).1, 0)
  | [] => rfl
  | o :: os => by
    have h1 := visitOp_idem o
    have h2 := visitOps_idem os
    simp only [visitOps, h1, h2]
end

theorem lower_eq (ops : List Op) : lower ops = ((visitOps ops).1, true) := by
  unfold lower
  rw [loop]
  split
  · rfl
  · rw [loop]
    simp [visitOps_idem]

end Verif.PrimNorm
