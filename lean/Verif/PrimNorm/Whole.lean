import Verif.PrimNorm.Proofs

namespace Verif.PrimNorm

/-! ### Which pattern is in charge -/

theorem patterns_func {d : OpData} (h : IsFunc d) (bs : List Block) :
    patterns d bs = rewriteSignature d bs := by
  obtain ⟨hd, hn⟩ := h
  have h3 : normalizeCall d = none := by simp [normalizeCall, hn]
  have h4 : normalizeCallIndirect d = none := by simp [normalizeCallIndirect, hn]
  have h5 : normalizeResults d bs = none := by
    rcases hd with hd | hd <;> simp [normalizeResults, handledElsewhere, hd, hn]
  rcases hd with hd | hd
  · simp [patterns, funcSignature, wasmFuncSignature, h3, h4, h5, hd, hn]
  · simp [patterns, funcSignature, wasmFuncSignature, h3, h4, h5, hd, hn]

theorem patterns_call {d : OpData} (hd : d.dialect = "func") (hn : d.name = "call")
    (bs : List Block) : patterns d bs = normalizeCall d := by
  have h5 : normalizeResults d bs = none := by simp [normalizeResults, handledElsewhere, hd, hn]
  simp [patterns, funcSignature, wasmFuncSignature, normalizeCallIndirect, h5, hd, hn]

theorem patterns_ind {d : OpData} (hd : d.dialect = "func") (hn : d.name = "call_indirect")
    (bs : List Block) : patterns d bs = normalizeCallIndirect d := by
  have h5 : normalizeResults d bs = none := by simp [normalizeResults, handledElsewhere, hd, hn]
  simp [patterns, funcSignature, wasmFuncSignature, normalizeCall, h5, hd, hn]

theorem patterns_else {d : OpData} (hf : ¬ IsFunc d) (hc : ¬ IsCall d) (bs : List Block) :
    patterns d bs = normalizeResults d bs := by
  have h1 : funcSignature d bs = none := by
    rw [funcSignature, if_neg]
    simp only [Bool.and_eq_true, beq_iff_eq]
    rintro ⟨h1, h2⟩; exact hf ⟨.inl h1, h2⟩
  have h2 : wasmFuncSignature d bs = none := by
    rw [wasmFuncSignature, if_neg]
    simp only [Bool.and_eq_true, beq_iff_eq]
    rintro ⟨h1, h2⟩; exact hf ⟨.inr h1, h2⟩
  have h3 : normalizeCall d = none := by
    rw [normalizeCall, if_neg]
    simp only [Bool.and_eq_true, beq_iff_eq]
    rintro ⟨h1, h2⟩; exact hc ⟨h1, .inl h2⟩
  have h4 : normalizeCallIndirect d = none := by
    rw [normalizeCallIndirect, if_neg]
    simp only [Bool.and_eq_true, beq_iff_eq]
    rintro ⟨⟨h1, h2⟩, -⟩; exact hc ⟨h1, .inr h2⟩
  simp [patterns, h1, h2, h3, h4]

theorem not_handled {d : OpData} (hf : ¬ IsFunc d) (hc : ¬ IsCall d) : handledElsewhere d = false := by
  rw [Bool.eq_false_iff]
  intro h
  simp only [handledElsewhere, Bool.or_eq_true, Bool.and_eq_true, beq_iff_eq] at h
  rcases h with ⟨h1, (h2 | h2) | h2⟩ | ⟨h1, h2⟩
  · exact hf ⟨.inl h1, h2⟩
  · exact hc ⟨h1, .inl h2⟩
  · exact hc ⟨h1, .inr h2⟩
  · exact hf ⟨.inr h1, h2⟩

/-! ### Shapes -/

theorem visitBlocks_args : ∀ bs : List Block,
    (visitBlocks bs).1.map Block.args = bs.map Block.args
  | [] => rfl
  | .mk args ops :: bs => by
    simp only [visitBlocks, visitBlock, List.map_cons, visitBlocks_args bs, Block.args]

theorem entryArgs_of_args {bs bs' : List Block} (h : bs'.map Block.args = bs.map Block.args) :
    entryArgs bs' = entryArgs bs := by
  cases bs with
  | nil => cases bs' with
    | nil => rfl
    | cons b' bs' => simp at h
  | cons b bs => cases bs' with
    | nil => simp at h
    | cons b' bs' =>
      cases b; cases b'
      simp only [List.map_cons, List.cons.injEq, Block.args] at h
      exact h.1

theorem drop_args {bs bs' : List Block} (h : bs'.map Block.args = bs.map Block.args) :
    (bs'.drop 1).map Block.args = (bs.drop 1).map Block.args := by
  rw [List.map_drop, List.map_drop, h]

theorem sameOps_drop {bs bs' : List Block} (h : SameOps bs bs') : bs'.drop 1 = bs.drop 1 := by
  cases bs with
  | nil => cases bs' with
    | nil => rfl
    | cons b' bs' => exact h.elim
  | cons b bs => cases bs' with
    | nil => cases b; exact h.elim
    | cons b' bs' => cases b; cases b'; obtain ⟨-, rfl⟩ := h; rfl

theorem sameOps_all {bs bs' : List Block} (h : SameOps bs bs') : blocksAll bs' = blocksAll bs := by
  cases bs with
  | nil => cases bs' with
    | nil => rfl
    | cons b' bs' => exact h.elim
  | cons b bs => cases bs' with
    | nil => cases b; exact h.elim
    | cons b' bs' =>
      cases b; cases b'
      obtain ⟨rfl, rfl⟩ := h
      simp [blocksAll, Block.all]

theorem forall₂_refl {α : Type} {R : α → α → Prop} : ∀ (l : List α), (∀ x ∈ l, R x x) →
    List.Forall₂ R l l
  | [], _ => .nil
  | x :: l, h => .cons (h x (by simp)) (forall₂_refl l (fun y hy => h y (by simp [hy])))

theorem forall₂_map {α β : Type} {R : α → β → Prop} (f : α → β) : ∀ (l : List α),
    (∀ x ∈ l, R x (f x)) → List.Forall₂ R l (l.map f)
  | [], _ => .nil
  | x :: l, h => .cons (h x (by simp)) (forall₂_map f l (fun y hy => h y (by simp [hy])))

theorem prim_none {t : Ty} (h : convertPrimitive t = none) : BecomesPrim t t := by
  rw [becomesPrim_iff, h]; rfl

/-- Arguments zipped with the conversions of their types. -/
theorem zip_converted : ∀ (args : List (Nat × Ty)) (ps : List Ty), args.map (·.2) = ps →
    List.Forall₂ (fun a a' => a'.1 = a.1 ∧ BecomesSig a.2 a'.2) args
      (args.zipWith (fun a t => (a.1, t)) (ps.map convertOr))
  | [], ps, h => by subst h; exact .nil
  | a :: args, ps, h => by
    subst h
    exact .cons ⟨rfl, becomesSig_iff.2 rfl⟩ (zip_converted args _ rfl)

theorem args_fixed : ∀ (args : List (Nat × Ty)) (ps : List Ty), args.map (·.2) = ps →
    ps.map convertOr = ps →
    List.Forall₂ (fun a a' => a'.1 = a.1 ∧ BecomesSig a.2 a'.2) args args
  | [], _, _, _ => .nil
  | a :: args, ps, h, hc => by
    subst h
    simp only [List.map_cons, List.cons.injEq] at hc
    exact .cons ⟨rfl, becomesSig_iff.2 hc.1.symm⟩ (args_fixed args _ rfl hc.2)

/-! ### One operation -/

theorem visit_func {d : OpData} {bs bv : List Block} (hw : WellFormed d bs) (hf : IsFunc d)
    (hargs : bv.map Block.args = bs.map Block.args) :
    ∃ d' bs', (patterns d bv).getD (.mk d bv) = .mk d' bs' ∧ Normalised (d, bs) (d', bs') ∧
      SameOps bv bs' := by
  have hnc : ¬ IsCall d := by
    rintro ⟨-, h | h⟩ <;> rw [hf.2] at h <;> simp at h
  obtain ⟨hop, hres, t, ht, hreg, hdecl⟩ := hw.func hf
  have hent := entryArgs_of_args hargs
  have hdrop := drop_args hargs
  rw [patterns_func hf]
  cases hp : rewriteSignature d bv with
  | none =>
    have hcs : convertSignature t = none := by
      cases hcs : convertSignature t with
      | none => rfl
      | some x =>
        exfalso
        obtain ⟨t', c⟩ := x
        simp only [rewriteSignature, ht, hcs] at hp
        obtain ⟨h1, h2, h3, -⟩ := convertSignature_image hcs
        cases c with
        | false => simp at hp
        | true =>
          simp only [if_true] at hp
          cases hr : d.hasRegion with
          | false => simp [updateEntry, hr] at hp
          | true =>
            obtain ⟨hne, hty⟩ := hreg hr
            rw [← hent] at hty
            cases bv with
            | nil =>
              cases bs with
              | nil => exact hne rfl
              | cons b bs => simp at hargs
            | cons b bv =>
              obtain ⟨args, ops⟩ := b
              simp only [entryArgs] at hty
              have hlen : args.length = t'.params.length := by
                rw [h2, ← hty]; simp
              simp [updateEntry, hr, hlen] at hp
    obtain ⟨h1, h2⟩ := convertSignature_none hcs
    refine ⟨d, bv, rfl, ?_, .refl _⟩
    refine ⟨⟨rfl, rfl, rfl, rfl⟩, ?_, fun _ _ => rfl, fun _ => ⟨fun _ _ => rfl, ?_⟩,
      fun h => absurd h hnc, fun h => absurd h hnc, fun _ => ?_, hdrop, fun h => absurd hf h⟩
    · simp only [hres]; exact .nil
    · intro t₀ ht₀
      simp only [ht, Option.some.injEq, Attr.type.injEq] at ht₀
      subst ht₀
      refine ⟨t, ht, becomesSig_iff.2 h1.symm, forall₂_refl _ ?_⟩
      intro x hx
      rw [becomesSig_iff]
      have := List.map_inj_left (f := convertOr) (g := id) (l := t.params)
      simp only [List.map_id] at this
      exact (this.1 h2 x hx).symm
    · simp only [hent]
      cases hr : d.hasRegion with
      | true => exact args_fixed _ _ (hreg hr).2 h2
      | false => rw [hdecl hr]; exact .nil
  | some o =>
    obtain ⟨t₁, t', c, bs', ht₁, hcs, hb, rfl⟩ := rewriteSignature_some hp
    rw [ht] at ht₁
    simp only [Option.some.injEq, Attr.type.injEq] at ht₁
    subst ht₁
    obtain ⟨h1, h2, h3, -⟩ := convertSignature_image hcs
    have hsame : SameOps bv bs' := by
      split at hb
      · exact updateEntry_same hb
      · cases hb; exact .refl _
    refine ⟨_, bs', rfl, ?_, hsame⟩
    refine ⟨⟨rfl, rfl, hop.symm, rfl⟩, ?_, fun h => absurd hf h,
      fun _ => ⟨fun k hk => lookup_setType_ne _ k hk _, ?_⟩,
      fun h => absurd h hnc, fun h => absurd h hnc, fun _ => ?_, ?_, fun h => absurd hf h⟩
    · simp only [hres]; exact .nil
    · intro t₀ ht₀
      simp only [ht, Option.some.injEq, Attr.type.injEq] at ht₀
      subst ht₀
      refine ⟨t', lookup_setType t t' _ ht, becomesSig_iff.2 h1, ?_⟩
      rw [h2]
      exact forall₂_map _ _ (fun x _ => becomesSig_iff.2 rfl)
    · cases hr : d.hasRegion with
      | false =>
        have hbs := hdecl hr
        subst hbs
        have hbv : bv = [] := by simpa using hargs
        subst hbv
        have : bs' = [] := by
          cases bs' with
          | nil => rfl
          | cons b bs' => exact hsame.elim
        subst this
        exact .nil
      | true =>
        obtain ⟨hne, hty⟩ := hreg hr
        cases c with
        | true =>
          simp only [if_true] at hb
          cases bv with
          | nil =>
            cases bs with
            | nil => exact absurd rfl hne
            | cons b bs => simp at hargs
          | cons b bv =>
            obtain ⟨args, ops⟩ := b
            have hent' : args = entryArgs bs := hent
            subst hent'
            have hlen : (entryArgs bs).length = t'.params.length := by rw [h2, ← hty]; simp
            have hb' : some (Block.mk ((entryArgs bs).zipWith (fun a t => (a.1, t)) t'.params) ops :: bv) =
                some bs' := by
              simpa [updateEntry, hr, hlen] using hb
            cases hb'
            simp only [h2]
            exact zip_converted _ _ hty
        | false =>
          simp only [Bool.false_eq_true, if_false, Option.some.injEq] at hb
          subst hb
          simp only [hent]
          exact args_fixed _ _ hty (by rw [← h2]; exact h3 rfl)
    · simp only [sameOps_drop hsame, hdrop]

theorem visit_call {d : OpData} {bs : List Block} (hw : WellFormed d bs) (hc : IsCall d) :
    ∃ d', (patterns d []).getD (.mk d []) = .mk d' [] ∧ Normalised (d, bs) (d', []) := by
  have hnf : ¬ IsFunc d := by
    rintro ⟨-, h⟩
    rcases hc.2 with h' | h' <;> rw [h] at h' <;> simp at h'
  obtain ⟨⟨⟨v, t⟩, hr⟩, rfl, hreg⟩ := hw.call hc
  obtain ⟨hd, hn⟩ := hc
  cases ht : convertPrimitive t with
  | none =>
    have hp : patterns d [] = none := by
      rcases hn with hn | hn
      · rw [patterns_call hd hn]; simp [normalizeCall, hr, ht]
      · rw [patterns_ind hd hn]; simp [normalizeCallIndirect, hr, ht]
    rw [hp]
    refine ⟨d, rfl, ⟨rfl, rfl, rfl, rfl⟩, ?_, fun _ _ => rfl, fun h => absurd h hnf,
      fun _ _ => rfl, fun _ _ => rfl, fun h => absurd h hnf, rfl, fun _ => rfl⟩
    simp only [hr]
    exact .cons ⟨rfl, prim_none ht⟩ .nil
  | some t' =>
    have hb : BecomesPrim t t' := by rw [becomesPrim_iff, ht]; rfl
    have hp' := convertPrimitive_iff.1 ht
    rcases hn with hn | hn
    · have hp : patterns d [] = some (.mk { dialect := "func", name := "call", attrs := d.attrs.filter (·.1 == "callee"), operands := d.operands, results := [(v, t')] } []) := by
        rw [patterns_call hd hn]
        simp [normalizeCall, hr, ht, hd, hn]
      rw [hp]
      refine ⟨_, rfl, ⟨hd.symm, hn.symm, rfl, hreg.symm⟩, ?_, fun _ h => absurd ⟨hd, .inl hn⟩ h,
        fun h => absurd h hnf, fun _ _ => ?_, fun _ h => ?_, fun h => absurd h hnf, rfl,
        fun _ => rfl⟩
      · simp only [hr]
        exact .cons ⟨rfl, hb⟩ .nil
      · generalize d.attrs = l
        induction l with
        | nil => rfl
        | cons e l ih =>
          obtain ⟨k, a⟩ := e
          by_cases hk : k = "callee"
          · subst hk; simp
          · have hb1 : (k == "callee") = false := by simpa using hk
            have hb2 : ("callee" == k) = false := by simpa using fun e => hk e.symm
            simp only [List.filter_cons, hb1, Bool.false_eq_true, if_false, List.lookup_cons, hb2]
            exact ih
      · exact absurd ⟨t', hp'⟩ (h (v, t) (by simp [hr]))
    · have hop := hw.callee hd hn
      have hp : patterns d [] = some (.mk { dialect := "func", name := "call_indirect", operands := d.operands, results := [(v, t')] } []) := by
        rw [patterns_ind hd hn]
        have : d.operands.isEmpty = false := by simpa using hop
        simp [normalizeCallIndirect, hr, ht, hd, hn, this]
      rw [hp]
      refine ⟨_, rfl, ⟨hd.symm, hn.symm, rfl, hreg.symm⟩, ?_, fun _ h => absurd ⟨hd, .inr hn⟩ h,
        fun h => absurd h hnf, fun _ h => ?_, fun _ h => ?_, fun h => absurd h hnf, rfl,
        fun _ => rfl⟩
      · simp only [hr]
        exact .cons ⟨rfl, hb⟩ .nil
      · simp only [hn] at h
        simp at h
      · exact absurd ⟨t', hp'⟩ (h (v, t) (by simp [hr]))

theorem visit_else {d : OpData} {bs bv : List Block} (hf : ¬ IsFunc d) (hc : ¬ IsCall d)
    (hargs : bv.map Block.args = bs.map Block.args) :
    ∃ d', (patterns d bv).getD (.mk d bv) = .mk d' bv ∧ Normalised (d, bs) (d', bv) := by
  rw [patterns_else hf hc]
  have hdrop := drop_args hargs
  by_cases ha : d.results.any (fun r => (convertPrimitive r.2).isSome) = true
  · refine ⟨{ d with results := d.results.map fun r => (r.1, (convertPrimitive r.2).getD r.2) },
      by rw [normalizeResults, ha, not_handled hf hc]; simp, ⟨rfl, rfl, rfl, rfl⟩, ?_,
      fun _ _ => rfl, fun h => absurd h hf, fun h => absurd h hc, fun h => absurd h hc,
      fun h => absurd h hf, hdrop, fun _ => hargs⟩
    exact forall₂_map _ _ (fun r _ => ⟨rfl, becomesPrim_iff.2 rfl⟩)
  · refine ⟨d, by simp only [normalizeResults, Bool.not_eq_true] at ha ⊢; simp [ha], ⟨rfl, rfl, rfl, rfl⟩, ?_,
      fun _ _ => rfl, fun h => absurd h hf, fun h => absurd h hc, fun h => absurd h hc,
      fun h => absurd h hf, hdrop, fun _ => hargs⟩
    refine forall₂_refl _ (fun r hr => ⟨rfl, prim_none ?_⟩)
    simp only [List.any_eq_true, not_exists, not_and] at ha
    have := ha r hr
    simpa using this

theorem visitOp_getD (d : OpData) (blocks : List Block) :
    (visitOp (.mk d blocks)).1 =
      (patterns d (visitBlocks blocks).1).getD (.mk d (visitBlocks blocks).1) := by
  rw [visitOp]
  cases patterns d (visitBlocks blocks).1 <;> rfl

mutual
theorem op_normalised : ∀ o : Op, (∀ e ∈ o.all, WellFormed e.1 e.2) →
    List.Forall₂ Normalised o.all (visitOp o).1.all
  | .mk d bs, hw => by
    have hd : WellFormed d bs := hw (d, bs) (by simp [Op.all])
    have hin : ∀ e ∈ blocksAll bs, WellFormed e.1 e.2 :=
      fun e he => hw e (by simp [Op.all, he])
    have ih := blocks_normalised bs hin
    have hargs := visitBlocks_args bs
    rw [visitOp_getD]
    by_cases hf : IsFunc d
    · obtain ⟨d', bs', h1, h2, h3⟩ := visit_func hd hf hargs
      rw [h1, Op.all, Op.all, sameOps_all h3]
      exact .cons h2 ih
    · by_cases hc : IsCall d
      · obtain ⟨-, hbs, -⟩ := hd.call hc
        obtain ⟨d', h1, h2⟩ := visit_call hd hc
        subst hbs
        rw [show (visitBlocks []).1 = ([] : List Block) from rfl, h1, Op.all, Op.all]
        exact .cons h2 ih
      · obtain ⟨d', h1, h2⟩ := visit_else hf hc hargs
        rw [h1, Op.all, Op.all]
        exact .cons h2 ih
theorem blocks_normalised : ∀ bs : List Block, (∀ e ∈ blocksAll bs, WellFormed e.1 e.2) →
    List.Forall₂ Normalised (blocksAll bs) (blocksAll (visitBlocks bs).1)
  | [], _ => .nil
  | b :: bs, hw => by
    have h1 := block_normalised b (fun e he => hw e (by simp [blocksAll, he]))
    have h2 := blocks_normalised bs (fun e he => hw e (by simp [blocksAll, he]))
    simp only [visitBlocks, blocksAll]
    exact List.rel_append h1 h2
theorem block_normalised : ∀ b : Block, (∀ e ∈ b.all, WellFormed e.1 e.2) →
    List.Forall₂ Normalised b.all (visitBlock b).1.all
  | .mk args ops, hw => by
    have h := ops_normalised ops (fun e he => hw e (by simp [Block.all, he]))
    simp only [visitBlock, Block.all]
    exact h
theorem ops_normalised : ∀ os : List Op, (∀ e ∈ opsAll os, WellFormed e.1 e.2) →
    List.Forall₂ Normalised (opsAll os) (opsAll (visitOps os).1)
  | [], _ => .nil
  | o :: os, hw => by
    have h1 := op_normalised o (fun e he => hw e (by simp [opsAll, he]))
    have h2 := ops_normalised os (fun e he => hw e (by simp [opsAll, he]))
    simp only [visitOps, opsAll]
    exact List.rel_append h1 h2
end

end Verif.PrimNorm
