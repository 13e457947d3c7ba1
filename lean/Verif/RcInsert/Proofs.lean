import Verif.RcInsert.Spec
import Verif.Live.Proofs
import Mathlib.Data.List.Nodup
import Mathlib.Tactic.ByContra
import Mathlib.Tactic.Push

namespace Verif.RcInsert

open Verif.Live

/-! ## What the analysis provides -/

/-- The consequences of `Regular` and of the analysis that the proofs use. -/
structure Facts (c : Config) (l : Live) : Prop where
  good : Good c.inp
  gone : ∀ v p, c.inp.alias_.lookup v = some p → v ∉ c.inp.ptrs
  rootp : ∀ v p, c.inp.alias_.lookup v = some p → p ∈ c.inp.ptrs
  fixed : Fixed c.inp l
  inPtrs : ∀ b v, v ∈ l.liveIn b → v ∈ c.inp.ptrs
  argPtrs : ∀ blk ∈ c.inp.body, ∀ v ∈ blk.args, c.inp.info.anyref v = true → v ∈ c.inp.ptrs
  loadPtrs : ∀ b i op, At c b i op → op.kind = .load → ∀ v ∈ op.results, c.inp.info.anyref v = true → v ∈ c.inp.ptrs
  liveIn0 : ∀ v, v ∉ l.liveIn 0
  interm : ∀ v b, c.interm v = true → v ∉ l.liveIn b
  jumpOut : ∀ b v, v ∈ c.inp.ptrs → ¬ LiveOut c.inp v b → v ∉ l.liveOut b

theorem loop_below {inp : Input} (fuel : Nat) (l : Live) (hl : Below inp l) {m : Live} (h : loop inp fuel l = some m) :
    Below inp m := by
  induction fuel generalizing l with
  | zero => simp [loop] at h
  | succ n ih =>
    rw [loop] at h
    split at h
    · exact ih _ (round_grows hl).1 h
    · injection h with h
      subst h
      exact (round_grows hl).1

theorem ptrs_kept {I : Info} {v : Nat} (ops : List Op) (st : Aliases) (hv : v ∈ st.ptrs)
    (hn : ∀ op ∈ ops, op.kind = .cast → v ∉ op.results) : v ∈ (ops.foldl (aliasStep I) st).ptrs := by
  induction ops generalizing st with
  | nil => exact hv
  | cons op ops ih =>
    apply ih _ _ (fun o ho => hn o (List.mem_cons_of_mem _ ho))
    rw [aliasStep]
    split
    · rename_i hk
      split
      · rename_i input output _ ho
        have hne : v ≠ output := by
          rintro rfl
          exact hn op (by simp) hk (List.mem_of_mem_head? ho)
        split
        · split
          · exact hv
          · exact List.mem_filter.2 ⟨hv, by simpa using hne⟩
        · exact hv
      · exact hv
    · exact hv

theorem facts {c : Config} {I : Info} {body : Body} {deps : List (Nat × Nat)} (hc : c.inp = analyse I body deps)
    (hr : Regular c) {fuel : Nat} {l : Live} (hl : liveness c.inp fuel = some l) : Facts c l := by
  have hg : Good c.inp := by
    have := hr.args
    rw [hc] at this ⊢
    exact fun p hp => ptrValues_good (fun b hb v hv => (this b hb v hv).1) (aliases_ptrs hp)
  obtain ⟨h1, h2⟩ := loop_fixed hg fuel start (start_sound _) hl
  have hbel := loop_below fuel start (start_below _) hl
  have hcasts := hr.casts
  have hbody : c.inp.body = body := by rw [hc]; rfl
  rw [hbody] at hcasts
  have hi := aliases_inv (I := I) (B := ptrValues I body) (body.flatMap (·.ops)) [] _ (by simpa using hcasts) aliases_start
  have hal : c.inp.alias_ = (aliases I body).map := by rw [hc]; rfl
  have hpt : c.inp.ptrs = (aliases I body).ptrs := by rw [hc]; rfl
  have hin : c.inp.info = I := by rw [hc]; rfl
  have rootp : ∀ v p, c.inp.alias_.lookup v = some p → p ∈ c.inp.ptrs := by
    intro v p h
    rw [hal] at h
    rw [hpt]
    exact (hi.sound v p h).2.1
  have inP : ∀ v, v ∈ everything c.inp → v ∈ c.inp.ptrs := by
    intro v hv
    simp only [everything, List.mem_flatMap] at hv
    obtain ⟨blk, -, op, -, w, -, ht⟩ := hv
    simp only [touched, List.mem_append, Option.mem_toList, Option.mem_def] at ht
    rcases ht with (ht | ht) | ht
    · split at ht
      · simp only [List.mem_singleton] at ht
        subst ht
        rename_i h
        simpa using h
      · cases ht
    · exact rootp _ _ ht
    · rw [mem_owners] at ht
      rcases Relation.TransGen.tail'_iff.1 ht with ⟨x, -, hx⟩
      exact hr.owners_tracked _ _ hx
  refine ⟨hg, ?_, rootp, h2, fun b v hv => inP v (hbel.2.1 b v hv), ?_, ?_, ?_, ?_, ?_⟩
  · intro v p h
    rw [hal] at h
    rw [hpt]
    exact hi.gone v p h
  · intro blk hb v hv ha
    rw [hpt]
    apply ptrs_kept
    · rw [hbody] at hb
      rw [hin] at ha
      simp only [ptrValues, List.mem_append, List.mem_flatMap, List.mem_filter]
      exact Or.inl ⟨blk, hb, Or.inl ⟨hv, ha⟩⟩
    · intro op hop _
      obtain ⟨b', hb', hop'⟩ := List.mem_flatMap.1 hop
      exact (hr.args blk hb v hv).2 b' (hbody ▸ hb') op hop'
  · rintro b i op ⟨blk, hb, ho⟩ hk v hv ha
    obtain ⟨-, hs, hn⟩ := hr.loads b i op ⟨blk, hb, ho⟩ hk v hv
    rw [hpt]
    apply ptrs_kept
    · rw [hbody] at hb
      rw [hin] at ha hs
      simp only [ptrValues, List.mem_append, List.mem_flatMap, List.mem_filter, Bool.and_eq_true, Bool.not_eq_true']
      exact Or.inl ⟨blk, List.mem_of_getElem? hb, Or.inr ⟨op, List.mem_of_getElem? ho, hv, ha, hs⟩⟩
    · intro op hop hk
      obtain ⟨b', hb', hop'⟩ := List.mem_flatMap.1 hop
      exact hn b' (hbody ▸ hb') op hop' hk
  · intro v hv
    exact hr.entry v (inP v (hbel.2.1 0 v hv)) ((h1 v (inP v (hbel.2.1 0 v hv)) 0).1 hv)
  · intro v b hi hv
    exact hr.interm_local v b hi ((h1 v (inP v (hbel.2.1 b v hv)) b).1 hv)
  · intro b v hv hn hm
    exact hn ((h1 v hv b).2 hm)

section
variable {c : Config} {l : Live}

theorem Facts.root_self (F : Facts c l) {v : Nat} (h : v ∈ c.inp.ptrs) : rootOf c.inp v = v := by
  simp only [rootOf]
  cases hl : c.inp.alias_.lookup v with
  | none => rfl
  | some p => exact absurd h (F.gone v p hl)

theorem Facts.root_touched (F : Facts c l) {v : Nat} (h : rootOf c.inp v ∈ c.inp.ptrs) : rootOf c.inp v ∈ touched c.inp v := by
  simp only [rootOf] at h ⊢
  simp only [touched, List.mem_append, Option.mem_toList, Option.mem_def]
  cases hl : c.inp.alias_.lookup v with
  | none =>
    rw [hl] at h
    simp only [Option.getD_none] at h ⊢
    have : c.inp.ptrs.contains v = true := by simpa using h
    left; left
    rw [this]
    simp
  | some p => left; right; rfl

theorem Facts.out_iff (F : Facts c l) {b : Nat} {blk : Block} (hb : c.inp.body[b]? = some blk) {v : Nat} :
    v ∈ l.liveOut b ↔ ∃ s ∈ succsOf blk, v ∈ l.liveIn s := by
  rw [← (F.fixed b blk hb).2]
  simp only [newOut, List.mem_flatMap]

theorem Facts.in_iff (F : Facts c l) {b : Nat} {blk : Block} (hb : c.inp.body[b]? = some blk) {v : Nat} :
    v ∈ l.liveIn b ↔ v ∈ (useDef c.inp blk).uses ∨ (v ∈ l.liveOut b ∧ v ∉ (useDef c.inp blk).defs) := by
  rw [← (F.fixed b blk hb).1, mem_newIn, (F.fixed b blk hb).2]

theorem Facts.outPtrs (F : Facts c l) {b : Nat} {blk : Block} (hb : c.inp.body[b]? = some blk) {v : Nat}
    (h : v ∈ l.liveOut b) : v ∈ c.inp.ptrs := by
  obtain ⟨s, -, hs⟩ := (F.out_iff hb).1 h
  exact F.inPtrs s v hs

/-! ## Lists -/

theorem mem_uniq {v : Nat} {vs : List Nat} : v ∈ uniq vs ↔ v ∈ vs := by
  induction vs with
  | nil => simp [uniq]
  | cons w vs ih =>
    simp only [uniq]
    split
    · rename_i h
      rw [ih, List.mem_cons]
      constructor
      · exact Or.inr
      · rintro (rfl | h')
        · simpa using h
        · exact h'
    · rw [List.mem_cons, List.mem_cons, ih]

theorem nodup_uniq (vs : List Nat) : (uniq vs).Nodup := by
  induction vs with
  | nil => simp [uniq]
  | cons w vs ih =>
    simp only [uniq]
    split
    · exact ih
    · rename_i h
      rw [List.nodup_cons]
      refine ⟨?_, ih⟩
      rw [mem_uniq]
      simpa using h

theorem insertBy_perm (key : Nat → Nat) (v : Nat) (vs : List Nat) : (insertBy key v vs).Perm (v :: vs) := by
  induction vs with
  | nil => exact List.Perm.refl _
  | cons w vs ih =>
    simp only [insertBy]
    split
    · exact List.Perm.refl _
    · exact (List.Perm.cons w ih).trans (List.Perm.swap v w vs)

theorem sortBy_perm (key : Nat → Nat) (vs : List Nat) : (sortBy key vs).Perm vs := by
  induction vs with
  | nil => exact List.Perm.refl _
  | cons w vs ih => exact (insertBy_perm key w _).trans (List.Perm.cons w ih)

theorem nodup_dying (c : Config) (l : Live) (b : Nat) (blk : Block) : (dying c l b blk).Nodup :=
  (sortBy_perm _ _).nodup_iff.2 (nodup_uniq _)

theorem mem_dying {b : Nat} {blk : Block} {v : Nat} : v ∈ dying c l b blk ↔
    diesIn c l b blk v = true ∧ (v ∈ l.liveIn b ∨ (v ∈ (useDef c.inp blk).defs ∧ c.interm v = false)) := by
  rw [dying, (sortBy_perm _ _).mem_iff, dyingSet, mem_uniq]
  simp only [List.mem_append, List.mem_filter, Bool.and_eq_true, Bool.not_eq_true']
  constructor
  · rintro (⟨h1, h2⟩ | ⟨h1, h2, h3⟩)
    · exact ⟨h2, Or.inl h1⟩
    · exact ⟨h2, Or.inr ⟨h1, h3⟩⟩
  · rintro ⟨h1, h2 | ⟨h2, h3⟩⟩
    · exact Or.inl ⟨h2, h1⟩
    · exact Or.inr ⟨h2, h1, h3⟩

theorem diesIn_iff {b : Nat} {blk : Block} {v : Nat} : diesIn c l b blk v = true ↔
    v ∉ l.liveOut b ∧ v ∉ returned c.inp blk ∧ v ∉ transferredFrom c b 0 blk.ops ∧ v ∉ c.params ∧ v ∉ c.temps := by
  simp only [diesIn, Bool.and_eq_true, Bool.not_eq_true', List.contains_eq_mem, decide_eq_false_iff_not]
  tauto

theorem mem_releasesAt {b : Nat} {blk : Block} {v : Nat} {p : Place} : v ∈ releasesAt c l b blk p ↔
    v ∈ dying c l b blk ∧ placeOf c l b blk v = p := by
  simp [releasesAt]

theorem nodup_releasesAt (b : Nat) (blk : Block) (p : Place) : (releasesAt c l b blk p).Nodup :=
  (nodup_dying c l b blk).filter _

theorem mem_defs' (F : Facts c l) {blk : Block} (hb : blk ∈ c.inp.body) {v : Nat} (h : v ∈ (useDef c.inp blk).defs) :
    v ∈ c.inp.ptrs := by
  have key : ∀ (ops : List Op) (s : UseDef), v ∈ (ops.foldl (useDefStep c.inp) s).defs → v ∈ s.defs ∨ v ∈ c.inp.ptrs := by
    intro ops
    induction ops with
    | nil => exact fun s h => Or.inl h
    | cons op ops ih =>
      intro s h
      rw [List.foldl_cons] at h
      rcases ih _ h with h | h
      · simp only [useDefStep, List.mem_append] at h
        rcases h with h | h
        · simp only [defined, List.mem_filter, Bool.and_eq_true] at h
          exact Or.inr (by simpa using h.2.2)
        · exact Or.inl h
      · exact Or.inr h
  rcases key _ _ h with h | h
  · simp only [List.mem_filter] at h
    exact F.argPtrs blk hb v h.1 h.2
  · exact h

theorem dying_ptrs (F : Facts c l) {b : Nat} {blk : Block} (hb : c.inp.body[b]? = some blk) {v : Nat}
    (h : v ∈ dying c l b blk) : v ∈ c.inp.ptrs := by
  rcases (mem_dying.1 h).2 with h | h
  · exact F.inPtrs b v h
  · exact mem_defs' F (List.mem_of_getElem? hb) h.1

theorem dying_owned (F : Facts c l) {b : Nat} {blk : Block} (hb : c.inp.body[b]? = some blk) {v : Nat}
    (h : v ∈ dying c l b blk) : Owned c v := by
  have hp := dying_ptrs F hb h
  obtain ⟨h1, h2⟩ := mem_dying.1 h
  rw [diesIn_iff] at h1
  refine ⟨hp, h1.2.2.2.1, h1.2.2.2.2, ?_⟩
  rcases h2 with h2 | h2
  · cases hi : c.interm v with
    | false => rfl
    | true => exact absurd h2 (F.interm v b hi)
  · exact h2.2

/-! ## The last use -/

theorem lastUse_some {inp : Input} {v : Nat} {i j : Nat} {ops : List Op} (h : lastUse inp v i ops = some j) :
    ∃ k op, j = i + k ∧ ops[k]? = some op ∧ v ∈ op.operands.flatMap (touched inp) ∧
      ∀ (m : Nat) (o : Op), k < m → ops[m]? = some o → v ∉ o.operands.flatMap (touched inp) := by
  induction ops generalizing i with
  | nil => simp [lastUse] at h
  | cons op ops ih =>
    simp only [lastUse] at h
    cases hl : lastUse inp v (i + 1) ops with
    | some j' =>
      rw [hl] at h
      cases h
      obtain ⟨k, o, e1, e2, e3, e4⟩ := ih hl
      refine ⟨k + 1, o, by omega, by simpa using e2, e3, ?_⟩
      intro m o' hm ho'
      cases m with
      | zero => omega
      | succ m => exact e4 m o' (by omega) (by simpa using ho')
    | none =>
      rw [hl] at h
      simp only at h
      split at h
      · rename_i hc
        cases h
        refine ⟨0, op, rfl, rfl, by simpa using hc, ?_⟩
        intro m o' hm ho'
        cases m with
        | zero => omega
        | succ m =>
          have : ∀ (i : Nat) (ops : List Op), lastUse inp v i ops = none → ∀ (m : Nat) (o : Op), ops[m]? = some o →
              v ∉ o.operands.flatMap (touched inp) := by
            intro i ops
            induction ops generalizing i with
            | nil => intro _ m o ho; simp at ho
            | cons op ops ih' =>
              intro hn m o ho
              simp only [lastUse] at hn
              cases hl' : lastUse inp v (i + 1) ops with
              | some j => rw [hl'] at hn; cases hn
              | none =>
                rw [hl'] at hn
                simp only at hn
                split at hn
                · cases hn
                · rename_i hc'
                  cases m with
                  | zero => simp at ho; subst ho; simpa using hc'
                  | succ m => exact ih' (i + 1) hl' m o (by simpa using ho)
          exact this _ _ hl m o' (by simpa using ho')
      · cases h

theorem lastUse_none {inp : Input} {v : Nat} {i : Nat} {ops : List Op} (h : lastUse inp v i ops = none) :
    ∀ (m : Nat) (o : Op), ops[m]? = some o → v ∉ o.operands.flatMap (touched inp) := by
  induction ops generalizing i with
  | nil => intro m o ho; simp at ho
  | cons op ops ih =>
    intro m o ho
    simp only [lastUse] at h
    cases hl : lastUse inp v (i + 1) ops with
    | some j => rw [hl] at h; cases h
    | none =>
      rw [hl] at h
      simp only at h
      split at h
      · cases h
      · rename_i hc
        cases m with
        | zero => simp at ho; subst ho; simpa using hc
        | succ m => exact ih hl m o (by simpa using ho)

/-- What the place of a release says. -/
theorem place_cases {b : Nat} {blk : Block} {v : Nat} :
    (∃ j op, blk.ops[j]? = some op ∧ v ∈ op.operands.flatMap (touched c.inp) ∧
      (∀ (m : Nat) (o : Op), j < m → blk.ops[m]? = some o → v ∉ o.operands.flatMap (touched c.inp)) ∧
      (((op.kind = .ret ∨ op.kind = .jump) ∧ placeOf c l b blk v = .nowhere) ∨
       (op.kind ≠ .ret ∧ op.kind ≠ .jump ∧ isTerminator op = true ∧ placeOf c l b blk v = .before j) ∨
       (isTerminator op = false ∧ placeOf c l b blk v = .after j))) ∨
    ((∀ (m : Nat) (o : Op), blk.ops[m]? = some o → v ∉ o.operands.flatMap (touched c.inp)) ∧
      ((v ∈ l.liveIn b ∧ placeOf c l b blk v = .start) ∨
       (v ∉ l.liveIn b ∧ (∃ i op, blk.ops[i]? = some op ∧ v ∈ op.results ∧
          (∀ (j : Nat) (o : Op), j < i → blk.ops[j]? = some o → v ∉ o.results) ∧ placeOf c l b blk v = .after i)) ∨
       (v ∉ l.liveIn b ∧ (∀ op ∈ blk.ops, v ∉ op.results) ∧ placeOf c l b blk v = .start))) := by
  cases hl : lastUse c.inp v 0 blk.ops with
  | some j =>
    obtain ⟨k, op, e1, e2, e3, e4⟩ := lastUse_some hl
    have ejk : j = k := by omega
    subst ejk
    refine Or.inl ⟨j, op, e2, e3, e4, ?_⟩
    simp only [placeOf, hl, e2]
    by_cases h1 : op.kind = .ret ∨ op.kind = .jump
    · left
      refine ⟨h1, ?_⟩
      rw [if_pos (by simpa using h1)]
    · right
      rw [if_neg (by simpa using h1)]
      rw [not_or] at h1
      by_cases h2 : isTerminator op = true
      · left
        exact ⟨h1.1, h1.2, h2, if_pos h2⟩
      · right
        exact ⟨by simpa using h2, if_neg h2⟩
  | none =>
    refine Or.inr ⟨lastUse_none hl, ?_⟩
    simp only [placeOf, hl]
    by_cases hi : v ∈ l.liveIn b
    · left
      exact ⟨hi, if_pos (by simpa using hi)⟩
    · right
      have hi' : ¬ (l.liveIn b).contains v = true := by simpa using hi
      rw [if_neg hi']
      cases hf : blk.ops.findIdx? (fun op => op.results.contains v) with
      | some i =>
        left
        obtain ⟨hlt, h1, h2⟩ := List.findIdx?_eq_some_iff_getElem.1 hf
        refine ⟨hi, i, blk.ops[i], List.getElem?_eq_getElem hlt, by simpa using h1, ?_, rfl⟩
        intro j o hj ho
        have := h2 j hj
        obtain ⟨hjl, rfl⟩ := List.getElem?_eq_some_iff.1 ho
        simpa using this
      | none =>
        right
        rw [List.findIdx?_eq_none_iff] at hf
        refine ⟨hi, fun op hop => by simpa using hf op hop, rfl⟩

end

end Verif.RcInsert
