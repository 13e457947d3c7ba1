import Verif.Validate.Spec

/-! # Lemmas about the validators -/
namespace Verif.Validate

/-! ### The walk -/

theorem holds_iff (r : Region) (o : Op) : Holds r o ↔ o ∈ topOps r := by
  induction r with
  | nil => simp [Holds, topOps]
  | cons b bs ih =>
    cases b with
    | mk a ops =>
      simp only [Holds, topOps, List.mem_append, List.mem_cons, exists_eq_or_imp, Block.ops] at ih ⊢
      rw [← ih]

theorem topOps_eq (r : Region) : topOps r = r.flatMap Block.ops := by
  induction r with
  | nil => rfl
  | cons b bs ih => cases b; simp [topOps, ih, Block.ops]

theorem defines_iff (r : Region) (v : Nat) : Defines r v ↔ v ∈ regionTopLevel r := by
  induction r with
  | nil => simp [Defines, regionTopLevel]
  | cons b bs ih =>
    cases b with
    | mk a ops =>
      simp only [Defines, regionTopLevel, List.mem_append, List.mem_cons, exists_eq_or_imp,
        Block.ops, Block.args, List.mem_flatMap] at ih ⊢
      rw [← ih]

/-- The operation itself or something below it. -/
def Reach (p o : Op) : Prop := p = o ∨ ∃ s ∈ p.regions, Under s o

theorem under_iff (r : Region) (o : Op) : Under r o ↔ ∃ p, Holds r p ∧ Reach p o := by
  constructor
  · rintro ⟨rs, h⟩
    cases h with
    | here h => exact ⟨o, h, .inl rfl⟩
    | inside h hs hp => exact ⟨_, h, .inr ⟨_, hs, _, hp⟩⟩
  · rintro ⟨p, h, rfl | ⟨s, hs, rs, hp⟩⟩
    · exact ⟨_, .here h⟩
    · exact ⟨_, .inside h hs hp⟩

theorem blocks_cons (a : List Nat) (ops : List Op) (bs : List Block) (Q : Op → Prop) :
    (∃ p, Holds (.mk a ops :: bs) p ∧ Q p) ↔ (∃ p ∈ ops, Q p) ∨ ∃ p, Holds bs p ∧ Q p := by
  constructor
  · rintro ⟨p, ⟨b, hb, hp⟩, hq⟩
    rcases List.mem_cons.1 hb with rfl | hb
    · exact .inl ⟨p, hp, hq⟩
    · exact .inr ⟨p, ⟨b, hb, hp⟩, hq⟩
  · rintro (⟨p, hp, hq⟩ | ⟨p, ⟨b, hb, hp⟩, hq⟩)
    · exact ⟨p, ⟨_, List.mem_cons_self, hp⟩, hq⟩
    · exact ⟨p, ⟨b, List.mem_cons_of_mem _ hb, hp⟩, hq⟩

theorem blocks_nil (Q : Op → Prop) : ¬ ∃ p, Holds [] p ∧ Q p := by
  rintro ⟨p, ⟨b, hb, _⟩, _⟩; cases hb

mutual
theorem mem_walkRegion (o : Op) : ∀ bs, o ∈ walkRegion bs ↔ Under bs o
  | [] => by rw [under_iff]; simp only [walkRegion, List.not_mem_nil, false_iff]; exact blocks_nil _
  | .mk a ops :: bs => by
    rw [under_iff, blocks_cons, ← under_iff, ← mem_walkRegion o bs, ← mem_walkOps o ops]
    simp [walkRegion]
theorem mem_walkOps (o : Op) : ∀ ops, o ∈ walkOps ops ↔ ∃ p ∈ ops, Reach p o
  | [] => by simp [walkOps]
  | .mk h rs :: ops => by
    have h1 := mem_walkRegions o rs
    have h2 := mem_walkOps o ops
    simp only [walkOps, List.cons_append, List.mem_cons, List.mem_append, h1, h2, exists_eq_or_imp,
      Reach, Op.regions]
    rw [← or_assoc, eq_comm (a := o)]
theorem mem_walkRegions (o : Op) : ∀ rs, o ∈ walkRegions rs ↔ ∃ s ∈ rs, Under s o
  | [] => by simp [walkRegions]
  | r :: rs => by
    have h1 := mem_walkRegion o r
    have h2 := mem_walkRegions o rs
    simp [walkRegions, h1, h2]
end

/-! ### Scope -/

theorem mem_staleOperands (vis : List Nat) (fn : String) (h : Head) (e : Stale) :
    ∀ vs k, e ∈ staleOperands vis fn h k vs ↔
      ∃ i v, vs[i]? = some v ∧ v ∉ vis ∧ e = ⟨fn, h.dialect, h.name, k + i⟩
  | [], k => by simp [staleOperands]
  | v :: vs, k => by
    rw [staleOperands, List.mem_append, mem_staleOperands vis fn h e vs (k + 1)]
    constructor
    · rintro (hh | ⟨i, w, hw, hn, rfl⟩)
      · by_cases hv : v ∈ vis
        · simp [hv] at hh
        · refine ⟨0, v, rfl, hv, ?_⟩
          simpa [hv] using hh
      · exact ⟨i + 1, w, by simpa using hw, hn, by simp; omega⟩
    · rintro ⟨i, w, hw, hn, rfl⟩
      cases i with
      | zero =>
        have : v = w := by simpa using hw
        subst this
        left; simp [hn]
      | succ i => exact .inr ⟨i, w, by simpa using hw, hn, by simp; omega⟩

/-- Below region `s`, an operand that neither `outer` nor the regions around it define. -/
def Bad (fn : String) (outer : List Nat) (s : Region) (e : Stale) : Prop :=
  ∃ rs o i v, Path s rs o ∧ o.head.operands[i]? = some v ∧ v ∉ outer ∧ (∀ t ∈ rs, ¬ Defines t v)
    ∧ e = ⟨fn, o.head.dialect, o.head.name, i⟩

def Hit (fn : String) (vis : List Nat) (e : Stale) (p : Op) : Prop :=
  e ∈ staleOperands vis fn p.head 0 p.head.operands ∨ ∃ s ∈ p.regions, Bad fn vis s e

theorem bad_iff (fn : String) (outer : List Nat) (s : Region) (e : Stale) :
    Bad fn outer s e ↔ ∃ p, Holds s p ∧ Hit fn (outer ++ regionTopLevel s) e p := by
  constructor
  · rintro ⟨rs, o, i, v, hp, ho, hv, hd, rfl⟩
    cases hp with
    | here h =>
      refine ⟨o, h, .inl ((mem_staleOperands _ _ _ _ _ _).2 ⟨i, v, ho, ?_, by simp⟩)⟩
      have := hd s (by simp)
      rw [defines_iff] at this
      simp [hv, this]
    | inside h hs hp =>
      rename_i t ts p
      refine ⟨p, h, .inr ⟨t, hs, ts, o, i, v, hp, ho, ?_, fun u hu => hd u (by simp [hu]), rfl⟩⟩
      have := hd s (by simp)
      rw [defines_iff] at this
      simp [hv, this]
  · rintro ⟨p, h, hh | ⟨t, ht, ts, o, i, v, hp, ho, hv, hd, rfl⟩⟩
    · obtain ⟨i, v, ho, hv, rfl⟩ := (mem_staleOperands _ _ _ _ _ _).1 hh
      simp only [List.mem_append, not_or] at hv
      refine ⟨[s], p, i, v, .here h, ho, hv.1, ?_, by simp⟩
      intro t ht
      rw [List.mem_singleton.1 ht, defines_iff]; exact hv.2
    · simp only [List.mem_append, not_or] at hv
      refine ⟨s :: ts, o, i, v, .inside h ht hp, ho, hv.1, ?_, rfl⟩
      intro u hu
      rcases List.mem_cons.1 hu with rfl | hu
      · rw [defines_iff]; exact hv.2
      · exact hd u hu

mutual
theorem mem_checkBlocks (fn : String) (vis : List Nat) (e : Stale) :
    ∀ bs, e ∈ checkBlocks fn vis bs ↔ ∃ p, Holds bs p ∧ Hit fn vis e p
  | [] => by simp only [checkBlocks, List.not_mem_nil, false_iff]; exact blocks_nil _
  | .mk a ops :: bs => by
    rw [blocks_cons, ← mem_checkBlocks fn vis e bs, ← mem_checkOps fn vis e ops]
    simp [checkBlocks]
theorem mem_checkOps (fn : String) (vis : List Nat) (e : Stale) :
    ∀ ops, e ∈ checkOps fn vis ops ↔ ∃ p ∈ ops, Hit fn vis e p
  | [] => by simp [checkOps]
  | .mk h rs :: ops => by
    have h1 := mem_checkRegions fn vis e rs
    have h2 := mem_checkOps fn vis e ops
    simp only [checkOps, List.mem_append, List.mem_cons, h1, h2, exists_eq_or_imp, Hit,
      Op.regions, Op.head]
theorem mem_checkRegions (fn : String) (outer : List Nat) (e : Stale) :
    ∀ rs, e ∈ checkRegions fn outer rs ↔ ∃ s ∈ rs, Bad fn outer s e
  | [] => by simp [checkRegions]
  | r :: rs => by
    have h1 := mem_checkBlocks fn (outer ++ regionTopLevel r) e r
    have h2 := mem_checkRegions fn outer e rs
    rw [← bad_iff] at h1
    simp [checkRegions, h1, h2]
end

/-- The function itself reports `e`. -/
def FnBad (e : Stale) (f : Op) : Prop :=
  isFunction f.head = true ∧ ∃ s ∈ f.regions, Bad (fnName f.head) [] s e

mutual
theorem mem_functionsInBlocks (e : Stale) :
    ∀ bs, e ∈ functionsInBlocks bs ↔ ∃ p, Holds bs p ∧ ∃ f, Reach p f ∧ FnBad e f
  | [] => by simp only [functionsInBlocks, List.not_mem_nil, false_iff]; exact blocks_nil _
  | .mk a ops :: bs => by
    rw [blocks_cons, ← mem_functionsInBlocks e bs, ← mem_functionsInOps e ops]
    simp [functionsInBlocks]
theorem mem_functionsInOps (e : Stale) :
    ∀ ops, e ∈ functionsInOps ops ↔ ∃ p ∈ ops, ∃ f, Reach p f ∧ FnBad e f
  | [] => by simp [functionsInOps]
  | .mk h rs :: ops => by
    have h1 := mem_functionsInRegions e rs
    have h2 := mem_functionsInOps e ops
    have h3 : e ∈ (if isFunction h then checkRegions (fnName h) [] rs else [])
        ↔ FnBad e (.mk h rs) := by
      unfold FnBad
      by_cases hf : isFunction h = true
      · simp [hf, Op.head, Op.regions, mem_checkRegions]
      · simp [hf, Op.head]
    simp only [functionsInOps, List.mem_append, List.mem_cons, h1, h2, h3, exists_eq_or_imp]
    refine or_congr ?_ Iff.rfl
    constructor
    · rintro (hb | ⟨s, hs, f, hu, hb⟩)
      · exact ⟨_, .inl rfl, hb⟩
      · exact ⟨f, .inr ⟨s, hs, hu⟩, hb⟩
    · rintro ⟨f, rfl | ⟨s, hs, hu⟩, hb⟩
      · exact .inl hb
      · exact .inr ⟨s, hs, f, hu, hb⟩
theorem mem_functionsInRegions (e : Stale) :
    ∀ rs, e ∈ functionsInRegions rs ↔ ∃ s ∈ rs, ∃ f, Under s f ∧ FnBad e f
  | [] => by simp [functionsInRegions]
  | r :: rs => by
    have h1 := mem_functionsInBlocks e r
    have h2 := mem_functionsInRegions e rs
    have h3 : (∃ p, Holds r p ∧ ∃ f, Reach p f ∧ FnBad e f) ↔ ∃ f, Under r f ∧ FnBad e f := by
      constructor
      · rintro ⟨p, hp, f, hr, hb⟩
        exact ⟨f, (under_iff r f).2 ⟨p, hp, hr⟩, hb⟩
      · rintro ⟨f, hu, hb⟩
        obtain ⟨p, hp, hr⟩ := (under_iff r f).1 hu
        exact ⟨p, hp, f, hr, hb⟩
    rw [h3] at h1
    simp [functionsInRegions, h1, h2]
end

theorem isFunction_iff (f : Op) : isFunction f.head = true ↔ IsFn ["func", "wasm"] f := by
  simp [isFunction, IsFn]

theorem isAnyFunction_iff (f : Op) :
    isAnyFunction f.head = true ↔ IsFn ["func", "wasm", "clif"] f := by
  simp [isAnyFunction, IsFn, or_assoc]

theorem mem_valueIntegrity (body : Region) (e : Stale) :
    e ∈ valueIntegrity body ↔ ∃ f, Under body f ∧ FnBad e f := by
  rw [valueIntegrity, mem_functionsInBlocks]
  constructor
  · rintro ⟨p, hp, f, hr, hb⟩
    exact ⟨f, (under_iff _ f).2 ⟨p, hp, hr⟩, hb⟩
  · rintro ⟨f, hu, hb⟩
    obtain ⟨p, hp, hr⟩ := (under_iff _ f).1 hu
    exact ⟨p, hp, f, hr, hb⟩

/-! ### Use chains -/

theorem mem_operandUses (op : Nat) (u : Nat × Nat × Nat) :
    ∀ vs k, u ∈ operandUses op k vs ↔ ∃ i, vs[i]? = some u.1 ∧ u.2.1 = op ∧ u.2.2 = k + i
  | [], k => by simp [operandUses]
  | v :: vs, k => by
    rw [operandUses, List.mem_cons, mem_operandUses op u vs (k + 1)]
    constructor
    · rintro (rfl | ⟨i, h1, h2, h3⟩)
      · exact ⟨0, rfl, rfl, rfl⟩
      · exact ⟨i + 1, by simpa using h1, h2, by omega⟩
    · rintro ⟨i, h1, h2, h3⟩
      cases i with
      | zero =>
        left
        have : v = u.1 := by simpa using h1
        rcases u with ⟨a, b, c⟩
        simp at this h2 h3
        simp [this, h2, h3]
      | succ i => exact .inr ⟨i, by simpa using h1, h2, by omega⟩

theorem mem_actualUses (body : Region) (v op i : Nat) :
    (v, op, i) ∈ actualUses body ↔ UsedAt body v op i := by
  simp only [actualUses, List.mem_flatMap, mem_walkRegion, mem_operandUses, UsedAt]
  constructor
  · rintro ⟨o, hu, j, h1, h2, h3⟩
    simp at h2 h3
    subst h3
    exact ⟨o, hu, h2.symm, h1⟩
  · rintro ⟨o, hu, h1, h2⟩
    exact ⟨o, hu, i, h2, h1.symm, by simp⟩

def ArgOf (v : Nat) (p : Op) : Prop :=
  ∃ o, Reach p o ∧ ∃ r ∈ o.regions, ∃ b ∈ r, v ∈ b.args

def ArgIn (v : Nat) (r : Region) : Prop := (∃ b ∈ r, v ∈ b.args) ∨ ∃ p, Holds r p ∧ ArgOf v p

theorem argOf_iff (v : Nat) (h : Head) (rs : List Region) :
    ArgOf v (.mk h rs) ↔ ∃ s ∈ rs, ArgIn v s := by
  constructor
  · rintro ⟨o, rfl | ⟨s, hs, hu⟩, r, hr, hb⟩
    · exact ⟨r, hr, .inl hb⟩
    · obtain ⟨p, hp, hr'⟩ := (under_iff s o).1 hu
      exact ⟨s, hs, .inr ⟨p, hp, o, hr', r, hr, hb⟩⟩
  · rintro ⟨s, hs, hb | ⟨p, hp, o, hr', r, hr, hb⟩⟩
    · exact ⟨_, .inl rfl, s, hs, hb⟩
    · exact ⟨o, .inr ⟨s, hs, (under_iff s o).2 ⟨p, hp, hr'⟩⟩, r, hr, hb⟩

mutual
theorem mem_blockValues (v : Nat) : ∀ bs, v ∈ blockValues bs ↔ ArgIn v bs
  | [] => by
    simp only [blockValues, List.not_mem_nil, false_iff, ArgIn, not_or]
    exact ⟨by simp, blocks_nil _⟩
  | .mk a ops :: bs => by
    have h1 := mem_blockValues v bs
    have h2 := mem_blockValuesOps v ops
    rw [ArgIn] at h1 ⊢
    rw [blocks_cons]
    simp only [blockValues, List.mem_append, h1, h2, List.mem_cons, exists_eq_or_imp, Block.args]
    constructor
    · rintro ((h | h) | h | h) <;> simp [h]
    · rintro ((h | h) | h | h) <;> simp [h]
theorem mem_blockValuesOps (v : Nat) : ∀ ops, v ∈ blockValuesOps ops ↔ ∃ p ∈ ops, ArgOf v p
  | [] => by simp [blockValuesOps]
  | .mk h rs :: ops => by
    have h1 := mem_blockValuesRegions v rs
    have h2 := mem_blockValuesOps v ops
    rw [← argOf_iff v h] at h1
    simp [blockValuesOps, h1, h2]
theorem mem_blockValuesRegions (v : Nat) :
    ∀ rs, v ∈ blockValuesRegions rs ↔ ∃ s ∈ rs, ArgIn v s
  | [] => by simp [blockValuesRegions]
  | r :: rs => by
    have h1 := mem_blockValues v r
    have h2 := mem_blockValuesRegions v rs
    simp [blockValuesRegions, h1, h2]
end

theorem mem_checkedValues (body : Region) (v : Nat) : v ∈ checkedValues body ↔ Occurs body v := by
  have h1 : v ∈ (actualUses body).map (·.1) ↔ ∃ o, Under body o ∧ v ∈ o.head.operands := by
    simp only [List.mem_map]
    constructor
    · rintro ⟨⟨w, op, i⟩, h, rfl⟩
      obtain ⟨o, hu, _, hi⟩ := (mem_actualUses _ _ _ _).1 h
      exact ⟨o, hu, List.mem_of_getElem? hi⟩
    · rintro ⟨o, hu, hv⟩
      obtain ⟨i, hi⟩ := List.mem_iff_getElem?.1 hv
      exact ⟨(v, o.head.id, i), (mem_actualUses _ _ _ _).2 ⟨o, hu, rfl, hi⟩, rfl⟩
  have h2 : v ∈ (walkRegion body).flatMap (fun o => o.head.results)
      ↔ ∃ o, Under body o ∧ v ∈ o.head.results := by
    simp only [List.mem_flatMap, mem_walkRegion]
  have h3 : v ∈ blockValues body ↔ (∃ b ∈ body, v ∈ b.args)
      ∨ ∃ o, Under body o ∧ ∃ r ∈ o.regions, ∃ b ∈ r, v ∈ b.args := by
    rw [mem_blockValues, ArgIn]
    refine or_congr Iff.rfl ?_
    constructor
    · rintro ⟨p, hp, o, hr, h⟩
      exact ⟨o, (under_iff _ _).2 ⟨p, hp, hr⟩, h⟩
    · rintro ⟨o, hu, h⟩
      obtain ⟨p, hp, hr⟩ := (under_iff _ _).1 hu
      exact ⟨p, hp, o, hr, h⟩
  rw [checkedValues, List.mem_append, List.mem_append, h1, h2, h3, Occurs]
  refine or_congr ?_ Iff.rfl
  constructor
  · rintro (⟨o, hu, h⟩ | ⟨o, hu, h⟩)
    · exact ⟨o, hu, .inl h⟩
    · exact ⟨o, hu, .inr h⟩
  · rintro ⟨o, hu, h | h⟩
    · exact .inl ⟨o, hu, h⟩
    · exact .inr ⟨o, hu, h⟩

theorem mem_noEntry (c : Ctx) (body : Region) (v op i : Nat) :
    UseError.noEntry v op i ∈ useChains c body ↔ UsedAt body v op i ∧ (op, i) ∉ c.uses v := by
  rw [← mem_actualUses]
  simp only [useChains, List.mem_append, List.mem_flatMap]
  constructor
  · rintro (⟨⟨w, p, j⟩, hu, he⟩ | ⟨w, hw, e, he, h⟩)
    · simp only at he
      split at he
      · cases he
      · rename_i hn
        simp only [List.mem_singleton, UseError.noEntry.injEq] at he
        obtain ⟨rfl, rfl, rfl⟩ := he
        refine ⟨hu, fun hm => hn ?_⟩
        exact List.any_eq_true.2 ⟨_, hm, by simp⟩
    · split at h <;> simp at h
  · rintro ⟨hu, hn⟩
    refine .inl ⟨_, hu, ?_⟩
    rw [if_neg]
    · simp
    · intro h
      obtain ⟨⟨a, b⟩, hm, he⟩ := List.any_eq_true.1 h
      simp at he
      exact hn (he.1 ▸ he.2 ▸ hm)

theorem mem_noOperand (c : Ctx) (body : Region) (v op i : Nat) :
    UseError.noOperand v op i ∈ useChains c body ↔
      Occurs body v ∧ (op, i) ∈ c.uses v ∧ ¬ UsedAt body v op i := by
  rw [← mem_actualUses, ← mem_checkedValues]
  simp only [useChains, List.mem_append, List.mem_flatMap]
  constructor
  · rintro (⟨⟨w, p, j⟩, hu, he⟩ | ⟨w, hw, ⟨a, b⟩, he, h⟩)
    · simp only at he
      split at he <;> simp at he
    · split at h
      · cases h
      · rename_i hn
        simp only [List.mem_singleton, UseError.noOperand.injEq] at h
        obtain ⟨rfl, rfl, rfl⟩ := h
        exact ⟨hw, he, by simpa using hn⟩
  · rintro ⟨hw, he, hn⟩
    refine .inr ⟨v, hw, _, he, ?_⟩
    rw [if_neg (by simpa using hn)]
    simp

theorem useChains_nil (c : Ctx) (body : Region) :
    useChains c body = [] ↔
      (∀ v op i, UsedAt body v op i → (op, i) ∈ c.uses v)
      ∧ ∀ v, Occurs body v → ∀ op i, (op, i) ∈ c.uses v → UsedAt body v op i := by
  constructor
  · intro h
    refine ⟨fun v op i hu => Classical.byContradiction fun hn => ?_,
      fun v ho op i hm => Classical.byContradiction fun hn => ?_⟩
    · have := (mem_noEntry c body v op i).2 ⟨hu, hn⟩
      rw [h] at this; cases this
    · have := (mem_noOperand c body v op i).2 ⟨ho, hm, hn⟩
      rw [h] at this; cases this
  · rintro ⟨h1, h2⟩
    refine List.eq_nil_iff_forall_not_mem.2 fun e he => ?_
    cases e with
    | noEntry v op i =>
      obtain ⟨hu, hn⟩ := (mem_noEntry c body v op i).1 he
      exact hn (h1 _ _ _ hu)
    | noOperand v op i =>
      obtain ⟨ho, hm, hn⟩ := (mem_noOperand c body v op i).1 he
      exact hn (h2 _ ho _ _ hm)

/-! ### Operation verifiers -/

theorem not_kind {d n a b : String} (h : ¬ (d = a ∧ n = b)) : (d != a || n != b) = true := by
  simp only [Bool.or_eq_true, bne_iff_ne, ne_eq]
  exact Decidable.not_and_iff_or_not.1 h

theorem kind {d n a b : String} (h : d = a ∧ n = b) : ¬ (d != a || n != b) = true := by
  simp [h.1, h.2]

theorem cmpf_nil (h : Head) : cmpfPredicate h = [] ↔
    (h.dialect = "arith" → h.name = "cmpf" →
      ∃ p ∈ ["oeq", "une", "olt", "ole", "ogt", "oge"], h.predicate = some p) := by
  unfold cmpfPredicate
  by_cases hk : h.dialect = "arith" ∧ h.name = "cmpf"
  · rw [if_neg (kind hk)]
    simp only [hk.1, hk.2, true_imp_iff]
    cases hp : h.predicate with
    | none => simp
    | some p =>
      by_cases hm : p ∈ supportedPredicates
      · simp only [List.contains_iff_mem, hm, if_true, true_iff]
        exact ⟨p, hm, rfl⟩
      · simp only [List.contains_iff_mem, hm, if_false]
        constructor
        · intro h; simp at h
        · rintro ⟨q, hq, he⟩
          cases he; exact absurd hq hm
  · rw [if_pos (not_kind hk)]
    exact ⟨fun _ a b => absurd ⟨a, b⟩ hk, fun _ => rfl⟩

theorem loop_nil (h : Head) : loopResults h = [] ↔
    (h.dialect = "scf" → h.name = "loop" → h.results.length ≤ 1) := by
  unfold loopResults
  by_cases h1 : h.dialect = "scf" <;> by_cases h2 : h.name = "loop" <;> simp [h1, h2]

theorem switch_nil (h : Head) : switchResults h = [] ↔
    (h.dialect = "scf" → h.name = "switch" → h.results = []) := by
  unfold switchResults
  by_cases h1 : h.dialect = "scf" <;> by_cases h2 : h.name = "switch" <;> simp [h1, h2]

theorem isNever_iff (c : Ctx) (t : Nat) : isNever (c.types t) = true ↔ Never c t := by
  simp [isNever, Never]

theorem properTail_iff (h : Head) : properTail h = true ↔ (h.dialect, h.name) ∈ tails := by
  simp only [properTail, tails, Bool.or_eq_true, Bool.and_eq_true, beq_iff_eq,
    List.contains_iff_mem, List.mem_cons, List.not_mem_nil, or_false, Prod.mk.injEq]
  constructor
  · rintro ((⟨a, b | b | b⟩ | ⟨a, b | b⟩) | ⟨a, b | b⟩) <;> simp [a, b]
  · rintro (⟨a, b⟩ | ⟨a, b⟩ | ⟨a, b⟩ | ⟨a, b⟩ | ⟨a, b⟩ | ⟨a, b⟩ | ⟨a, b⟩) <;> simp [a, b]

theorem neverResult_iff (c : Ctx) (h : Head) :
    neverResult c h = true ↔ ∃ v, h.results = [v] ∧ Never c (c.valueTy v) := by
  unfold neverResult
  split
  · rename_i r hr
    rw [isNever_iff]
    constructor
    · intro hn; exact ⟨r, hr, hn⟩
    · rintro ⟨v, hv, hn⟩
      rw [hr] at hv
      cases hv; exact hn
  · rename_i hne
    simp only [Bool.false_eq_true, false_iff]
    rintro ⟨v, hv, _⟩
    exact hne v hv

theorem yield_not_tail : (("scf", "yield") : String × String) ∉ tails := by decide

theorem ifBranch_nil (c : Ctx) (h : Head) (r : Region) :
    ifBranch c h r = [] ↔ BranchOk c h.results r := by
  unfold ifBranch
  split
  · rename_i b
    cases b with
    | mk args ops =>
    simp only [Block.ops]
    split
    · rename_i hl
      have : ops = [] := by simpa using hl
      subst this
      constructor
      · intro h; simp at h
      · rintro ⟨a, o, l, he, _⟩
        simp at he
    · rename_i y hl
      obtain ⟨os, rfl⟩ := List.getLast?_eq_some_iff.1 hl
      have key : BranchOk c h.results [.mk args (os ++ [y])] ↔
          ((y.head.dialect = "scf" ∧ y.head.name = "yield"
            ∧ y.head.operands.length = h.results.length)
          ∨ (∃ v, h.results = [v] ∧ Never c (c.valueTy v))
            ∧ (y.head.dialect, y.head.name) ∈ tails) := by
        constructor
        · rintro ⟨a, o, l, he, hh⟩
          simp only [List.cons.injEq, Block.mk.injEq, and_true] at he
          obtain ⟨_, he⟩ := he
          have := List.append_inj_right' he rfl
          simp only [List.cons.injEq, and_true] at this
          subst this; exact hh
        · intro hh; exact ⟨args, os, y, rfl, hh⟩
      rw [key, ← neverResult_iff, ← properTail_iff]
      by_cases hy : y.head.dialect = "scf" ∧ y.head.name = "yield"
      · have hp : ¬ (properTail y.head = true) := by
          rw [properTail_iff, hy.1, hy.2]; exact yield_not_tail
        simp [hy.1, hy.2, hp]
      · have hc : (y.head.dialect != "scf" || y.head.name != "yield") = true := by
          simp only [Bool.or_eq_true, bne_iff_ne, ne_eq]
          exact Decidable.not_and_iff_or_not.1 hy
        rw [if_pos hc]
        have hd : ¬ (y.head.dialect = "scf" ∧ y.head.name = "yield"
            ∧ y.head.operands.length = h.results.length) := fun hh => hy ⟨hh.1, hh.2.1⟩
        simp only [hd, false_or, ← Bool.and_eq_true]
        split <;> simp_all
  · rename_i hne
    constructor
    · intro h; simp at h
    · rintro ⟨a, o, l, he, _⟩
      exact absurd he (hne _)

theorem ifStructure_nil (c : Ctx) (o : Op) : ifStructure c o = [] ↔
    (o.head.dialect = "scf" → o.head.name = "if" →
      (∃ v, o.head.operands = [v]) ∧ ∃ t e, o.regions = [t, e]
        ∧ BranchOk c o.head.results t ∧ BranchOk c o.head.results e) := by
  unfold ifStructure
  by_cases hk : o.head.dialect = "scf" ∧ o.head.name = "if"
  case neg =>
    rw [if_pos (not_kind hk)]
    exact ⟨fun _ a b => absurd ⟨a, b⟩ hk, fun _ => rfl⟩
  rw [if_neg (kind hk), List.append_eq_nil_iff]
  simp only [hk.1, hk.2, true_imp_iff]
  refine and_congr ?_ ?_
  · rw [← List.length_eq_one_iff]
    by_cases hl : o.head.operands.length = 1 <;> simp [hl]
  · split
    · rename_i t e he
      rw [List.append_eq_nil_iff, ifBranch_nil, ifBranch_nil]
      constructor
      · intro hh; exact ⟨t, e, he, hh⟩
      · rintro ⟨t', e', heq, hh⟩
        rw [he] at heq
        simp only [List.cons.injEq, and_true] at heq
        obtain ⟨rfl, rfl⟩ := heq
        exact hh
    · rename_i hne
      constructor
      · intro h; simp at h
      · rintro ⟨t, e, he, _⟩
        exact absurd he (hne t e)

theorem zip_nil (c : Ctx) : ∀ (args ps : List Nat), args.length = ps.length →
    ((args.zip ps).flatMap (fun p => if c.valueTy p.1 != p.2 then [Complaint.tailArgument] else [])
      = [] ↔ args.map c.valueTy = ps)
  | [], [], _ => by simp
  | a :: as, p :: ps, h => by
    have ih := zip_nil c as ps (by simpa using h)
    rw [List.zip_cons_cons, List.flatMap_cons, List.append_eq_nil_iff, ih]
    by_cases he : c.valueTy a = p <;> simp [he]

theorem tailCallType_nil (c : Ctx) (args : List Nat) (t : Nat) :
    tailCallType c args t = [] ↔ ∃ ret, FnType c t ret (args.map c.valueTy) ∧ Never c ret := by
  unfold tailCallType
  rcases ht : c.types t with ⟨d, n, ps⟩
  simp only [FnType, ht, TypeData.mk.injEq]
  by_cases hk : d = "core" ∧ n = "func"
  case neg =>
    rw [if_pos (not_kind hk)]
    constructor
    · intro h; simp at h
    · rintro ⟨r, ⟨a, b, _⟩, _⟩; exact absurd ⟨a, b⟩ hk
  rw [if_neg (kind hk)]
  simp only [hk.1, hk.2, true_and]
  cases ps with
  | nil => simp
  | cons ret ps =>
    simp only [List.append_eq_nil_iff, List.cons.injEq]
    have h1 : ((if isNever (c.types ret) = true then [] else [Complaint.tailNever]) = [])
        ↔ Never c ret := by
      rw [← isNever_iff]; split <;> simp_all
    rw [h1]
    by_cases hl : args.length = ps.length
    · simp only [hl, bne_self_eq_false, Bool.false_eq_true, if_false, zip_nil c args ps hl]
      constructor
      · rintro ⟨a, b⟩; exact ⟨ret, ⟨rfl, b.symm⟩, a⟩
      · rintro ⟨r, ⟨rfl, b⟩, a⟩; exact ⟨a, b.symm⟩
    · have : (args.length != ps.length) = true := by simpa using hl
      simp only [this, if_true]
      constructor
      · rintro ⟨_, b⟩; simp at b
      · rintro ⟨r, ⟨_, b⟩, _⟩
        rw [b] at hl; simp at hl

theorem tailCall_nil (c : Ctx) (h : Head) : tailCallIndirect c h = [] ↔
    (h.dialect = "func" → h.name = "tail_call_indirect" →
      h.results = [] ∧ ∃ callee args, h.operands = callee :: args
        ∧ TailCallable c (c.valueTy callee) (args.map c.valueTy)) := by
  unfold tailCallIndirect
  by_cases hk : h.dialect = "func" ∧ h.name = "tail_call_indirect"
  case neg =>
    rw [if_pos (not_kind hk)]
    exact ⟨fun _ a b => absurd ⟨a, b⟩ hk, fun _ => rfl⟩
  rw [if_neg (kind hk), List.append_eq_nil_iff]
  simp only [hk.1, hk.2, true_imp_iff]
  refine and_congr (by cases h.results <;> simp) ?_
  cases ho : h.operands with
  | nil => simp
  | cons callee args =>
    have hr : (∃ a, (∃ b, callee :: args = a :: b ∧ TailCallable c (c.valueTy a) (b.map c.valueTy)))
        ↔ TailCallable c (c.valueTy callee) (args.map c.valueTy) := by
      constructor
      · rintro ⟨a, b, he, hh⟩
        simp only [List.cons.injEq] at he
        obtain ⟨rfl, rfl⟩ := he; exact hh
      · intro hh; exact ⟨_, _, rfl, hh⟩
    rw [hr]
    rcases ht : c.types (c.valueTy callee) with ⟨d, n, ps⟩
    simp only
    by_cases hc : d = "closure" ∧ n = "closure"
    · obtain ⟨rfl, rfl⟩ := hc
      simp only [beq_self_eq_true, Bool.and_self, if_true, TailCallable, ht, TypeData.mk.injEq,
        true_and]
      split
      · rename_i f
        rw [tailCallType_nil]
        constructor
        · rintro ⟨ret, a, b⟩; exact ⟨f, ret, .inr rfl, a, b⟩
        · rintro ⟨g, ret, rfl | hg, a, b⟩
          · rw [FnType, ht] at a; simp at a
          · simp only [List.cons.injEq, and_true] at hg
            subst hg; exact ⟨ret, a, b⟩
      · rename_i hne
        constructor
        · intro h; simp at h
        · rintro ⟨g, ret, rfl | hg, a, b⟩
          · rw [FnType, ht] at a; simp at a
          · exact absurd hg (hne g)
    · have hc' : (d == "closure" && n == "closure") = false := by
        simp only [Bool.and_eq_false_iff, beq_eq_false_iff_ne, ne_eq]
        exact Decidable.not_and_iff_or_not.1 hc
      rw [ht]
      simp only [hc', Bool.false_eq_true, if_false, tailCallType_nil, TailCallable]
      constructor
      · rintro ⟨ret, a, b⟩; exact ⟨_, ret, .inl rfl, a, b⟩
      · rintro ⟨g, ret, rfl | hg, a, b⟩
        · exact ⟨ret, a, b⟩
        · rw [ht] at hg
          simp only [TypeData.mk.injEq] at hg
          exact absurd ⟨hg.1, hg.2.1⟩ hc

theorem verifyOp_nil (c : Ctx) (o : Op) : verifyOp c o = [] ↔ Shaped c o := by
  simp only [verifyOp, List.append_eq_nil_iff, cmpf_nil, ifStructure_nil, loop_nil, switch_nil,
    tailCall_nil]
  constructor
  · rintro ⟨⟨⟨⟨a, b⟩, d⟩, e⟩, f⟩; exact ⟨a, b, d, e, f⟩
  · rintro ⟨a, b, d, e, f⟩; exact ⟨⟨⟨⟨a, b⟩, d⟩, e⟩, f⟩

theorem mem_operationVerifiers (c : Ctx) (body : Region) (i : Nat) :
    (∃ m, (i, m) ∈ operationVerifiers c body) ↔
      ∃ o, Under body o ∧ o.head.id = i ∧ ¬ Shaped c o := by
  simp only [operationVerifiers, List.mem_flatMap, mem_walkRegion, List.mem_map, Prod.mk.injEq]
  constructor
  · rintro ⟨m, o, hu, m', hm, hi, rfl⟩
    refine ⟨o, hu, hi, fun hs => ?_⟩
    rw [(verifyOp_nil c o).2 hs] at hm; cases hm
  · rintro ⟨o, hu, hi, hs⟩
    cases hv : verifyOp c o with
    | nil => exact absurd ((verifyOp_nil c o).1 hv) hs
    | cons m ms => exact ⟨m, o, hu, m, by simp [hv], hi, rfl⟩

/-! ### Call arity -/

theorem signatureOf_iff (c : Ctx) (o : Op) (n : String) (k : Nat) :
    signatureOf c o.head = some (n, k) ↔ Declares c o n k := by
  unfold signatureOf Declares
  rw [← isAnyFunction_iff]
  by_cases hf : isAnyFunction o.head = true
  · simp only [hf, if_true, true_and]
    cases hs : o.head.symName <;> cases ht : o.head.fnType <;> simp
    rename_i m t
    by_cases hd : (c.types t).dialect = "core" <;> by_cases hn : (c.types t).name = "func" <;>
      simp [hd, hn]
    exact fun _ => eq_comm
  · simp [hf]

theorem fold_signatures (c : Ctx) (n : String) (k : Nat) : ∀ (ops : List Op) (m : String → Option Nat),
    (ops.foldl (insertSignature c) m) n = some k ↔
    (∃ before f after, ops = before ++ f :: after ∧ Declares c f n k
      ∧ ∀ g ∈ after, ∀ j, ¬ Declares c g n j)
    ∨ (m n = some k ∧ ∀ g ∈ ops, ∀ j, ¬ Declares c g n j)
  | [], m => by simp
  | o :: ops, m => by
    rw [List.foldl_cons, fold_signatures c n k ops]
    unfold insertSignature
    have hs : ∀ j, signatureOf c o.head = some (n, j) ↔ Declares c o n j :=
      fun j => signatureOf_iff c o n j
    constructor
    · rintro (⟨b, f, a, rfl, hd, ha⟩ | ⟨hm, ha⟩)
      · exact .inl ⟨o :: b, f, a, rfl, hd, ha⟩
      · cases hso : signatureOf c o.head with
        | none =>
          rw [hso] at hm
          refine .inr ⟨hm, fun g hg j => ?_⟩
          rcases List.mem_cons.1 hg with rfl | hg
          · rw [← hs j, hso]; simp
          · exact ha g hg j
        | some p =>
          obtain ⟨x, y⟩ := p
          rw [hso] at hm
          simp only at hm
          by_cases hx : n = x
          · subst hx
            simp only [if_true, Option.some.injEq] at hm
            subst hm
            exact .inl ⟨[], o, ops, rfl, (hs y).1 hso, ha⟩
          · rw [if_neg hx] at hm
            refine .inr ⟨hm, fun g hg j => ?_⟩
            rcases List.mem_cons.1 hg with rfl | hg
            · rw [← hs j, hso]; simp only [Option.some.injEq, Prod.mk.injEq]
              exact fun h => hx h.1.symm
            · exact ha g hg j
    · rintro (⟨b, f, a, he, hd, ha⟩ | ⟨hm, ha⟩)
      · cases b with
        | nil =>
          simp only [List.nil_append, List.cons.injEq] at he
          obtain ⟨rfl, rfl⟩ := he
          refine .inr ⟨?_, ha⟩
          rw [(hs k).2 hd]; simp
        | cons b0 b =>
          simp only [List.cons_append, List.cons.injEq] at he
          obtain ⟨rfl, rfl⟩ := he
          exact .inl ⟨b, f, a, rfl, hd, ha⟩
      · refine .inr ⟨?_, fun g hg j => ha g (List.mem_cons_of_mem _ hg) j⟩
        cases hso : signatureOf c o.head with
        | none => exact hm
        | some p =>
          obtain ⟨x, y⟩ := p
          simp only
          rw [if_neg]
          · exact hm
          · rintro rfl
            exact ha o List.mem_cons_self y ((hs y).1 hso)

theorem signatures_iff (c : Ctx) (body : Region) (n : String) (k : Nat) :
    signatures c body n = some k ↔ Arity c body n k := by
  rw [signatures, fold_signatures, Arity, topOps_eq]
  simp

theorem mem_callArity (sigs : String → Option Nat) (fn : String) (o : Op) (w : Mismatch) :
    w ∈ callArity sigs fn o.head ↔
      ∃ n k, CallOf o n ∧ sigs n = some k ∧ o.head.operands.length ≠ k
        ∧ w = ⟨fn, n, o.head.operands.length, k⟩ := by
  unfold callArity CallOf
  by_cases h1 : o.head.dialect = "func" ∧ (o.head.name = "call" ∨ o.head.name = "tail_call")
  · have hc : (o.head.dialect == "func"
        && (o.head.name == "call" || o.head.name == "tail_call")) = true := by simpa using h1
    rw [if_pos hc]
    cases hcal : o.head.callee with
    | none => simp
    | some n =>
      simp only
      cases hk : sigs n with
      | none =>
        simp only [List.not_mem_nil, false_iff]
        rintro ⟨n', k, ⟨_, _, he⟩, hs, _⟩
        simp only [Option.some.injEq] at he
        subst he; rw [hk] at hs; cases hs
      | some k =>
        simp only
        constructor
        · intro hw
          by_cases hl : o.head.operands.length = k
          · simp [hl] at hw
          · refine ⟨n, k, ⟨h1.1, h1.2, rfl⟩, hk, hl, ?_⟩
            simpa [hl] using hw
        · rintro ⟨n', k', ⟨_, _, he⟩, hs, hl, rfl⟩
          simp only [Option.some.injEq] at he
          subst he
          rw [hk] at hs
          cases hs
          simp [hl]
  · have hc : ¬ (o.head.dialect == "func"
        && (o.head.name == "call" || o.head.name == "tail_call")) = true := by simpa using h1
    rw [if_neg hc]
    simp only [List.not_mem_nil, false_iff]
    rintro ⟨n, k, ⟨a, b, _⟩, _⟩
    exact h1 ⟨a, b⟩

end Verif.Validate
