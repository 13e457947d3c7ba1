import Verif.Live.Spec
import Mathlib.Tactic.Tauto

/-!
# Liveness: lemmas
-/

namespace Verif.Live

/-! ## Borrowed values -/

theorem ownersFrom_sound {inp : Input} {visited : List Nat} {cur v : Nat}
    (h : v ∈ ownersFrom inp.deps visited cur) : Relation.TransGen (BorrowsFrom inp) cur v := by
  generalize hn : unvisited inp.deps visited = n
  induction n using Nat.strongRecOn generalizing visited cur with
  | ind n ih =>
    rw [ownersFrom] at h
    split at h
    · cases h
    · rename_i owner hl
      split at h
      · cases h
      · rename_i hv
        rcases List.mem_cons.mp h with rfl | h
        · exact .single hl
        · exact .head hl (ih _ (hn ▸ unvisited_lt hl (by simpa using hv)) h rfl)

/-- The recorded owners together with the visited ones are closed under one more step. -/
theorem ownersFrom_closed {inp : Input} {visited : List Nat} {cur : Nat}
    (hvis : ∀ w ∈ visited, w = cur ∨ ∀ o, inp.deps.lookup w = some o → o ∈ visited) :
    ∀ w, (w = cur ∨ w ∈ visited ∨ w ∈ ownersFrom inp.deps visited cur) → ∀ o, inp.deps.lookup w = some o →
      o ∈ visited ∨ o ∈ ownersFrom inp.deps visited cur := by
  generalize hn : unvisited inp.deps visited = n
  induction n using Nat.strongRecOn generalizing visited cur with
  | ind n ih =>
    intro w hw o ho
    rw [ownersFrom] at hw ⊢
    split at hw
    · rename_i hl
      rcases hw with rfl | hw | hw
      · rw [hl] at ho; simp at ho
      · rcases hvis w hw with rfl | h
        · rw [hl] at ho; simp at ho
        · exact Or.inl (h o ho)
      · cases hw
    · rename_i owner hl
      split at hw
      · rename_i hv
        have hv' : owner ∈ visited := by simpa using hv
        simp only [hv, dite_true]
        rcases hw with rfl | hw | hw
        · rw [hl] at ho
          injection ho with ho
          subst ho
          exact Or.inl hv'
        · rcases hvis w hw with rfl | h
          · rw [hl] at ho
            injection ho with ho
            subst ho
            exact Or.inl hv'
          · exact Or.inl (h o ho)
        · cases hw
      · rename_i hv
        simp only [hv, Bool.false_eq_true, dite_false]
        have hcl : ∀ w ∈ owner :: visited, w = owner ∨ ∀ o, inp.deps.lookup w = some o → o ∈ owner :: visited := by
          intro w hw
          rcases List.mem_cons.mp hw with rfl | hw
          · exact Or.inl rfl
          · right
            intro o ho
            rcases hvis w hw with rfl | h
            · rw [hl] at ho
              injection ho with ho
              subst ho
              exact .head _
            · exact .tail _ (h o ho)
        have := ih _ (hn ▸ unvisited_lt hl (by simpa using hv)) (cur := owner) hcl rfl w
        have hgoal : ∀ {o}, (o ∈ owner :: visited ∨ o ∈ ownersFrom inp.deps (owner :: visited) owner) →
            o ∈ visited ∨ o ∈ owner :: ownersFrom inp.deps (owner :: visited) owner := by
          rintro o (h | h)
          · rcases List.mem_cons.mp h with rfl | h
            · exact Or.inr (.head _)
            · exact Or.inl h
          · exact Or.inr (.tail _ h)
        rcases hw with rfl | hw | hw
        · rw [hl] at ho
          injection ho with ho
          subst ho
          exact Or.inr (.head _)
        · exact hgoal (this (Or.inr (Or.inl (.tail _ hw))) o ho)
        · rcases List.mem_cons.mp hw with rfl | hw
          · exact hgoal (this (Or.inl rfl) o ho)
          · exact hgoal (this (Or.inr (Or.inr hw)) o ho)

theorem mem_owners {inp : Input} {v p : Nat} :
    p ∈ owners inp.deps v ↔ Relation.TransGen (BorrowsFrom inp) v p := by
  refine ⟨ownersFrom_sound, fun h => ?_⟩
  have hc := ownersFrom_closed (inp := inp) (visited := []) (cur := v) (by intro w hw; cases hw)
  induction h with
  | single h =>
    rcases hc v (Or.inl rfl) _ h with h | h
    · cases h
    · exact h
  | tail _ h ih =>
    rcases hc _ (Or.inr (Or.inr ih)) _ h with h | h
    · cases h
    · exact h

/-- The tracked pointers are reference-counted and not static. -/
def Good (inp : Input) : Prop := ∀ p ∈ inp.ptrs, inp.info.anyref p = true ∧ inp.info.static p = false

theorem mem_touched {inp : Input} {op : Op} {p : Nat} (hp : p ∈ inp.ptrs) :
    p ∈ op.operands.flatMap (touched inp) ↔ Uses inp op p := by
  simp only [List.mem_flatMap, Uses, touched, List.mem_append, mem_owners, Option.mem_toList, Option.mem_def]
  constructor
  · rintro ⟨v, hv, (h | h) | h⟩
    · split at h
      · simp only [List.mem_cons, List.not_mem_nil, or_false] at h; exact ⟨v, hv, Or.inl h.symm⟩
      · cases h
    · exact ⟨v, hv, Or.inr (Or.inl h)⟩
    · exact ⟨v, hv, Or.inr (Or.inr h)⟩
  · rintro ⟨v, hv, rfl | h | h⟩
    · exact ⟨v, hv, Or.inl (Or.inl (by simp [hp]))⟩
    · exact ⟨v, hv, Or.inl (Or.inr h)⟩
    · exact ⟨v, hv, Or.inr h⟩

theorem mem_defined {inp : Input} (hg : Good inp) {op : Op} {p : Nat} (hp : p ∈ inp.ptrs) :
    p ∈ defined inp op ↔ p ∈ op.results := by
  have := hg p hp
  simp [defined, this.1, this.2, hp]

/-! ## Uses and definitions of a block -/

theorem fold_defs {inp : Input} (hg : Good inp) {p : Nat} (hp : p ∈ inp.ptrs) (ops : List Op) (s : UseDef) :
    p ∈ (ops.foldl (useDefStep inp) s).defs ↔ p ∈ s.defs ∨ ∃ op ∈ ops, p ∈ op.results := by
  induction ops generalizing s with
  | nil => simp
  | cons op ops ih =>
    rw [List.foldl_cons, ih]
    simp only [useDefStep, List.mem_append, mem_defined hg hp, List.mem_cons, exists_eq_or_imp]
    tauto

theorem fold_uses {inp : Input} (hg : Good inp) {p : Nat} (hp : p ∈ inp.ptrs) (ops : List Op) (s : UseDef) :
    p ∈ (ops.foldl (useDefStep inp) s).uses ↔ p ∈ s.uses ∨
      (p ∉ s.defs ∧ ∃ (i : Nat) (op : Op), ops[i]? = some op ∧ Uses inp op p ∧ ∀ j < i, ∀ o : Op, ops[j]? = some o → p ∉ o.results) := by
  induction ops generalizing s with
  | nil => simp
  | cons op ops ih =>
    rw [List.foldl_cons, ih]
    simp only [useDefStep, List.mem_append, mem_defined hg hp, List.mem_filter, mem_touched hp, not_or]
    simp only [Bool.not_eq_true', List.contains_eq_mem, decide_eq_false_iff_not]
    constructor
    · rintro ((⟨h1, h2⟩ | h) | ⟨⟨h1, h2⟩, i, o, h3, h4, h5⟩)
      · exact Or.inr ⟨h2, 0, op, rfl, h1, fun j hj => absurd hj (by omega)⟩
      · exact Or.inl h
      · refine Or.inr ⟨h2, i + 1, o, by simpa using h3, h4, fun j hj o' ho' => ?_⟩
        cases j with
        | zero => simp at ho'; subst ho'; exact h1
        | succ j => exact h5 j (by omega) o' (by simpa using ho')
    · rintro (h | ⟨h2, i, o, h3, h4, h5⟩)
      · exact Or.inl (Or.inr h)
      · cases i with
        | zero => simp at h3; subst h3; exact Or.inl (Or.inl ⟨h4, h2⟩)
        | succ i =>
          refine Or.inr ⟨⟨h5 0 (by omega) op rfl, h2⟩, i, o, by simpa using h3, h4, fun j hj o' ho' => ?_⟩
          exact h5 (j + 1) (by omega) o' (by simpa using ho')

theorem mem_defs {inp : Input} (hg : Good inp) {p : Nat} (hp : p ∈ inp.ptrs) (b : Block) :
    p ∈ (useDef inp b).defs ↔ p ∈ b.args ∨ ∃ op ∈ b.ops, p ∈ op.results := by
  rw [useDef, fold_defs hg hp]
  simp [(hg p hp).1]

theorem mem_uses {inp : Input} (hg : Good inp) {p : Nat} (hp : p ∈ inp.ptrs) (b : Block) :
    p ∈ (useDef inp b).uses ↔ p ∉ b.args ∧
      ∃ (i : Nat) (op : Op), b.ops[i]? = some op ∧ Uses inp op p ∧ ∀ j < i, ∀ o : Op, b.ops[j]? = some o → p ∉ o.results := by
  rw [useDef, fold_uses hg hp]
  simp [(hg p hp).1]

theorem mem_newIn {inp : Input} {b : Block} {out : List Nat} {p : Nat} :
    p ∈ newIn inp b out ↔ p ∈ (useDef inp b).uses ∨ (p ∈ out ∧ p ∉ (useDef inp b).defs) := by
  simp [newIn]

theorem mem_newOut {b : Block} {st : Live} {p : Nat} :
    p ∈ newOut b st ↔ ∃ op s, b.ops.getLast? = some op ∧ s ∈ op.succs ∧ p ∈ st.liveIn s := by
  simp only [newOut, succsOf, List.mem_flatMap]
  constructor
  · rintro ⟨s, hs, hp⟩
    split at hs
    · rename_i op ho; exact ⟨op, s, ho, hs, hp⟩
    · cases hs
  · rintro ⟨op, s, ho, hs, hp⟩
    exact ⟨s, by rw [ho]; exact hs, hp⟩

theorem sameSet_iff {a b : List Nat} : sameSet a b = true ↔ ∀ v, v ∈ a ↔ v ∈ b := by
  simp only [sameSet, Bool.and_eq_true, List.all_eq_true, List.contains_eq_mem, decide_eq_true_eq]
  exact ⟨fun ⟨h1, h2⟩ v => ⟨h1 v, h2 v⟩, fun h => ⟨fun v => (h v).mp, fun v => (h v).mpr⟩⟩

/-! ## Paths -/

theorem reaches_within {inp : Input} {p b k : Nat} {blk : Block} (hb : inp.body[b]? = some blk)
    (hk : k ≤ blk.ops.length) (h : ReachesUse inp p b k) (i : Nat) (hi : i ≤ k)
    (hd : ∀ j, i ≤ j → j < k → ∀ o, blk.ops[j]? = some o → p ∉ o.results) : ReachesUse inp p b i := by
  obtain ⟨d, rfl⟩ := Nat.exists_eq_add_of_le hi
  clear hi
  induction d generalizing i with
  | zero => exact h
  | succ d ih =>
    have hl : i < blk.ops.length := by omega
    have ho := List.getElem?_eq_getElem hl
    refine .next hb ho (hd i (Nat.le_refl _) (by omega) _ ho) (ih (i + 1) (by omega) ?_ ?_)
    · rw [Nat.add_right_comm, Nat.add_assoc]; exact h
    · intro j h1 h2 o ho'
      exact hd j (by omega) (by omega) o ho'

/-- What is in the sets is live. -/
def Sound (inp : Input) (l : Live) : Prop :=
  ∀ p ∈ inp.ptrs, ∀ b, (p ∈ l.liveIn b → LiveIn inp p b) ∧ (p ∈ l.liveOut b → LiveOut inp p b)

theorem newOut_sound {inp : Input} {l : Live} (hs : Sound inp l) {p : Nat} (hp : p ∈ inp.ptrs) {b : Nat} {blk : Block}
    (hb : inp.body[b]? = some blk) (h : p ∈ newOut blk l) : LiveOut inp p b := by
  obtain ⟨op, s, h1, h2, h3⟩ := mem_newOut.mp h
  exact ⟨blk, op, s, hb, h1, h2, ((hs p hp s).1 h3)⟩

theorem newIn_sound {inp : Input} (hg : Good inp) {l : Live} (hs : Sound inp l) {p : Nat} (hp : p ∈ inp.ptrs) {b : Nat}
    {blk : Block} (hb : inp.body[b]? = some blk) (h : p ∈ newIn inp blk (newOut blk l)) : LiveIn inp p b := by
  rcases mem_newIn.mp h with h | ⟨h1, h2⟩
  · obtain ⟨ha, i, op, ho, hu, hd⟩ := (mem_uses hg hp blk).mp h
    refine ⟨blk, hb, ha, reaches_within hb (Nat.le_of_lt (List.getElem?_eq_some_iff.mp ho).1) (.use hb ho hu) 0
      (Nat.zero_le _) (fun j _ hj o ho' => hd j hj o ho')⟩
  · rw [mem_defs hg hp, not_or] at h2
    obtain ⟨op, s, g1, g2, g3⟩ := mem_newOut.mp h1
    obtain ⟨next, n1, n2, n3⟩ := (hs p hp s).1 g3
    refine ⟨blk, hb, h2.1, reaches_within hb (Nat.le_refl _) (.edge hb g1 g2 n1 n2 n3) 0 (Nat.zero_le _) ?_⟩
    intro j _ hj o ho hr
    exact h2.2 ⟨o, List.mem_of_getElem? ho, hr⟩

theorem visit_sound {inp : Input} (hg : Good inp) {s : Sweep} (hs : Sound inp s.live) {ib : Nat × Block}
    (hb : inp.body[ib.1]? = some ib.2) : Sound inp (visit inp s ib).live := by
  intro p hp b
  constructor
  · intro h
    simp only [visit] at h
    split at h
    · exact (hs p hp b).1 h
    · rw [update] at h
      split at h
      · rename_i hbi
        subst hbi
        exact newIn_sound hg hs hp hb h
      · exact (hs p hp b).1 h
  · intro h
    simp only [visit] at h
    split at h
    · exact (hs p hp b).2 h
    · rw [update] at h
      split at h
      · rename_i hbi
        subst hbi
        exact newOut_sound hs hp hb h
      · exact (hs p hp b).2 h

theorem mem_order {body : Body} {ib : Nat × Block} : ib ∈ order body ↔ body[ib.1]? = some ib.2 := by
  rw [order, List.mem_reverse, List.mem_iff_getElem?]
  constructor
  · rintro ⟨i, hi⟩
    rw [List.getElem?_zip_eq_some] at hi
    obtain ⟨h1, h2⟩ := hi
    rw [List.getElem?_range (by
      have := (List.getElem?_eq_some_iff.mp h1).1
      simpa using this)] at h1
    simp only [Option.some.injEq] at h1
    rw [← h1]
    exact h2
  · intro h
    refine ⟨ib.1, ?_⟩
    rw [List.getElem?_zip_eq_some]
    exact ⟨List.getElem?_range (List.getElem?_eq_some_iff.mp h).1, h⟩

theorem fold_sound {inp : Input} (hg : Good inp) (xs : List (Nat × Block)) (hx : ∀ ib ∈ xs, inp.body[ib.1]? = some ib.2)
    (s : Sweep) (hs : Sound inp s.live) : Sound inp (xs.foldl (visit inp) s).live := by
  induction xs generalizing s with
  | nil => exact hs
  | cons x xs ih => exact ih (fun ib h => hx ib (.tail _ h)) _ (visit_sound hg hs (hx x (.head _)))

theorem round_sound {inp : Input} (hg : Good inp) {l : Live} (hs : Sound inp l) : Sound inp (round inp l).live :=
  fold_sound hg _ (fun _ h => mem_order.mp h) _ hs

/-! ## Fixed points -/

theorem fold_unchanged {inp : Input} (xs : List (Nat × Block)) (s : Sweep)
    (h : (xs.foldl (visit inp) s).changed = false) :
    s.changed = false ∧ (xs.foldl (visit inp) s).live = s.live ∧ ∀ ib ∈ xs,
      sameSet (newIn inp ib.2 (newOut ib.2 s.live)) (s.live.liveIn ib.1) = true ∧
      sameSet (newOut ib.2 s.live) (s.live.liveOut ib.1) = true := by
  induction xs generalizing s with
  | nil => exact ⟨h, rfl, fun ib hib => by cases hib⟩
  | cons x xs ih =>
    rw [List.foldl_cons] at h ⊢
    obtain ⟨h1, h2, h3⟩ := ih _ h
    simp only [visit, Bool.or_eq_false_iff, Bool.not_eq_false'] at h1
    have hl : (visit inp s x).live = s.live := by simp [visit, h1.1.2, h1.2]
    rw [hl] at h2 h3
    refine ⟨h1.1.1, h2, fun ib hib => ?_⟩
    rcases List.mem_cons.mp hib with rfl | hib
    · exact ⟨h1.1.2, h1.2⟩
    · exact h3 ib hib

/-- The equations of liveness hold. -/
def Fixed (inp : Input) (l : Live) : Prop := ∀ (b : Nat) (blk : Block), inp.body[b]? = some blk →
  (∀ v, v ∈ newIn inp blk (newOut blk l) ↔ v ∈ l.liveIn b) ∧ (∀ v, v ∈ newOut blk l ↔ v ∈ l.liveOut b)

theorem round_fixed {inp : Input} {l : Live} (h : (round inp l).changed = false) :
    (round inp l).live = l ∧ Fixed inp l := by
  obtain ⟨_, h2, h3⟩ := fold_unchanged _ _ h
  refine ⟨h2, fun b blk hb => ?_⟩
  have := h3 (b, blk) (mem_order.mpr hb)
  exact ⟨sameSet_iff.mp this.1, sameSet_iff.mp this.2⟩

theorem fixed_complete {inp : Input} (hg : Good inp) {l : Live} (hf : Fixed inp l) {p : Nat} (hp : p ∈ inp.ptrs)
    {b i : Nat} (h : ReachesUse inp p b i) : ∀ blk, inp.body[b]? = some blk → p ∉ blk.args →
      (∀ j < i, ∀ o, blk.ops[j]? = some o → p ∉ o.results) → p ∈ l.liveIn b := by
  induction h with
  | @use b i blk op hb ho hu =>
    intro blk' hb' ha hd
    rw [hb] at hb'
    injection hb' with hb'
    subst hb'
    rw [← (hf b _ hb).1, mem_newIn]
    exact Or.inl ((mem_uses hg hp _).mpr ⟨ha, i, op, ho, hu, hd⟩)
  | @next b i blk op hb ho hr _ ih =>
    intro blk' hb' ha hd
    rw [hb] at hb'
    injection hb' with hb'
    subst hb'
    refine ih _ hb ha (fun j hj o ho' => ?_)
    by_cases hji : j = i
    · subst hji
      rw [ho] at ho'
      injection ho' with ho'
      subst ho'
      exact hr
    · exact hd j (by omega) o ho'
  | @edge b s blk op next hb hl hs hn ha' _ ih =>
    intro blk' hb' ha hd
    rw [hb] at hb'
    injection hb' with hb'
    subst hb'
    have := ih next hn ha' (fun j hj => absurd hj (by omega))
    rw [← (hf b _ hb).1, mem_newIn]
    refine Or.inr ⟨mem_newOut.mpr ⟨op, s, hl, hs, this⟩, ?_⟩
    rw [mem_defs hg hp]
    rintro (h | ⟨o, ho, hr⟩)
    · exact ha h
    · obtain ⟨j, hj⟩ := List.mem_iff_getElem?.mp ho
      exact hd j (List.getElem?_eq_some_iff.mp hj).1 o hj hr

/-! ## Termination -/

theorem countP_lt {l : List Nat} {p q : Nat → Bool} (hpq : ∀ x, p x = true → q x = true) {x : Nat} (hx : x ∈ l)
    (h1 : q x = true) (h2 : p x = false) : l.countP p < l.countP q := by
  induction l with
  | nil => cases hx
  | cons y l ih =>
    rw [List.countP_cons, List.countP_cons]
    have hm : l.countP p ≤ l.countP q := List.countP_mono_left (fun x _ h => hpq x h)
    rcases List.mem_cons.mp hx with rfl | hx
    · simp [h1, h2]; omega
    · have := ih hx
      by_cases hy : p y = true
      · simp [hy, hpq y hy]; omega
      · simp only [hy, Bool.false_eq_true, if_false]; omega

/-- Everything that can get into the sets. -/
def everything (inp : Input) : List Nat :=
  inp.body.flatMap (fun b => b.ops.flatMap (fun op => op.operands.flatMap (touched inp)))

def size (inp : Input) (f : Nat → List Nat) (b : Nat) : Nat := (everything inp).countP (f b).contains

/-- How much is in the sets. -/
def weight (inp : Input) (l : Live) : Nat → Nat
  | 0 => 0
  | n + 1 => weight inp l n + size inp l.liveIn n + size inp l.liveOut n

theorem weight_le (inp : Input) (l : Live) (n : Nat) : weight inp l n ≤ n * (2 * (everything inp).length) := by
  induction n with
  | zero => simp [weight]
  | succ n ih =>
    have h1 : size inp l.liveIn n ≤ (everything inp).length := List.countP_le_length
    have h2 : size inp l.liveOut n ≤ (everything inp).length := List.countP_le_length
    rw [weight, Nat.succ_mul]
    omega

/-- The sets of `l` are contained in those of `m`. -/
def Le (l m : Live) : Prop := ∀ b v, (v ∈ l.liveIn b → v ∈ m.liveIn b) ∧ (v ∈ l.liveOut b → v ∈ m.liveOut b)

theorem size_le {inp : Input} {f g : Nat → List Nat} {b : Nat} (h : ∀ v, v ∈ f b → v ∈ g b) :
    size inp f b ≤ size inp g b :=
  List.countP_mono_left (fun x _ hx => by simpa using h x (by simpa using hx))

theorem weight_mono {inp : Input} {l m : Live} (h : Le l m) (n : Nat) : weight inp l n ≤ weight inp m n := by
  induction n with
  | zero => exact Nat.le_refl _
  | succ n ih =>
    have h1 := size_le (inp := inp) (fun v => (h n v).1)
    have h2 := size_le (inp := inp) (fun v => (h n v).2)
    simp only [weight]
    omega

theorem weight_lt {inp : Input} {l m : Live} (h : Le l m) {n b v : Nat} (hb : b < n) (hv : v ∈ everything inp)
    (hd : (v ∈ m.liveIn b ∧ v ∉ l.liveIn b) ∨ (v ∈ m.liveOut b ∧ v ∉ l.liveOut b)) :
    weight inp l n < weight inp m n := by
  induction n with
  | zero => omega
  | succ n ih =>
    have h0 := weight_mono (inp := inp) h n
    have h1 := size_le (inp := inp) (fun v => (h n v).1)
    have h2 := size_le (inp := inp) (fun v => (h n v).2)
    simp only [weight]
    by_cases hbn : b = n
    · subst hbn
      rcases hd with ⟨d1, d2⟩ | ⟨d1, d2⟩
      · have : size inp l.liveIn b < size inp m.liveIn b :=
          countP_lt (fun x hx => by simpa using (h b x).1 (by simpa using hx)) hv (by simpa using d1) (by simpa using d2)
        omega
      · have : size inp l.liveOut b < size inp m.liveOut b :=
          countP_lt (fun x hx => by simpa using (h b x).2 (by simpa using hx)) hv (by simpa using d1) (by simpa using d2)
        omega
    · have := ih (by omega)
      omega

/-- The sets only contain what the equations justify. -/
def Below (inp : Input) (l : Live) : Prop :=
  (∀ (b : Nat) (blk : Block), inp.body[b]? = some blk →
    (∀ v, v ∈ l.liveIn b → v ∈ newIn inp blk (newOut blk l)) ∧ (∀ v, v ∈ l.liveOut b → v ∈ newOut blk l)) ∧
  (∀ b v, v ∈ l.liveIn b → v ∈ everything inp) ∧ (∀ b v, v ∈ l.liveOut b → v ∈ everything inp)

theorem newOut_mono {blk : Block} {l m : Live} (h : Le l m) {v : Nat} (hv : v ∈ newOut blk l) : v ∈ newOut blk m := by
  obtain ⟨op, s, h1, h2, h3⟩ := mem_newOut.mp hv
  exact mem_newOut.mpr ⟨op, s, h1, h2, (h s v).1 h3⟩

theorem newIn_mono {inp : Input} {blk : Block} {a b : List Nat} (h : ∀ v, v ∈ a → v ∈ b) {v : Nat}
    (hv : v ∈ newIn inp blk a) : v ∈ newIn inp blk b := by
  rw [mem_newIn] at hv ⊢
  exact hv.imp id (fun ⟨h1, h2⟩ => ⟨h v h1, h2⟩)

theorem fold_uses_universe {inp : Input} (ops : List Op) (s : UseDef) {v : Nat}
    (h : v ∈ (ops.foldl (useDefStep inp) s).uses) :
    v ∈ s.uses ∨ v ∈ ops.flatMap (fun op => op.operands.flatMap (touched inp)) := by
  induction ops generalizing s with
  | nil => exact Or.inl h
  | cons op ops ih =>
    rw [List.foldl_cons] at h
    rw [List.flatMap_cons, List.mem_append]
    rcases ih _ h with h | h
    · simp only [useDefStep, List.mem_append, List.mem_filter] at h
      rcases h with ⟨h, _⟩ | h
      · exact Or.inr (Or.inl h)
      · exact Or.inl h
    · exact Or.inr (Or.inr h)

theorem uses_universe {inp : Input} {b : Nat} {blk : Block} (hb : inp.body[b]? = some blk) {v : Nat}
    (h : v ∈ (useDef inp blk).uses) : v ∈ everything inp := by
  rcases fold_uses_universe _ _ h with h | h
  · cases h
  · exact List.mem_flatMap.mpr ⟨blk, List.mem_of_getElem? hb, h⟩

theorem newOut_universe {inp : Input} {l : Live} (hl : Below inp l) {blk : Block} {v : Nat} (h : v ∈ newOut blk l) :
    v ∈ everything inp := by
  obtain ⟨op, s, _, _, h3⟩ := mem_newOut.mp h
  exact hl.2.1 s v h3

theorem newIn_universe {inp : Input} {l : Live} (hl : Below inp l) {b : Nat} {blk : Block}
    (hb : inp.body[b]? = some blk) {v : Nat} (h : v ∈ newIn inp blk (newOut blk l)) : v ∈ everything inp := by
  rcases mem_newIn.mp h with h | ⟨h, _⟩
  · exact uses_universe hb h
  · exact newOut_universe hl h

/-- A visit lets the sets grow. -/
theorem visit_le {inp : Input} {s : Sweep} (hl : Below inp s.live) {ib : Nat × Block}
    (hb : inp.body[ib.1]? = some ib.2) : Le s.live (visit inp s ib).live := by
  intro b v
  constructor
  · intro h
    simp only [visit]
    split
    · exact h
    · rw [update]
      split
      · rename_i hbi; subst hbi; exact (hl.1 _ _ hb).1 v h
      · exact h
  · intro h
    simp only [visit]
    split
    · exact h
    · rw [update]
      split
      · rename_i hbi; subst hbi; exact (hl.1 _ _ hb).2 v h
      · exact h

theorem visit_below {inp : Input} {s : Sweep} (hl : Below inp s.live) {ib : Nat × Block}
    (hb : inp.body[ib.1]? = some ib.2) : Below inp (visit inp s ib).live := by
  have hle := visit_le hl hb
  have hin : ∀ b v, v ∈ (visit inp s ib).live.liveIn b →
      v ∈ s.live.liveIn b ∨ (b = ib.1 ∧ v ∈ newIn inp ib.2 (newOut ib.2 s.live)) := by
    intro b v h
    simp only [visit] at h
    split at h
    · exact Or.inl h
    · rw [update] at h
      split at h
      · rename_i hbi; exact Or.inr ⟨hbi, h⟩
      · exact Or.inl h
  have hout : ∀ b v, v ∈ (visit inp s ib).live.liveOut b →
      v ∈ s.live.liveOut b ∨ (b = ib.1 ∧ v ∈ newOut ib.2 s.live) := by
    intro b v h
    simp only [visit] at h
    split at h
    · exact Or.inl h
    · rw [update] at h
      split at h
      · rename_i hbi; exact Or.inr ⟨hbi, h⟩
      · exact Or.inl h
  refine ⟨fun b blk hblk => ⟨fun v h => ?_, fun v h => ?_⟩, fun b v h => ?_, fun b v h => ?_⟩
  · rcases hin b v h with g | ⟨rfl, g⟩
    · exact newIn_mono (fun v => newOut_mono hle) ((hl.1 b blk hblk).1 v g)
    · rw [hb] at hblk
      injection hblk with hblk
      subst hblk
      exact newIn_mono (fun v => newOut_mono hle) g
  · rcases hout b v h with g | ⟨rfl, g⟩
    · exact newOut_mono hle ((hl.1 b blk hblk).2 v g)
    · rw [hb] at hblk
      injection hblk with hblk
      subst hblk
      exact newOut_mono hle g
  · rcases hin b v h with g | ⟨rfl, g⟩
    · exact hl.2.1 b v g
    · exact newIn_universe hl hb g
  · rcases hout b v h with g | ⟨rfl, g⟩
    · exact hl.2.2 b v g
    · exact newOut_universe hl g

theorem not_sameSet {a b : List Nat} (h : sameSet a b = false) (hs : ∀ v, v ∈ b → v ∈ a) : ∃ v, v ∈ a ∧ v ∉ b := by
  apply Classical.byContradiction
  intro hn
  have : sameSet a b = true := sameSet_iff.mpr (fun v => ⟨fun hv => Classical.byContradiction (fun hb => hn ⟨v, hv, hb⟩), hs v⟩)
  rw [h] at this
  simp at this

theorem visit_grows {inp : Input} {s : Sweep} (hl : Below inp s.live) {ib : Nat × Block}
    (hb : inp.body[ib.1]? = some ib.2) (hc : (visit inp s ib).changed = true) :
    s.changed = true ∨ weight inp s.live inp.body.length < weight inp (visit inp s ib).live inp.body.length := by
  have hlt : ib.1 < inp.body.length := (List.getElem?_eq_some_iff.mp hb).1
  simp only [visit, Bool.or_eq_true, Bool.not_eq_true'] at hc
  rcases hc with (hc | hc) | hc
  · exact Or.inl hc
  · obtain ⟨v, h1, h2⟩ := not_sameSet hc (hl.1 _ _ hb).1
    refine Or.inr (weight_lt (visit_le hl hb) hlt (newIn_universe hl hb h1) (Or.inl ⟨?_, h2⟩))
    simp [visit, hc, update, h1]
  · obtain ⟨v, h1, h2⟩ := not_sameSet hc (hl.1 _ _ hb).2
    refine Or.inr (weight_lt (visit_le hl hb) hlt (newOut_universe hl h1) (Or.inr ⟨?_, h2⟩))
    simp [visit, hc, update, h1]

theorem fold_grows {inp : Input} (xs : List (Nat × Block)) (hx : ∀ ib ∈ xs, inp.body[ib.1]? = some ib.2)
    (s : Sweep) (hl : Below inp s.live) : Below inp (xs.foldl (visit inp) s).live ∧
      weight inp s.live inp.body.length ≤ weight inp (xs.foldl (visit inp) s).live inp.body.length ∧
      ((xs.foldl (visit inp) s).changed = true → s.changed = true ∨
        weight inp s.live inp.body.length < weight inp (xs.foldl (visit inp) s).live inp.body.length) := by
  induction xs generalizing s with
  | nil => exact ⟨hl, Nat.le_refl _, fun h => Or.inl h⟩
  | cons x xs ih =>
    have hb := hx x (.head _)
    obtain ⟨h1, h2, h3⟩ := ih (fun ib h => hx ib (.tail _ h)) _ (visit_below hl hb)
    have hm := weight_mono (inp := inp) (visit_le hl hb) inp.body.length
    refine ⟨h1, Nat.le_trans hm h2, fun h => ?_⟩
    rcases h3 h with h | h
    · rcases visit_grows hl hb h with h | h
      · exact Or.inl h
      · exact Or.inr (Nat.lt_of_lt_of_le h h2)
    · exact Or.inr (Nat.lt_of_le_of_lt hm h)

theorem round_grows {inp : Input} {l : Live} (hl : Below inp l) : Below inp (round inp l).live ∧
    ((round inp l).changed = true → weight inp l inp.body.length < weight inp (round inp l).live inp.body.length) := by
  obtain ⟨h1, _, h3⟩ := fold_grows (order inp.body) (fun _ h => mem_order.mp h) ⟨l, false⟩ hl
  refine ⟨h1, fun h => ?_⟩
  rcases h3 h with h | h
  · simp at h
  · exact h

theorem loop_some {inp : Input} (fuel : Nat) (l : Live) (hl : Below inp l)
    (hf : inp.body.length * (2 * (everything inp).length) - weight inp l inp.body.length < fuel) :
    ∃ m, loop inp fuel l = some m := by
  induction fuel generalizing l with
  | zero => omega
  | succ n ih =>
    rw [loop]
    obtain ⟨h1, h2⟩ := round_grows hl
    split
    · rename_i hc
      have := h2 hc
      have hw := weight_le inp (round inp l).live inp.body.length
      exact ih _ h1 (by omega)
    · exact ⟨_, rfl⟩

theorem loop_fixed {inp : Input} (hg : Good inp) (fuel : Nat) (l : Live) (hs : Sound inp l) {m : Live}
    (h : loop inp fuel l = some m) : Sound inp m ∧ Fixed inp m := by
  induction fuel generalizing l with
  | zero => simp [loop] at h
  | succ n ih =>
    rw [loop] at h
    split at h
    · exact ih _ (round_sound hg hs) h
    · rename_i hc
      obtain ⟨e, hf⟩ := round_fixed (by simpa using hc)
      injection h with h
      rw [e] at h
      subst h
      exact ⟨hs, hf⟩

theorem start_sound (inp : Input) : Sound inp start := fun p _ b => ⟨fun h => (by cases h), fun h => (by cases h)⟩

theorem start_below (inp : Input) : Below inp start :=
  ⟨fun b blk _ => ⟨fun v h => (by cases h), fun v h => (by cases h)⟩, fun b v h => (by cases h), fun b v h => (by cases h)⟩

/-! ## The tracked values -/

theorem ptrValues_good {I : Info} {body : Body} (hs : ∀ b ∈ body, ∀ v ∈ b.args, I.static v = false) {p : Nat}
    (h : p ∈ ptrValues I body) : I.anyref p = true ∧ I.static p = false := by
  simp only [ptrValues, List.mem_append, List.mem_flatMap, List.mem_filter, Bool.and_eq_true, Bool.not_eq_true'] at h
  rcases h with ⟨b, hb, ⟨h1, h2⟩ | ⟨_, _, _, h⟩⟩ | ⟨_, _, _, _, _, h⟩
  · exact ⟨h2, hs b hb p h1⟩
  · exact h
  · exact h

theorem aliasStep_ptrs {I : Info} {st : Aliases} {op : Op} {p : Nat} (h : p ∈ (aliasStep I st op).ptrs) : p ∈ st.ptrs := by
  rw [aliasStep] at h
  repeat' split at h
  all_goals first | exact h | exact (List.mem_filter.mp h).1

theorem aliases_ptrs {I : Info} {body : Body} {p : Nat} (h : p ∈ (aliases I body).ptrs) : p ∈ ptrValues I body := by
  have : ∀ (ops : List Op) (st : Aliases), p ∈ (ops.foldl (aliasStep I) st).ptrs → p ∈ st.ptrs := by
    intro ops
    induction ops with
    | nil => exact fun st h => h
    | cons op ops ih => exact fun st h => aliasStep_ptrs (ih _ h)
  exact this _ _ h


/-! ## Casts -/

/-- The state of `build_ptr_alias_map` after some operations. -/
structure AliasInv (I : Info) (B : List Nat) (pre : List Op) (st : Aliases) : Prop where
  /-- Aliases are casts of a tracked value that something before converted. -/
  sound : ∀ v p, st.map.lookup v = some p → Relation.TransGen (CastStep I pre) p v ∧ p ∈ st.ptrs ∧
    ∃ op ∈ pre, op.kind = .cast ∧ op.operands.head? = some p
  /-- What has an alias entry is not tracked itself. -/
  gone : ∀ v p, st.map.lookup v = some p → v ∉ st.ptrs
  /-- Casts of tracked values have an entry. -/
  complete : ∀ v p, p ∈ st.ptrs → Relation.TransGen (CastStep I pre) p v → st.map.lookup v = some p
  /-- Entries are results of casts. -/
  defined : ∀ v p, st.map.lookup v = some p → ∃ op ∈ pre, op.kind = .cast ∧ op.results.head? = some v

theorem castStep_mono {I : Info} {pre pre' : List Op} (h : ∀ o ∈ pre, o ∈ pre') {a b : Nat} (hs : CastStep I pre a b) :
    CastStep I pre' a b := by
  obtain ⟨op, h1, h2⟩ := hs
  exact ⟨op, h op h1, h2⟩

theorem lookup_cons_ne {a b v : Nat} {l : List (Nat × Nat)} (h : v ≠ a) : ((a, b) :: l).lookup v = l.lookup v := by
  rw [List.lookup_cons]
  have : (v == a) = false := by simpa using h
  rw [this]

theorem lookup_cons_eq {a b : Nat} {l : List (Nat × Nat)} : ((a, b) :: l).lookup a = some b := by
  rw [List.lookup_cons]
  simp

/-- A chain of casts whose last operation list is `pre ++ [op]`, where nothing converts what `op`
defines, either does not use `op` or ends with it. -/
theorem trans_last {I : Info} {pre : List Op} {op : Op} {p v : Nat}
    (hlast : ∀ w, op.results.head? = some w → ∀ o ∈ pre ++ [op], o.kind = .cast → o.operands.head? ≠ some w)
    (h : Relation.TransGen (CastStep I (pre ++ [op])) p v) :
    Relation.TransGen (CastStep I pre) p v ∨ (op.kind = .cast ∧ op.results.head? = some v ∧ I.integer v = false ∧
      ∃ m, op.operands.head? = some m ∧ (m = p ∨ Relation.TransGen (CastStep I pre) p m)) := by
  induction h with
  | single h =>
    obtain ⟨o, h1, h2, h3, h4, h5⟩ := h
    rcases List.mem_append.mp h1 with h1 | h1
    · exact Or.inl (.single ⟨o, h1, h2, h3, h4, h5⟩)
    · simp only [List.mem_cons, List.not_mem_nil, or_false] at h1
      subst h1
      exact Or.inr ⟨h2, h4, h5, p, h3, Or.inl rfl⟩
  | tail _ h ih =>
    obtain ⟨o, h1, h2, h3, h4, h5⟩ := h
    rcases ih with ih | ⟨_, i2, _⟩
    · rcases List.mem_append.mp h1 with h1 | h1
      · exact Or.inl (.tail ih ⟨o, h1, h2, h3, h4, h5⟩)
      · simp only [List.mem_cons, List.not_mem_nil, or_false] at h1
        subst h1
        exact Or.inr ⟨h2, h4, h5, _, h3, Or.inr ih⟩
    · exact absurd h3 (hlast _ i2 o h1 h2)

theorem trans_end {I : Info} {pre : List Op} {p v : Nat} (h : Relation.TransGen (CastStep I pre) p v) :
    ∃ o ∈ pre, o.kind = .cast ∧ o.results.head? = some v := by
  cases h with
  | single h => obtain ⟨o, h1, h2, _, h4, _⟩ := h; exact ⟨o, h1, h2, h4⟩
  | tail _ h => obtain ⟨o, h1, h2, _, h4, _⟩ := h; exact ⟨o, h1, h2, h4⟩

theorem trans_mono {I : Info} {pre pre' : List Op} (h : ∀ o ∈ pre, o ∈ pre') {a b : Nat}
    (hs : Relation.TransGen (CastStep I pre) a b) : Relation.TransGen (CastStep I pre') a b :=
  Relation.TransGen.mono (fun _ _ => castStep_mono h) _ _ hs

theorem aliasStep_inv {I : Info} {B : List Nat} {pre : List Op} {op : Op} {post : List Op} {st : Aliases}
    (ho : CastsInOrder (pre ++ op :: post)) (hi : AliasInv I B pre st) :
    AliasInv I B (pre ++ [op]) (aliasStep I st op) := by
  have hsub : ∀ o ∈ pre, o ∈ pre ++ [op] := fun o h => List.mem_append.mpr (Or.inl h)
  -- the step leaves the state as it is and adds no chain
  have same : (∀ p v, Relation.TransGen (CastStep I (pre ++ [op])) p v → p ∈ st.ptrs →
      Relation.TransGen (CastStep I pre) p v) → AliasInv I B (pre ++ [op]) st := fun h =>
    ⟨fun v p hv => ⟨trans_mono hsub (hi.sound v p hv).1, (hi.sound v p hv).2.1, by
        obtain ⟨o, h1, h2⟩ := (hi.sound v p hv).2.2; exact ⟨o, hsub o h1, h2⟩⟩,
     hi.gone, fun v p hp ht => hi.complete v p hp (h p v ht hp),
     fun v p hv => by obtain ⟨o, h1, h2⟩ := hi.defined v p hv; exact ⟨o, hsub o h1, h2⟩⟩
  by_cases hk : op.kind = .cast
  · obtain ⟨o1, o2⟩ := ho pre op post rfl hk
    have hlast : ∀ w, op.results.head? = some w → ∀ o ∈ pre ++ [op], o.kind = .cast → o.operands.head? ≠ some w := by
      intro w hw o hmem hok hop
      rcases List.mem_append.mp hmem with hmem | hmem
      · obtain ⟨l1, l2, rfl⟩ := List.append_of_mem hmem
        exact (ho l1 o (l2 ++ op :: post) (by simp) hok).1 w hop op (by simp) hk hw
      · simp only [List.mem_cons, List.not_mem_nil, or_false] at hmem
        subst hmem
        exact o1 w hop o (.head _) hk hw
    rw [aliasStep, if_pos hk]
    cases hin : op.operands.head? with
    | none =>
      refine same (fun p v ht _ => ?_)
      rcases trans_last hlast ht with h | ⟨_, _, _, m, hm, _⟩
      · exact h
      · rw [hin] at hm; simp at hm
    | some input =>
      cases hout : op.results.head? with
      | none =>
        refine same (fun p v ht _ => ?_)
        rcases trans_last hlast ht with h | ⟨_, hm, _⟩
        · exact h
        · rw [hout] at hm; simp at hm
      | some output =>
        simp only
        have hni : input ≠ output := fun h => o1 input hin op (.head _) hk (h ▸ hout)
        have hnew : st.map.lookup output = none := by
          cases hl : st.map.lookup output with
          | none => rfl
          | some q =>
            obtain ⟨o, h1, h2, h3⟩ := hi.defined output q hl
            exact absurd h3 (o2 output hout o h1 h2)
        cases hroot : (if st.ptrs.contains input then some input else st.map.lookup input) with
        | none =>
          simp only
          refine same (fun p v ht hp => ?_)
          rcases trans_last hlast ht with h | ⟨_, _, _, m, hm, hmp⟩
          · exact h
          · rw [hin] at hm
            injection hm with hm
            subst hm
            split at hroot
            · simp at hroot
            · rename_i hnc
              rcases hmp with rfl | hmp
              · exact absurd (by simpa using hp) hnc
              · rw [hi.complete _ p hp hmp] at hroot; simp at hroot
        | some root =>
          simp only
          have hr : (root = input ∧ input ∈ st.ptrs) ∨ (input ∉ st.ptrs ∧ st.map.lookup input = some root) := by
            split at hroot
            · rename_i hc
              injection hroot with hroot
              exact Or.inl ⟨hroot.symm, by simpa using hc⟩
            · rename_i hc
              exact Or.inr ⟨by simpa using hc, hroot⟩
          have hrp : root ∈ st.ptrs := by
            rcases hr with ⟨rfl, h⟩ | ⟨_, h⟩
            · exact h
            · exact (hi.sound _ _ h).2.1
          have hrd : ∃ o ∈ pre ++ [op], o.kind = .cast ∧ o.operands.head? = some root := by
            rcases hr with ⟨rfl, _⟩ | ⟨_, h⟩
            · exact ⟨op, by simp, hk, hin⟩
            · obtain ⟨o, h1, h2⟩ := (hi.sound _ _ h).2.2
              exact ⟨o, hsub o h1, h2⟩
          cases hint : I.integer output with
          | true =>
            simp only [if_true]
            refine same (fun p v ht hp => ?_)
            rcases trans_last hlast ht with h | ⟨_, hm, hvi, _⟩
            · exact h
            · rw [hout] at hm
              injection hm with hm
              subst hm
              rw [hint] at hvi
              simp at hvi
          | false =>
            simp only [Bool.false_eq_true, if_false]
            have hstep : CastStep I (pre ++ [op]) input output := ⟨op, by simp, hk, hin, hout, hint⟩
            have keep : ∀ q, q ∈ st.ptrs → (∃ o ∈ pre ++ [op], o.kind = .cast ∧ o.operands.head? = some q) →
                q ∈ st.ptrs.filter (· != output) := by
              intro q hq hd
              rw [List.mem_filter]
              refine ⟨hq, ?_⟩
              simp only [bne_iff_ne, ne_eq]
              rintro rfl
              obtain ⟨o, h1, h2, h3⟩ := hd
              exact hlast q hout o h1 h2 h3
            refine ⟨fun v p hv => ?_, fun v p hv => ?_, fun v p hp ht => ?_, fun v p hv => ?_⟩
            · by_cases hvo : v = output
              · subst hvo
                simp only at hv
                rw [lookup_cons_eq] at hv
                injection hv with hv
                subst hv
                refine ⟨?_, keep _ hrp hrd, hrd⟩
                rcases hr with ⟨rfl, _⟩ | ⟨_, h⟩
                · exact .single hstep
                · exact .tail (trans_mono hsub (hi.sound _ _ h).1) hstep
              · simp only at hv
                rw [lookup_cons_ne hvo] at hv
                obtain ⟨h1, h2, o, h3, h4⟩ := hi.sound v p hv
                exact ⟨trans_mono hsub h1, keep _ h2 ⟨o, hsub o h3, h4⟩, o, hsub o h3, h4⟩
            · intro hmem
              simp only [List.mem_filter, bne_iff_ne, ne_eq] at hmem
              simp only at hv
              rw [lookup_cons_ne hmem.2] at hv
              exact hi.gone v p hv hmem.1
            · simp only [List.mem_filter, bne_iff_ne, ne_eq] at hp
              simp only
              rcases trans_last hlast ht with h | ⟨_, hm, _, m, hm', hmp⟩
              · have hvo : v ≠ output := by
                  rintro rfl
                  obtain ⟨o, h1, h2, h3⟩ := trans_end h
                  exact o2 v hout o h1 h2 h3
                rw [lookup_cons_ne hvo]
                exact hi.complete v p hp.1 h
              · rw [hout] at hm
                injection hm with hm
                subst hm
                rw [hin] at hm'
                injection hm' with hm'
                subst hm'
                rw [lookup_cons_eq]
                rcases hmp with rfl | hmp
                · rcases hr with ⟨rfl, _⟩ | ⟨h, _⟩
                  · rfl
                  · exact absurd hp.1 h
                · have hl := hi.complete _ p hp.1 hmp
                  rcases hr with ⟨rfl, h⟩ | ⟨_, h⟩
                  · exact absurd h (hi.gone _ _ hl)
                  · rw [hl] at h; exact h.symm
            · by_cases hvo : v = output
              · subst hvo
                exact ⟨op, by simp, hk, hout⟩
              · simp only at hv
                rw [lookup_cons_ne hvo] at hv
                obtain ⟨o, h1, h2⟩ := hi.defined v p hv
                exact ⟨o, hsub o h1, h2⟩
  · rw [aliasStep, if_neg hk]
    refine same (fun p v ht _ => ?_)
    refine Relation.TransGen.mono (fun a b h => ?_) _ _ ht
    obtain ⟨o, h1, h2, h3⟩ := h
    rcases List.mem_append.mp h1 with h1 | h1
    · exact ⟨o, h1, h2, h3⟩
    · simp only [List.mem_cons, List.not_mem_nil, or_false] at h1
      subst h1
      exact absurd h2 hk

theorem aliases_inv {I : Info} {B : List Nat} (post pre : List Op) (st : Aliases) (ho : CastsInOrder (pre ++ post))
    (hi : AliasInv I B pre st) : AliasInv I B (pre ++ post) (post.foldl (aliasStep I) st) := by
  induction post generalizing pre st with
  | nil => simpa using hi
  | cons op post ih =>
    have := ih (pre ++ [op]) (aliasStep I st op) (by simpa using ho) (aliasStep_inv ho hi)
    simpa using this

theorem aliases_start {I : Info} {B : List Nat} : AliasInv I B [] ⟨B, []⟩ := by
  refine ⟨fun v p h => ?_, fun v p h => ?_, fun v p _ h => ?_, fun v p h => ?_⟩
  · simp at h
  · simp at h
  · obtain ⟨o, h1, _⟩ := trans_end h; cases h1
  · simp at h

end Verif.Live
