import Verif.IrStore.Spec
import Mathlib.Tactic.Tauto
import Mathlib.Tactic.ByContra

namespace Verif.IrStore

section look
variable {α β : Type} {dflt : β} {f : α → β}

theorem look_some {l : List α} {i : Nat} {d : α} (h : l[i]? = some d) : look dflt f l i = f d := by
  simp [look, h]

theorem look_none {l : List α} {i : Nat} (h : l[i]? = none) : look dflt f l i = dflt := by
  simp [look, h]

theorem put_same {γ : Type} (g : Nat → γ) (k : Nat) : put g k (g k) = g := by
  funext x; unfold put; split
  · subst_vars; rfl
  · rfl

theorem put_eq {γ : Type} (g : Nat → γ) (k : Nat) (a : γ) : put g k a k = a := by simp [put]

theorem put_ne {γ : Type} (g : Nat → γ) {k x : Nat} (a : γ) (h : x ≠ k) : put g k a x = g x := by
  simp [put, h]

theorem look_set {l : List α} {k : Nat} {d d' : α} (h : l[k]? = some d) :
    look dflt f (l.set k d') = put (look dflt f l) k (f d') := by
  funext i
  have hk : k < l.length := by
    rw [List.getElem?_eq_some_iff] at h; exact h.1
  unfold look put
  rw [List.getElem?_set]
  by_cases hi : i = k
  · subst hi; simp [hk]
  · simp [hi, Ne.symm hi]

theorem look_set_same {l : List α} {k : Nat} {d d' : α} (h : l[k]? = some d) (hf : f d' = f d) :
    look dflt f (l.set k d') = look dflt f l := by
  rw [look_set h, hf, ← look_some (dflt := dflt) (f := f) h, put_same]

theorem look_push {l : List α} {d : α} :
    look dflt f (l ++ [d]) = put (look dflt f l) l.length (f d) := by
  funext i
  unfold look put
  rw [List.getElem?_append]
  split
  · rename_i h; simp [Nat.ne_of_lt h]
  · rename_i h
    by_cases hi : i = l.length
    · subst hi; simp
    · have : i - l.length ≠ 0 := by omega
      rw [if_neg hi]
      simp only
      rw [List.getElem?_eq_none (by omega : l.length ≤ i),
        List.getElem?_eq_none (by simp only [List.length_singleton]; omega)]

theorem look_out {l : List α} {i : Nat} (h : l.length ≤ i) : look dflt f l i = dflt :=
  look_none (List.getElem?_eq_none h)

end look

/-! ## What the calls do to operands and use chains -/

/-- Uses of `v` among operands numbered from `i`. -/
def usesIn (op : OpRef) (v : Value) : Nat → List Value → List Use
  | _, [] => []
  | i, w :: ws => if w = v then ⟨op, i⟩ :: usesIn op v (i + 1) ws else usesIn op v (i + 1) ws

theorem addUses_eq (op : OpRef) (vs : List Value) (i : Nat) (u : Value → List Use) (v : Value) :
    addUses op i vs u v = u v ++ usesIn op v i vs := by
  induction vs generalizing i u with
  | nil => simp [addUses, usesIn]
  | cons w ws ih =>
    simp only [addUses, usesIn]
    rw [ih]
    by_cases h : w = v
    · subst h; simp [put]
    · simp [put, h, Ne.symm h]

theorem mem_usesIn {op : OpRef} {v : Value} {vs : List Value} {i : Nat} {u : Use} :
    u ∈ usesIn op v i vs ↔ u.user = op ∧ i ≤ u.idx ∧ vs[u.idx - i]? = some v := by
  induction vs generalizing i with
  | nil => simp [usesIn]
  | cons w ws ih =>
    obtain ⟨a, j⟩ := u
    simp only [usesIn]
    by_cases hj : j = i
    · subst hj
      simp only [Nat.sub_self, List.getElem?_cons_zero, Option.some.injEq]
      split
      · rw [List.mem_cons, ih]; simp only [Use.mk.injEq]; constructor
        · rintro (h | h)
          · exact ⟨h.1, Nat.le_refl _, by assumption⟩
          · omega
        · intro h; exact .inl ⟨h.1, trivial⟩
      · rw [ih]
        constructor
        · intro h; simp only at h; omega
        · intro h; exact absurd h.2.2 (by assumption)
    · have e : ∀ h : i ≤ j, (w :: ws)[j - i]? = ws[j - (i + 1)]? := fun h => by
        rw [show j - i = (j - (i + 1)) + 1 by omega, List.getElem?_cons_succ]
      have key : (⟨a, j⟩ : Use) ∈ usesIn op v (i + 1) ws ↔ a = op ∧ i ≤ j ∧ (w :: ws)[j - i]? = some v := by
        rw [ih]
        constructor
        · rintro ⟨h1, h2, h3⟩
          have h2 : i + 1 ≤ j := h2
          exact ⟨h1, by omega, by rw [e (by omega)]; exact h3⟩
        · rintro ⟨h1, h2, h3⟩
          exact ⟨h1, (by show i + 1 ≤ j; omega), by rw [← e h2]; exact h3⟩
      split
      · rw [List.mem_cons, key]
        simp [hj]
      · exact key

theorem usesIn_nodup (op : OpRef) (v : Value) (vs : List Value) (i : Nat) :
    (usesIn op v i vs).Nodup := by
  induction vs generalizing i with
  | nil => simp [usesIn]
  | cons w ws ih =>
    simp only [usesIn]
    split
    · refine List.nodup_cons.2 ⟨fun h => ?_, ih _⟩
      have := (mem_usesIn.1 h).2.1
      simp only at this
      omega
    · exact ih _

theorem mem_dropUse {op : OpRef} {i : Nat} {us : List Use} {u : Use} :
    u ∈ dropUse op i us ↔ u ∈ us ∧ u ≠ ⟨op, i⟩ := by
  obtain ⟨a, j⟩ := u
  simp only [dropUse, List.mem_filter, ne_eq, Use.mk.injEq, Bool.not_eq_true', decide_eq_false_iff_not]

theorem dropUse_nodup {op : OpRef} {i : Nat} {us : List Use} (h : us.Nodup) :
    (dropUse op i us).Nodup := h.filter _

theorem mem_lowerUse {op : OpRef} {i : Nat} {us : List Use} (hn : us.Nodup) {u : Use} :
    u ∈ lowerUse op i us ↔ (u ∈ us ∧ u ≠ ⟨op, i⟩) ∨ (⟨op, i⟩ ∈ us ∧ u = ⟨op, i - 1⟩) := by
  induction us with
  | nil => simp [lowerUse]
  | cons w ws ih =>
    obtain ⟨hw, hn'⟩ := List.nodup_cons.1 hn
    clear hn
    obtain ⟨a, j⟩ := w
    unfold lowerUse
    by_cases h : a = op ∧ j = i
    · obtain ⟨rfl, rfl⟩ := h
      simp only [and_self, if_true, List.mem_cons, true_or, true_and]
      constructor
      · rintro (h | h)
        · exact .inr h
        · exact .inl ⟨.inr h, fun e => hw (e ▸ h)⟩
      · rintro (⟨h1 | h1, h2⟩ | h)
        · exact absurd h1 h2
        · exact .inr h1
        · exact .inl h
    · have hne : (⟨a, j⟩ : Use) ≠ ⟨op, i⟩ := fun e => h (by cases e; exact ⟨rfl, rfl⟩)
      rw [if_neg h]
      simp only [List.mem_cons, ih hn']
      constructor
      · rintro (rfl | ⟨h1, h2⟩ | ⟨h1, h2⟩)
        · exact .inl ⟨.inl rfl, hne⟩
        · exact .inl ⟨.inr h1, h2⟩
        · exact .inr ⟨.inr h1, h2⟩
      · rintro (⟨h1 | h1, h2⟩ | ⟨h1 | h1, h2⟩)
        · exact .inl h1
        · exact .inr (.inl ⟨h1, h2⟩)
        · exact absurd h1.symm hne
        · exact .inr (.inr ⟨h1, h2⟩)

theorem lowerUse_nodup {op : OpRef} {i : Nat} {us : List Use} (hn : us.Nodup)
    (ha : ⟨op, i - 1⟩ ∉ us) : (lowerUse op i us).Nodup := by
  induction us with
  | nil => simp [lowerUse]
  | cons w ws ih =>
    obtain ⟨hw, hn'⟩ := List.nodup_cons.1 hn
    clear hn
    obtain ⟨a, j⟩ := w
    unfold lowerUse
    split
    · exact List.nodup_cons.2 ⟨fun h => ha (.tail _ h), hn'⟩
    · refine List.nodup_cons.2 ⟨fun h => ?_, ih hn' fun h => ha (.tail _ h)⟩
      rcases (mem_lowerUse hn').1 h with h | h
      · exact hw h.1
      · exact ha (h.2 ▸ .head _)

/-- The chains after the operands behind a removed one have moved down. -/
theorem lowerUses_spec {op : OpRef} : ∀ (vs : List Value) (i : Nat) (us : Value → List Use),
    1 ≤ i → (∀ v, (us v).Nodup) → (∀ v, ⟨op, i - 1⟩ ∉ us v) →
    (∀ v j, i ≤ j → (⟨op, j⟩ ∈ us v ↔ vs[j - i]? = some v)) →
    (∀ v, (lowerUses op i vs us v).Nodup) ∧
    ∀ v u, u ∈ lowerUses op i vs us v ↔
      if u.user = op ∧ i - 1 ≤ u.idx then vs[u.idx - (i - 1)]? = some v else u ∈ us v := by
  intro vs
  induction vs with
  | nil =>
    intro i us hi hn ha hb
    refine ⟨hn, fun v u => ?_⟩
    obtain ⟨a, j⟩ := u
    simp only [lowerUses]
    split
    · rename_i h
      obtain ⟨rfl, h⟩ := h
      simp only [List.getElem?_nil, reduceCtorEq, iff_false]
      by_cases hj : j = i - 1
      · subst hj; exact ha v
      · have : i ≤ j := by omega
        rw [hb v j this]; simp
    · exact Iff.rfl
  | cons w ws ih =>
    intro i us hi hn ha hb
    have hw : ⟨op, i⟩ ∈ us w := (hb w i (Nat.le_refl _)).2 (by simp)
    have hw' : ∀ v, v ≠ w → ⟨op, i⟩ ∉ us v := fun v hv h => by
      have := (hb v i (Nat.le_refl _)).1 h
      simp at this
      exact hv this.symm
    -- the chains after the first round
    have hmem : ∀ v u, u ∈ put us w (lowerUse op i (us w)) v ↔
        (u ∈ us v ∧ u ≠ ⟨op, i⟩) ∨ (v = w ∧ u = ⟨op, i - 1⟩) := by
      intro v u
      by_cases hv : v = w
      · subst hv
        rw [put_eq, mem_lowerUse (hn v)]
        simp [hw]
      · rw [put_ne _ _ hv]
        simp only [hv, false_and, or_false]
        exact ⟨fun h => ⟨h, fun e => hw' v hv (e ▸ h)⟩, fun h => h.1⟩
    obtain ⟨h1, h2⟩ := ih (i + 1) (put us w (lowerUse op i (us w))) (by omega) (fun v => by
        by_cases hv : v = w
        · subst hv; rw [put_eq]; exact lowerUse_nodup (hn v) (ha v)
        · rw [put_ne _ _ hv]; exact hn v)
      (fun v h => by
        rw [Nat.add_sub_cancel, hmem] at h
        rcases h with h | h
        · exact h.2 rfl
        · have := h.2; simp only [Use.mk.injEq, true_and] at this; omega)
      (fun v j hj => by
        rw [hmem]
        have e : (w :: ws)[j - i]? = ws[j - (i + 1)]? := by
          rw [show j - i = (j - (i + 1)) + 1 by omega, List.getElem?_cons_succ]
        rw [hb v j (by omega), e]
        simp only [ne_eq, Use.mk.injEq, true_and]
        constructor
        · rintro (h | h)
          · exact h.1
          · omega
        · intro h; exact .inl ⟨h, by omega⟩)
    refine ⟨h1, fun v u => ?_⟩
    obtain ⟨a, j⟩ := u
    simp only [lowerUses]
    rw [h2]
    simp only [Nat.add_sub_cancel]
    by_cases hc : a = op ∧ i - 1 ≤ j
    · obtain ⟨rfl, hj⟩ := hc
      rw [if_pos (⟨rfl, hj⟩ : a = a ∧ i - 1 ≤ j)]
      by_cases hj' : i ≤ j
      · rw [if_pos ⟨rfl, hj'⟩, show j - (i - 1) = (j - i) + 1 by omega, List.getElem?_cons_succ]
      · have hji : j = i - 1 := by omega
        subst hji
        rw [if_neg (fun h => hj' h.2), hmem]
        simp only [Nat.sub_self, List.getElem?_cons_zero, Option.some.injEq]
        constructor
        · rintro (h | h)
          · exact absurd h.1 (ha v)
          · exact h.1.symm
        · intro h; exact .inr ⟨h.symm, trivial⟩
    · rw [if_neg hc, if_neg (fun h => hc ⟨h.1, by omega⟩), hmem]
      constructor
      · rintro (h | h)
        · exact h.1
        · exact absurd (by simpa using h.2) (fun e : a = op ∧ j = i - 1 => hc ⟨e.1, by omega⟩)
      · intro h
        exact .inl ⟨h, fun e => hc (by simp only [Use.mk.injEq] at e; exact ⟨e.1, by omega⟩)⟩

theorem mem_clearUses {op : OpRef} {vs : List Value} {i : Nat} {us : Value → List Use} {v : Value}
    {u : Use} : u ∈ clearUses op i vs us v ↔
      u ∈ us v ∧ ¬(u.user = op ∧ i ≤ u.idx ∧ vs[u.idx - i]? = some v) := by
  induction vs generalizing i us with
  | nil => simp [clearUses]
  | cons w ws ih =>
    obtain ⟨a, j⟩ := u
    simp only [clearUses]
    rw [ih]
    have hm : (⟨a, j⟩ : Use) ∈ put us w (dropUse op i (us w)) v ↔
        ⟨a, j⟩ ∈ us v ∧ ¬ (v = w ∧ a = op ∧ j = i) := by
      by_cases hv : v = w
      · subst hv
        rw [put_eq, mem_dropUse]
        simp
      · rw [put_ne _ _ hv]; simp [hv]
    rw [hm]
    by_cases hj : j = i
    · subst hj
      simp only [Nat.sub_self, List.getElem?_cons_zero, Option.some.injEq]
      constructor
      · rintro ⟨⟨h1, h2⟩, -⟩; exact ⟨h1, fun h => h2 ⟨h.2.2.symm, h.1, trivial⟩⟩
      · rintro ⟨h1, h2⟩
        exact ⟨⟨h1, fun h => h2 ⟨h.2.1, Nat.le_refl _, h.1.symm⟩⟩, fun h => by omega⟩
    · simp only
      constructor
      · rintro ⟨⟨h1, -⟩, h3⟩
        refine ⟨h1, fun h => h3 ⟨h.1, by omega, ?_⟩⟩
        have := h.2.2
        rwa [show j - i = (j - (i + 1)) + 1 by omega, List.getElem?_cons_succ] at this
      · rintro ⟨h1, h2⟩
        refine ⟨⟨h1, fun h => hj h.2.2⟩, fun h => h2 ⟨h.1, by omega, ?_⟩⟩
        rw [show j - i = (j - (i + 1)) + 1 by omega, List.getElem?_cons_succ]
        exact h.2.2

theorem clearUses_nodup {op : OpRef} {vs : List Value} {i : Nat} {us : Value → List Use}
    (h : ∀ v, (us v).Nodup) (v : Value) : (clearUses op i vs us v).Nodup := by
  induction vs generalizing i us with
  | nil => exact h v
  | cons w ws ih =>
    refine ih fun x => ?_
    by_cases hx : x = w
    · subst hx; rw [put_eq]; exact dropUse_nodup (h x)
    · rw [put_ne _ _ hx]; exact h x

theorem clearAll_spec {c : Store} {os : List OpRef} {us us' : Value → List Use}
    (h : clearAll c os us = some us') (hn : ∀ v, (us v).Nodup) :
    (∀ v, (us' v).Nodup) ∧ ∀ v u, u ∈ us' v ↔
      u ∈ us v ∧ ¬(u.user ∈ os ∧ (c.operandsOf u.user)[u.idx]? = some v) := by
  induction os generalizing us with
  | nil => cases h; exact ⟨hn, by simp⟩
  | cons o os ih =>
    unfold clearAll at h
    cases ho : c.ops[o]? with
    | none => rw [ho] at h; cases h
    | some d =>
      rw [ho] at h
      obtain ⟨h1, h2⟩ := ih h (clearUses_nodup hn)
      refine ⟨h1, fun v u => ?_⟩
      rw [h2, mem_clearUses]
      have hd : c.operandsOf o = d.operands := look_some ho
      simp only [Nat.zero_le, true_and, Nat.sub_zero, List.mem_cons]
      constructor
      · rintro ⟨⟨a1, a2⟩, a3⟩
        refine ⟨a1, ?_⟩
        rintro ⟨hu | hu, e⟩
        · exact a2 ⟨hu, by rw [← hd, ← hu]; exact e⟩
        · exact a3 ⟨hu, e⟩
      · rintro ⟨a1, a2⟩
        exact ⟨⟨a1, fun hh => a2 ⟨.inl hh.1, by rw [hh.1, hd]; exact hh.2⟩⟩,
          fun hh => a2 ⟨.inr hh.1, hh.2⟩⟩

end Verif.IrStore
