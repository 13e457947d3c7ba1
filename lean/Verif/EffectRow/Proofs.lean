import Verif.EffectRow.Spec
import Mathlib.Tactic.Tauto
/-!
# Lemmas for C30
-/
namespace Verif.EffectRow
variable {E V : Type} [DecidableEq E]

theorem mem_pushIfAbsent (l : List E) (a e : E) : e ∈ pushIfAbsent l a ↔ e ∈ l ∨ e = a := by
  unfold pushIfAbsent
  split
  · rename_i h
    simp at h
    constructor
    · exact Or.inl
    · rintro (h' | rfl)
      · exact h'
      · exact h
  · simp

theorem nodup_pushIfAbsent {l : List E} (a : E) (h : l.Nodup) : (pushIfAbsent l a).Nodup := by
  unfold pushIfAbsent
  split
  · exact h
  · rename_i h'
    simp at h'
    rw [List.nodup_append]
    refine ⟨h, by simp, ?_⟩
    rintro b hb c hc rfl
    simp at hc
    exact h' (hc ▸ hb)

theorem mem_foldl (l2 : List E) : ∀ (l1 : List E) (e : E),
    e ∈ l2.foldl pushIfAbsent l1 ↔ e ∈ l1 ∨ e ∈ l2 := by
  induction l2 with
  | nil => simp
  | cons a l2 ih => intro l1 e; simp only [List.foldl_cons, ih, mem_pushIfAbsent, List.mem_cons]; tauto

theorem nodup_foldl (l2 : List E) : ∀ (l1 : List E), l1.Nodup → (l2.foldl pushIfAbsent l1).Nodup := by
  induction l2 with
  | nil => intro l1 h; exact h
  | cons a l2 ih => intro l1 h; exact ih _ (nodup_pushIfAbsent a h)

theorem removeEffect_eq (r : Row E V) (e : E) :
    removeEffect r e = if e ∈ r.effects then some ⟨r.effects.erase e, r.rest⟩ else none := by
  unfold removeEffect
  cases h : r.effects.findIdx? (fun x => x == e) with
  | none =>
    rw [List.findIdx?_eq_none_iff] at h
    simp only [beq_eq_false_iff_ne] at h
    rw [if_neg fun hm => h e hm rfl]
  | some pos =>
    obtain ⟨hlt, he, -⟩ := List.findIdx?_eq_some_iff_getElem.mp h
    simp only [beq_iff_eq] at he
    have hm : e ∈ r.effects := he ▸ List.getElem_mem hlt
    rw [if_pos hm, List.erase_eq_eraseIdx]
    have : r.effects.idxOf? e = some pos := h
    rw [this]

theorem firstDuplicate_spec (l : List E) : ∀ seen : List E, seen.Nodup →
    (firstDuplicate seen l = none ↔ (seen ++ l).Nodup) ∧
    ∀ e, firstDuplicate seen l = some e → ∃ a b, l = a ++ e :: b ∧ (seen ++ a).Nodup ∧
      e ∈ seen ++ a := by
  induction l with
  | nil => intro seen h; simp [firstDuplicate, h]
  | cons x l ih =>
    intro seen h
    by_cases hx : x ∈ seen
    · have hc : seen.contains x = true := by simpa using hx
      rw [firstDuplicate, if_pos hc]
      refine ⟨⟨by simp, fun hn => ?_⟩, ?_⟩
      · exact absurd rfl ((List.nodup_append.mp hn).2.2 x hx x (by simp))
      rintro e ⟨⟩
      exact ⟨[], l, rfl, by simpa using h, by simpa using hx⟩
    · have hc : ¬ seen.contains x = true := by simpa using hx
      rw [firstDuplicate, if_neg hc]
      obtain ⟨i1, i2⟩ := ih (x :: seen) (List.nodup_cons.mpr ⟨hx, h⟩)
      refine ⟨?_, ?_⟩
      · rw [i1, List.Perm.nodup_iff]; exact List.perm_middle.symm
      · intro e he
        obtain ⟨a, b, rfl, h1, h2⟩ := i2 e he
        refine ⟨x :: a, b, rfl, ?_, ?_⟩
        · rw [List.Perm.nodup_iff]; exact h1; exact List.perm_middle
        · simp at h2 ⊢; tauto

end Verif.EffectRow
