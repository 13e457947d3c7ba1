import Verif.EffectRow.Proofs
/-!
# Property C30: effect-row operations are set operations
-/
namespace Verif.EffectRow
variable {E V N : Type} [DecidableEq E] [DecidableEq N]

/-- C30: `contains` is membership among the listed effects; the lookups by name agree with it. -/
theorem C30_contains (r : Row E V) (e : E) (name : E → N) (n : N) :
    (contains r e = true ↔ e ∈ listed r) ∧
    (containsByName name r n = true ↔ ∃ e ∈ listed r, name e = n) ∧
    (∀ e, e ∈ findByName name r n ↔ e ∈ listed r ∧ name e = n) := by
  simp [contains, containsByName, findByName, listed]

/-- C30: `add_effect` adds exactly the effect, whatever the tail stands for, keeps the tail, and
never introduces a duplicate. -/
theorem C30_add (r : Row E V) (e : E) :
    (∀ σ, meaning σ (addEffect r e) = insert e (meaning σ r)) ∧
    listed (addEffect r e) = insert e (listed r) ∧
    (addEffect r e).rest = r.rest ∧
    (r.effects.Nodup → (addEffect r e).effects.Nodup) := by
  refine ⟨?_, ?_, rfl, nodup_pushIfAbsent e⟩
  · intro σ; ext x
    simp only [meaning, addEffect, mem_pushIfAbsent, Set.mem_setOf_eq, Set.mem_insert_iff]; tauto
  · ext x
    simp only [listed, addEffect, mem_pushIfAbsent, Set.mem_setOf_eq, Set.mem_insert_iff]; tauto

/-- C30: `remove_effect` fails exactly when the effect is not listed; otherwise it keeps the tail and
removes one occurrence of the effect and nothing else. -/
theorem C30_remove_one (r : Row E V) (e : E) :
    (removeEffect r e = none ↔ e ∉ listed r) ∧
    ∀ r', removeEffect r e = some r' → r'.rest = r.rest ∧ (e :: r'.effects).Perm r.effects ∧
      r'.effects.Sublist r.effects := by
  rw [removeEffect_eq]
  constructor
  · simp [listed]
  · intro r' h
    split at h
    · rename_i hm
      cases h
      exact ⟨rfl, (List.perm_cons_erase hm).symm, List.erase_sublist⟩
    · exact absurd h (by simp)

/-- C30: on a row without duplicates, `remove_effect` is set deletion, and the result has no
duplicates. -/
theorem C30_remove_partial (r r' : Row E V) (e : E) (hn : r.effects.Nodup)
    (h : removeEffect r e = some r') :
    listed r' = listed r \ {e} ∧ r'.rest = r.rest ∧ r'.effects.Nodup := by
  rw [removeEffect_eq] at h
  split at h
  · cases h
    refine ⟨?_, rfl, hn.sublist List.erase_sublist⟩
    ext x
    simp only [listed, Set.mem_setOf_eq, hn.mem_erase_iff, Set.mem_diff, Set.mem_singleton_iff]
    tauto
  · exact absurd h (by simp)

/-- C30 is false of rows with duplicates: after removing an effect the row can still contain it. -/
theorem C30_remove_violated : ∃ (r r' : Row Nat Nat) (e : Nat),
    removeEffect r e = some r' ∧ contains r' e = true := ⟨⟨[1, 1], none⟩, ⟨[1], none⟩, 1, by decide⟩

example : ([1, 2, 3] : List Nat).Nodup ∧
    removeEffect (⟨[1, 2, 3], some 9⟩ : Row Nat Nat) 2 = some ⟨[1, 3], some 9⟩ := by decide

/-- C30: `remove_with_constraint` never panics. It removes a listed effect; when the effect could
only be in the tail it asks for the tail to be split, and for every way of splitting it the listed
effects together with the remainder are the effects of the row without the removed one; it reports
absence only if the row does not have the effect. -/
theorem C30_remove_with_constraint (r : Row E V) (e : E) (fresh : V) :
    (e ∈ listed r → ∃ r', removeEffect r e = some r' ∧
      removeWithConstraint r e fresh = some (.removed r')) ∧
    (e ∉ listed r → ∀ v, r.rest = some v →
      removeWithConstraint r e fresh = some (.needsConstraint v e fresh) ∧
      ∀ σ : V → Set E, σ v = insert e (σ fresh) → e ∉ σ fresh →
        meaning σ ⟨r.effects, some fresh⟩ = meaning σ r \ {e}) ∧
    (e ∉ listed r → r.rest = none →
      removeWithConstraint r e fresh = some .notFound ∧ ∀ σ, e ∉ meaning σ r) := by
  have hc : contains r e = true ↔ e ∈ listed r := (C30_contains r e (fun x => x) e).1
  refine ⟨?_, ?_, ?_⟩
  · intro h
    have hm : e ∈ r.effects := h
    refine ⟨⟨r.effects.erase e, r.rest⟩, by rw [removeEffect_eq, if_pos hm], ?_⟩
    rw [removeWithConstraint, if_pos (hc.mpr h), removeEffect_eq, if_pos hm]
  · intro h v hv
    refine ⟨by rw [removeWithConstraint, if_neg (fun hh => h (hc.mp hh)), hv], ?_⟩
    intro σ h1 h2
    ext x
    simp only [meaning, Set.mem_setOf_eq, Option.some.injEq, exists_eq_left', hv, h1,
      Set.mem_insert_iff, Set.mem_diff, Set.mem_singleton_iff]
    constructor
    · rintro (hx | hx)
      · exact ⟨Or.inl hx, fun hh => h (hh ▸ hx)⟩
      · exact ⟨Or.inr (Or.inr hx), fun hh => h2 (hh ▸ hx)⟩
    · rintro ⟨hx | hx | hx, hne⟩
      · exact Or.inl hx
      · exact absurd hx hne
      · exact Or.inr hx
  · intro h hv
    refine ⟨by rw [removeWithConstraint, if_neg (fun hh => h (hc.mp hh)), hv], ?_⟩
    rintro σ (hx | ⟨v, hx, -⟩)
    · exact h hx
    · rw [hv] at hx; exact absurd hx (by simp)

/-- C30: `union` lists exactly the effects of both rows and introduces no duplicate. With at most one
open row the tail is kept and the meaning is exactly the union. -/
theorem C30_union (r1 r2 : Row E V) (fresh : V) :
    listed (union r1 r2 fresh) = listed r1 ∪ listed r2 ∧
    (r1.effects.Nodup → (union r1 r2 fresh).effects.Nodup) ∧
    ((r1.rest = none ∨ r2.rest = none) →
      (union r1 r2 fresh).rest = (r1.rest.or r2.rest) ∧
      ∀ σ, meaning σ (union r1 r2 fresh) = meaning σ r1 ∪ meaning σ r2) := by
  refine ⟨?_, nodup_foldl _ _, ?_⟩
  · ext x; simp [listed, union, mem_foldl]
  · intro h
    obtain ⟨l1, t1⟩ := r1
    obtain ⟨l2, t2⟩ := r2
    simp only at h
    refine ⟨?_, ?_⟩
    · cases t1 <;> cases t2 <;> simp_all [union]
    · intro σ; ext x
      rcases h with rfl | rfl
      · cases t2 <;> simp [union, meaning, mem_foldl, or_assoc]
      · cases t1 <;> simp [union, meaning, mem_foldl] <;> tauto

/-- C30: a union of two open rows gets the fresh variable as tail. The fresh variable can be given a
meaning that makes the result exactly the union; nothing forces it to have one (the two tails are
not recorded in the result). -/
theorem C30_union_open (r1 r2 : Row E V) (fresh v w : V) (h1 : r1.rest = some v)
    (h2 : r2.rest = some w) (hv : v ≠ fresh) (hw : w ≠ fresh) :
    (union r1 r2 fresh).rest = some fresh ∧
    (∀ σ : V → Set E, ∃ τ, AgreeExcept σ τ fresh ∧
      meaning τ (union r1 r2 fresh) = meaning τ r1 ∪ meaning τ r2 ∧
      meaning τ r1 = meaning σ r1 ∧ meaning τ r2 = meaning σ r2) ∧
    (∀ σ : V → Set E, ∃ τ, AgreeExcept σ τ fresh ∧
      meaning τ (union r1 r2 fresh) = listed r1 ∪ listed r2) := by
  classical
  refine ⟨by simp [union, h1, h2], ?_, ?_⟩
  · intro σ
    refine ⟨fun x => if x = fresh then σ v ∪ σ w else σ x, fun x hx => by simp [hx], ?_, ?_, ?_⟩
    · ext x
      simp [meaning, union, h1, h2, mem_foldl, hv, hw]
      tauto
    · simp [meaning, h1, hv]
    · simp [meaning, h2, hw]
  · intro σ
    refine ⟨fun x => if x = fresh then ∅ else σ x, fun x hx => by simp [hx], ?_⟩
    ext x
    simp [meaning, union, h1, h2, mem_foldl, listed]

example : union (⟨[1, 2], some 7⟩ : Row Nat Nat) ⟨[2, 3], some 8⟩ 100 = ⟨[1, 2, 3], some 100⟩ := by
  decide

/-- C30: a conflict is reported exactly when some effect is listed twice; it names the effect whose
second occurrence comes first and returns all its occurrences, at least two. -/
theorem C30_conflicts (r : Row E V) :
    (findConflictingEffects r = none ↔ r.effects.Nodup) ∧
    ∀ e dups, findConflictingEffects r = some (e, dups) →
      (∃ a b, r.effects = a ++ e :: b ∧ a.Nodup ∧ e ∈ a) ∧
      dups = List.replicate (r.effects.count e) e ∧ 2 ≤ r.effects.count e := by
  obtain ⟨h1, h2⟩ := firstDuplicate_spec r.effects [] List.nodup_nil
  constructor
  · rw [← (by simpa using h1 : firstDuplicate [] r.effects = none ↔ r.effects.Nodup)]
    unfold findConflictingEffects
    cases firstDuplicate [] r.effects <;> simp
  · intro e dups h
    unfold findConflictingEffects at h
    cases hf : firstDuplicate [] r.effects with
    | none => rw [hf] at h; exact absurd h (by simp)
    | some x =>
      rw [hf] at h
      simp only [Option.some.injEq, Prod.mk.injEq] at h
      obtain ⟨rfl, rfl⟩ := h
      obtain ⟨a, b, hab, ha, hm⟩ := h2 x hf
      simp only [List.nil_append] at ha hm
      refine ⟨⟨a, b, hab, ha, hm⟩, List.filter_beq _, ?_⟩
      rw [hab, List.count_append, List.count_cons_self]
      have := List.count_pos_iff.mpr hm
      omega

example : findConflictingEffects (⟨[1, 2, 3, 2, 1], none⟩ : Row Nat Nat) = some (2, [2, 2]) := by
  decide

end Verif.EffectRow
