import Verif.WasmGc.Spec

/-! Facts about the index assignment. -/

namespace Verif.WasmGc

open Spec

theorem lookup_cons (t a : Ty) (i : Nat) (l : List (Ty × Nat)) :
    List.lookup t ((a, i) :: l) = if t = a then some i else List.lookup t l := by
  by_cases h : t = a
  · subst h; simp [List.lookup]
  · simp only [List.lookup, h, if_false]
    have : (t == a) = false := by simpa using h
    simp [this]

theorem assign_cons (n : Nat) (t a : Ty) (l : List Ty) :
    (assign n (a :: l)).lookup t =
      match builtinIdx a with
      | some i => if t = a then some i else (assign n l).lookup t
      | none => if t = a then some n else (assign (n + 1) l).lookup t := by
  cases h : builtinIdx a <;> simp [assign, h, lookup_cons]

theorem assign_sound : ∀ (l : List Ty) (n : Nat) (t : Ty) (i : Nat),
    (assign n l).lookup t = some i →
      t ∈ l ∧ (builtinIdx t = some i ∨ (builtinIdx t = none ∧ n ≤ i))
  | [], n, t, i, h => by simp [assign] at h
  | a :: l, n, t, i, h => by
    rw [assign_cons] at h
    cases hb : builtinIdx a with
    | some j =>
      simp only [hb] at h
      by_cases e : t = a
      · subst e; simp only [if_true, Option.some.injEq] at h; subst h; exact ⟨by simp, .inl hb⟩
      · simp only [e, if_false] at h
        obtain ⟨h1, h2⟩ := assign_sound l n t i h
        exact ⟨by simp [h1], h2⟩
    | none =>
      simp only [hb] at h
      by_cases e : t = a
      · subst e; simp only [if_true, Option.some.injEq] at h; subst h
        exact ⟨by simp, .inr ⟨hb, Nat.le_refl _⟩⟩
      · simp only [e, if_false] at h
        obtain ⟨h1, h2⟩ := assign_sound l (n + 1) t i h
        refine ⟨by simp [h1], ?_⟩
        rcases h2 with h2 | ⟨h2, h3⟩
        · exact .inl h2
        · exact .inr ⟨h2, by omega⟩

theorem assign_mem : ∀ (l : List Ty) (n : Nat) (t : Ty), t ∈ l → ∃ i, (assign n l).lookup t = some i
  | a :: l, n, t, h => by
    rw [assign_cons]
    by_cases e : t = a
    · cases hb : builtinIdx a <;> simp [e]
    · have h' : t ∈ l := by simpa [e] using h
      cases hb : builtinIdx a with
      | some j => simpa [e] using assign_mem l n t h'
      | none => simpa [e] using assign_mem l (n + 1) t h'

theorem assign_inj : ∀ (l : List Ty) (n : Nat) (t t' : Ty) (i : Nat),
    builtinIdx t = none → builtinIdx t' = none →
    (assign n l).lookup t = some i → (assign n l).lookup t' = some i → t = t'
  | [], n, t, t', i, _, _, h, _ => by simp [assign] at h
  | a :: l, n, t, t', i, b, b', h, h' => by
    rw [assign_cons] at h h'
    cases hb : builtinIdx a with
    | some j =>
      have e : t ≠ a := by rintro rfl; simp [b] at hb
      have e' : t' ≠ a := by rintro rfl; simp [b'] at hb
      simp only [hb, e, e', if_false] at h h'
      exact assign_inj l n t t' i b b' h h'
    | none =>
      simp only [hb] at h h'
      by_cases e : t = a
      · by_cases e' : t' = a
        · rw [e, e']
        · simp only [e, if_true, e', if_false, Option.some.injEq] at h h'
          have := (assign_sound l (n + 1) t' i h').2
          rcases this with h2 | ⟨_, h2⟩
          · simp [b'] at h2
          · omega
      · by_cases e' : t' = a
        · simp only [e, if_false, e', if_true, Option.some.injEq] at h h'
          have := (assign_sound l (n + 1) t i h).2
          rcases this with h2 | ⟨_, h2⟩
          · simp [b] at h2
          · omega
        · simp only [e, e', if_false] at h h'
          exact assign_inj l (n + 1) t t' i b b' h h'

theorem pushTy_fold_mem : ∀ (l acc : List Ty) (t : Ty),
    (t ∈ l.foldl pushTy acc ↔ t ∈ acc ∨ (t ∈ l ∧ isAbstract t = false))
  | [], acc, t => by simp
  | a :: l, acc, t => by
    rw [List.foldl_cons, pushTy_fold_mem l (pushTy acc a) t]
    have : t ∈ pushTy acc a ↔ t ∈ acc ∨ (t = a ∧ isAbstract a = false) := by
      unfold pushTy
      by_cases h : a ∈ acc
      · simp only [List.contains_eq_mem, h, decide_true, Bool.not_true, Bool.false_and]
        constructor
        · exact fun h => .inl h
        · rintro (h' | ⟨rfl, _⟩)
          · exact h'
          · exact h
      · cases hA : isAbstract a <;> simp [h]
    rw [this]
    constructor
    · rintro ((h | ⟨rfl, h⟩) | ⟨h1, h2⟩)
      · exact .inl h
      · exact .inr ⟨by simp, h⟩
      · exact .inr ⟨by simp [h1], h2⟩
    · rintro (h | ⟨h1, h2⟩)
      · exact .inl (.inl h)
      · rcases List.mem_cons.1 h1 with rfl | h1
        · exact .inl (.inr ⟨rfl, h2⟩)
        · exact .inr ⟨h1, h2⟩

theorem declared_builtin {t : Ty} (h : Declared t) : builtinIdx t = none := by
  cases t <;> simp only [Declared] at h <;> try contradiction
  · simp only [builtinIdx, builtinName]
    simp only [reserved, List.mem_cons, not_or, List.not_mem_nil] at h
    simp [h]
  · rfl

theorem declared_abstract {t : Ty} (h : Declared t) : isAbstract t = false := by
  cases t <;> simp_all [Declared, isAbstract]

theorem indices_declared {g : List (Fn GOp)} {t : Ty} {i : Nat} (h : Declared t)
    (hl : (indices g).lookup t = some i) : firstUser ≤ i := by
  have := (assign_sound _ _ _ _ hl).2
  rw [declared_builtin h] at this
  simpa using this

theorem indices_inj {g : List (Fn GOp)} {t t' : Ty} {i : Nat} (h : Declared t) (h' : Declared t')
    (hl : (indices g).lookup t = some i) (hl' : (indices g).lookup t' = some i) : t = t' :=
  assign_inj _ _ _ _ _ (declared_builtin h) (declared_builtin h') hl hl'

theorem indices_abstract {g : List (Fn GOp)} {t : Ty} (h : isAbstract t = true) :
    (indices g).lookup t = none := by
  cases hl : (indices g).lookup t with
  | none => rfl
  | some i =>
    have := (assign_sound _ _ _ _ hl).1
    simp only [collectTyped] at this
    rw [pushTy_fold_mem] at this
    simp [h] at this

theorem indices_mention {g : List (Fn GOp)} {f : Fn GOp} {op : GOp} {t : Ty} (hf : f ∈ g)
    (ho : op ∈ f.body) (hm : mention op = some t) (h : isAbstract t = false) :
    ∃ i, (indices g).lookup t = some i := by
  refine assign_mem _ _ _ ?_
  simp only [collectTyped]
  rw [pushTy_fold_mem]
  refine .inr ⟨?_, h⟩
  simp only [List.mem_flatMap, List.mem_filterMap]
  exact ⟨f, hf, op, ho, hm⟩

end Verif.WasmGc
