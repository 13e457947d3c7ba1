import Verif.Complete.Spec
import Mathlib.Data.List.Nodup

namespace Verif.Complete

theorem keywords_words : keywords.Sublist words := by
  have h : words = keywords ++ ["extern".toList, "op".toList] := by decide +kernel
  rw [h]
  exact List.sublist_append_left ..

theorem builtin_some {path : List Text} {a : Text} (h : builtin path = some a) :
    path = ["std".toList, "io".toList, "Io".toList] ∧ a = "Io".toList := by
  unfold builtin at h
  split at h
  · rename_i hp
    simp only [Option.some.injEq] at h
    exact ⟨hp, h.symm⟩
  · cases h

theorem builtin_io : builtin ["std".toList, "io".toList, "Io".toList] = some "Io".toList := if_pos rfl

theorem add_mono {items : List Item} {d : Decl} {i : Item} (h : i ∈ items) : i ∈ add items d := by
  cases d <;> simp only [add, List.mem_append]
  case use path as =>
    cases builtin path with
    | none => exact h
    | some a =>
      simp only
      split
      · exact h
      · exact List.mem_append_left _ h
  case module => exact h
  all_goals exact .inl h

theorem add_declares {items : List Item} {d : Decl} {n : Text} {k : Kind} (h : Declares d n k) :
    (n, k) ∈ add items d := by
  cases h <;> simp_all [add]

theorem add_imports {items : List Item} {d : Decl} {n : Text} (h : ImportsIo d n) :
    ∃ k, (n, k) ∈ add items d := by
  have key : ∀ (as : Option Text), n = as.getD "Io".toList →
      ∃ k, (n, k) ∈ add items (.use ["std".toList, "io".toList, "Io".toList] as) := by
    intro as e
    simp only [add, builtin_io]
    rw [← e]
    split
    · rename_i ha
      obtain ⟨i, hi, hn⟩ := List.any_eq_true.1 ha
      refine ⟨i.2, ?_⟩
      rw [← of_decide_eq_true hn]
      exact hi
    · exact ⟨.ability, by simp⟩
  cases h with
  | plain => exact key none rfl
  | renamed => exact key (some n) rfl

theorem add_sound {items : List Item} {d : Decl} {n : Text} {k : Kind} (h : (n, k) ∈ add items d) :
    (n, k) ∈ items ∨ Declares d n k ∨ (ImportsIo d n ∧ k = .ability) := by
  cases d with
  | function m =>
    simp only [add, List.mem_append, List.mem_singleton, Prod.mk.injEq] at h
    rcases h with h | ⟨rfl, rfl⟩
    · exact .inl h
    · exact .inr (.inl (.function _))
  | struct m =>
    simp only [add, List.mem_append, List.mem_singleton, Prod.mk.injEq] at h
    rcases h with h | ⟨rfl, rfl⟩
    · exact .inl h
    · exact .inr (.inl (.struct _))
  | enum m vs =>
    simp only [add, List.mem_append, List.mem_cons, List.mem_map, Prod.mk.injEq] at h
    rcases h with h | ⟨rfl, rfl⟩ | ⟨v, hv, rfl, rfl⟩
    · exact .inl h
    · exact .inr (.inl (.enum _ _))
    · exact .inr (.inl (.variant _ _ hv))
  | externFunction m =>
    simp only [add, List.mem_append, List.mem_singleton, Prod.mk.injEq] at h
    rcases h with h | ⟨rfl, rfl⟩
    · exact .inl h
    · exact .inr (.inl (.externFunction _))
  | ability m ops =>
    simp only [add, List.mem_append, List.mem_singleton, Prod.mk.injEq] at h
    rcases h with h | ⟨rfl, rfl⟩
    · exact .inl h
    · exact .inr (.inl (.ability _ _))
  | use path as =>
    simp only [add] at h
    cases hb : builtin path with
    | none => rw [hb] at h; exact .inl h
    | some a =>
      rw [hb] at h
      simp only at h
      split at h
      · exact .inl h
      · simp only [List.mem_append, List.mem_singleton, Prod.mk.injEq] at h
        rcases h with h | ⟨rfl, rfl⟩
        · exact .inl h
        · obtain ⟨rfl, rfl⟩ := builtin_some hb
          refine .inr (.inr ⟨?_, rfl⟩)
          cases as with
          | none => exact .plain
          | some x => exact .renamed x
  | module m b => exact .inl h

theorem fold_mono {i : Item} : ∀ (ds : List Decl) (items : List Item), i ∈ items → i ∈ ds.foldl add items
  | [], _, h => h
  | _ :: ds, _, h => fold_mono ds _ (add_mono h)

theorem fold_declares {n : Text} {k : Kind} : ∀ (ds : List Decl) (items : List Item) (d : Decl),
    d ∈ ds → Declares d n k → (n, k) ∈ ds.foldl add items
  | [], _, _, h, _ => by cases h
  | e :: ds, items, d, h, hd => by
    rcases List.mem_cons.1 h with rfl | h
    · exact fold_mono ds _ (add_declares hd)
    · exact fold_declares ds _ d h hd

theorem fold_imports {n : Text} : ∀ (ds : List Decl) (items : List Item) (d : Decl),
    d ∈ ds → ImportsIo d n → ∃ k, (n, k) ∈ ds.foldl add items
  | [], _, _, h, _ => by cases h
  | e :: ds, items, d, h, hd => by
    rcases List.mem_cons.1 h with rfl | h
    · obtain ⟨k, hk⟩ := add_imports (items := items) hd
      exact ⟨k, fold_mono ds _ hk⟩
    · exact fold_imports ds _ d h hd

theorem fold_sound {n : Text} {k : Kind} : ∀ (ds : List Decl) (items : List Item),
    (n, k) ∈ ds.foldl add items →
    (n, k) ∈ items ∨ ∃ d ∈ ds, Declares d n k ∨ (ImportsIo d n ∧ k = .ability)
  | [], _, h => .inl h
  | e :: ds, items, h => by
    rcases fold_sound ds _ h with h | ⟨d, hd, h⟩
    · rcases add_sound h with h | h
      · exact .inl h
      · exact .inr ⟨e, List.mem_cons_self .., h⟩
    · exact .inr ⟨d, List.mem_cons_of_mem _ hd, h⟩

theorem add_names {items : List Item} {d : Decl}
    (h : ∀ n ∈ names d, n ∉ items.map Prod.fst) :
    (add items d).map Prod.fst = items.map Prod.fst ++ names d := by
  cases d with
  | enum n vs => simp [add, names, Function.comp_def]
  | use path as =>
    by_cases hp : path = ["std".toList, "io".toList, "Io".toList]
    · subst hp
      have hn := h (as.getD "Io".toList) (by simp [names])
      simp only [add, builtin_io]
      rw [if_neg]
      · simp [names]
      · intro ha
        obtain ⟨i, hi, he⟩ := List.any_eq_true.1 ha
        exact hn (List.mem_map.2 ⟨i, hi, of_decide_eq_true he⟩)
    · simp only [add, builtin, names]
      rw [if_neg hp, if_neg hp, List.append_nil]
  | module n b => simp [add, names]
  | _ => simp [add, names]

theorem fold_names : ∀ (ds : List Decl) (items : List Item),
    (items.map Prod.fst ++ (ds.map names).flatten).Nodup →
    (ds.foldl add items).map Prod.fst = items.map Prod.fst ++ (ds.map names).flatten
  | [], items, _ => by simp
  | d :: ds, items, h => by
    simp only [List.map_cons, List.flatten_cons] at h ⊢
    have hd := add_names (items := items) (d := d) (by
      intro n hn hi
      exact (List.nodup_append.1 h).2.2 n hi n (List.mem_append_left _ hn) rfl)
    rw [List.foldl_cons, fold_names ds (add items d) (by rw [hd, List.append_assoc]; exact h), hd,
      List.append_assoc]

end Verif.Complete
