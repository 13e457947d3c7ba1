import Verif.Rtti.Lifecycle
import Mathlib.Data.List.Dedup
/-!
# Lemmas on indices and on the table of destructors
-/
namespace Verif.Rtti
open Verif.Layout

variable {T : Type} [DecidableEq T]

/-- The map knows exactly the types of `acc`, numbered from 32. -/
structure Numbered (m : RttiMap T) (acc : List T) : Prop where
  nodup : acc.Nodup
  next : m.nextIdx = UInt32.ofNat (32 + acc.length)
  idx : ∀ t i, m.typeToIdx t = some i ↔ ∃ k : Nat, acc[k]? = some t ∧ i = UInt32.ofNat (32 + k)

theorem numbered_new : Numbered (RttiMap.new : RttiMap T) [] :=
  ⟨by simp, rfl, by intro t i; simp [RttiMap.new]⟩

theorem numbered_insert {m : RttiMap T} {acc : List T} (h : Numbered m acc) (t : T) :
    (t ∈ acc → (m.getOrInsert t).1 = m) ∧
    (t ∉ acc → Numbered (m.getOrInsert t).1 (acc ++ [t]) ∧
      (m.getOrInsert t).2 = UInt32.ofNat (32 + acc.length)) ∧
    (m.getOrInsert t).1.typeToIdx t = some (m.getOrInsert t).2 ∧
    ∀ u i, m.typeToIdx u = some i → (m.getOrInsert t).1.typeToIdx u = some i := by
  cases hm : m.typeToIdx t with
  | some i =>
    obtain ⟨k, hk, _⟩ := (h.idx t i).mp hm
    have hmem := List.mem_of_getElem? hk
    refine ⟨fun _ => by simp [RttiMap.getOrInsert, hm], fun hn => absurd hmem hn,
      by simp [RttiMap.getOrInsert, hm], fun u i hu => by simpa [RttiMap.getOrInsert, hm] using hu⟩
  | none =>
    have hn : t ∉ acc := by
      intro ht
      obtain ⟨k, hk, hke⟩ := List.mem_iff_getElem.mp ht
      have := (h.idx t (UInt32.ofNat (32 + k))).mpr ⟨k, by rw [List.getElem?_eq_getElem hk, hke], rfl⟩
      rw [hm] at this; cases this
    refine ⟨fun ht => absurd ht hn, fun _ => ⟨⟨?_, ?_, ?_⟩, ?_⟩, by simp [RttiMap.getOrInsert, hm], ?_⟩
    · exact List.nodup_append.mpr ⟨h.nodup, by simp, by
        intro a ha b hb hab
        simp only [List.mem_singleton] at hb
        subst hb; subst hab; exact hn ha⟩
    · simp only [RttiMap.getOrInsert, hm, h.next, List.length_append, List.length_singleton]
      rw [← Nat.add_assoc, UInt32.ofNat_add (32 + acc.length) 1]
      rfl
    · intro u i
      simp only [RttiMap.getOrInsert, hm]
      by_cases hu : u = t
      · subst hu
        rw [if_pos rfl, h.next]
        constructor
        · intro he
          cases he
          exact ⟨acc.length, by simp, rfl⟩
        · rintro ⟨k, hk, rfl⟩
          rcases Nat.lt_or_ge k acc.length with hlt | hge
          · rw [List.getElem?_append_left hlt] at hk
            exact absurd (List.mem_of_getElem? hk) hn
          · have : k < (acc ++ [u]).length := (List.getElem?_eq_some_iff.mp hk).1
            simp at this
            rw [show k = acc.length from by omega]
      · rw [if_neg hu, h.idx]
        constructor
        · rintro ⟨k, hk, rfl⟩
          refine ⟨k, ?_, rfl⟩
          rw [List.getElem?_append_left (List.getElem?_eq_some_iff.mp hk).1]
          exact hk
        · rintro ⟨k, hk, rfl⟩
          refine ⟨k, ?_, rfl⟩
          rcases Nat.lt_or_ge k acc.length with hlt | hge
          · rwa [List.getElem?_append_left hlt] at hk
          · have : k < (acc ++ [t]).length := (List.getElem?_eq_some_iff.mp hk).1
            simp at this
            rw [show k = acc.length from by omega] at hk
            simp at hk
            exact absurd hk.symm hu
    · simp [RttiMap.getOrInsert, hm, h.next]
    · intro u i hu
      simp only [RttiMap.getOrInsert, hm]
      have : u ≠ t := by rintro rfl; rw [hm] at hu; cases hu
      rw [if_neg this]; exact hu

theorem numbered_fold : ∀ (l : List T) (m : RttiMap T) (acc : List T), Numbered m acc →
    ∃ acc', Numbered (l.foldl (fun m t => (m.getOrInsert t).1) m) acc' ∧
      ∀ t, t ∈ acc' ↔ t ∈ acc ∨ t ∈ l
  | [], m, acc, h => ⟨acc, h, by simp⟩
  | t :: l, m, acc, h => by
    obtain ⟨h1, h2, _⟩ := numbered_insert h t
    rw [List.foldl_cons]
    by_cases ht : t ∈ acc
    · rw [h1 ht]
      obtain ⟨acc', a1, a2⟩ := numbered_fold l m acc h
      refine ⟨acc', a1, fun u => ?_⟩
      rw [a2, List.mem_cons]
      constructor
      · rintro (h | h) <;> simp [h]
      · rintro (h | rfl | h) <;> simp [*]
    · obtain ⟨acc', a1, a2⟩ := numbered_fold l _ _ (h2 ht).1
      refine ⟨acc', a1, fun u => ?_⟩
      rw [a2]
      simp [or_assoc]

theorem collect_numbered (l : List T) :
    ∃ acc, Numbered (collectTypes l) acc ∧ (∀ t, t ∈ acc ↔ t ∈ l) ∧ acc.length = l.dedup.length := by
  obtain ⟨acc, h1, h2⟩ := numbered_fold l .new [] numbered_new
  simp only [List.not_mem_nil, false_or] at h2
  refine ⟨acc, h1, h2, ?_⟩
  refine List.Perm.length_eq ((List.perm_ext_iff_of_nodup h1.nodup (List.nodup_dedup l)).mpr ?_)
  intro t; rw [h2, List.mem_dedup]

/-! ## Names -/

theorem digitVal_digit {d : Nat} (h : d < 10) : digitVal (Char.ofNat (48 + d)) = some d := by
  have : ∀ d, d < 10 → digitVal (Char.ofNat (48 + d)) = some d := by decide
  exact this d h

theorem parseDigits_append (a b : List Char) : ∀ acc, parseDigits acc (a ++ b) =
    (parseDigits acc a).bind fun x => parseDigits x b := by
  induction a with
  | nil => intro acc; rfl
  | cons c a ih =>
    intro acc
    rw [List.cons_append, parseDigits, parseDigits]
    cases digitVal c with
    | none => rfl
    | some d =>
      simp only [Option.bind_some]
      split
      · exact ih _
      · rfl

theorem parseDigits_digits : ∀ n, n < 2 ^ 32 → parseDigits 0 (digits n) = some n := by
  intro n
  induction n using Nat.strongRecOn with
  | ind n ih =>
    intro hn
    rw [digits]
    split
    · rename_i h
      simp [parseDigits, digitVal_digit h]; omega
    · rename_i h
      rw [parseDigits_append, ih (n / 10) (by omega) (by omega)]
      simp only [Option.bind_some, parseDigits, digitVal_digit (Nat.mod_lt n (by decide : 0 < 10))]
      rw [if_pos (by omega)]
      congr 1; omega

theorem digits_head : ∀ n, ∃ c cs, digits n = c :: cs ∧ c ≠ '+' := by
  intro n
  induction n using Nat.strongRecOn with
  | ind n ih =>
    rw [digits]
    split
    · rename_i h
      refine ⟨_, _, rfl, ?_⟩
      have : ∀ d, d < 10 → Char.ofNat (48 + d) ≠ '+' := by decide
      exact this n h
    · obtain ⟨c, cs, h1, h2⟩ := ih (n / 10) (by omega)
      exact ⟨c, _, by rw [h1]; rfl, h2⟩

theorem parseU32_digits (n : Nat) (h : n < 2 ^ 32) : parseU32 (digits n) = some n := by
  obtain ⟨c, cs, h1, h2⟩ := digits_head n
  have := parseDigits_digits n h
  rw [h1] at this ⊢
  rw [parseU32]
  · exact this
  · intro h; cases h
  · intro h; cases h; exact h2 rfl
  · intro cs' h; cases h; exact h2 rfl

theorem releaseIndex_destructor (i : UInt32) : releaseIndex (destructorName i) = some i.toNat := by
  have h1 : releaseFnPrefix.toList.isPrefixOf (releaseFnPrefix.toList ++ digits i.toNat) = true := by
    rw [List.isPrefixOf_iff_prefix]; exact List.prefix_append _ _
  rw [releaseIndex, destructorName, if_pos h1]
  have h2 : (releaseFnPrefix.toList ++ digits i.toNat).drop releaseFnPrefix.length = digits i.toNat := by
    rw [show releaseFnPrefix.length = releaseFnPrefix.toList.length from by rfl]
    exact List.drop_left
  rw [h2]
  exact parseU32_digits _ i.toNat_lt

/-! ## The table -/

theorem setAll {F : Type} : ∀ (fns : List (Nat × F)) (t : List (Option F)), (fns.map (·.1)).Nodup →
    (fns.foldl (fun t f => t.set f.1 (some f.2)) t).length = t.length ∧
    (∀ i f, (i, f) ∈ fns → i < t.length →
      (fns.foldl (fun t f => t.set f.1 (some f.2)) t)[i]? = some (some f)) ∧
    (∀ i, (∀ f, (i, f) ∉ fns) → (fns.foldl (fun t f => t.set f.1 (some f.2)) t)[i]? = t[i]?)
  | [], t, _ => ⟨rfl, by simp, by simp⟩
  | (j, g) :: fns, t, hn => by
    simp only [List.map_cons, List.nodup_cons] at hn
    obtain ⟨h1, h2, h3⟩ := setAll fns (t.set j (some g)) hn.2
    simp only [List.foldl_cons]
    rw [List.length_set] at h1 h2
    refine ⟨h1, ?_, ?_⟩
    · intro i f hm hi
      rcases List.mem_cons.mp hm with he | hm
      · cases he
        rw [h3 j fun f hf => hn.1 (List.mem_map.mpr ⟨_, hf, rfl⟩)]
        simp [hi]
      · exact h2 i f hm hi
    · intro i hi
      rw [h3 i fun f hf => hi f (List.mem_cons_of_mem _ hf)]
      have : j ≠ i := by rintro rfl; exact hi g List.mem_cons_self
      rw [List.getElem?_set_ne this]

theorem foldl_max_le {F : Type} : ∀ (fns : List (Nat × F)) (n : Nat),
    n ≤ fns.foldl (fun n f => max n f.1) n ∧
    ∀ f ∈ fns, f.1 ≤ fns.foldl (fun n f => max n f.1) n
  | [], n => ⟨Nat.le_refl _, by simp⟩
  | f :: fns, n => by
    obtain ⟨h1, h2⟩ := foldl_max_le fns (max n f.1)
    simp only [List.foldl_cons]
    refine ⟨by omega, ?_⟩
    intro g hg
    rcases List.mem_cons.mp hg with rfl | hg
    · omega
    · exact h2 g hg

theorem table_spec {F : Type} (fns : List (Nat × F)) (hn : (fns.map (·.1)).Nodup) :
    (∀ i f, (i, f) ∈ fns → (rttiTable fns)[i]? = some (some f)) ∧
    (∀ (i : Nat) f, (rttiTable fns)[i]? = some (some f) → (i, f) ∈ fns) := by
  obtain ⟨h1, h2, h3⟩ := setAll fns (List.replicate (fns.foldl (fun n f => max n f.1) 0 + 1) none) hn
  have hle := foldl_max_le fns 0
  have one : ∀ i f, (i, f) ∈ fns → (rttiTable fns)[i]? = some (some f) := by
    intro i f hm
    refine h2 i f hm ?_
    have := hle.2 _ hm
    simp only [List.length_replicate]
    omega
  refine ⟨one, fun i f hif => ?_⟩
  by_cases hx : ∃ g, (i, g) ∈ fns
  · obtain ⟨g, hg⟩ := hx
    rw [one i g hg] at hif
    cases hif
    exact hg
  · have := h3 i fun g hg => hx ⟨g, hg⟩
    rw [show rttiTable fns = _ from rfl] at hif
    rw [rttiTable, this, List.getElem?_replicate] at hif
    split at hif <;> simp at hif

end Verif.Rtti
