import Verif.SourcePath.Model
import Mathlib.Data.List.TakeWhile

namespace Verif.SourcePath

theorem parts_ne (p : Text) : parts p ≠ [] := by
  cases p with
  | nil => simp [parts]
  | cons c r =>
    rw [parts]
    split
    · simp
    · split <;> simp

theorem parts_append : ∀ d n : Text, parts (d ++ '/' :: n) = parts d ++ parts n
  | [], n => by simp [parts]
  | c :: d, n => by
    have ih := parts_append d n
    rw [List.cons_append, parts, parts]
    by_cases h : c = '/'
    · rw [if_pos h, if_pos h, ih]; rfl
    · rw [if_neg h, if_neg h, ih]
      cases hd : parts d with
      | nil => exact absurd hd (parts_ne d)
      | cons x xs => rfl

theorem parts_name : ∀ n : Text, '/' ∉ n → parts n = [n]
  | [], _ => by simp [parts]
  | c :: n, h => by
    simp only [List.mem_cons, not_or] at h
    rw [parts, if_neg (fun e => h.1 e.symm), parts_name n h.2]

theorem fileName_last {d n : Text} (hs : '/' ∉ n) (h1 : n ≠ []) (h2 : n ≠ ['.']) (h3 : n ≠ ['.', '.']) :
    fileName (d ++ '/' :: n) = some n := by
  unfold fileName
  rw [parts_append, parts_name n hs, List.filter_append]
  have hf : [n].filter (fun x => decide (x ≠ []) && decide (x ≠ ['.'])) = [n] := by simp [h1, h2]
  rw [hf, List.getLast?_append]
  simp [h3]

theorem stem_dot {base ext : Text} (hb : base ≠ []) (he : '.' ∉ ext) : stem (base ++ '.' :: ext) = base := by
  unfold stem
  have hd : (base ++ '.' :: ext).reverse.dropWhile (· != '.') = '.' :: base.reverse := by
    rw [List.reverse_append, List.reverse_cons, List.append_assoc, List.dropWhile_append_of_pos]
    · simp
    · intro c hc
      have : c ≠ '.' := fun e => he (e ▸ List.mem_reverse.1 hc)
      simpa using this
  rw [hd]
  simp [hb]

theorem stem_plain {n : Text} (h : '.' ∉ n) : stem n = n := by
  unfold stem
  have hd : n.reverse.dropWhile (· != '.') = [] := by
    rw [List.dropWhile_eq_nil_iff]
    intro c hc
    have : c ≠ '.' := fun e => h (e ▸ List.mem_reverse.1 hc)
    simpa using this
  rw [hd]

theorem pathChar_plain {c : Char} (h : pathChar c = true) : c ≠ '?' ∧ c ≠ '#' ∧ c ≠ '%' := by
  refine ⟨?_, ?_, ?_⟩ <;> rintro rfl <;> revert h <;> decide

theorem pathPart_plain {u : Text} (h : ∀ c ∈ u, pathChar c = true) : pathPart u = u := by
  unfold pathPart
  rw [List.takeWhile_eq_self_iff]
  intro c hc
  obtain ⟨h1, h2, _⟩ := pathChar_plain (h c hc)
  simp [h1, h2]

theorem restPart_plain {u : Text} (h : ∀ c ∈ u, pathChar c = true) : restPart u = [] := by
  unfold restPart
  rw [List.dropWhile_eq_nil_iff]
  intro c hc
  obtain ⟨h1, h2, _⟩ := pathChar_plain (h c hc)
  simp [h1, h2]

theorem wellFormed_plain {more : Char → Bool} : ∀ {u : Text}, (∀ c ∈ u, pathChar c = true) →
    wellFormed more u = true
  | [], _ => by simp [wellFormed]
  | c :: u, h => by
    have hc := h c (List.mem_cons_self ..)
    have ih := wellFormed_plain (more := more) (u := u) (fun d hd => h d (List.mem_cons_of_mem _ hd))
    have hp := (pathChar_plain hc).2.2
    rw [wellFormed]
    · rw [hc, ih]; rfl
    · intro a b r e
      exact absurd e hp

theorem parses_plain {u : Text} (h : ∀ c ∈ u, pathChar c = true) : parses u = true := by
  unfold parses
  rw [pathPart_plain h, restPart_plain h, wellFormed_plain h]
  rfl

end Verif.SourcePath
