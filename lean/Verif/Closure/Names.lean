import Verif.Closure.Model
/-!
# Names of lifted lambdas are told apart by the function and the counter
-/
namespace Verif.Closure

theorem last_sep {α : Type} {x : α} {a b c d : List α} (hb : x ∉ b) (hd : x ∉ d)
    (h : a ++ x :: b = c ++ x :: d) : a = c ∧ b = d := by
  rcases List.append_eq_append_iff.mp h with ⟨e, h1, h2⟩ | ⟨e, h1, h2⟩
  · cases e with
    | nil =>
      simp only [List.append_nil, List.nil_append, List.cons.injEq, true_and] at h1 h2
      exact ⟨h1.symm, h2⟩
    | cons y e =>
      simp only [List.cons_append, List.cons.injEq] at h2
      exact absurd (show x ∈ b by rw [h2.2]; simp) hb
  · cases e with
    | nil =>
      simp only [List.append_nil, List.nil_append, List.cons.injEq, true_and] at h1 h2
      exact ⟨h1, h2.symm⟩
    | cons y e =>
      simp only [List.cons_append, List.cons.injEq] at h2
      exact absurd (show x ∈ d by rw [h2.2]; simp) hd

theorem clamName_inj {p q : Sym} {a b : Nat} (h : clamName p a = clamName q b) : p = q ∧ a = b := by
  have h1 := congrArg String.toList h
  have hs : "::__clam_".toList = "::__clam".toList ++ ['_'] := by decide
  have ht : ∀ n : Nat, (toString n).toList = Nat.toDigits 10 n := fun n => Nat.toList_repr
  simp only [clamName, String.toList_append, ht, hs, List.append_assoc, List.cons_append, List.nil_append] at h1
  rw [← List.append_assoc, ← List.append_assoc] at h1
  obtain ⟨h2, h3⟩ := last_sep Nat.underscore_not_in_toDigits Nat.underscore_not_in_toDigits h1
  refine ⟨String.ext (List.append_cancel_right h2), ?_⟩
  rw [← Nat.ofDigitChars_toDigits (b := 10) (n := a) (by omega) (by omega), h3,
    Nat.ofDigitChars_toDigits (by omega) (by omega)]

end Verif.Closure
