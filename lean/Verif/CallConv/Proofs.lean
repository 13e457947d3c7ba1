import Verif.CallConv.Spec
import Mathlib.Tactic.Tauto
/-!
# Lemmas for C33 and C43
-/
namespace Verif.CallConv
variable {A : Type}

theorem provides_join (a b : Conv) (h : Hidden) :
    provides (a.join b) h ↔ provides a h ∨ provides b h := by
  cases a <;> cases b <;> cases h <;> simp [Conv.join, Conv.code, provides]

theorem provides_ext {a b : Conv} (h : ∀ x, provides a x ↔ provides b x) : a = b := by
  have h1 := h .evidence
  have h2 := h .continuation
  cases a <;> cases b <;> simp_all [provides]

theorem demands_iff (t : Table A) (a : A) (h : Hidden) :
    Demands t a h ↔ provides ((t a).getD .cps) h := by
  cases e : t a with
  | none => exact ⟨fun _ => by cases h <;> trivial, fun _ => .unknown e⟩
  | some c =>
    refine ⟨?_, fun hp => .known e hp⟩
    rintro (⟨e', hp⟩ | e')
    · rw [e] at e'; cases e'; exact hp
    · rw [e] at e'; cases e'

theorem provides_fold (t : Table A) (l : List A) : ∀ (c : Conv) (h : Hidden),
    provides (l.foldl (fun c a => c.join ((t a).getD .cps)) c) h ↔
      provides c h ∨ ∃ a ∈ l, Demands t a h := by
  induction l with
  | nil => simp
  | cons a l ih =>
    intro c h
    simp only [List.foldl_cons, ih, provides_join, List.mem_cons, exists_eq_or_imp, demands_iff]
    tauto

theorem provides_forEffectRow (t : Table A) (r : Row A) (h : Hidden) :
    provides (forEffectRow t r) h ↔ RowDemands t r h := by
  have hd : ¬ provides .direct h := by cases h <;> simp [provides]
  have hc : provides .cps h := by cases h <;> simp [provides]
  have key : RowDemands t r h ↔ (∃ a ∈ r.abilities, Demands t a h) ∨ r.isOpen = true := by
    constructor
    · rintro (⟨ha, hx⟩ | ho)
      · exact Or.inl ⟨_, ha, hx⟩
      · exact Or.inr ho
    · rintro (⟨a, ha, hx⟩ | ho)
      · exact .ability ha hx
      · exact .isOpen ho
  rw [key]
  unfold forEffectRow
  simp only
  split
  · rename_i ho; simp [provides_join, hc, ho]
  · rename_i ho; simp [provides_fold, hd, ho]

end Verif.CallConv
