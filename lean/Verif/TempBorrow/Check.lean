import Verif.TempBorrow.Discharge
import Verif.RcInsert.Props
import Verif.RcInsert.Check

/-!
# Checking the conditions on concrete functions
-/

namespace Verif.TempBorrow

open Verif.Live Verif.RcInsert

theorem plain_of {c : Config} {I : Info} {body : Body} {deps : List (Nat × Nat)} (hc : c.inp = analyse I body deps) (hr : Regular c)
    (ht : Tidy c) {fuel : Nat} {l : Live} (hl : liveness (analyse I body []) fuel = some l) (h : ∀ v ∈ c.inp.ptrs, v ∉ l.liveIn 0) : Plain c := by
  refine ⟨hr.args, hr.loads, hr.casts, ?_, hr.last, ?_, ?_, hr.branch, hr.succs, hr.tail, hr.contracts, hr.interm_local, ht.ssa, ht.first⟩
  · have hargs := hr.args
    rw [hc] at h hargs ⊢
    intro v hv hn
    exact h v hv ((C21_exact (fun b hb v hv => (hargs b hb v hv).1) hl hv 0).1.2 hn)
  · intro b i op hat hk
    obtain ⟨h1, h2⟩ := hr.ret b i op hat hk
    exact ⟨h1, fun v hv hp => (h2 v hv hp).2.2.2⟩
  · intro b i op hat hk
    obtain ⟨h1, h2, h3⟩ := hr.jump b i op hat hk
    exact ⟨h1, h2, fun v hv hp => ⟨(h3 v hv hp).1.2.2.2, (h3 v hv hp).2⟩⟩

theorem plainTidy_of {c : Config} (ht : Tidy c) : PlainTidy c := ⟨ht.interm, ht.ends, ht.noResults, ht.jumpTypes⟩

/-- The analysis arrives at the given dominators, if every block is reachable and they are the right ones. -/
theorem computes_of {n : Nat} {g : Dominance.Cfg n} {doms : Fin n → Finset (Fin n)} (hr : ∀ b, Dominance.Reachable g b)
    (hd : ∀ a b, a ∈ doms b ↔ Dominance.Dominates g a b) (hv : ∀ b, ∀ s ∈ g.succs b, s ≠ none) :
    Dominance.Computes g ⟨Finset.univ, fun b => some (doms b), true⟩ := by
  obtain ⟨t, h1, h2, h3, h4⟩ := Dominance.C15_exact g
  have : t = ⟨Finset.univ, fun b => some (doms b), true⟩ := by
    obtain ⟨r, d, v⟩ := t
    simp only [Dominance.Tree.mk.injEq]
    refine ⟨?_, ?_, h4.2 hv⟩
    · ext b
      have := (h2 b).2 (hr b)
      simpa [Dominance.Tree.isReachable] using this
    · funext b
      have hbb : Dominance.Dominates g b b := ⟨hr b, fun p hp => by cases hp <;> simp⟩
      have := (h3 b b).2 hbb
      simp only [Dominance.Tree.dominates] at this h3
      cases hb : d b with
      | none => rw [hb] at this; cases this
      | some s =>
        congr 1
        ext a
        rw [hd]
        have := h3 a b
        rw [hb] at this
        simpa using this
  rw [this] at h1
  exact h1

end Verif.TempBorrow
