import Verif.TailResume.Proofs

/-!
# C113: handler arms lose their continuation only if they do not need it
-/

namespace Verif.TailResume

/-- If every arm without a continuation resumes last, so it is after the conversion: in particular every
converted arm, at any depth, hands its continuation to nothing until it resumes it once, as the last
thing, and ends with what came back. -/
theorem C113_fits {os : List Op} (h : AllArmsFit os) : AllArmsFit (convertAll os) := fitAll_convert os h

/-- The conversion changes no run. -/
theorem C113_runs (os : List Op) (tr : List Event) : Run (convertAll os) tr ↔ Run os tr :=
  ⟨run_back os tr, run_convert⟩

/-- Afterwards no arm with a continuation is left, at any depth, whose last two operations resume its
continuation and end with the result, neither of them used for anything else. -/
theorem C113_complete {os : List Op} {a n k v r : Nat} {rest ws : List Nat} {pre : List Op}
    (hv : v ≠ k) (hrv : v ≠ r) (hrk : r ≠ k) (hk : usesAll k pre = 0) (hr : usesAll r pre = 0)
    (hkw : k ∉ ws) (hrw : ws.count r = 1) :
    ¬ Within (.suspend a n (k :: rest) (pre ++ [.resume k v r, .done ws])) (convertAll os) := by
  intro h
  have hf := within_convert h os rfl a n _ _ rfl
  have hm : r ∈ ws := List.count_pos_iff.1 (by omega)
  have hc : ws.count k = 0 := List.count_eq_zero.2 hkw
  rw [shape_isTail hm] at hf
  · cases hf
  · rw [usesAll_append, hk]
    simp [usesAll, uses, hc, hv]
  · rw [usesAll_append, hr]
    simp [usesAll, uses, hrw, hrv, Ne.symm hrk]

/-- Arms that already are without a continuation stay so, and another run changes nothing. -/
theorem C113_again (os : List Op) : convertAll (convertAll os) = convertAll os := convertAll_twice os

/-- Ability and operation of every arm stay, in order: nothing is added, lost or moved. -/
theorem C113_arms (os : List Op) : (convertAll os).length = os.length ∧
    ∀ (i a n : Nat) (args : List Nat) (body : List Op),
      (os[i]? = some (.suspend a n args body) ∨ os[i]? = some (.arm a n args body)) →
        (convertAll os)[i]? = some (.suspend a n args (convertAll body)) ∨
          (convertAll os)[i]? = some (.arm a n args (convertAll body)) := by
  rw [convertAll_map]
  refine ⟨List.length_map .., ?_⟩
  rintro i a n args body (h | h)
  · rw [List.getElem?_map, h, Option.map_some, convert]
    split
    · exact .inr rfl
    · exact .inl rfl
  · rw [List.getElem?_map, h, Option.map_some, convert]
    exact .inr rfl

/-- A handler with an arm that reads and resumes, and one that keeps its continuation for later. -/
private def sample : List Op :=
  [.other [] [.suspend 1 2 [10, 11] [.other [11] [], .resume 10 12 13, .done [13]],
    .suspend 1 3 [20, 21] [.other [20] [], .resume 20 21 22, .done [22]],
    .suspend 1 4 [30, 31] [.resume 30 31 32, .other [32] [], .done [32]]]]

example : AllArmsFit sample := by simp [sample, AllArmsFit, ArmsFit]

example : convertAll sample =
    [.other [] [.arm 1 2 [10, 11] [.other [11] [], .resume 10 12 13, .done [13]],
      .suspend 1 3 [20, 21] [.other [20] [], .resume 20 21 22, .done [22]],
      .suspend 1 4 [30, 31] [.resume 30 31 32, .other [32] [], .done [32]]]] := by
  simp [sample, convertAll, convert, isTail, usesAll, uses]

example : ∃ tr, Run [.other [11] [], .resume 10 12 13, .done [13]] tr :=
  ⟨_, .other (.zero _) (.resume (.done .nil))⟩

end Verif.TailResume
