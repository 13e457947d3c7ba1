import Verif.Evidence.Proofs
/-!
# C01 — evidence lookup finds the innermost handler

Specification: the call history itself.  The `i`-th call creates handle `i`.  `Installed ops h ms`
says that `ms` are the markers installed on the chain of extensions that produced handle `h`,
innermost (most recent) first.
-/
namespace Verif.Evidence

/-- **C01 (lookup).** After any history, looking ability `k` up through handle `h` returns the
most recently installed marker for `k` on the chain that produced `h`, and reports "not found"
only if there is none on that chain. -/
theorem C01_lookup_innermost (ops : List Op) (heap : Heap) (hrun : run [] ops = some heap)
    (h : Nat) (ms : List Marker) (hch : Installed ops h ms) (k : Int) :
    lookupHandle heap h k = ms.find? (fun m => m.abilityId == k) := by
  have inv : HeapInv ops heap := by simpa using heapInv_nil.run hrun
  have hlt : h < heap.length := by rw [inv.len]; exact hch.lt
  have hs := inv.sorted _ (List.getElem_mem hlt)
  unfold lookupHandle
  rw [List.getElem?_eq_getElem hlt]
  simp only [Option.bind_eq_bind, Option.bind_some]
  rw [lookup_eq_find _ hs]
  apply Option.ext
  intro x
  rw [sorted_find_eq_some hs, inv.agree h ms hch hlt x]
  constructor
  · rintro ⟨h1, rfl⟩; exact h1
  · intro h1
    have hk : x.abilityId = k := by simpa using List.find?_some h1
    exact ⟨by rw [hk]; exact h1, hk⟩

/-- **C01 (no undefined behaviour).** Every memory-safe history runs: no binary search ever
leaves the vector. -/
theorem C01_valid_history_runs (ops : List Op) (hv : ValidHistory ops) :
    ∃ heap, run [] ops = some heap := by
  suffices H : ∀ (post pre : List Op) (h : Heap), HeapInv pre h → ValidHistory (pre ++ post) →
      ∃ h', run h post = some h' by
    exact H ops [] [] heapInv_nil hv
  intro post
  induction post with
  | nil => intro pre h _ _; exact ⟨h, rfl⟩
  | cons op post ih =>
    intro pre h inv hv
    have hstep : ∃ h1, step h op = some h1 := by
      cases op with
      | empty => exact ⟨_, rfl⟩
      | extend ev m =>
        have hev : ev < h.length := by
          rw [inv.len]; exact hv pre.length ev m (by simp)
        obtain ⟨e', he', _, _⟩ := extend_spec h[ev] (inv.sorted _ (List.getElem_mem hev)) m
        exact ⟨h ++ [e'], by simp [step, List.getElem?_eq_getElem hev, he']⟩
    obtain ⟨h1, hst⟩ := hstep
    obtain ⟨h', hr⟩ := ih (pre ++ [op]) h1 (inv.step hst) (by simpa using hv)
    exact ⟨h', by simp [run, hst, hr]⟩

/-- **C01 (persistence).** Evidence handed out earlier answers every lookup as before, whatever
is created or extended afterwards. -/
theorem C01_persistent (ops₁ ops₂ : List Op) (heap₁ heap₂ : Heap)
    (h₁ : run [] ops₁ = some heap₁) (h₂ : run [] (ops₁ ++ ops₂) = some heap₂)
    (h : Nat) (hh : h < heap₁.length) (k : Int) :
    lookupHandle heap₂ h k = lookupHandle heap₁ h k := by
  have append : ∀ (a b : List Op) (s : Heap), run s (a ++ b) = (run s a).bind (fun t => run t b) := by
    intro a
    induction a with
    | nil => intro b s; rfl
    | cons op a ih =>
      intro b s
      simp only [List.cons_append, run, Option.bind_eq_bind]
      cases step s op with
      | none => rfl
      | some t => simpa using ih b t
  have grow : ∀ (a : List Op) (s t : Heap), run s a = some t → ∃ u, t = s ++ u := by
    intro a
    induction a with
    | nil => intro s t ht; simp [run] at ht; subst ht; exact ⟨[], by simp⟩
    | cons op a ih =>
      intro s t ht
      simp only [run, Option.bind_eq_bind] at ht
      cases hst : step s op with
      | none => simp [hst] at ht
      | some s1 =>
        simp [hst] at ht
        obtain ⟨u, rfl⟩ := ih s1 t ht
        cases op with
        | empty => simp [step] at hst; subst hst; exact ⟨_, List.append_assoc _ _ _⟩
        | extend ev m =>
          simp only [step, Option.bind_eq_bind] at hst
          cases h1 : s[ev]? with
          | none => simp [h1] at hst
          | some e =>
            cases h2 : e.extend m with
            | none => simp [h1, h2] at hst
            | some e' => simp [h1, h2] at hst; subst hst; exact ⟨_, List.append_assoc _ _ _⟩
  rw [append, h₁] at h₂
  obtain ⟨u, rfl⟩ := grow _ _ _ h₂
  unfold lookupHandle
  rw [List.getElem?_append_left hh]

/-! ### The hypotheses are met by a non-trivial history -/

/-- Three abilities, the middle one handled twice, and a fork from an older evidence. -/
def sampleOps : List Op :=
  [.empty, .extend 0 ⟨5, 1, 0, 0⟩, .extend 1 ⟨3, 2, 0, 0⟩, .extend 2 ⟨5, 7, 0, 0⟩,
   .extend 1 ⟨9, 4, 0, 0⟩]

example : ValidHistory sampleOps := by
  intro i ev m h
  rcases i with _ | _ | _ | _ | _ | i <;> simp [sampleOps] at h <;> omega
example : (run [] sampleOps).isSome = true := by decide +kernel
example : Installed sampleOps 3 [⟨5, 7, 0, 0⟩, ⟨3, 2, 0, 0⟩, ⟨5, 1, 0, 0⟩] :=
  .extend rfl (by decide) (.extend rfl (by decide) (.extend rfl (by decide) (.empty rfl)))
example : (run [] sampleOps).bind (fun h => lookupHandle h 3 5) = some ⟨5, 7, 0, 0⟩ := by
  decide +kernel
example : (run [] sampleOps).bind (fun h => lookupHandle h 4 5) = some ⟨5, 1, 0, 0⟩ := by
  decide +kernel

end Verif.Evidence
