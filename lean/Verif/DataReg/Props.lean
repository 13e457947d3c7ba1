import Verif.DataReg.Proofs
/-!
# Property C39: the data registry
-/
namespace Verif.DataReg

/-- C39: every sequence of registrations succeeds. If the stored data fit in 32 bits: every
registered byte string is found at the offset returned for it (at the end, so later registrations do
not disturb earlier ones), with its length; no address holds two different bytes; equal data is
stored once and gets equal results; the reported size is the number of bytes stored and covers all
of them. -/
theorem C39_registry (ds : List (List UInt8)) :
    ∃ r res, Registry.new.addAll ds = some (r, res) ∧
    (stored r.entries < 2 ^ 32 →
      (∀ (k : Nat) d, ds[k]? = some d → ∃ off len : UInt32, res[k]? = some (off, len) ∧
        len.toNat = d.length ∧ off.toNat + d.length ≤ r.totalSize.toNat ∧
        ∀ (i : Nat) b, d[i]? = some b → ByteAt r.entries (off.toNat + i) b) ∧
      (∀ a b b', ByteAt r.entries a b → ByteAt r.entries a b' → b = b') ∧
      (∀ (k k' : Nat) d, ds[k]? = some d → ds[k']? = some d → res[k]? = res[k']?) ∧
      (∀ (k k' : Nat) d d', ds[k]? = some d → ds[k']? = some d' → d ≠ d' →
        ∀ (i j : Nat) off off' len len', res[k]? = some (off, len) → res[k']? = some (off', len') →
          i < d.length → j < d'.length → off.toNat + i ≠ off'.toNat + j) ∧
      (r.entries.map Entry.data).Nodup ∧
      r.totalSize.toNat = stored r.entries) := by
  have hsome : (Registry.new.addAll ds).isSome := addAll_some ds (by simp [Registry.new])
  obtain ⟨⟨r, res⟩, hr⟩ := Option.isSome_iff_exists.mp hsome
  refine ⟨r, res, hr, fun hs => ?_⟩
  obtain ⟨h1, -, h3, h4⟩ := addAll_spec ds inv_new hr hs
  have hdis := packed_disjoint h1.packed h1.nodup
  have hin : ∀ e ∈ r.entries, e.offset.toNat + e.data.length ≤ stored r.entries := by
    intro e he; have := packed_at h1.packed e he; omega
  have huniq : ∀ e ∈ r.entries, ∀ e' ∈ r.entries, e.data = e'.data → e = e' := by
    intro e he e' he' hd
    exact List.inj_on_of_nodup_map h1.nodup he he' hd
  refine ⟨?_, ?_, ?_, ?_, h1.nodup, h1.size⟩
  · intro k d hk
    obtain ⟨off, ho, hm⟩ := h4 k d hk
    have hl := hin _ hm
    simp only at hl
    refine ⟨off, _, ho, ?_, ?_, ?_⟩
    · rw [UInt32.toNat_ofNat']; omega
    · show _ ≤ r.currentOffset.toNat
      rw [h1.size]; exact hl
    · intro i b hb
      exact ⟨_, hm, i, hb, rfl⟩
  · rintro a b b' ⟨e, he, i, hi, rfl⟩ ⟨e', he', j, hj, hij⟩
    have hi' := (List.getElem?_eq_some_iff.mp hi).1
    have hj' := (List.getElem?_eq_some_iff.mp hj).1
    rcases hdis e he e' he' with rfl | h | h
    · have : i = j := by omega
      subst this
      rw [hi] at hj
      exact Option.some.inj hj
    · omega
    · omega
  · intro k k' d hk hk'
    obtain ⟨off, ho, hm⟩ := h4 k d hk
    obtain ⟨off', ho', hm'⟩ := h4 k' d hk'
    have := huniq _ hm _ hm' rfl
    rw [ho, ho', (Entry.mk.injEq ..).mp this |>.1]
  · intro k k' d d' hk hk' hne i j o o' len len' hres hres' hi hj
    obtain ⟨off, ho, hm⟩ := h4 k d hk
    obtain ⟨off', ho', hm'⟩ := h4 k' d' hk'
    rw [ho] at hres
    rw [ho'] at hres'
    cases hres
    cases hres'
    rcases hdis _ hm _ hm' with h | h | h
    · exact absurd (congrArg Entry.data h) hne
    · simp only at h; omega
    · simp only at h; omega

/-- Two distinct strings and a repeat. -/
example : (Registry.new.addAll [[104, 105], [1, 2, 3], [104, 105]]).map
    (fun p => (p.1.entries, p.2)) =
    some ([⟨0, [104, 105]⟩, ⟨2, [1, 2, 3]⟩], [(0, 2), (2, 3), (0, 2)]) := by decide

end Verif.DataReg
