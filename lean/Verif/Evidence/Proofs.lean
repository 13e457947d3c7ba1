import Verif.Evidence.Spec
/-! Helper lemmas for the evidence model. -/
namespace Verif.Evidence

/-- Strictly increasing ability ids. -/
def Sorted (e : Evidence) : Prop := e.Pairwise (fun a b => a.abilityId < b.abilityId)

theorem Sorted.lt {e : Evidence} (h : Sorted e) {i j : Nat} (hi : i < e.length)
    (hj : j < e.length) (hij : i < j) : e[i].abilityId < e[j].abilityId :=
  List.pairwise_iff_getElem.mp h i j hi hj hij

/-- What the halving loop maintains. -/
structure BsInv (ms : List Marker) (k : Int) (base size : Nat) : Prop where
  pos : 1 ≤ size
  bound : base + size ≤ ms.length
  low : base = 0 ∨ ∃ h : base < ms.length, ms[base].abilityId ≤ k
  high : ∀ i, (h : i < ms.length) → base + size ≤ i → k < ms[i].abilityId

theorem bsLoop_spec (ms : List Marker) (k : Int) (hs : Sorted ms) (base size : Nat)
    (inv : BsInv ms k base size) :
    ∃ b, bsLoop ms k base size = some b ∧ BsInv ms k b 1 := by
  fun_induction bsLoop ms k base size with
  | case1 base size hgt half mid hnone =>
    have := inv.bound
    simp at hnone
    omega
  | case2 base size hgt half mid m hm base' ih =>
    apply ih
    have hb := inv.bound
    obtain ⟨hlt, hmeq⟩ := List.getElem?_eq_some_iff.mp hm
    by_cases hc : m.abilityId > k
    · have hb' : base' = base := by simp [base', hc]
      rw [hb']
      refine ⟨by omega, by omega, inv.low, ?_⟩
      intro i hi hge
      have hmid : mid ≤ i := by omega
      rcases Nat.lt_or_ge mid i with h | h
      · have := hs.lt hlt hi h
        rw [hmeq] at this; omega
      · have : i = mid := by omega
        subst this; rw [hmeq]; omega
    · have hb' : base' = mid := by simp [base', hc]
      rw [hb']
      refine ⟨by omega, by omega, Or.inr ⟨hlt, by rw [hmeq]; omega⟩, ?_⟩
      intro i hi hge
      exact inv.high i hi (by omega)
  | case3 base size hle =>
    have := inv.pos
    have : size = 1 := by omega
    subst this
    exact ⟨base, rfl, inv⟩

/-- On a sorted vector the search never goes out of bounds; it reports the index of the
key, or the point that separates smaller from larger keys. -/
theorem binarySearch_spec (ms : List Marker) (k : Int) (hs : Sorted ms) :
    (∃ i, ∃ h : i < ms.length, binarySearch ms k = some (.ok i) ∧ ms[i].abilityId = k) ∨
    (∃ p, p ≤ ms.length ∧ binarySearch ms k = some (.error p) ∧
      (∀ i, (h : i < ms.length) → i < p → ms[i].abilityId < k) ∧
      (∀ i, (h : i < ms.length) → p ≤ i → k < ms[i].abilityId)) := by
  unfold binarySearch
  by_cases h0 : ms.length = 0
  · right
    refine ⟨0, by omega, by simp [h0], ?_, ?_⟩ <;> intro i h <;> omega
  · rw [if_neg h0]
    obtain ⟨b, hb, inv⟩ := bsLoop_spec ms k hs 0 ms.length
      ⟨by omega, by omega, Or.inl rfl, fun i hi h => by omega⟩
    have hbl := inv.bound
    have hlt : b < ms.length := by omega
    have hget : ms[b]? = some ms[b] := List.getElem?_eq_getElem hlt
    simp only [hb, hget, Option.bind_eq_bind, Option.bind_some]
    by_cases he : ms[b].abilityId = k
    · left; exact ⟨b, hlt, by simp [he], he⟩
    · right
      by_cases hl : ms[b].abilityId < k
      · refine ⟨b + 1, by omega, by simp [he, hl], ?_, ?_⟩
        · intro i hi hib
          rcases Nat.lt_or_ge i b with h | h
          · have := hs.lt hi hlt h; omega
          · have : i = b := by omega
            subst this; exact hl
        · intro i hi hib; exact inv.high i hi hib
      · refine ⟨b, by omega, by simp [he, hl], ?_, ?_⟩
        · intro i hi hib
          rcases inv.low with h | ⟨_, h⟩
          · omega
          · omega
        · intro i hi hib
          rcases Nat.lt_or_ge b i with h | h
          · have := hs.lt hlt hi h; omega
          · have : i = b := by omega
            subst this; omega

theorem lookup_eq_find (e : Evidence) (hs : Sorted e) (k : Int) :
    e.lookup k = e.find? (fun m => m.abilityId == k) := by
  unfold Evidence.lookup
  rcases binarySearch_spec e k hs with ⟨i, hi, hb, hk⟩ | ⟨p, _, hb, hl, hh⟩
  · simp only [hb, Option.bind_eq_bind, Option.bind_some]
    rw [List.getElem?_eq_getElem hi]
    symm
    rw [List.find?_eq_some_iff_getElem]
    refine ⟨by simp [hk], i, hi, rfl, ?_⟩
    intro j hj
    have := hs.lt (by omega) hi hj
    simp; omega
  · simp only [hb, Option.bind_eq_bind, Option.bind_some]
    symm
    rw [List.find?_eq_none]
    intro m hm
    obtain ⟨i, hi, rfl⟩ := List.mem_iff_getElem.mp hm
    rcases Nat.lt_or_ge i p with h | h
    · have := hl i hi h; simp; omega
    · have := hh i hi h; simp; omega

theorem insertIdx_eq {α} (l : List α) (p : Nat) (a : α) (h : p ≤ l.length) :
    l.insertIdx p a = l.take p ++ a :: l.drop p := by
  induction l generalizing p with
  | nil => have : p = 0 := by simpa using h
           subst this; rfl
  | cons x xs ih =>
    cases p with
    | zero => rfl
    | succ p => simp [List.insertIdx_succ_cons, ih p (by simpa using h)]

/-- `extend` succeeds, keeps the vector sorted, and afterwards the new marker is the
answer for its ability while all other answers are unchanged. -/
theorem extend_spec (e : Evidence) (hs : Sorted e) (m : Marker) :
    ∃ e', e.extend m = some e' ∧ Sorted e' ∧
      (∀ x, x ∈ e' ↔ x = m ∨ (x ∈ e ∧ x.abilityId ≠ m.abilityId)) := by
  unfold Evidence.extend
  rcases binarySearch_spec e m.abilityId hs with ⟨i, hi, hb, hk⟩ | ⟨p, hp, hb, hl, hh⟩
  · refine ⟨e.set i m, by simp [hb], ?_, ?_⟩
    · unfold Sorted
      rw [List.pairwise_iff_getElem]
      intro a b ha hb' hab
      simp at ha hb'
      rw [List.getElem_set, List.getElem_set]
      have := hs.lt ha hb' hab
      split <;> split
      · omega
      · next h1 h2 => subst h1; rw [← hk]; exact this
      · next h1 h2 => subst h2; rw [← hk]; exact this
      · exact this
    · intro x
      constructor
      · intro hx
        obtain ⟨j, hj, rfl⟩ := List.mem_iff_getElem.mp hx
        rw [List.getElem_set]
        simp at hj
        split
        · exact Or.inl rfl
        · next hne =>
          right
          refine ⟨List.getElem_mem hj, ?_⟩
          rcases Nat.lt_or_ge i j with h | h
          · have := hs.lt hi hj h; omega
          · have := hs.lt hj hi (by omega); omega
      · rintro (rfl | ⟨hx, hne⟩)
        · exact List.mem_iff_getElem.mpr ⟨i, by simpa using hi, by simp⟩
        · obtain ⟨j, hj, rfl⟩ := List.mem_iff_getElem.mp hx
          refine List.mem_iff_getElem.mpr ⟨j, by simpa using hj, ?_⟩
          rw [List.getElem_set]
          split
          · next h => subst h; exact absurd hk hne
          · rfl
  · refine ⟨e.insertIdx p m, by simp [hb], ?_, ?_⟩
    · have hsplit : e.insertIdx p m = e.take p ++ m :: e.drop p := by
        exact insertIdx_eq e p m hp
      rw [hsplit]
      unfold Sorted
      rw [List.pairwise_append, List.pairwise_cons]
      refine ⟨hs.sublist (List.take_sublist _ _), ⟨?_, hs.sublist (List.drop_sublist _ _)⟩, ?_⟩
      · intro a ha
        obtain ⟨j, hj, rfl⟩ := List.mem_iff_getElem.mp ha
        rw [List.getElem_drop]
        simp at hj
        exact hh _ (by omega) (by omega)
      · intro a ha b hb'
        obtain ⟨j, hj, rfl⟩ := List.mem_iff_getElem.mp ha
        simp at hj
        rw [List.getElem_take]
        have ha' := hl j (by omega) (by omega)
        rcases List.mem_cons.mp hb' with rfl | hb'
        · exact ha'
        · obtain ⟨j', hj', rfl⟩ := List.mem_iff_getElem.mp hb'
          simp at hj'
          rw [List.getElem_drop]
          have := hh (p + j') (by omega) (by omega)
          omega
    · intro x
      rw [List.mem_insertIdx hp]
      constructor
      · rintro (rfl | hx)
        · exact Or.inl rfl
        · right
          refine ⟨hx, ?_⟩
          obtain ⟨j, hj, rfl⟩ := List.mem_iff_getElem.mp hx
          rcases Nat.lt_or_ge j p with h | h
          · have := hl j hj h; omega
          · have := hh j hj h; omega
      · rintro (rfl | ⟨hx, _⟩)
        · exact Or.inl rfl
        · exact Or.inr hx

theorem sorted_find_eq_some {e : Evidence} (hs : Sorted e) {k : Int} {m : Marker} :
    e.find? (fun x => x.abilityId == k) = some m ↔ m ∈ e ∧ m.abilityId = k := by
  constructor
  · intro h
    exact ⟨List.mem_of_find?_eq_some h, by simpa using List.find?_some h⟩
  · rintro ⟨hm, rfl⟩
    obtain ⟨i, hi, rfl⟩ := List.mem_iff_getElem.mp hm
    rw [List.find?_eq_some_iff_getElem]
    refine ⟨by simp, i, hi, rfl, ?_⟩
    intro j hj
    have := hs.lt (by omega) hi hj
    simp; omega

/-! ### Invariant over histories -/

structure HeapInv (ops : List Op) (h : Heap) : Prop where
  len : h.length = ops.length
  sorted : ∀ e ∈ h, Sorted e
  agree : ∀ i ms, Installed ops i ms → ∀ (hi : i < h.length) (x : Marker),
    x ∈ h[i] ↔ ms.find? (fun y => y.abilityId == x.abilityId) = some x

theorem Installed.lt {ops : List Op} {h : Nat} {ms : List Marker} (H : Installed ops h ms) :
    h < ops.length := by
  cases H with
  | empty h => exact (List.getElem?_eq_some_iff.mp h).1
  | extend h _ _ => exact (List.getElem?_eq_some_iff.mp h).1

theorem Installed.restrict {ops : List Op} {op : Op} {h : Nat} {ms : List Marker}
    (H : Installed (ops ++ [op]) h ms) (hl : h < ops.length) : Installed ops h ms := by
  induction H with
  | empty h => exact .empty (by rwa [List.getElem?_append_left hl] at h)
  | extend h hlt _ ih =>
    exact .extend (by rwa [List.getElem?_append_left hl] at h) hlt (ih (by omega))

theorem Installed.find_mem {ops : List Op} {h : Nat} {ms : List Marker}
    (_ : Installed ops h ms) (x : Marker) :
    ms.find? (fun y => y.abilityId == x.abilityId) = some x → x ∈ ms :=
  List.mem_of_find?_eq_some

theorem HeapInv.step {ops : List Op} {h h' : Heap} {op : Op} (inv : HeapInv ops h)
    (hs : Verif.Evidence.step h op = some h') : HeapInv (ops ++ [op]) h' := by
  cases op with
  | empty =>
    simp only [Verif.Evidence.step, Option.some.injEq] at hs
    subst hs
    refine ⟨by simp [inv.len], ?_, ?_⟩
    · intro e he
      rcases List.mem_append.mp he with he | he
      · exact inv.sorted e he
      · simp at he; subst he; exact List.Pairwise.nil
    · intro i ms H hi x
      simp at hi
      by_cases hlt : i < h.length
      · rw [List.getElem_append_left hlt]
        exact inv.agree i ms (H.restrict (by rw [← inv.len]; exact hlt)) hlt x
      · have hi' : i = h.length := by omega
        subst hi'
        cases H with
        | empty _ => simp [Evidence.new]
        | extend hop _ _ => rw [inv.len] at hop; simp at hop
  | extend ev m =>
    simp only [Verif.Evidence.step, Option.bind_eq_bind] at hs
    cases hev : h[ev]? with
    | none => simp [hev] at hs
    | some e =>
      obtain ⟨hevlt, heq⟩ := List.getElem?_eq_some_iff.mp hev
      have hsorted : Sorted e := inv.sorted e (heq ▸ List.getElem_mem hevlt)
      obtain ⟨e', he', hs', hmem⟩ := extend_spec e hsorted m
      simp [hev, he'] at hs
      subst hs
      refine ⟨by simp [inv.len], ?_, ?_⟩
      · intro e he
        rcases List.mem_append.mp he with he | he
        · exact inv.sorted e he
        · simp at he; subst he; exact hs'
      · intro i ms H hi x
        simp at hi
        by_cases hlt : i < h.length
        · rw [List.getElem_append_left hlt]
          exact inv.agree i ms (H.restrict (by rw [← inv.len]; exact hlt)) hlt x
        · have hi' : i = h.length := by omega
          subst hi'
          cases H with
          | empty hop => rw [inv.len] at hop; simp at hop
          | extend hop hevi Hev =>
            rw [inv.len] at hop
            simp at hop
            obtain ⟨rfl, rfl⟩ := hop
            have ih := inv.agree _ _ (Hev.restrict (by rw [← inv.len]; exact hevlt)) hevlt
            rw [heq] at ih
            simp only [List.getElem_concat_length]
            rw [hmem, ih]
            rw [List.find?_cons]
            by_cases hk : m.abilityId = x.abilityId
            · simp [hk]
              exact eq_comm
            · have hne : ¬ (m.abilityId == x.abilityId) = true := by simpa using hk
              simp only [hne]
              constructor
              · rintro (rfl | ⟨h1, _⟩)
                · exact absurd rfl hk
                · exact h1
              · intro h1; exact Or.inr ⟨h1, fun h => hk h.symm⟩

theorem HeapInv.run {pre ops : List Op} {h h' : Heap} (inv : HeapInv pre h)
    (hr : Verif.Evidence.run h ops = some h') : HeapInv (pre ++ ops) h' := by
  induction ops generalizing pre h with
  | nil => simp [Verif.Evidence.run] at hr; subst hr; simpa using inv
  | cons op ops ih =>
    simp only [Verif.Evidence.run, Option.bind_eq_bind] at hr
    cases hst : Verif.Evidence.step h op with
    | none => simp [hst] at hr
    | some h1 =>
      simp [hst] at hr
      have := ih (inv.step hst) hr
      simpa using this

theorem heapInv_nil : HeapInv [] [] :=
  ⟨rfl, by simp, by intro i ms H hi; simp at hi⟩

end Verif.Evidence
