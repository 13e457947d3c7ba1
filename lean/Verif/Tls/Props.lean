import Verif.Tls.Model
/-!
# Properties C06 and C07: prompt tags and thread-local storage
-/
namespace Verif.Tls

@[simp] theorem upd_same {α : Type} (f : Tid → α) (t : Tid) (v : α) : upd f t v t = v := by simp [upd]

theorem upd_other {α : Type} (f : Tid → α) {t u : Tid} (v : α) (h : u ≠ t) : upd f t v u = f u := by
  simp [upd, h]

theorem threadState_fields (s : St) (t : Tid) (k : Nat) :
    (threadState s t k).2.cell = s.cell ∧ (threadState s t k).2.keysCreated = s.keysCreated ∧
    (threadState s t k).2.inited = s.inited ∧ (threadState s t k).2.trace = s.trace := by
  unfold threadState; split <;> simp

/-! ## C07 -/

/-- The inductive invariant behind C07. -/
structure Inv (s : St) : Prop where
  unset : s.cell = .unset → s.keysCreated = 0 ∧ ∀ t, s.pc t = .idle
  initializing : s.cell = .initializing → ∃ o, (∀ t, t ≠ o → s.pc t = .idle ∨ s.pc t = .spin) ∧
    ((s.pc o = .won ∧ s.keysCreated = 0) ∨ (s.pc o = .panicked ∧ s.keysCreated = 0) ∨
      ((∃ k, s.pc o = .made k) ∧ s.keysCreated = 1))
  key : ∀ k, s.cell = .key k → s.keysCreated = 1 ∧
    ∀ t, s.pc t = .idle ∨ s.pc t = .spin ∨ s.pc t = .loaded k
  inited : ∀ t, s.inited t = true → ∃ k, s.cell = .key k

theorem inv_init : Inv init :=
  ⟨by simp [init], by simp [init], by simp [init], by simp [init]⟩

theorem inv_step {t : Tid} {s s' : St} (h : Inv s) (hs : Step t s s') : Inv s' := by
  cases hs with
  | casOk hp hc =>
    obtain ⟨h0, hi⟩ := h.unset hc
    refine ⟨by simp, fun _ => ⟨t, ?_, Or.inl ⟨by simp, h0⟩⟩, by simp, ?_⟩
    · intro u hu; left; simp [upd_other _ _ hu, hi u]
    · intro u hu; obtain ⟨k, hk⟩ := h.inited u hu; rw [hc] at hk; cases hk
  | casBusy hp hc =>
    obtain ⟨o, ho, hcase⟩ := h.initializing hc
    have hto : o ≠ t := by
      rintro rfl
      rcases hcase with ⟨h1, _⟩ | ⟨h1, _⟩ | ⟨⟨k, h1⟩, _⟩ <;> rw [h1] at hp <;> cases hp
    refine ⟨by simp [hc], fun _ => ⟨o, ?_, ?_⟩, by simp [hc], ?_⟩
    · intro u hu
      by_cases hut : u = t
      · subst hut; right; simp
      · simp only [upd_other _ _ hut]; exact ho u hu
    · simpa [upd_other _ _ hto] using hcase
    · intro u hu; exact h.inited u hu
  | casDone k hp hc =>
    refine ⟨by simp [hc], by simp [hc], fun k' hk' => h.key k' hk', fun _ _ => ⟨k, hc⟩⟩
  | create k hp =>
    have hci : s.cell = .initializing := by
      cases hc : s.cell with
      | unset => have := (h.unset hc).2 t; rw [hp] at this; cases this
      | initializing => rfl
      | key k' => rcases (h.key k' hc).2 t with h1 | h1 | h1 <;> rw [hp] at h1 <;> cases h1
    obtain ⟨o, ho, hcase⟩ := h.initializing hci
    have hto : t = o := by
      apply Classical.byContradiction; intro hne
      rcases ho t hne with h1 | h1 <;> rw [hp] at h1 <;> cases h1
    subst hto
    have h0 : s.keysCreated = 0 := by
      rcases hcase with ⟨_, h1⟩ | ⟨h1, _⟩ | ⟨⟨k, h1⟩, _⟩
      · exact h1
      · rw [hp] at h1; cases h1
      · rw [hp] at h1; cases h1
    refine ⟨by simp [hci], fun _ => ⟨t, ?_, ?_⟩, by simp [hci], fun u hu => h.inited u hu⟩
    · intro u hu; simp only [upd_other _ _ hu]; exact ho u hu
    · right; right; exact ⟨⟨k, by simp⟩, by simp [h0]⟩
  | createFail hp =>
    have hci : s.cell = .initializing := by
      cases hc : s.cell with
      | unset => have := (h.unset hc).2 t; rw [hp] at this; cases this
      | initializing => rfl
      | key k' => rcases (h.key k' hc).2 t with h1 | h1 | h1 <;> rw [hp] at h1 <;> cases h1
    obtain ⟨o, ho, hcase⟩ := h.initializing hci
    have hto : t = o := by
      apply Classical.byContradiction; intro hne
      rcases ho t hne with h1 | h1 <;> rw [hp] at h1 <;> cases h1
    subst hto
    have h0 : s.keysCreated = 0 := by
      rcases hcase with ⟨_, h1⟩ | ⟨h1, _⟩ | ⟨⟨k, h1⟩, _⟩
      · exact h1
      · rw [hp] at h1; cases h1
      · rw [hp] at h1; cases h1
    refine ⟨by simp [hci], fun _ => ⟨t, ?_, ?_⟩, by simp [hci], fun u hu => h.inited u hu⟩
    · intro u hu; simp only [upd_other _ _ hu]; exact ho u hu
    · right; left; exact ⟨by simp, h0⟩
  | publish k hp =>
    have hci : s.cell = .initializing := by
      cases hc : s.cell with
      | unset => have := (h.unset hc).2 t; rw [hp] at this; cases this
      | initializing => rfl
      | key k' => rcases (h.key k' hc).2 t with h1 | h1 | h1 <;> rw [hp] at h1 <;> cases h1
    obtain ⟨o, ho, hcase⟩ := h.initializing hci
    have hto : t = o := by
      apply Classical.byContradiction; intro hne
      rcases ho t hne with h1 | h1 <;> rw [hp] at h1 <;> cases h1
    subst hto
    have h1 : s.keysCreated = 1 := by
      rcases hcase with ⟨h1, _⟩ | ⟨h1, _⟩ | ⟨_, h1⟩
      · rw [hp] at h1; cases h1
      · rw [hp] at h1; cases h1
      · exact h1
    refine ⟨by simp, by simp, fun k' hk' => ⟨h1, fun u => ?_⟩, fun _ _ => ⟨k, rfl⟩⟩
    by_cases hu : u = t
    · subst hu; left; simp
    · simp only [upd_other _ _ hu]
      rcases ho u hu with h1 | h1
      · exact Or.inl h1
      · exact Or.inr (Or.inl h1)
  | spinDone hp hc =>
    have hk : ∃ k, s.cell = .key k := by
      cases hcell : s.cell with
      | unset => have := (h.unset hcell).2 t; rw [hp] at this; cases this
      | initializing => exact absurd hcell hc
      | key k => exact ⟨k, rfl⟩
    obtain ⟨k, hk⟩ := hk
    refine ⟨by simp [hk], by simp [hk], fun k' hk' => ?_, fun _ _ => ⟨k, hk⟩⟩
    refine ⟨(h.key k' hk').1, fun u => ?_⟩
    by_cases hu : u = t
    · subst hu; left; simp
    · simp only [upd_other _ _ hu]; exact (h.key k' hk').2 u
  | spinAgain _ _ => exact h
  | load k hp hi hc =>
    refine ⟨by simp [hc], by simp [hc], fun k' hk' => ?_, fun u hu => h.inited u hu⟩
    have : k' = k := by simp [hc] at hk'; exact hk'.symm
    subst this
    refine ⟨(h.key k' hk').1, fun u => ?_⟩
    by_cases hu : u = t
    · subst hu; right; right; simp
    · simp only [upd_other _ _ hu]; exact (h.key k' hk').2 u
  | tag k i s1 v cs hp hts hn =>
    obtain ⟨f1, f2, f3, f4⟩ := threadState_fields s t k
    rw [hts] at f1 f2 f3 f4
    simp only at f1 f2 f3 f4
    have hck : s.cell = .key k := by
      cases hc : s.cell with
      | unset => have := (h.unset hc).2 t; rw [hp] at this; cases this
      | initializing =>
        obtain ⟨o, ho, hcase⟩ := h.initializing hc
        by_cases hto : t = o
        · subst hto
          rcases hcase with ⟨h1, _⟩ | ⟨h1, _⟩ | ⟨⟨k, h1⟩, _⟩ <;> rw [hp] at h1 <;> cases h1
        · rcases ho t hto with h1 | h1 <;> rw [hp] at h1 <;> cases h1
      | key k' =>
        rcases (h.key k' hc).2 t with h1 | h1 | h1 <;> rw [hp] at h1 <;> cases h1
        rfl
    refine ⟨by simp [f1, hck], by simp [f1, hck], fun k' hk' => ?_, fun u hu => ?_⟩
    · simp only [f1] at hk'
      refine ⟨by simp only [f2]; exact (h.key k' hk').1, fun u => ?_⟩
      by_cases hu : u = t
      · subst hu; left; simp
      · simp only [upd_other _ _ hu]; exact (h.key k' hk').2 u
    · exact ⟨k, by simp [f1, hck]⟩

theorem inv_reach {s : St} (h : Reach init s) : Inv s := by
  induction h with
  | refl => exact inv_init
  | step t _ hs ih => exact inv_step ih hs

/-- C07: for any number of threads and any interleaving, `pthread_key_create` succeeds at most
once. -/
theorem C07_key_created_once {s : St} (h : Reach init s) : s.keysCreated ≤ 1 := by
  have hi := inv_reach h
  cases hc : s.cell with
  | unset => have := (hi.unset hc).1; omega
  | initializing =>
    obtain ⟨o, _, h1⟩ := hi.initializing hc
    rcases h1 with ⟨_, h1⟩ | ⟨_, h1⟩ | ⟨_, h1⟩ <;> omega
  | key k => have := (hi.key k hc).1; omega

/-- C07: a thread that has returned from `tls_init` sees a published key. -/
theorem C07_returned_sees_key {s : St} (h : Reach init s) (t : Tid) (ht : s.inited t = true) :
    ∃ k, s.cell = .key k ∧ s.keysCreated = 1 := by
  have hi := inv_reach h
  obtain ⟨k, hk⟩ := hi.inited t ht
  exact ⟨k, hk, (hi.key k hk).1⟩

/-- C07: once published, the key never changes again. -/
theorem C07_key_stable {a b : St} (ha : Reach init a) {k : Nat} (hk : a.cell = .key k)
    (hab : Reach a b) : b.cell = .key k := by
  have hinv : ∀ {s}, Reach a s → Inv s ∧ s.cell = .key k := by
    intro s hs
    induction hs with
    | refl => exact ⟨inv_reach ha, hk⟩
    | @step t c d _ hst ih =>
      obtain ⟨hi, hc⟩ := ih
      refine ⟨inv_step hi hst, ?_⟩
      cases hst with
      | casOk _ h => rw [h] at hc; cases hc
      | casBusy _ h => exact hc
      | casDone _ _ h => exact hc
      | create _ _ => exact hc
      | createFail _ => exact hc
      | publish k' hp =>
        rcases (hi.key k hc).2 t with h1 | h1 | h1 <;> rw [hp] at h1 <;> cases h1
      | spinDone _ _ => exact hc
      | spinAgain _ _ => exact hc
      | load _ _ _ _ => exact hc
      | tag k' i s1 v cs hp hts hn =>
        have := (threadState_fields c t k').1
        rw [hts] at this
        simp only at this ⊢
        rw [this]; exact hc
  exact (hinv hab).2

/-! ## C06 -/

/-- The tags handed out on one thread, oldest first. -/
def tagsOf (t : Tid) (trace : List (Tid × BitVec 32)) : List (BitVec 32) :=
  (trace.filter (fun p => p.1 = t)).map (·.2)

/-- Invariant: distinct threads own distinct counters, and each counter is the number of tags its
thread has taken. -/
structure TagInv (s : St) : Prop where
  none : ∀ t, (∀ k, s.cell = .key k → s.specific t k = none) → tagsOf t s.trace = []
  bound : ∀ t k i, s.specific t k = some i → i < s.counters.length
  inj : ∀ t u k l i, s.specific t k = some i → s.specific u l = some i → t = u
  onlyKey : ∀ t k i, s.specific t k = some i → s.cell = .key k
  tags : ∀ t k i, s.specific t k = some i →
    s.counters[i]? = some (BitVec.ofNat 32 (tagsOf t s.trace).length) ∧
    tagsOf t s.trace = (List.range (tagsOf t s.trace).length).map (BitVec.ofNat 32)

theorem tagInv_init : TagInv init :=
  ⟨by simp [init, tagsOf], by simp [init], by simp [init], by simp [init], by simp [init]⟩

theorem tagsOf_snoc_same (t : Tid) (tr : List (Tid × BitVec 32)) (v : BitVec 32) :
    tagsOf t (tr ++ [(t, v)]) = tagsOf t tr ++ [v] := by simp [tagsOf]

theorem tagsOf_snoc_other {t u : Tid} (h : t ≠ u) (tr : List (Tid × BitVec 32)) (v : BitVec 32) :
    tagsOf u (tr ++ [(t, v)]) = tagsOf u tr := by simp [tagsOf, h]

/-- Steps that touch neither the thread states nor the trace preserve the tag invariant. -/
theorem tagInv_frame {s s' : St} (h : TagInv s) (h1 : s'.specific = s.specific)
    (h2 : s'.counters = s.counters) (h3 : s'.trace = s.trace)
    (h4 : s'.cell = s.cell ∨ (∀ k, s.cell ≠ .key k)) : TagInv s' := by
  have hcell : ∀ t k i, s.specific t k = some i → s'.cell = .key k := by
    intro t k i hi
    rcases h4 with h4 | h4
    · rw [h4]; exact h.onlyKey t k i hi
    · exact absurd (h.onlyKey t k i hi) (h4 k)
  refine ⟨?_, ?_, ?_, ?_, ?_⟩
  · intro t ht
    rw [h3]
    apply h.none
    intro k hk
    rcases h4 with h4 | h4
    · have := ht k (by rw [h4]; exact hk); rwa [h1] at this
    · exact absurd hk (h4 k)
  · rw [h1, h2]; exact h.bound
  · rw [h1]; exact h.inj
  · rw [h1]; exact hcell
  · rw [h1, h2, h3]; exact h.tags

theorem tagInv_tag {s : St} (hinv : Inv s) (h : TagInv s) {t : Tid} {k i : Nat} {s1 : St}
    {v : BitVec 32} {cs : List (BitVec 32)} (hp : s.pc t = .loaded k)
    (hts : threadState s t k = (i, s1)) (hn : nextTag s1.counters i = some (v, cs)) :
    TagInv { s1 with counters := cs, pc := upd s.pc t .idle, trace := s.trace ++ [(t, v)] } := by
  have hck : s.cell = .key k := by
    cases hc : s.cell with
    | unset => have := (hinv.unset hc).2 t; rw [hp] at this; cases this
    | initializing =>
      obtain ⟨o, ho, hcase⟩ := hinv.initializing hc
      by_cases hto : t = o
      · subst hto
        rcases hcase with ⟨h1, _⟩ | ⟨h1, _⟩ | ⟨⟨k, h1⟩, _⟩ <;> rw [hp] at h1 <;> cases h1
      · rcases ho t hto with h1 | h1 <;> rw [hp] at h1 <;> cases h1
    | key k' =>
      rcases (hinv.key k' hc).2 t with h1 | h1 | h1 <;> rw [hp] at h1 <;> cases h1
      rfl
  -- the state after `thread_state` satisfies the invariant and owns index `i`
  have hs1 : TagInv s1 ∧ s1.specific t k = some i ∧ s1.trace = s.trace ∧ s1.cell = .key k := by
    unfold threadState at hts
    cases hsp : s.specific t k with
    | some j =>
      simp only [hsp] at hts
      obtain ⟨rfl, rfl⟩ := hts
      exact ⟨h, hsp, rfl, hck⟩
    | none =>
      simp only [hsp] at hts
      obtain ⟨rfl, rfl⟩ := hts
      have ht0 : tagsOf t s.trace = [] := h.none t (by
        intro k' hk'; rw [hck] at hk'; cases hk'; exact hsp)
      have hnone : ∀ k', s.specific t k' = none := by
        intro k'
        cases h' : s.specific t k' with
        | none => rfl
        | some j =>
          have := h.onlyKey t k' j h'
          rw [hck] at this; cases this
          rw [hsp] at h'; cases h'
      refine ⟨⟨?_, ?_, ?_, ?_, ?_⟩, by simp, rfl, hck⟩
      · intro u hu
        by_cases hut : u = t
        · subst hut
          have := hu k hck
          simp at this
        · apply h.none
          intro k' hk'
          have := hu k' hk'
          simpa [upd_other _ _ hut] using this
      · intro u l j hj
        by_cases hut : u = t
        · subst hut
          simp only [upd_same] at hj
          split at hj
          · simp at hj; subst hj; simp
          · rw [hnone] at hj; cases hj
        · simp only [upd_other _ _ hut] at hj
          have := h.bound u l j hj
          simp; omega
      · intro u w l m j hj hj'
        by_cases hut : u = t
        · by_cases hwt : w = t
          · rw [hut, hwt]
          · subst hut
            simp only [upd_same] at hj
            simp only [upd_other _ _ hwt] at hj'
            have := h.bound w m j hj'
            split at hj
            · simp at hj; omega
            · rw [hnone] at hj; cases hj
        · by_cases hwt : w = t
          · subst hwt
            simp only [upd_same] at hj'
            simp only [upd_other _ _ hut] at hj
            have := h.bound u l j hj
            split at hj'
            · simp at hj'; omega
            · rw [hnone] at hj'; cases hj'
          · simp only [upd_other _ _ hut] at hj
            simp only [upd_other _ _ hwt] at hj'
            exact h.inj u w l m j hj hj'
      · intro u l j hj
        by_cases hut : u = t
        · subst hut
          simp only [upd_same] at hj
          split at hj
          · rename_i hl; rw [hl]; exact hck
          · rw [hnone] at hj; cases hj
        · simp only [upd_other _ _ hut] at hj
          exact h.onlyKey u l j hj
      · intro u l j hj
        by_cases hut : u = t
        · subst hut
          simp only [upd_same] at hj
          split at hj
          · simp at hj
            subst hj
            simp [ht0]
          · rw [hnone] at hj; cases hj
        · simp only [upd_other _ _ hut] at hj
          have hb := h.bound u l j hj
          have := h.tags u l j hj
          simp only
          rw [List.getElem?_append_left hb]
          exact this
  obtain ⟨g, hsp, htr, hcell⟩ := hs1
  obtain ⟨g1, g2⟩ := g.tags t k i hsp
  have hb := g.bound t k i hsp
  unfold nextTag at hn
  rw [g1] at hn
  simp only [Option.some.injEq, Prod.mk.injEq] at hn
  obtain ⟨rfl, rfl⟩ := hn
  rw [htr] at g1 g2
  refine ⟨?_, ?_, g.inj, g.onlyKey, ?_⟩
  · intro u hu
    by_cases hut : u = t
    · subst hut
      have := hu k hcell
      rw [hsp] at this; cases this
    · simp only
      rw [tagsOf_snoc_other (fun e => hut e.symm), ← htr]
      exact g.none u hu
  · intro u l j hj
    have := g.bound u l j hj
    simpa using this
  · intro u l j hj
    by_cases hut : u = t
    · subst hut
      have hlk : l = k := by
        have := g.onlyKey u l j hj
        rw [hcell] at this; cases this; rfl
      subst hlk
      simp only at hj
      rw [hsp] at hj
      cases hj
      simp only
      rw [tagsOf_snoc_same, htr]
      constructor
      · rw [List.getElem?_set_self hb]
        simp [BitVec.ofNat_add]
      · rw [List.length_append, List.length_singleton, List.range_succ, List.map_append, ← g2]
        simp
    · have hji : j ≠ i := by
        rintro rfl
        exact hut (g.inj u t l k j hj hsp)
      have := g.tags u l j hj
      rw [htr] at this
      simp only
      rw [tagsOf_snoc_other (fun e => hut e.symm), List.getElem?_set_ne (fun e => hji e.symm)]
      exact this

theorem tagInv_reach {s : St} (h : Reach init s) : TagInv s := by
  induction h with
  | refl => exact tagInv_init
  | @step t a b hr hs ih =>
    have hinv := inv_reach hr
    cases hs with
    | casOk _ hc => exact tagInv_frame ih rfl rfl rfl (Or.inr (by intro k; rw [hc]; simp))
    | casBusy _ _ => exact tagInv_frame ih rfl rfl rfl (Or.inl rfl)
    | casDone _ _ _ => exact tagInv_frame ih rfl rfl rfl (Or.inl rfl)
    | create _ _ => exact tagInv_frame ih rfl rfl rfl (Or.inl rfl)
    | createFail _ => exact tagInv_frame ih rfl rfl rfl (Or.inl rfl)
    | publish k hp =>
      refine tagInv_frame ih rfl rfl rfl (Or.inr ?_)
      intro k' hc
      rcases (hinv.key k' hc).2 t with h1 | h1 | h1 <;> rw [hp] at h1 <;> cases h1
    | spinDone _ _ => exact tagInv_frame ih rfl rfl rfl (Or.inl rfl)
    | spinAgain _ _ => exact ih
    | load _ _ _ _ => exact tagInv_frame ih rfl rfl rfl (Or.inl rfl)
    | tag k i s1 v cs hp hts hn => exact tagInv_tag hinv ih hp hts hn

/-- C06: for any number of threads and any interleaving, the tags handed out on a thread are
0, 1, 2, ... modulo 2^32, irrespective of what the other threads do. -/
theorem C06_tags_are_counter {s : St} (h : Reach init s) (t : Tid) :
    tagsOf t s.trace = (List.range (tagsOf t s.trace).length).map (BitVec.ofNat 32) := by
  have hi := tagInv_reach h
  by_cases hn : ∀ k, s.cell = .key k → s.specific t k = none
  · rw [hi.none t hn]; rfl
  · have : ∃ k i, s.specific t k = some i := by
      apply Classical.byContradiction
      intro hc
      apply hn
      intro k _
      cases h' : s.specific t k with
      | none => rfl
      | some i => exact absurd ⟨k, i, h'⟩ hc
    obtain ⟨k, i, hsp⟩ := this
    exact (hi.tags t k i hsp).2

/-- C06: two tags handed out on the same thread less than 2^32 allocations apart are different. -/
theorem C06_tags_fresh {s : St} (h : Reach init s) (t : Tid) (i j : Nat) (a b : BitVec 32)
    (hi : (tagsOf t s.trace)[i]? = some a) (hj : (tagsOf t s.trace)[j]? = some b)
    (hij : i < j) (hlt : j - i < 2 ^ 32) : a ≠ b := by
  have hc := C06_tags_are_counter h t
  generalize tagsOf t s.trace = l at hi hj hc
  rw [hc] at hi hj
  simp only [List.getElem?_map, Option.map_eq_some_iff] at hi hj
  obtain ⟨x, hx, rfl⟩ := hi
  obtain ⟨y, hy, rfl⟩ := hj
  obtain ⟨_, hx⟩ := List.getElem?_eq_some_iff.mp hx
  obtain ⟨_, hy⟩ := List.getElem?_eq_some_iff.mp hy
  simp at hx hy
  subst hx; subst hy
  intro e
  have := congrArg BitVec.toNat e
  simp at this
  omega

/-! A concrete execution with two threads: thread 0 wins the race, thread 1 spins, both return, and
thread 0 takes two tags with one of thread 1 in between. -/

def sampleTrace : List (Tid × BitVec 32) := [(0, 0), (1, 0), (0, 1)]

theorem sample_reach : ∃ s, Reach init s ∧ s.trace = sampleTrace ∧ s.keysCreated = 1 ∧
    s.inited 0 = true ∧ s.inited 1 = true := by
  have r0 := Reach.refl (s := init)
  have r1 := r0.step 0 (.casOk _ rfl rfl)
  have r2 := r1.step 1 (.casBusy _ rfl rfl)
  have r3 := r2.step 0 (.create _ 7 rfl)
  have r4 := r3.step 1 (.spinAgain _ rfl rfl)
  have r5 := r4.step 0 (.publish _ 7 rfl)
  have r6 := r5.step 1 (.spinDone _ rfl (by simp))
  have r7 := r6.step 0 (.load _ 7 rfl rfl rfl)
  have r8 := r7.step 0 (.tag _ 7 0 _ 0 _ rfl rfl rfl)
  have r9 := r8.step 1 (.load _ 7 rfl rfl rfl)
  have r10 := r9.step 1 (.tag _ 7 1 _ 0 _ rfl rfl rfl)
  have r11 := r10.step 0 (.load _ 7 rfl rfl rfl)
  have r12 := r11.step 0 (.tag _ 7 0 _ 1 _ rfl rfl rfl)
  exact ⟨_, r12, rfl, rfl, rfl, rfl⟩

/-- The sample meets the hypotheses of the C06 and C07 theorems. -/
example : ∃ s, Reach init s ∧ tagsOf 0 s.trace = [0, 1] ∧ tagsOf 1 s.trace = [0] ∧
    s.inited 1 = true ∧ ∃ k, s.cell = .key k := by
  obtain ⟨s, hr, ht, _, _, h1⟩ := sample_reach
  obtain ⟨k, hk, _⟩ := C07_returned_sees_key hr 1 h1
  exact ⟨s, hr, by rw [ht]; decide, by rw [ht]; decide, h1, k, hk⟩

end Verif.Tls
