import Verif.WasmIo.Write
import Verif.WasmIo.Mono
import Verif.WasmIo.Spec
/-! From the write loop to the specification. -/
namespace Verif.WasmIo

theorem wanted_eq (d : List Byte) (o len nl : Nat) : wanted d o len nl = content d o len nl := rfl

theorem drain_prefix (rest : List Byte) (sched : List HostRes) :
    accepted (drain rest sched).1 <+: rest := by
  induction sched generalizing rest with
  | nil => simp [drain, accepted]
  | cons r sched ih =>
    cases rest with
    | nil => simp [drain, accepted]
    | cons b bs =>
      cases r with
      | wrote k =>
        by_cases hk : k = 0
        · simp [drain, hk, accepted, Call.accepted]
        · have h := ih ((b :: bs).drop k)
          simp only [drain, List.isEmpty_cons, Bool.false_eq_true, if_false, hk, accepted,
            List.flatMap_cons, Call.accepted] at h ⊢
          conv => rhs; rw [← List.take_append_drop k (b :: bs)]
          exact (List.prefix_append_right_inj _).mpr h
      | errno e =>
        by_cases he : e.val = 26
        · have h := ih (b :: bs)
          simpa [drain, he, accepted, Call.accepted] using h
        · simp [drain, he, accepted, Call.accepted]

theorem drain_offers (rest : List Byte) (sched : List HostRes) (i : Nat) (c : Call)
    (h : (drain rest sched).1[i]? = some c) :
    c.offered ≠ [] ∧ accepted ((drain rest sched).1.take i) ++ c.offered = rest := by
  induction sched generalizing rest i with
  | nil => simp [drain] at h
  | cons r sched ih =>
    cases rest with
    | nil => simp [drain] at h
    | cons b bs =>
      have first : ∀ (t : List Call), ((⟨b :: bs, r⟩ : Call) :: t)[0]? = some c →
          c.offered ≠ [] ∧ accepted ((⟨b :: bs, r⟩ :: t).take 0) ++ c.offered = b :: bs := by
        intro t ht
        simp only [List.getElem?_cons_zero, Option.some.injEq] at ht
        subst ht
        simp [accepted]
      cases r with
      | wrote k =>
        by_cases hk : k = 0
        · simp only [drain, List.isEmpty_cons, Bool.false_eq_true, if_false, hk, if_true] at h ⊢
          cases i with
          | zero => subst hk; exact first _ h
          | succ i => simp at h
        · simp only [drain, List.isEmpty_cons, Bool.false_eq_true, if_false, hk] at h ⊢
          cases i with
          | zero => exact first _ h
          | succ i =>
            rw [List.getElem?_cons_succ] at h
            obtain ⟨h1, h2⟩ := ih _ _ h
            refine ⟨h1, ?_⟩
            simp only [List.take_succ_cons, accepted, List.flatMap_cons, Call.accepted] at h2 ⊢
            rw [List.append_assoc, h2, List.take_append_drop]
      | errno e =>
        by_cases he : e.val = 26
        · simp only [drain, List.isEmpty_cons, Bool.false_eq_true, if_false, he, if_true] at h ⊢
          cases i with
          | zero => exact first _ h
          | succ i =>
            rw [List.getElem?_cons_succ] at h
            obtain ⟨h1, h2⟩ := ih _ _ h
            refine ⟨h1, ?_⟩
            simpa [accepted, Call.accepted] using h2
        · simp only [drain, List.isEmpty_cons, Bool.false_eq_true, if_false, he] at h ⊢
          cases i with
          | zero => exact first _ h
          | succ i => simp at h

theorem drain_all (rest : List Byte) (sched : List HostRes) (hf : (drain rest sched).2.1 = true)
    (hp : ∀ c ∈ (drain rest sched).1, c.progress) : accepted (drain rest sched).1 = rest := by
  induction sched generalizing rest with
  | nil => cases rest <;> simp [drain, accepted] at hf ⊢
  | cons r sched ih =>
    cases rest with
    | nil => simp [drain, accepted]
    | cons b bs =>
      cases r with
      | wrote k =>
        by_cases hk : k = 0
        · simp [drain, hk, Call.progress] at hp
        · simp only [drain, List.isEmpty_cons, Bool.false_eq_true, if_false, hk, List.mem_cons,
            forall_eq_or_imp] at hf hp ⊢
          have h := ih _ hf hp.2
          simp only [accepted, List.flatMap_cons, Call.accepted] at h ⊢
          rw [h, List.take_append_drop]
      | errno e =>
        by_cases he : e.val = 26
        · simp only [drain, List.isEmpty_cons, Bool.false_eq_true, if_false, he, if_true, List.mem_cons,
            forall_eq_or_imp] at hf hp ⊢
          have h := ih _ hf hp.2
          simpa [accepted, Call.accepted] using h
        · simp only [drain, List.isEmpty_cons, Bool.false_eq_true, if_false, he, List.mem_cons,
            forall_eq_or_imp, List.not_mem_nil] at hp
          obtain ⟨h | ⟨_, h, _⟩, _⟩ := hp
          · exact absurd (congrArg (fun r => match r with | .errno e => e.val | _ => 0) h) he
          · cases h

/-- When the loop ends early, the last call made no progress. -/
theorem drain_stop (rest : List Byte) (sched : List HostRes) (i : Nat) (c : Call)
    (h : (drain rest sched).1[i]? = some c) (hl : i + 1 < (drain rest sched).1.length) : c.progress := by
  induction sched generalizing rest i with
  | nil => simp [drain] at h
  | cons r sched ih =>
    cases rest with
    | nil => simp [drain] at h
    | cons b bs =>
      cases r with
      | wrote k =>
        by_cases hk : k = 0
        · simp [drain, hk] at hl
        · simp only [drain, List.isEmpty_cons, Bool.false_eq_true, if_false, hk] at h hl
          cases i with
          | zero =>
            simp only [List.getElem?_cons_zero, Option.some.injEq] at h
            subst h
            exact .inr ⟨k, rfl, by omega⟩
          | succ i =>
            rw [List.getElem?_cons_succ] at h
            simp only [List.length_cons] at hl
            exact ih _ _ h (by omega)
      | errno e =>
        by_cases he : e.val = 26
        · simp only [drain, List.isEmpty_cons, Bool.false_eq_true, if_false, he, if_true] at h hl
          cases i with
          | zero =>
            simp only [List.getElem?_cons_zero, Option.some.injEq] at h
            subst h
            exact .inl (congrArg _ (Fin.ext he))
          | succ i =>
            rw [List.getElem?_cons_succ] at h
            simp only [List.length_cons] at hl
            exact ih _ _ h (by omega)
        · simp [drain, he] at hl

theorem drain_waits (rest : List Byte) (sched : List HostRes) (hf : (drain rest sched).2.1 = false) :
    (drain rest sched).2.2 = [] ∧ accepted (drain rest sched).1 ≠ rest ∧
      ∀ c ∈ (drain rest sched).1, c.progress := by
  induction sched generalizing rest with
  | nil => cases rest <;> simp [drain, accepted] at hf ⊢
  | cons r sched ih =>
    cases rest with
    | nil => simp [drain] at hf
    | cons b bs =>
      cases r with
      | wrote k =>
        by_cases hk : k = 0
        · simp [drain, hk] at hf
        · simp only [drain, List.isEmpty_cons, Bool.false_eq_true, if_false, hk, List.mem_cons,
            forall_eq_or_imp] at hf ⊢
          obtain ⟨h1, h2, h3⟩ := ih _ hf
          refine ⟨h1, fun h => h2 ?_, .inr ⟨k, rfl, by omega⟩, h3⟩
          simp only [accepted, List.flatMap_cons, Call.accepted] at h ⊢
          conv at h => rhs; rw [← List.take_append_drop k (b :: bs)]
          exact List.append_cancel_left h
      | errno e =>
        by_cases he : e.val = 26
        · simp only [drain, List.isEmpty_cons, Bool.false_eq_true, if_false, he, if_true, List.mem_cons,
            forall_eq_or_imp] at hf ⊢
          obtain ⟨h1, h2, h3⟩ := ih _ hf
          exact ⟨h1, by simpa [accepted, Call.accepted] using h2, .inl (congrArg _ (Fin.ext he)), h3⟩
        · simp [drain, he] at hf

theorem drain_sched (rest : List Byte) (sched : List HostRes) :
    (drain rest sched).1.map (·.result) ++ (drain rest sched).2.2 = sched := by
  induction sched generalizing rest with
  | nil => simp [drain]
  | cons r sched ih =>
    cases rest with
    | nil => simp [drain]
    | cons b bs =>
      cases r with
      | wrote k => by_cases hk : k = 0 <;> simp [drain, hk, ih]
      | errno e => by_cases he : e.val = 26 <;> simp [drain, he, ih]

/-- What a call does, if there is room. -/
theorem ends_fit {base : Nat} {d : List Byte} {o len nl : Nat} {w w' : World} {e : End}
    (hb : ValidBytes d o len) (hnl : nl ≤ 1) (hf : Fits w (layout base).scratch (len + nl))
    (h : EndsIn base d o len nl w e w') :
    (∀ x, x < (layout base).iovec ∨ (layout base).scratch + (len + nl) ≤ x → w'.mem x = w.mem x) ∧
    w'.pages = max w.pages (pagesFor ((layout base).scratch + (len + nl))) ∧ w'.limit = w.limit ∧
    w'.calls = w.calls ++ (drain (wanted d o len nl) w.sched).1 ∧
    w'.sched = (drain (wanted d o len nl) w.sched).2.2 ∧
    e = if (drain (wanted d o len nl) w.sched).2.1 then .returned else .waiting := by
  obtain ⟨n, l, h⟩ := h
  obtain ⟨l', m', hm, hr⟩ := helper_run (max n (max (len + 1) (w.sched.length + 1))) (layout base) w
    (layout_ok base) hb.inside (by have := hb.size; unfold two32; omega) hnl
    (by have := hf.1; unfold two32; omega) hf.2 (by omega) (by omega)
  rw [callHelper_mono (Nat.le_max_left n _) h] at hr
  rw [wanted_eq]
  cases ht : (drain (content d o len nl) w.sched).2.1 <;> simp only [ht] at hr <;> cases e <;>
    simp only [Option.some.injEq, Bool.false_eq_true, if_false, if_true, reduceCtorEq,
      Out.ret.injEq, Out.waiting.injEq, St.mk.injEq] at hr <;>
    obtain ⟨rfl, rfl⟩ := hr <;> exact ⟨hm, rfl, rfl, rfl, rfl, rfl⟩

theorem ends_trap {base : Nat} {d : List Byte} {o len nl : Nat} {w : World}
    (hb : ValidBytes d o len) (hnl : nl ≤ 1) (ha : (layout base).scratch < 2 ^ 32)
    (hf : ¬ Fits w (layout base).scratch (len + nl)) : EndsIn base d o len nl w .trapped w := by
  obtain ⟨l, h⟩ := helper_trap 0 (layout base) w (layout_ok base) hb.inside
    (by have := hb.size; unfold two32; omega) hnl (by unfold two32; omega)
    (fun h => hf ⟨by have := h.1; unfold two32 at this; omega, h.2⟩)
  exact ⟨0, l, h⟩

theorem ends_exists {base : Nat} {d : List Byte} {o len nl : Nat} {w : World}
    (hb : ValidBytes d o len) (hnl : nl ≤ 1) (hf : Fits w (layout base).scratch (len + nl)) :
    ∃ w', EndsIn base d o len nl w
      (if (drain (wanted d o len nl) w.sched).2.1 then .returned else .waiting) w' := by
  obtain ⟨l', m', _, hr⟩ := helper_run (max (len + 1) (w.sched.length + 1)) (layout base) w
    (layout_ok base) hb.inside (by have := hb.size; unfold two32; omega) hnl
    (by have := hf.1; unfold two32; omega) hf.2 (by omega) (by omega)
  rw [wanted_eq]
  refine ⟨{ w with
    mem := m', pages := max w.pages (pagesFor ((layout base).scratch + (len + nl)))
    sched := (drain (content d o len nl) w.sched).2.2
    calls := w.calls ++ (drain (content d o len nl) w.sched).1 }, _, l', hr.trans ?_⟩
  cases h : (drain (content d o len nl) w.sched).2.1 <;> simp only [h] <;> rfl

theorem ends_unique {base : Nat} {d : List Byte} {o len nl : Nat} {w w₁ w₂ : World} {e₁ e₂ : End}
    (h₁ : EndsIn base d o len nl w e₁ w₁) (h₂ : EndsIn base d o len nl w e₂ w₂) :
    e₁ = e₂ ∧ w₁ = w₂ := by
  obtain ⟨n₁, l₁, h₁⟩ := h₁
  obtain ⟨n₂, l₂, h₂⟩ := h₂
  have h := (callHelper_mono (Nat.le_max_left n₁ n₂) h₁).symm.trans
    (callHelper_mono (Nat.le_max_right n₁ n₂) h₂)
  cases e₁ <;> cases e₂ <;> simp at h <;> exact ⟨rfl, h.2⟩

theorem drain_native (rest : List Byte) (sched : List HostRes)
    (h : ∀ c ∈ (drain rest sched).1, c.lawful) :
    (drain rest sched).1.map Call.native = (Io.writeAllWith rest (sched.map toNative)).1 ∧
    ((drain rest sched).2.1 = false ↔
      ∃ r, (Io.writeAllWith rest (sched.map toNative)).2.1 = .blocked r) := by
  induction sched generalizing rest with
  | nil => cases rest <;> simp [drain, Io.writeAllWith]
  | cons r sched ih =>
    cases rest with
    | nil => simp [drain, Io.writeAllWith]
    | cons b bs =>
      cases r with
      | wrote k =>
        cases k with
        | zero => simp [drain, Io.writeAllWith, Call.native, toNative]
        | succ k =>
          simp only [drain, List.isEmpty_cons, Bool.false_eq_true, if_false, Nat.succ_ne_zero,
            List.mem_cons, forall_eq_or_imp] at h
          have hk := h.1 (k + 1) rfl
          obtain ⟨i1, i2⟩ := ih _ h.2
          simp only [List.length_cons] at hk
          simp only [drain, List.isEmpty_cons, Bool.false_eq_true, if_false, Nat.succ_ne_zero,
            List.map_cons, toNative, Io.writeAllWith, List.length_cons, if_pos hk, Call.native]
          exact ⟨by rw [i1], i2⟩
      | errno e =>
        by_cases he : e.val = 26
        · have he' : e = interrupted := Fin.ext he
          subst he'
          simp only [drain, List.isEmpty_cons, Bool.false_eq_true, if_false, he, if_true,
            List.mem_cons, forall_eq_or_imp] at h
          obtain ⟨i1, i2⟩ := ih _ h.2
          simp only [drain, List.isEmpty_cons, Bool.false_eq_true, if_false, he, if_true,
            List.map_cons, toNative, Io.writeAllWith, Call.native]
          exact ⟨by rw [i1], i2⟩
        · have he' : e ≠ interrupted := fun h => he (by rw [h]; rfl)
          have : (1000 + (e.val : Int)) ≠ Io.EINTR := by unfold Io.EINTR; omega
          simp [drain, he, Io.writeAllWith, toNative, Call.native, he', this]

end Verif.WasmIo
