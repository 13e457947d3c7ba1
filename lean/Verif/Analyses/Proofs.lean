import Verif.Analyses.Spec
import Mathlib.Data.List.Induction

namespace Verif.Analyses

variable {Ir An : Type} [DecidableEq An] {Res : An → Type}

theorem downcast_self (a : An) (v : Res a) : (⟨a, v⟩ : AnyRes Res).downcast a = some v := by
  simp [AnyRes.downcast]

theorem irAfter_append (ir : Ir) (h k : List (Event Ir An)) :
    irAfter ir (h ++ k) = irAfter (irAfter ir h) k := by
  induction h generalizing ir with
  | nil => rfl
  | cons e h ih => cases e <;> simp [irAfter, ih]

theorem run_snoc (compute : Compute Ir Res) (ir : Ir) (h : List (Event Ir An)) (e : Event Ir An) :
    run compute ir (h ++ [e]) = (run compute ir h).step compute e := by
  simp [run]

theorem run_ir (compute : Compute Ir Res) (ir : Ir) (h : List (Event Ir An)) :
    (run compute ir h).ir = irAfter ir h := by
  induction h using List.reverseRecOn with
  | nil => rfl
  | append_singleton h e ih =>
    rw [run_snoc, irAfter_append]
    cases e <;> simp [State.step, irAfter, ih]

theorem lookup_filter {κ β : Type} [BEq κ] [LawfulBEq κ] (p : κ → Bool) (c : List (κ × β)) (k : κ) :
    (c.filter (fun e => p e.1)).lookup k = if p k then c.lookup k else none := by
  induction c with
  | nil => simp
  | cons e c ih =>
    obtain ⟨k', x⟩ := e
    by_cases hk : k = k'
    · subst hk
      by_cases hp : p k = true
      · simp [List.filter_cons, hp]
      · simp [List.filter_cons, hp, ih]
    · have hb : (k == k') = false := by simpa using hk
      by_cases hp : p k' = true
      · simp [List.filter_cons, hp, List.lookup_cons, hb, ih]
      · simp [List.filter_cons, hp, List.lookup_cons, hb, ih]

theorem lookup_invalidate (c : Cache Res) (a b : An) (t u : OpRef) :
    (c.invalidate a t).lookup (b, u) = if (b, u) = (a, t) then none else c.lookup (b, u) := by
  rw [Cache.invalidate, lookup_filter (fun k => !decide (k = (a, t)))]
  by_cases h : (b, u) = (a, t) <;> simp [h]

theorem lookup_invalidateAll (c : Cache Res) (b : An) (t u : OpRef) :
    (c.invalidateAll t).lookup (b, u) = if u = t then none else c.lookup (b, u) := by
  rw [Cache.invalidateAll, lookup_filter (fun k : An × OpRef => !decide (k.2 = t))]
  by_cases h : u = t <;> simp [h]

/-- `Since` when an event is added. -/
theorem Since.snoc_drop {h h₁ : List (Event Ir An)} {e : Event Ir An} {a : An} {t : OpRef}
    (hd : e.drops a t) : ¬ Since (h ++ [e]) a t h₁ := by
  rintro ⟨⟨h₂, heq, hn⟩, -⟩
  rcases List.eq_nil_or_concat h₂ with rfl | ⟨h₃, x, rfl⟩
  · obtain ⟨-, hx⟩ := List.append_inj' heq rfl
    simp only [List.cons.injEq, and_true] at hx
    subst hx
    exact hd
  · have : h ++ [e] = (h₁ ++ Event.get a t :: h₃) ++ [x] := by simpa using heq
    obtain ⟨-, hx⟩ := List.append_inj' this rfl
    simp only [List.cons.injEq, and_true] at hx
    subst hx
    exact hn e (by simp) hd

theorem Since.snoc_keep {h h₁ : List (Event Ir An)} {e : Event Ir An} {a : An} {t : OpRef}
    (hd : ¬ e.drops a t) (hs : Since h a t h₁) : Since (h ++ [e]) a t h₁ := by
  obtain ⟨⟨h₂, rfl, hn⟩, hf⟩ := hs
  refine ⟨⟨h₂ ++ [e], by simp, ?_⟩, hf⟩
  intro x hx
  rcases List.mem_append.1 hx with hx | hx
  · exact hn x hx
  · simp only [List.mem_singleton] at hx
    subst hx
    exact hd

theorem Since.of_snoc {h h₁ : List (Event Ir An)} {e : Event Ir An} {a : An} {t : OpRef}
    (hs : Since (h ++ [e]) a t h₁) : Since h a t h₁ ∨ (h₁ = h ∧ e = .get a t) := by
  obtain ⟨⟨h₂, heq, hn⟩, hf⟩ := hs
  rcases List.eq_nil_or_concat h₂ with rfl | ⟨h₃, x, rfl⟩
  · obtain ⟨h1, hx⟩ := List.append_inj' heq rfl
    simp only [List.cons.injEq, and_true] at hx
    exact .inr ⟨h1.symm, hx⟩
  · have : h ++ [e] = (h₁ ++ Event.get a t :: h₃) ++ [x] := by simpa using heq
    obtain ⟨h1, -⟩ := List.append_inj' this rfl
    exact .inl ⟨⟨h₃, h1, fun y hy => hn y (by simp [hy])⟩, hf⟩

/-- Of the requests that were not dropped one is the first. -/
theorem Since.exists_of {a : An} {t : OpRef} : ∀ (n : Nat) (h h₁ h₂ : List (Event Ir An)),
    h₁.length ≤ n → h = h₁ ++ .get a t :: h₂ → (∀ e ∈ h₂, ¬ e.drops a t) →
    ∃ h', Since h a t h'
  | n, h, h₁, h₂, hl, heq, hn => by
    by_cases hf : ∀ h' h'', h₁ = h' ++ .get a t :: h'' → ∃ e ∈ h'', e.drops a t
    · exact ⟨h₁, ⟨h₂, heq, hn⟩, hf⟩
    · simp only [not_forall, not_exists, not_and] at hf
      obtain ⟨h', h'', h1, hno⟩ := hf
      subst h1
      cases n with
      | zero => simp at hl
      | succ n =>
        refine Since.exists_of n h h' (h'' ++ .get a t :: h₂) ?_ (by simp [heq]) ?_
        · simp only [List.length_append, List.length_cons] at hl
          omega
        · intro e he
          rcases List.mem_append.1 he with he | he
          · exact hno e he
          · rcases List.mem_cons.1 he with rfl | he
            · simp [Event.drops]
            · exact hn e he

theorem Since.unique {h h₁ k₁ : List (Event Ir An)} {a : An} {t : OpRef}
    (hs : Since h a t h₁) (ks : Since h a t k₁) : h₁ = k₁ := by
  obtain ⟨⟨h₂, he, hn⟩, hf⟩ := hs
  obtain ⟨⟨k₂, ke, kn⟩, kf⟩ := ks
  subst he
  rcases List.append_eq_append_iff.1 ke with ⟨l, h1, h2⟩ | ⟨l, h1, h2⟩
  · cases l with
    | nil => simpa using h1.symm
    | cons x l =>
      simp only [List.cons_append, List.cons.injEq] at h2
      obtain ⟨hx, h2⟩ := h2
      subst hx
      obtain ⟨e, he, hd⟩ := kf h₁ l h1
      exact absurd hd (hn e (by simp [h2, he]))
  · cases l with
    | nil => simpa using h1
    | cons x l =>
      simp only [List.cons_append, List.cons.injEq] at h2
      obtain ⟨hx, h2⟩ := h2
      subst hx
      obtain ⟨e, he, hd⟩ := hf k₁ l h1
      exact absurd hd (kn e (by simp [h2, he]))

theorem get_lookup (compute : Compute Ir Res) (c : Cache Res) (ir : Ir) (a b : An) (t u : OpRef) :
    (c.get compute ir a t).1.lookup (b, u) =
      if (b, u) = (a, t) then some ((c.lookup (a, t)).getD ⟨a, compute a ir t⟩)
      else c.lookup (b, u) := by
  unfold Cache.get
  cases hc : c.lookup (a, t) with
  | some x =>
    by_cases h : (b, u) = (a, t)
    · rw [h, hc]; simp
    · simp [h]
  | none =>
    by_cases h : (b, u) = (a, t)
    · rw [h]; simp
    · have hb : ((b, u) == (a, t)) = false := by simpa using h
      simp only [List.lookup_cons, hb, if_neg h]

/-- What the cache holds after a history. -/
theorem run_lookup (compute : Compute Ir Res) (ir : Ir) (h : List (Event Ir An)) (a : An)
    (t : OpRef) :
    (∀ h₁, Since h a t h₁ →
      (run compute ir h).cache.lookup (a, t) = some ⟨a, compute a (irAfter ir h₁) t⟩) ∧
    ((¬ ∃ h₁, Since h a t h₁) → (run compute ir h).cache.lookup (a, t) = none) := by
  induction h using List.reverseRecOn with
  | nil =>
    constructor
    · rintro h₁ ⟨⟨h₂, heq, -⟩, -⟩
      simp at heq
    · intro _; rfl
  | append_singleton h e ih =>
    obtain ⟨ih1, ih2⟩ := ih
    rw [run_snoc]
    by_cases hd : e.drops a t
    · refine ⟨fun h₁ hs => absurd hs (Since.snoc_drop hd), fun _ => ?_⟩
      cases e with
      | edit f => exact hd.elim
      | get b u => exact hd.elim
      | invalidate b u =>
        obtain ⟨rfl, rfl⟩ := hd
        simp [State.step, lookup_invalidate]
      | invalidateAll u =>
        have : u = t := hd
        subst this
        simp [State.step, lookup_invalidateAll]
      | clear => rfl
    · by_cases hg : ∃ h₁, Since h a t h₁
      · obtain ⟨h₀, hs₀⟩ := hg
        have hk := Since.snoc_keep (e := e) hd hs₀
        have hl := ih1 h₀ hs₀
        refine ⟨fun h₁ hs => ?_, fun hno => absurd ⟨h₀, hk⟩ hno⟩
        rw [hs.unique hk]
        cases e with
        | edit f => exact hl
        | get b u =>
          simp only [State.step, get_lookup]
          split
          · next heq =>
            cases heq
            simp [hl]
          · exact hl
        | invalidate b u =>
          simp only [State.step, lookup_invalidate]
          rw [if_neg (fun heq => hd (by cases heq; exact ⟨rfl, rfl⟩))]
          exact hl
        | invalidateAll u =>
          simp only [State.step, lookup_invalidateAll]
          rw [if_neg (fun heq : t = u => hd heq.symm)]
          exact hl
        | clear => exact absurd trivial hd
      · have hl := ih2 hg
        by_cases he : e = .get a t
        · subst he
          have hcur : Since (h ++ [.get a t]) a t h := by
            refine ⟨⟨[], rfl, by simp⟩, ?_⟩
            intro h' h'' heq
            by_contra hno
            simp only [not_exists, not_and] at hno
            exact hg (Since.exists_of h'.length h h' h'' (Nat.le_refl _) heq hno)
          refine ⟨fun h₁ hs => ?_, fun hno => absurd ⟨h, hcur⟩ hno⟩
          rw [hs.unique hcur]
          simp [State.step, get_lookup, hl, run_ir]
        · refine ⟨fun h₁ hs => ?_, fun _ => ?_⟩
          · rcases hs.of_snoc with hs | ⟨-, h2⟩
            · exact absurd ⟨h₁, hs⟩ hg
            · exact absurd h2 he
          · cases e with
            | edit f => exact hl
            | get b u =>
              simp only [State.step, get_lookup]
              rw [if_neg (fun heq => he (by cases heq; rfl))]
              exact hl
            | invalidate b u =>
              simp only [State.step, lookup_invalidate]
              split
              · rfl
              · exact hl
            | invalidateAll u =>
              simp only [State.step, lookup_invalidateAll]
              split
              · rfl
              · exact hl
            | clear => exact absurd trivial hd

/-- While nothing that matters changes, an analysis stays what it is. -/
theorem compute_stable (compute : Compute Ir Res) (a : An) (t : OpRef) :
    ∀ (h : List (Event Ir An)) (ir : Ir),
    (∀ h₁ f h₂, h = h₁ ++ .edit f :: h₂ →
      compute a (f (irAfter ir h₁)) t = compute a (irAfter ir h₁) t) →
    compute a (irAfter ir h) t = compute a ir t
  | [], _, _ => rfl
  | e :: h, ir, hs => by
    cases e with
    | edit f =>
      have h0 := hs [] f h rfl
      simp only [irAfter] at h0 ⊢
      rw [compute_stable compute a t h (f ir) ?_, h0]
      intro h₁ g h₂ heq
      have := hs (.edit f :: h₁) g h₂ (by simp [heq])
      simpa [irAfter] using this
    | get b u =>
      refine compute_stable compute a t h ir ?_
      intro h₁ g h₂ heq
      simpa [irAfter] using hs (.get b u :: h₁) g h₂ (by simp [heq])
    | invalidate b u =>
      refine compute_stable compute a t h ir ?_
      intro h₁ g h₂ heq
      simpa [irAfter] using hs (.invalidate b u :: h₁) g h₂ (by simp [heq])
    | invalidateAll u =>
      refine compute_stable compute a t h ir ?_
      intro h₁ g h₂ heq
      simpa [irAfter] using hs (.invalidateAll u :: h₁) g h₂ (by simp [heq])
    | clear =>
      refine compute_stable compute a t h ir ?_
      intro h₁ g h₂ heq
      simpa [irAfter] using hs (.clear :: h₁) g h₂ (by simp [heq])

theorem lookup_isSome {κ β : Type} [BEq κ] [LawfulBEq κ] (c : List (κ × β)) (k : κ) :
    (c.lookup k).isSome ↔ k ∈ c.map (·.1) := by
  induction c with
  | nil => simp
  | cons e c ih =>
    obtain ⟨k', x⟩ := e
    by_cases hk : k = k'
    · subst hk; simp
    · have hb : (k == k') = false := by simpa using hk
      rw [List.lookup_cons, hb]
      simp only [List.map_cons, List.mem_cons, hk, false_or]
      exact ih

theorem run_nodup (compute : Compute Ir Res) (ir : Ir) (h : List (Event Ir An)) :
    ((run compute ir h).cache.map (·.1)).Nodup := by
  induction h using List.reverseRecOn with
  | nil => exact List.nodup_nil
  | append_singleton h e ih =>
    rw [run_snoc]
    cases e with
    | edit f => exact ih
    | get a t =>
      simp only [State.step, Cache.get]
      cases hc : (run compute ir h).cache.lookup (a, t) with
      | some x => exact ih
      | none =>
        simp only [List.map_cons, List.nodup_cons]
        refine ⟨?_, ih⟩
        rw [← lookup_isSome, hc]
        simp
    | invalidate a t => exact ih.sublist (List.filter_sublist.map _)
    | invalidateAll t => exact ih.sublist (List.filter_sublist.map _)
    | clear => exact List.nodup_nil

/-- How often an analysis is computed. -/
theorem run_count (compute : Compute Ir Res) (ir : Ir) (h : List (Event Ir An)) (a : An)
    (t : OpRef) :
    (run compute ir h).computed.count (a, t) ≤ h.countP (fun e => decide (e.drops a t)) +
      (if ((run compute ir h).cache.lookup (a, t)).isSome then 1 else 0) := by
  induction h using List.reverseRecOn with
  | nil => simp [run]
  | append_singleton h e ih =>
    rw [run_snoc, List.countP_append]
    by_cases hd : e.drops a t
    · have h1 : ((run compute ir h).step compute e).computed = (run compute ir h).computed := by
        cases e <;> first | rfl | exact hd.elim
      rw [h1]
      have h2 : [e].countP (fun e => decide (e.drops a t)) = 1 := by simp [hd]
      rw [h2]
      have : (if ((run compute ir h).cache.lookup (a, t)).isSome then 1 else 0) ≤ 1 := by
        split <;> omega
      omega
    · have h2 : [e].countP (fun e => decide (e.drops a t)) = 0 := by simp [hd]
      rw [h2]
      cases e with
      | edit f => exact ih
      | get b u =>
        simp only [State.step, get_lookup]
        by_cases hk : (a, t) = (b, u)
        · cases hk
          simp only [if_true, Option.isSome_some, Nat.add_zero]
          split
          · next hs => rw [if_pos hs] at ih; exact ih
          · next hs => rw [if_neg hs] at ih; simp only [List.count_cons_self]; omega
        · rw [if_neg hk]
          split
          · exact ih
          · rw [List.count_cons_of_ne (fun h => hk h.symm)]; exact ih
      | invalidate b u =>
        have hne : ¬ (a, t) = (b, u) := fun heq => hd (by cases heq; exact ⟨rfl, rfl⟩)
        simp only [State.step, lookup_invalidate, if_neg hne]
        exact ih
      | invalidateAll u =>
        simp only [State.step, lookup_invalidateAll]
        have hne : ¬ t = u := fun heq => hd heq.symm
        rw [if_neg hne]
        exact ih
      | clear => exact absurd trivial hd

end Verif.Analyses
