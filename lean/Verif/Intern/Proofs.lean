import Verif.Intern.Model

namespace Verif.Intern

variable {Text : Type} [DecidableEq Text]

theorem get_some : ∀ {tb : List Text} {t : Text} {k : Nat}, get tb t = some k → tb[k]? = some t
  | [], _, _, h => by cases h
  | x :: xs, t, k, h => by
    rw [get] at h
    split at h
    · rename_i hx
      simp only [Option.some.injEq] at h
      subst h; subst hx
      rfl
    · obtain ⟨j, hj, rfl⟩ := Option.map_eq_some_iff.1 h
      simpa using get_some hj

theorem get_none : ∀ {tb : List Text} {t : Text}, get tb t = none → t ∉ tb
  | [], _, _ => by simp
  | x :: xs, t, h => by
    rw [get] at h
    split at h
    · cases h
    · rename_i hx
      have := get_none (Option.map_eq_none_iff.1 h)
      simp only [List.mem_cons, not_or]
      exact ⟨fun e => hx e.symm, this⟩

theorem intern_spec (tb : List Text) (t : Text) (hn : tb.Nodup) :
    (getOrIntern tb t).1.Nodup ∧ (∃ r, (getOrIntern tb t).1 = tb ++ r) ∧
      (getOrIntern tb t).1[(getOrIntern tb t).2]? = some t := by
  unfold getOrIntern
  cases h : get tb t with
  | some k => exact ⟨hn, ⟨[], by simp⟩, get_some h⟩
  | none =>
    refine ⟨?_, ⟨[t], rfl⟩, by simp⟩
    rw [List.nodup_append]
    refine ⟨hn, List.nodup_singleton t, ?_⟩
    intro a ha b hb e
    rw [List.mem_singleton.1 hb] at e
    exact get_none h (e ▸ ha)

/-- The answer is right for this table. -/
def Valid (cmp : Text → Text → Ordering) (tb : List Text) : Event Text → Prop
  | .interned t k => tb[k]? = some t
  | .lookedUp t o => ∀ k, o = some k → tb[k]? = some t
  | .text k o => ∃ t, o = some t ∧ tb[k]? = some t
  | .compared k k' o => ∃ t t', tb[k]? = some t ∧ tb[k']? = some t' ∧ o = some (cmp t t')

omit [DecidableEq Text] in
theorem grow {tb r : List Text} {k : Nat} {t : Text} (h : tb[k]? = some t) :
    (tb ++ r)[k]? = some t := by
  obtain ⟨hk, _⟩ := List.getElem?_eq_some_iff.1 h
  rw [List.getElem?_append_left hk]
  exact h

omit [DecidableEq Text] in
theorem Valid.grow {cmp : Text → Text → Ordering} {tb : List Text} {e : Event Text} (r : List Text)
    (h : Valid cmp tb e) : Valid cmp (tb ++ r) e := by
  cases e with
  | interned t k => exact Verif.Intern.grow h
  | lookedUp t o => exact fun k hk => Verif.Intern.grow (h k hk)
  | text k o => obtain ⟨t, h1, h2⟩ := h; exact ⟨t, h1, Verif.Intern.grow h2⟩
  | compared k k' o =>
    obtain ⟨t, t', h1, h2, h3⟩ := h
    exact ⟨t, t', Verif.Intern.grow h1, Verif.Intern.grow h2, h3⟩

/-- A text that was not found had not been given to anyone before. -/
def After (new old : Event Text) : Prop :=
  ∀ t, new = .lookedUp t none → ∀ k, old ≠ .interned t k ∧ old ≠ .lookedUp t (some k)

structure Inv (cmp : Text → Text → Ordering) (s : State Text) : Prop where
  nodup : s.table.Nodup
  valid : ∀ e ∈ s.log, Valid cmp s.table e
  order : s.log.Pairwise After
  known : ∀ i q, s.phase i = .reading q → q.known s.log
  one : ∀ i j, (s.phase i).owns = true → (s.phase j).owns = true → i = j
  alone : ∀ i j, (s.phase i).writes = true → (s.phase j).reads = false

omit [DecidableEq Text] in
theorem issued_mono {l : List (Event Text)} {k : Nat} (e : Event Text) (h : issued l k) :
    issued (e :: l) k := by
  rcases h with ⟨t, h⟩ | ⟨t, h⟩
  · exact .inl ⟨t, List.mem_cons_of_mem _ h⟩
  · exact .inr ⟨t, List.mem_cons_of_mem _ h⟩

omit [DecidableEq Text] in
theorem known_mono {l : List (Event Text)} {q : Query Text} (e : Event Text) (h : q.known l) :
    q.known (e :: l) := by
  cases q with
  | lookup t => trivial
  | text k => exact issued_mono e h
  | compare k k' => exact ⟨issued_mono e h.1, issued_mono e h.2⟩

omit [DecidableEq Text] in
theorem owns_of_writes {p : Phase Text} (h : p.writes = true) : p.owns = true := by
  cases p <;> simp_all [Phase.writes, Phase.owns]

omit [DecidableEq Text] in
theorem go_same (s : State Text) (i : Nat) (p : Phase Text) : (s.go i p).phase i = p := if_pos rfl

omit [DecidableEq Text] in
theorem go_other (s : State Text) {i j : Nat} (p : Phase Text) (h : j ≠ i) :
    (s.go i p).phase j = s.phase j := if_neg h

omit [DecidableEq Text] in
/-- Locks after a thread goes on, if it may. -/
theorem locks_go {s : State Text} {i : Nat} {p : Phase Text}
    (one : ∀ i j, (s.phase i).owns = true → (s.phase j).owns = true → i = j)
    (alone : ∀ i j, (s.phase i).writes = true → (s.phase j).reads = false)
    (ho : p.owns = true → ∀ j, j ≠ i → (s.phase j).owns = false)
    (hw : p.writes = true → ∀ j, j ≠ i → (s.phase j).reads = false)
    (hr : p.reads = true → ∀ j, j ≠ i → (s.phase j).writes = false) :
    (∀ a b, ((s.go i p).phase a).owns = true → ((s.go i p).phase b).owns = true → a = b) ∧
      (∀ a b, ((s.go i p).phase a).writes = true → ((s.go i p).phase b).reads = false) := by
  constructor
  · intro a b ha hb
    by_cases ea : a = i <;> by_cases eb : b = i
    · rw [ea, eb]
    · subst ea
      rw [go_same] at ha
      rw [go_other s p eb, ho ha b eb] at hb
      cases hb
    · subst eb
      rw [go_same] at hb
      rw [go_other s p ea, ho hb a ea] at ha
      cases ha
    · rw [go_other s p ea] at ha
      rw [go_other s p eb] at hb
      exact one a b ha hb
  · intro a b ha
    by_cases ea : a = i <;> by_cases eb : b = i
    · subst ea; subst eb
      rw [go_same] at ha ⊢
      cases p <;> simp_all [Phase.writes, Phase.reads]
    · subst ea
      rw [go_same] at ha
      rw [go_other s p eb]
      exact hw ha b eb
    · subst eb
      rw [go_same]
      rw [go_other s p ea] at ha
      cases hp : p.reads with
      | false => rfl
      | true => rw [hr hp a ea] at ha; cases ha
    · rw [go_other s p ea] at ha
      rw [go_other s p eb]
      exact alone a b ha

omit [DecidableEq Text] in
theorem issued_valid {cmp : Text → Text → Ordering} {s : State Text}
    (h : ∀ e ∈ s.log, Valid cmp s.table e) {k : Nat} (hk : issued s.log k) :
    ∃ t, s.table[k]? = some t := by
  rcases hk with ⟨t, hk⟩ | ⟨t, hk⟩
  · exact ⟨t, h _ hk⟩
  · exact ⟨t, h _ hk k rfl⟩

theorem reply_valid {cmp : Text → Text → Ordering} (hc : ∀ t, cmp t t = .eq) {s : State Text}
    (h : ∀ e ∈ s.log, Valid cmp s.table e) {q : Query Text} (hq : q.known s.log) :
    Valid cmp s.table (reply cmp s.table q) := by
  cases q with
  | lookup t => intro k hk; exact get_some hk
  | text k =>
    obtain ⟨t, ht⟩ := issued_valid h hq
    exact ⟨t, ht, ht⟩
  | compare k k' =>
    obtain ⟨t, ht⟩ := issued_valid h hq.1
    obtain ⟨t', ht'⟩ := issued_valid h hq.2
    refine ⟨t, t', ht, ht', ?_⟩
    unfold compareKeys
    by_cases e : k = k'
    · subst e
      rw [ht] at ht'
      cases ht'
      rw [if_pos rfl, hc]
    · rw [if_neg e, ht, ht']

theorem reply_after {cmp : Text → Text → Ordering} {s : State Text}
    (h : ∀ e ∈ s.log, Valid cmp s.table e) (q : Query Text) :
    ∀ e ∈ s.log, After (reply cmp s.table q) e := by
  intro e he t ht k
  cases q with
  | lookup u =>
    simp only [reply, Event.lookedUp.injEq] at ht
    obtain ⟨rfl, hg⟩ := ht
    have hv := h e he
    constructor
    · rintro rfl
      exact get_none hg (List.mem_of_getElem? hv)
    · rintro rfl
      exact get_none hg (List.mem_of_getElem? (hv k rfl))
  | text k => cases ht
  | compare k k' => cases ht

theorem inv_step {cmp : Text → Text → Ordering} (hc : ∀ t, cmp t t = .eq) {i : Nat} {s s' : State Text}
    (h : Inv cmp s) (hs : Step cmp i s s') : Inv cmp s' := by
  have knownGo : ∀ p, (∀ q, p = Phase.reading q → q.known s.log) →
      ∀ j q, (s.go i p).phase j = .reading q → q.known s.log := by
    intro p hp j q hj
    by_cases e : j = i
    · subst e; rw [go_same] at hj; exact hp q hj
    · rw [go_other s p e] at hj; exact h.known j q hj
  have idleLocks := locks_go (s := s) (i := i) (p := .idle) h.one h.alone (by intro x; cases x)
    (by intro x; cases x) (by intro x; cases x)
  have othersFree : (s.phase i).owns = true → ∀ j, j ≠ i → (s.phase j).owns = false := by
    intro hi j hj
    cases ho : (s.phase j).owns with
    | false => rfl
    | true => exact absurd (h.one j i ho hi) hj
  cases hs with
  | acquire t hi free =>
    obtain ⟨l1, l2⟩ := locks_go (s := s) (i := i) (p := .held t) h.one h.alone (fun _ j _ => free j)
      (by intro x; cases x) (by intro x; cases x)
    exact ⟨h.nodup, h.valid, h.order, knownGo _ (by intro q hq; cases hq), l1, l2⟩
  | found t k hi hg =>
    refine ⟨h.nodup, ?_, ?_, ?_, idleLocks.1, idleLocks.2⟩
    · intro e he
      rcases List.mem_cons.1 he with rfl | he
      · exact get_some hg
      · exact h.valid e he
    · exact List.pairwise_cons.2 ⟨fun e _ u hu => (by cases hu), h.order⟩
    · intro j q hj
      exact known_mono _ (knownGo .idle (by intro q hq; cases hq) j q hj)
  | notFound t hi hg =>
    have hf := othersFree (by rw [hi]; rfl)
    obtain ⟨l1, l2⟩ := locks_go (s := s) (i := i) (p := .absent t) h.one h.alone (fun _ => hf)
      (by intro x; cases x) (by intro x; cases x)
    exact ⟨h.nodup, h.valid, h.order, knownGo _ (by intro q hq; cases hq), l1, l2⟩
  | upgrade t hi free =>
    have hf := othersFree (by rw [hi]; rfl)
    obtain ⟨l1, l2⟩ := locks_go (s := s) (i := i) (p := .writing t) h.one h.alone (fun _ => hf)
      (fun _ j _ => free j) (by intro x; cases x)
    exact ⟨h.nodup, h.valid, h.order, knownGo _ (by intro q hq; cases hq), l1, l2⟩
  | write t hi =>
    obtain ⟨hn, ⟨r, hr⟩, hk⟩ := intern_spec s.table t h.nodup
    refine ⟨hn, ?_, ?_, ?_, idleLocks.1, idleLocks.2⟩
    · intro e he
      rcases List.mem_cons.1 he with rfl | he
      · exact hk
      · show Valid cmp (getOrIntern s.table t).1 e
        rw [hr]
        exact (h.valid e he).grow r
    · exact List.pairwise_cons.2 ⟨fun e _ u hu => (by cases hu), h.order⟩
    · intro j q hj
      exact known_mono _ (knownGo .idle (by intro q hq; cases hq) j q hj)
  | read q hi hq free =>
    obtain ⟨l1, l2⟩ := locks_go (s := s) (i := i) (p := .reading q) h.one h.alone
      (by intro x; cases x) (by intro x; cases x) (fun _ j _ => free j)
    refine ⟨h.nodup, h.valid, h.order, knownGo _ ?_, l1, l2⟩
    intro q' e
    cases e
    exact hq
  | reply q hi =>
    refine ⟨h.nodup, ?_, ?_, ?_, idleLocks.1, idleLocks.2⟩
    · intro e he
      rcases List.mem_cons.1 he with rfl | he
      · exact reply_valid hc h.valid (h.known i q hi)
      · exact h.valid e he
    · exact List.pairwise_cons.2 ⟨reply_after h.valid q, h.order⟩
    · intro j q hj
      exact known_mono _ (knownGo .idle (by intro q hq; cases hq) j q hj)

theorem reach_inv {cmp : Text → Text → Ordering} (hc : ∀ t, cmp t t = .eq) {s : State Text}
    (h : Reach cmp s) : Inv cmp s := by
  induction h with
  | start =>
    refine ⟨List.nodup_nil, ?_, List.Pairwise.nil, ?_, ?_, ?_⟩
    · intro e he; cases he
    · intro i q hq; cases hq
    · intro i j hi; cases hi
    · intro i j hi; cases hi
  | step _ i hs ih => exact inv_step hc ih hs

omit [DecidableEq Text] in
theorem key_eq {tb : List Text} (hn : tb.Nodup) {k k' : Nat} {t t' : Text} (h : tb[k]? = some t)
    (h' : tb[k']? = some t') : k = k' ↔ t = t' := by
  constructor
  · rintro rfl
    rw [h] at h'
    exact Option.some.inj h'
  · rintro rfl
    obtain ⟨hk, e⟩ := List.getElem?_eq_some_iff.1 h
    obtain ⟨hk', e'⟩ := List.getElem?_eq_some_iff.1 h'
    exact (hn.getElem_inj_iff).1 (e.trans e'.symm)

end Verif.Intern
