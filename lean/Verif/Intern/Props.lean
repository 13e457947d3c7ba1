import Verif.Intern.Proofs
import Verif.Intern.Spec

/-!
# C112: symbols are equal exactly when their texts are, whatever threads do
-/

namespace Verif.Intern

variable {Text : Type} [DecidableEq Text] {cmp : Text → Text → Ordering} {s : State Text}

omit [DecidableEq Text] in
private theorem gave_valid (h : Inv cmp s) {t : Text} {k : Nat} (hg : Gave s.log t k) :
    s.table[k]? = some t := by
  rcases hg with hg | hg
  · exact h.valid _ hg
  · exact h.valid _ hg k rfl

/-- Two symbols given to any threads at any times are equal exactly when their texts are. -/
theorem C112_equal (hc : ∀ t, cmp t t = .eq) (h : Reach cmp s) {t t' : Text} {k k' : Nat}
    (hg : Gave s.log t k) (hg' : Gave s.log t' k') : k = k' ↔ t = t' :=
  key_eq (reach_inv hc h).nodup (gave_valid (reach_inv hc h) hg) (gave_valid (reach_inv hc h) hg')

/-- Reading a symbol gives the text it was made from, and never fails. -/
theorem C112_text (hc : ∀ t, cmp t t = .eq) (h : Reach cmp s) {k : Nat} {o : Option Text}
    (ho : .text k o ∈ s.log) : (∃ t, o = some t) ∧ ∀ t, Gave s.log t k → o = some t := by
  obtain ⟨t, rfl, ht⟩ := (reach_inv hc h).valid _ ho
  refine ⟨⟨t, rfl⟩, ?_⟩
  intro t' hg
  rw [gave_valid (reach_inv hc h) hg] at ht
  exact ht.symm

/-- Comparing symbols compares their texts, in whatever order they were interned, and never fails. -/
theorem C112_order (hc : ∀ t, cmp t t = .eq) (h : Reach cmp s) {k k' : Nat} {o : Option Ordering}
    (ho : .compared k k' o ∈ s.log) {t t' : Text} (hg : Gave s.log t k) (hg' : Gave s.log t' k') :
    o = some (cmp t t') := by
  obtain ⟨u, u', h1, h2, h3⟩ := (reach_inv hc h).valid _ ho
  rw [gave_valid (reach_inv hc h) hg] at h1
  rw [gave_valid (reach_inv hc h) hg'] at h2
  cases h1; cases h2
  exact h3

/-- A text that a thread does not find had not been interned by anyone before: in the record, newest
first, no symbol was given for it earlier. -/
theorem C112_lookup (hc : ∀ t, cmp t t = .eq) (h : Reach cmp s) {later earlier : List (Event Text)}
    {t : Text} (hl : s.log = later ++ .lookedUp t none :: earlier) (k : Nat) : ¬ Gave earlier t k := by
  have hp := (reach_inv hc h).order
  rw [hl, List.pairwise_append] at hp
  have hq := (List.pairwise_cons.1 hp.2.1).1
  rintro (hg | hg)
  · exact (hq _ hg t rfl k).1 rfl
  · exact (hq _ hg t rfl k).2 rfl

/-- While a thread changes the table no other thread holds the lock in any way, and at most one thread
is about to change it. -/
theorem C112_exclusive (hc : ∀ t, cmp t t = .eq) (h : Reach cmp s) {i j : Nat} (hij : i ≠ j) :
    ((s.phase i).writes = true → (s.phase j).reads = false ∧ (s.phase j).owns = false) ∧
      ¬ ((s.phase i).owns = true ∧ (s.phase j).owns = true) := by
  have hi := reach_inv hc h
  refine ⟨?_, fun ⟨a, b⟩ => hij (hi.one i j a b)⟩
  intro hw
  refine ⟨hi.alone i j hw, ?_⟩
  cases ho : (s.phase j).owns with
  | false => rfl
  | true => exact absurd (hi.one i j (owns_of_writes hw) ho) hij

/-- Threads do not block each other for ever: if a thread is not idle, then some thread that is not
idle can take its next step. -/
theorem C112_progress {i : Nat} (hb : s.phase i ≠ .idle) :
    ∃ (j : Nat) (s' : State Text), s.phase j ≠ .idle ∧ Step cmp j s s' := by
  by_cases hr : ∃ j, (s.phase j).reads = true
  · obtain ⟨j, hj⟩ := hr
    cases hp : s.phase j with
    | reading q => exact ⟨j, _, by rw [hp]; simp, .reply s q hp⟩
    | _ => rw [hp] at hj; cases hj
  · have free : ∀ j, (s.phase j).reads = false := by
      intro j
      cases hj : (s.phase j).reads with
      | false => rfl
      | true => exact absurd ⟨j, hj⟩ hr
    cases hp : s.phase i with
    | idle => exact absurd hp hb
    | held t =>
      cases hg : get s.table t with
      | some k => exact ⟨i, _, hb, .found s t k hp hg⟩
      | none => exact ⟨i, _, hb, .notFound s t hp hg⟩
    | absent t => exact ⟨i, _, hb, .upgrade s t hp free⟩
    | writing t => exact ⟨i, _, hb, .write s t hp⟩
    | reading q => exact absurd ⟨i, by rw [hp]; rfl⟩ hr

/-- Every step of a thread that is not idle brings it nearer to being idle and leaves the other threads
where they are: together with `C112_progress`, whatever was begun ends if no more is begun. -/
theorem C112_ends {i : Nat} {s' : State Text} (hs : Step cmp i s s') (hb : s.phase i ≠ .idle) :
    (s'.phase i).stepsLeft < (s.phase i).stepsLeft ∧ ∀ j, j ≠ i → s'.phase j = s.phase j := by
  cases hs with
  | acquire t h _ => exact absurd h hb
  | read q h _ _ => exact absurd h hb
  | found t k h _ =>
    refine ⟨?_, fun j hj => go_other s .idle hj⟩
    rw [h, show (s.answer i (.interned t k)).phase i = .idle from go_same s i .idle]
    show 0 < 3
    decide
  | notFound t h _ =>
    refine ⟨?_, fun j hj => go_other s (.absent t) hj⟩
    rw [h, go_same]
    show 2 < 3
    decide
  | upgrade t h _ =>
    refine ⟨?_, fun j hj => go_other s (.writing t) hj⟩
    rw [h, go_same]
    show 1 < 2
    decide
  | write t h =>
    refine ⟨?_, fun j hj => go_other s .idle hj⟩
    rw [h]
    show ((s.go i .idle).phase i).stepsLeft < 1
    rw [go_same]
    show 0 < 1
    decide
  | reply q h =>
    refine ⟨?_, fun j hj => go_other s .idle hj⟩
    rw [h]
    show ((s.go i .idle).phase i).stepsLeft < 1
    rw [go_same]
    show 0 < 1
    decide

/-- Two threads intern the same text, the second while the first is about to write; a third looks it up
in between and does not find it. -/
example : ∃ s : State Nat, Reach (compare : Nat → Nat → Ordering) s ∧
    s.log = [.interned 7 0, .interned 7 0, .lookedUp 7 none] := by
  have a0 : Reach (compare : Nat → Nat → Ordering) (start : State Nat) := .start
  have a1 := a0.step 1 (.acquire _ 7 rfl (fun _ => rfl))
  have a2 := a1.step 1 (.notFound _ 7 rfl rfl)
  have a3 := a2.step 3 (.read _ (.lookup 7) rfl trivial (by
    intro j; by_cases e : j = 1 <;> simp [State.go, start, Phase.writes, e]))
  have a4 := a3.step 3 (.reply _ (.lookup 7) rfl)
  have a5 := a4.step 1 (.upgrade _ 7 rfl (by
    intro j
    by_cases e : j = 3 <;> by_cases e' : j = 1 <;>
      simp [State.answer, State.go, start, Phase.reads, e, e']))
  have a6 := a5.step 1 (.write _ 7 rfl)
  have a7 := a6.step 2 (.acquire _ 7 rfl (by
    intro j
    by_cases e : j = 3 <;> by_cases e' : j = 1 <;>
      simp [State.answer, State.go, start, Phase.owns, e, e']))
  have a8 := a7.step 2 (.found _ 7 0 rfl rfl)
  exact ⟨_, a8, rfl⟩

end Verif.Intern
