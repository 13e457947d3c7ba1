import Verif.Borrow.Spec
import Mathlib.Tactic.ByContra
import Mathlib.Tactic.Push

/-!
# Lemmas about the analysis of borrowed parameters
-/

namespace Verif.Borrow

/-! ## Marks -/

theorem mem_zipIdx {α} {l : List α} {x : α × Nat} (h : x ∈ l.zipIdx) : l[x.2]? = some x.1 := by
  rwa [List.mem_zipIdx_iff_getElem?] at h

/-- The invariant: nothing was kept, and marks are on borrowed parameters only. -/
def Fine (b : Nat → Nat → Bool) (m : Module) (fr : Frame) : Prop :=
  fr.fn ∈ m ∧ ∀ v x, x ∈ fr.marks v → ∃ i p, fr.fn.entry[i]? = some p ∧ b fr.fn.name i = true ∧ Same fr.fn p.value v

def Good (b : Nat → Nat → Bool) (m : Module) (st : State) : Prop := st.kept = [] ∧ ∀ fr ∈ st.stack, Fine b m fr

theorem enter_fine {b : Nat → Nat → Bool} {m : Module} {f : Fn} {n : Nat} {args : List (List Mark)} (hf : f ∈ m)
    (hargs : ∀ (j : Nat) l, args[j]? = some l → ∀ x ∈ l, b f.name j = true) : Fine b m ⟨f, enterMarks b f n args⟩ := by
  refine ⟨hf, fun v x hx => ?_⟩
  simp only [enterMarks, List.mem_flatMap] at hx
  obtain ⟨⟨p, j⟩, hm, hx⟩ := hx
  have hj := mem_zipIdx hm
  simp only at hj hx
  split at hx
  · rename_i hv
    subst hv
    refine ⟨j, p, hj, ?_, .self⟩
    rw [List.mem_append] at hx
    rcases hx with hx | hx
    · cases ha : args[j]? with
      | none => rw [ha] at hx; simp at hx
      | some l => rw [ha] at hx; exact hargs j l ha x hx
    · split at hx
      · assumption
      · cases hx
  · cases hx

/-- The use of a marked value is harmless. -/
theorem marked_harmless {rec : Nat → Bool} {m : Module} {b : Nat → Nat → Bool} (ha : Admissible rec m b) {f : Fn}
    {env : Nat → List Mark} (hf : Fine b m ⟨f, env⟩) {v : Nat} {x : Mark} (hx : x ∈ env v) {op : Op} (ho : op ∈ f.ops)
    {j : Nat} (hj : op.operands[j]? = some v) :
    Harmless b op j ∧ ∃ i p, f.entry[i]? = some p ∧ b f.name i = true ∧ Same f p.value v := by
  obtain ⟨i, p, h1, h2, h3⟩ := hf.2 v x hx
  obtain ⟨f0, p0, -, -, h4, -, h5, -, -, -, -, h6⟩ := ha _ _ h2
  have : f = f0 := h4 f (List.mem_filter.2 ⟨hf.1, by simp⟩)
  subst this
  rw [show f.entry[i]? = some p from h1] at h5
  cases h5
  exact ⟨h6 v h3 op ho j hj, i, p, h1, h2, h3⟩

theorem step_good {rec : Nat → Bool} {m : Module} {b : Nat → Nat → Bool} (ha : Admissible rec m b) {st st' : State}
    (h : Step b m st st') (hg : Good b m st) : Good b m st' := by
  cases h with
  | outside hf hargs =>
    obtain ⟨hk, hs⟩ := hg
    refine ⟨hk, ?_⟩
    intro fr hfr
    rcases List.mem_cons.1 hfr with rfl | hfr
    · refine enter_fine hf ?_
      intro j l hl x hx
      have := hargs l (List.mem_of_getElem? hl) hx
      rw [hk] at this
      cases this
    · exact hs fr hfr
  | @call f env rest kept n op g h ho hk hc =>
    obtain ⟨hkept, hs⟩ := hg
    have hf := hs ⟨f, env⟩ (by simp)
    refine ⟨hkept, ?_⟩
    intro fr hfr
    rcases List.mem_cons.1 hfr with rfl | hfr
    · refine enter_fine hc.1 ?_
      intro j l hl x hx
      rw [List.getElem?_map, Option.map_eq_some_iff] at hl
      obtain ⟨v, hv, rfl⟩ := hl
      obtain ⟨⟨-, hh⟩, -⟩ := marked_harmless ha hf hx ho hv
      rcases hh with hh | ⟨g', hg', hb⟩ | ⟨hh, -⟩
      · simp [Looks, hk] at hh
      · rw [hk] at hg'
        cases hg'
        rw [hc.2.1]
        exact hb
      · rw [hk] at hh; cases hh
    · exact hs fr hfr
  | leave => exact ⟨hg.1, fun fr hfr => hg.2 fr (List.mem_cons_of_mem _ hfr)⟩
  | @receive f env rest kept n vs l hl =>
    obtain ⟨hkept, hs⟩ := hg
    have hf := hs ⟨f, env⟩ (by simp)
    refine ⟨hkept, ?_⟩
    intro fr hfr
    rcases List.mem_cons.1 hfr with rfl | hfr
    · refine ⟨hf.1, fun v x hx => ?_⟩
      simp only [assign] at hx
      split at hx
      · have := hl hx
        rw [show kept = [] from hkept] at this
        cases this
      · exact hf.2 v x hx
    · exact hs fr (List.mem_cons_of_mem _ hfr)
  | @cast f env rest kept n op v r ho hk hv hr =>
    obtain ⟨hkept, hs⟩ := hg
    have hf := hs ⟨f, env⟩ (by simp)
    refine ⟨hkept, ?_⟩
    intro fr hfr
    rcases List.mem_cons.1 hfr with rfl | hfr
    · refine ⟨hf.1, fun w x hx => ?_⟩
      simp only [assign, List.mem_singleton] at hx
      split at hx
      · rename_i hw
        subst hw
        obtain ⟨⟨hn, -⟩, i, p, h1, h2, h3⟩ := marked_harmless ha hf hx ho (j := 0) (by rw [hv]; rfl)
        exact ⟨i, p, h1, h2, .cast h3 ho hk hn hv hr⟩
      · exact hf.2 w x hx
    · exact hs fr (List.mem_cons_of_mem _ hfr)
  | @other f env rest kept n op l l' ho hc hcast hl hl' =>
    obtain ⟨hkept, hs⟩ := hg
    have hf := hs ⟨f, env⟩ (by simp)
    have hkept : kept = [] := hkept
    have hnil : l = [] := by
      rw [List.eq_nil_iff_forall_not_mem]
      intro x hx
      obtain ⟨i, v, hi, hxv, hnl⟩ := hl x hx
      obtain ⟨⟨-, hh⟩, -⟩ := marked_harmless ha hf hxv ho hi
      rcases hh with hh | ⟨g, hg', hb⟩ | hh
      · exact hnl hh
      · obtain ⟨f0, p0, h1, h2, h3, -, h5, -⟩ := ha _ _ hb
        refine hc g hg' ⟨f0, h1, h2, ?_, fun f' hf' hn => h3 f' (List.mem_filter.2 ⟨hf', by simp [hn]⟩)⟩
        by_contra hb'
        simp [Fn.entry, hb'] at h5
      · exact hcast hh
    subst hnil
    subst hkept
    refine ⟨rfl, ?_⟩
    intro fr hfr
    rcases List.mem_cons.1 hfr with rfl | hfr
    · refine ⟨hf.1, fun v x hx => ?_⟩
      simp only [assign] at hx
      split at hx
      · exact absurd (hl' hx) (by simp)
      · exact hf.2 v x hx
    · exact hs fr (List.mem_cons_of_mem _ hfr)

theorem reach_good {rec : Nat → Bool} {m : Module} {b : Nat → Nat → Bool} (ha : Admissible rec m b) {st : State}
    (h : Reach b m st) : Good b m st := by
  induction h with
  | start => exact ⟨rfl, fun fr h => by cases h⟩
  | step _ hs ih => exact step_good ha hs ih

/-! ## The analysis of one value -/

/-- What the analysis has found out about a use, when the values in the list count as borrowed. -/
def OkIn (s : Summ) (vis : List Nat) (u : Op × Nat) : Prop :=
  match classify u.1 u.2 with
  | .safe => True
  | .alias_ a => a ∈ vis
  | .direct g => borrowedAt s g u.2 = true
  | .escaping => False

theorem OkIn.mono {s : Summ} {vis vis' : List Nat} {u : Op × Nat} (h : OkIn s vis u) (hs : vis ⊆ vis') : OkIn s vis' u := by
  unfold OkIn at *
  cases hc : classify u.1 u.2 <;> simp only [hc] at h ⊢
  · exact hs h
  · exact h

/-- A use that ends the analysis. -/
def Bad (s : Summ) (u : Op × Nat) : Prop :=
  match classify u.1 u.2 with
  | .safe => False
  | .alias_ _ => False
  | .direct g => borrowedAt s g u.2 = false
  | .escaping => True

def Closes (f : Fn) (s : Summ) (vis vis' : List Nat) : Prop :=
  vis ⊆ vis' ∧ ∀ w ∈ vis', w ∉ vis → ∀ u ∈ usesOf f w, OkIn s vis' u

theorem Closes.trans {f : Fn} {s : Summ} {a b c : List Nat} (h1 : Closes f s a b) (h2 : Closes f s b c) : Closes f s a c := by
  refine ⟨fun x hx => h2.1 (h1.1 hx), fun w hw hn u hu => ?_⟩
  by_cases hb : w ∈ b
  · exact (h1.2 w hb hn u hu).mono h2.1
  · exact h2.2 w hw hb u hu

theorem allUses_true {f : Fn} {rec : List Nat → Nat → Option (Bool × List Nat)} {s : Summ}
    (hrec : ∀ vis v vis', rec vis v = some (true, vis') → v ∈ vis' ∧ Closes f s vis vis') :
    ∀ us vis vis', allUses rec s vis us = some (true, vis') → Closes f s vis vis' ∧ ∀ u ∈ us, OkIn s vis' u := by
  intro us
  induction us with
  | nil =>
    intro vis vis' h
    simp only [allUses, Option.some.injEq, Prod.mk.injEq, true_and] at h
    subst h
    exact ⟨⟨fun _ h => h, fun w h hn => absurd h hn⟩, fun u hu => by cases hu⟩
  | cons u us ih =>
    intro vis vis' h
    simp only [allUses] at h
    cases hc : classify u.1 u.2 with
    | safe =>
      simp only [hc] at h
      obtain ⟨h1, h2⟩ := ih vis vis' h
      exact ⟨h1, fun x hx => (List.mem_cons.1 hx).elim (fun e => by subst e; simp [OkIn, hc]) (h2 x)⟩
    | escaping => simp [hc] at h
    | direct g =>
      simp only [hc] at h
      split at h
      · rename_i hb
        obtain ⟨h1, h2⟩ := ih vis vis' h
        exact ⟨h1, fun x hx => (List.mem_cons.1 hx).elim (fun e => by subst e; simpa [OkIn, hc] using hb) (h2 x)⟩
      · simp at h
    | alias_ a =>
      simp only [hc] at h
      cases hr : rec vis a with
      | none => simp [hr] at h
      | some r =>
        obtain ⟨b, v1⟩ := r
        cases b with
        | false => simp [hr] at h
        | true =>
          simp only [hr] at h
          obtain ⟨hm, hcl⟩ := hrec _ _ _ hr
          obtain ⟨h1, h2⟩ := ih v1 vis' h
          refine ⟨hcl.trans h1, fun x hx => (List.mem_cons.1 hx).elim (fun e => ?_) (h2 x)⟩
          subst e
          simp only [OkIn, hc]
          exact h1.1 hm

theorem valueBorrowed_true {f : Fn} {s : Summ} : ∀ n vis v vis', valueBorrowed f s n vis v = some (true, vis') →
    v ∈ vis' ∧ Closes f s vis vis' := by
  intro n
  induction n with
  | zero => intro vis v vis' h; simp [valueBorrowed] at h
  | succ n ih =>
    intro vis v vis' h
    simp only [valueBorrowed] at h
    split at h
    · rename_i hv
      simp only [Option.some.injEq, Prod.mk.injEq, true_and] at h
      subst h
      exact ⟨by simpa using hv, fun _ h => h, fun w h hn => absurd h hn⟩
    · obtain ⟨h1, h2⟩ := allUses_true ih _ _ _ h
      refine ⟨h1.1 (by simp), fun x hx => h1.1 (List.mem_cons_of_mem _ hx), fun w hw hn u hu => ?_⟩
      by_cases he : w = v
      · subst he
        exact h2 u hu
      · exact h1.2 w hw (by simp [he, hn]) u hu

/-- The values the analysis goes to. -/
inductive Goes (f : Fn) (p : Nat) : Nat → Prop
  | self : Goes f p p
  | next {v a u} : Goes f p v → u ∈ usesOf f v → classify u.1 u.2 = .alias_ a → Goes f p a

theorem Goes.trans {f : Fn} {a b c : Nat} (h1 : Goes f a b) (h2 : Goes f b c) : Goes f a c := by
  induction h2 with
  | self => exact h1
  | next _ hu hc ih => exact .next ih hu hc

theorem allUses_false {f : Fn} {rec : List Nat → Nat → Option (Bool × List Nat)} {s : Summ}
    (hrec : ∀ vis v vis', rec vis v = some (false, vis') → ∃ w u, Goes f v w ∧ u ∈ usesOf f w ∧ Bad s u) :
    ∀ us vis vis', allUses rec s vis us = some (false, vis') →
      ∃ u ∈ us, Bad s u ∨ ∃ a w u', classify u.1 u.2 = .alias_ a ∧ Goes f a w ∧ u' ∈ usesOf f w ∧ Bad s u' := by
  intro us
  induction us with
  | nil => intro vis vis' h; simp [allUses] at h
  | cons u us ih =>
    intro vis vis' h
    have later : ∀ v1, allUses rec s v1 us = some (false, vis') → ∃ u' ∈ u :: us, Bad s u' ∨
        ∃ a w u'', classify u'.1 u'.2 = .alias_ a ∧ Goes f a w ∧ u'' ∈ usesOf f w ∧ Bad s u'' := by
      intro v1 h1
      obtain ⟨u', hu', hx⟩ := ih v1 vis' h1
      exact ⟨u', List.mem_cons_of_mem _ hu', hx⟩
    simp only [allUses] at h
    cases hc : classify u.1 u.2 with
    | safe => simp only [hc] at h; exact later _ h
    | escaping => exact ⟨u, by simp, .inl (by simp [Bad, hc])⟩
    | direct g =>
      simp only [hc] at h
      split at h
      · exact later _ h
      · rename_i hb
        exact ⟨u, by simp, .inl (by simpa [Bad, hc] using hb)⟩
    | alias_ a =>
      simp only [hc] at h
      cases hr : rec vis a with
      | none => simp [hr] at h
      | some r =>
        obtain ⟨b, v1⟩ := r
        cases b with
        | true => simp only [hr] at h; exact later _ h
        | false =>
          obtain ⟨w, u', h1, h2, h3⟩ := hrec _ _ _ hr
          exact ⟨u, by simp, .inr ⟨a, w, u', hc, h1, h2, h3⟩⟩

theorem valueBorrowed_false {f : Fn} {s : Summ} : ∀ n vis v vis', valueBorrowed f s n vis v = some (false, vis') →
    ∃ w u, Goes f v w ∧ u ∈ usesOf f w ∧ Bad s u := by
  intro n
  induction n with
  | zero => intro vis v vis' h; simp [valueBorrowed] at h
  | succ n ih =>
    intro vis v vis' h
    simp only [valueBorrowed] at h
    split at h
    · simp at h
    · obtain ⟨u, hu, hb | ⟨a, w, u', hc, hg, hu', hb⟩⟩ := allUses_false ih _ _ _ h
      · exact ⟨v, u, .self, hu, hb⟩
      · exact ⟨w, u', Goes.trans (.next .self hu hc) hg, hu', hb⟩

/-! ## The recursion is deep enough -/

/-- The results of the casts. -/
def castResults (f : Fn) : List Nat :=
  f.ops.filterMap (fun op => match op.results with | [r] => some r | _ => none)

theorem castResults_length (f : Fn) : (castResults f).length ≤ f.ops.length := List.length_filterMap_le _ _

theorem mem_usesOf {f : Fn} {v : Nat} {u : Op × Nat} :
    u ∈ usesOf f v ↔ u.1 ∈ f.ops ∧ u.1.operands[u.2]? = some v := by
  obtain ⟨op, i⟩ := u
  simp only [usesOf, List.mem_flatMap, List.mem_map, List.mem_filter, beq_iff_eq, Prod.mk.injEq]
  constructor
  · rintro ⟨op', ho, ⟨x, j⟩, ⟨hm, hx⟩, h1, h2⟩
    subst h1
    simp only at hx h2
    subst hx
    subst h2
    exact ⟨ho, mem_zipIdx hm⟩
  · rintro ⟨ho, hv⟩
    exact ⟨op, ho, (v, i), ⟨List.mem_zipIdx_iff_getElem?.2 hv, rfl⟩, rfl, rfl⟩

theorem classify_alias {op : Op} {i a : Nat} (h : classify op i = .alias_ a) :
    op.nested = false ∧ op.kind = .cast ∧ op.operands.length = 1 ∧ op.results = [a] ∧ i = 0 := by
  unfold classify at h
  split at h
  · cases h
  · rename_i hn
    split at h <;> try (first | cases h | (split at h <;> cases h))
    rename_i hk
    split at h
    · rename_i x y h1 h2
      split at h
      · rename_i hi
        cases h
        exact ⟨by simpa using hn, hk, by rw [h1]; rfl, h2, hi⟩
      · cases h
    · cases h

theorem alias_castResults {f : Fn} {v a : Nat} {u : Op × Nat} (hu : u ∈ usesOf f v) (h : classify u.1 u.2 = .alias_ a) :
    a ∈ castResults f := by
  obtain ⟨-, -, -, hr, -⟩ := classify_alias h
  exact List.mem_filterMap.2 ⟨u.1, (mem_usesOf.1 hu).1, by rw [hr]⟩

def left (f : Fn) (vis : List Nat) : Nat := ((castResults f).filter (fun r => !vis.contains r)).length

theorem filter_length_le {α} {p q : α → Bool} {l : List α} (hpq : ∀ x, p x = true → q x = true) :
    (l.filter p).length ≤ (l.filter q).length := by
  induction l with
  | nil => simp
  | cons x l ih =>
    by_cases h1 : p x = true
    · simp only [List.filter_cons, h1, hpq x h1, if_true, List.length_cons]
      omega
    · simp only [List.filter_cons, if_neg h1]
      split
      · simp only [List.length_cons]; omega
      · exact ih

theorem left_mono {f : Fn} {vis vis' : List Nat} (h : vis ⊆ vis') : left f vis' ≤ left f vis := by
  refine filter_length_le ?_
  intro x hx
  simp only [Bool.not_eq_true', List.contains_eq_mem, decide_eq_false_iff_not] at hx ⊢
  exact fun hv => hx (h hv)

theorem filter_length_lt {α} {p q : α → Bool} {l : List α} (hpq : ∀ x, p x = true → q x = true) {a : α} (ha : a ∈ l)
    (hq : q a = true) (hp : p a = false) : (l.filter p).length < (l.filter q).length := by
  induction l with
  | nil => cases ha
  | cons x l ih =>
    have mono : (l.filter p).length ≤ (l.filter q).length := filter_length_le hpq
    rcases List.mem_cons.1 ha with rfl | ha
    · simp only [List.filter_cons, hq, hp, if_true]
      simp only [Bool.false_eq_true, if_false, List.length_cons]
      omega
    · have := ih ha
      simp only [List.filter_cons]
      by_cases h1 : p x = true
      · simp only [h1, hpq x h1, if_true, List.length_cons]
        omega
      · rw [if_neg h1]
        split
        · simp only [List.length_cons]; omega
        · exact this

theorem left_lt {f : Fn} {vis : List Nat} {v : Nat} (hv : v ∈ castResults f) (hn : v ∉ vis) : left f (v :: vis) < left f vis := by
  refine filter_length_lt ?_ hv (by simpa using hn) (by simp)
  intro x hx
  simp only [Bool.not_eq_true', List.contains_eq_mem, decide_eq_false_iff_not, List.mem_cons, not_or] at hx ⊢
  exact hx.2

theorem allUses_grows {rec : List Nat → Nat → Option (Bool × List Nat)} {s : Summ}
    (hrec : ∀ vis v r, rec vis v = some r → vis ⊆ r.2) : ∀ us vis r, allUses rec s vis us = some r → vis ⊆ r.2 := by
  intro us
  induction us with
  | nil =>
    intro vis r h
    simp only [allUses, Option.some.injEq] at h
    subst h
    exact fun _ h => h
  | cons u us ih =>
    intro vis r h
    simp only [allUses] at h
    cases hc : classify u.1 u.2 with
    | safe => simp only [hc] at h; exact ih _ _ h
    | escaping =>
      simp only [hc, Option.some.injEq] at h
      subst h
      exact fun _ h => h
    | direct g =>
      simp only [hc] at h
      split at h
      · exact ih _ _ h
      · simp only [Option.some.injEq] at h
        subst h
        exact fun _ h => h
    | alias_ a =>
      simp only [hc] at h
      cases hr : rec vis a with
      | none => simp [hr] at h
      | some q =>
        obtain ⟨b, v1⟩ := q
        have h1 := hrec _ _ _ hr
        cases b with
        | true =>
          simp only [hr] at h
          exact fun x hx => ih _ _ h (h1 hx)
        | false =>
          simp only [hr, Option.some.injEq] at h
          subst h
          exact h1

theorem valueBorrowed_grows {f : Fn} {s : Summ} : ∀ n vis v r, valueBorrowed f s n vis v = some r → vis ⊆ r.2 := by
  intro n
  induction n with
  | zero => intro vis v r h; simp [valueBorrowed] at h
  | succ n ih =>
    intro vis v r h
    simp only [valueBorrowed] at h
    split at h
    · simp only [Option.some.injEq] at h
      subst h
      exact fun _ h => h
    · exact fun x hx => allUses_grows ih _ _ _ h (List.mem_cons_of_mem _ hx)

theorem allUses_some {f : Fn} {s : Summ} {n : Nat}
    (hrec : ∀ vis v, v ∈ castResults f → left f vis < n → (valueBorrowed f s n vis v).isSome) :
    ∀ us vis, (∀ u ∈ us, ∀ a, classify u.1 u.2 = .alias_ a → a ∈ castResults f) → left f vis < n →
      (allUses (valueBorrowed f s n) s vis us).isSome := by
  intro us
  induction us with
  | nil => intro vis _ _; rfl
  | cons u us ih =>
    intro vis hu hl
    have hu' : ∀ u ∈ us, ∀ a, classify u.1 u.2 = .alias_ a → a ∈ castResults f := fun x hx => hu x (List.mem_cons_of_mem _ hx)
    simp only [allUses]
    cases hc : classify u.1 u.2 with
    | safe => exact ih vis hu' hl
    | escaping => rfl
    | direct g =>
      simp only
      split
      · exact ih vis hu' hl
      · rfl
    | alias_ a =>
      simp only
      have h1 := hrec vis a (hu u (by simp) a hc) hl
      cases hr : valueBorrowed f s n vis a with
      | none => rw [hr] at h1; cases h1
      | some q =>
        obtain ⟨b, v1⟩ := q
        cases b with
        | false => rfl
        | true => exact ih v1 hu' (Nat.lt_of_le_of_lt (left_mono (valueBorrowed_grows _ _ _ _ hr)) hl)

theorem valueBorrowed_some {f : Fn} {s : Summ} : ∀ n vis v, v ∈ castResults f → left f vis < n →
    (valueBorrowed f s n vis v).isSome := by
  intro n
  induction n with
  | zero => intro vis v _ h; omega
  | succ n ih =>
    intro vis v hv hl
    simp only [valueBorrowed]
    split
    · rfl
    · rename_i hn
      have hlt : left f (v :: vis) < left f vis := left_lt hv (by simpa using hn)
      refine allUses_some ih _ _ (fun u hu a ha => alias_castResults hu ha) (by omega)

theorem isBorrowed_spec (f : Fn) (s : Summ) (v : Nat) :
    ∃ vis, valueBorrowed f s (f.ops.length + 2) [] v = some (isBorrowed f s v, vis) := by
  have : (valueBorrowed f s (f.ops.length + 2) [] v).isSome := by
    have e : valueBorrowed f s (f.ops.length + 2) [] v = allUses (valueBorrowed f s (f.ops.length + 1)) s [v] (usesOf f v) := by
      rw [valueBorrowed]
      rfl
    rw [e]
    refine allUses_some (valueBorrowed_some _) _ _ (fun u hu a ha => alias_castResults hu ha) ?_
    have h1 : left f [v] ≤ (castResults f).length := List.length_filter_le _ _
    have h2 := castResults_length f
    omega
  obtain ⟨⟨b, vis⟩, h⟩ := Option.isSome_iff_exists.1 this
  refine ⟨vis, ?_⟩
  simp only [isBorrowed, h]

theorem goes_iff {f : Fn} {p v : Nat} : Goes f p v ↔ Same f p v := by
  constructor
  · intro h
    induction h with
    | self => exact .self
    | @next v a u _ hu hc ih =>
      obtain ⟨h1, h2, h3, h4, h5⟩ := classify_alias hc
      obtain ⟨h6, h7⟩ := mem_usesOf.1 hu
      refine .cast ih h6 h2 h1 ?_ h4
      rw [h5] at h7
      match ho : u.1.operands with
      | [] => rw [ho] at h3; simp at h3
      | [x] => rw [ho] at h7; simpa using h7
      | _ :: _ :: _ => rw [ho] at h3; simp at h3
  · intro h
    induction h with
    | self => exact .self
    | @cast v r op _ ho hk hn h1 h2 ih =>
      refine .next (u := (op, 0)) ih (mem_usesOf.2 ⟨ho, by rw [h1]; rfl⟩) ?_
      simp [classify, hn, hk, h1, h2]

/-- A use is harmless exactly when the analysis says so. -/
theorem harmless_iff {s : Summ} {op : Op} {i v : Nat} (hi : op.operands[i]? = some v) :
    Harmless (borrowedAt s) op i ↔ ¬ Bad s (op, i) := by
  have one : op.operands.length = 1 → i = 0 := by
    intro h
    have := (List.getElem?_eq_some_iff.1 hi).1
    omega
  unfold Harmless Bad Looks
  by_cases hn : op.nested = true
  · simp [classify, hn]
  · simp only [Bool.not_eq_true] at hn
    cases hk : op.kind with
    | call g => simp [classify, hn, hk]
    | read => by_cases h0 : i = 0 <;> simp [classify, hn, hk, h0]
    | memStore => by_cases h0 : i = 0 <;> simp [classify, hn, hk, h0]
    | clifStore => by_cases h0 : i = 1 <;> simp [classify, hn, hk, h0]
    | compare => simp [classify, hn, hk]
    | cast =>
      match ho : op.operands, hr : op.results with
      | [x], [r] =>
        have := one (by rw [ho]; rfl)
        simp [classify, hn, hk, ho, hr, this]
      | [], _ => simp [classify, hn, hk, ho]
      | _ :: _ :: _, _ => simp [classify, hn, hk, ho]
      | [x], [] => simp [classify, hn, hk, ho, hr]
      | [x], _ :: _ :: _ => simp [classify, hn, hk, ho, hr]
    | _ => simp [classify, hn, hk]

theorem isBorrowed_iff {f : Fn} {s : Summ} {p : Nat} : isBorrowed f s p = true ↔
    ∀ v, Same f p v → ∀ op ∈ f.ops, ∀ j, op.operands[j]? = some v → Harmless (borrowedAt s) op j := by
  obtain ⟨vis, h⟩ := isBorrowed_spec f s p
  constructor
  · intro hb v hv op ho j hj
    rw [hb] at h
    obtain ⟨h1, h2⟩ := valueBorrowed_true _ _ _ _ h
    have hm : v ∈ vis := by
      rw [← goes_iff] at hv
      clear hj ho
      induction hv with
      | self => exact h1
      | next _ hu hc ih =>
        have := h2.2 _ ih (by simp) _ hu
        simpa [OkIn, hc] using this
    have hok := h2.2 v hm (by simp) (op, j) (mem_usesOf.2 ⟨ho, hj⟩)
    rw [harmless_iff hj]
    unfold OkIn at hok
    unfold Bad
    cases hc : classify op j <;> simp_all
  · intro hall
    cases hb : isBorrowed f s p with
    | true => rfl
    | false =>
      rw [hb] at h
      obtain ⟨w, u, hg, hu, hbad⟩ := valueBorrowed_false _ _ _ _ h
      obtain ⟨ho, hj⟩ := mem_usesOf.1 hu
      exact absurd hbad ((harmless_iff hj).1 (hall w (goes_iff.1 hg) u.1 ho u.2 hj))

theorem Harmless.mono {b b' : Nat → Nat → Bool} {op : Op} {i : Nat} (h : Harmless b op i)
    (hb : ∀ g i, b g i = true → b' g i = true) : Harmless b' op i := by
  refine ⟨h.1, ?_⟩
  rcases h.2 with h | ⟨g, h1, h2⟩ | h
  · exact .inl h
  · exact .inr (.inl ⟨g, h1, hb _ _ h2⟩)
  · exact .inr (.inr h)

/-! ## The loop -/

theorem unique_iff {m : Module} {f : Fn} : f ∈ unique m ↔ f ∈ m ∧ m.filter (fun g => g.name == f.name) = [f] := by
  simp only [unique, List.mem_filter, beq_iff_eq]
  constructor
  · rintro ⟨h1, h2⟩
    refine ⟨h1, ?_⟩
    have hm : f ∈ m.filter (fun g => g.name == f.name) := List.mem_filter.2 ⟨h1, by simp⟩
    match hl : m.filter (fun g => g.name == f.name) with
    | [] => rw [hl] at h2; simp at h2
    | [x] => rw [hl, List.mem_singleton] at hm; rw [← hm] at hl; exact hl
    | _ :: _ :: _ => rw [hl] at h2; simp at h2
  · rintro ⟨h1, h2⟩
    exact ⟨h1, by rw [h2]; rfl⟩

theorem unique_eq {m : Module} {f g : Fn} (hf : f ∈ unique m) (hg : g ∈ m) (h : g.name = f.name) : g = f := by
  have := (unique_iff.1 hf).2
  have hm : g ∈ m.filter (fun g => g.name == f.name) := List.mem_filter.2 ⟨hg, by simp [h]⟩
  rw [this] at hm
  simpa using hm

theorem find_unique {m : Module} {f : Fn} (hf : f ∈ unique m) : (unique m).find? (fun g => g.name == f.name) = some f := by
  cases h : (unique m).find? (fun g => g.name == f.name) with
  | none =>
    rw [List.find?_eq_none] at h
    exact absurd (h f hf) (by simp)
  | some g =>
    have h1 := List.find?_some h
    have h2 := List.mem_of_find?_eq_some h
    rw [unique_eq hf (unique_iff.1 h2).1 (by simpa using h1)]

theorem borrowedAt_initial {rec : Nat → Bool} {m : Module} {g i : Nat} : borrowedAt (initial rec m) g i = true ↔
    ∃ f p, f ∈ unique m ∧ f.name = g ∧ f.entry[i]? = some p ∧ p.isRef = true ∧ ineligible rec m g = false := by
  constructor
  · intro h
    simp only [borrowedAt, initial] at h
    cases hf : (unique m).find? (fun f => f.name == g) with
    | none => simp [hf] at h
    | some f =>
      rw [hf] at h
      simp only [Option.bind_some, List.getElem?_map, beq_iff_eq, Option.map_eq_some_iff, Bool.and_eq_true,
        Bool.not_eq_true'] at h
      obtain ⟨p, h1, h2, h3⟩ := h
      exact ⟨f, p, List.mem_of_find?_eq_some hf, by simpa using List.find?_some hf, h1, h3, h2⟩
  · rintro ⟨f, p, h1, rfl, h2, h3, h4⟩
    simp [borrowedAt, initial, find_unique h1, h2, h3, h4]

theorem borrowedAt_setOwned {s : Summ} {g i h j : Nat} :
    borrowedAt (setOwned s g i) h j = true ↔ borrowedAt s h j = true ∧ ¬ (h = g ∧ j = i) := by
  by_cases hg : h = g
  · subst hg
    simp only [borrowedAt, setOwned, if_true, true_and]
    cases s h with
    | none => simp
    | some l =>
      simp only [Option.map_some, Option.bind_some, beq_iff_eq]
      by_cases hij : j = i
      · subst hij
        simp only [not_true_eq_false, and_false, iff_false]
        intro hh
        rw [List.getElem?_set] at hh
        split at hh
        · split at hh <;> cases hh
        · rename_i hne
          exact hne rfl
      · rw [List.getElem?_set_ne (fun e => hij e.symm)]
        simp [hij]
  · simp [borrowedAt, setOwned, hg]

/-- How many parameters are borrowed. -/
def total (m : Module) (s : Summ) : Nat := ((unique m).map (fun f => ((s f.name).getD []).count true)).sum

theorem sum_le_of {α} {f g : α → Nat} {l : List α} (h : ∀ x ∈ l, f x ≤ g x) : (l.map f).sum ≤ (l.map g).sum := by
  induction l with
  | nil => simp
  | cons x l ih =>
    simp only [List.map_cons, List.sum_cons]
    have h1 := h x (by simp)
    have h2 := ih (fun y hy => h y (List.mem_cons_of_mem _ hy))
    omega

theorem sum_lt_of {α} {f g : α → Nat} {l : List α} (h : ∀ x ∈ l, f x ≤ g x) {a : α} (ha : a ∈ l) (hlt : f a < g a) :
    (l.map f).sum < (l.map g).sum := by
  induction l with
  | nil => cases ha
  | cons x l ih =>
    simp only [List.map_cons, List.sum_cons]
    have h1 := h x (by simp)
    have h2 := sum_le_of (fun y hy => h y (List.mem_cons_of_mem _ hy))
    rcases List.mem_cons.1 ha with rfl | ha
    · omega
    · have := ih (fun y hy => h y (List.mem_cons_of_mem _ hy)) ha
      omega

theorem count_set_lt {l : List Bool} {i : Nat} (h : l[i]? = some true) : (l.set i false).count true < l.count true := by
  induction l generalizing i with
  | nil => simp at h
  | cons b l ih =>
    cases i with
    | zero =>
      simp only [List.getElem?_cons_zero, Option.some.injEq] at h
      subst h
      simp
    | succ i =>
      simp only [List.getElem?_cons_succ] at h
      have := ih h
      simp only [List.set_cons_succ, List.count_cons]
      omega

theorem total_setOwned {m : Module} {s : Summ} {f : Fn} {i : Nat} (hf : f ∈ unique m) (h : borrowedAt s f.name i = true) :
    total m (setOwned s f.name i) < total m s := by
  have key : ∀ g, g = f.name → (((setOwned s f.name i) g).getD []).count true < ((s g).getD []).count true := by
    rintro g rfl
    simp only [borrowedAt, beq_iff_eq] at h
    cases hs : s f.name with
    | none => simp [hs] at h
    | some l =>
      simp only [hs, Option.bind_some] at h
      simp only [setOwned, if_true, hs, Option.map_some, Option.getD_some]
      exact count_set_lt h
  refine sum_lt_of (fun x _ => ?_) hf (key _ rfl)
  by_cases hx : x.name = f.name
  · exact Nat.le_of_lt (key _ hx)
  · simp [setOwned, hx]

/-- What a visit may do to the summaries, and the flag. -/
structure Moves (rec : Nat → Bool) (m : Module) (st st' : Summ × Bool) : Prop where
  down : ∀ g i, borrowedAt st'.1 g i = true → borrowedAt st.1 g i = true
  flag : st.2 = true → st'.2 = true
  same : st'.2 = false → st' = st
  same' : st'.2 = st.2 → total m st'.1 ≤ total m st.1
  fewer : st.2 = false → st'.2 = true → total m st'.1 < total m st.1
  above : ∀ B, Admissible rec m B → (∀ g i, B g i = true → borrowedAt st.1 g i = true) →
    ∀ g i, B g i = true → borrowedAt st'.1 g i = true
  keep : ∀ g, st.1 g = none → st'.1 g = none
  len : ∀ g l, st.1 g = some l → ∃ l', st'.1 g = some l' ∧ l'.length = l.length

theorem Moves.le {rec : Nat → Bool} {m : Module} {st st' : Summ × Bool} (h : Moves rec m st st') :
    total m st'.1 ≤ total m st.1 := by
  cases h1 : st.2 with
  | true => exact h.same' (by rw [h1, h.flag h1])
  | false =>
    cases h2 : st'.2 with
    | true => exact Nat.le_of_lt (h.fewer h1 h2)
    | false => exact h.same' (by rw [h1, h2])

theorem Moves.refl (rec : Nat → Bool) (m : Module) (st : Summ × Bool) : Moves rec m st st :=
  ⟨fun _ _ h => h, fun h => h, fun _ => rfl, fun _ => Nat.le_refl _, (fun h h' => by rw [h] at h'; cases h'),
   fun _ _ h => h, fun _ h => h, fun _ l h => ⟨l, h, rfl⟩⟩

theorem Moves.trans {rec : Nat → Bool} {m : Module} {a b c : Summ × Bool} (h1 : Moves rec m a b) (h2 : Moves rec m b c) :
    Moves rec m a c where
  down g i h := h1.down g i (h2.down g i h)
  flag h := h2.flag (h1.flag h)
  same h := by
    have e := h2.same h
    rw [e] at h
    rw [e, h1.same h]
  same' _ := Nat.le_trans h2.le h1.le
  fewer ha hc := by
    cases hb : b.2 with
    | true => exact Nat.lt_of_le_of_lt h2.le (h1.fewer ha hb)
    | false => exact Nat.lt_of_lt_of_le (h2.fewer hb hc) h1.le
  above B hB h := h2.above B hB (h1.above B hB h)
  keep g h := h2.keep g (h1.keep g h)
  len g l h := by
    obtain ⟨l', h3, h4⟩ := h1.len g l h
    obtain ⟨l'', h5, h6⟩ := h2.len g l' h3
    exact ⟨l'', h5, h6.trans h4⟩

theorem foldl_moves {α} {rec : Nat → Bool} {m : Module} {g : Summ × Bool → α → Summ × Bool} {l : List α}
    (h : ∀ st, ∀ a ∈ l, Moves rec m st (g st a)) (st : Summ × Bool) : Moves rec m st (l.foldl g st) := by
  induction l generalizing st with
  | nil => exact .refl _ _ _
  | cons a l ih =>
    exact (h st a (by simp)).trans (ih (fun st b hb => h st b (List.mem_cons_of_mem _ hb)) _)

theorem foldl_still {α} {rec : Nat → Bool} {m : Module} {g : Summ × Bool → α → Summ × Bool} {l : List α}
    (h : ∀ st, ∀ a ∈ l, Moves rec m st (g st a)) (st : Summ × Bool) (hf : (l.foldl g st).2 = false) :
    l.foldl g st = st ∧ ∀ a ∈ l, g st a = st := by
  induction l generalizing st with
  | nil => exact ⟨rfl, fun a ha => by cases ha⟩
  | cons a l ih =>
    have h' := fun st b hb => h st b (List.mem_cons_of_mem a hb)
    obtain ⟨h1, h2⟩ := ih h' (g st a) hf
    have hg : (g st a).2 = false := by
      rw [List.foldl_cons, h1] at hf
      exact hf
    have e := (h st a (by simp)).same hg
    rw [e] at h1 h2
    refine ⟨by rw [List.foldl_cons, e, h1], fun b hb => ?_⟩
    rcases List.mem_cons.1 hb with rfl | hb
    · exact e
    · exact h2 b hb

theorem admissible_at {rec : Nat → Bool} {m : Module} {B : Nat → Nat → Bool} (hB : Admissible rec m B) {f : Fn}
    (hf : f ∈ unique m) {i : Nat} (hb : B f.name i = true) {p : Param} (hp : f.entry[i]? = some p) :
    ∀ v, Same f p.value v → ∀ op ∈ f.ops, ∀ j, op.operands[j]? = some v → Harmless B op j := by
  obtain ⟨f0, p0, h1, h2, -, -, h5, -, -, -, -, h6⟩ := hB _ _ hb
  have := unique_eq hf h1 h2
  subst this
  rw [hp] at h5
  cases h5
  exact h6

theorem visitParam_moves {rec : Nat → Bool} {m : Module} {f : Fn} (hf : f ∈ unique m) (st : Summ × Bool)
    (x : Param × Nat) (hx : x ∈ f.entry.zipIdx) : Moves rec m st (visitParam f st x) := by
  unfold visitParam
  split
  · rename_i hc
    simp only [Bool.and_eq_true, Bool.not_eq_true'] at hc
    have hlt := total_setOwned hf hc.1
    refine ⟨fun g i h => (borrowedAt_setOwned.1 h).1, fun _ => rfl, (fun h => by cases h), fun _ => Nat.le_of_lt hlt,
      fun _ _ => hlt, ?_, ?_, ?_⟩
    · intro B hB hle g i hb
      refine borrowedAt_setOwned.2 ⟨hle g i hb, ?_⟩
      rintro ⟨rfl, rfl⟩
      have hh := admissible_at hB hf hb (mem_zipIdx hx)
      have : isBorrowed f st.1 x.1.value = true :=
        isBorrowed_iff.2 (fun v hv op ho j hj => (hh v hv op ho j hj).mono hle)
      rw [this] at hc
      cases hc.2
    · intro g hg
      simp only [setOwned]
      split
      · rename_i h; rw [← h, hg]; rfl
      · exact hg
    · intro g l hl
      simp only [setOwned]
      split
      · rename_i h; exact ⟨l.set x.2 false, by rw [← h, hl]; rfl, by simp⟩
      · exact ⟨l, hl, rfl⟩
  · exact .refl _ _ _

theorem visitFn_moves {rec : Nat → Bool} {m : Module} {f : Fn} (hf : f ∈ unique m) (st : Summ × Bool) :
    Moves rec m st (visitFn rec m st f) := by
  unfold visitFn
  split
  · exact .refl _ _ _
  · exact foldl_moves (fun st x hx => visitParam_moves hf st x hx) st

theorem round_moves {rec : Nat → Bool} {m : Module} {order : List Fn} (ho : order.Perm (unique m)) (s : Summ) :
    Moves rec m (s, false) (round rec m order s) :=
  foldl_moves (fun st f hf => visitFn_moves (ho.mem_iff.1 hf) st) _

theorem round_still {rec : Nat → Bool} {m : Module} {order : List Fn} (ho : order.Perm (unique m)) {s : Summ}
    (h : (round rec m order s).2 = false) : (round rec m order s).1 = s ∧
    ∀ f ∈ unique m, ineligible rec m f.name = false → ∀ i p, f.entry[i]? = some p → borrowedAt s f.name i = true →
      isBorrowed f s p.value = true := by
  obtain ⟨h1, h2⟩ := foldl_still (fun st f hf => visitFn_moves (ho.mem_iff.1 hf) st) _ h
  refine ⟨by rw [round, h1], ?_⟩
  intro f hf hi i p hp hb
  have h3 := h2 f (ho.mem_iff.2 hf)
  simp only [visitFn, hi, Bool.false_eq_true, if_false] at h3
  obtain ⟨-, h4⟩ := foldl_still (fun st x hx => visitParam_moves (rec := rec) hf st x hx) (s, false) (by rw [h3])
  have h5 := h4 (p, i) (List.mem_zipIdx_iff_getElem?.2 hp)
  by_contra hne
  simp [visitParam, hb, hne] at h5

theorem loop_some {rec : Nat → Bool} {m : Module} {orders : Nat → List Fn} (ho : Orders m orders) :
    ∀ n s, total m s < n → (loop rec m orders n s).isSome := by
  intro n
  induction n with
  | zero => intro s h; omega
  | succ n ih =>
    intro s h
    simp only [loop]
    split
    · rename_i hc
      have : total m (round rec m (orders n) s).1 < total m s := (round_moves (rec := rec) (ho n) s).fewer rfl hc
      exact ih _ (by omega)
    · rfl

theorem loop_result {rec : Nat → Bool} {m : Module} {orders : Nat → List Fn} (ho : Orders m orders) :
    ∀ n s s', loop rec m orders n s = some s' →
      (∀ g i, borrowedAt s' g i = true → borrowedAt s g i = true) ∧
      (∀ B, Admissible rec m B → (∀ g i, B g i = true → borrowedAt s g i = true) →
        ∀ g i, B g i = true → borrowedAt s' g i = true) ∧
      (∀ f ∈ unique m, ineligible rec m f.name = false → ∀ i p, f.entry[i]? = some p → borrowedAt s' f.name i = true →
        isBorrowed f s' p.value = true) ∧
      (∀ g, s g = none → s' g = none) ∧
      (∀ g l, s g = some l → ∃ l', s' g = some l' ∧ l'.length = l.length) := by
  intro n
  induction n with
  | zero => intro s s' h; cases h
  | succ n ih =>
    intro s s' h
    simp only [loop] at h
    have hm := round_moves (rec := rec) (ho n) s
    split at h
    · obtain ⟨h1, h2, h3, h4, h5⟩ := ih _ _ h
      refine ⟨fun g i hb => hm.down g i (h1 g i hb), fun B hB hle => h2 B hB (hm.above B hB hle), h3,
        fun g hg => h4 g (hm.keep g hg), fun g l hl => ?_⟩
      obtain ⟨l', h6, h7⟩ := hm.len g l hl
      obtain ⟨l'', h8, h9⟩ := h5 g l' h6
      exact ⟨l'', h8, h9.trans h7⟩
    · rename_i hc
      simp only [Bool.not_eq_true] at hc
      obtain ⟨h1, h2⟩ := round_still (ho n) hc
      rw [h1] at h
      cases h
      exact ⟨fun _ _ h => h, fun _ _ h => h, h2, fun _ h => h, fun _ l h => ⟨l, h, rfl⟩⟩

theorem ineligible_iff {rec : Nat → Bool} {m : Module} {f : Fn} (hf : f ∈ unique m) :
    ineligible rec m f.name = false ↔ rec f.name = false ∧ f.abi = false ∧
      ∀ f' ∈ m, ∀ op ∈ f'.ops, op.kind ≠ .constant f.name ∧ op.kind ≠ .tailCall f.name := by
  have habi : (unique m).any (fun g => g.name == f.name && g.abi) = f.abi := by
    rw [Bool.eq_iff_iff]
    simp only [List.any_eq_true, Bool.and_eq_true, beq_iff_eq]
    constructor
    · rintro ⟨g, h1, h2, h3⟩
      rw [← unique_eq hf (unique_iff.1 h1).1 h2]
      exact h3
    · intro h
      exact ⟨f, hf, rfl, h⟩
  have hesc : (escaping m).contains f.name = false ↔
      ∀ f' ∈ m, ∀ op ∈ f'.ops, op.kind ≠ .constant f.name ∧ op.kind ≠ .tailCall f.name := by
    rw [List.contains_eq_mem, decide_eq_false_iff_not]
    simp only [escaping, List.mem_filter, List.mem_flatMap, List.mem_filterMap, List.any_eq_true, beq_iff_eq]
    constructor
    · intro h f' hf' op ho
      constructor
      · intro hk
        exact h ⟨⟨f', hf', op, ho, by simp [escapes, hk]⟩, f, hf, rfl⟩
      · intro hk
        exact h ⟨⟨f', hf', op, ho, by simp [escapes, hk]⟩, f, hf, rfl⟩
    · rintro h ⟨⟨f', hf', op, ho, he⟩, -⟩
      have := h f' hf' op ho
      unfold escapes at he
      split at he
      · cases he; exact this.1 (by assumption)
      · cases he; exact this.2 (by assumption)
      · cases he
  simp only [ineligible, habi, Bool.or_eq_false_iff, hesc, and_assoc]

theorem loop_admissible {rec : Nat → Bool} {m : Module} {orders : Nat → List Fn} (ho : Orders m orders) {n : Nat} {s : Summ}
    (h : summarize rec m orders n = some s) : Admissible rec m (borrowedAt s) := by
  obtain ⟨h1, -, h3, -, -⟩ := loop_result ho _ _ _ h
  intro g i hb
  obtain ⟨f, p, hf, rfl, hp, hr, hi⟩ := borrowedAt_initial.1 (h1 _ _ hb)
  obtain ⟨i1, i2, i3⟩ := (ineligible_iff hf).1 hi
  obtain ⟨u1, u2⟩ := unique_iff.1 hf
  refine ⟨f, p, u1, rfl, ?_, by rw [u2]; rfl, hp, hr, i2, i1, i3, isBorrowed_iff.1 (h3 f hf hi i p hp hb)⟩
  intro f' hf'
  rw [u2] at hf'
  simpa using hf'

theorem admissible_initial {rec : Nat → Bool} {m : Module} {B : Nat → Nat → Bool} (hB : Admissible rec m B) {g i : Nat}
    (h : B g i = true) : borrowedAt (initial rec m) g i = true := by
  obtain ⟨f, p, h1, rfl, h3, h4, h5, h6, h7, h8, h9, -⟩ := hB _ _ h
  have hf : f ∈ unique m := List.mem_filter.2 ⟨h1, by simp [h4]⟩
  exact borrowedAt_initial.2 ⟨f, p, hf, rfl, h5, h6, (ineligible_iff hf).2 ⟨h8, h7, h9⟩⟩

/-! ## Contracts -/

theorem mapM_get {α β} {g : α → Option β} : ∀ {l : List α} {r : List β}, l.mapM g = some r →
    r.length = l.length ∧ ∀ (i : Nat) (x : α), l[i]? = some x → ∃ y, r[i]? = some y ∧ g x = some y := by
  intro l
  induction l with
  | nil =>
    intro r h
    simp at h
    subst h
    exact ⟨rfl, fun i x hx => by simp at hx⟩
  | cons a l ih =>
    intro r h
    simp only [List.mapM_cons, Option.bind_eq_bind, Option.bind_eq_some_iff, Option.pure_def, Option.some.injEq] at h
    obtain ⟨b, hb, bs, hbs, rfl⟩ := h
    obtain ⟨h1, h2⟩ := ih hbs
    refine ⟨by simp [h1], ?_⟩
    intro i x hx
    cases i with
    | zero =>
      simp only [List.getElem?_cons_zero, Option.some.injEq] at hx
      subst hx
      exact ⟨b, by simp, hb⟩
    | succ i =>
      simp only [List.getElem?_cons_succ] at hx ⊢
      exact h2 i x hx

theorem direct_ok {s : Summ} {m : Module} {g : Nat} {tail : Bool} {op : Op} {l : List Mode}
    (h : directContract s m g tail op = .actions l) : ∃ f ∈ unique m, f.name = g ∧ l.length = op.operands.length ∧
      l.length = f.entry.length ∧ ∀ i p, f.entry[i]? = some p →
        ∃ a, l[i]? = some a ∧ actionFor (entryMode s f (p, i)) tail = some a := by
  simp only [directContract, entryContract] at h
  cases hf : (unique m).find? (fun f => f.name == g) with
  | none => rw [hf] at h; simp only at h; split at h <;> cases h
  | some f =>
    rw [hf] at h
    simp only at h
    split at h
    · cases h
    · rename_i hlen
      simp only [ne_eq, Decidable.not_not] at hlen
      cases hm : (f.entry.zipIdx.map (entryMode s f)).mapM (fun e => actionFor e tail) with
      | none => rw [hm] at h; cases h
      | some r =>
        rw [hm] at h
        simp only [Contract.actions.injEq] at h
        subst h
        obtain ⟨h1, h2⟩ := mapM_get hm
        refine ⟨f, List.mem_of_find?_eq_some hf, by simpa using List.find?_some hf, by rw [h1, hlen], ?_, ?_⟩
        · rw [h1]; simp
        · intro i p hp
          exact h2 i _ (by simp [List.getElem?_map, List.getElem?_zipIdx, hp])

end Verif.Borrow
