import Verif.Bytes.Spec
/-! Helper lemmas for the byte-sequence model. -/
namespace Verif.Bytes

theorem mapM_id_eq_some {l : List Cell} {v : List Byte} : l.mapM id = some v ↔ l = v.map some := by
  induction l generalizing v with
  | nil => cases v <;> simp
  | cons c l ih =>
    cases c with
    | none => cases v <;> simp
    | some b =>
      cases v with
      | nil =>
        simp only [List.mapM_cons, id, Option.bind_eq_bind, Option.bind_some, Option.pure_def]
        cases l.mapM id <;> simp
      | cons x v =>
        simp only [List.mapM_cons, id, Option.bind_eq_bind, Option.bind_some, Option.pure_def,
          List.map_cons, List.cons.injEq, Option.some.injEq]
        rw [← ih]
        cases l.mapM id <;> simp

theorem readCells_some {mem : List (List Cell)} {b o n : Nat} {v : List Byte} :
    readCells mem (some (b, o)) n = .ok v ↔
      ∃ buf, mem[b]? = some buf ∧ o + n ≤ buf.length ∧ (buf.drop o).take n = v.map some := by
  simp only [readCells]
  cases h : mem[b]? with
  | none => simp
  | some buf =>
    simp only [Option.some.injEq, exists_eq_left']
    by_cases hl : o + n ≤ buf.length
    · simp only [hl, if_true, true_and]
      cases hm : ((buf.drop o).take n).mapM id with
      | none =>
        simp only [reduceCtorEq, false_iff]
        intro e
        rw [mapM_id_eq_some.mpr e] at hm
        simp at hm
      | some w =>
        rw [mapM_id_eq_some] at hm
        simp only [Except.ok.injEq, hm]
        constructor
        · rintro rfl; rfl
        · intro e
          exact (List.map_inj_right (fun a b h => by simpa using h)).mp e
    · simp [hl]

theorem readCells_append {mem : List (List Cell)} {p : Ptr} {n : Nat} {v : List Byte}
    (buf : List Cell) (h : readCells mem p n = .ok v) : readCells (mem ++ [buf]) p n = .ok v := by
  match p with
  | none => exact h
  | some (b, o) =>
    rw [readCells_some] at h ⊢
    obtain ⟨c, h1, h2, h3⟩ := h
    refine ⟨c, ?_, h2, h3⟩
    have : b < mem.length := by
      rcases List.getElem?_eq_some_iff.mp h1 with ⟨hb, _⟩; exact hb
    rw [List.getElem?_append_left this]; exact h1

theorem readCells_length {mem : List (List Cell)} {p : Ptr} {n : Nat} {v : List Byte}
    (h : readCells mem p n = .ok v) : v.length = n := by
  match p with
  | none =>
    simp only [readCells] at h
    split at h
    · simp at h; subst h; simp_all
    · simp at h
  | some (b, o) =>
    rw [readCells_some] at h
    obtain ⟨buf, _, h2, h3⟩ := h
    have := congrArg List.length h3
    simp at this
    omega

theorem Holds.append {mem : List (List Cell)} {x : TBytes} {v : List Byte} (buf : List Cell)
    (h : Holds mem x v) : Holds (mem ++ [buf]) x v := ⟨h.1, readCells_append buf h.2⟩

/-- Reading a sub-range through an advanced pointer. -/
theorem readCells_sub {mem : List (List Cell)} {p : Ptr} {v : List Byte}
    (h : readCells mem p v.length = .ok v) (s n : Nat) (hs : s + n ≤ v.length) (hn : 0 < n) :
    readCells mem (p.map (fun q => (q.1, q.2 + s))) n = .ok ((v.drop s).take n) := by
  match p with
  | none =>
    simp only [readCells] at h
    split at h
    · omega
    · simp at h
  | some (b, o) =>
    rw [readCells_some] at h
    obtain ⟨buf, h1, h2, h3⟩ := h
    simp only [Option.map_some]
    rw [readCells_some]
    refine ⟨buf, h1, by omega, ?_⟩
    rw [List.map_take, List.map_drop, ← h3, List.drop_take, List.drop_drop, List.take_take]
    congr 1
    omega

theorem Holds.slice {mem : List (List Cell)} {x : TBytes} {v : List Byte} (h : Holds mem x v)
    (s e : Nat) (hse : s ≤ e) (he : e ≤ v.length) :
    Holds mem ⟨if e - s > 0 then x.ptr.map (fun p => (p.1, p.2 + s)) else none, e - s⟩
      (range v s e) := by
  obtain ⟨hl, hr⟩ := h
  refine ⟨by simp [range]; omega, ?_⟩
  by_cases hz : e - s > 0
  · simp only [hz, if_true, range]
    exact readCells_sub (hl ▸ hr) s (e - s) (by omega) hz
  · have : e - s = 0 := by omega
    simp [this, range, readCells]

theorem writeCells_ok {buf : List Cell} {off : Nat} {data : List Byte}
    (h : off + data.length ≤ buf.length) :
    writeCells buf off data = .ok (buf.take off ++ data.map some ++ buf.drop (off + data.length)) := by
  simp [writeCells, h]

/-- The state represents the list of values. -/
structure Rep (st : St) (vals : List (List Byte)) : Prop where
  len : st.objs.length = vals.length
  holds : ∀ (i : Nat) (x : TBytes) (v : List Byte),
    st.objs[i]? = some x → vals[i]? = some v → Holds st.mem x v

theorem Rep.handle {st : St} {vals : List (List Byte)} (h : Rep st vals) (i : Nat) :
    (∃ x v, st.objs[i]? = some x ∧ vals[i]? = some v ∧ Holds st.mem x v) ∨
      (st.objs[i]? = none ∧ vals[i]? = none) := by
  by_cases hi : i < vals.length
  · left
    have hi' : i < st.objs.length := by rw [h.len]; exact hi
    refine ⟨st.objs[i], vals[i], List.getElem?_eq_getElem hi', List.getElem?_eq_getElem hi, ?_⟩
    exact h.holds i _ _ (List.getElem?_eq_getElem hi') (List.getElem?_eq_getElem hi)
  · right
    exact ⟨List.getElem?_eq_none (by rw [h.len]; omega), List.getElem?_eq_none (by omega)⟩

theorem Rep.push_same {st : St} {vals : List (List Byte)} (h : Rep st vals) {x : TBytes}
    {v : List Byte} (hx : Holds st.mem x v) : Rep (st.push x) (vals ++ [v]) := by
  refine ⟨by simp [St.push, h.len], ?_⟩
  intro i y w hy hw
  simp only [St.push] at hy ⊢
  by_cases hi : i < vals.length
  · rw [List.getElem?_append_left (by rw [h.len]; exact hi)] at hy
    rw [List.getElem?_append_left hi] at hw
    exact h.holds i y w hy hw
  · have hle : vals.length ≤ i := by omega
    rw [List.getElem?_append_right (by rw [h.len]; exact hle), h.len] at hy
    rw [List.getElem?_append_right hle] at hw
    cases hj : i - vals.length with
    | zero => simp [hj] at hy hw; subst hy; subst hw; exact hx
    | succ n => simp [hj] at hy

theorem Rep.push_new {st : St} {vals : List (List Byte)} (h : Rep st vals) (buf : List Cell)
    {x : TBytes} {v : List Byte} (hx : Holds (st.mem ++ [buf]) x v) :
    Rep ⟨st.mem ++ [buf], st.objs ++ [x]⟩ (vals ++ [v]) := by
  have h' : Rep ⟨st.mem ++ [buf], st.objs⟩ vals :=
    ⟨h.len, fun i y w hy hw => (h.holds i y w hy hw).append buf⟩
  exact h'.push_same hx

theorem holds_fresh (mem : List (List Cell)) (v : List Byte) :
    Holds (mem ++ [v.map some]) ⟨some (mem.length, 0), v.length⟩ v := by
  refine ⟨rfl, ?_⟩
  rw [readCells_some]
  refine ⟨v.map some, by simp, by simp, ?_⟩
  simp only [List.drop_zero]
  rw [List.take_of_length_le (by simp)]

/-- Outcome of a call compared with the specification. -/
def Matches (r : Except Fault St) (s : Option (List (List Byte))) : Prop :=
  match r, s with
  | .ok st, some vals => Rep st vals
  | .error .abort, none => True
  | .error .badHandle, none => True
  | _, _ => False

theorem copyInto_ok {mem : List (List Cell)} {x : TBytes} {v : List Byte} (h : Holds mem x v)
    (buf : List Cell) (off : Nat) (hl : off + v.length ≤ buf.length) :
    copyInto mem buf off x = .ok (buf.take off ++ v.map some ++ buf.drop (off + v.length)) := by
  obtain ⟨hxl, hxr⟩ := h
  unfold copyInto
  by_cases hv : x.len > 0
  · have hp : x.ptr ≠ none := by
      intro hp
      rw [hp] at hxr
      simp only [readCells] at hxr
      split at hxr
      · omega
      · simp at hxr
    rw [if_pos ⟨hv, hp⟩, hxr]
    exact writeCells_ok hl
  · have : v = [] := List.eq_nil_of_length_eq_zero (by omega)
    subst this
    rw [if_neg (by simp [hv])]
    simp

theorem concat_matches {st : St} {vals : List (List Byte)} (h : Rep st vals) {x y : TBytes}
    {v w : List Byte} (hx : Holds st.mem x v) (hy : Holds st.mem y w) :
    (v.length + w.length ≤ maxAlloc →
      ∃ st', concat st x y = .ok st' ∧ Rep st' (vals ++ [v ++ w])) ∧
    (¬ v.length + w.length ≤ maxAlloc → concat st x y = .error .abort) := by
  have hxl := hx.1
  have hyl := hy.1
  have hmax : maxAlloc = 2 ^ 63 - 8 := rfl
  constructor
  · intro hle
    unfold concat
    rw [hxl, hyl]
    rw [if_neg (by omega)]
    by_cases hz : v.length + w.length > 0
    · simp only [hz, if_true, alloc]
      rw [if_neg (by omega)]
      have h1 : copyInto st.mem (List.replicate (v.length + w.length) none) 0 x =
          .ok (v.map some ++ List.replicate w.length none) := by
        rw [copyInto_ok hx _ 0 (by simp)]; simp
      have h2 : copyInto st.mem (v.map some ++ List.replicate w.length none) v.length y =
          .ok ((v ++ w).map some) := by
        rw [copyInto_ok hy _ _ (by simp)]; simp
      have hf := holds_fresh st.mem (v ++ w)
      rw [List.length_append] at hf
      refine ⟨_, ?_, h.push_new _ hf⟩
      simp only [bind, Except.bind, h1, h2]
    · have hv : v = [] := List.eq_nil_of_length_eq_zero (by omega)
      have hw : w = [] := List.eq_nil_of_length_eq_zero (by omega)
      subst hv; subst hw
      have hn : Holds st.mem ⟨none, 0⟩ [] := ⟨rfl, by simp [readCells]⟩
      exact ⟨_, rfl, h.push_same hn⟩
  · intro hgt
    unfold concat
    rw [hxl, hyl]
    split
    · rfl
    · rw [if_pos (by omega)]
      simp only [alloc]
      rw [if_pos (by omega)]
      rfl

theorem step_matches {st : St} {vals : List (List Byte)} (h : Rep st vals) (op : Op) :
    Matches (step st op) (specStep vals op) := by
  cases op with
  | literal bs => exact h.push_new _ (holds_fresh st.mem bs)
  | lineRead bs =>
    simp only [step, specStep, allocateBytes]
    cases bs with
    | nil =>
      simp only [List.isEmpty_nil, if_true, List.length_nil, Nat.zero_le]
      exact h.push_same ⟨rfl, by simp [readCells]⟩
    | cons b bs =>
      simp only [List.isEmpty_cons, Bool.false_eq_true, if_false, alloc]
      by_cases hm : (b :: bs).length ≤ maxAlloc
      · rw [if_neg (by omega), if_pos hm]
        show Matches (do
          let buf ← writeCells (List.replicate (b :: bs).length none) 0 (b :: bs)
          Except.ok (ε := Fault) (⟨st.mem ++ [buf], st.objs ++ [TBytes.mk (some (st.mem.length, 0))
            (b :: bs).length]⟩ : St)) _
        rw [writeCells_ok (by simp)]
        have : (List.take 0 (List.replicate (b :: bs).length (none : Cell)) ++
          (b :: bs).map some ++ List.drop (0 + (b :: bs).length)
            (List.replicate (b :: bs).length none)) = (b :: bs).map some := by simp
        rw [this]
        exact h.push_new _ (holds_fresh st.mem (b :: bs))
      · rw [if_pos (by omega), if_neg hm]
        trivial
  | concat a b =>
    simp only [step, specStep]
    rcases h.handle a with ⟨x, v, h1, h2, hx⟩ | ⟨h1, h2⟩
    · rcases h.handle b with ⟨y, w, g1, g2, hy⟩ | ⟨g1, g2⟩
      · rw [h1, h2, g1, g2]
        obtain ⟨c1, c2⟩ := concat_matches h hx hy
        simp only [Option.bind_eq_bind, Option.bind_some]
        by_cases hle : v.length + w.length ≤ maxAlloc
        · obtain ⟨st', e, r⟩ := c1 hle
          rw [e, if_pos hle]; exact r
        · rw [c2 hle, if_neg hle]; trivial
      · rw [h1, h2, g1, g2]; trivial
    · rw [h1, h2]
      cases st.objs[b]? <;> trivial
  | slice i s e =>
    simp only [step, specStep]
    rcases h.handle i with ⟨x, v, h1, h2, hx⟩ | ⟨h1, h2⟩
    · rw [h1, h2]
      simp only [Option.bind_eq_bind, Option.bind_some, sliceOrPanic]
      rw [hx.1]
      by_cases hc : s.toNat ≤ e.toNat ∧ e.toNat ≤ v.length
      · rw [if_neg (by omega), if_pos hc]
        exact h.push_same (hx.slice _ _ hc.1 hc.2)
      · rw [if_pos (by omega), if_neg hc]; trivial
    · rw [h1, h2]; trivial

theorem foldlM_matches (ops : List Op) : ∀ (st : St) (vals : List (List Byte)), Rep st vals →
    Matches (ops.foldlM step st) (ops.foldlM specStep vals) := by
  induction ops with
  | nil => intro st vals h; exact h
  | cons op ops ih =>
    intro st vals h
    have := step_matches h op
    simp only [List.foldlM_cons]
    match h1 : step st op, h2 : specStep vals op with
    | .ok st', some vals' =>
      rw [h1, h2] at this
      exact ih st' vals' this
    | .error f, some _ => rw [h1, h2] at this; cases f <;> exact this.elim
    | .ok _, none => rw [h1, h2] at this; exact this.elim
    | .error f, none => rw [h1, h2] at this; cases f <;> exact this

theorem run_matches (ops : List Op) : Matches (run ops) (specRun ops) :=
  foldlM_matches ops ⟨[], []⟩ [] ⟨rfl, by simp⟩

end Verif.Bytes
