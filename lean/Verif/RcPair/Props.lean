import Verif.RcPair.Proofs

/-!
# C22: removing retain/release pairs
-/

namespace Verif.RcPair

/-! A world for the examples: operation 0 is arithmetic, operation 1 gives up the reference it is
called with, operation 2 makes an object at address 50. -/

def demoWorld : World := fun f args _ _ => match f, args with
  | 1, [.ref a] => ([.release a], .int 0)
  | 2, _ => ([.alloc 50 []], .ref 50)
  | _, _ => ([], .int 7)

/-- `retain`, a load through the pointer, a store of something else into it, `release`. -/
def demoBlock : List Op :=
  [.retain 10 1, .load 11 10 8, .store 11 1 16, .op 0 12 [11] [] false, .release 1, .op 0 13 [10] [] false]

def demoState : State := ⟨fun x => if x = 1 then .ref 100 else .int 0, [(100, ⟨1, [(8, .int 3)]⟩)]⟩

/-- **C22.** The pass takes out one retain and one release of the same reference, nothing else; the
order of the other operations stays; the result of the retain is replaced by its operand; and between
the two the reference is at most dereferenced: nothing stores it, passes it on or gives it up, and there
are no regions. -/
theorem C22_shape {ops ops' : List Op} {r p : Nat} (h : eliminateOne [] ops = some (ops', r, p)) :
    ∃ pre mid q post, Removes ops ops' pre r p mid q post := by
  obtain ⟨pre, mid, q, post, e1, e2, e3, e4⟩ := eliminateOne_spec h
  exact ⟨pre, mid, q, post, e1, e2, by simpa using e3, e4⟩

example : eliminateOne [] demoBlock =
    some ([.load 11 1 8, .store 11 1 16, .op 0 12 [11] [] false, .op 0 13 [1] [] false], 10, 1) := by decide

/-- **C22.** The pass ends, and no pair that could be taken out is left in the block. -/
theorem C22_complete (ops ops2 pre : List Op) (r p : Nat) (mid : List Op) (q : Nat) (post : List Op) :
    ¬ Removes (eliminate ops).1 ops2 pre r p mid q post := by
  intro h
  exact eliminateOne_none (eliminateN_done ops.length ops (Nat.le_refl _)) h.shape h.same h.between

example : ∃ ops2 pre r p mid q post, Removes demoBlock ops2 pre r p mid q post := by
  obtain ⟨pre, mid, q, post, h⟩ := C22_shape (ops := demoBlock) (r := 10) (p := 1) rfl
  exact ⟨_, pre, 10, 1, mid, q, post, h⟩

/-- **C22.** The value of a retain that was taken out is mentioned nowhere any more, neither in the
block nor, after the replacements, in any other. -/
theorem C22_no_dangling {ops : List Op} (hs : SSA ops) {r p : Nat} (h : (r, p) ∈ (eliminate ops).2) :
    (∀ o ∈ (eliminate ops).1, r ∉ uses o) ∧ ∀ v, renAll (eliminate ops).2 v ≠ r :=
  eliminateN_gone hs h

theorem demoSSA : SSA demoBlock := by
  refine ⟨by decide, by decide⟩

example : SSA demoBlock ∧ (10, 1) ∈ (eliminate demoBlock).2 := ⟨demoSSA, by decide⟩

/-- **C22, in part.** If a pair is taken out that is not needed, because some other reference keeps the
object alive from the retain to the release, the block does the same as before: it uses no freed object
either, the heap with all its counts is the same at the end, and so are the values.  Missing: the pass
takes out pairs that are needed, see `C22_violated`. -/
theorem C22_pair_partial {W : World} {st st' : State} {ops ops' pre mid post : List Op} {r p q : Nat}
    (hk : HeapOk st.heap) (hs : SSA ops) (h : Removes ops ops' pre r p mid q post)
    (hu : PairUnneeded W st pre r p mid) (hrun : run W st ops = some st') :
    ∃ st'', run W st ops' = some st'' ∧ Agree (renVar r p) st' st'' := by
  obtain ⟨rfl, hq, rfl, -⟩ := h
  obtain ⟨st'', h1, h2, h3⟩ := remove_pair hk hs hq hu hrun
  exact ⟨st'', h1, h3.symm, h2⟩

/-- **C22, in part.** The same for the whole pass over a block, when no pair it takes out is needed. -/
theorem C22_pass_partial {W : World} {st st' : State} {ops : List Op} (hk : HeapOk st.heap) (hs : SSA ops)
    (hu : ∀ k ops2 pre r p mid q post, Removes (eliminateN k ops).1 ops2 pre r p mid q post →
      PairUnneeded W st pre r p mid)
    (hrun : run W st ops = some st') :
    ∃ st'', run W st (eliminate ops).1 = some st'' ∧ Agree (renAll (eliminate ops).2) st' st'' :=
  eliminateN_run hk hs hu hrun

theorem demoOneRelease : OneRelease demoWorld demoBlock := by
  refine ⟨by decide, ?_⟩
  intro o ho
  simp only [demoBlock, List.mem_cons, List.not_mem_nil, or_false] at ho
  have q0 : ∀ d args caps reg, Quiet demoWorld (.op 0 d args caps reg) := by
    intro d args caps reg args caps sh a
    cases args <;> simp [demoWorld]
  rcases ho with rfl | rfl | rfl | rfl | rfl | rfl
  · exact .inr trivial
  · exact .inr trivial
  · exact .inr trivial
  · exact .inr (q0 _ _ _ _)
  · exact .inl rfl
  · exact .inr (q0 _ _ _ _)

/-- The hypotheses of `C22_pass_partial` hold for the block above, where a pair is taken out. -/
example : HeapOk demoState.heap ∧ SSA demoBlock ∧ (eliminate demoBlock).2 = [(10, 1)] ∧
    ∀ k ops2 pre r p mid q post, Removes (eliminateN k demoBlock).1 ops2 pre r p mid q post →
      PairUnneeded demoWorld demoState pre r p mid :=
  ⟨⟨by decide, by decide⟩, demoSSA, by decide, demoOneRelease.unneeded ⟨by decide, by decide⟩⟩

/-- **C22, in part.** A pair is not needed when nothing between the two gives up a reference, neither a
release in the block nor code that is called. -/
theorem C22_quiet_partial {W : World} {st st' : State} {ops ops' pre mid post : List Op} {r p q : Nat}
    (hk : HeapOk st.heap) (hs : SSA ops) (h : Removes ops ops' pre r p mid q post)
    (hq : ∀ o ∈ mid, Quiet W o) (hrun : run W st ops = some st') :
    ∃ st'', run W st ops' = some st'' ∧ Agree (renVar r p) st' st'' :=
  C22_pair_partial hk hs h (quiet_unneeded hk hq) hrun

example : HeapOk demoState.heap ∧ (run demoWorld demoState demoBlock).isSome ∧
    (∀ o ∈ demoBlock.take 4, Quiet demoWorld o) ∧
    ∃ ops' pre mid post, Removes demoBlock ops' pre 10 1 mid 1 post ∧ ∀ o ∈ mid, Quiet demoWorld o := by
  have q0 : ∀ d args caps reg, Quiet demoWorld (.op 0 d args caps reg) := by
    intro d args caps reg args caps sh a
    cases args <;> simp [demoWorld]
  refine ⟨⟨by decide, by decide⟩, by simp [run, step, effect, acts, act, releaseAll_cons, releaseAll_nil, demoBlock, demoState, setEnv, modify, del, dec, refs, demoWorld, List.lookup_cons], ?_, ?_⟩
  · intro o ho
    simp only [demoBlock, List.take, List.mem_cons, List.not_mem_nil, or_false] at ho
    rcases ho with rfl | rfl | rfl | rfl
    · trivial
    · trivial
    · trivial
    · exact q0 _ _ _ _
  · refine ⟨[.load 11 1 8, .store 11 1 16, .op 0 12 [11] [] false, .op 0 13 [1] [] false], [],
      [.load 11 10 8, .store 11 1 16, .op 0 12 [11] [] false], [.op 0 13 [10] [] false], ⟨rfl, .inl rfl, rfl, ?_⟩, ?_⟩
    · intro o ho
      simp only [List.mem_cons, List.not_mem_nil, or_false] at ho
      rcases ho with rfl | rfl | rfl
      · exact ⟨.load, .load⟩
      · exact ⟨.store (by decide), .store (by decide)⟩
      · exact ⟨.op (by decide), .op (by decide)⟩
    · intro o ho
      simp only [List.mem_cons, List.not_mem_nil, or_false] at ho
      rcases ho with rfl | rfl | rfl
      · trivial
      · trivial
      · exact q0 _ _ _ _

/-! ### The pass takes out pairs that are needed -/

/-- `x = owner.field; owner` is not needed any more; `y = x.other`: what the insertion of reference
counting makes of it. -/
def badBlock : List Op :=
  [.load 2 1 8, .retain 3 2, .release 1, .load 4 2 8, .release 2]

def badState : State := ⟨fun x => if x = 1 then .ref 100 else .int 0,
  [(100, ⟨1, [(8, .ref 200)]⟩), (200, ⟨1, [(8, .int 3)]⟩)]⟩

/-- **C22 is violated.** A release of another object between the two can give up the last other reference
to the object: the program that used no freed object does so after the pass.  So can a call that is not
passed the reference. -/
theorem C22_violated :
    (run demoWorld badState badBlock).isSome = true ∧ run demoWorld badState (eliminate badBlock).1 = none ∧
    (run demoWorld badState
      [.load 2 1 8, .retain 3 2, .op 1 5 [1] [] false, .load 4 2 8, .release 2]).isSome = true ∧
    run demoWorld badState
      (eliminate [.load 2 1 8, .retain 3 2, .op 1 5 [1] [] false, .load 4 2 8, .release 2]).1 = none := by
  have e1 : (eliminate badBlock).1 = [.load 2 1 8, .release 1, .load 4 2 8] := by decide
  have e2 : (eliminate [.load 2 1 8, .retain 3 2, .op 1 5 [1] [] false, .load 4 2 8, .release 2]).1 =
      [.load 2 1 8, .op 1 5 [1] [] false, .load 4 2 8] := by decide
  rw [e1, e2]
  simp [run, step, effect, acts, act, releaseAll_cons, releaseAll_nil, badBlock, badState, setEnv, modify, del, dec,
    refs, demoWorld, List.lookup_cons]

end Verif.RcPair
