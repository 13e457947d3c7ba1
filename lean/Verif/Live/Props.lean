import Verif.Live.Proofs

/-!
# C21: liveness
-/

namespace Verif.Live

/-- C21: the computed sets are exact: a tracked pointer is in the live-in set of a block exactly when
some path from the start of the block reaches a use of the pointer before a definition of it, and in
the live-out set exactly when that holds of a successor. -/
theorem C21_exact {I : Info} {body : Body} {deps : List (Nat × Nat)}
    (hs : ∀ b ∈ body, ∀ v ∈ b.args, I.static v = false) {fuel : Nat} {l : Live}
    (h : liveness (analyse I body deps) fuel = some l) {p : Nat} (hp : p ∈ (aliases I body).ptrs) (b : Nat) :
    (p ∈ l.liveIn b ↔ LiveIn (analyse I body deps) p b) ∧ (p ∈ l.liveOut b ↔ LiveOut (analyse I body deps) p b) := by
  have hg : Good (analyse I body deps) := fun p hp => ptrValues_good hs (aliases_ptrs hp)
  obtain ⟨h1, h2⟩ := loop_fixed hg fuel start (start_sound _) h
  have hin : ∀ b, LiveIn (analyse I body deps) p b → p ∈ l.liveIn b := by
    rintro b ⟨blk, hb, ha, hr⟩
    exact fixed_complete hg h2 hp hr blk hb ha (fun j hj => absurd hj (by omega))
  refine ⟨⟨(h1 p hp b).1, hin b⟩, (h1 p hp b).2, ?_⟩
  rintro ⟨blk, op, s, hb, hl, hsucc, hlive⟩
  rw [← (h2 b blk hb).2]
  exact mem_newOut.mpr ⟨op, s, hl, hsucc, hin s hlive⟩

/-- C21: the analysis ends, after at most twice as many rounds as there are blocks times operands
(with what they borrow from), and one. -/
theorem C21_terminates (I : Info) (body : Body) (deps : List (Nat × Nat)) :
    ∃ l, liveness (analyse I body deps)
      (body.length * (2 * (everything (analyse I body deps)).length) + 1) = some l :=
  loop_some _ _ (start_below _) (Nat.lt_succ_of_le (Nat.sub_le _ _))

/-- C21: an operand counts as an alias of a tracked pointer exactly when it was made from it by casts
to non-integer types, for bodies whose blocks list casts after the casts they build on. -/
theorem C21_casts {I : Info} {body : Body} (ho : CastsInOrder (body.flatMap (·.ops))) (v p : Nat) :
    (aliases I body).map.lookup v = some p ↔
      p ∈ (aliases I body).ptrs ∧ Relation.TransGen (CastStep I (body.flatMap (·.ops))) p v := by
  have hi := aliases_inv (I := I) (B := ptrValues I body) (body.flatMap (·.ops)) [] _ (by simpa using ho) aliases_start
  simp only [List.nil_append] at hi
  exact ⟨fun h => ⟨(hi.sound v p h).2.1, (hi.sound v p h).1⟩, fun h => hi.complete v p h.1 h.2⟩

/-! ## Example: a loop

`bb0(1): 2 = call 1; jump bb1`, `bb1: brif [bb2, bb3]`, `bb2: 3 = cast 2; load 3; jump bb1`,
`bb3: return 1`. -/

def exInfo : Info := ⟨fun v => v == 1 || v == 2, fun _ => false, fun _ => false⟩

def exBody : Body :=
  [⟨[1], [⟨.call, [1], [2], []⟩, ⟨.jump, [], [], [1]⟩]⟩,
   ⟨[], [⟨.brif, [], [], [2, 3]⟩]⟩,
   ⟨[], [⟨.cast, [2], [3], []⟩, ⟨.load, [3], [4], []⟩, ⟨.jump, [], [], [1]⟩]⟩,
   ⟨[], [⟨.ret, [1], [], []⟩]⟩]

/-- The hypotheses of `C21_exact` and `C21_casts` hold of it, and the sets are what they should be:
both pointers are live around the loop, and only the parameter is live at the exit. -/
example : (∀ b ∈ exBody, ∀ v ∈ b.args, exInfo.static v = false) ∧
    (aliases exInfo exBody).map = [(3, 2)] ∧ 2 ∈ (aliases exInfo exBody).ptrs ∧
    ((liveness (analyse exInfo exBody []) 9).map (fun l => (List.range 4).map (fun b =>
      [1, 2].filter (l.liveIn b).contains))) = some [[], [1, 2], [1, 2], [1]] := by
  refine ⟨fun _ _ _ _ => rfl, by decide, by decide, by decide +kernel⟩

example : CastsInOrder (exBody.flatMap (·.ops)) := by
  have key : ∀ l : List Op, l.length = 7 → l = exBody.flatMap (·.ops) → CastsInOrder l := by
    intro l hl e pre op post h hk
    have hlen := hl
    rw [h] at hlen
    simp only [List.length_append, List.length_cons] at hlen
    have hop : l[pre.length]? = some op := by rw [h]; simp
    have hidx : pre.length = 3 := by
      have : pre.length < 7 := by omega
      generalize pre.length = n at hop this
      rw [e] at hop
      match n, this with
      | 0, _ => simp [exBody] at hop; subst hop; simp at hk
      | 1, _ => simp [exBody] at hop; subst hop; simp at hk
      | 2, _ => simp [exBody] at hop; subst hop; simp at hk
      | 3, _ => rfl
      | 4, _ => simp [exBody] at hop; subst hop; simp at hk
      | 5, _ => simp [exBody] at hop; subst hop; simp at hk
      | 6, _ => simp [exBody] at hop; subst hop; simp at hk
    have hpre : pre = l.take 3 := by rw [h, ← hidx]; simp
    have hpost : op :: post = l.drop 3 := by rw [h, ← hidx]; simp
    rw [hpost, hpre]
    rw [hidx, e] at hop
    rw [e]
    simp [exBody] at hop
    subst hop
    simp [exBody]
  exact key _ rfl rfl

end Verif.Live
