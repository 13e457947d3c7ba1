import Verif.TempBorrow.Check

/-!
# C79: values that are not counted never outlive what keeps them alive
-/

namespace Verif.TempBorrow

open Verif.Live Verif.RcInsert

section
variable {I : Info} {body : Body} {interm : Nat → Bool} {contract : Nat → Nat → Option Contract} {s : Summaries}
  {own : Option (List Bool)} {consumed : List Nat} {t : Dominance.Tree body.length}

theorem setUp_spec (ht : Dominance.Computes (cfgOf body) t) : SetUp (setUp I body interm contract s own consumed t) I body t s own := by
  obtain ⟨t', h1, -, h3, -⟩ := Dominance.C15_exact (cfgOf body)
  cases Dominance.C15_deterministic _ _ _ ht h1
  exact ⟨⟨rfl, rfl, fun a b h => (h3 a b).1 h⟩, rfl⟩

/-- C79: along every path, whenever a value that the pass decided not to count is used, under its own name or another one,
the object it points to cannot have been freed: it was loaded from an object that was kept alive since then. -/
theorem C79_kept (ht : Dominance.Computes (cfgOf body) t) {c : Config} (hc : c = setUp I body interm contract s own consumed t)
    (hP : Plain c) {fuel : Nat} {l : Live} (hl : liveness c.inp fuel = some l) {p : List Nat} (hp : IsPath body p) {k i : Nat} {op : Op}
    (hon : OnPath body p k i op) {v w : Nat} (hv : v ∈ c.temps ∨ v ∈ c.params) (hw : w ∈ op.operands) (hsame : SameAs body v w) :
    Kept c l p k i v := by
  rcases hv with hv | hv
  swap
  · exact .parameter hv
  have S : SetUp c I body t s own := by rw [hc]; exact setUp_spec ht
  have hbody := S.code
  have hr := plain_regular S hP
  have hs : Ssa body := by have := hP.ssa; rw [hbody] at this; exact this
  have hfirst := hP.first
  rw [hbody] at hfirst
  have F := facts S.inp hr hl
  have step : ∀ v, v ∈ c.temps → (Uses c.inp op v ∨ ∃ w ∈ op.operands, SameAs body v w) →
      ∃ o k0 i0, o ∈ c.inp.ptrs ∧ Uses c.inp op o ∧ BackedSince c l p k i v o k0 i0 :=
    fun v hv hu => backed S.toElided F hr hs hfirst hp hon hv hu
  have key : ∀ k0 i0 v o, BackedSince c l p k i v o k0 i0 → o ∈ c.inp.ptrs → Uses c.inp op o → Kept c l p k i o := by
    intro k0
    induction k0 using Nat.strongRecOn with
    | _ k0 ihk =>
      intro i0
      induction i0 using Nat.strongRecOn with
      | _ i0 ihi =>
        intro v o hB ho hu
        by_cases h1 : o ∈ c.temps
        · obtain ⟨o', k1, i1, h2, h3, hB'⟩ := step o h1 (Or.inl hu)
          have hlt : k1 < k0 ∨ (k1 = k0 ∧ i1 < i0) := by
            obtain ⟨ld, a, g1, g2, g3, g4, g5, g6, g7, g8, g9, g10⟩ := hB
            obtain ⟨ld', a', f1, f2, f3, f4, f5, f6, f7, f8, f9, f10⟩ := hB'
            by_contra hn
            by_cases he : k1 = k0 ∧ i1 = i0
            · obtain ⟨rfl, rfl⟩ := he
              obtain ⟨b1, blk1, x1, x2, x3⟩ := g1
              obtain ⟨b2, blk2, y1, y2, y3⟩ := f1
              rw [x1] at y1
              cases y1
              rw [x2] at y2
              cases y2
              rw [x3] at y3
              cases y3
              rw [g3] at f3
              cases f3
              exact g6 rfl
            · have hE : Earlier k0 i0 k1 i1 := by
                show k0 < k1 ∨ (k0 = k1 ∧ i0 < i1)
                omega
              exact (g8 k1 i1 ld' f1 hE f7).2 (by simp [f3])
          refine .loaded hB' ?_
          rcases hlt with h | ⟨rfl, h⟩
          · exact ihk k1 h i1 o o' hB' h2 h3
          · exact ihi i1 h o o' hB' h2 h3
        · by_cases h2 : o ∈ c.params
          · exact .parameter h2
          · by_cases h3 : c.interm o = true
            · exact .constructed h3
            · have hO : Owned c o := ⟨ho, h2, h1, by simpa using h3⟩
              obtain ⟨ld, a, g1, g2, g3, g4, g5, g6, g7, g8, g9, g10⟩ := hB
              refine .counted hO (g10 hO k i op (by rw [hbody]; exact hon) g7 ?_)
              rintro (h | ⟨-, h⟩) <;> omega
  obtain ⟨o, k0, i0, h1, h2, h3⟩ := step v hv (Or.inr ⟨w, hw, hsame⟩)
  exact .loaded h3 (key k0 i0 v o h3 h1 h2)

/-- C79: a value that the pass decided not to count is only read through, written through, compared or converted, under
whatever name; or it is handed over by a tail call, for which the pass takes a reference. -/
theorem C79_temporaries_not_stored (ht : Dominance.Computes (cfgOf body) t) {c : Config}
    (hc : c = setUp I body interm contract s own consumed t) (hP : Plain c) {v w : Nat} (hv : v ∈ c.temps) (hsame : SameAs body v w)
    {b i j : Nat} {blk : Block} {op : Op} (hb : body[b]? = some blk) (ho : blk.ops[i]? = some op) (hj : op.operands[j]? = some w) :
    Harmless op j ∨ ∃ ct, contract b i = some ct ∧ ct.isTail = true ∧
      ct.actions[j - (if ct.isIndirect then 1 else 0)]? = some .transfer ∧ (ct.isIndirect = true → j ≠ 0) := by
  have S : SetUp c I body t s own := by rw [hc]; exact setUp_spec ht
  have hbody := S.code
  have hcc : c.contract = contract := by rw [hc]; rfl
  have hct : ∀ b i op, IsAt body b i op → op.kind = .cast → c.contract b i = none := by
    intro b i op hat hkind
    cases h : c.contract b i with
    | none => rfl
    | some ct =>
      rcases hP.contracts b i op ct (by rw [At, hbody]; exact hat) h with ⟨-, h | h⟩ | ⟨-, h | h⟩ <;> (rw [h] at hkind; cases hkind)
  rw [S.temps] at hv
  obtain ⟨lb, li, ld, o, as, V, hT⟩ := mem_borrowed hv
  have hwV : w ∈ V := by
    clear hj
    induction hsame with
    | refl => exact hT.proven.self
    | tail _ h ih =>
      obtain ⟨blk, hb, o', ho', h1, h2, h3⟩ := h
      obtain ⟨b', hb'⟩ := List.mem_iff_getElem?.1 hb
      obtain ⟨i', hi'⟩ := List.mem_iff_getElem?.1 ho'
      exact temp_step hT hct ih ⟨blk, hb', hi'⟩ h1 h2 h3
  obtain ⟨-, -, hg⟩ := hT.proven.good w hwV ⟨b, i, j, op⟩ (mem_usesOf.2 ⟨⟨blk, hb, ho⟩, hj⟩)
  rcases hg with ⟨a, ea, -⟩ | ⟨-, hok⟩
  · obtain ⟨h1, h2, h3, h4⟩ := castAlias_spec ea
    exact Or.inl (Or.inr (Or.inr (Or.inr ⟨h1, h2, by obtain ⟨x, hx⟩ := h4; simp at hx; simp [hx], by simp at h3; simp [h3]⟩)))
  · simp only [useOk] at hok
    rw [hcc] at hok
    split at hok
    · rename_i hk; exact Or.inl (Or.inl ⟨hk, by simpa using hok⟩)
    · rename_i hk; exact Or.inl (Or.inr (Or.inl ⟨hk, by simpa using hok⟩))
    · split at hok
      · rename_i ct hct'
        split at hok
        · rename_i hcond
          exact Or.inr ⟨ct, hct', hcond.1, by simpa using hok, fun h1 h2 => hcond.2 ⟨h1, h2⟩⟩
        · exact Or.inl (Or.inr (Or.inr (Or.inl (by simpa using hok))))
      · exact Or.inl (Or.inr (Or.inr (Or.inl (by simpa using hok))))

/-- C79: a parameter that the pass does not count is only read through, written through, compared or converted, under
whatever name, or passed to a function whose summary says that it borrows that argument too. -/
theorem C79_parameters_not_stored (ht : Dominance.Computes (cfgOf body) t) {c : Config}
    (hc : c = setUp I body interm contract s own consumed t) {v w : Nat} (hv : v ∈ c.params) (hsame : SameAs body v w)
    {b i j : Nat} {blk : Block} {op : Op} (hb : body[b]? = some blk) (ho : blk.ops[i]? = some op) (hj : op.operands[j]? = some w) :
    Harmless op j ∨ (op.kind = .call ∧ ∃ g summary, s.callee b i = some g ∧ s.borrowed g = some summary ∧ summary[j]? = some true) := by
  have S : SetUp c I body t s own := by rw [hc]; exact setUp_spec ht
  rw [S.params] at hv
  obtain ⟨-, -, V, hV, hg⟩ := param_spec (List.mem_filter.1 hv).1
  have hwV : w ∈ V := by
    clear hj
    induction hsame with
    | refl => exact hV
    | tail _ h ih =>
      obtain ⟨blk, hb, o', ho', h1, h2, h3⟩ := h
      obtain ⟨b', hb'⟩ := List.mem_iff_getElem?.1 hb
      obtain ⟨i', hi'⟩ := List.mem_iff_getElem?.1 ho'
      exact param_step hg ih ⟨blk, hb', hi'⟩ h1 h2 h3
  have h := hg w hwV ⟨b, i, j, op⟩ (mem_usesOf.2 ⟨⟨blk, hb, ho⟩, hj⟩)
  simp only [GoodParamUse, paramUse] at h
  cases hk : op.kind
  case call =>
    rw [hk] at h
    simp only [calleeBorrows, beq_iff_eq, Option.bind_eq_some_iff] at h
    obtain ⟨g, h1, summary, h2, h3⟩ := h
    exact Or.inr ⟨rfl, g, summary, h1, h2, h3⟩
  case load =>
    rw [hk] at h
    by_cases h0 : j = 0
    · exact Or.inl (Or.inl ⟨hk, h0⟩)
    · simp [h0] at h
  case store =>
    rw [hk] at h
    by_cases h0 : j = 1
    · exact Or.inl (Or.inr (Or.inl ⟨hk, h0⟩))
    · simp [h0] at h
  case icmp => exact Or.inl (Or.inr (Or.inr (Or.inl hk)))
  case cast =>
    rw [hk] at h
    cases ea : castAlias ⟨b, i, j, op⟩ with
    | none => simp [ea] at h
    | some a =>
      obtain ⟨h1, h2, h3, h4⟩ := castAlias_spec ea
      exact Or.inl (Or.inr (Or.inr (Or.inr ⟨h1, h2, by obtain ⟨x, hx⟩ := h4; simp at hx; simp [hx], by simp at h3; simp [h3]⟩)))
  all_goals (rw [hk] at h; exact h.elim)

/-- C79: with what the analyses found, the counts never go wrong, whatever path the function takes. -/
theorem C79_safe (ht : Dominance.Computes (cfgOf body) t) {c : Config} (hc : c = setUp I body interm contract s own consumed t)
    (hP : Plain c) {fuel : Nat} {l : Live} (hl : liveness c.inp fuel = some l) {p : List Nat} (hp : IsPath body p) :
    (runPath c l p (initial c)).isSome := by
  have S : SetUp c I body t s own := by rw [hc]; exact setUp_spec ht
  exact C23_safe_partial S.inp hl (plain_regular S hP) hp

/-- C79: and nothing is leaked where control flow does not split. -/
theorem C79_straight_partial (ht : Dominance.Computes (cfgOf body) t) {c : Config}
    (hc : c = setUp I body interm contract s own consumed t) (hP : Plain c) (hT : PlainTidy c) {fuel : Nat} {l : Live}
    (hl : liveness c.inp fuel = some l) {q : List Nat} {b : Nat} {blk : Block} (hp : IsPath body (q ++ [b]))
    (hone : ∀ x ∈ q, ∀ xb, body[x]? = some xb → ∃ s, succsOf xb = [s]) (hb : body[b]? = some blk) (hend : succsOf blk = []) :
    ∃ own, runPath c l (q ++ [b]) (initial c) = some own ∧ ∀ v ∈ c.inp.ptrs, own v = 0 := by
  have S : SetUp c I body t s own := by rw [hc]; exact setUp_spec ht
  exact C23_straight_partial S.inp hl (plain_regular S hP) (plain_tidy S hP hT) hp hone hb hend

end

/-! ## Example

`bb0(1, 2): 3 = load 1; 10 = 2 + offset; 4 = load 10; 5 = cast 4; 9 = icmp 3 5; brif 9 [bb1, bb2]`,
`bb1: 7 = load 5; 8 = load 7 (an integer); return 8`, `bb2: call 1 (borrows it); return 2`.  Parameter 1 is borrowed; 3, 4
and 7 are not counted: 3 was loaded from the parameter 1, 4 from 2, and 7 from 4. -/

def exInfo : Info := ⟨fun v => [1, 2, 3, 4, 5, 7].contains v, fun _ => false, fun v => v == 6 || v == 8⟩

def exBody : Body :=
  [⟨[1, 2], [⟨.load, [1], [3], []⟩, ⟨.iadd, [2], [10], []⟩, ⟨.load, [10], [4], []⟩, ⟨.cast, [4], [5], []⟩,
     ⟨.icmp, [3, 5], [9], []⟩, ⟨.brif, [9], [], [1, 2]⟩]⟩,
   ⟨[], [⟨.load, [5], [7], []⟩, ⟨.load, [7], [8], []⟩, ⟨.ret, [8], [], []⟩]⟩,
   ⟨[], [⟨.call, [1], [], []⟩, ⟨.ret, [2], [], []⟩]⟩]

def exContract : Nat → Nat → Option Contract := fun b i => if b = 2 ∧ i = 0 then some ⟨[.borrowed], false, false⟩ else none

def exSum : Summaries := ⟨fun b i => if b = 2 ∧ i = 0 then some 0 else none, fun g => if g = 0 then some [true] else none⟩

instance : NeZero exBody.length := ⟨by decide⟩

def exTree : Dominance.Tree exBody.length := ⟨Finset.univ, fun b => some {0, b}, true⟩

def exC : Config := setUp exInfo exBody (fun _ => false) exContract exSum (some [true, false]) [2] exTree

theorem exPaths : ∀ b p, Dominance.PathTo (cfgOf exBody) b p → (b = 0 ∧ p = [0]) ∨ (b ≠ 0 ∧ p = [b, 0]) := by
  intro b p hp
  induction hp with
  | start b h =>
    left
    have : b = 0 := by
      apply Fin.ext
      simpa [Dominance.entry, exBody, Fin.ext_iff, eq_comm] using h
    exact ⟨this, by rw [this]⟩
  | @step b c p hp hs ih =>
    right
    have key : ∀ b c : Fin exBody.length, some c ∈ (cfgOf exBody).succs b → b = 0 ∧ c ≠ 0 := by decide +kernel
    obtain ⟨rfl, h2⟩ := key b c hs
    rcases ih with ⟨-, rfl⟩ | ⟨h, -⟩
    · exact ⟨h2, rfl⟩
    · exact absurd rfl h

theorem exComputes : Dominance.Computes (cfgOf exBody) exTree := by
  have h0 : Dominance.PathTo (cfgOf exBody) 0 [0] := .start 0 rfl
  have hr : ∀ b, Dominance.Reachable (cfgOf exBody) b := by
    have key : ∀ b : Fin exBody.length, b = 0 ∨ some b ∈ (cfgOf exBody).succs 0 := by decide +kernel
    intro b
    rcases key b with rfl | h
    · exact ⟨_, h0⟩
    · exact ⟨_, h0.step h⟩
  refine computes_of hr ?_ (by decide +kernel)
  intro a b
  constructor
  · intro h
    refine ⟨hr b, fun p hp => ?_⟩
    simp only [Finset.mem_insert, Finset.mem_singleton] at h
    rcases exPaths b p hp with ⟨rfl, rfl⟩ | ⟨-, rfl⟩ <;> rcases h with rfl | rfl <;> simp
  · intro h
    obtain ⟨p, hp⟩ := hr b
    have := h.2 p hp
    rcases exPaths b p hp with ⟨rfl, rfl⟩ | ⟨-, rfl⟩ <;> simp_all
    tauto

def exLive : Live :=
  match liveness exC.inp 9 with
  | some l => l
  | none => start

theorem exLive_eq : liveness exC.inp 9 = some exLive := by
  have : (liveness exC.inp 9).isSome = true := by decide +kernel
  simp only [exLive]
  cases h : liveness exC.inp 9 with
  | none => rw [h] at this; cases this
  | some l => rfl

theorem exRegular : Regular exC :=
  regular_of rfl exLive_eq (interms := []) (fun _ h => by cases h)
    ⟨by decide +kernel, by decide +kernel, by decide +kernel, by decide +kernel, by decide +kernel, by decide +kernel,
     by decide +kernel, by decide +kernel, by decide +kernel, by decide +kernel, by decide +kernel, by decide +kernel,
     by decide +kernel⟩

theorem exTidy : Tidy exC :=
  tidy_of (interms := []) (fun _ h => by cases h)
    ⟨by decide +kernel, by decide +kernel, by decide +kernel, by decide +kernel, by decide +kernel, by decide +kernel,
     by decide +kernel, by decide +kernel, by decide +kernel⟩

theorem exPlain : Plain exC := by
  have h : ((liveness (analyse exInfo exBody []) 9).map (fun l => decide (∀ v ∈ exC.inp.ptrs, v ∉ l.liveIn 0))) = some true := by decide +kernel
  cases hl : liveness (analyse exInfo exBody []) 9 with
  | none => rw [hl] at h; cases h
  | some l =>
    rw [hl] at h
    simp only [Option.map_some, Option.some.injEq, decide_eq_true_eq] at h
    exact plain_of rfl exRegular exTidy hl h

/-- What the analyses find, and what the pass then makes of the function: in the first block only the parameter 2, which
the function owns, would be counted. -/
example : exC.params = [1] ∧ exC.temps = [7, 4, 3] ∧ exC.inp.deps = [(7, 4), (5, 2), (4, 2), (3, 1)] ∧
    insertBlock exC exLive 1 exBody[1] =
      [.op 0 ⟨.load, [5], [7], []⟩, .op 1 ⟨.load, [7], [8], []⟩, .release 2, .op 2 ⟨.ret, [8], [], []⟩] := by decide +kernel

/-- The theorem, where 7 is used: 7 was loaded from 4, which was loaded from 2, to which the function holds a reference. -/
example : Kept exC exLive [0, 1] 1 1 7 :=
  C79_kept exComputes rfl exPlain exLive_eq (p := [0, 1]) (.step (p := []) .entry (show exBody[0]? = some _ from rfl) (by decide))
    (op := ⟨.load, [7], [8], []⟩) ⟨1, _, rfl, rfl, rfl⟩ (w := 7) (Or.inl (by decide +kernel)) (by decide) .refl

/-- The reference to 2 is there before that use, and given back after it. -/
example : (ledgerAt exC exLive [0, 1] 1 1).map (· 2) = some 1 ∧ (ledgerAt exC exLive [0, 1] 1 2).map (· 2) = some 0 := by
  decide +kernel

/-- The other theorems, for the uses of the temporary 4 under the name 5 and of the parameter 1. -/
example : Harmless (⟨.load, [5], [7], []⟩ : Op) 0 ∧ exSum.borrowed 0 = some [true] ∧ (runPath exC exLive [0, 1] (initial exC)).isSome := by
  refine ⟨?_, rfl, C79_safe exComputes rfl exPlain exLive_eq (.step (p := []) .entry (show exBody[0]? = some _ from rfl) (by decide))⟩
  rcases C79_temporaries_not_stored exComputes rfl exPlain (v := 4) (w := 5) (by decide +kernel)
    (.single ⟨_, List.mem_cons_self, ⟨.cast, [4], [5], []⟩, by decide, rfl, rfl, by decide⟩)
    (b := 1) (i := 0) (j := 0) (show exBody[1]? = some _ from rfl) rfl rfl with h | ⟨ct, h, -⟩
  · exact h
  · cases h

example : ∃ g summary, exSum.callee 2 0 = some g ∧ exSum.borrowed g = some summary ∧ summary[0]? = some true := by
  rcases C79_parameters_not_stored (c := exC) exComputes rfl (v := 1) (w := 1) (by decide +kernel) .refl
    (b := 2) (i := 0) (j := 0) (show exBody[2]? = some _ from rfl) rfl rfl with h | ⟨-, h⟩
  · simp [Harmless] at h
  · exact h

/-- A single block: `bb0(2): 4 = load 2; 8 = load 4 (an integer); return 8`. -/
def lineInfo : Info := ⟨fun v => [2, 4].contains v, fun _ => false, fun v => v == 8⟩

def lineBody : Body := [⟨[2], [⟨.load, [2], [4], []⟩, ⟨.load, [4], [8], []⟩, ⟨.ret, [8], [], []⟩]⟩]

instance : NeZero lineBody.length := ⟨by decide⟩

def lineTree : Dominance.Tree lineBody.length := ⟨Finset.univ, fun _ => some {0}, true⟩

def lineC : Config := setUp lineInfo lineBody (fun _ => false) (fun _ _ => none) exSum none [] lineTree

theorem lineComputes : Dominance.Computes (cfgOf lineBody) lineTree := by
  have h0 : Dominance.PathTo (cfgOf lineBody) 0 [0] := .start 0 rfl
  have hz : ∀ b : Fin lineBody.length, b = 0 := by decide
  refine computes_of (fun b => ⟨[0], by rw [hz b]; exact h0⟩) ?_ (by decide +kernel)
  intro a b
  rw [hz a, hz b]
  refine ⟨fun _ => ⟨⟨_, h0⟩, fun p hp => ?_⟩, fun _ => by simp⟩
  cases hp <;> simp

def lineLive : Live :=
  match liveness lineC.inp 9 with
  | some l => l
  | none => start

theorem lineLive_eq : liveness lineC.inp 9 = some lineLive := by
  have : (liveness lineC.inp 9).isSome = true := by decide +kernel
  simp only [lineLive]
  cases h : liveness lineC.inp 9 with
  | none => rw [h] at this; cases this
  | some l => rfl

theorem lineRegular : Regular lineC :=
  regular_of rfl lineLive_eq (interms := []) (fun _ h => by cases h)
    ⟨by decide +kernel, by decide +kernel, by decide +kernel, by decide +kernel, by decide +kernel, by decide +kernel,
     by decide +kernel, by decide +kernel, by decide +kernel, by decide +kernel, by decide +kernel, by decide +kernel,
     by decide +kernel⟩

theorem lineTidy : Tidy lineC :=
  tidy_of (interms := []) (fun _ h => by cases h)
    ⟨by decide +kernel, by decide +kernel, by decide +kernel, by decide +kernel, by decide +kernel, by decide +kernel,
     by decide +kernel, by decide +kernel, by decide +kernel⟩

theorem linePlain : Plain lineC := by
  have h : ((liveness (analyse lineInfo lineBody []) 9).map (fun l => decide (∀ v ∈ lineC.inp.ptrs, v ∉ l.liveIn 0))) = some true := by
    decide +kernel
  cases hl : liveness (analyse lineInfo lineBody []) 9 with
  | none => rw [hl] at h; cases h
  | some l =>
    rw [hl] at h
    simp only [Option.map_some, Option.some.injEq, decide_eq_true_eq] at h
    exact plain_of rfl lineRegular lineTidy hl h

example : lineC.temps = [4] ∧ ∃ own, runPath lineC lineLive [0] (initial lineC) = some own ∧ ∀ v ∈ lineC.inp.ptrs, own v = 0 :=
  ⟨by decide +kernel, C79_straight_partial lineComputes rfl linePlain (plainTidy_of lineTidy) lineLive_eq (q := []) .entry (by simp) rfl rfl⟩

end Verif.TempBorrow
