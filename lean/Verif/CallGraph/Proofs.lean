import Verif.CallGraph.Spec
import Mathlib.Tactic.ByContra
import Mathlib.Tactic.Push
import Mathlib.Tactic.Tauto
/-!
# Proof of Tarjan's algorithm
-/
namespace Verif.CallGraph
open Relation

theorem upd_same {α : Type} (f : Sym → α) (k : Sym) (a : α) : upd f k a k = a := by simp [upd]
theorem upd_ne {α : Type} (f : Sym → α) {k x : Sym} (a : α) (h : x ≠ k) : upd f k a x = f x := by
  simp [upd, h]

/-- The invariant; `gray` are the functions whose `strongconnect` call is in progress. -/
structure Inv (g : Graph) (gray : Sym → Prop) (s : State) : Prop where
  visited : ∀ x, s.index x ≠ none ↔ (x ∈ s.stack ∨ s.sccId x ≠ none)
  disj : ∀ x ∈ s.stack, s.sccId x = none
  onStack : ∀ x, s.onStack x = true ↔ x ∈ s.stack
  sorted : s.stack.Pairwise (fun a b => ∃ i j, s.index a = some i ∧ s.index b = some j ∧ j < i)
  bound : ∀ x i, s.index x = some i → i < s.nextIndex
  funcs : ∀ x, s.index x ≠ none → x ∈ g.funcs
  grayStack : ∀ x, gray x → x ∈ s.stack
  black : ∀ x y, s.index x ≠ none → ¬ gray x → Calls g x y → s.index y ≠ none
  up : ∀ x ∈ s.stack, ∀ y ∈ s.stack, ∀ i j, s.index x = some i → s.index y = some j → i ≤ j →
    Reaches g x y
  down : ∀ y ∈ s.stack, ∃ x, gray x ∧ Reaches g y x ∧
    ∃ i j, s.index x = some i ∧ s.index y = some j ∧ i ≤ j
  sccBound : ∀ x k, s.sccId x = some k → k < s.nextScc
  scc : ∀ x k, s.sccId x = some k → ∀ y, s.sccId y = some k ↔ (Reaches g x y ∧ Reaches g y x)
  sccClosed : ∀ x y, s.sccId x ≠ none → Calls g x y → s.sccId y ≠ none

theorem Inv.stackIndex {g : Graph} {gray s} (h : Inv g gray s) {x : Sym} (hx : x ∈ s.stack) :
    ∃ i, s.index x = some i := Option.ne_none_iff_exists'.mp ((h.visited x).2 (Or.inl hx))

theorem Inv.lowlt {g : Graph} {gray s} (h : Inv g gray s) {pre rest : List Sym} {v : Sym}
    (hs : s.stack = pre ++ v :: rest) {x : Sym} (hx : x ∈ rest) {i j : Nat}
    (hi : s.index x = some i) (hj : s.index v = some j) : i < j := by
  have h1 := h.sorted
  rw [hs, List.pairwise_append] at h1
  have h2 := (List.pairwise_cons.mp h1.2.1).1 x hx
  obtain ⟨a, b, ha, hb, hlt⟩ := h2
  rw [hj] at ha; rw [hi] at hb
  cases ha; cases hb; exact hlt

theorem Inv.highgt {g : Graph} {gray s} (h : Inv g gray s) {pre rest : List Sym} {v : Sym}
    (hs : s.stack = pre ++ v :: rest) {x : Sym} (hx : x ∈ pre) {i j : Nat}
    (hi : s.index x = some i) (hj : s.index v = some j) : j < i := by
  have h1 := h.sorted
  rw [hs, List.pairwise_append] at h1
  have h2 := h1.2.2 x hx v (by simp)
  obtain ⟨a, b, ha, hb, hlt⟩ := h2
  rw [hi] at ha; rw [hj] at hb
  cases ha; cases hb; exact hlt

/-- What a piece of the algorithm leaves alone. -/
structure Extends (s s' : State) : Prop where
  index : ∀ x i, s.index x = some i → s'.index x = some i
  scc : ∀ x k, s.sccId x = some k → s'.sccId x = some k

theorem Extends.refl (s : State) : Extends s s := ⟨fun _ _ h => h, fun _ _ h => h⟩
theorem Extends.trans {a b c : State} (h : Extends a b) (h' : Extends b c) : Extends a c :=
  ⟨fun x i hx => h'.index x i (h.index x i hx), fun x i hx => h'.scc x i (h.scc x i hx)⟩
theorem Extends.visited {a b : State} (h : Extends a b) {x : Sym} (hx : a.index x ≠ none) :
    b.index x ≠ none := by
  obtain ⟨i, hi⟩ := Option.ne_none_iff_exists'.mp hx
  rw [h.index x i hi]; simp

/-- Result of `strongconnect v` from `s`. -/
structure Post (g : Graph) (gray : Sym → Prop) (v : Sym) (s s' : State) : Prop where
  inv : Inv g gray s'
  ext : Extends s s'
  idx : s'.index v = some s.nextIndex
  low : ∀ x, s.index x ≠ none → s'.lowlink x = s.lowlink x
  res : ∃ pre l, s'.stack = pre ++ s.stack ∧ s'.lowlink v = some l ∧ l ≤ s.nextIndex ∧
    (l = s.nextIndex ∨ ∃ u ∈ s'.stack, s'.index u = some l ∧ Reaches g v u) ∧
    (∀ y ∈ pre, ∀ x ∈ s.stack, Calls g y x → ∀ i, s.index x = some i → l ≤ i)

/-- Invariant of the loop over the successors of `v`; `s0` is the state on entry of `strongconnect`. -/
structure Loop (g : Graph) (gray : Sym → Prop) (v : Sym) (s0 s : State) (done : Sym → Prop) : Prop where
  inv : Inv g (fun x => gray x ∨ x = v) s
  ext : Extends s0 s
  idx : s.index v = some s0.nextIndex
  low : ∀ x, s0.index x ≠ none → s.lowlink x = s0.lowlink x
  visited : ∀ w, Calls g v w → done w → s.index w ≠ none
  res : ∃ pre l, s.stack = pre ++ v :: s0.stack ∧ s.lowlink v = some l ∧ l ≤ s0.nextIndex ∧
    (l = s0.nextIndex ∨ ∃ u ∈ s.stack, s.index u = some l ∧ Reaches g v u) ∧
    (∀ y ∈ pre, ∀ x ∈ s0.stack, Calls g y x → ∀ i, s0.index x = some i → l ≤ i) ∧
    (∀ x ∈ s0.stack, Calls g v x → done x → ∀ i, s0.index x = some i → l ≤ i)

/-- Pushing a new function establishes the loop invariant. -/
theorem loop_enter {g : Graph} {gray : Sym → Prop} {v : Sym} {s : State} (h : Inv g gray s)
    (hv : v ∈ g.funcs) (hnew : s.index v = none) (hreach : ∀ x, gray x → Reaches g x v) :
    Loop g gray v s (enter v s) (fun _ => False) := by
  have hvs : v ∉ s.stack := fun hm => by
    have := (h.visited v).2 (Or.inl hm); exact this hnew
  have hvc : s.sccId v = none := by
    by_contra hc; exact ((h.visited v).2 (Or.inr hc)) hnew
  have hne : ∀ x ∈ s.stack, x ≠ v := fun x hx he => hvs (he ▸ hx)
  have hall : ∀ x ∈ s.stack, Reaches g x v := by
    intro x hx
    obtain ⟨y, hy, hr, _⟩ := h.down x hx
    exact hr.trans (hreach y hy)
  refine ⟨?_, ?_, ?_, ?_, ?_, ?_⟩
  · constructor
    · intro x
      by_cases hx : x = v
      · subst hx; simp [enter, upd]
      · have := h.visited x
        simp only [enter, upd, hx, if_false, List.mem_cons, false_or]; exact this
    · intro x hx
      rcases List.mem_cons.mp hx with rfl | hx
      · exact hvc
      · exact h.disj x hx
    · intro x
      by_cases hx : x = v
      · subst hx; simp [enter, upd]
      · have := h.onStack x
        simp only [enter, upd, hx, if_false, List.mem_cons, false_or]; exact this
    · show (v :: s.stack).Pairwise _
      rw [List.pairwise_cons]
      constructor
      · intro x hx
        obtain ⟨i, hi⟩ := h.stackIndex hx
        exact ⟨s.nextIndex, i, by simp [enter, upd], by simp [enter, upd, hne x hx, hi], h.bound x i hi⟩
      · refine h.sorted.imp_of_mem ?_
        rintro a b ha hb ⟨i, j, hi, hj, hlt⟩
        exact ⟨i, j, by simp [enter, upd, hne a ha, hi], by simp [enter, upd, hne b hb, hj], hlt⟩
    · intro x i hx
      by_cases he : x = v
      · subst he; simp [enter, upd] at hx; show i < s.nextIndex + 1; omega
      · simp [enter, upd, he] at hx
        have := h.bound x i hx; show i < s.nextIndex + 1; omega
    · intro x hx
      by_cases he : x = v
      · subst he; exact hv
      · simp only [enter, upd, he, if_false] at hx; exact h.funcs x hx
    · rintro x (hx | rfl)
      · exact List.mem_cons_of_mem _ (h.grayStack x hx)
      · exact List.mem_cons_self
    · intro x y hx hg hc
      have hxv : x ≠ v := fun he => hg (Or.inr he)
      simp only [enter, upd, hxv, if_false] at hx
      have := h.black x y hx (fun hgr => hg (Or.inl hgr)) hc
      by_cases he : y = v
      · subst he; simp [enter, upd]
      · simp only [enter, upd, he, if_false]; exact this
    · intro x hx y hy i j hi hj hij
      rcases List.mem_cons.mp hx with rfl | hx'
      · rcases List.mem_cons.mp hy with rfl | hy'
        · exact ReflTransGen.refl
        · exfalso
          simp [enter, upd] at hi
          simp [enter, upd, hne y hy'] at hj
          have := h.bound y j hj; omega
      · rcases List.mem_cons.mp hy with rfl | hy'
        · exact hall x hx'
        · simp [enter, upd, hne x hx'] at hi
          simp [enter, upd, hne y hy'] at hj
          exact h.up x hx' y hy' i j hi hj hij
    · intro y hy
      rcases List.mem_cons.mp hy with rfl | hy'
      · exact ⟨y, Or.inr rfl, ReflTransGen.refl, s.nextIndex, s.nextIndex, by simp [enter, upd],
          by simp [enter, upd], Nat.le_refl _⟩
      · obtain ⟨x, hx, hr, i, j, hi, hj, hij⟩ := h.down y hy'
        have hxs := h.grayStack x hx
        exact ⟨x, Or.inl hx, hr, i, j, by simp [enter, upd, hne x hxs, hi],
          by simp [enter, upd, hne y hy', hj], hij⟩
    · exact h.sccBound
    · exact h.scc
    · exact h.sccClosed
  · refine ⟨fun x i hx => ?_, fun x k hx => hx⟩
    have : x ≠ v := fun he => by rw [he, hnew] at hx; cases hx
    simp [enter, upd, this, hx]
  · simp [enter, upd]
  · intro x hx
    have : x ≠ v := fun he => by rw [he] at hx; exact hx hnew
    simp [enter, upd, this]
  · intro w _ hf; exact hf.elim
  · exact ⟨[], s.nextIndex, by simp [enter], by simp [enter, upd], Nat.le_refl _, Or.inl rfl,
      fun y hy => by simp at hy, fun _ _ _ hf => hf.elim⟩

theorem Loop.v_mem {g : Graph} {gray : Sym → Prop} {v : Sym} {s0 s : State} {done}
    (h : Loop g gray v s0 s done) : v ∈ s.stack := h.inv.grayStack v (Or.inr rfl)

theorem Loop.v_func {g : Graph} {gray : Sym → Prop} {v : Sym} {s0 s : State} {done}
    (h : Loop g gray v s0 s done) : v ∈ g.funcs := h.inv.funcs v (by rw [h.idx]; simp)

/-- Every function in progress reaches the innermost one. -/
theorem Loop.gray_reach {g : Graph} {gray : Sym → Prop} {v : Sym} {s0 s : State} {done}
    (h : Loop g gray v s0 s done) (hg : ∀ x, gray x → x ∈ s0.stack) :
    ∀ x, (gray x ∨ x = v) → Reaches g x v := by
  rintro x (hx | rfl)
  · obtain ⟨pre, l, hs, _⟩ := h.res
    have hx0 := hg x hx
    have hxs : x ∈ s.stack := by rw [hs]; simp [hx0]
    obtain ⟨i, hi⟩ := h.inv.stackIndex hxs
    have := h.inv.lowlt hs hx0 hi h.idx
    exact h.inv.up x hxs v h.v_mem i _ hi h.idx (Nat.le_of_lt this)
  · exact ReflTransGen.refl

/-- The lowlink map is irrelevant to the invariant. -/
theorem Inv.setLow {g : Graph} {gray s} (h : Inv g gray s) (f : Sym → Option Nat) :
    Inv g gray { s with lowlink := f } :=
  ⟨h.visited, h.disj, h.onStack, h.sorted, h.bound, h.funcs, h.grayStack, h.black, h.up, h.down,
    h.sccBound, h.scc, h.sccClosed⟩

/-- Skipping an external callee. -/
theorem loop_external {g : Graph} {gray : Sym → Prop} {v w : Sym} {s0 s : State} {done}
    (h : Loop g gray v s0 s done) (hw : w ∉ g.funcs) :
    Loop g gray v s0 s (fun x => done x ∨ x = w) := by
  obtain ⟨pre, l, hs, hl, hle, hat, hp, hd⟩ := h.res
  refine ⟨h.inv, h.ext, h.idx, h.low, ?_, pre, l, hs, hl, hle, hat, hp, ?_⟩
  · rintro x hc (hx | rfl)
    · exact h.visited x hc hx
    · exact absurd hc.2.2 hw
  · rintro x hx hc (hx' | rfl)
    · exact hd x hx hc hx'
    · exact absurd hc.2.2 hw

/-- A visited callee that is no longer on the stack. -/
theorem loop_finished {g : Graph} {gray : Sym → Prop} {v w : Sym} {s0 s : State} {done}
    (h : Loop g gray v s0 s done) (hw : s.index w ≠ none) (ho : s.onStack w ≠ true) :
    Loop g gray v s0 s (fun x => done x ∨ x = w) := by
  obtain ⟨pre, l, hs, hl, hle, hat, hp, hd⟩ := h.res
  refine ⟨h.inv, h.ext, h.idx, h.low, ?_, pre, l, hs, hl, hle, hat, hp, ?_⟩
  · rintro x hc (hx | rfl)
    · exact h.visited x hc hx
    · exact hw
  · rintro x hx hc (hx' | rfl)
    · exact hd x hx hc hx'
    · exact absurd ((h.inv.onStack x).2 (by rw [hs]; simp [hx])) ho

/-- A callee on the stack. -/
theorem loop_onStack {g : Graph} {gray : Sym → Prop} {v w : Sym} {s0 s : State} {done}
    (h : Loop g gray v s0 s done) (hc : Calls g v w) {i : Nat} (hw : s.index w = some i)
    (ho : s.onStack w = true) (hv0 : s0.index v = none) :
    ∃ s', lowerTo v i s = some s' ∧ s'.index = s.index ∧
      Loop g gray v s0 s' (fun x => done x ∨ x = w) := by
  obtain ⟨pre, l, hs, hl, hle, hat, hp, hd⟩ := h.res
  refine ⟨{ s with lowlink := upd s.lowlink v (some (min l i)) }, by simp [lowerTo, hl], rfl, ?_⟩
  refine ⟨h.inv.setLow _, ⟨h.ext.index, h.ext.scc⟩, h.idx, ?_, ?_, pre, min l i, hs, upd_same _ _ _, by omega, ?_, ?_, ?_⟩
  · intro x hx
    have : x ≠ v := fun he => by rw [he] at hx; exact hx hv0
    show upd s.lowlink v _ x = _
    rw [upd_ne _ _ this]; exact h.low x hx
  · rintro x hcx (hx | rfl)
    · exact h.visited x hcx hx
    · show s.index x ≠ none; rw [hw]; simp
  · rcases Nat.le_total l i with hli | hli
    · rw [Nat.min_eq_left hli]; exact hat
    · rw [Nat.min_eq_right hli]
      exact Or.inr ⟨w, (h.inv.onStack w).1 ho, hw, ReflTransGen.single hc⟩
  · intro y hy x hx hcx j hj
    have := hp y hy x hx hcx j hj; omega
  · rintro x hx hcx (hx' | rfl) j hj
    · have := hd x hx hcx hx' j hj; omega
    · have := h.ext.index x j hj
      rw [hw] at this; cases this; omega

/-- A callee visited for the first time. -/
theorem loop_call {g : Graph} {gray : Sym → Prop} {v w : Sym} {s0 s s1 : State} {done}
    (h : Loop g gray v s0 s done) (hc : Calls g v w) (hw : s.index w = none)
    (hv0 : s0.index v = none)
    (hpost : Post g (fun x => gray x ∨ x = v) w s s1) :
    ∃ wl s', s1.lowlink w = some wl ∧ lowerTo v wl s1 = some s' ∧ s'.index = s1.index ∧
      Loop g gray v s0 s' (fun x => done x ∨ x = w) := by
  obtain ⟨pre, l, hs, hl, hle, hat, hp, hd⟩ := h.res
  obtain ⟨pre', wl, hs', hwl, hwle, hwat, hwp⟩ := hpost.res
  have hl1 : s1.lowlink v = some l := by
    rw [hpost.low v (by rw [h.idx]; simp), hl]
  have hvn : s0.nextIndex < s.nextIndex := h.inv.bound v _ h.idx
  have hs1 : s1.stack = (pre' ++ pre) ++ v :: s0.stack := by rw [hs', hs]; simp
  refine ⟨wl, { s1 with lowlink := upd s1.lowlink v (some (min l wl)) }, hwl, by simp [lowerTo, hl1], rfl, ?_⟩
  have hext := h.ext.trans hpost.ext
  refine ⟨hpost.inv.setLow _, ⟨hext.index, hext.scc⟩, hpost.ext.index _ _ h.idx, ?_, ?_,
    pre' ++ pre, min l wl, hs1, upd_same _ _ _, by omega, ?_, ?_, ?_⟩
  · intro x hx
    have : x ≠ v := fun he => by rw [he] at hx; exact hx hv0
    show upd s1.lowlink v _ x = _
    rw [upd_ne _ _ this, hpost.low x (h.ext.visited hx)]; exact h.low x hx
  · rintro x hcx (hx | rfl)
    · exact hpost.ext.visited (h.visited x hcx hx)
    · show s1.index x ≠ none; rw [hpost.idx]; simp
  · rcases Nat.le_total l wl with hli | hli
    · rw [Nat.min_eq_left hli]
      rcases hat with hat | ⟨u, hu, hui, hur⟩
      · exact Or.inl hat
      · exact Or.inr ⟨u, by show u ∈ s1.stack; rw [hs']; simp [hu], hpost.ext.index _ _ hui, hur⟩
    · rw [Nat.min_eq_right hli]
      rcases hwat with hat | ⟨u, hu, hui, hur⟩
      · omega
      · exact Or.inr ⟨u, hu, hui, (ReflTransGen.single hc).trans hur⟩
  · intro y hy x hx hcx j hj
    rcases List.mem_append.mp hy with hy | hy
    · have := hwp y hy x (by rw [hs]; simp [hx]) hcx j (h.ext.index x j hj); omega
    · have := hp y hy x hx hcx j hj; omega
  · rintro x hx hcx (hx' | rfl) j hj
    · have := hd x hx hcx hx' j hj; omega
    · rw [h.ext.index x j hj] at hw; cases hw

/-- The effect of the pop loop. -/
theorem popScc_eq (v : Sym) (id : Nat) : ∀ (pre rest : List Sym) (s : State), v ∉ pre →
    ∃ s', popScc v id (pre ++ v :: rest) s = some s' ∧ s'.stack = rest ∧ s'.index = s.index ∧
      s'.lowlink = s.lowlink ∧ s'.nextIndex = s.nextIndex ∧ s'.nextScc = s.nextScc ∧
      (∀ x, s'.onStack x = if x ∈ pre ∨ x = v then false else s.onStack x) ∧
      (∀ x, s'.sccId x = if x ∈ pre ∨ x = v then some id else s.sccId x)
  | [], rest, s, _ => by
    refine ⟨{ s with stack := rest, onStack := upd s.onStack v false, sccId := upd s.sccId v (some id) },
      by simp [popScc], rfl, rfl, rfl, rfl, rfl, ?_, ?_⟩ <;> intro x <;> simp [upd]
  | w :: pre, rest, s, h => by
    have hw : w ≠ v := fun he => h (by simp [he])
    obtain ⟨s', h1, h2, h3, h4, h5, h6, h7, h8⟩ := popScc_eq v id pre rest
      { s with stack := pre ++ v :: rest, onStack := upd s.onStack w false,
               sccId := upd s.sccId w (some id) } (fun hm => h (by simp [hm]))
    refine ⟨s', ?_, h2, h3, h4, h5, h6, ?_, ?_⟩
    · simp only [List.cons_append, popScc, hw, if_false]; exact h1
    · intro x; rw [h7]
      by_cases hx : x ∈ pre ∨ x = v
      · rw [if_pos hx, if_pos (by rcases hx with hx | hx <;> simp [hx])]
      · rw [if_neg hx]
        by_cases hxw : x = w
        · simp [upd, hxw]
        · rw [if_neg (by push Not at hx; simp [hx, hxw])]; simp [upd, hxw]
    · intro x; rw [h8]
      by_cases hx : x ∈ pre ∨ x = v
      · rw [if_pos hx, if_pos (by rcases hx with hx | hx <;> simp [hx])]
      · rw [if_neg hx]
        by_cases hxw : x = w
        · simp [upd, hxw]
        · rw [if_neg (by push Not at hx; simp [hx, hxw])]; simp [upd, hxw]

/-- A set closed under calls contains everything reachable from it. -/
theorem closed_reach {g : Graph} {P : Sym → Prop} (hP : ∀ a b, P a → Calls g a b → P b) {a b : Sym}
    (h : Reaches g a b) (ha : P a) : P b := by
  induction h with
  | refl => exact ha
  | tail _ hc ih => exact hP _ _ ih hc

/-- Leaving `strongconnect` without closing a component. -/
theorem finish_open {g : Graph} {gray : Sym → Prop} {v : Sym} {s0 s : State} {l : Nat} {pre : List Sym}
    (h : Loop g gray v s0 s (fun x => x ∈ g.edges v)) (hg : ∀ x, gray x → x ∈ s0.stack)
    (hs : s.stack = pre ++ v :: s0.stack) (hl : s.lowlink v = some l) (hlt : l < s0.nextIndex)
    (hat : ∃ u ∈ s.stack, s.index u = some l ∧ Reaches g v u)
    (hp : ∀ y ∈ pre, ∀ x ∈ s0.stack, Calls g y x → ∀ i, s0.index x = some i → l ≤ i)
    (hd : ∀ x ∈ s0.stack, Calls g v x → x ∈ g.edges v → ∀ i, s0.index x = some i → l ≤ i) :
    Post g gray v s0 s := by
  obtain ⟨u, hu, hui, hur⟩ := hat
  have I := h.inv
  refine ⟨⟨I.visited, I.disj, I.onStack, I.sorted, I.bound, I.funcs, ?_, ?_, I.up, ?_, I.sccBound,
    I.scc, I.sccClosed⟩, h.ext, h.idx, h.low, pre ++ [v], l, by simp [hs], hl, by omega, Or.inr ⟨u, hu, hui, hur⟩, ?_⟩
  · intro x hx; rw [hs]; simp [hg x hx]
  · intro x y hx hgx hc
    by_cases he : x = v
    · subst he; exact h.visited y hc hc.2.1
    · exact I.black x y hx (by rintro (h | h); exact hgx h; exact he h) hc
  · intro y hy
    obtain ⟨x, hx, hr, i, j, hi, hj, hij⟩ := I.down y hy
    rcases hx with hx | rfl
    · exact ⟨x, hx, hr, i, j, hi, hj, hij⟩
    · obtain ⟨x', hx', hr', i', j', hi', hj', hij'⟩ := I.down u hu
      rw [hui] at hj'; cases hj'
      rw [h.idx] at hi; cases hi
      rcases hx' with hx' | rfl
      · exact ⟨x', hx', (hr.trans hur).trans hr', i', j, hi', hj, by omega⟩
      · rw [h.idx] at hi'; cases hi'; omega
  · intro y hy x hx hc i hi
    rcases List.mem_append.mp hy with hy | hy
    · exact hp y hy x hx hc i hi
    · rw [List.mem_singleton] at hy; subst hy
      exact hd x hx hc hc.2.1 i hi

/-- Leaving `strongconnect` by closing a component. -/
theorem finish_close {g : Graph} {gray : Sym → Prop} {v : Sym} {s0 s : State} {pre : List Sym}
    (h : Loop g gray v s0 s (fun x => x ∈ g.edges v)) (hg : ∀ x, gray x → x ∈ s0.stack)
    (hs : s.stack = pre ++ v :: s0.stack) (hl : s.lowlink v = some s0.nextIndex)
    (hp : ∀ y ∈ pre, ∀ x ∈ s0.stack, Calls g y x → ∀ i, s0.index x = some i → s0.nextIndex ≤ i)
    (hd : ∀ x ∈ s0.stack, Calls g v x → x ∈ g.edges v → ∀ i, s0.index x = some i → s0.nextIndex ≤ i)
    (hb0 : ∀ x i, s0.index x = some i → i < s0.nextIndex)
    (hi0 : ∀ x ∈ s0.stack, ∃ i, s0.index x = some i) :
    ∃ s', popScc v s.nextScc s.stack { s with nextScc := s.nextScc + 1 } = some s' ∧
      s'.index = s.index ∧ Post g gray v s0 s' := by
  have I := h.inv
  have hvpre : v ∉ pre := fun hm => by
    have := I.highgt hs hm h.idx h.idx; omega
  have hvrest : v ∉ s0.stack := fun hm => by
    have := I.lowlt hs hm h.idx h.idx; omega
  have hdisj : ∀ x ∈ s0.stack, ¬ (x ∈ pre ∨ x = v) := by
    rintro x hx (hm | rfl)
    · obtain ⟨i, hi⟩ := I.stackIndex (x := x) (by rw [hs]; simp [hx])
      have h1 := I.highgt hs hm hi h.idx
      have h2 := I.lowlt hs hx hi h.idx
      omega
    · exact hvrest hx
  obtain ⟨s', e1, e2, e3, e4, e5, e6, e7, e8⟩ := popScc_eq v s.nextScc pre s0.stack
    { s with nextScc := s.nextScc + 1 } hvpre
  have e3' : s'.index = s.index := e3
  have e8' : ∀ x, s'.sccId x = if x ∈ pre ∨ x = v then some s.nextScc else s.sccId x := e8
  have e7' : ∀ x, s'.onStack x = if x ∈ pre ∨ x = v then false else s.onStack x := e7
  have e6' : s'.nextScc = s.nextScc + 1 := e6
  refine ⟨s', by rw [← hs] at e1; exact e1, e3', ?_⟩
  -- the popped set
  have hCmem : ∀ x, (x ∈ pre ∨ x = v) → x ∈ s.stack := by
    rintro x (hx | rfl) <;> rw [hs] <;> simp [*]
  have hCnone : ∀ x, (x ∈ pre ∨ x = v) → s.sccId x = none := fun x hx => I.disj x (hCmem x hx)
  have hsplit : ∀ x ∈ s.stack, (x ∈ pre ∨ x = v) ∨ x ∈ s0.stack := by
    intro x hx; rw [hs] at hx; simp at hx; tauto
  have hfrom : ∀ x, (x ∈ pre ∨ x = v) → Reaches g v x := by
    rintro x (hx | rfl)
    · obtain ⟨i, hi⟩ := I.stackIndex (hCmem x (Or.inl hx))
      exact I.up v h.v_mem x (hCmem x (Or.inl hx)) _ _ h.idx hi (Nat.le_of_lt (I.highgt hs hx hi h.idx))
    · exact ReflTransGen.refl
  have hto : ∀ x, (x ∈ pre ∨ x = v) → Reaches g x v := by
    intro x hx
    obtain ⟨y, hy, hr, _⟩ := I.down x (hCmem x hx)
    exact hr.trans (h.gray_reach hg y hy)
  have hstep : ∀ a b, (a ∈ pre ∨ a = v) → Calls g a b → (b ∈ pre ∨ b = v) ∨ s.sccId b ≠ none := by
    intro a b ha hc
    have hvis : s.index b ≠ none := by
      rcases ha with ha | rfl
      · refine I.black a b ((I.visited a).2 (Or.inl (hCmem a (Or.inl ha)))) ?_ hc
        rintro (hgr | rfl)
        · exact hdisj a (hg a hgr) (Or.inl ha)
        · exact hvpre ha
      · exact h.visited b hc hc.2.1
    rcases (I.visited b).1 hvis with hb | hb
    · rcases hsplit b hb with hb | hb
      · exact Or.inl hb
      · exfalso
        obtain ⟨i, hi⟩ := hi0 b hb
        have hlt := hb0 b i hi
        rcases ha with ha | rfl
        · have := hp a ha b hb hc i hi; omega
        · have := hd b hb hc hc.2.1 i hi; omega
    · exact Or.inr hb
  have hclosure : ∀ x, Reaches g v x → (x ∈ pre ∨ x = v) ∨ s.sccId x ≠ none := by
    intro x hx
    refine closed_reach (P := fun x => (x ∈ pre ∨ x = v) ∨ s.sccId x ≠ none) ?_ hx (Or.inl (Or.inr rfl))
    rintro a b (ha | ha) hc
    · exact hstep a b ha hc
    · exact Or.inr (I.sccClosed a b ha hc)
  have hclass : ∀ x, (x ∈ pre ∨ x = v) ↔ (Reaches g v x ∧ Reaches g x v) := by
    intro x
    constructor
    · exact fun hx => ⟨hfrom x hx, hto x hx⟩
    · rintro ⟨h1, h2⟩
      rcases hclosure x h1 with hx | hx
      · exact hx
      · exfalso
        have := closed_reach (P := fun x => s.sccId x ≠ none) I.sccClosed h2 hx
        exact this (hCnone v (Or.inr rfl))
  refine ⟨?_, ?_, by rw [e3']; exact h.idx, ?_, ?_⟩
  · constructor
    · intro x
      rw [e3', I.visited x, e2, e8']
      by_cases hx : x ∈ pre ∨ x = v
      · simp [hx, hCmem x hx]
      · rw [if_neg hx]
        constructor
        · rintro (h1 | h1)
          · rcases hsplit x h1 with h2 | h2
            · exact absurd h2 hx
            · exact Or.inl h2
          · exact Or.inr h1
        · rintro (h1 | h1)
          · left; rw [hs]; simp [h1]
          · exact Or.inr h1
    · intro x hx
      rw [e2] at hx
      rw [e8', if_neg (hdisj x hx)]
      exact I.disj x (by rw [hs]; simp [hx])
    · intro x
      rw [e7', e2]
      by_cases hx : x ∈ pre ∨ x = v
      · rw [if_pos hx]
        constructor
        · intro h; cases h
        · intro h; exact absurd hx (hdisj x h)
      · rw [if_neg hx, I.onStack x]
        constructor
        · intro h1
          rcases hsplit x h1 with h2 | h2
          · exact absurd h2 hx
          · exact h2
        · intro h1; rw [hs]; simp [h1]
    · rw [e2, e3']
      have := I.sorted
      rw [hs, List.pairwise_append] at this
      exact (List.pairwise_cons.mp this.2.1).2
    · intro x i hx
      rw [e3'] at hx; rw [e5]; exact I.bound x i hx
    · intro x hx; rw [e3'] at hx; exact I.funcs x hx
    · intro x hx; rw [e2]; exact hg x hx
    · intro x y hx hgx hc
      rw [e3'] at hx ⊢
      by_cases he : x = v
      · subst he; exact h.visited y hc hc.2.1
      · exact I.black x y hx (by rintro (h | h); exact hgx h; exact he h) hc
    · intro x hx y hy i j hi hj hij
      rw [e2] at hx hy; rw [e3'] at hi hj
      exact I.up x (by rw [hs]; simp [hx]) y (by rw [hs]; simp [hy]) i j hi hj hij
    · intro y hy
      rw [e2] at hy
      obtain ⟨x, hx, hr, i, j, hi, hj, hij⟩ := I.down y (by rw [hs]; simp [hy])
      rcases hx with hx | rfl
      · exact ⟨x, hx, hr, i, j, by rw [e3']; exact hi, by rw [e3']; exact hj, hij⟩
      · have := I.lowlt hs hy hj hi; omega
    · intro x k hx
      rw [e8'] at hx; rw [e6']
      by_cases hc : x ∈ pre ∨ x = v
      · rw [if_pos hc] at hx; cases hx; omega
      · rw [if_neg hc] at hx
        have := I.sccBound x k hx; omega
    · intro x k hx y
      rw [e8'] at hx
      rw [e8' y]
      by_cases hc : x ∈ pre ∨ x = v
      · rw [if_pos hc] at hx; cases hx
        by_cases hy : y ∈ pre ∨ y = v
        · rw [if_pos hy]
          exact ⟨fun _ => ⟨(hto x hc).trans (hfrom y hy), (hto y hy).trans (hfrom x hc)⟩, fun _ => rfl⟩
        · rw [if_neg hy]
          constructor
          · intro h1; have := I.sccBound y _ h1; omega
          · rintro ⟨h1, h2⟩
            exact absurd ((hclass y).2 ⟨(hfrom x hc).trans h1, h2.trans (hto x hc)⟩) hy
      · rw [if_neg hc] at hx
        by_cases hy : y ∈ pre ∨ y = v
        · rw [if_pos hy]
          constructor
          · intro h1; cases h1; have := I.sccBound x _ hx; omega
          · intro h1
            have := (I.scc x k hx y).2 h1
            rw [hCnone y hy] at this; cases this
        · rw [if_neg hy]; exact I.scc x k hx y
    · intro x y hx hc
      rw [e8'] at hx ⊢
      by_cases hy : y ∈ pre ∨ y = v
      · rw [if_pos hy]; simp
      · rw [if_neg hy]
        by_cases hcx : x ∈ pre ∨ x = v
        · exact (hstep x y hcx hc).resolve_left hy
        · rw [if_neg hcx] at hx; exact I.sccClosed x y hx hc
  · refine ⟨fun x i hx => by rw [e3']; exact h.ext.index x i hx, fun x k hx => ?_⟩
    have := h.ext.scc x k hx
    rw [e8', if_neg]
    · exact this
    · intro hc; rw [hCnone x hc] at this; cases this
  · intro x hx; rw [e4]; exact h.low x hx
  · exact ⟨[], s0.nextIndex, by simp [e2], by rw [e4]; exact hl, Nat.le_refl _, Or.inl rfl,
      fun y hy => by simp at hy⟩

/-- Number of functions not visited yet. -/
def white (g : Graph) (s : State) : Nat := (g.funcs.filter fun x => (s.index x).isNone).length

theorem white_mono {g : Graph} {s s' : State} (h : ∀ x, s.index x ≠ none → s'.index x ≠ none) :
    white g s' ≤ white g s := by
  unfold white
  rw [← List.countP_eq_length_filter, ← List.countP_eq_length_filter]
  apply List.countP_mono_left
  intro x _ hx
  by_contra hc
  have : s.index x ≠ none := by intro h0; simp [h0] at hc
  have := h x this
  simp at hx; exact this hx

theorem white_enter {g : Graph} {s : State} {v : Sym} (hv : v ∈ g.funcs) (hn : s.index v = none) :
    white g (enter v s) < white g s := by
  unfold white
  rw [← List.countP_eq_length_filter, ← List.countP_eq_length_filter]
  have key : ∀ l : List Sym, v ∈ l →
      l.countP (fun x => ((enter v s).index x).isNone) < l.countP (fun x => (s.index x).isNone) := by
    intro l
    have hle : ∀ l : List Sym, l.countP (fun x => ((enter v s).index x).isNone) ≤
        l.countP (fun x => (s.index x).isNone) := by
      intro l
      apply List.countP_mono_left
      intro x _ hx
      by_cases he : x = v
      · subst he; simp [enter, upd] at hx
      · simpa [enter, upd, he] using hx
    induction l with
    | nil => simp
    | cons a l ih =>
      intro hm
      rw [List.countP_cons, List.countP_cons]
      by_cases ha : a = v
      · subst ha
        have := hle l
        simp [enter, upd, hn]
        simp [enter, upd] at this
        omega
      · have hm' : v ∈ l := by rcases List.mem_cons.mp hm with h | h; exact absurd h.symm ha; exact h
        have := ih hm'
        have e : ((enter v s).index a).isNone = (s.index a).isNone := by simp [enter, upd, ha]
        rw [e]; omega
  exact key g.funcs hv

theorem successors_post (g : Graph) (recur : Sym → State → Option State) (fuel : Nat)
    (hrec : ∀ (gray : Sym → Prop) (v : Sym) (s : State),
      Inv g gray s → v ∈ g.funcs → s.index v = none → (∀ x, gray x → Reaches g x v) →
      white g s ≤ fuel → ∃ s', recur v s = some s' ∧ Post g gray v s s') :
    ∀ (gray : Sym → Prop) (v : Sym) (ws : List Sym)
    (s0 s : State) (done : Sym → Prop), Loop g gray v s0 s done → (∀ x, gray x → x ∈ s0.stack) →
    s0.index v = none → (∀ x i, s0.index x = some i → i < s0.nextIndex) →
    white g s ≤ fuel → (∀ w ∈ ws, w ∈ g.edges v) →
    ∃ s', successors g recur v ws s = some s' ∧ Loop g gray v s0 s' (fun x => done x ∨ x ∈ ws)
  | gray, v, [], s0, s, done, hL, hg, hn, hb, hw, hws => ⟨s, by simp [successors], by simpa using hL⟩
  | gray, v, w :: ws, s0, s, done, hL, hg, hn, hb, hw, hws => by
    have hmem : w ∈ g.edges v := hws w (by simp)
    have conv : ∀ s', Loop g gray v s0 s' (fun x => (done x ∨ x = w) ∨ x ∈ ws) →
        Loop g gray v s0 s' (fun x => done x ∨ x ∈ w :: ws) := by
      intro s' h'
      have : (fun x => done x ∨ x ∈ w :: ws) = (fun x => (done x ∨ x = w) ∨ x ∈ ws) := by
        funext x; simp [or_assoc]
      rw [this]; exact h'
    by_cases hf : w ∈ g.funcs
    · have hc : Calls g v w := ⟨hL.v_func, hmem, hf⟩
      cases hi : s.index w with
      | none =>
        obtain ⟨s1, e1, hP⟩ := hrec (fun x => gray x ∨ x = v) w s hL.inv hf hi
          (fun x hx => (hL.gray_reach hg x hx).trans (ReflTransGen.single hc)) hw
        obtain ⟨wl, s2, e2, e3, e4, hL2⟩ := loop_call hL hc hi hn hP
        obtain ⟨s', e5, hL'⟩ := successors_post g recur fuel hrec gray v ws s0 s2 _ hL2 hg hn hb
          (Nat.le_trans (white_mono (fun x hx => by rw [e4]; exact hP.ext.visited hx)) hw)
          (fun w hw => hws w (by simp [hw]))
        exact ⟨s', by simp [successors, hf, hi, e1, e2, e3, e5], conv s' hL'⟩
      | some i =>
        by_cases ho : s.onStack w = true
        · obtain ⟨s2, e3, e4, hL2⟩ := loop_onStack hL hc hi ho hn
          obtain ⟨s', e5, hL'⟩ := successors_post g recur fuel hrec gray v ws s0 s2 _ hL2 hg hn hb
            (Nat.le_trans (white_mono (fun x hx => by rw [e4]; exact hx)) hw)
            (fun w hw => hws w (by simp [hw]))
          exact ⟨s', by simp [successors, hf, hi, ho, e3, e5], conv s' hL'⟩
        · obtain ⟨s', e5, hL'⟩ := successors_post g recur fuel hrec gray v ws s0 s _
            (loop_finished hL (by rw [hi]; simp) ho) hg hn hb hw (fun w hw => hws w (by simp [hw]))
          exact ⟨s', by simp [successors, hf, hi, ho, e5], conv s' hL'⟩
    · obtain ⟨s', e5, hL'⟩ := successors_post g recur fuel hrec gray v ws s0 s _
        (loop_external hL hf) hg hn hb hw (fun w hw => hws w (by simp [hw]))
      exact ⟨s', by simp [successors, hf, e5], conv s' hL'⟩

theorem strongconnect_post (g : Graph) : ∀ (fuel : Nat) (gray : Sym → Prop) (v : Sym) (s : State),
    Inv g gray s → v ∈ g.funcs → s.index v = none → (∀ x, gray x → Reaches g x v) →
    white g s ≤ fuel → ∃ s', strongconnect g fuel v s = some s' ∧ Post g gray v s s'
  | 0, gray, v, s, _, hv, hn, _, hw => by
    have := white_enter hv hn; omega
  | fuel + 1, gray, v, s, h, hv, hn, hr, hw => by
    have hlt := white_enter hv hn
    obtain ⟨s1, h1, hL⟩ := successors_post g (strongconnect g fuel) fuel (strongconnect_post g fuel)
      gray v (g.edges v) s (enter v s) (fun _ => False)
      (loop_enter h hv hn hr) (fun x hx => h.grayStack x hx) hn h.bound (by omega) (fun w hw => hw)
    have hL' : Loop g gray v s s1 (fun x => x ∈ g.edges v) := by simpa using hL
    obtain ⟨pre, l, hs, hl, hle, hat, hp, hd⟩ := hL'.res
    by_cases hc : l = s.nextIndex
    · subst hc
      obtain ⟨s', e1, _, e3⟩ := finish_close hL' (fun x hx => h.grayStack x hx) hs hl hp hd h.bound
        (fun x hx => h.stackIndex hx)
      refine ⟨s', ?_, e3⟩
      simp [strongconnect, h1, finish, hl, hL'.idx, e1]
    · refine ⟨s1, ?_, finish_open hL' (fun x hx => h.grayStack x hx) hs hl (by omega) (hat.resolve_left hc) hp hd⟩
      simp [strongconnect, h1, finish, hl, hL'.idx, hc]

theorem inv_init (g : Graph) : Inv g (fun _ => False) State.init := by
  constructor <;> simp [State.init]

theorem tarjanLoop_post (g : Graph) : ∀ (vs : List Sym) (s : State), Inv g (fun _ => False) s →
    (∀ v ∈ vs, v ∈ g.funcs) →
    ∃ s', tarjanLoop g vs s = some s' ∧ Inv g (fun _ => False) s' ∧ Extends s s' ∧
      ∀ v ∈ vs, s'.index v ≠ none
  | [], s, h, _ => ⟨s, rfl, h, Extends.refl s, by simp⟩
  | v :: vs, s, h, hv => by
    cases hi : s.index v with
    | none =>
      obtain ⟨s1, e1, hP⟩ := strongconnect_post g g.funcs.length _ v s h (hv v (by simp)) hi
        (fun _ hf => hf.elim) (List.length_filter_le _ _)
      obtain ⟨s', e2, h2, h3, h4⟩ := tarjanLoop_post g vs s1 hP.inv (fun x hx => hv x (by simp [hx]))
      refine ⟨s', by simp [tarjanLoop, hi, e1, e2], h2, hP.ext.trans h3, ?_⟩
      intro x hx
      rcases List.mem_cons.mp hx with rfl | hx
      · exact h3.visited (by rw [hP.idx]; simp)
      · exact h4 x hx
    | some i =>
      obtain ⟨s', e2, h2, h3, h4⟩ := tarjanLoop_post g vs s h (fun x hx => hv x (by simp [hx]))
      refine ⟨s', by simp [tarjanLoop, hi, e2], h2, h3, ?_⟩
      intro x hx
      rcases List.mem_cons.mp hx with rfl | hx
      · exact h3.visited (by rw [hi]; simp)
      · exact h4 x hx

theorem tarjan_ok (g : Graph) : ∃ ids, tarjanScc g = some ids ∧
    (∀ v, ids v ≠ none ↔ v ∈ g.funcs) ∧
    (∀ v ∈ g.funcs, ∀ w ∈ g.funcs, ids v = ids w ↔ (Reaches g v w ∧ Reaches g w v)) := by
  obtain ⟨s, e, I, _, hv⟩ := tarjanLoop_post g g.funcs State.init (inv_init g) (fun _ h => h)
  have hempty : s.stack = [] := by
    cases hs : s.stack with
    | nil => rfl
    | cons a l =>
      obtain ⟨_, hf, _⟩ := I.down a (by simp [hs])
      exact hf.elim
  have hdom : ∀ v, s.sccId v ≠ none ↔ v ∈ g.funcs := by
    intro v
    have := I.visited v
    rw [hempty] at this
    simp only [List.not_mem_nil, false_or] at this
    rw [← this]
    exact ⟨I.funcs v, hv v⟩
  refine ⟨s.sccId, by simp [tarjanScc, e], hdom, ?_⟩
  intro v hvf w hwf
  obtain ⟨k, hk⟩ := Option.ne_none_iff_exists'.mp ((hdom v).2 hvf)
  rw [hk, eq_comm]
  exact I.scc v k hk w

/-! ## Building the graph -/

theorem collectCall_spec (caller : Sym) : ∀ (body : List BodyOp) (b : Built),
    (∀ e, e ∈ (body.foldl (collectCall caller) b).edges ↔
      (e ∈ b.edges ∨ (e.1 = caller ∧ ∃ o ∈ body, Mentions e.2 o))) ∧
    (body.foldl (collectCall caller) b).funcOps = b.funcOps ∧
    (∀ c, c ∈ (body.foldl (collectCall caller) b).constantRefs ↔
      (c ∈ b.constantRefs ∨ BodyOp.constant (some c) ∈ body)) ∧
    (∀ c, (body.foldl (collectCall caller) b).callSites.count c =
      b.callSites.count c + body.countP (fun o => decide (o = .call (some c) ∨ o = .tailCall (some c))))
  | [], b => by simp
  | o :: body, b => by
    obtain ⟨h1, h2, h3, h4⟩ := collectCall_spec caller body (collectCall caller b o)
    rw [List.foldl_cons]
    refine ⟨?_, ?_, ?_, ?_⟩
    · rintro ⟨x, y⟩
      rw [h1]
      simp only [List.mem_cons, exists_eq_or_imp]
      rcases o with (_ | c) | (_ | c) | (_ | c) | _ <;>
        simp [collectCall, Mentions, CallsOp] <;> grind
    · rw [h2]; rcases o with (_ | c) | (_ | c) | (_ | c) | _ <;> rfl
    · intro c; rw [h3]
      rcases o with (_ | d) | (_ | d) | (_ | d) | _ <;> simp [collectCall] <;> tauto
    · intro c; rw [h4, List.countP_cons]
      rcases o with (_ | d) | (_ | d) | (_ | d) | _ <;> simp [collectCall, List.count_cons] <;> omega

theorem defines_func {path n body rest f b} : Defines path (.func n body rest) f b ↔
    ((extractFuncName n path = some f ∧ b = body) ∨ Defines path rest f b) := by
  constructor
  · intro h
    cases h with
    | top h => left; simp [extractFuncName, h]
    | nested h => left; simp [extractFuncName, h]
    | skipFunc h => exact Or.inr h
  · rintro (⟨h, rfl⟩ | h)
    · cases n with
      | none => simp [extractFuncName] at h
      | some n =>
        by_cases hp : path = []
        · simp [extractFuncName, hp] at h; subst h; exact .top hp
        · simp [extractFuncName, hp] at h; subst h; exact .nested hp
    · exact .skipFunc h

theorem defines_module {path n inner rest f b} : Defines path (.module n inner rest) f b ↔
    (Defines (extendModulePath n path) inner f b ∨ Defines path rest f b) := by
  constructor
  · intro h
    cases h with
    | skipModule h => exact Or.inr h
    | inNamed h => exact Or.inl h
    | inUnnamed h => exact Or.inl h
  · rintro (h | h)
    · cases n with
      | none => exact .inUnnamed h
      | some n => exact .inNamed h
    · exact .skipModule h

theorem defines_other {path rest f b} : Defines path (.other rest) f b ↔ Defines path rest f b :=
  ⟨fun h => by cases h; assumption, .skipOther⟩

theorem defines_nil {path f b} : Defines path .nil f b ↔ False :=
  ⟨fun h => (by cases h), False.elim⟩

theorem analyzeRegion_spec : ∀ (m : Items) (path : List Sym) (b : Built),
    (∀ e, e ∈ (analyzeRegion path b m).edges ↔
      (e ∈ b.edges ∨ ∃ body, Defines path m e.1 body ∧ ∃ o ∈ body, Mentions e.2 o)) ∧
    (∀ f, f ∈ (analyzeRegion path b m).funcOps ↔ (f ∈ b.funcOps ∨ ∃ body, Defines path m f body)) ∧
    (∀ c, c ∈ (analyzeRegion path b m).constantRefs ↔
      (c ∈ b.constantRefs ∨ ∃ f body, Defines path m f body ∧ BodyOp.constant (some c) ∈ body)) ∧
    (∀ c, (analyzeRegion path b m).callSites.count c = b.callSites.count c + callSiteCount c m)
  | .nil, path, b => by simp [analyzeRegion, defines_nil, callSiteCount]
  | .other rest, path, b => by
    simp only [analyzeRegion, defines_other, callSiteCount]
    exact analyzeRegion_spec rest path b
  | .module n inner rest, path, b => by
    obtain ⟨i1, i2, i3, i4⟩ := analyzeRegion_spec inner (extendModulePath n path) b
    obtain ⟨r1, r2, r3, r4⟩ := analyzeRegion_spec rest path (analyzeRegion (extendModulePath n path) b inner)
    simp only [analyzeRegion, defines_module, callSiteCount]
    refine ⟨?_, ?_, ?_, ?_⟩
    · intro e; rw [r1, i1]; simp only [or_and_right, exists_or, or_assoc]
    · intro e; rw [r2, i2]; simp only [exists_or, or_assoc]
    · intro e; rw [r3, i3]; simp only [or_and_right, exists_or, or_assoc]
    · intro c; rw [r4, i4]; omega
  | .func n body rest, path, b => by
    cases hn : extractFuncName n path with
    | none =>
      obtain ⟨r1, r2, r3, r4⟩ := analyzeRegion_spec rest path b
      have hn' : n = none := by cases n with
        | none => rfl
        | some n => simp [extractFuncName] at hn
      simp only [analyzeRegion, hn, defines_func]
      simp only [reduceCtorEq, false_and, false_or]
      subst hn'
      exact ⟨r1, r2, r3, r4⟩
    | some name =>
      obtain ⟨c1, c2, c3, c4⟩ := collectCall_spec name body { b with funcOps := name :: b.funcOps }
      obtain ⟨r1, r2, r3, r4⟩ := analyzeRegion_spec rest path
        (body.foldl (collectCall name) { b with funcOps := name :: b.funcOps })
      have hn' : ∃ n', n = some n' := by cases n with
        | none => simp [extractFuncName] at hn
        | some n => exact ⟨n, rfl⟩
      simp only [analyzeRegion, hn, defines_func]
      refine ⟨?_, ?_, ?_, ?_⟩
      · rintro ⟨x, y⟩; rw [r1, c1]
        simp only [or_and_right, exists_or, or_assoc, Option.some.injEq]
        refine or_congr Iff.rfl (or_congr ?_ Iff.rfl)
        constructor
        · rintro ⟨rfl, h⟩; exact ⟨body, ⟨rfl, rfl⟩, h⟩
        · rintro ⟨_, ⟨rfl, rfl⟩, h⟩; exact ⟨rfl, h⟩
      · intro f; rw [r2, c2]
        simp only [exists_or, List.mem_cons, Option.some.injEq]
        constructor
        · rintro ((rfl | h) | h)
          · exact Or.inr (Or.inl ⟨body, rfl, rfl⟩)
          · exact Or.inl h
          · exact Or.inr (Or.inr h)
        · rintro (h | ⟨_, rfl, _⟩ | h)
          · exact Or.inl (Or.inr h)
          · exact Or.inl (Or.inl rfl)
          · exact Or.inr h
      · intro c; rw [r3, c3]
        simp only [or_and_right, exists_or, or_assoc, Option.some.injEq]
        refine or_congr Iff.rfl (or_congr ?_ Iff.rfl)
        constructor
        · intro h; exact ⟨name, body, ⟨rfl, rfl⟩, h⟩
        · rintro ⟨_, _, ⟨rfl, rfl⟩, h⟩; exact h
      · intro c; rw [r4, c4]
        obtain ⟨n', rfl⟩ := hn'
        simp only [callSiteCount]
        omega

end Verif.CallGraph
