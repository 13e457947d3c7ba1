import Verif.NativeCall.ProofsMod

/-!
C108: functions and calls for the native target.
-/

namespace Verif.NativeCall

/-- A conversion of types: the types above ten become pointers. -/
def exConv : Ty → Option Ty
  | .other n => if n < 10 then none else some .ptr
  | .ptr => some .ptr
  | .nil => none

/-- The types of the values of the example. -/
def exTy : Nat → Ty
  | 0 => .other 20
  | 1 => .other 3
  | 2 => .other 21
  | 3 => .other 30
  | 4 => .other 20
  | 5 => .other 3
  | _ => .nil

/-- Two functions that call one another, by name and through a value. -/
def exMod : List Func :=
  [{ clif := false, name := "f", ty := .func [.other 20, .other 20, .other 3] none,
      blocks := [{ args := [0, 1], ops := [.constant "g" 3, .callIndirect 3 [0] 2, .call "f" [0, 1] 4,
        .other 7 [2, 1] [6], .ret [4]] }] },
   { clif := false, name := "g", ty := .func [.other 3] (some .nil),
      blocks := [{ args := [5], ops := [.tailCallIndirect (some 2) (some ([.other 3], .nil)) 3 [5]] }] }]

theorem exConv_sound : Sound exConv := by
  constructor
  · intro t
    cases t with
    | nil => rfl
    | ptr => rfl
    | other n =>
      simp only [exConv]
      by_cases h : n < 10
      · simp [h, exConv]
      · simp [h, exConv]
  · intro t
    cases t with
    | nil => simp [exConv]
    | ptr => simp [exConv]
    | other n =>
      simp only [exConv]
      by_cases h : n < 10
      · simp [h]
      · simp [h]

theorem exMod_fits : AllFit (Fits exConv) exTy exMod := by
  intro f hf
  simp only [exMod, List.mem_cons, List.not_mem_nil, or_false] at hf
  rcases hf with rfl | rfl
  · refine ⟨_, rfl, ?_, ?_⟩
    · intro b hb; simp only [List.head?_cons, Option.some.injEq] at hb; subst hb; rfl
    · intro b hb op hop
      simp only [List.mem_cons, List.not_mem_nil, or_false] at hb
      subst hb
      simp only [List.mem_cons, List.not_mem_nil, or_false] at hop
      rcases hop with rfl | rfl | rfl | rfl | rfl
      · rfl
      · trivial
      · show declared exMod "f" = _
        decide +kernel
      · trivial
      · rfl
  · refine ⟨_, rfl, ?_, ?_⟩
    · intro b hb; simp only [List.head?_cons, Option.some.injEq] at hb; subst hb; rfl
    · intro b hb op hop
      simp only [List.mem_cons, List.not_mem_nil, or_false] at hb
      subst hb
      simp only [List.mem_cons, List.not_mem_nil, or_false] at hop
      subst hop
      exact ⟨rfl, rfl⟩

theorem exMod_below : Below 7 exMod := by unfold Below; decide +kernel

/-- The functions do the same: the same operations on the same values in the same order, in the same
blocks; calls go to the same functions. -/
theorem C108_behaviour (conv : Ty → Option Ty) (fs fs' : List Func) (s s' : St)
    (h : lower conv fs s = some (fs', s')) (hb : Below s.next fs) : behaviour fs' = behaviour fs := by
  unfold lower at h
  simp only at h
  split at h
  · cases h
  · simp only [Option.some.injEq] at h
    have := (lowerFuncs_trace conv s.next fs s (Nat.le_refl _) hb).2
    rw [h] at this
    exact this

/-- Modules whose functions and operations fit together are lowered without error, and nothing of the
dialect is left. -/
theorem C108_complete (conv : Ty → Option Ty) (hs : Sound conv) (fs : List Func) (s : St)
    (hc : ∀ f ∈ fs, f.clif = false) (hb : Below s.next fs) (hf : AllFit (Fits conv) s.ty fs) :
    ∃ fs' s', lower conv fs s = some (fs', s') ∧
      ∀ f ∈ fs', f.clif = true ∧ ∀ b ∈ f.blocks, ∀ o ∈ b.ops, o.illegal = false := by
  obtain ⟨-, -, h3, -⟩ := lowerFuncs_good hs s (declared fs) _ (fun _ => rfl) fs s (Ext.refl _) hc hb hf
  refine ⟨(lowerFuncs conv fs s).1, (lowerFuncs conv fs s).2, ?_, h3⟩
  unfold lower
  simp only
  rw [if_neg]
  intro hany
  obtain ⟨f, hfm, hor⟩ := List.any_eq_true.1 hany
  obtain ⟨h4, h5⟩ := h3 f hfm
  simp only [h4, Bool.not_true, Bool.false_or] at hor
  obtain ⟨b, hbm, ho⟩ := List.any_eq_true.1 hor
  obtain ⟨o, hom, hi⟩ := List.any_eq_true.1 ho
  rw [h5 b hbm o hom] at hi
  cases hi

theorem lower_some {conv : Ty → Option Ty} {fs fs' : List Func} {s s' : St}
    (h : lower conv fs s = some (fs', s')) : lowerFuncs conv fs s = (fs', s') := by
  unfold lower at h
  simp only at h
  split at h
  · cases h
  · exact Option.some.inj h

/-- What is missing is shown by `C108_tail_violated`. If tail calls through values pass only values
whose types are not converted, functions and operations fit together after the pass: every call passes
the types its function expects, every function returns the type it declares, every call through a
value records the types it passes. -/
theorem C108_fits_partial (conv : Ty → Option Ty) (hs : Sound conv) (fs fs' : List Func) (s s' : St)
    (h : lower conv fs s = some (fs', s')) (hc : ∀ f ∈ fs, f.clif = false) (hb : Below s.next fs)
    (hf : AllFit (Fits conv) s.ty fs)
    (ht : ∀ f ∈ fs, ∀ b ∈ f.blocks, ∀ op ∈ b.ops, TailFixed conv s.ty op) :
    AllFit (FitsNative conv) s'.ty fs' := by
  have hl := lower_some h
  have hd := declared_lower conv ((hs.nil .nil).2 rfl) fs hc s
  have g := (lowerFuncs_good hs s (declared fs) (declared (lowerFuncs conv fs s).1) hd fs s
    (Ext.refl _) hc hb hf).2.2.2 _ (Ext.refl _)
  rw [hl] at g
  exact g.2 ht

/-- Calls through values record the converted types of what they pass and of what they expect, hence
those of any function of the type they were written for. -/
theorem C108_indirect (conv : Ty → Option Ty) (hs : Sound conv) (fs fs' : List Func) (s s' : St)
    (h : lower conv fs s = some (fs', s')) (hc : ∀ f ∈ fs, f.clif = false) (hb : Below s.next fs)
    (hf : AllFit (Fits conv) s.ty fs) : recordedSigs fs' = indirectSigs conv s.ty fs := by
  have hl := lower_some h
  have g := (lowerFuncs_good hs s (declared fs) _ (fun _ => rfl) fs s (Ext.refl _) hc hb hf).2.1
  rw [hl] at g
  exact g

/-- Every function has the converted signature of the function of its name. -/
theorem C108_signatures (conv : Ty → Option Ty) (hs : Sound conv) (fs fs' : List Func) (s s' : St)
    (h : lower conv fs s = some (fs', s')) (hc : ∀ f ∈ fs, f.clif = false) (name : String) :
    declared fs' name = (declared fs name).map fun p =>
      (p.1.map fun t => (conv t).getD t, (conv p.2).getD p.2) := by
  have hl := lower_some h
  have hd := declared_lower conv ((hs.nil .nil).2 rfl) fs hc s name
  rw [hl] at hd
  exact hd

/-- Another run changes nothing. -/
theorem C108_again (conv : Ty → Option Ty) (hs : Sound conv) (fs fs' : List Func) (s s' : St)
    (h : lower conv fs s = some (fs', s')) (hc : ∀ f ∈ fs, f.clif = false) (hb : Below s.next fs)
    (hf : AllFit (Fits conv) s.ty fs) : lower conv fs' s' = some (fs', s') := by
  have hl := lower_some h
  have g := ((lowerFuncs_good hs s (declared fs) _ (fun _ => rfl) fs s (Ext.refl _) hc hb hf).2.2.2
    _ (Ext.refl _)).1
  rw [hl] at g
  simp only at g
  unfold lower at h ⊢
  rw [hl] at h
  rw [g]
  exact h

/-- A tail call through a value that passes a value whose type is converted. -/
def exTail : List Func :=
  [{ clif := false, name := "g", ty := .func [.other 20, .other 30] (some .nil),
      blocks := [⟨[0, 3], [.tailCallIndirect (some 2) (some ([.other 20], .nil)) 3 [0]]⟩] }]

/-- Tail calls through values keep the signature from before the conversion: what they pass is
converted, and so is the function they go to, but not what they record. -/
theorem C108_tail_violated : AllFit (Fits exConv) exTy exTail ∧ Below 7 exTail ∧ Sound exConv ∧
    ∃ fs' s', lower exConv exTail { ty := exTy, next := 7 } = some (fs', s') ∧
      ¬ AllFit (FitsNative exConv) s'.ty fs' := by
  refine ⟨?_, by unfold Below; decide +kernel, exConv_sound,
    (lowerFuncs exConv exTail { ty := exTy, next := 7 }).1,
    (lowerFuncs exConv exTail { ty := exTy, next := 7 }).2,
    by unfold lower; simp only; rw [if_neg (by decide +kernel)], ?_⟩
  · intro f hf
    simp only [exTail, List.mem_singleton] at hf
    subst hf
    refine ⟨_, rfl, ?_, ?_⟩
    · intro b hb; simp only [List.head?_cons, Option.some.injEq] at hb; subst hb; rfl
    · intro b hb op hop
      simp only [List.mem_singleton] at hb
      subst hb
      simp only [List.mem_singleton] at hop
      subst hop
      exact ⟨rfl, rfl⟩
  · intro hall
    obtain ⟨sig, -, -, h⟩ := hall _ (List.mem_cons_self ..)
    have := h _ (List.mem_cons_self ..) (.returnCallIndirect ([.other 20], .nil) 3 [0]) (by
      decide +kernel)
    simp only [FitsNative] at this
    revert this
    decide +kernel

/-- The example of two functions meets the hypotheses, and this is what becomes of it. -/
example : (∀ f ∈ exMod, f.clif = false) ∧ Below 7 exMod ∧
    (∀ f ∈ exMod, ∀ b ∈ f.blocks, ∀ op ∈ b.ops, TailFixed exConv exTy op) ∧
    (lower exConv exMod { ty := exTy, next := 7 }).map (fun q => q.1.map (·.blocks)) = some
      [[{ args := [0, 1], ops := [.symbolAddr "g" 3, .clifCallIndirect ([.ptr], .ptr) 3 [0] 2,
          .clifCall "f" [0, 1] 4, .cast 2 .ptr 7, .other 7 [7, 1] [6], .cast 4 .ptr 8,
          .clifReturn [8]] }],
       [{ args := [5], ops := [.returnCallIndirect ([.other 3], .nil) 3 [5]] }]] := by
  refine ⟨by decide +kernel, exMod_below, ?_, by decide +kernel⟩
  intro f hf b hb op hop
  cases op <;> try trivial
  simp only [exMod, List.mem_cons, List.not_mem_nil, or_false] at hf
  rcases hf with rfl | rfl
  · simp only [List.mem_cons, List.not_mem_nil, or_false] at hb
    subst hb
    simp at hop
  · simp only [List.mem_cons, List.not_mem_nil, or_false] at hb
    subst hb
    simp at hop
    obtain ⟨-, -, -, rfl⟩ := hop
    simp [TailFixed, exTy, exConv]

end Verif.NativeCall
