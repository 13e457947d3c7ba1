import Verif.Canon.Left

/-!
# Canonicalisation preserves behaviour and settles
-/
namespace Verif.Canon

open Verif.Arith (I128 BinOp)

theorem canonicalize_eq (ty : Value → Ty) (body : List Op) :
    (canonicalize ty body).body = (round ty body).1 ∧ (canonicalize ty body).reachedFixpoint = true ∧
      (canonicalize ty body).iterations ≤ 2 := by
  have h := round_again ty body
  unfold canonicalize
  rw [applyFrom]
  rcases hr : round ty body with ⟨out, n⟩
  rw [hr] at h
  simp only at h ⊢
  split
  · simp
  · rw [applyFrom, h]
    simp

/-! ## A small function to look at -/

/-- Truth values and 32-bit integers; value 9 is a reference. -/
def exTy : Value → Ty
  | 0 => .int 1
  | 9 => .other 0
  | 10 => .other 0
  | _ => .int 32

/-- `fn f(p1) { if 1 { let x = p1 + 0; let y = 2 * 3; return … } … }` with a cast there and back. -/
def exBody : List Op :=
  [.const 0 1, .const 2 0,
   .ite 0 [3] [.bin .addi 4 1 2, .const 5 2, .const 6 3, .bin .muli 7 5 6, .bin .addi 8 4 7, .cast 9 8,
      .cast 11 9, .yield [11]] [.plain 5 [1] [12], .yield [12]],
   .exit 0 [3]]

theorem exBody_wf : WfBody exTy [1] exBody := by
  refine ⟨?_, by decide, by decide⟩
  simp only [exBody, WfOps, WfOp, Op.results, Op.isTerm, exTy, List.map_cons, List.map_nil]
  have n0 : Arith.Normal 32 0 := by unfold Arith.Normal; decide
  have n2 : Arith.Normal 32 2 := by unfold Arith.Normal; decide
  have n3 : Arith.Normal 32 3 := by unfold Arith.Normal; decide
  simp
  exact ⟨n0, n2, n3⟩

/-- Canonicalisation changes nothing a function does: for every well formed body, every way the other
operations may behave in which a cast there and back is nothing, and all arguments, it ends in exactly the
same ways, with the same values and the same effects, and it does not end exactly when it did not. -/
theorem C82_preserves {O S : Type} (M : Machine O S) (hM : M.Lawful) (ty : Value → Ty) (params : List Value)
    (body : List Op) (hw : WfBody ty params body) (ρ : Env O) (hρ : ArgsTyped ty params ρ) (s : S)
    (e : End O S) :
    Ends M ty (canonicalize ty body).body ρ s e ↔ Ends M ty body ρ s e := by
  rw [(canonicalize_eq ty body).1]
  have hi : Inv M ty (· ∈ params) (· ∈ params) St.init ρ ρ :=
    ⟨fun x hx => hx, fun x _ => rfl, fun x _ => rfl, hρ, fun y v _ h => by simp [St.init] at h,
      fun y a _ h => by simp [St.init] at h⟩
  have key : ∀ n, (∃ o, execOps M ty n ρ s body = some o ∧ o.ending = some e) ↔
      (∃ o, execOps M ty n ρ s (round ty body).1 = some o ∧ o.ending = some e) := by
    intro n
    obtain ⟨A1, -, -, h⟩ := sim_ops hM ty n body body (List.prefix_refl _) ⟨none, none, none⟩ (· ∈ params)
      (· ∈ params) St.init hw.wf hw.once hw.fresh hw.fresh
    have := h ρ ρ s hi
    simp only [round]
    simp only at this
    revert this
    generalize execOps M ty n ρ s body = q
    generalize execOps M ty n ρ s (canonOps ty St.init body).1 = q'
    intro h
    cases h <;> simp [Out.ending]
  exact ⟨fun ⟨n, o, h⟩ => ⟨n, (key n).2 ⟨o, h⟩⟩, fun ⟨n, o, h⟩ => ⟨n, (key n).1 ⟨o, h⟩⟩⟩

/-- A machine that counts the other operations, with integers in boxes (width and value). -/
def exMachine : Machine (Nat × Nat) Nat where
  plain _ tys _ s := some (tys.map fun t => match t with
    | .int w => .int w 7
    | .other n => .other (n, 0), s + 1)
  cast t t' v :=
    if t = t' then some v
    else match t, t', v with
      | .int w, .other _, .int w' b => if w' = w then some (.other (w', b.toNat)) else none
      | .other _, .int w, .other (w', k) => if w' = w ∧ k < 2 ^ w then some (.int w (BitVec.ofNat w k)) else none
      | .other _, .other _, v => some v
      | _, _, _ => none

theorem exMachine_lawful : exMachine.Lawful := by
  constructor
  · intro f tys args s vs s' h
    simp only [exMachine, Option.some.injEq, Prod.mk.injEq] at h
    obtain ⟨rfl, -⟩ := h
    induction tys with
    | nil => trivial
    | cons t ts ih =>
      refine ⟨?_, ih⟩
      cases t with
      | int w => exact ⟨7, rfl⟩
      | other n => trivial
  · intro t t' v v' ht h
    simp only [exMachine] at h
    cases t' with
    | other _ => trivial
    | int w =>
      split at h
      · rename_i e; subst e; simp only [Option.some.injEq] at h; subst h; exact ht
      · cases t with
        | int _ => cases h
        | other n => cases v with
          | int _ _ => cases h
          | other o =>
            simp only at h
            split at h
            · simp only [Option.some.injEq] at h
              exact ⟨_, h.symm⟩
            · cases h
  · intro t v _
    simp [exMachine]
  · intro t t' v v' ht h
    simp only [exMachine] at h ⊢
    by_cases e : t = t'
    · subst e
      simpa using h.symm
    · rw [if_neg e] at h
      rw [if_neg (Ne.symm e)]
      split at h
      · split at h
        · rename_i b hw
          subst hw
          simp only [Option.some.injEq] at h
          subst h
          simp [b.isLt]
        · cases h
      · split at h
        · rename_i hk
          simp only [Option.some.injEq] at h
          subst h
          simp only [if_true, hk.1]
          rw [BitVec.toNat_ofNat, Nat.mod_eq_of_lt hk.2]
        · cases h
      · simpa using h.symm
      · cases h

/-- The function, and what is left of it: everything but the addition of 6 and one cast is folded. -/
example : WfBody exTy [1] exBody ∧ ArgsTyped exTy [1] (fun _ => (.int 32 35 : Val (Nat × Nat))) ∧
    (canonicalize exTy exBody).body =
      [.const 0 1, .const 2 0, .const 5 2, .const 6 3, .const 7 6, .bin .addi 8 1 7, .cast 9 8,
        .exit 0 [8]] ∧
    (canonicalize exTy exBody).iterations = 2 ∧
    Ends exMachine exTy exBody (fun _ => .int 32 35) 0 (.exit 0 [.int 32 41] 0) := by
  refine ⟨exBody_wf, ?_, by rfl, by rfl, 0, _, rfl, rfl⟩
  intro x hx
  simp only [List.mem_singleton] at hx
  subst hx
  exact ⟨_, rfl⟩

/-- Canonicalisation always settles: two iterations are enough, for any body at all, so the limit of ten
never matters, and running it again changes nothing. -/
theorem C83_settles (ty : Value → Ty) (body : List Op) :
    (canonicalize ty body).reachedFixpoint = true ∧ (canonicalize ty body).iterations ≤ 2 ∧
      (canonicalize ty (canonicalize ty body).body).body = (canonicalize ty body).body ∧
      (canonicalize ty (canonicalize ty body).body).changes = 0 := by
  obtain ⟨h1, h2, h3⟩ := canonicalize_eq ty body
  refine ⟨h2, h3, ?_, ?_⟩
  · rw [(canonicalize_eq ty _).1, h1, round_again]
  · rw [h1, canonicalize, applyFrom, round_again]
    rfl

/-- What is left has nothing to fold: no integer operation on two integer constants unless it aborts, no
cast that changes nothing or goes back, no conditional on an integer constant 0 or 1 with a branch that can
take its place. -/
theorem C83_nothing_left_partial (ty : Value → Ty) (body : List Op) :
    ¬ FoldableOps ty (fun _ => none) (canonicalize ty body).body := by
  rw [(canonicalize_eq ty body).1]
  have h := round_again ty body
  generalize (round ty body).1 = out at h
  have hz : (canonOps ty (at' fun _ => .other) out).2.2 = 0 := by
    have := congrArg Prod.snd h
    exact this
  exact (quiet_ops ty out (fun _ => .other) (fun _ => none) (by intro x f hf; cases hf) hz).2

/-- The function above has several. -/
example : FoldableOps exTy (fun _ => none) exBody := by
  simp only [exBody, FoldableOps, FoldableOp, learn, exTy, Op.results]
  right; right; left; left
  refine ⟨trivial, .inl ⟨by simp, [.bin .addi 4 1 2, .const 5 2, .const 6 3, .bin .muli 7 5 6, .bin .addi 8 4 7,
    .cast 9 8, .cast 11 9], [11], rfl, rfl⟩⟩

/-- A conditional on the literal `true`. -/
def litBody : List Op :=
  [.constBool 0 true, .ite 0 [2] [.yield [1]] [.plain 5 [1] [3], .yield [3]], .exit 0 [2]]

/-- A conditional on a pattern whose two parts always match. -/
def bothBody : List Op :=
  [.const 0 1, .const 1 1, .bin .and 2 0 1, .ite 2 [4] [.yield [3]] [.plain 5 [3] [5], .yield [5]], .exit 0 [4]]

/-- Truth values first, then integers. -/
def bothTy : Value → Ty := fun x => if x ≤ 2 then .int 1 else .int 32

/-- Not every conditional that is decided is folded.  On a truth value that is written as such, which is
how every `True` and `False` of a program arrives, it is left alone; and so it is on the conjunction of two
constants 1, which is folded to the constant -1. -/
theorem C83_violated :
    (WfBody exTy [1] litBody ∧ (canonicalize exTy litBody).body = litBody) ∧
    (WfBody bothTy [3] bothBody ∧ (canonicalize bothTy bothBody).body =
      [.const 0 1, .const 1 1, .const 2 (-1), .ite 2 [4] [.yield [3]] [.plain 5 [3] [5], .yield [5]],
        .exit 0 [4]]) := by
  refine ⟨⟨⟨?_, by decide, by decide⟩, by rfl⟩, ⟨⟨?_, by decide, by decide⟩, by rfl⟩⟩
  · simp [litBody, WfOps, WfOp, Op.results, Op.isTerm, exTy]
  · simp [bothBody, WfOps, WfOp, Op.results, Op.isTerm, bothTy]

end Verif.Canon
