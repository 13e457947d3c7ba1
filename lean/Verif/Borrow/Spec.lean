import Verif.Borrow.Model

/-!
# Lending references

The code of a module is run with a mark on every reference that a function was passed for a parameter which it only
borrows.  Marks go wherever the reference goes: through casts, and to the parameters of the functions that are called
with it.  A reference is *kept* when it is put into memory, returned, passed to a block, to a continuation, to code that is
not known, or used by an operation that may do anything with it.

Control flow is not followed: any operation of the function on top of the stack may be the next.  So the claims hold
for every path through the blocks, too.
-/

namespace Verif.Borrow

/-- The mark of the reference passed for a parameter: the number of the call, and the place of the parameter. -/
abbrev Mark := Nat × Nat

/-- A function that is running: the marks on the values it has. -/
structure Frame where
  fn : Fn
  marks : Nat → List Mark

/-- The functions that are running, the marks of the references that were kept, and the number of calls so far. -/
structure State where
  stack : List Frame
  kept : List Mark
  calls : Nat

/-- The results of an operation are given these marks. -/
def assign (env : Nat → List Mark) (rs : List Nat) (l : List Mark) : Nat → List Mark :=
  fun v => if v ∈ rs then l else env v

/-- The marks on some values. -/
def marksOf (env : Nat → List Mark) (vs : List Nat) : List Mark := vs.flatMap env

/-- The values of a function at its start: each parameter has the marks of its argument, and one of its own if it is
borrowed. -/
def enterMarks (borrowed : Nat → Nat → Bool) (f : Fn) (n : Nat) (args : List (List Mark)) : Nat → List Mark :=
  fun v => f.entry.zipIdx.flatMap (fun x =>
    if x.1.value = v then (args[x.2]?).getD [] ++ (if borrowed f.name x.2 then [(n, x.2)] else []) else [])

/-- The body that a call runs: the only function of that name, if it has one. -/
def Calls (m : Module) (g : Nat) (f : Fn) : Prop :=
  f ∈ m ∧ f.name = g ∧ f.hasBlocks = true ∧ ∀ f' ∈ m, f'.name = g → f' = f

/-- The operand at this place is only looked at, or looked through. -/
def Looks (op : Op) (i : Nat) : Prop :=
  (op.kind = .read ∧ i = 0) ∨ (op.kind = .memStore ∧ i = 0) ∨ (op.kind = .clifStore ∧ i = 1) ∨ op.kind = .compare

/-- The marks on the operands that the operation may keep: all but those it only looks at. -/
def Keeps (op : Op) (env : Nat → List Mark) (l : List Mark) : Prop :=
  ∀ x ∈ l, ∃ i v, op.operands[i]? = some v ∧ x ∈ env v ∧ ¬ Looks op i

/-- One step, for a module in which these parameters are borrowed. -/
inductive Step (borrowed : Nat → Nat → Bool) (m : Module) : State → State → Prop
  /-- A function is called from outside, or by a call that is not direct.  All it can be passed is what was kept. -/
  | outside {st f args} : f ∈ m → (∀ l ∈ args, l ⊆ st.kept) →
      Step borrowed m st ⟨⟨f, enterMarks borrowed f st.calls args⟩ :: st.stack, st.kept, st.calls + 1⟩
  /-- A direct call of a function of the module. -/
  | call {f env rest kept n op g h} : op ∈ f.ops → op.kind = .call g → Calls m g h →
      Step borrowed m ⟨⟨f, env⟩ :: rest, kept, n⟩
        ⟨⟨h, enterMarks borrowed h n (op.operands.map env)⟩ :: ⟨f, env⟩ :: rest, kept, n + 1⟩
  /-- The end of a function.  What it returns was kept by the return; the caller has it as the results of a call. -/
  | leave {fr rest kept n} : Step borrowed m ⟨fr :: rest, kept, n⟩ ⟨rest, kept, n⟩
  /-- Some values receive something that was kept: results of calls, arguments of blocks. -/
  | receive {f env rest kept n vs l} : l ⊆ kept →
      Step borrowed m ⟨⟨f, env⟩ :: rest, kept, n⟩ ⟨⟨f, assign env vs l⟩ :: rest, kept, n⟩
  /-- A cast of one value to another type. -/
  | cast {f env rest kept n op v r} : op ∈ f.ops → op.kind = .cast → op.operands = [v] → op.results = [r] →
      Step borrowed m ⟨⟨f, env⟩ :: rest, kept, n⟩ ⟨⟨f, assign env [r] (env v)⟩ :: rest, kept, n⟩
  /-- Any other operation; a direct call only if what it calls is not known. -/
  | other {f env rest kept n op l l'} : op ∈ f.ops → (∀ g, op.kind = .call g → ¬ ∃ h, Calls m g h) →
      ¬ (op.kind = .cast ∧ op.operands.length = 1 ∧ op.results.length = 1) →
      Keeps op env l → l' ⊆ l ++ kept →
      Step borrowed m ⟨⟨f, env⟩ :: rest, kept, n⟩ ⟨⟨f, assign env op.results l'⟩ :: rest, l ++ kept, n⟩

/-- What a module can come to, from the start. -/
inductive Reach (borrowed : Nat → Nat → Bool) (m : Module) : State → Prop
  | start : Reach borrowed m ⟨[], [], 0⟩
  | step {st st'} : Reach borrowed m st → Step borrowed m st st' → Reach borrowed m st'

/-- Values that are the same reference: casts of one operand. -/
inductive Same (f : Fn) (p : Nat) : Nat → Prop
  | self : Same f p p
  | cast {v r op} : Same f p v → op ∈ f.ops → op.kind = .cast → op.nested = false → op.operands = [v] → op.results = [r] →
      Same f p r

/-- A use that leaves the reference with its owner. -/
def Harmless (borrowed : Nat → Nat → Bool) (op : Op) (i : Nat) : Prop :=
  op.nested = false ∧ (Looks op i ∨ (∃ g, op.kind = .call g ∧ borrowed g i = true) ∨
    (op.kind = .cast ∧ op.operands.length = 1 ∧ op.results.length = 1))

/-- A choice of borrowed parameters that may be made: references, of functions that are defined once, have no foreign
ABI, are not recursive, and are not used as values or in tail calls; and every use of the parameter is harmless. -/
def Admissible (rec : Nat → Bool) (m : Module) (borrowed : Nat → Nat → Bool) : Prop :=
  ∀ g i, borrowed g i = true → ∃ f p, f ∈ m ∧ f.name = g ∧ (∀ f' ∈ m.filter (fun f' => f'.name == g), f' = f) ∧
    (m.filter (fun f' => f'.name == g)).length = 1 ∧
    f.entry[i]? = some p ∧ p.isRef = true ∧ f.abi = false ∧ rec g = false ∧
    (∀ f' ∈ m, ∀ op ∈ f'.ops, op.kind ≠ .constant g ∧ op.kind ≠ .tailCall g) ∧
    ∀ v, Same f p.value v → ∀ op ∈ f.ops, ∀ j, op.operands[j]? = some v → Harmless borrowed op j

/-- The orders in which the functions are visited: each round sees every function once, in some order. -/
def Orders (m : Module) (orders : Nat → List Fn) : Prop := ∀ n, (orders n).Perm (unique m)

/-- The references a function gives back, or passes on, for each parameter: it does so with those it consumes, for its own
account. -/
def takes : Mode → Nat
  | .consumed => 1
  | _ => 0

/-- The references that a call hands over with each argument. -/
def hands : Mode → Nat
  | .acquire => 1
  | .transfer => 1
  | _ => 0

end Verif.Borrow
