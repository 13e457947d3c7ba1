/-!
# Semantic types of the front end

Models `Type`, `TypeKind`, `EffectRow` and `Effect` of
`crates/tribute-front/src/ast/types.rs`.

Simplifications (they apply to every area that uses this file):

* Interned ids (`TypeDefId`, `AbilityId`, `Symbol`, `NodeId`, calling conventions) are numbers;
  only equality of ids is ever observed.
* All compound kinds share one constructor `Ty.node`.  The children are listed in the order in
  which the solver visits them: `Func` has its parameters followed by the result, `Continuation`
  has its argument followed by its result, and `App` has its constructor followed by its
  arguments.  Kinds without an effect row carry the empty closed row; kinds without children
  have the empty list of children.
* A `UniVarId` (a source and an index) is a `UVar`: either one made by the solver itself
  (`UniVarSource::Solver`) or any other one, numbered.
-/

namespace Verif.Types

/-- `UniVarSource` / `UniVarId`, `ast/types.rs` 33-60.  `solver index` is
`UniVarSource::Solver { index }` with id index 0, `src k` is any `FunctionLocal`/`Anonymous`
variable. -/
inductive UVar
  | solver (index : Nat)
  | src (k : Nat)
  deriving DecidableEq, Repr

/-- The part of `TypeKind` that is not a child type or an effect row, `ast/types.rs` 62-153.
`prim` stands for `Int`, `Nat`, `Float`, `Bool`, `Bytes`, `Rune`, `Nil` (0-6). -/
inductive Head
  | prim (p : Nat)
  | never
  | error
  | bound (i : Nat)
  | localBound (scope i : Nat)
  | named (id name : Nat)
  | func (conv : Nat)
  | tuple
  | app
  | cont
  deriving DecidableEq, Repr

mutual
/-- `Type` / `TypeKind`, `ast/types.rs` 62-153 (see the header of this file for the encoding). -/
inductive Ty
  | uni (v : UVar)
  | node (h : Head) (kids : List Ty) (effects : List Eff) (rest : Option Nat)
/-- `Effect { ability_id, args }`, `ast/types.rs` 368-375. -/
inductive Eff
  | mk (ability : Nat) (args : List Ty)
end

/-- `Effect::ability_id`. -/
def Eff.ability : Eff → Nat
  | .mk a _ => a

/-- `Effect::args`. -/
def Eff.args : Eff → List Ty
  | .mk _ as => as

mutual
/-- Derived equality of `TypeKind` (types are interned, so equality of ids is equality of
kinds). -/
def Ty.beq : Ty → Ty → Bool
  | .uni v => fun b => match b with
    | .uni w => v == w
    | .node .. => false
  | .node h ks es r => fun b => match b with
    | .uni _ => false
    | .node h' ks' es' r' => h == h' && Ty.beqL ks ks' && Eff.beqL es es' && r == r'
/-- Derived equality of `Effect`. -/
def Eff.beq : Eff → Eff → Bool
  | .mk a as => fun e => match e with
    | .mk b bs => a == b && Ty.beqL as bs
/-- Derived equality of `Vec<Type>`. -/
def Ty.beqL : List Ty → List Ty → Bool
  | [] => fun us => us.isEmpty
  | t :: ts => fun us => match us with
    | [] => false
    | u :: us => t.beq u && Ty.beqL ts us
/-- Derived equality of `Vec<Effect>`. -/
def Eff.beqL : List Eff → List Eff → Bool
  | [] => fun us => us.isEmpty
  | t :: ts => fun us => match us with
    | [] => false
    | u :: us => t.beq u && Eff.beqL ts us
end

mutual
theorem Ty.beq_iff : ∀ a b : Ty, a.beq b = true ↔ a = b
  | .uni v, .uni w => by simp [Ty.beq]
  | .node h ks es r, .node h' ks' es' r' => by
    simp [Ty.beq, Ty.beqL_iff ks ks', Eff.beqL_iff es es', and_assoc]
  | .uni _, .node .. => by simp [Ty.beq]
  | .node .., .uni _ => by simp [Ty.beq]
theorem Eff.beq_iff : ∀ a b : Eff, a.beq b = true ↔ a = b
  | .mk a as, .mk b bs => by simp [Eff.beq, Ty.beqL_iff as bs]
theorem Ty.beqL_iff : ∀ a b : List Ty, Ty.beqL a b = true ↔ a = b
  | [], [] => by simp [Ty.beqL]
  | t :: ts, u :: us => by simp [Ty.beqL, Ty.beq_iff t u, Ty.beqL_iff ts us]
  | [], _ :: _ => by simp [Ty.beqL]
  | _ :: _, [] => by simp [Ty.beqL]
theorem Eff.beqL_iff : ∀ a b : List Eff, Eff.beqL a b = true ↔ a = b
  | [], [] => by simp [Eff.beqL]
  | t :: ts, u :: us => by simp [Eff.beqL, Eff.beq_iff t u, Eff.beqL_iff ts us]
  | [], _ :: _ => by simp [Eff.beqL]
  | _ :: _, [] => by simp [Eff.beqL]
end

instance : DecidableEq Ty := fun a b => decidable_of_iff _ (Ty.beq_iff a b)
instance : DecidableEq Eff := fun a b => decidable_of_iff _ (Eff.beq_iff a b)

/-- `EffectRow { effects, rest }`, `ast/types.rs` 300-366. -/
structure Row where
  effects : List Eff
  rest : Option Nat
  deriving DecidableEq

/-- `EffectRow::is_pure`, `ast/types.rs` 363-365. -/
def Row.isPure (r : Row) : Bool := r.effects.isEmpty && r.rest.isNone

/-! Abbreviations used in examples. -/

def tInt : Ty := .node (.prim 0) [] [] none
def tNat : Ty := .node (.prim 1) [] [] none
def tBool : Ty := .node (.prim 3) [] [] none
def tError : Ty := .node .error [] [] none
def tNever : Ty := .node .never [] [] none
def tBound (i : Nat) : Ty := .node (.bound i) [] [] none
def tNamed (id : Nat) (args : List Ty) : Ty := .node (.named id id) args [] none
def tTuple (es : List Ty) : Ty := .node .tuple es [] none
def tFunc (params : List Ty) (result : Ty) (row : Row) : Ty :=
  .node (.func 0) (params ++ [result]) row.effects row.rest

end Verif.Types
