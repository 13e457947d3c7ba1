import Verif.Dce.Model
/-!
# Specification: running a program, and what may be removed from it

Programs are run by an arbitrary interpretation of operation names. An operation sees the values of
its operands, its successors, the behaviour of its regions and the program state, and either
produces results, jumps to a block of the same region, leaves the region, or traps.
-/
namespace Verif.Dce

/-- How running a region ends. -/
inductive Out (Val S : Type) where
  | leave (vals : List Val) (s : S)
  | trap
  | stuck
  | outOfFuel

/-- What an operation does. -/
inductive Step (Val S : Type) where
  | next (results : List Val) (s : S)
  | jump (block : Nat) (args : List Val) (s : S)
  | leave (vals : List Val) (s : S)
  | trap
  | stuck
  | outOfFuel

/-- An interpretation of operation names. -/
abbrev Interp (Val S : Type) :=
  OpName → List Val → List Nat → List (List Val → S → Out Val S) → S → Step Val S

abbrev Env (Val : Type) := Value → Option Val

/-- Bind names to values; `none` when the numbers differ. -/
def bindAll {Val : Type} (env : Env Val) : List Value → List Val → Option (Env Val)
  | [], [] => some env
  | n :: ns, v :: vs => bindAll (fun x => if x = n then some v else env x) ns vs
  | _, _ => none

/-- Values of the operands. -/
def look {Val : Type} (env : Env Val) : List Value → Option (List Val)
  | [] => some []
  | n :: ns => do
    let v ← env n
    let vs ← look env ns
    some (v :: vs)

/-- The `i`-th block. -/
def Blocks.get? : Blocks → Nat → Option (List Value × Ops)
  | .nil, _ => none
  | .cons ps os _, 0 => some (ps, os)
  | .cons _ _ bs, i + 1 => bs.get? i

/-- The regions as a list. -/
def Regions.toList : Regions → List Blocks
  | .nil => []
  | .cons bs rs => bs :: rs.toList

/-- Run the operations of a block; `call` runs a block of a region in an environment. -/
def runOps {Val S : Type} (I : Interp Val S)
    (call : Blocks → Nat → Env Val → List Val → S → Out Val S) (here : Blocks) :
    Ops → Env Val → S → Out Val S
  | .nil, _, _ => .stuck
  | .cons (.mk h rs) os, env, s =>
    match look env h.operands with
    | none => .stuck
    | some vals =>
      match I h.name vals h.successors (rs.toList.map fun bs args s => call bs 0 env args s) s with
      | .next results s' =>
        match bindAll env h.results results with
        | none => .stuck
        | some env' => runOps I call here os env' s'
      | .jump b args s' => call here b env args s'
      | .leave vs s' => .leave vs s'
      | .trap => .trap
      | .stuck => .stuck
      | .outOfFuel => .outOfFuel

/-- Run block `i` of a region with the given arguments; `n` bounds the number of jumps and nested
calls. -/
def run {Val S : Type} (I : Interp Val S) :
    Nat → Blocks → Nat → Env Val → List Val → S → Out Val S
  | 0, _, _, _, _, _ => .outOfFuel
  | n + 1, bs, i, env, args, s =>
    match bs.get? i with
    | none => .stuck
    | some (ps, os) =>
      match bindAll env ps args with
      | none => .stuck
      | some env' => runOps I (run I n) bs os env' s

/-- `b` is as good as `a`: the same, or `a` is the run of a malformed program, or (when `traps`)
`a` is a trap. -/
def Out.Refines {Val S : Type} (traps : Bool) (a b : Out Val S) : Prop :=
  a = b ∨ a = .stuck ∨ (traps = true ∧ a = .trap)

/-- See `Out.Refines`. -/
def Step.Refines {Val S : Type} (traps : Bool) (a b : Step Val S) : Prop :=
  a = b ∨ a = .stuck ∨ (traps = true ∧ a = .trap)

/-- The interpretation respects the purity marks: an operation marked pure has no effect on the
state and hands over its results, unless (when `traps`) it traps. -/
def RespectsPure {Val S : Type} (traps : Bool) (I : Interp Val S) (pure : OpName → Bool) : Prop :=
  ∀ name, pure name = true → ∀ (vals : List Val) succs regs s,
    (∃ rs, I name vals succs regs s = .next rs s) ∨
    (traps = true ∧ I name vals succs regs s = .trap)

/-- The program cannot observe a fault of a region: an operation some regions of which are replaced
by regions that are as good is itself as good. -/
def FaultsUnobserved {Val S : Type} (traps : Bool) (I : Interp Val S) : Prop :=
  ∀ name vals succs (r1 r2 : List (List Val → S → Out Val S)) s, r1.length = r2.length →
    (∀ (i : Nat) a b, r1[i]? = some a → r2[i]? = some b → ∀ args s, (a args s).Refines traps (b args s)) →
    (I name vals succs r1 s).Refines traps (I name vals succs r2 s)

mutual
/-- Some operation of the tree, at any depth, satisfies `P`. -/
def OccursOp (P : Op → Prop) : Op → Prop
  | .mk h rs => P (.mk h rs) ∨ OccursRegions P rs
/-- See `OccursOp`. -/
def OccursOps (P : Op → Prop) : Ops → Prop
  | .nil => False
  | .cons o os => OccursOp P o ∨ OccursOps P os
/-- See `OccursOp`. -/
def OccursBlocks (P : Op → Prop) : Blocks → Prop
  | .nil => False
  | .cons _ os bs => OccursOps P os ∨ OccursBlocks P bs
/-- See `OccursOp`. -/
def OccursRegions (P : Op → Prop) : Regions → Prop
  | .nil => False
  | .cons bs rs => OccursBlocks P bs ∨ OccursRegions P rs
end

/-- The head of an operation. -/
def Op.head : Op → Head
  | .mk h _ => h

/-- The regions of an operation. -/
def Op.regions : Op → Regions
  | .mk _ rs => rs

mutual
/-- All operations of the tree, in order of appearance. -/
def Op.heads : Op → List Head
  | .mk h rs => h :: rs.heads
/-- See `Op.heads`. -/
def Ops.heads : Ops → List Head
  | .nil => []
  | .cons o os => o.heads ++ os.heads
/-- See `Op.heads`. -/
def Blocks.heads : Blocks → List Head
  | .nil => []
  | .cons _ os bs => os.heads ++ bs.heads
/-- See `Op.heads`. -/
def Regions.heads : Regions → List Head
  | .nil => []
  | .cons bs rs => bs.heads ++ rs.heads
end

/-- Some operation of the program has `v` among its operands. -/
def UsedIn (v : Value) (rs : Regions) : Prop := OccursRegions (fun o => v ∈ o.head.operands) rs

mutual
/-- The second tree is the first one with some pure operations (and all below them) left out, the
results of which satisfy `D`; everything else is kept, in order. -/
inductive ShrunkOps (pure : OpName → Bool) (D : Value → Prop) : Ops → Ops → Prop where
  | nil : ShrunkOps pure D .nil .nil
  | drop {h rs os os'} : pure h.name = true → (∀ v ∈ h.results, D v) →
      ShrunkOps pure D os os' → ShrunkOps pure D (.cons (.mk h rs) os) os'
  | keep {h rs rs' os os'} : ShrunkRegions pure D rs rs' → ShrunkOps pure D os os' →
      ShrunkOps pure D (.cons (.mk h rs) os) (.cons (.mk h rs') os')
/-- See `ShrunkOps`. -/
inductive ShrunkBlocks (pure : OpName → Bool) (D : Value → Prop) : Blocks → Blocks → Prop where
  | nil : ShrunkBlocks pure D .nil .nil
  | cons {ps os os' bs bs'} : ShrunkOps pure D os os' → ShrunkBlocks pure D bs bs' →
      ShrunkBlocks pure D (.cons ps os bs) (.cons ps os' bs')
/-- See `ShrunkOps`. -/
inductive ShrunkRegions (pure : OpName → Bool) (D : Value → Prop) : Regions → Regions → Prop where
  | nil : ShrunkRegions pure D .nil .nil
  | cons {bs bs' rs rs'} : ShrunkBlocks pure D bs bs' → ShrunkRegions pure D rs rs' →
      ShrunkRegions pure D (.cons bs rs) (.cons bs' rs')
end

/-- The use chains are those of the program: as many entries as operand positions in the scope that
name the value, plus `ext v` positions outside the scope. -/
def ExactUses (ext : Value → Nat) (rs : Regions) (u : Uses) : Prop :=
  ∀ v, u v = ext v + (rs.heads.flatMap Head.operands).count v

end Verif.Dce
