import Verif.NativeCall.Model

/-!
What functions and calls mean, and when they fit together, before and after the pass.
-/

namespace Verif.NativeCall

/-- The values an operation mentions. -/
def Op.ids : Op → List Nat
  | .call _ args r => r :: args
  | .callIndirect c args r => r :: c :: args
  | .tailCall _ args => args
  | .tailCallIndirect _ _ c args => c :: args
  | .ret vs => vs
  | .unreachable => []
  | .constant _ r => [r]
  | .cast v _ r => [r, v]
  | .clifCall _ args r => r :: args
  | .clifCallIndirect _ c args r => r :: c :: args
  | .returnCall _ args => args
  | .returnCallIndirect _ c args => c :: args
  | .clifReturn vs => vs
  | .trap => []
  | .symbolAddr _ r => [r]
  | .other _ args rs => args ++ rs

/-- All values of a module are below `n`. -/
def Below (n : Nat) (fs : List Func) : Prop :=
  ∀ f ∈ fs, ∀ b ∈ f.blocks, (∀ v ∈ b.args, v < n) ∧ ∀ op ∈ b.ops, ∀ v ∈ op.ids, v < n

/-- What an operation does, whatever its dialect. -/
inductive Event where
  | call (f : String) (args : List Nat) (r : Nat)
  | indirect (c : Nat) (args : List Nat) (r : Nat)
  | tail (f : String) (args : List Nat)
  | tailIndirect (c : Nat) (args : List Nat)
  | ret (vs : List Nat)
  | trap
  | address (f : String) (r : Nat)
  | other (k : Nat) (args : List Nat) (rs : List Nat)
  deriving DecidableEq, Repr

/-- What operations do in order, on which values: casts stand for the value that is cast. -/
def trace : List Op → (Nat → Nat) → List Event
  | [], _ => []
  | .cast v _ r :: ops, al => trace ops (fun x => if x = r then al v else al x)
  | .call f args r :: ops, al => .call f (args.map al) r :: trace ops al
  | .clifCall f args r :: ops, al => .call f (args.map al) r :: trace ops al
  | .callIndirect c args r :: ops, al => .indirect (al c) (args.map al) r :: trace ops al
  | .clifCallIndirect _ c args r :: ops, al => .indirect (al c) (args.map al) r :: trace ops al
  | .tailCall f args :: ops, al => .tail f (args.map al) :: trace ops al
  | .returnCall f args :: ops, al => .tail f (args.map al) :: trace ops al
  | .tailCallIndirect _ _ c args :: ops, al => .tailIndirect (al c) (args.map al) :: trace ops al
  | .returnCallIndirect _ c args :: ops, al => .tailIndirect (al c) (args.map al) :: trace ops al
  | .ret vs :: ops, al => .ret (vs.map al) :: trace ops al
  | .clifReturn vs :: ops, al => .ret (vs.map al) :: trace ops al
  | .unreachable :: ops, al => .trap :: trace ops al
  | .trap :: ops, al => .trap :: trace ops al
  | .constant f r :: ops, al => .address f r :: trace ops al
  | .symbolAddr f r :: ops, al => .address f r :: trace ops al
  | .other k args rs :: ops, al => .other k (args.map al) rs :: trace ops al

/-- What the functions of a module do. -/
def behaviour (fs : List Func) : List (String × List (List Nat × List Event)) :=
  fs.map fun f => (f.name, f.blocks.map fun b => (b.args, trace b.ops id))

/-- Parameters and result of a type of functions, in both layouts. -/
def FnTy.sig : FnTy → Option (List Ty × Ty)
  | .func params (some r) => some (params, r)
  | .func (r :: params) none => some (params, r)
  | .func [] none => some ([], .nil)
  | .other _ => none

/-- The signature of the function of the given name. -/
def declared (fs : List Func) (name : String) : Option (List Ty × Ty) :=
  (fs.find? (fun f => f.name = name)).bind (·.ty.sig)

/-- The values a function with the given result returns. -/
def returned (result : Ty) : List Ty := if result = .nil then [] else [result]

/-- Operations before the pass that fit the functions they are about: direct calls and returns have
the declared types, tail calls through a value record the types they pass. -/
def Fits (conv : Ty → Option Ty) (ty : Nat → Ty) (decl : String → Option (List Ty × Ty))
    (result : Ty) : Op → Prop
  | .call f args r => decl f = some (args.map ty, ty r)
  | .callIndirect _ _ _ => True
  | .tailCall f args => decl f = some (args.map ty, result)
  | .tailCallIndirect cc sig _ args => cc = some 2 ∧ sig = some (args.map ty, .nil)
  | .ret vs => vs.map ty = returned result
  | .unreachable => True
  | .constant _ r => (conv (ty r)).getD (ty r) = .ptr
  | .cast v t r => ty r = t ∧ (conv (ty v)).getD (ty v) = t ∧ (conv t).getD t = t
  | .other _ _ _ => True
  | _ => False

/-- The same after the pass. The result of a call keeps its old type; it is read as the converted
one. -/
def FitsNative (conv : Ty → Option Ty) (ty : Nat → Ty) (decl : String → Option (List Ty × Ty))
    (result : Ty) : Op → Prop
  | .clifCall f args r => decl f = some (args.map ty, (conv (ty r)).getD (ty r))
  | .clifCallIndirect sig _ args r => sig = (args.map ty, (conv (ty r)).getD (ty r))
  | .returnCall f args => decl f = some (args.map ty, result)
  | .returnCallIndirect sig _ args => sig = (args.map ty, .nil)
  | .clifReturn vs => vs.map ty = returned result
  | .trap => True
  | .symbolAddr _ r => ty r = .ptr
  | .cast v t r => ty r = t ∧ (conv (ty v)).getD (ty v) = t
  | .other _ args _ => ∀ v ∈ args, (conv (ty v)).getD (ty v) = ty v
  | _ => False

/-- A module all of whose functions and operations fit. -/
def AllFit (fits : (Nat → Ty) → (String → Option (List Ty × Ty)) → Ty → Op → Prop) (ty : Nat → Ty)
    (fs : List Func) : Prop :=
  ∀ f ∈ fs, ∃ sig, f.ty.sig = some sig ∧
    (∀ b, f.blocks.head? = some b → b.args.map ty = sig.1) ∧
    ∀ b ∈ f.blocks, ∀ op ∈ b.ops, fits ty (declared fs) sig.2 op

/-- Conversions that are done after one step and do not confuse having a result with having none. -/
structure Sound (conv : Ty → Option Ty) : Prop where
  again : ∀ t, (conv ((conv t).getD t)).getD ((conv t).getD t) = (conv t).getD t
  nil : ∀ t, (conv t).getD t = .nil ↔ t = .nil

/-- Tail calls through a value pass only values whose types the conversion leaves alone. -/
def TailFixed (conv : Ty → Option Ty) (ty : Nat → Ty) : Op → Prop
  | .tailCallIndirect _ _ _ args => ∀ v ∈ args, (conv (ty v)).getD (ty v) = ty v
  | _ => True

/-- The signature of a call through a value. -/
def Op.indirectSig (conv : Ty → Option Ty) (ty : Nat → Ty) : Op → Option (List Ty × Ty)
  | .callIndirect _ args r =>
    some (args.map (fun v => (conv (ty v)).getD (ty v)), (conv (ty r)).getD (ty r))
  | _ => none

def Op.recordedSig : Op → Option (List Ty × Ty)
  | .clifCallIndirect sig _ _ _ => some sig
  | _ => none

/-- The signatures of calls through values: before the pass what the values are converted to, after
it what is recorded. -/
def indirectSigs (conv : Ty → Option Ty) (ty : Nat → Ty) (fs : List Func) : List (List Ty × Ty) :=
  fs.flatMap fun f => f.blocks.flatMap fun b => b.ops.filterMap (Op.indirectSig conv ty)

def recordedSigs (fs : List Func) : List (List Ty × Ty) :=
  fs.flatMap fun f => f.blocks.flatMap fun b => b.ops.filterMap Op.recordedSig

end Verif.NativeCall
