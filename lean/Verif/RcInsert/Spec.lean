import Verif.RcInsert.Model
import Verif.Live.Spec

/-!
# Keeping account of references

A ledger says how many references the function holds for each tracked value.  It is kept along a path
through the body: a retain takes a reference, a release gives one back, a store, a return, a jump to a
block argument and a call that takes ownership move one away, and the result of an operation comes with
one (the result of a load does not).  Every reference that is given back or moved away must be there, and
a value may only be used while a reference to it is held.
-/

namespace Verif.RcInsert

open Verif.Live

abbrev Ledger := Nat → Nat

/-- The ledger, and the value that was loaded by the last instruction: its object is still held by the one
it was loaded from. -/
structure St where
  own : Ledger
  fresh : Option Nat

/-- The value is good to use: a reference is held, or it is borrowed (from the caller, or from the value it
was loaded from, which must be held itself), or it points into an object under construction. -/
def held (c : Config) (own : Ledger) (v : Nat) : Bool :=
  decide (1 ≤ own v) || c.params.contains v || c.temps.contains v || c.interm v || !c.inp.ptrs.contains v

/-- All that the operands depend on is good to use. -/
def usable (c : Config) (own : Ledger) (vs : List Nat) : Bool := (vs.flatMap (touched c.inp)).all (held c own)

/-- Parameters that the caller holds. -/
def callerHolds (c : Config) (v : Nat) : Bool :=
  match c.inp.body[0]? with
  | some blk => blk.args.contains v && !c.consumed.contains v
  | none => false

/-- The block a jump goes to. -/
def target (c : Config) (op : Op) : Option Block :=
  match op.succs with
  | [s] => c.inp.body[s]?
  | _ => none

/-- The operands whose reference a store, a return or a jump moves away. -/
def movedPlain (c : Config) (op : Op) : List Nat :=
  match op.kind with
  | .store => op.operands.head?.toList.filter (fun v => c.inp.info.anyref v && !c.inp.info.static v)
  | .ret => op.operands
  | .jump => match target c op with
    | some s => ((op.operands.zip s.args).filter (fun x => c.inp.info.anyref x.2)).map Prod.fst
    | none => []
  | _ => []

/-- What a call does with its operand at a place; the first operand of an indirect call is the callee. -/
def actionAt (ct : Contract) (n : Nat) : Option Action :=
  if ct.isIndirect then (match n with
    | 0 => none
    | k + 1 => ct.actions[k]?)
  else ct.actions[n]?

/-- The operands that a call does this with. -/
def withAction (a : Action) (ct : Contract) (op : Op) : List Nat :=
  op.operands.zipIdx.filterMap (fun x => if actionAt ct x.2 = some a then some x.1 else none)

/-- The operands that a tail call takes over. -/
def takenOver (c : Config) (b i : Nat) (op : Op) : List Nat :=
  match c.contract b i with
  | some ct => if ct.isTail then withAction .transfer ct op else []
  | none => []

/-- The operands whose reference moves away with a call. -/
def movedCall (c : Config) (b i : Nat) (op : Op) : List Nat :=
  match c.contract b i with
  | some ct => if ct.isTail then withAction .transfer ct op else withAction .acquire ct op
  | none => []

/-- The operands whose reference moves away with the operation. -/
def moved (c : Config) (b i : Nat) (op : Op) : List Nat := movedPlain c op ++ movedCall c b i op

/-- The operands that the operation only uses: all but the ones a tail call takes over. -/
def lent (c : Config) (b i : Nat) (op : Op) : List Nat :=
  match c.contract b i with
  | some ct =>
    if ct.isTail then
      op.operands.zipIdx.filterMap (fun x => if actionAt ct x.2 = some .transfer then none else some x.1)
    else op.operands
  | none => op.operands

def set (own : Ledger) (v n : Nat) : Ledger := fun w => if w = v then n else own w

/-- References move away; `none` when one is not there. -/
def give (c : Config) : List Nat → Ledger → Option Ledger
  | [], own => some own
  | v :: vs, own =>
    if c.inp.ptrs.contains (rootOf c.inp v) then
      if 1 ≤ own (rootOf c.inp v) then give c vs (set own (rootOf c.inp v) (own (rootOf c.inp v) - 1)) else none
    else give c vs own

/-- The results of an operation come with a reference, except for loads and for pointers into an object
under construction. -/
def define (c : Config) (op : Op) (own : Ledger) : Ledger :=
  fun v => if (defined c.inp op).contains v then (if op.kind = .load || c.interm v then 0 else 1) else own v

/-- One instruction; `none` when an object is used that may be gone, or a reference is given away that is
not held. -/
def exec (c : Config) (b : Nat) (st : St) : Instr → Option St
  | .retain v =>
    if st.fresh == some v || callerHolds c v || usable c st.own [v] then
      some ⟨set st.own (rootOf c.inp v) (st.own (rootOf c.inp v) + 1), none⟩
    else none
  | .release v =>
    if 1 ≤ st.own (rootOf c.inp v) then some ⟨set st.own (rootOf c.inp v) (st.own (rootOf c.inp v) - 1), none⟩
    else none
  | .op i op =>
    if usable c st.own (lent c b i op) then
      match give c (moved c b i op) st.own with
      | some own => some ⟨define c op own, if op.kind = .load then op.results.head? else none⟩
      | none => none
    else none

def execAll (c : Config) (b : Nat) : St → List Instr → Option St
  | st, [] => some st
  | st, x :: xs => match exec c b st x with
    | some st' => execAll c b st' xs
    | none => none

/-- A block with the instructions put into it by the pass. -/
def runBlock (c : Config) (l : Live) (b : Nat) (own : Ledger) : Option Ledger :=
  match c.inp.body[b]? with
  | some blk => (execAll c b ⟨own, none⟩ (insertBlock c l b blk)).map St.own
  | none => some own

/-- From block `b` to block `s`: with a jump, the arguments of the block receive the references. -/
def enter (c : Config) (b s : Nat) (own : Ledger) : Ledger :=
  match c.inp.body[b]?, c.inp.body[s]? with
  | some bb, some sb => match bb.ops.getLast? with
    | some op => fun v =>
      if op.kind = .jump ∧ v ∈ (sb.args.take op.operands.length).filter c.inp.info.anyref then 1 else own v
    | none => own
  | _, _ => own

/-- The ledger at the start: what was passed with ownership. -/
def initial (c : Config) : Ledger := fun v =>
  match c.inp.body[0]? with
  | some blk => if blk.args.contains v && c.inp.info.anyref v && c.consumed.contains v then 1 else 0
  | none => 0

/-- The blocks of a path, one after the other. -/
def runPath (c : Config) (l : Live) : List Nat → Ledger → Option Ledger
  | [], own => some own
  | b :: rest, own => match runBlock c l b own with
    | none => none
    | some own' => match rest with
      | [] => some own'
      | s :: _ => runPath c l rest (enter c b s own')

/-- A path through the body, from the entry. -/
inductive IsPath (body : Body) : List Nat → Prop
  | entry : IsPath body [0]
  | step {p b s blk} : IsPath body (p ++ [b]) → body[b]? = some blk → s ∈ succsOf blk → IsPath body (p ++ [b, s])

/-- The function keeps references of its own to the value. -/
def Owned (c : Config) (v : Nat) : Prop :=
  v ∈ c.inp.ptrs ∧ v ∉ c.params ∧ v ∉ c.temps ∧ c.interm v = false

/-- The places of an operation. -/
def At (c : Config) (b i : Nat) (op : Op) : Prop := ∃ blk, c.inp.body[b]? = some blk ∧ blk.ops[i]? = some op

/-- Bodies as they come out of the earlier passes, and what the borrow analysis and the call contracts
promise. -/
structure Regular (c : Config) : Prop where
  /-- Block arguments are not constants, and not results of operations. -/
  args : ∀ blk ∈ c.inp.body, ∀ v ∈ blk.args, c.inp.info.static v = false ∧
    ∀ b ∈ c.inp.body, ∀ op ∈ b.ops, v ∉ op.results
  /-- The result of a load is not a constant, and not the result of a cast. -/
  loads : ∀ b i op, At c b i op → op.kind = .load → ∀ v ∈ op.results, op.results = [v] ∧
    c.inp.info.static v = false ∧ ∀ b ∈ c.inp.body, ∀ op ∈ b.ops, op.kind = .cast → v ∉ op.results
  casts : CastsInOrder (c.inp.body.flatMap (·.ops))
  /-- Borrowed values borrow from tracked ones. -/
  owners_tracked : ∀ w o, c.inp.deps.lookup w = some o → o ∈ c.inp.ptrs
  /-- Values are defined before they are used. -/
  entry : ∀ v ∈ c.inp.ptrs, ¬ LiveIn c.inp v 0
  /-- Terminators end blocks. -/
  last : ∀ (b : Nat) (blk : Block) (i : Nat) (op : Op), c.inp.body[b]? = some blk → blk.ops[i]? = some op → isTerminator op = true →
    i + 1 = blk.ops.length
  /-- No reference is returned twice, and only owned ones are. -/
  ret : ∀ b i op, At c b i op → op.kind = .ret →
    ((op.operands.map (rootOf c.inp)).filter (c.inp.ptrs.contains ·)).Nodup ∧
    ∀ v ∈ op.operands, rootOf c.inp v ∈ c.inp.ptrs → Owned c (rootOf c.inp v)
  /-- A jump goes to a block with as many arguments.  No reference is passed twice, only owned ones are,
  and none that is still needed under its old name. -/
  jump : ∀ b i op, At c b i op → op.kind = .jump →
    (∃ s blk, op.succs = [s] ∧ c.inp.body[s]? = some blk ∧ op.operands.length = blk.args.length) ∧
    (((moved c b i op).map (rootOf c.inp)).filter (c.inp.ptrs.contains ·)).Nodup ∧
    ∀ v ∈ moved c b i op, rootOf c.inp v ∈ c.inp.ptrs →
      Owned c (rootOf c.inp v) ∧ ¬ LiveOut c.inp (rootOf c.inp v) b
  /-- Branches use no references, and pass none to the blocks they go to. -/
  branch : ∀ b i op, At c b i op → (op.kind = .brif ∨ op.kind = .brTable ∨ op.kind = .trap) →
    (∀ v ∈ op.operands, touched c.inp v = []) ∧
    ∀ s ∈ op.succs, ∀ blk, c.inp.body[s]? = some blk → ∀ v ∈ blk.args, c.inp.info.anyref v = false
  /-- Only jumps and branches have successors. -/
  succs : ∀ b i op, At c b i op → op.succs ≠ [] → op.kind = .jump ∨ op.kind = .brif ∨ op.kind = .brTable
  /-- Tail calls take over every reference they are passed. -/
  tail : ∀ b i op, At c b i op → (op.kind = .returnCall ∨ op.kind = .returnCallIndirect) →
    (∀ v ∈ lent c b i op, touched c.inp v = []) ∧
    ∀ v ∈ takenOver c b i op, rootOf c.inp v ∈ c.inp.ptrs → c.interm (rootOf c.inp v) = false
  /-- Contracts are for calls. -/
  contracts : ∀ b i op ct, At c b i op → c.contract b i = some ct →
    (ct.isTail = true ∧ (op.kind = .returnCall ∨ op.kind = .returnCallIndirect)) ∨
    (ct.isTail = false ∧ (op.kind = .call ∨ op.kind = .other))
  /-- Pointers into an object under construction are used in one block only. -/
  interm_local : ∀ v b, c.interm v = true → ¬ LiveIn c.inp v b

/-- What is needed besides for references not to be lost. -/
structure Tidy (c : Config) : Prop where
  /-- Every value is defined once. -/
  ssa : (c.inp.body.flatMap (fun blk => blk.args ++ blk.ops.flatMap (·.results))).Nodup
  /-- No block goes back to the entry. -/
  first : ∀ blk ∈ c.inp.body, 0 ∉ succsOf blk
  /-- Borrowed parameters are parameters, and not passed with ownership. -/
  params : ∀ v ∈ c.params, v ∉ c.consumed ∧ v ∈ c.inp.ptrs ∧ ∃ blk, c.inp.body[0]? = some blk ∧ v ∈ blk.args
  /-- Borrowed temporaries are loaded. -/
  temps : ∀ v ∈ c.temps, c.inp.info.anyref v = true ∧ ∃ b i op, At c b i op ∧ op.kind = .load ∧ v ∈ op.results
  /-- Pointers into an object under construction are computed, not loaded. -/
  interm : ∀ v, c.interm v = true → ∃ b i op, At c b i op ∧ op.kind ≠ .load ∧ v ∈ op.results
  /-- Every block ends with a terminator. -/
  ends : ∀ blk ∈ c.inp.body, ∃ op, blk.ops.getLast? = some op ∧ isTerminator op = true
  /-- Terminators have no results. -/
  noResults : ∀ b i op, At c b i op → isTerminator op = true → op.results = []
  /-- What is returned or passed to a block borrows from nothing. -/
  noBorrow : ∀ b i op, At c b i op → (op.kind = .ret ∨ op.kind = .jump) → ∀ v ∈ op.operands, c.inp.deps.lookup v = none
  /-- References are passed to block arguments that are references. -/
  jumpTypes : ∀ b i op s, At c b i op → op.kind = .jump → target c op = some s →
    ∀ x ∈ op.operands.zip s.args, rootOf c.inp x.1 ∈ c.inp.ptrs → c.inp.info.anyref x.2 = true

/-- Along the path, everything that is live at the end of a block is live at the start of the next. -/
def StaysLive (c : Config) (p : List Nat) : Prop :=
  ∀ pre b s post, p = pre ++ b :: s :: post → ∀ v ∈ c.inp.ptrs, LiveOut c.inp v b → LiveIn c.inp v s

end Verif.RcInsert
