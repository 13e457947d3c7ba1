/-!
# Which parameters a function only borrows

Models `compute_and_attach`, `collect_escaping_function_symbols`, `classify_borrowed_use`, `value_is_borrowed`,
`borrowed_use_kind`, `collect_call_contracts` and `action_for_entry` of
`crates/tribute-passes/src/native/ownership_summary.rs`.

Simplifications:
* symbols and values are numbers; a function body is the list of the operations in it, with those inside nested
  regions marked; blocks do not matter to the analysis;
* whether the type of a value lowers to `tribute_rt.anyref` is a flag of the parameter, or of the entry of a signature;
* the use chain of a value is the list of the operands that are the value;
* hash maps are functions to `Option`; the unspecified order in which the functions are visited is a parameter, and may
  differ from round to round;
* the set of recursive functions is a parameter (it is modelled in `Verif.CallGraph`);
* attributes are not written and read back; errors lose their text.
-/

namespace Verif.Borrow

/-- The signature of an indirect call: which parameters lower to `anyref`, and whether the result is `core.nil`. -/
structure Sig where
  params : List Bool
  empty : Bool
  deriving DecidableEq, Repr

/-- The operations that the analysis tells apart, `borrowed_use_kind` 905-939.  `read` stands for `mem.load`,
`clif.load`, `adt.struct_get`, `adt.variant_is`, `adt.variant_get`, `adt.array_get`, `adt.array_len` and
`adt.ref_is_null`; `compare` for `arith.cmpi` and `clif.icmp`; `cast` for `core.unrealized_conversion_cast`,
`adt.variant_cast` and `adt.ref_cast`. -/
inductive Kind where
  | call (callee : Nat)
  | callIndirect
  | tailCall (callee : Nat)
  | tailCallIndirect
  | constant (target : Nat)
  | read
  | memStore
  | clifStore
  | compare
  | cast
  | other
  deriving DecidableEq, Repr

/-- An operation: `nested` when it is in a region of another operation, `cps` when it carries that calling convention. -/
structure Op where
  kind : Kind
  operands : List Nat
  results : List Nat := []
  nested : Bool := false
  cps : Bool := false
  sig : Option Sig := none
  deriving DecidableEq, Repr

/-- A parameter, and whether its type lowers to `anyref`. -/
structure Param where
  value : Nat
  isRef : Bool
  deriving DecidableEq, Repr

/-- `func.func`.  A function without blocks has no parameters of its own (`entry_parameters`, 762-768). -/
structure Fn where
  name : Nat
  params : List Param
  ops : List Op
  abi : Bool := false
  cps : Bool := false
  nilResult : Bool := false
  hasBlocks : Bool := true
  deriving DecidableEq, Repr

abbrev Module := List Fn

/-- `entry_parameters`, 762-768. -/
def Fn.entry (f : Fn) : List Param := if f.hasBlocks then f.params else []

/-- `unique_functions`, 107-120: the functions whose name is defined once. -/
def unique (m : Module) : List Fn := m.filter (fun f => (m.filter (fun g => g.name == f.name)).length == 1)

/-- The symbol that an operation lets escape, 812-819. -/
def escapes (op : Op) : Option Nat :=
  match op.kind with
  | .constant g => some g
  | .tailCall g => some g
  | _ => none

/-- `collect_escaping_function_symbols`, 784-837. -/
def escaping (m : Module) : List Nat :=
  (m.flatMap (fun f => f.ops.filterMap escapes)).filter (fun g => (unique m).any (fun f => f.name == g))

/-- `ineligible`, 121-128. -/
def ineligible (rec : Nat → Bool) (m : Module) (s : Nat) : Bool :=
  rec s || (unique m).any (fun f => f.name == s && f.abi) || (escaping m).contains s

/-- `BorrowedUse`, 848-854. -/
inductive Use where
  | safe
  | alias_ (v : Nat)
  | direct (callee : Nat)
  | escaping
  deriving DecidableEq, Repr

/-- `classify_borrowed_use` 856-889 with `borrowed_use_kind` 905-939. -/
def classify (op : Op) (i : Nat) : Use :=
  if op.nested then .escaping
  else match op.kind with
    | .call g => .direct g
    | .read => if i = 0 then .safe else .escaping
    | .memStore => if i = 0 then .safe else .escaping
    | .clifStore => if i = 1 then .safe else .escaping
    | .compare => .safe
    | .cast => match op.operands, op.results with
      | [_], [r] => if i = 0 then .alias_ r else .escaping
      | _, _ => .escaping
    | _ => .escaping

/-- The use chain of a value. -/
def usesOf (f : Fn) (v : Nat) : List (Op × Nat) :=
  f.ops.flatMap (fun op => (op.operands.zipIdx.filter (fun x => x.1 == v)).map (fun x => (op, x.2)))

/-- For every function, whether each parameter is borrowed. -/
abbrev Summ := Nat → Option (List Bool)

/-- The look-up in 895-899, and `summaries[&symbol][index]` in 157. -/
def borrowedAt (s : Summ) (g i : Nat) : Bool := (s g).bind (fun l => l[i]?) == some true

/-- The loop over the uses in `value_is_borrowed`, 884-902, with the set of visited values. -/
def allUses (rec : List Nat → Nat → Option (Bool × List Nat)) (s : Summ) :
    List Nat → List (Op × Nat) → Option (Bool × List Nat)
  | vis, [] => some (true, vis)
  | vis, u :: us => match classify u.1 u.2 with
    | .safe => allUses rec s vis us
    | .alias_ a => match rec vis a with
      | some (true, vis') => allUses rec s vis' us
      | some (false, vis') => some (false, vis')
      | none => none
    | .direct g => if borrowedAt s g u.2 then allUses rec s vis us else some (false, vis)
    | .escaping => some (false, vis)

/-- `value_is_borrowed`, 873-903; `none` when the recursion is deeper than the first argument. -/
def valueBorrowed (f : Fn) (s : Summ) : Nat → List Nat → Nat → Option (Bool × List Nat)
  | 0, _, _ => none
  | n + 1, vis, v =>
    if vis.contains v then some (true, vis) else allUses (valueBorrowed f s n) s (v :: vis) (usesOf f v)

/-- `value_is_borrowed` for a parameter, 158; the recursion goes through casts only. -/
def isBorrowed (f : Fn) (s : Summ) (v : Nat) : Bool :=
  match valueBorrowed f s (f.ops.length + 2) [] v with
  | some (b, _) => b
  | none => false

/-- The summaries before the loop, 130-146. -/
def initial (rec : Nat → Bool) (m : Module) : Summ := fun s =>
  match (unique m).find? (fun f => f.name == s) with
  | some f => some (f.entry.map (fun p => !ineligible rec m s && p.isRef))
  | none => none

/-- `summaries.get_mut(&symbol)[index] = Owned`, 160-161. -/
def setOwned (s : Summ) (g i : Nat) : Summ := fun h => if h = g then (s g).map (fun l => l.set i false) else s h

/-- One parameter in the loop, 156-164. -/
def visitParam (f : Fn) (st : Summ × Bool) (x : Param × Nat) : Summ × Bool :=
  if borrowedAt st.1 f.name x.2 && !isBorrowed f st.1 x.1.value then (setOwned st.1 f.name x.2, true) else st

/-- One function in the loop, 149-165. -/
def visitFn (rec : Nat → Bool) (m : Module) (st : Summ × Bool) (f : Fn) : Summ × Bool :=
  if ineligible rec m f.name then st else f.entry.zipIdx.foldl (visitParam f) st

/-- One round, 148-166. -/
def round (rec : Nat → Bool) (m : Module) (order : List Fn) (s : Summ) : Summ × Bool :=
  order.foldl (visitFn rec m) (s, false)

/-- The loop, 147-170, with a limit on the rounds; `none` when it has not ended by then. -/
def loop (rec : Nat → Bool) (m : Module) (orders : Nat → List Fn) : Nat → Summ → Option Summ
  | 0, _ => none
  | n + 1, s =>
    if (round rec m (orders n) s).2 then loop rec m orders n (round rec m (orders n) s).1
    else some (round rec m (orders n) s).1

/-- The summaries that `compute_and_attach` attaches, 130-170. -/
def summarize (rec : Nat → Bool) (m : Module) (orders : Nat → List Fn) (fuel : Nat) : Option Summ :=
  loop rec m orders fuel (initial rec m)

/-! ## Contracts of functions and calls -/

/-- `RcOwnership`, 22-31: how a function treats a parameter, and what a call does for it. -/
inductive Mode where
  | plain
  | borrowed
  | retained
  | consumed
  | acquire
  | transfer
  deriving DecidableEq, Repr

/-- `is_defined_physical_cps_function`, 257-278. -/
def consuming (f : Fn) : Bool := f.cps && !f.abi && f.hasBlocks && f.nilResult

/-- The mode of a parameter, 176-189. -/
def entryMode (s : Summ) (f : Fn) (x : Param × Nat) : Mode :=
  if !x.1.isRef then .plain
  else if consuming f then .consumed
  else if borrowedAt s f.name x.2 then .borrowed
  else .retained

/-- `entry_contracts`, 172-193. -/
def entryContract (s : Summ) (m : Module) (g : Nat) : Option (List Mode) :=
  match (unique m).find? (fun f => f.name == g) with
  | some f => some (f.entry.zipIdx.map (entryMode s f))
  | none => none

/-- `action_for_entry`, 404-425; `none` is an error. -/
def actionFor (e : Mode) (tail : Bool) : Option Mode :=
  match tail, e with
  | true, .plain => some .plain
  | true, .consumed => some .transfer
  | true, _ => none
  | false, .plain => some .plain
  | false, .borrowed => some .borrowed
  | false, .retained => some .retained
  | false, .consumed => some .acquire
  | false, _ => none

/-- What `collect_call_contracts` does at a call: an error, nothing, or a contract. -/
inductive Contract where
  | error
  | absent
  | actions (l : List Mode)
  deriving DecidableEq, Repr

/-- The branch for direct calls, 310-334. -/
def directContract (s : Summ) (m : Module) (callee : Nat) (tail : Bool) (op : Op) : Contract :=
  match entryContract s m callee with
  | none => if tail then .error else .absent
  | some es =>
    if op.operands.length ≠ es.length then .error
    else match es.mapM (fun e => actionFor e tail) with
      | some l => .actions l
      | none => .error

/-- The branch for indirect tail calls, 335-374. -/
def indirectContract (op : Op) : Contract :=
  match op.sig with
  | none => .error
  | some sg =>
    if !sg.empty then .error
    else if (op.operands.drop 1).length ≠ sg.params.length then .error
    else .actions (sg.params.map (fun r => if r then .transfer else .plain))

/-- One operation in `collect_call_contracts`, 290-398; `isRef` says which values lower to `anyref`. -/
def contractOf (isRef : Nat → Bool) (s : Summ) (m : Module) (op : Op) : Contract :=
  match op.kind with
  | .call g => directContract s m g false op
  | .callIndirect => .absent
  | .tailCall g =>
    if !op.cps then (if op.operands.any isRef then .error else .absent) else directContract s m g true op
  | .tailCallIndirect =>
    if !op.cps then (if (op.operands.drop 1).any isRef then .error else .absent) else indirectContract op
  | _ => .absent

end Verif.Borrow
