/-!
# The IR validators

Model of `crates/trunk-ir/src/validation.rs`: scope of values, use chains, operation verifiers and
call arity. Operations, blocks and regions form a tree; values, types and operations are numbers.
The sets of the code are lists here: only membership in them is used, except that reports that come
out of iterating a hash set have no fixed order in the code and come in the order of the walk here.
Of a report only its data is kept, not its wording. A module without a body (every validator then
returns at once) is a module with an empty one.
-/
namespace Verif.Validate

/-- What an operation is, without its regions. Of the attributes only those the validators look at:
`sym_name`, `type`, `callee`, `predicate`. -/
structure Head where
  id : Nat
  dialect : String
  name : String
  operands : List Nat := []
  results : List Nat := []
  symName : Option String := none
  fnType : Option Nat := none
  callee : Option String := none
  predicate : Option String := none
deriving DecidableEq, Repr

mutual
/-- An operation and its regions; a region is a list of blocks. -/
inductive Op where
  | mk (head : Head) (regions : List (List Block))
/-- A block: its arguments and its operations. -/
inductive Block where
  | mk (args : List Nat) (ops : List Op)
end

abbrev Region := List Block

def Op.head : Op → Head | .mk h _ => h
def Op.regions : Op → List Region | .mk _ rs => rs
def Block.args : Block → List Nat | .mk a _ => a
def Block.ops : Block → List Op | .mk _ o => o

/-- `TypeData` in the type interner (types.rs): what a type reference stands for. -/
structure TypeData where
  dialect : String
  name : String
  params : List Nat := []
deriving DecidableEq, Repr

/-- What the validators ask the context: the data of a type, the type of a value, the recorded uses
of a value (user and operand index). -/
structure Ctx where
  types : Nat → TypeData
  valueTy : Nat → Nat
  uses : Nat → List (Nat × Nat)

/-- The operations of a region's blocks, not those nested in them: the two `for` loops that most of
the functions below start with. -/
def topOps : Region → List Op
  | [] => []
  | .mk _ ops :: bs => ops ++ topOps bs

/-! ### Scope -/

/-- `collect_region_top_level`, validation.rs 97-108. -/
def regionTopLevel : Region → List Nat
  | [] => []
  | .mk args ops :: bs => args ++ ops.flatMap (fun o => o.head.results) ++ regionTopLevel bs

/-- `ValidationError::StaleValue`, without the description of the value. -/
structure Stale where
  functionName : String
  consumerDialect : String
  consumerName : String
  operandIndex : Nat
deriving DecidableEq, Repr

/-- validation.rs 151-161: one operation's operands, from index `i` on. -/
def staleOperands (visible : List Nat) (fn : String) (h : Head) : Nat → List Nat → List Stale
  | _, [] => []
  | i, v :: vs =>
    (if visible.contains v then [] else [⟨fn, h.dialect, h.name, i⟩])
      ++ staleOperands visible fn h (i + 1) vs

mutual
/-- The loops of `check_operands_in_region`, validation.rs 149-167; `visible` is already extended. -/
def checkBlocks (fn : String) (visible : List Nat) : List Block → List Stale
  | [] => []
  | .mk _ ops :: bs => checkOps fn visible ops ++ checkBlocks fn visible bs
def checkOps (fn : String) (visible : List Nat) : List Op → List Stale
  | [] => []
  | .mk h rs :: ops =>
    staleOperands visible fn h 0 h.operands ++ checkRegions fn visible rs ++ checkOps fn visible ops
/-- `check_operands_in_region` for each region of a list, validation.rs 137-147 and 163-165. -/
def checkRegions (fn : String) (outer : List Nat) : List (List Block) → List Stale
  | [] => []
  | r :: rs => checkBlocks fn (outer ++ regionTopLevel r) r ++ checkRegions fn outer rs
end

/-- validation.rs 201-202. -/
def isFunction (h : Head) : Bool :=
  (h.dialect == "func" || h.dialect == "wasm") && h.name == "func"

/-- validation.rs 205-209. -/
def fnName (h : Head) : String := h.symName.getD "<unnamed>"

mutual
/-- `validate_functions_in_region`, validation.rs 188-224. -/
def functionsInBlocks : List Block → List Stale
  | [] => []
  | .mk _ ops :: bs => functionsInOps ops ++ functionsInBlocks bs
def functionsInOps : List Op → List Stale
  | [] => []
  | .mk h rs :: ops =>
    (if isFunction h then checkRegions (fnName h) [] rs else [])
      ++ functionsInRegions rs ++ functionsInOps ops
def functionsInRegions : List (List Block) → List Stale
  | [] => []
  | r :: rs => functionsInBlocks r ++ functionsInRegions rs
end

/-- `validate_value_integrity`, validation.rs 173-187. -/
def valueIntegrity (body : Region) : List Stale := functionsInBlocks body

/-! ### The walk -/

mutual
/-- `walk_region` with a callback that always advances (walk.rs): every operation, outer before
inner. -/
def walkRegion : List Block → List Op
  | [] => []
  | .mk _ ops :: bs => walkOps ops ++ walkRegion bs
def walkOps : List Op → List Op
  | [] => []
  | .mk h rs :: ops => (.mk h rs) :: walkRegions rs ++ walkOps ops
def walkRegions : List (List Block) → List Op
  | [] => []
  | r :: rs => walkRegion r ++ walkRegions rs
end

/-! ### Use chains -/

/-- `(operand, op, idx)` of one operation, from index `i` on: validation.rs 248-250. -/
def operandUses (op : Nat) : Nat → List Nat → List (Nat × Nat × Nat)
  | _, [] => []
  | i, v :: vs => (v, op, i) :: operandUses op (i + 1) vs

/-- `actual_uses`, validation.rs 245-252. -/
def actualUses (body : Region) : List (Nat × Nat × Nat) :=
  (walkRegion body).flatMap fun o => operandUses o.head.id 0 o.head.operands

mutual
/-- `collect_block_values` for each block of a list, validation.rs 617-629. -/
def blockValues : List Block → List Nat
  | [] => []
  | .mk args ops :: bs => args ++ blockValuesOps ops ++ blockValues bs
def blockValuesOps : List Op → List Nat
  | [] => []
  | .mk _ rs :: ops => blockValuesRegions rs ++ blockValuesOps ops
def blockValuesRegions : List (List Block) → List Nat
  | [] => []
  | r :: rs => blockValues r ++ blockValuesRegions rs
end

/-- `checked_values`, validation.rs 272-287. -/
def checkedValues (body : Region) : List Nat :=
  (actualUses body).map (·.1) ++ (walkRegion body).flatMap (fun o => o.head.results)
    ++ blockValues body

/-- `ValidationError::UseChain`: which use is missing or made up. -/
inductive UseError where
  | noEntry (value user index : Nat)
  | noOperand (value user index : Nat)
deriving DecidableEq, Repr

/-- `validate_use_chains`, validation.rs 234-300. -/
def useChains (c : Ctx) (body : Region) : List UseError :=
  (actualUses body).flatMap (fun u =>
      if (c.uses u.1).any (fun e => e.1 == u.2.1 && e.2 == u.2.2) then []
      else [.noEntry u.1 u.2.1 u.2.2])
    ++ (checkedValues body).flatMap (fun v =>
      (c.uses v).flatMap fun e =>
        if (actualUses body).contains (v, e.1, e.2) then [] else [.noOperand v e.1 e.2])

/-! ### Operation verifiers -/

/-- What an operation verifier complains about. -/
inductive Complaint where
  | predicateMissing | predicateUnsupported
  | ifOperands | ifRegions | ifBlocks | ifTerminator | ifYield
  | loopResults | switchResults
  | tailResults | tailCallee | tailClosure | tailType | tailNever | tailCount | tailArgument
deriving DecidableEq, Repr

/-- `core.never`, as tested in validation.rs 385-386 and 563-564. -/
def isNever (t : TypeData) : Bool := t.dialect == "core" && t.name == "never"

/-- `validate_func_tail_call_indirect` from the function type on, validation.rs 368-407. -/
def tailCallType (c : Ctx) (args : List Nat) (fnTy : Nat) : List Complaint :=
  let t := c.types fnTy
  if t.dialect != "core" || t.name != "func" then [.tailType] else
  match t.params with
  | [] => [.tailType]
  | ret :: expected =>
    (if isNever (c.types ret) then [] else [.tailNever])
      ++ (if args.length != expected.length then [.tailCount]
          else (args.zip expected).flatMap fun p =>
            if c.valueTy p.1 != p.2 then [.tailArgument] else [])

/-- `validate_func_tail_call_indirect`, validation.rs 337-408. -/
def tailCallIndirect (c : Ctx) (h : Head) : List Complaint :=
  if h.dialect != "func" || h.name != "tail_call_indirect" then [] else
  (if h.results.isEmpty then [] else [.tailResults]) ++
  match h.operands with
  | [] => [.tailCallee]
  | callee :: args =>
    let t := c.types (c.valueTy callee)
    if t.dialect == "closure" && t.name == "closure" then
      match t.params with
      | [f] => tailCallType c args f
      | _ => [.tailClosure]
    else tailCallType c args (c.valueTy callee)

/-- `SUPPORTED_CMPF_PREDICATES`, validation.rs 471 and 477-484. -/
def supportedPredicates : List String := ["oeq", "une", "olt", "ole", "ogt", "oge"]

/-- `validate_arith_cmpf_predicate`, validation.rs 426-452. -/
def cmpfPredicate (h : Head) : List Complaint :=
  if h.dialect != "arith" || h.name != "cmpf" then [] else
  match h.predicate with
  | none => [.predicateMissing]
  | some p => if supportedPredicates.contains p then [] else [.predicateUnsupported]

/-- `is_proper_tail_terminator`, validation.rs 488-505. -/
def properTail (h : Head) : Bool :=
  (h.dialect == "func" && ["tail_call", "tail_call_indirect", "unreachable"].contains h.name)
    || (h.dialect == "ability" && ["perform", "handle_dispatch"].contains h.name)
    || (h.dialect == "scf" && ["if", "switch"].contains h.name)

/-- validation.rs 561-567: the one result has type `core.never`. -/
def neverResult (c : Ctx) (h : Head) : Bool :=
  match h.results with
  | [r] => isNever (c.types (c.valueTy r))
  | _ => false

/-- One branch of `scf.if`, validation.rs 532-586. -/
def ifBranch (c : Ctx) (h : Head) (r : Region) : List Complaint :=
  match r with
  | [b] =>
    match b.ops.getLast? with
    | none => [.ifTerminator]
    | some y =>
      if y.head.dialect != "scf" || y.head.name != "yield" then
        if neverResult c h && properTail y.head then [] else [.ifTerminator]
      else if y.head.operands.length != h.results.length then [.ifYield] else []
  | _ => [.ifBlocks]

/-- `validate_scf_if_structure`, validation.rs 507-588. -/
def ifStructure (c : Ctx) (o : Op) : List Complaint :=
  if o.head.dialect != "scf" || o.head.name != "if" then [] else
  (if o.head.operands.length != 1 then [.ifOperands] else []) ++
  match o.regions with
  | [t, e] => ifBranch c o.head t ++ ifBranch c o.head e
  | _ => [.ifRegions]

/-- `validate_scf_loop_result_arity`, validation.rs 590-605. -/
def loopResults (h : Head) : List Complaint :=
  if h.dialect == "scf" && h.name == "loop" && decide (h.results.length > 1) then [.loopResults]
  else []

/-- `validate_scf_switch_result_arity`, validation.rs 607-615. -/
def switchResults (h : Head) : List Complaint :=
  if h.dialect == "scf" && h.name == "switch" && !h.results.isEmpty then [.switchResults] else []

/-- The callback of `validate_operation_verifiers`, validation.rs 325-332. -/
def verifyOp (c : Ctx) (o : Op) : List Complaint :=
  cmpfPredicate o.head ++ ifStructure c o ++ loopResults o.head ++ switchResults o.head
    ++ tailCallIndirect c o.head

/-- `validate_operation_verifiers`, validation.rs 315-335: each complaint with its operation. -/
def operationVerifiers (c : Ctx) (body : Region) : List (Nat × Complaint) :=
  (walkRegion body).flatMap fun o => (verifyOp c o).map fun m => (o.head.id, m)

/-- `validate_all`, validation.rs 777-785: the module is fine when none of the three finds anything. -/
def validateAll (c : Ctx) (body : Region) : Bool :=
  (valueIntegrity body).isEmpty && (useChains c body).isEmpty
    && (operationVerifiers c body).isEmpty

/-! ### Call arity -/

/-- validation.rs 655-658 and 750-753: the functions this validator looks at. -/
def isAnyFunction (h : Head) : Bool :=
  (h.dialect == "func" || h.dialect == "wasm" || h.dialect == "clif") && h.name == "func"

/-- The body of the loop of `collect_function_signatures`, validation.rs 652-679: what one operation
adds to the map. -/
def signatureOf (c : Ctx) (h : Head) : Option (String × Nat) :=
  if isAnyFunction h then
    match h.symName, h.fnType with
    | some n, some t =>
      let d := c.types t
      if d.dialect == "core" && d.name == "func" then some (n, d.params.length - 1) else none
    | _, _ => none
  else none

/-- `signatures.insert`, validation.rs 678: a later insertion for the same name replaces an earlier
one. -/
def insertSignature (c : Ctx) (m : String → Option Nat) (o : Op) : String → Option Nat :=
  match signatureOf c o.head with
  | some (n, k) => fun x => if x = n then some k else m x
  | none => m

/-- `collect_function_signatures`, validation.rs 638-682. -/
def signatures (c : Ctx) (body : Region) : String → Option Nat :=
  (topOps body).foldl (insertSignature c) (fun _ => none)

/-- The warning of `check_call_arity_in_region`. -/
structure Mismatch where
  enclosing : String
  callee : String
  actual : Nat
  expected : Nat
deriving DecidableEq, Repr

/-- The callback of `check_call_arity_in_region`, validation.rs 696-727. -/
def callArity (sigs : String → Option Nat) (fn : String) (h : Head) : List Mismatch :=
  if h.dialect == "func" && (h.name == "call" || h.name == "tail_call") then
    match h.callee with
    | none => []
    | some callee =>
      match sigs callee with
      | none => []
      | some n =>
        if h.operands.length != n then [⟨fn, callee, h.operands.length, n⟩] else []
  else []

/-- `validate_call_arity`, validation.rs 733-769. -/
def validateCallArity (c : Ctx) (body : Region) : List Mismatch :=
  (topOps body).flatMap fun f =>
    if isAnyFunction f.head then
      f.regions.flatMap fun r =>
        (walkRegion r).flatMap fun o => callArity (signatures c body) (fnName f.head) o.head
    else []

end Verif.Validate
