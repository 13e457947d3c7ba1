import Verif.RcInsert.Model
import Verif.Dominance.Model

/-!
# Temporaries and parameters that are not counted

Models `analyze_temporary_borrows`, `resolve_temporary_owner`, `temporary_is_proven_borrowed`,
`TemporaryUseCollector`, `value_dominates_op`, `op_dominates_op`, `is_proven_temporary_use`,
`analyze_borrowed_parameters` and `value_is_proven_borrowed` of
`crates/tribute-passes/src/native/rc_insertion.rs`, lines 835-1170, and how `insert_rc_in_function` (776-832) puts their
results together.

Simplifications:
* as in `Verif.Live`: values are numbers, blocks and operations are known by their place, and there are no nested regions;
* the definition of a value is looked up in the body (the first one, should there be several);
* hash sets and maps are lists; an entry made later hides an earlier one;
* recursion takes a depth bound larger than the number of results in the body: it visits no value twice.
-/

namespace Verif.TempBorrow

open Verif.Live Verif.RcInsert

/-- The control-flow graph handed to `DominatorTree::compute` (846). -/
def cfgOf (body : Body) : Dominance.Cfg body.length :=
  ⟨fun b => (succsOf body[b]).map (fun s => if h : s < body.length then some ⟨s, h⟩ else none)⟩

section
variable {n : Nat}

/-- `dominance.dominates` on places of blocks. -/
def dom (t : Dominance.Tree n) (a b : Nat) : Bool :=
  if ha : a < n then if hb : b < n then t.dominates ⟨a, ha⟩ ⟨b, hb⟩ else false else false

/-- `dominance.is_reachable`. -/
def reach (t : Dominance.Tree n) (b : Nat) : Bool :=
  if hb : b < n then t.isReachable ⟨b, hb⟩ else false

/-- `dominance.predecessors(b).len()`. -/
def predCount (g : Dominance.Cfg n) (b : Nat) : Nat :=
  if hb : b < n then (g.preds ⟨b, hb⟩).length else 0

end

/-- `ValueDef`. -/
inductive Def where
  | arg (b : Nat)
  | res (b i : Nat)
  deriving DecidableEq, Repr

/-- The operation at a place. -/
def opAt (body : Body) (b i : Nat) : Option Op := body[b]?.bind (fun blk => blk.ops[i]?)

/-- All places with their operations. -/
def places (body : Body) : List (Nat × Nat × Op) :=
  body.zipIdx.flatMap (fun x => x.1.ops.zipIdx.map (fun y => (x.2, y.2, y.1)))

/-- `ctx.value_def`. -/
def defOf (body : Body) (v : Nat) : Option Def :=
  match body.findIdx? (fun blk => blk.args.contains v) with
  | some b => some (.arg b)
  | none => ((places body).find? (fun x => x.2.2.results.contains v)).map (fun x => .res x.1 x.2.1)

/-- A use: the place of the user, the operand index, and the user. -/
structure Use where
  b : Nat
  i : Nat
  j : Nat
  op : Op
  deriving DecidableEq, Repr

/-- `ctx.uses`. -/
def usesOf (body : Body) (v : Nat) : List Use :=
  (places body).flatMap (fun x =>
    (x.2.2.operands.zipIdx.filter (fun y => y.1 == v)).map (fun y => ⟨x.1, x.2.1, y.2, x.2.2⟩))

/-- The depth bound. -/
def depth (body : Body) : Nat := (body.flatMap (fun blk => blk.ops.flatMap (·.results))).length + 2

/-- `resolve_temporary_owner`, 890-917. -/
def resolve (inp : Input) : Nat → List Nat → Nat → Option Nat
  | 0, _, _ => none
  | n + 1, vis, v =>
    if vis.contains v then none
    else if inp.ptrs.contains v then some v
    else match inp.alias_.lookup v with
      | some o => resolve inp n (v :: vis) o
      | none => match defOf inp.body v with
        | some (.res b i) => match opAt inp.body b i with
          | some op =>
            if op.kind = .cast ∨ op.kind = .iadd then
              match op.operands.head? with
              | some x => resolve inp n (v :: vis) x
              | none => none
            else none
          | none => none
        | _ => none

/-- `op_dominates_op`, 1044-1065. -/
def opDom {n : Nat} (t : Dominance.Tree n) (b i b' i' : Nat) : Bool :=
  if b ≠ b' then dom t b b' else decide (i < i')

/-- `value_dominates_op`, 1026-1042. -/
def valueDom {n : Nat} (body : Body) (t : Dominance.Tree n) (v b i : Nat) : Bool :=
  match defOf body v with
  | some (.arg a) => decide (a = 0) && dom t a b
  | some (.res b' i') => opDom t b' i' b i
  | none => false

/-- `is_proven_temporary_use`, 1067-1086. -/
def useOk (contract : Nat → Nat → Option Contract) (u : Use) : Bool :=
  match u.op.kind with
  | .load => decide (u.j = 0)
  | .store => decide (u.j = 1)
  | k => match contract u.b u.i with
    | some ct =>
      if ct.isTail ∧ ¬ (ct.isIndirect = true ∧ u.j = 0) then
        ct.actions[u.j - (if ct.isIndirect then 1 else 0)]? == some .transfer
      else decide (k = .icmp)
    | none => decide (k = .icmp)

/-- The alias made by a cast of one value to one value, 1007-1013 and `classify_borrowed_use`. -/
def castAlias (u : Use) : Option Nat :=
  if u.op.kind = .cast ∧ u.j = 0 then
    match u.op.operands, u.op.results with
    | [_], [r] => some r
    | _, _ => none
  else none

/-- The fields of `TemporaryUseCollector` that change, 979-988. -/
structure Collected where
  visited : List Nat
  useBlocks : List Nat
  aliases : List Nat
  deriving DecidableEq, Repr

/-- The loop of `collect`, 995-1021; `none` when the answer is `false`. -/
def collectUses {n : Nat} (rec : Collected → Nat → Option Collected) (contract : Nat → Nat → Option Contract)
    (t : Dominance.Tree n) (lb li : Nat) : Collected → List Use → Option Collected
  | st, [] => some st
  | st, u :: us =>
    if reach t u.b && opDom t lb li u.b u.i then
      match castAlias u with
      | some a => match rec { st with useBlocks := st.useBlocks ++ [u.b], aliases := st.aliases ++ [a] } a with
        | some st' => collectUses rec contract t lb li st' us
        | none => none
      | none =>
        if useOk contract u then collectUses rec contract t lb li { st with useBlocks := st.useBlocks ++ [u.b] } us
        else none
    else none

/-- `TemporaryUseCollector::collect`, 990-1023. -/
def collect {n : Nat} (body : Body) (contract : Nat → Nat → Option Contract) (t : Dominance.Tree n) (lb li : Nat) :
    Nat → Collected → Nat → Option Collected
  | 0, _, _ => none
  | k + 1, st, v =>
    if st.visited.contains v then none
    else collectUses (collect body contract t lb li k) contract t lb li { st with visited := v :: st.visited } (usesOf body v)

/-- 948-953: no use after control-flow paths come together. -/
def noJoins (body : Body) (lb : Nat) (useBlocks : List Nat) : Bool :=
  useBlocks.all (fun u => u == lb || decide (predCount (cfgOf body) u ≤ 1))

/-- 955-961: any two uses lie on one path. -/
def comparable {n : Nat} (t : Dominance.Tree n) (useBlocks : List Nat) : Bool :=
  useBlocks.all (fun x => useBlocks.all (fun y => x == y || dom t x y || dom t y x))

/-- 963-974: no use inside a loop that starts after the load. -/
def noLoops {n : Nat} (body : Body) (t : Dominance.Tree n) (lb : Nat) (useBlocks : List Nat) : Bool :=
  body.zipIdx.all (fun x => (succsOf x.1).all (fun s =>
    !(dom t s x.2 && dom t lb x.2 && useBlocks.any (fun u => dom t s u))))

/-- `temporary_is_proven_borrowed`, 919-977: the aliases of the temporary. -/
def proven {n : Nat} (body : Body) (contract : Nat → Nat → Option Contract) (t : Dominance.Tree n) (lb li temp owner : Nat) :
    Option (List Nat) :=
  if valueDom body t owner lb li then
    match collect body contract t lb li (depth body) ⟨[], [], []⟩ temp with
    | some st =>
      if noJoins body lb st.useBlocks && comparable t st.useBlocks && noLoops body t lb st.useBlocks then some st.aliases
      else none
    | none => none
  else none

/-- `TemporaryBorrowInfo`, 170-174. -/
structure TempInfo where
  borrowed : List Nat
  deps : List (Nat × Nat)
  deriving DecidableEq, Repr

/-- The owner and the aliases of what the operation loads, if it need not be counted, 856-880. -/
def tempAt {n : Nat} (inp : Input) (contract : Nat → Nat → Option Contract) (t : Dominance.Tree n) (x : Nat × Nat × Op) :
    Option (Nat × Nat × List Nat) :=
  if x.2.2.kind = .load then
    match x.2.2.results, x.2.2.operands.head? with
    | [temp], some address =>
      if inp.info.anyref temp then
        match resolve inp (depth inp.body) [] address with
        | some owner => (proven inp.body contract t x.1 x.2.1 temp owner).map (fun as => (temp, owner, as))
        | none => none
      else none
    | _, _ => none
  else none

/-- One operation in the loop of `analyze_temporary_borrows`, 855-886. -/
def tempStep {n : Nat} (inp : Input) (contract : Nat → Nat → Option Contract) (t : Dominance.Tree n) (info : TempInfo)
    (x : Nat × Nat × Op) : TempInfo :=
  if reach t x.1 then
    match tempAt inp contract t x with
    | some (temp, owner, as) =>
      { borrowed := temp :: info.borrowed
        deps := (as.map (fun a => (a, owner))).reverse ++ (temp, owner) :: info.deps }
    | none => info
  else info

/-- `analyze_temporary_borrows`, 835-888, with the result of `DominatorTree::compute`. -/
def tempBorrows {n : Nat} (inp : Input) (contract : Nat → Nat → Option Contract) (t : Dominance.Tree n) : TempInfo :=
  if t.valid then (places inp.body).foldl (tempStep inp contract t) ⟨[], []⟩ else ⟨[], []⟩

/-! ## Parameters -/

/-- What the analysis of parameters knows about the program: for a call, the function it calls, and for functions,
which parameters are summarised as borrowed. -/
structure Summaries where
  callee : Nat → Nat → Option Nat
  borrowed : Nat → Option (List Bool)

/-- `classify_borrowed_use` (`ownership_summary.rs` 851-881) with `borrowed_use_kind` (1152-1169): whether the use is
harmless, or goes on with an alias. -/
inductive ParamUse where
  | safe
  | alias_ (v : Nat)
  | direct
  | escaping
  deriving DecidableEq, Repr

def paramUse (u : Use) : ParamUse :=
  match u.op.kind with
  | .call => .direct
  | .load => if u.j = 0 then .safe else .escaping
  | .store => if u.j = 1 then .safe else .escaping
  | .icmp => .safe
  | .cast => match castAlias u with
    | some a => .alias_ a
    | none => .escaping
  | _ => .escaping

/-- The summary of the called function says that the argument is borrowed, 1139-1144. -/
def calleeBorrows (s : Summaries) (u : Use) : Bool :=
  ((s.callee u.b u.i).bind (fun g => (s.borrowed g).bind (fun l => l[u.j]?))) == some true

/-- The loop over the uses in `value_is_proven_borrowed`, 1129-1149. -/
def paramUses (rec : List Nat → Nat → Option (List Nat)) (s : Summaries) : List Nat → List Use → Option (List Nat)
  | vis, [] => some vis
  | vis, u :: us => match paramUse u with
    | .safe => paramUses rec s vis us
    | .alias_ a => match rec vis a with
      | some vis' => paramUses rec s vis' us
      | none => none
    | .direct => if calleeBorrows s u then paramUses rec s vis us else none
    | .escaping => none

/-- `value_is_proven_borrowed`, 1116-1150; `none` for `false`. -/
def paramProven (body : Body) (s : Summaries) : Nat → List Nat → Nat → Option (List Nat)
  | 0, _, _ => none
  | n + 1, vis, v =>
    if vis.contains v then some vis else paramUses (paramProven body s n) s (v :: vis) (usesOf body v)

/-- `analyze_borrowed_parameters`, 1099-1113; `own` is the summary of the function itself. -/
def paramBorrows (I : Info) (body : Body) (s : Summaries) (own : Option (List Bool)) : List Nat :=
  match body.head?, own with
  | some entry, some summary =>
    (entry.args.zipIdx.filter (fun x => summary[x.2]? == some true && I.anyref x.1 &&
      (paramProven body s (depth body) [] x.1).isSome)).map Prod.fst
  | _, _ => []

/-- `insert_rc_in_function`, 776-832, with both policies on: what the insertion works with. -/
def setUp {n : Nat} (I : Info) (body : Body) (interm : Nat → Bool) (contract : Nat → Nat → Option Contract) (s : Summaries)
    (own : Option (List Bool)) (consumed : List Nat) (t : Dominance.Tree n) : Config :=
  let info := tempBorrows (analyse I body []) contract t
  { inp := analyse I body info.deps
    params := (paramBorrows I body s own).filter (fun v => !consumed.contains v)
    temps := info.borrowed
    consumed := consumed
    interm := interm
    contract := contract }

end Verif.TempBorrow
