import Verif.Live.Model

/-!
# Insertion of retains and releases

Models `insert_rc_in_block` and `apply_insertion_plan` of
`crates/tribute-passes/src/native/rc_insertion.rs`, on top of the liveness analysis.
-/

namespace Verif.RcInsert

open Verif.Live

/-- `RcOwnership`, `ownership_summary.rs` 23-31. -/
inductive Action where
  | plain
  | borrowed
  | retained
  | consumed
  | acquire
  | transfer
  deriving DecidableEq, Repr

/-- `TrustedCallContract`, `ownership_summary.rs` 61-68. -/
structure Contract where
  actions : List Action
  isTail : Bool
  isIndirect : Bool
  deriving DecidableEq, Repr

/-- What `insert_rc_in_block` is given besides the liveness: the analysed body, the borrowed parameters
and temporaries (`RcBorrowInfo`, 178-182), the parameters that are passed with ownership, which values are
the pointers inside a fresh allocation (`is_alloc_intermediate`, 116-135), and the contracts of calls by
block and place.  How these are found is not modelled. -/
structure Config where
  inp : Input
  params : List Nat
  temps : List Nat
  consumed : List Nat
  interm : Nat → Bool
  contract : Nat → Nat → Option Contract

/-- Instructions of the function after the pass; operations keep their place in the old block. -/
inductive Instr where
  | retain (v : Nat)
  | release (v : Nat)
  | op (i : Nat) (o : Op)
  deriving DecidableEq, Repr

/-- `is_terminator_op`, 84-93. -/
def isTerminator (o : Op) : Bool :=
  match o.kind with
  | .ret | .jump | .brif | .trap | .returnCall | .returnCallIndirect | .brTable => true
  | _ => false

/-- `last_use_in_block`, 1210-1224, for the operations from place `i` on. -/
def lastUse (inp : Input) (v : Nat) : Nat → List Op → Option Nat
  | _, [] => none
  | i, op :: rest => match lastUse inp v (i + 1) rest with
    | some j => some j
    | none => if (op.operands.flatMap (touched inp)).contains v then some i else none

/-- The operand itself if it is tracked, and what it is an alias of. -/
def direct (inp : Input) (v : Nat) : List Nat :=
  (if inp.ptrs.contains v then [v] else []) ++ (inp.alias_.lookup v).toList

/-- `returned_values`, 1227-1239. -/
def returned (inp : Input) (blk : Block) : List Nat :=
  match blk.ops.getLast? with
  | some op => if op.kind = .ret then op.operands.flatMap (direct inp) else []
  | none => []

/-- `ptr_alias_map.get(&argument).copied().unwrap_or(argument)`, 1259. -/
def rootOf (inp : Input) (v : Nat) : Nat := (inp.alias_.lookup v).getD v

/-- The arguments of a call, without the callee of an indirect call, 1249-1251. -/
def callArgs (ct : Contract) (op : Op) : List Nat := op.operands.drop (if ct.isIndirect then 1 else 0)

/-- The arguments with the given action, 1254-1257 and 1279-1280. -/
def acting (a : Action) (ct : Contract) (op : Op) : List Nat :=
  ((callArgs ct op).zip ct.actions).filterMap (fun x => if x.2 = a then some x.1 else none)

/-- The arguments a tail call takes over. -/
def transfers (c : Config) (b i : Nat) (op : Op) : List Nat :=
  match c.contract b i with
  | some ct => if ct.isTail then acting .transfer ct op else []
  | none => []

/-- `transferred_values`, 1260-1261, for the operations from place `i` on. -/
def transferredFrom (c : Config) (b : Nat) : Nat → List Op → List Nat
  | _, [] => []
  | i, op :: rest => (transfers c b i op).flatMap (fun a => [a, rootOf c.inp a]) ++ transferredFrom c b (i + 1) rest

/-- The first argument for every owned value, `or_insert((argument, 1))`, 1262-1266. -/
def firsts (inp : Input) : List Nat → List Nat → List Nat
  | _, [] => []
  | seen, a :: rest =>
    if seen.contains (rootOf inp a) then firsts inp seen rest
    else a :: firsts inp (rootOf inp a :: seen) rest

/-- How often an owned value is passed, 1264. -/
def passed (inp : Input) (r : Nat) (args : List Nat) : Nat := (args.filter (fun a => rootOf inp a == r)).length

/-- 1269-1272. -/
def isBorrowed (c : Config) (a : Nat) : Bool :=
  c.params.contains (rootOf c.inp a) || c.params.contains a || c.temps.contains (rootOf c.inp a) || c.temps.contains a

/-- The retains for the contract of a call, 1252-1286.  (The hash map of transfers is visited in the
order of the arguments.) -/
def contractRetains (c : Config) (b i : Nat) (op : Op) : List Nat :=
  match c.contract b i with
  | some ct =>
    if ct.isTail then
      (firsts c.inp [] (transfers c b i op)).flatMap (fun a =>
        List.replicate (passed c.inp (rootOf c.inp a) (transfers c b i op) - (if isBorrowed c a then 0 else 1)) a)
    else acting .acquire ct op
  | none => []

/-- The retain before a store, 1306-1321. -/
def storeRetains (c : Config) (op : Op) : List Nat :=
  if op.kind = .store then
    match op.operands.head? with
    | some v => if c.inp.info.anyref v && !c.inp.info.static v then [v] else []
    | none => []
  else []

/-- The retain after a load, 1323-1337. -/
def loadRetains (c : Config) (op : Op) : List Nat :=
  if op.kind = .load then
    match op.results.head? with
    | some v => if c.inp.info.anyref v && !c.temps.contains v then [v] else []
    | none => []
  else []

/-- The retains of parameters in the entry block, 1291-1302. -/
def entryRetains (c : Config) (b : Nat) (blk : Block) : List Nat :=
  if b = 0 then blk.args.filter (fun v => c.inp.info.anyref v && !c.params.contains v && !c.consumed.contains v)
  else []

/-- The condition for a value that is live in, 1346-1355. -/
def diesIn (c : Config) (l : Live) (b : Nat) (blk : Block) (v : Nat) : Bool :=
  !(l.liveOut b).contains v && !(returned c.inp blk).contains v && !(transferredFrom c b 0 blk.ops).contains v &&
    !c.params.contains v && !c.temps.contains v

/-- The elements without duplicates. -/
def uniq : List Nat → List Nat
  | [] => []
  | v :: rest => if rest.contains v then uniq rest else v :: uniq rest

/-- `dying_values`, 1344-1367. -/
def dyingSet (c : Config) (l : Live) (b : Nat) (blk : Block) : List Nat :=
  uniq ((l.liveIn b).filter (diesIn c l b blk) ++
    ((useDef c.inp blk).defs).filter (fun v => diesIn c l b blk v && !c.interm v))

/-- The place of the definition of a value in the block: block arguments first, then the results of the
operations, then values from elsewhere, 1370-1376. -/
def defKey (blk : Block) (v : Nat) : Nat :=
  if blk.args.contains v then 0
  else match blk.ops.findIdx? (fun op => op.results.contains v) with
    | some i => i + 1
    | none => blk.ops.length + 1

def insertBy (key : Nat → Nat) (v : Nat) : List Nat → List Nat
  | [] => [v]
  | w :: rest => if key v ≤ key w then v :: w :: rest else w :: insertBy key v rest

def sortBy (key : Nat → Nat) : List Nat → List Nat
  | [] => []
  | v :: rest => insertBy key v (sortBy key rest)

/-- `dying_sorted`, 1369-1376.  (Ties are left in the order of the set; block arguments of other blocks
are put with the values from elsewhere.) -/
def dying (c : Config) (l : Live) (b : Nat) (blk : Block) : List Nat :=
  sortBy (defKey blk) (dyingSet c l b blk)

/-- Where the release goes. -/
inductive Place where
  | start
  | before (i : Nat)
  | after (i : Nat)
  | nowhere
  deriving DecidableEq, Repr

/-- The place of the release of a dying value, 1378-1417. -/
def placeOf (c : Config) (l : Live) (b : Nat) (blk : Block) (v : Nat) : Place :=
  match lastUse c.inp v 0 blk.ops with
  | some j => match blk.ops[j]? with
    | some op =>
      if op.kind = .ret || op.kind = .jump then .nowhere
      else if isTerminator op then .before j
      else .after j
    | none => .nowhere
  | none =>
    if (l.liveIn b).contains v then .start
    else match blk.ops.findIdx? (fun op => op.results.contains v) with
      | some i => .after i
      | none => .start

/-- The releases planned for a place. -/
def releasesAt (c : Config) (l : Live) (b : Nat) (blk : Block) (p : Place) : List Nat :=
  (dying c l b blk).filter (fun v => decide (placeOf c l b blk v = p))

/-- `apply_insertion_plan`, 1421-1456: what stands around one operation. -/
def chunk (c : Config) (l : Live) (b : Nat) (blk : Block) (i : Nat) (op : Op) : List Instr :=
  (contractRetains c b i op).map .retain ++ (storeRetains c op).map .retain ++
    (releasesAt c l b blk (.before i)).map .release ++ [.op i op] ++
    (loadRetains c op).map .retain ++ (releasesAt c l b blk (.after i)).map .release

def chunks (c : Config) (l : Live) (b : Nat) (blk : Block) : Nat → List Op → List Instr
  | _, [] => []
  | i, op :: rest => chunk c l b blk i op ++ chunks c l b blk (i + 1) rest

/-- `insert_rc_in_block`, 1191-1418. -/
def insertBlock (c : Config) (l : Live) (b : Nat) (blk : Block) : List Instr :=
  (entryRetains c b blk).map .retain ++ (releasesAt c l b blk .start).map .release ++ chunks c l b blk 0 blk.ops

end Verif.RcInsert
