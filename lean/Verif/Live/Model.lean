/-!
# Liveness of reference-counted values

Models `collect_ptr_values`, `build_ptr_alias_map`, `build_successor_map`, `compute_use_def_sets`,
`compute_liveness` and `record_lifetime_dependencies` of
`crates/tribute-passes/src/native/rc_insertion.rs`.
-/

namespace Verif.Live

/-- The operations that reference-count insertion tells apart. -/
inductive Kind where
  | load
  | store
  | call
  | cast
  | ret
  | jump
  | brif
  | brTable
  | trap
  | returnCall
  | returnCallIndirect
  | icmp
  | iadd
  | other
  deriving DecidableEq, Repr

/-- An operation of a function body: its operands, results and successor blocks.  Values are
numbers; blocks are known by their place.  Bodies of functions have no nested regions at this stage
of the pipeline. -/
structure Op where
  kind : Kind
  operands : List Nat
  results : List Nat
  succs : List Nat
  deriving DecidableEq, Repr

structure Block where
  args : List Nat
  ops : List Op
  deriving DecidableEq, Repr

/-- What the pass asks about the type and the definition of a value: `is_anyref_type` 74-77,
`is_static_ptr` 96-114 (a symbol address or a null constant), and whether the type is
`core.i32` or `core.i64` (242-245). -/
structure Info where
  anyref : Nat → Bool
  static : Nat → Bool
  integer : Nat → Bool

abbrev Body := List Block

/-- `collect_ptr_values`, 186-222. -/
def ptrValues (I : Info) (body : Body) : List Nat :=
  body.flatMap (fun b => b.args.filter I.anyref ++
    b.ops.flatMap (fun op => op.results.filter (fun v => I.anyref v && !I.static v))) ++
  body.flatMap (fun b => b.ops.flatMap (fun op => op.operands.filter (fun v => I.anyref v && !I.static v)))

/-- The set of tracked values and the alias map while casts are visited. -/
structure Aliases where
  ptrs : List Nat
  map : List (Nat × Nat)
  deriving Repr

/-- One operation in `build_ptr_alias_map`, 231-255. -/
def aliasStep (I : Info) (st : Aliases) (op : Op) : Aliases :=
  if op.kind = .cast then
    match op.operands.head?, op.results.head? with
    | some input, some output =>
      match (if st.ptrs.contains input then some input else st.map.lookup input) with
      | some root =>
        if I.integer output then st
        else { ptrs := st.ptrs.filter (· != output), map := (output, root) :: st.map }
      | none => st
    | _, _ => st
  else st

/-- `build_ptr_alias_map`, 225-257. -/
def aliases (I : Info) (body : Body) : Aliases :=
  (body.flatMap (·.ops)).foldl (aliasStep I) ⟨ptrValues I body, []⟩

/-- The owners that are not visited yet, counted by entries of the map. -/
def unvisited (deps : List (Nat × Nat)) (visited : List Nat) : Nat :=
  (deps.filter (fun e => !visited.contains e.2)).length

theorem unvisited_lt {deps : List (Nat × Nat)} {visited : List Nat} {cur owner : Nat}
    (h : deps.lookup cur = some owner) (hv : visited.contains owner = false) :
    unvisited deps (owner :: visited) < unvisited deps visited := by
  induction deps with
  | nil => simp at h
  | cons e deps ih =>
    have mono : ∀ ds : List (Nat × Nat), unvisited ds (owner :: visited) ≤ unvisited ds visited := by
      intro ds
      induction ds with
      | nil => exact Nat.le_refl _
      | cons e ds ih =>
        simp only [unvisited, List.filter_cons, List.contains_cons] at ih ⊢
        by_cases h1 : visited.contains e.2 = true
        · simp only [h1, Bool.or_true, Bool.not_true, Bool.false_eq_true, if_false]
          exact ih
        · simp only [Bool.not_eq_true] at h1
          simp only [h1, Bool.or_false, Bool.not_false, if_true, List.length_cons]
          split
          · simp only [List.length_cons]; omega
          · omega
    obtain ⟨a, b⟩ := e
    rw [List.lookup_cons] at h
    split at h
    · injection h with h
      subst h
      have := mono deps
      simp only [unvisited, List.filter_cons, List.contains_cons, beq_self_eq_true, Bool.true_or, Bool.not_true,
        Bool.false_eq_true, if_false, hv, Bool.not_false, if_true, List.length_cons] at this ⊢
      omega
    · have := ih h
      simp only [unvisited, List.filter_cons, List.contains_cons] at this ⊢
      by_cases h1 : visited.contains b = true
      · simp only [h1, Bool.or_true, Bool.not_true, Bool.false_eq_true, if_false]
        exact this
      · simp only [Bool.not_eq_true] at h1
        simp only [h1, Bool.or_false, Bool.not_false, if_true, List.length_cons]
        split
        · simp only [List.length_cons]; omega
        · omega

/-- The loop of `record_lifetime_dependencies`, 1086-1100: the owners recorded, starting from a
value. -/
def ownersFrom (deps : List (Nat × Nat)) (visited : List Nat) (cur : Nat) : List Nat :=
  match h : deps.lookup cur with
  | none => []
  | some owner =>
    if hv : visited.contains owner = true then []
    else owner :: ownersFrom deps (owner :: visited) owner
termination_by unvisited deps visited
decreasing_by exact unvisited_lt h (by simpa using hv)

def owners (deps : List (Nat × Nat)) (v : Nat) : List Nat := ownersFrom deps [] v

/-- Everything the analysis of a body depends on. -/
structure Input where
  info : Info
  body : Body
  ptrs : List Nat
  alias_ : List (Nat × Nat)
  deps : List (Nat × Nat)

/-- The analysis of a function body, `insert_rc_in_function` 776-795; `deps` is what
`analyze_temporary_borrows` found, nothing when borrowed temporaries are not elided. -/
def analyse (I : Info) (body : Body) (deps : List (Nat × Nat)) : Input :=
  ⟨I, body, (aliases I body).ptrs, (aliases I body).map, deps⟩

/-- The tracked values an operand counts as a use of, 305-320: itself, what it is an alias of, and
the owners of what it borrows. -/
def touched (inp : Input) (v : Nat) : List Nat :=
  (if inp.ptrs.contains v then [v] else []) ++ (inp.alias_.lookup v).toList ++ owners inp.deps v

/-- The tracked values an operation defines, 321-329. -/
def defined (inp : Input) (op : Op) : List Nat :=
  op.results.filter (fun v => inp.info.anyref v && !inp.info.static v && inp.ptrs.contains v)

/-- One operation in `compute_use_def_sets`, 303-330: (uses, defs). -/
structure UseDef where
  uses : List Nat
  defs : List Nat
  deriving Repr

def useDefStep (inp : Input) (s : UseDef) (op : Op) : UseDef :=
  { uses := (op.operands.flatMap (touched inp)).filter (fun v => !s.defs.contains v) ++ s.uses
    defs := defined inp op ++ s.defs }

/-- `compute_use_def_sets` for one block, 294-334. -/
def useDef (inp : Input) (b : Block) : UseDef :=
  b.ops.foldl (useDefStep inp) ⟨[], b.args.filter inp.info.anyref⟩

/-- `build_successor_map`, 260-275: the successors of the last operation. -/
def succsOf (b : Block) : List Nat :=
  match b.ops.getLast? with
  | some op => op.succs
  | none => []

/-- Equality of hash sets. -/
def sameSet (a b : List Nat) : Bool := a.all b.contains && b.all a.contains

/-- The live sets of the blocks. -/
structure Live where
  liveIn : Nat → List Nat
  liveOut : Nat → List Nat

def update (f : Nat → List Nat) (i : Nat) (x : List Nat) : Nat → List Nat :=
  fun j => if j = i then x else f j

/-- The union of the live-in sets of the successors, 366-374. -/
def newOut (b : Block) (st : Live) : List Nat := (succsOf b).flatMap st.liveIn

/-- Uses, and what is live out and not defined, 376-383. -/
def newIn (inp : Input) (b : Block) (out : List Nat) : List Nat :=
  (useDef inp b).uses ++ out.filter (fun v => !(useDef inp b).defs.contains v)

/-- The state of one sweep over the blocks: the sets and the `changed` flag. -/
structure Sweep where
  live : Live
  changed : Bool

/-- One block in the loop of `compute_liveness`, 365-393. -/
def visit (inp : Input) (s : Sweep) (ib : Nat × Block) : Sweep :=
  { live :=
      { liveIn := if sameSet (newIn inp ib.2 (newOut ib.2 s.live)) (s.live.liveIn ib.1) then s.live.liveIn
          else update s.live.liveIn ib.1 (newIn inp ib.2 (newOut ib.2 s.live))
        liveOut := if sameSet (newOut ib.2 s.live) (s.live.liveOut ib.1) then s.live.liveOut
          else update s.live.liveOut ib.1 (newOut ib.2 s.live) }
    changed := s.changed || !sameSet (newIn inp ib.2 (newOut ib.2 s.live)) (s.live.liveIn ib.1) ||
      !sameSet (newOut ib.2 s.live) (s.live.liveOut ib.1) }

/-- The blocks with their places, last first. -/
def order (body : Body) : List (Nat × Block) :=
  ((List.range body.length).zip body).reverse

/-- One round of the loop, 363-394. -/
def round (inp : Input) (l : Live) : Sweep := (order inp.body).foldl (visit inp) ⟨l, false⟩

/-- The loop, 361-395, at most `fuel` rounds; `none` when it has not ended by then. -/
def loop (inp : Input) : Nat → Live → Option Live
  | 0, _ => none
  | n + 1, l => if (round inp l).changed then loop inp n (round inp l).live else some (round inp l).live

/-- The sets before the loop, 353-359. -/
def start : Live := ⟨fun _ => [], fun _ => []⟩

/-- `compute_liveness`, 342-402, with a limit on the rounds. -/
def liveness (inp : Input) (fuel : Nat) : Option Live := loop inp fuel start

end Verif.Live
