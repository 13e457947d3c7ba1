/-!
# The pass manager

Model of `crates/trunk-ir/src/pass.rs`. The IR is what the manager asks of it: what kind of
operation an operation is (its dialect and name, which an erased operation keeps:
context.rs `remove_op` 399-432 leaves the slot as it is), whether it is attached to a block, and
which operations a walk from it visits; everything else is `rest`. Passes are arbitrary functions,
their own mutable state is part of `rest`. The manager itself keeps no log: the events here, with
the place of the manager among the nested ones (`path`), are there to state properties.
Instrumentation, which cannot change anything, is left out.
-/
namespace Verif.PassMgr

structure Ir (X : Type) where
  kind : Nat → String
  attached : Nat → Bool
  under : Nat → List Nat
  rest : X

/-- `trait Pass`, pass.rs 42-55: a failing pass may have changed the IR. -/
structure Pass (X : Type) where
  name : String
  run : Ir X → Nat → Ir X × Option String

/-- `VerifierFn`, pass.rs 191: `none` when the IR is consistent. -/
abbrev Verifier (X : Type) := Ir X → Nat → Option String

/-- `struct PassManager`, pass.rs 314-319; `kind` is its `Root` type. -/
inductive Manager (X : Type) where
  | mk (kind : String) (passes : List (Pass X)) (nested : List (Manager X))
      (verifier : Option (Verifier X))

def Manager.kind {X : Type} : Manager X → String | .mk k _ _ _ => k
def Manager.passes {X : Type} : Manager X → List (Pass X) | .mk _ p _ _ => p
def Manager.nested {X : Type} : Manager X → List (Manager X) | .mk _ _ n _ => n
def Manager.verifier {X : Type} : Manager X → Option (Verifier X) | .mk _ _ _ v => v

/-- What happens during a run. -/
inductive Event (X : Type) where
  | ran (path : List Nat) (name : String) (op : Nat) (before after : Ir X) (failure : Option String)
  | verified (path : List Nat) (name : String) (op : Nat) (ir : Ir X) (complaint : Option String)

/-- `PassErrorKind` and `PassError`, pass.rs 128-141. -/
inductive Err where
  | execution (pass : String) (msg : String)
  | verification (pass : String) (msg : String)
  | notIsolated (kind : String)
deriving DecidableEq, Repr

structure Result (X : Type) where
  ir : Ir X
  events : List (Event X)
  err : Option Err

/-- `?` between two steps: the second runs when the first succeeded. -/
def Result.andThen {X : Type} (r : Result X) (f : Ir X → Result X) : Result X :=
  match r.err with
  | some _ => r
  | none => ⟨(f r.ir).ir, r.events ++ (f r.ir).events, (f r.ir).err⟩

/-- `target_still_alive`, pass.rs 259-264. -/
def stillAlive {X : Type} (kind : String) (pre : Bool) (ir : Ir X) (op : Nat) : Bool :=
  if ir.kind op != kind then false else !pre || ir.attached op

/-- The loop over the passes in `run_passes`, pass.rs 446-469. The flag says whether the nested
managers are to run: it is false after the early `return Ok(())`. -/
def runPasses {X : Type} (path : List Nat) (kind : String) (pre : Bool) (v : Option (Verifier X))
    (op : Nat) : List (Pass X) → Ir X → Result X × Bool
  | [], ir => (⟨ir, [], none⟩, true)
  | p :: ps, ir =>
    let out := p.run ir op
    let e := Event.ran path p.name op ir out.1 out.2
    match out.2 with
    | some msg => (⟨out.1, [e], some (.execution p.name msg)⟩, false)
    | none =>
      if stillAlive kind pre out.1 op then
        match v with
        | none =>
          let r := runPasses path kind pre v op ps out.1
          (⟨r.1.ir, e :: r.1.events, r.1.err⟩, r.2)
        | some check =>
          let w := Event.verified path p.name op out.1 (check out.1 op)
          match check out.1 op with
          | some msg => (⟨out.1, [e, w], some (.verification p.name msg)⟩, false)
          | none =>
            let r := runPasses path kind pre v op ps out.1
            (⟨r.1.ir, e :: w :: r.1.events, r.1.err⟩, r.2)
      else (⟨out.1, [e], none⟩, false)

/-- `collect_targets`, pass.rs 266-275. -/
def collectTargets {X : Type} (kind : String) (ir : Ir X) (root : Nat) : List Nat :=
  (ir.under root).filter fun o => ir.kind o == kind

/-- The loop of `TypedNested::run`, pass.rs 234-247, over the collected targets; `run` is the nested
manager's `run_on_target_with`. -/
def runTargets {X : Type} (isolated : String → Bool) (kind : String)
    (run : Nat → Ir X → Result X) : List Nat → Ir X → Result X
  | [], ir => ⟨ir, [], none⟩
  | t :: ts, ir =>
    if ir.kind t != kind then runTargets isolated kind run ts ir
    else if !isolated (ir.kind t) then ⟨ir, [], some (.notIsolated (ir.kind t))⟩
    else (run t ir).andThen (runTargets isolated kind run ts)

mutual
/-- `run_on_target_with` and `run_passes`, pass.rs 411-475; `inherited` is the verifier of the
enclosing manager, and `run` (pass.rs 391-408) is the case without one. -/
def runManager {X : Type} (isolated : String → Bool) :
    Manager X → List Nat → Option (Verifier X) → Nat → Ir X → Result X
  | .mk kind passes nested verifier, path, inherited, op, ir =>
    let v := verifier.or inherited
    let r := runPasses path kind (ir.attached op) v op passes ir
    if r.2 then r.1.andThen (runNested isolated nested path 0 v op) else r.1
/-- The loop over the nested managers, pass.rs 470-473, from the one with index `i` on. -/
def runNested {X : Type} (isolated : String → Bool) :
    List (Manager X) → List Nat → Nat → Option (Verifier X) → Nat → Ir X → Result X
  | [], _, _, _, _, ir => ⟨ir, [], none⟩
  | m :: ms, path, i, v, op, ir =>
    (runTargets isolated m.kind (fun t ir => runManager isolated m (path ++ [i]) v t ir)
      (collectTargets m.kind ir op) ir).andThen
      (fun ir => runNested isolated ms path (i + 1) v op ir)
end

/-- `PassManager::run`, pass.rs 391-408. -/
def run {X : Type} (isolated : String → Bool) (m : Manager X) (op : Nat) (ir : Ir X) : Result X :=
  runManager isolated m [] none op ir

end Verif.PassMgr
