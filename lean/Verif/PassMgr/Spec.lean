import Verif.PassMgr.Model

/-!
# What is expected of the pass manager

In terms of what happened: which pass ran on which operation, with the IR before and after, and
what the verifier said when.
-/
namespace Verif.PassMgr

variable {X : Type}

/-- The failure or complaint in an event. -/
def Event.bad : Event X → Option String
  | .ran _ _ _ _ _ f => f
  | .verified _ _ _ _ c => c

/-- The events lead from one IR to another: passes change it, one after the other, and nothing else
does; the verifier sees it as it is. -/
def Chain : Ir X → List (Event X) → Ir X → Prop
  | a, [], b => a = b
  | a, .ran _ _ _ before after _ :: es, b => before = a ∧ Chain after es b
  | a, .verified _ _ _ ir _ :: es, b => ir = a ∧ Chain a es b

/-- The operation is still there after the pass: it is of the same kind, and attached if it was. -/
def Survives (before after : Ir X) (op : Nat) : Prop :=
  after.kind op = before.kind op ∧ (before.attached op = true → after.attached op = true)

/-- The verifier in force in the manager at the given place: its own, or else that of the closest
manager around it that has one. -/
def inForce (outer : Option (Verifier X)) : Manager X → List Nat → Option (Verifier X)
  | m, [] => m.verifier.or outer
  | m, i :: path =>
    match m.nested[i]? with
    | some n => inForce (m.verifier.or outer) n path
    | none => none

/-- Every pass that succeeded and whose operation is still there is directly followed by what the
verifier in force says about the IR it left. -/
def Checked (force : List Nat → Option (Verifier X)) : List (Event X) → Prop
  | [] => True
  | .ran path name op before after failure :: es =>
    (failure = none → Survives before after op → ∀ v, force path = some v →
      ∃ es', es = .verified path name op after (v after op) :: es') ∧ Checked force es
  | .verified .. :: es => Checked force es

/-- What a verification says is what the verifier in force says about that IR and operation. -/
def Honest (force : List Nat → Option (Verifier X)) : Event X → Prop
  | .ran .. => True
  | .verified path _ op ir complaint => ∃ v, force path = some v ∧ complaint = v ir op

/-- A pass ran where a verifier was in force. -/
def Guarded (force : List Nat → Option (Verifier X)) : Event X → Prop
  | .ran path _ _ _ _ _ => ∃ v, force path = some v
  | .verified .. => True

/-- A pass ran and left its operation in place. -/
def Kept : Event X → Prop
  | .ran _ _ op before after _ => Survives before after op
  | .verified .. => True

/-- The error tells what the last event was. -/
def Tells : Err → Event X → Prop
  | .execution p msg, .ran _ name _ _ _ f => p = name ∧ f = some msg
  | .verification p msg, .verified _ name _ _ c => p = name ∧ c = some msg
  | _, _ => False

/-- The runs among the events: which pass, of the manager at which place, on which operation. -/
def runs : List (Event X) → List (List Nat × String × Nat)
  | [] => []
  | .ran path name op _ _ _ :: es => (path, name, op) :: runs es
  | .verified .. :: es => runs es

/-- The operations of a kind at or below `op`. -/
def instances (kind : String) (ir : Ir X) (op : Nat) : List Nat :=
  (ir.under op).filter fun o => ir.kind o == kind

mutual
/-- The promised schedule: the passes in the order they were registered, then for each nested
manager in order, and each instance of its kind, the schedule of that manager. -/
def schedule (ir : Ir X) : Manager X → List Nat → Nat → List (List Nat × String × Nat)
  | .mk _ passes nested _, path, op =>
    passes.map (fun p => (path, p.name, op)) ++ scheduleNested ir nested path 0 op
def scheduleNested (ir : Ir X) : List (Manager X) → List Nat → Nat → Nat →
    List (List Nat × String × Nat)
  | [], _, _, _ => []
  | m :: ms, path, i, op =>
    (instances m.kind ir op).flatMap (fun t => schedule ir m (path ++ [i]) t)
      ++ scheduleNested ir ms path (i + 1) op
end

/-- The pass does not add, remove or change operations of the given kinds, other than inside. -/
def Keeps (kinds : String → Prop) (before after : Ir X) : Prop :=
  (∀ op, kinds (before.kind op) →
      after.kind op = before.kind op ∧ after.attached op = before.attached op)
    ∧ ∀ k, kinds k → ∀ op, instances k after op = instances k before op

mutual
/-- `k` is the kind of the manager or of one nested in it. -/
def HasKind (k : String) : Manager X → Prop
  | .mk kind _ nested _ => k = kind ∨ HasKindIn k nested
def HasKindIn (k : String) : List (Manager X) → Prop
  | [] => False
  | m :: ms => HasKind k m ∨ HasKindIn k ms
end

mutual
/-- Every pass of the manager and of those nested in it. -/
def AllPasses (P : Pass X → Prop) : Manager X → Prop
  | .mk _ passes nested _ => (∀ p ∈ passes, P p) ∧ AllPassesIn P nested
def AllPassesIn (P : Pass X → Prop) : List (Manager X) → Prop
  | [] => True
  | m :: ms => AllPasses P m ∧ AllPassesIn P ms
end

end Verif.PassMgr
