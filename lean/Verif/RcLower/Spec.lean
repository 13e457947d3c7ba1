import Verif.RcLower.Model
/-!
# Meaning of retain and release, and interleaved execution
-/
namespace Verif.RcLower

/-- A thread running the block before lowering: `pending` is an object whose destructor the thread
has to call next. -/
structure SThread where
  prog : List Op
  env : Nat → Word
  pending : Option (Word × Word)

/-- Retaining or releasing a null pointer does nothing. -/
def SThread.priv (t : SThread) : Option SThread :=
  match t.pending, t.prog with
  | none, .retain d s :: rest =>
    if t.env s = 0 then some { t with prog := rest, env := upd t.env d (t.env s) } else none
  | none, .release s _ :: rest => if t.env s = 0 then some { t with prog := rest } else none
  | _, _ => none

/-- Retain adds one to the count, eight bytes below the object; release subtracts one, and if the
count was one, the next thing the thread does is to call the destructor. -/
def SThread.shared (act : Effect) (h : Heap) (t : SThread) : Option (Event × SThread × Heap) :=
  match t.pending, t.prog with
  | some (p, size), _ => some (.destroy p size, { t with pending := none }, h)
  | none, .retain d s :: rest =>
    let p := t.env s
    if p = 0 then none
    else some (.retain p, { t with prog := rest, env := upd t.env d p }, upd h (p - 8) (h (p - 8) + 1))
  | none, .release s size :: rest =>
    let p := t.env s
    if p = 0 then none
    else some (.release p,
      { t with prog := rest, pending := if h (p - 8) = 1 then some (p, size) else none },
      upd h (p - 8) (h (p - 8) - 1))
  | none, .other d id args :: rest =>
    let r := act id (args.map t.env) h
    some (.op id (args.map t.env) r.1, { t with prog := rest, env := upd t.env d r.1 }, r.2)
  | none, [] => none

def SThread.done (t : SThread) : Prop := t.prog = [] ∧ t.pending = none

def SThread.start (ops : List Op) (env : Nat → Word) : SThread := ⟨ops, env, none⟩

/-- A kind of thread: private steps, shared steps, end. -/
structure Machine (T : Type) where
  priv : T → Option T
  shared : Heap → T → Option (Event × T × Heap)
  done : T → Prop

def source (act : Effect) : Machine SThread := ⟨SThread.priv, SThread.shared act, SThread.done⟩
def lowered (act : Effect) : Machine LThread := ⟨LThread.priv, LThread.shared act, LThread.done⟩

/-- Interleaved execution of a pool of threads (one per element of `ι`): the events, by thread, in
the order in which they happen. -/
inductive Run {T ι : Type} [DecidableEq ι] (M : Machine T) :
    (ι → T) → Heap → List (ι × Event) → (ι → T) → Heap → Prop
  | nil {ts h} : Run M ts h [] ts h
  | tau {ts h i t tr ts' h'} : M.priv (ts i) = some t → Run M (upd ts i t) h tr ts' h' →
      Run M ts h tr ts' h'
  | vis {ts h i e t h1 tr ts' h'} : M.shared h (ts i) = some (e, t, h1) →
      Run M (upd ts i t) h1 tr ts' h' → Run M ts h ((i, e) :: tr) ts' h'

/-- A run in which every thread gets to its end. -/
def Complete {T ι : Type} [DecidableEq ι] (M : Machine T) (ts : ι → T) (h : Heap)
    (tr : List (ι × Event)) (h' : Heap) : Prop :=
  ∃ ts', Run M ts h tr ts' h' ∧ ∀ i, M.done (ts' i)

/-- The value an operation defines. -/
def Op.dst : Op → Option Nat
  | .retain d _ => some d
  | .release _ _ => none
  | .other d _ _ => some d

/-- The values an operation uses. -/
def Op.uses : Op → List Nat
  | .retain _ s => [s]
  | .release s _ => [s]
  | .other _ _ args => args

/-- Static single assignment: what an operation defines is neither used nor defined before it. -/
def SSA (ops : List Op) : Prop :=
  ∀ before o after, ops = before ++ o :: after → ∀ d, o.dst = some d →
    d ∉ o.uses ∧ ∀ o' ∈ before, d ∉ o'.uses ∧ o'.dst ≠ some d

/-! ## Counting discipline for one object -/

/-- Number of references to `p` after the events, starting from `n`. -/
def refsAfter {ι : Type} (p : Word) (n : Nat) : List (ι × Event) → Nat
  | [] => n
  | (_, .retain q) :: tr => refsAfter p (if q = p then n + 1 else n) tr
  | (_, .release q) :: tr => refsAfter p (if q = p then n - 1 else n) tr
  | _ :: tr => refsAfter p n tr

/-- The program uses references properly: `p` is retained and released only while there is a
reference to it, and never has 2^32 references. -/
def Disciplined {ι : Type} (p : Word) (n : Nat) (tr : List (ι × Event)) : Prop :=
  ∀ before i e after, tr = before ++ (i, e) :: after →
    ((e = .retain p → 0 < refsAfter p n before ∧ refsAfter p n before + 1 < 2 ^ 32) ∧
     (e = .release p → 0 < refsAfter p n before))

/-- The event is the destruction of `p`. -/
def isDestroy (p : Word) : Event → Bool
  | .destroy q _ => decide (q = p)
  | _ => false

/-- The event changes the count of `p`. -/
def touches (p : Word) : Event → Bool
  | .retain q => decide (q = p)
  | .release q => decide (q = p)
  | _ => false

end Verif.RcLower
