import Mathlib.Data.List.Basic
import Mathlib.Data.List.Nodup

/-!
Model of symbols shared by all threads: `crates/trunk-ir/src/symbol.rs` 17–106.

Any number of threads intern, look up, read and compare symbols; a state has the table of the interner,
what every thread is doing, and the record of all answers given so far, newest first.

Simplifications: text is an abstract type with a comparison; the table is the list of texts by key
(`lasso::Rodeo`), keys do not run out; the lock is `parking_lot`'s read-write lock by its contract
(one upgradable reader at a time besides readers, an upgrade waits until the readers are gone);
closures given to `with_str` use no symbols themselves.
-/

namespace Verif.Intern

variable {Text : Type} [DecidableEq Text]

/-- `Rodeo::get`. -/
def get : List Text → Text → Option Nat
  | [], _ => none
  | x :: xs, t => if x = t then some 0 else (get xs t).map (· + 1)

/-- `Rodeo::get_or_intern` and `get_or_intern_static`. -/
def getOrIntern (table : List Text) (t : Text) : List Text × Nat :=
  match get table t with
  | some k => (table, k)
  | none => (table ++ [t], table.length)

/-- What is asked under a read lock. -/
inductive Query (Text : Type) where
  /-- symbol.rs 74–76: `lookup` -/
  | lookup (t : Text)
  /-- symbol.rs 102–106: `with_str` -/
  | text (k : Nat)
  /-- symbol.rs 45–53: `cmp` -/
  | compare (k k' : Nat)

/-- What a thread is doing. -/
inductive Phase (Text : Type) where
  | idle
  /-- symbol.rs 79: holds the upgradable lock -/
  | held (t : Text)
  /-- symbol.rs 80–83: has not found the text and waits for the upgrade -/
  | absent (t : Text)
  /-- symbol.rs 83: holds the lock alone -/
  | writing (t : Text)
  /-- holds a read lock -/
  | reading (q : Query Text)

/-- Answers given. -/
inductive Event (Text : Type) where
  | interned (t : Text) (k : Nat)
  | lookedUp (t : Text) (o : Option Nat)
  | text (k : Nat) (o : Option Text)
  | compared (k k' : Nat) (o : Option Ordering)

structure State (Text : Type) where
  table : List Text
  phase : Nat → Phase Text
  log : List (Event Text)

/-- The thread goes on to something else. -/
def State.go (s : State Text) (i : Nat) (p : Phase Text) : State Text :=
  { s with phase := fun j => if j = i then p else s.phase j }

/-- The thread is done and has given an answer. -/
def State.answer (s : State Text) (i : Nat) (e : Event Text) : State Text :=
  { s.go i .idle with log := e :: s.log }

/-- The thread holds the upgradable lock, upgraded or not. -/
def Phase.owns : Phase Text → Bool
  | .held _ | .absent _ | .writing _ => true
  | _ => false

def Phase.writes : Phase Text → Bool
  | .writing _ => true
  | _ => false

def Phase.reads : Phase Text → Bool
  | .reading _ => true
  | _ => false

/-- symbol.rs 45–53: `cmp`; `none` where resolving a key would panic. -/
def compareKeys (cmp : Text → Text → Ordering) (table : List Text) (k k' : Nat) : Option Ordering :=
  if k = k' then some .eq
  else match table[k]?, table[k']? with
    | some a, some b => some (cmp a b)
    | _, _ => none

/-- The answer to a query. -/
def reply (cmp : Text → Text → Ordering) (table : List Text) : Query Text → Event Text
  | .lookup t => .lookedUp t (get table t)
  | .text k => .text k table[k]?
  | .compare k k' => .compared k k' (compareKeys cmp table k k')

/-- The key has been given to someone: symbols are made in no other way. -/
def issued (log : List (Event Text)) (k : Nat) : Prop :=
  (∃ t, .interned t k ∈ log) ∨ ∃ t, .lookedUp t (some k) ∈ log

/-- The symbols in a query have been given to someone. -/
def Query.known (log : List (Event Text)) : Query Text → Prop
  | .lookup _ => True
  | .text k => issued log k
  | .compare k k' => issued log k ∧ issued log k'

/-- One step of thread `i`. -/
inductive Step (cmp : Text → Text → Ordering) (i : Nat) : State Text → State Text → Prop
  /-- symbol.rs 79: `upgradable_read` -/
  | acquire (s : State Text) (t : Text) (h : s.phase i = .idle)
      (free : ∀ j, (s.phase j).owns = false) : Step cmp i s (s.go i (.held t))
  /-- symbol.rs 80–81: the text is there -/
  | found (s : State Text) (t : Text) (k : Nat) (h : s.phase i = .held t)
      (hg : get s.table t = some k) : Step cmp i s (s.answer i (.interned t k))
  /-- symbol.rs 82: the text is not there -/
  | notFound (s : State Text) (t : Text) (h : s.phase i = .held t)
      (hg : get s.table t = none) : Step cmp i s (s.go i (.absent t))
  /-- symbol.rs 83: `with_upgraded`, the upgrade -/
  | upgrade (s : State Text) (t : Text) (h : s.phase i = .absent t)
      (free : ∀ j, (s.phase j).reads = false) : Step cmp i s (s.go i (.writing t))
  /-- symbol.rs 83: `with_upgraded`, the closure, and release of the lock -/
  | write (s : State Text) (t : Text) (h : s.phase i = .writing t) :
      Step cmp i s { s.answer i (.interned t (getOrIntern s.table t).2) with
        table := (getOrIntern s.table t).1 }
  /-- `read_recursive` -/
  | read (s : State Text) (q : Query Text) (h : s.phase i = .idle) (hq : q.known s.log)
      (free : ∀ j, (s.phase j).writes = false) : Step cmp i s (s.go i (.reading q))
  /-- the answer, and release of the lock -/
  | reply (s : State Text) (q : Query Text) (h : s.phase i = .reading q) :
      Step cmp i s (s.answer i (reply cmp s.table q))

/-- symbol.rs 18: the interner is empty at first. -/
def start : State Text := ⟨[], fun _ => .idle, []⟩

/-- What can be reached by any schedule of any threads. -/
inductive Reach (cmp : Text → Text → Ordering) : State Text → Prop
  | start : Reach cmp start
  | step {s s' : State Text} (h : Reach cmp s) (i : Nat) (hs : Step cmp i s s') : Reach cmp s'

end Verif.Intern
