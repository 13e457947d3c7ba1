/-!
# Thread-local storage of the native runtime

Model of `crates/tribute-runtime/src/tls.rs` 22-43 and 50-136 (POSIX backend) and of
`__tribute_next_tag` (`lib.rs`), as an interleaving semantics: each step is one atomic access to
the shared variable `TLS_KEY`, or a piece of purely thread-local work.

Simplifications:
* sequentially consistent memory; the code uses acquire/release on the single shared variable;
* a pthread key returned by the OS is never one of the two sentinels `usize::MAX`,
  `usize::MAX - 1` (`PthreadKey` is 32 bits wide, `usize` 64);
* a thread reaches `thread_state` only after its own or somebody else's `tls_init` returned on
  that thread (the documented safety condition, tls.rs 115-117), expressed by the `inited` flag;
* thread exit and the destructor are not modelled.
-/
namespace Verif.Tls

abbrev Tid := Nat

/-- Contents of `TLS_KEY`, tls.rs 71-76. -/
inductive KeyCell where
  | unset
  | initializing
  | key (k : Nat)
deriving DecidableEq, Repr

/-- Where a thread is. -/
inductive Pc where
  /-- outside the TLS functions -/
  | idle
  /-- `compare_exchange` succeeded (tls.rs 98) -/
  | won
  /-- `pthread_key_create` returned `k` (tls.rs 101) -/
  | made (k : Nat)
  /-- in the spin loop (tls.rs 107) -/
  | spin
  /-- `thread_state` loaded the key (tls.rs 124) -/
  | loaded (k : Nat)
  /-- an assertion failed (tls.rs 102) -/
  | panicked
deriving DecidableEq, Repr

/-- Whole-process state. -/
structure St where
  cell : KeyCell
  /-- number of successful `pthread_key_create` calls -/
  keysCreated : Nat
  pc : Tid → Pc
  /-- the thread has returned from `tls_init` -/
  inited : Tid → Bool
  /-- `pthread_getspecific`: per thread and key, the index of the thread state -/
  specific : Tid → Nat → Option Nat
  /-- `ThreadState::tag_counter` of every allocated thread state -/
  counters : List (BitVec 32)
  /-- tags handed out so far, oldest first -/
  trace : List (Tid × BitVec 32)

/-- Function update. -/
def upd {α : Type} (f : Tid → α) (t : Tid) (v : α) : Tid → α := fun u => if u = t then v else f u

def init : St where
  cell := .unset
  keysCreated := 0
  pc := fun _ => .idle
  inited := fun _ => false
  specific := fun _ _ => none
  counters := []
  trace := []

/-- `thread_state()` after the key is loaded (tls.rs 125-134): the index of the thread's state,
allocated if there is none. -/
def threadState (s : St) (t : Tid) (k : Nat) : Nat × St :=
  match s.specific t k with
  | some i => (i, s)
  | none =>
    let i := s.counters.length
    (i, { s with
      counters := s.counters ++ [0]
      specific := upd s.specific t (fun k' => if k' = k then some i else s.specific t k') })

/-- `ThreadState::next_tag`, tls.rs 35-39: returns the counter and increments it, wrapping. -/
def nextTag (counters : List (BitVec 32)) (i : Nat) : Option (BitVec 32 × List (BitVec 32)) :=
  match counters[i]? with
  | some tag => some (tag, counters.set i (tag + 1))
  | none => none

/-- One atomic step of thread `t`. -/
inductive Step (t : Tid) : St → St → Prop
  /-- `tls_init`, compare-exchange succeeds (tls.rs 93-98). -/
  | casOk (s) : s.pc t = .idle → s.cell = .unset →
      Step t s { s with cell := .initializing, pc := upd s.pc t .won }
  /-- `tls_init`, compare-exchange fails with `KEY_INITIALIZING` (tls.rs 105). -/
  | casBusy (s) : s.pc t = .idle → s.cell = .initializing →
      Step t s { s with pc := upd s.pc t .spin }
  /-- `tls_init`, compare-exchange fails with a key (tls.rs 111): return. -/
  | casDone (s) (k) : s.pc t = .idle → s.cell = .key k →
      Step t s { s with inited := upd s.inited t true }
  /-- `pthread_key_create` succeeds with any key (tls.rs 101). -/
  | create (s) (k) : s.pc t = .won →
      Step t s { s with keysCreated := s.keysCreated + 1, pc := upd s.pc t (.made k) }
  /-- `pthread_key_create` fails: assertion (tls.rs 102). -/
  | createFail (s) : s.pc t = .won → Step t s { s with pc := upd s.pc t .panicked }
  /-- publish the key and return (tls.rs 103). -/
  | publish (s) (k) : s.pc t = .made k →
      Step t s { s with cell := .key k, pc := upd s.pc t .idle, inited := upd s.inited t true }
  /-- the spin loop sees anything but `KEY_INITIALIZING` and returns (tls.rs 107). -/
  | spinDone (s) : s.pc t = .spin → s.cell ≠ .initializing →
      Step t s { s with pc := upd s.pc t .idle, inited := upd s.inited t true }
  /-- the spin loop goes round. -/
  | spinAgain (s) : s.pc t = .spin → s.cell = .initializing → Step t s s
  /-- `thread_state`: load the key (tls.rs 124). -/
  | load (s) (k) : s.pc t = .idle → s.inited t = true → s.cell = .key k →
      Step t s { s with pc := upd s.pc t (.loaded k) }
  /-- rest of `thread_state`, then `next_tag`. -/
  | tag (s) (k i : Nat) (s' : St) (v : BitVec 32) (cs : List (BitVec 32)) : s.pc t = .loaded k →
      threadState s t k = (i, s') → nextTag s'.counters i = some (v, cs) →
      Step t s { s' with counters := cs, pc := upd s.pc t .idle, trace := s.trace ++ [(t, v)] }

/-- States reachable from `s` by any interleaving of any threads. -/
inductive Reach (s : St) : St → Prop
  | refl : Reach s s
  | step (t : Tid) {a b : St} : Reach s a → Step t a b → Reach s b

end Verif.Tls
