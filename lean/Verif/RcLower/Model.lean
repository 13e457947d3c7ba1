/-!
# Lowering of retain and release

Model of `crates/tribute-passes/src/native/rc_lowering.rs` 121-440 (`lower_rc_in_block` and the code
generators it calls) and of the instructions it emits.

Simplifications:
* one block at a time (nested regions and several original blocks are not modelled);
* memory is modelled as far as the 32-bit words holding reference counts are concerned; every
  operation other than retain and release is opaque, with an arbitrary effect on memory and result;
* atomic instructions are sequentially consistent.
-/
namespace Verif.RcLower

/-- Pointer-sized values. -/
abbrev Word := BitVec 64
/-- The 32-bit word at every address. -/
abbrev Heap := Word → BitVec 32

/-- Operations of a block before the pass. -/
inductive Op where
  /-- `%d = tribute_rt.retain %s` -/
  | retain (d s : Nat)
  /-- `tribute_rt.release %s {alloc_size}` -/
  | release (s : Nat) (size : Word)
  /-- any other operation -/
  | other (d id : Nat) (args : List Nat)
deriving DecidableEq

/-- Values after the pass: the original ones, and those of the new instructions. -/
inductive Val where
  | orig (n : Nat)
  | tmp (n : Nat)
deriving DecidableEq

/-- Instructions after the pass. -/
inductive COp where
  | iconst (d : Val) (n : Word)
  | icmpEq (d a b : Val)
  | isub (d a b : Val)
  | rmwAdd (d addr v : Val)
  | rmwSub (d addr v : Val)
  | callDeepRelease (p size : Val)
  | other (d : Val) (id : Nat) (args : List Val)
  | brif (c : Val) (thenDest elseDest : Nat)
  | jump (dest : Nat)
deriving DecidableEq

/-- `RC_HEADER_SIZE`, crates/tribute-rc/src/lib.rs 48-53 (payload offset of `RcBox`). -/
def headerSize : Word := 8

/-- The code of the block itself, and the blocks added to the region. -/
structure Lowered where
  code : List COp
  blocks : List (Nat × List COp)

/-- Update of a map. -/
def upd {α β : Type} [DecidableEq α] (f : α → β) (k : α) (b : β) : α → β :=
  fun x => if x = k then b else f x

/-- `gen_retain_rc_ops`, rc_lowering.rs 320-349; values are numbered from `k`. -/
def genRetainRcOps (k : Nat) (ptr : Val) : List COp :=
  [.iconst (.tmp k) headerSize, .isub (.tmp (k+1)) ptr (.tmp k), .iconst (.tmp (k+2)) 1,
   .rmwAdd (.tmp (k+3)) (.tmp (k+1)) (.tmp (k+2))]

/-- `gen_release_decrement`, rc_lowering.rs 351-399; the result is `tmp (k+4)`. -/
def genReleaseDecrement (k : Nat) (ptr : Val) : List COp :=
  [.iconst (.tmp k) headerSize, .isub (.tmp (k+1)) ptr (.tmp k), .iconst (.tmp (k+2)) 1,
   .rmwSub (.tmp (k+3)) (.tmp (k+1)) (.tmp (k+2)), .icmpEq (.tmp (k+4)) (.tmp (k+3)) (.tmp (k+2))]

/-- `gen_deep_release_call`, rc_lowering.rs 401-432. -/
def genDeepReleaseCall (k : Nat) (ptr : Val) (size : Word) (cont : Nat) : List COp :=
  [.iconst (.tmp k) size, .callDeepRelease ptr (.tmp k), .jump cont]

/-- `lower_rc_in_block`, rc_lowering.rs 121-309. `ρ` is the current name of every original value
(`replace_all_uses`, 212), `k` numbers new values and blocks. -/
def lowerBlock (ρ : Nat → Val) (k : Nat) : List Op → Lowered
  | [] => ⟨[], []⟩
  | .other d id args :: rest =>
    let r := lowerBlock ρ k rest
    ⟨.other (.orig d) id (args.map ρ) :: r.code, r.blocks⟩
  | .retain d s :: rest =>
    let skip := k
    let doRetain := k + 1
    let r := lowerBlock (upd ρ d (ρ s)) (k + 10) rest
    ⟨[.iconst (.tmp k) 0, .icmpEq (.tmp (k+1)) (ρ s) (.tmp k), .brif (.tmp (k+1)) skip doRetain],
     (doRetain, genRetainRcOps (k+2) (ρ s) ++ [.jump skip]) :: (skip, r.code) :: r.blocks⟩
  | .release s size :: rest =>
    let skip := k
    let doRelease := k + 1
    let free := k + 2
    let r := lowerBlock ρ (k + 10) rest
    ⟨[.iconst (.tmp k) 0, .icmpEq (.tmp (k+1)) (ρ s) (.tmp k), .brif (.tmp (k+1)) skip doRelease],
     (doRelease, genReleaseDecrement (k+2) (ρ s) ++ [.brif (.tmp (k+6)) free skip]) ::
     (free, genDeepReleaseCall (k+7) (ρ s) size skip) :: (skip, r.code) :: r.blocks⟩

/-! ## Execution of the emitted instructions -/

/-- What the rest of the system sees of a thread. -/
inductive Event where
  /-- the count of the object at `p` goes up by one -/
  | retain (p : Word)
  /-- the count of the object at `p` goes down by one -/
  | release (p : Word)
  /-- the destructor of the object at `p` is called -/
  | destroy (p size : Word)
  /-- any other operation, with its arguments and result -/
  | op (id : Nat) (args : List Word) (result : Word)
deriving DecidableEq

/-- The effect of the opaque operations: result and new memory. -/
abbrev Effect := Nat → List Word → Heap → Word × Heap

/-- A thread running emitted code. -/
structure LThread where
  code : List COp
  env : Val → Word
  blocks : List (Nat × List COp)

/-- Instructions that touch only the thread's own state: `iconst`, `icmp`, `isub`, branches. -/
def LThread.priv (t : LThread) : Option LThread :=
  match t.code with
  | .iconst d n :: rest => some { t with code := rest, env := upd t.env d n }
  | .icmpEq d a b :: rest =>
    some { t with code := rest, env := upd t.env d (if t.env a = t.env b then 1 else 0) }
  | .isub d a b :: rest => some { t with code := rest, env := upd t.env d (t.env a - t.env b) }
  | .brif c x y :: _ =>
    (t.blocks.lookup (if t.env c ≠ 0 then x else y)).map fun code => { t with code := code }
  | .jump x :: _ => (t.blocks.lookup x).map fun code => { t with code := code }
  | _ => none

/-- Instructions that touch shared state; an `atomic_rmw` on a count word is reported as a retain or
release of the object whose header it is in. -/
def LThread.shared (act : Effect) (h : Heap) (t : LThread) : Option (Event × LThread × Heap) :=
  match t.code with
  | .rmwAdd d a v :: rest =>
    let old := h (t.env a)
    some (.retain (t.env a + 8), { t with code := rest, env := upd t.env d (old.setWidth 64) },
      upd h (t.env a) (old + (t.env v).setWidth 32))
  | .rmwSub d a v :: rest =>
    let old := h (t.env a)
    some (.release (t.env a + 8), { t with code := rest, env := upd t.env d (old.setWidth 64) },
      upd h (t.env a) (old - (t.env v).setWidth 32))
  | .callDeepRelease p size :: rest =>
    some (.destroy (t.env p) (t.env size), { t with code := rest }, h)
  | .other d id args :: rest =>
    let r := act id (args.map t.env) h
    some (.op id (args.map t.env) r.1, { t with code := rest, env := upd t.env d r.1 }, r.2)
  | _ => none

/-- The thread has executed the whole block. -/
def LThread.done (t : LThread) : Prop := t.code = []

/-- A thread about to execute the lowered block. -/
def LThread.start (ops : List Op) (env : Nat → Word) : LThread :=
  let r := lowerBlock .orig 0 ops
  { code := r.code, blocks := r.blocks,
    env := fun v => match v with | .orig n => env n | .tmp _ => 0 }

end Verif.RcLower
