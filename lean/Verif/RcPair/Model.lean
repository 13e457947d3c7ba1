/-!
# Elimination of retain/release pairs

Models `crates/tribute-passes/src/native/rc_optimization.rs` on the operations of a basic block, and
the effect of the operations on a reference-counted heap.
-/

namespace Verif.RcPair

/-! ## The pass -/

/-- The operations of a block.  Values are numbers.  `op` is every other operation (calls, casts,
arithmetic, terminators): its result, its operands, the values captured by its regions, and whether
it has regions; `f` says which operation it is.  Operations with several results are left out. -/
inductive Op where
  | retain (dst src : Nat)
  | release (src : Nat)
  | load (dst addr : Nat) (off : Nat)
  | store (val addr : Nat) (off : Nat)
  | op (f : Nat) (dst : Nat) (args : List Nat) (caps : List Nat) (regions : Bool)
  deriving DecidableEq, Repr

/-- The operands, in order, `ctx.op_operands`. -/
def operands : Op → List Nat
  | .retain _ s => [s]
  | .release s => [s]
  | .load _ a _ => [a]
  | .store v a _ => [v, a]
  | .op _ _ args _ _ => args

/-- `is_proven_non_escaping_use`, `rc_optimization.rs` 88-101. -/
def nonEscaping : Op → Nat → Bool
  | .load _ _ _, i => i == 0
  | .store _ _ _, i => i == 1
  | _, _ => false

/-- The operation has regions, 73-77. -/
def hasRegions : Op → Bool
  | .op _ _ _ _ r => r
  | _ => false

/-- The test of the operands of an operation from place `i` on, 79-85. -/
def escapes (o : Op) (ptr retained : Nat) : Nat → List Nat → Bool
  | _, [] => false
  | i, v :: vs => ((v == ptr || v == retained) && !nonEscaping o i) || escapes o ptr retained (i + 1) vs

/-- `is_barrier_for`, 70-86. -/
def barrier (o : Op) (ptr retained : Nat) : Bool := hasRegions o || escapes o ptr retained 0 (operands o)

/-- `replace_all_uses(retained, ptr)`, 60. -/
def renVar (r p v : Nat) : Nat := if v = r then p else v

def rename (r p : Nat) : Op → Op
  | .retain d s => .retain d (renVar r p s)
  | .release s => .release (renVar r p s)
  | .load d a off => .load d (renVar r p a) off
  | .store v a off => .store (renVar r p v) (renVar r p a) off
  | .op f d args caps b => .op f d (args.map (renVar r p)) (caps.map (renVar r p)) b

/-- A release of the pointer or of the retained reference, 53-55. -/
def isReleaseOf (ptr retained : Nat) : Op → Bool
  | .release s => s == ptr || s == retained
  | _ => false

/-- The search for the release that goes with a retain, 52-67: the operations without the release,
or `none` when a barrier or the end of the block comes first. -/
def dropRelease (ptr retained : Nat) : List Op → Option (List Op)
  | [] => none
  | o :: rest =>
    if isReleaseOf ptr retained o then some rest
    else if barrier o ptr retained then none
    else (dropRelease ptr retained rest).map (o :: ·)

/-- `eliminate_one_pair`, 41-68: the first retain for which a release is found.  The result is the
block without the pair, and the value that has been replaced with the one that replaces it, because
`replace_all_uses` rewrites the uses in the other blocks and in nested regions too. -/
def eliminateOne (before : List Op) : List Op → Option (List Op × Nat × Nat)
  | [] => none
  | o :: rest =>
    match o with
    | .retain r p => match dropRelease p r rest with
      | some rest' => some ((before ++ rest').map (rename r p), r, p)
      | none => eliminateOne (before ++ [o]) rest
    | _ => eliminateOne (before ++ [o]) rest

/-- `while eliminate_one_pair(ctx, block) {}`, 29, at most `n` times, with the replacements made. -/
def eliminateN : Nat → List Op → List Op × List (Nat × Nat)
  | 0, ops => (ops, [])
  | n + 1, ops => match eliminateOne [] ops with
    | some (ops', r, p) => ((eliminateN n ops').1, (r, p) :: (eliminateN n ops').2)
    | none => (ops, [])

/-- The pass on one block: every step removes two operations, so this many steps are enough. -/
def eliminate (ops : List Op) : List Op × List (Nat × Nat) := eliminateN ops.length ops

/-- The replacements, in the order in which they are made, on a use of a value; this is what happens to
the uses in other blocks and in nested regions.  `optimize_region`, 25-38, runs the pass on one block
after the other. -/
def renAll : List (Nat × Nat) → Nat → Nat
  | [], v => v
  | (r, p) :: rest, v => renAll rest (renVar r p v)

/-! ## The machine -/

/-- A value: a reference to an object, or something else (0 is the null pointer). -/
inductive Val where
  | ref (a : Nat)
  | int (n : Nat)
  deriving DecidableEq, Repr

/-- An object with its reference count and the contents of its fields by offset. -/
structure Obj where
  count : Nat
  fields : List (Nat × Val)
  deriving DecidableEq, Repr

/-- The live objects by address. -/
abbrev Heap := List (Nat × Obj)

def del (h : Heap) (a : Nat) : Heap := h.filter (fun e => e.1 != a)

def modify (h : Heap) (a : Nat) (f : Obj → Obj) : Heap := h.map (fun e => if e.1 = a then (e.1, f e.2) else e)

/-- The references in the fields of an object. -/
def refs (fields : List (Nat × Val)) : List Nat :=
  fields.filterMap (fun e => match e.2 with | .ref a => some a | .int _ => none)

theorem del_length {h : Heap} {a : Nat} {o : Obj} (hl : h.lookup a = some o) : (del h a).length < h.length := by
  induction h with
  | nil => simp at hl
  | cons e h ih =>
    obtain ⟨b, o'⟩ := e
    have hle : (del h a).length ≤ h.length := List.length_filter_le _ _
    rw [List.lookup_cons] at hl
    simp only [del, List.filter_cons]
    by_cases hab : a = b
    · subst hab
      simp only [bne_self_eq_false, Bool.false_eq_true, if_false, List.length_cons]
      simp only [del] at hle
      omega
    · have h1 : (a == b) = false := by simpa using hab
      rw [h1] at hl
      have h2 : (b != a) = true := by simpa using fun h => hab h.symm
      simp only [h2, if_true, List.length_cons]
      have := ih hl
      simp only [del] at this
      omega

theorem modify_length (h : Heap) (a : Nat) (f : Obj → Obj) : (modify h a f).length = h.length := by
  simp [modify]

/-- Releasing references: `rc_lowering.rs` 188-330 and the generated release functions of
`native/rtti.rs`.  The count goes down; at the last reference the object is freed and the references
in its fields are released.  `none` for a reference to an object that is not live.  (The object is
freed before, not after, its fields are released.) -/
def releaseAll (h : Heap) (work : List Nat) : Option Heap :=
  match work with
  | [] => some h
  | a :: w => match hl : h.lookup a with
    | none => none
    | some o =>
      if o.count ≤ 1 then releaseAll (del h a) (refs o.fields ++ w)
      else releaseAll (modify h a (fun o => { o with count := o.count - 1 })) w
termination_by (h.length, work.length)
decreasing_by
  · exact Prod.Lex.left _ _ (del_length hl)
  · rw [modify_length]
    exact Prod.Lex.right _ (by simp)

/-- What an operation does to the heap. -/
inductive Act where
  | retain (a : Nat)
  | release (a : Nat)
  | touch (a : Nat)
  | store (a off : Nat) (v : Val)
  | alloc (a : Nat) (fields : List (Nat × Val))
  deriving DecidableEq, Repr

def setField (fields : List (Nat × Val)) (off : Nat) (v : Val) : List (Nat × Val) :=
  (off, v) :: fields.filter (fun e => e.1 != off)

/-- `none`: use of an object that is not live. -/
def act (h : Heap) : Act → Option Heap
  | .retain a => if (h.lookup a).isSome then some (modify h a (fun o => { o with count := o.count + 1 })) else none
  | .release a => releaseAll h [a]
  | .touch a => if (h.lookup a).isSome then some h else none
  | .store a off v =>
    if (h.lookup a).isSome then some (modify h a (fun o => { o with fields := setField o.fields off v })) else none
  | .alloc a fields => if (h.lookup a).isSome then none else some ((a, ⟨1, fields⟩) :: h)

def acts : Heap → List Act → Option Heap
  | h, [] => some h
  | h, x :: xs => match act h x with
    | none => none
    | some h' => acts h' xs

/-- The heap without the counts, which programs cannot read. -/
abbrev Shape := List (Nat × List (Nat × Val))

def shape (h : Heap) : Shape := h.map (fun e => (e.1, e.2.fields))

abbrev Env := Nat → Val

/-- Calls and other operations: what they do to the heap and their result, as a function of the values
of their operands (and captured values) and of the contents of the heap. -/
abbrev World := Nat → List Val → List Val → Shape → List Act × Val

structure State where
  env : Env
  heap : Heap

def setEnv (env : Env) (x : Nat) (v : Val) : Env := fun y => if y = x then v else env y

/-- What an operation does: its actions on the heap and the environment after it.  `none` for a
reference operation on something that is not a reference; null is ignored by retain and release
(`rc_lowering.rs` 118-187). -/
def effect (W : World) (st : State) : Op → Option (List Act × Env)
  | .retain d s => match st.env s with
    | .ref a => some ([.retain a], setEnv st.env d (.ref a))
    | .int 0 => some ([], setEnv st.env d (.int 0))
    | .int _ => none
  | .release s => match st.env s with
    | .ref a => some ([.release a], st.env)
    | .int 0 => some ([], st.env)
    | .int _ => none
  | .load d a off => match st.env a with
    | .ref x => match st.heap.lookup x with
      | none => none
      | some o => some ([.touch x], setEnv st.env d ((o.fields.lookup off).getD (.int 0)))
    | .int _ => none
  | .store v a off => match st.env a with
    | .ref x => some ([.store x off (st.env v)], st.env)
    | .int _ => none
  | .op f d args caps _ =>
    some ((W f (args.map st.env) (caps.map st.env) (shape st.heap)).1,
      setEnv st.env d (W f (args.map st.env) (caps.map st.env) (shape st.heap)).2)

/-- One operation; `none` for a use of a freed object. -/
def step (W : World) (st : State) (o : Op) : Option State :=
  match effect W st o with
  | none => none
  | some e => (acts st.heap e.1).map (fun h => ⟨e.2, h⟩)

def run (W : World) : State → List Op → Option State
  | st, [] => some st
  | st, o :: os => match step W st o with
    | none => none
    | some st' => run W st' os

end Verif.RcPair
