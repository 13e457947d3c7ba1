import Verif.RcPair.Model

/-!
# What the elimination of retain/release pairs must respect

The program may not use an object after it was freed, and must leave the same heap behind.
-/

namespace Verif.RcPair

/-- The values an operation reads, including captured ones. -/
def uses : Op → List Nat
  | .retain _ s => [s]
  | .release s => [s]
  | .load _ a _ => [a]
  | .store v a _ => [v, a]
  | .op _ _ args caps _ => args ++ caps

/-- The value an operation defines. -/
def defs : Op → List Nat
  | .retain d _ => [d]
  | .release _ => []
  | .load d _ _ => [d]
  | .store _ _ _ => []
  | .op _ d _ _ _ => [d]

/-- Every value is defined once and before it is used. -/
def SSA (ops : List Op) : Prop :=
  ops.Pairwise (fun o1 o2 => ∀ d ∈ defs o2, d ∉ uses o1 ∧ d ∉ defs o1) ∧ ∀ o ∈ ops, ∀ d ∈ defs o, d ∉ uses o

/-- The operation only reads or writes fields of the object: it has no regions, and the value occurs
in it at most as the address of a load or a store. -/
inductive OnlyDereferences (x : Nat) : Op → Prop
  | load {d a off} : OnlyDereferences x (.load d a off)
  | store {v a off} : v ≠ x → OnlyDereferences x (.store v a off)
  | retain {d s} : s ≠ x → OnlyDereferences x (.retain d s)
  | release {s} : s ≠ x → OnlyDereferences x (.release s)
  | op {f d args caps} : x ∉ args → OnlyDereferences x (.op f d args caps false)

/-- The reference count of an object; 0 if it is not live. -/
def countOf (h : Heap) (a : Nat) : Nat := match h.lookup a with
  | some o => o.count
  | none => 0

/-- Objects have one address each, and live ones have at least one reference. -/
def HeapOk (h : Heap) : Prop := (h.map Prod.fst).Nodup ∧ ∀ e ∈ h, 1 ≤ e.2.count

/-- The object has at least `n` references after each of the actions. -/
def HeldActs (n a : Nat) : Heap → List Act → Prop
  | _, [] => True
  | h, x :: xs => ∀ h', act h x = some h' → n ≤ countOf h' a ∧ HeldActs n a h' xs

/-- The object has at least `n` references at every moment while the operations run. -/
def Held (W : World) (n a : Nat) : State → List Op → Prop
  | _, [] => True
  | st, o :: os => (∀ e, effect W st o = some e → HeldActs n a st.heap e.1) ∧
      ∀ st', step W st o = some st' → Held W n a st' os

/-- The operation gives up no reference, neither itself nor in code it calls. -/
def Quiet (W : World) : Op → Prop
  | .release _ => False
  | .op f _ _ _ _ => ∀ args caps sh a, Act.release a ∉ (W f args caps sh).1
  | _ => True

/-- The pair (the retain after `pre`, the release after `mid`) is not needed when the block runs from
`st`: the pointer is null, or some other reference keeps the object alive from the retain to the
release. -/
def PairUnneeded (W : World) (st : State) (pre : List Op) (r p : Nat) (mid : List Op) : Prop :=
  ∀ st1 st2, run W st pre = some st1 → step W st1 (.retain r p) = some st2 →
    ∀ a, st1.env p = .ref a → Held W 2 a st2 mid

/-- Two states agree, if the values in the first are called by the new name in the second. -/
def Agree (ren : Nat → Nat) (st st' : State) : Prop := st.heap = st'.heap ∧ ∀ x, st.env x = st'.env (ren x)

/-- The pass takes the pair apart in this way. -/
structure Removes (ops ops' : List Op) (pre : List Op) (r p : Nat) (mid : List Op) (q : Nat) (post : List Op) :
    Prop where
  shape : ops = pre ++ .retain r p :: (mid ++ .release q :: post)
  same : q = p ∨ q = r
  result : ops' = (pre ++ mid ++ post).map (rename r p)
  between : ∀ o ∈ mid, OnlyDereferences p o ∧ OnlyDereferences r o

end Verif.RcPair
