import Verif.ScfToCf.Model

/-
What function bodies mean, structured or not, and which ones satisfy the rules of the IR. Nothing here
mentions the lowering.
-/
namespace Verif.ScfToCf

/-- The meaning of everything that is not control flow, left arbitrary: run-time values, the state of
the world, what an operation does (`none`: it traps), constants, comparison, truth. `undef` is what is
read from a name that has no value yet; it is arbitrary too. -/
structure Interp where
  V : Type
  S : Type
  plain : Nat → List V → S → Option (List V × S)
  const : Int → V
  eq : V → V → V
  truth : V → Bool
  undef : V
  [dec : DecidableEq V]
  /-- Comparison decides equality. -/
  eq_truth : ∀ a b, truth (eq a b) = decide (a = b)

instance (I : Interp) : DecidableEq I.V := I.dec

/-- How running operations can end: by reaching the end of the list; by leaving the function; by
`scf.yield`, `scf.continue`, `scf.break`; by a jump to a block; by a trap of an operation; by an
error (no such block, too many arguments, a region without blocks, a block without terminator). -/
inductive Out (V : Type) where
  | fell
  | exit (name : Nat) (vs : List V)
  | yield (vs : List V)
  | cont (vs : List V)
  | brk (v : V)
  | jump (l : Label) (vs : List V)
  | trap
  | stuck

abbrev Env (I : Interp) := Value → I.V
abbrev Res (I : Interp) := Out I.V × Env I × I.S

/-- Define results or arguments. One for which no value is given is undefined. -/
def bind {I : Interp} (env : Env I) : List Value → List I.V → Env I
  | [], _ => env
  | p :: ps, [] => bind (fun v => if v = p then I.undef else env v) ps []
  | p :: ps, a :: as => bind (fun v => if v = p then a else env v) ps as

/-- Meaning of a region: from which block and with which values it is entered, in which environment and
state. `none`: not finished within the allowance. -/
abbrev Runner (I : Interp) := List Block → Label → List I.V → Env I → I.S → Option (Res I)

/-- A loop: run the body from its first block; `continue` enters it again with new values, `break`
ends the loop with its result. -/
def iterate {I : Interp} (run : Runner I) (body : List Block) (h : Label) (res : List Value) :
    Nat → List I.V → Env I → I.S → Option (Res I)
  | 0, _, _, _ => none
  | k + 1, vs, env, s =>
    match run body h vs env s with
    | some (.cont vs', env', s') => iterate run body h res k vs' env' s'
    | some (.brk v, env', s') => some (.fell, bind env' res [v], s')
    | some (.yield _, env', s') => some (.stuck, env', s')
    | r => r

/-- A branch of `if` or `switch` has ended: a yield gives the results of the operation and running goes
on behind it; anything else ends the enclosing block too. -/
def afterBranch {I : Interp} (res : List Value) : Option (Res I) → Option (Res I)
  | some (.yield vs, env, s) => some (.fell, bind env res vs, s)
  | r => r

/-- Enter a region at its first block. -/
def enter {I : Interp} (run : Runner I) (bs : List Block) (vs : List I.V) (env : Env I) (s : I.S) :
    Option (Res I) :=
  match firstLabel bs with
  | some l => run bs l vs env s
  | none => some (.stuck, env, s)

/-- Whether a case has the given value. -/
def Case.is {I : Interp} (a : I.V) : Case → Bool
  | .mk (some v) _ => decide (a = I.const v)
  | .mk none _ => false

/-- Whether a case is the default. -/
def Case.isDefault : Case → Bool
  | .mk (some _) _ => false
  | .mk none _ => true

/-- The region a switch runs: that of the first case whose value is the discriminant, else the last
default. -/
def choose {I : Interp} (a : I.V) (cases : List Case) : Option (List Block) :=
  ((cases.find? (Case.is a)).or (cases.reverse.find? Case.isDefault)).map Case.body

/-- One operation. -/
def execOp {I : Interp} (run : Runner I) (n : Nat) (env : Env I) (s : I.S) : Op → Option (Res I)
  | .plain name as rs =>
    match I.plain name (as.map env) s with
    | none => some (.trap, env, s)
    | some (out, s') => some (.fell, bind env rs out, s')
  | .const a r => some (.fell, bind env [r] [I.const a], s)
  | .cmpEq x y r => some (.fell, bind env [r] [I.eq (env x) (env y)], s)
  | .ite c res t e => afterBranch res (enter run (if I.truth (env c) then t else e) [] env s)
  | .loop init res body =>
    match firstLabel body with
    | some h => iterate run body h res n (init.map env) env s
    | none => some (.stuck, env, s)
  | .switch d res cases =>
    match choose (env d) cases with
    | none => some (.fell, bind env res [], s)
    | some body => afterBranch res (enter run body [] env s)
  | .yield vs => some (.yield (vs.map env), env, s)
  | .cont vs => some (.cont (vs.map env), env, s)
  | .brk v => some (.brk (env v), env, s)
  | .br as l => some (.jump l (as.map env), env, s)
  | .condBr c t e => some (.jump (if I.truth (env c) then t else e) [], env, s)
  | .exit name as => some (.exit name (as.map env), env, s)

/-- The operations of a block one after the other, until one does not go on to the next. -/
def exec {I : Interp} (run : Runner I) (n : Nat) : List Op → Env I → I.S → Option (Res I)
  | [], env, s => some (.fell, env, s)
  | o :: os, env, s =>
    match execOp run n env s o with
    | some (.fell, env', s') => exec run n os env' s'
    | r => r

/-- A region: run a block; a jump to a block of the region goes on there, any other end is the end of
the region; a block without a terminator is an error. The first argument bounds the number of jumps and the nesting of regions. -/
def run {I : Interp} : Nat → Runner I
  | 0, _, _, _, _, _ => none
  | n + 1, bs, l, args, env, s =>
    match findBlock l bs with
    | none => some (.stuck, env, s)
    | some (.mk _ ps ops) =>
      if ps.length < args.length then some (.stuck, env, s) else
      match exec (run n) n ops (bind env ps args) s with
      | some (.jump l' vs, env', s') =>
        if l' ∈ bs.map Block.label then run n bs l' vs env' s' else some (.jump l' vs, env', s')
      | some (.fell, env', s') => some (.stuck, env', s')
      | r => r

/-- The function with body `bs`, called with `args` in state `s`, ends with `o` in state `s'`. (If there
are no such `o` and `s'`, it does not end.) -/
def Behaves (I : Interp) (bs : List Block) (args : List I.V) (s : I.S) (o : Out I.V) (s' : I.S) :
    Prop :=
  ∃ l n env', firstLabel bs = some l ∧ run n bs l args (fun _ => I.undef) s = some (o, env', s')

/-! ## Rules of the IR -/

mutual
/-- Labels of the blocks within an operation. -/
def Op.labels : Op → List Label
  | .ite _ _ t e => labelsB t ++ labelsB e
  | .loop _ _ b => labelsB b
  | .switch _ _ cs => labelsC cs
  | _ => []
def labelsO : List Op → List Label
  | [] => []
  | o :: os => o.labels ++ labelsO os
def labelsB : List Block → List Label
  | [] => []
  | .mk l _ os :: bs => l :: (labelsO os ++ labelsB bs)
def labelsC : List Case → List Label
  | [] => []
  | .mk _ b :: cs => labelsB b ++ labelsC cs
end

mutual
/-- Values defined by an operation or within it. -/
def Op.defs : Op → List Value
  | .plain _ _ rs => rs
  | .const _ r => [r]
  | .cmpEq _ _ r => [r]
  | .ite _ rs t e => rs ++ (defsB t ++ defsB e)
  | .loop _ rs b => rs ++ defsB b
  | .switch _ rs cs => rs ++ defsC cs
  | _ => []
def defsO : List Op → List Value
  | [] => []
  | o :: os => o.defs ++ defsO os
def defsB : List Block → List Value
  | [] => []
  | .mk _ ps os :: bs => ps ++ (defsO os ++ defsB bs)
def defsC : List Case → List Value
  | [] => []
  | .mk _ b :: cs => defsB b ++ defsC cs
end

mutual
/-- Every branch goes to a block of its own region or of an enclosing one. `L`: the blocks visible
where the operation stands. -/
def Op.scopes (L : List Label) : Op → Prop
  | .ite _ _ t e => scopesB (t.map Block.label ++ L) t ∧ scopesB (e.map Block.label ++ L) e
  | .loop _ _ b => scopesB (b.map Block.label ++ L) b
  | .switch _ _ cs => scopesC L cs
  | .br _ l => l ∈ L
  | .condBr _ t e => t ∈ L ∧ e ∈ L
  | _ => True
def scopesO (L : List Label) : List Op → Prop
  | [] => True
  | o :: os => o.scopes L ∧ scopesO L os
def scopesB (L : List Label) : List Block → Prop
  | [] => True
  | .mk _ _ os :: bs => scopesO L os ∧ scopesB L bs
def scopesC (L : List Label) : List Case → Prop
  | [] => True
  | .mk _ b :: cs => scopesB (b.map Block.label ++ L) b ∧ scopesC L cs
end

/-- Operations that do not go on to the next one. -/
def Op.isTerm : Op → Bool
  | .yield _ | .cont _ | .brk _ | .br .. | .condBr .. | .exit .. => true
  | _ => false

mutual
/-- Regions have blocks, terminators end their blocks, `scf.if` and `scf.loop` have at most one result,
which is not their own operand, and `scf.switch` has none. -/
def Op.tidy : Op → Prop
  | .ite c rs t e => (rs.length ≤ 1 ∧ c ∉ rs) ∧ t ≠ [] ∧ e ≠ [] ∧ tidyB t ∧ tidyB e
  | .loop i rs b => (rs.length ≤ 1 ∧ ∀ v ∈ i, v ∉ rs) ∧ b ≠ [] ∧ tidyB b
  | .switch _ rs cs => rs = [] ∧ tidyC cs
  | _ => True
def tidyO : List Op → Prop
  | [] => True
  | o :: os => o.tidy ∧ (o.isTerm = true → os = []) ∧ tidyO os
def tidyB : List Block → Prop
  | [] => True
  | .mk _ _ os :: bs => tidyO os ∧ tidyB bs
def tidyC : List Case → Prop
  | [] => True
  | .mk _ b :: cs => b ≠ [] ∧ tidyB b ∧ tidyC cs
end

mutual
/-- `scf.yield` stands in the blocks of a branch (`y`), `scf.continue` and `scf.break` stand within a
loop (`l`), directly or in branches within its body. -/
def Op.placed (y l : Bool) : Op → Prop
  | .ite _ _ t e => placedB true l t ∧ placedB true l e
  | .loop _ _ b => placedB false true b
  | .switch _ _ cs => placedC l cs
  | .yield _ => y = true
  | .cont _ => l = true
  | .brk _ => l = true
  | _ => True
def placedO (y l : Bool) : List Op → Prop
  | [] => True
  | o :: os => o.placed y l ∧ placedO y l os
def placedB (y l : Bool) : List Block → Prop
  | [] => True
  | .mk _ _ os :: bs => placedO y l os ∧ placedB y l bs
def placedC (l : Bool) : List Case → Prop
  | [] => True
  | .mk _ b :: cs => placedB true l b ∧ placedC l cs
end

/-- The operations of the `scf` dialect. -/
def Op.structured : Op → Bool
  | .ite .. | .loop .. | .switch .. | .yield _ | .cont _ | .brk _ => true
  | _ => false

/-- A function body that satisfies the rules, and a context whose counters are past its numbers. -/
structure WF (c : Ctx) : Prop where
  nonempty : c.blocks ≠ []
  labels : (labelsB c.blocks).Nodup
  defs : (defsB c.blocks).Nodup
  branches : scopesB (c.blocks.map Block.label) c.blocks
  tidy : tidyB c.blocks
  placed : placedB false false c.blocks
  freshLabel : ∀ l ∈ labelsB c.blocks, l < c.nextLabel
  freshValue : ∀ v ∈ defsB c.blocks ++ usesB c.blocks, v < c.nextValue

end Verif.ScfToCf
