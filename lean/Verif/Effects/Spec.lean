import Verif.Effects.Model

/-!
# What a program with effect handlers means

A small machine over source expressions, as in `new-plans/abilities.md` (deep handlers): a state is
an expression to evaluate, or a value to return, with the list of what waits for it.  Nothing of
the lowering is used: no continuation closures, evidence, tags or carriers.

* An operation goes to the nearest enclosing `handle` that has an arm for it.  The arm runs outside
  that `handle`; `resume` stands for what was waiting up to and including the `handle`.
* `resume v` returns `v` to that waiting computation; the value of `resume` is what the `handle`
  finally answers.
* An arm that does not resume gives the answer of the `handle`: what was waiting is dropped, and the
  `do` arm does not run.
* A body that returns passes its value to the `do` arm, which runs outside the `handle`.
* An arm declared with `fn` runs outside the `handle` too, and its value is returned to the place
  of the operation.
-/

namespace Verif.Effects

mutual
inductive SVal where
  | base (b : Int)
  /-- `d` marks closures of the `Direct` convention, which the type checker keeps apart. -/
  | clo (d : Bool) (ps : List Var) (b : Exp) (ρ : List (Var × SVal))
  /-- What `resume` stands for. -/
  | cont (K : List Frame)
inductive Frame where
  | letF (x : Var) (b : Exp) (ρ : List (Var × SVal))
  | hdl (hs : List Arm) (dx : Var) (d : Exp) (ρ : List (Var × SVal))
  /-- A `fn` arm is running; its value goes back to `K`. -/
  | fnF (K : List Frame)
  /-- An `op` arm is running, whose `resume` stands for `K`; only a mark, values pass it. -/
  | armF (K : List Frame)
end

abbrev SEnv := List (Var × SVal)

inductive Ctl where
  | ev (ρ : SEnv) (e : Exp)
  | rt (v : SVal)

def slookups (ρ : SEnv) : List Var → Option (List SVal)
  | [] => some []
  | x :: xs => match ρ.lookup x, slookups ρ xs with
    | some v, some vs => some (v :: vs)
    | _, _ => none

def sbases : List SVal → Option (List Int)
  | [] => some []
  | .base b :: vs => (sbases vs).map (b :: ·)
  | _ :: _ => none

/-- The first arm for an operation. -/
def findArm (hs : List Arm) (a : Ab) (o : Opn) : Option Arm :=
  hs.find? fun h => h.ab = a ∧ h.opn = o

/-- The nearest `handle` with an arm for an operation: what waits inside it, the `handle`, the arm
and what waits outside. -/
def findH (a : Ab) (o : Opn) : List Frame → Option (List Frame × Frame × Arm × SEnv × List Frame)
  | [] => none
  | .hdl hs dx d ρ :: C => match findArm hs a o with
    | some h => some ([], .hdl hs dx d ρ, h, ρ, C)
    | none => (findH a o C).map fun r => (.hdl hs dx d ρ :: r.1, r.2)
  | f :: C => (findH a o C).map fun r => (f :: r.1, r.2)

variable {W : Type}

abbrev SState (W : Type) := Ctl × List Frame × W

/-- One step. -/
def step (M : Mach W) (F : List (Fn × (List Var × Exp))) : SState W → Option (SState W)
  | (.ev ρ e, C, w) =>
    match e with
    | .var x => (ρ.lookup x).map fun v => (.rt v, C, w)
    | .prim p xs => match (slookups ρ xs).bind sbases with
      | some bs => (M.prim p bs w).map fun r => (.rt (.base r.1), C, r.2)
      | none => none
    | .lam ps b => some (.rt (.clo false ps b ρ), C, w)
    | .lamD ps b => some (.rt (.clo true ps b ρ), C, w)
    | .call f xs => match F.lookup f, slookups ρ xs with
      | some (ps, b), some vs =>
        if ps.length = vs.length then some (.ev (ps.zip vs) b, C, w) else none
      | _, _ => none
    | .app c xs => match ρ.lookup c, slookups ρ xs with
      | some (.clo false ps b ρ'), some vs =>
        if ps.length = vs.length then some (.ev (ps.zip vs ++ ρ') b, C, w) else none
      | _, _ => none
    | .appD c xs => match ρ.lookup c, slookups ρ xs with
      | some (.clo true ps b ρ'), some vs =>
        if ps.length = vs.length then some (.ev (ps.zip vs ++ ρ') b, C, w) else none
      | _, _ => none
    | .op a o xs => match slookups ρ xs, findH a o C with
      | some vs, some (K, f, .mk .op _ _ ps rk b, ρ', C') =>
        if ps.length = vs.length then
          some (.ev (ps.zip vs ++ (rk, .cont (K ++ [f])) :: ρ') b, .armF (K ++ [f]) :: C', w)
        else none
      | _, _ => none
    | .fnop a o xs => match slookups ρ xs, findH a o C with
      | some vs, some (K, f, .mk .fn _ _ ps _ b, ρ', C') =>
        if ps.length = vs.length then
          some (.ev (ps.zip vs ++ ρ') b, .fnF (K ++ [f]) :: C', w) else none
      | _, _ => none
    | .resume k x => match ρ.lookup k, ρ.lookup x with
      | some (.cont K), some v => some (.rt v, K ++ C, w)
      | _, _ => none
    | .letE x a b => some (.ev ρ a, .letF x b ρ :: C, w)
    | .ite x a b => match ρ.lookup x with
      | some (.base n) => some (.ev ρ (if n ≠ 0 then a else b), C, w)
      | _ => none
    | .handle b hs dx d => some (.ev ρ b, .hdl hs dx d ρ :: C, w)
  | (.rt v, C, w) =>
    match C with
    | [] => none
    | .letF x b ρ :: C => some (.ev ((x, v) :: ρ) b, C, w)
    | .hdl _ dx d ρ :: C => some (.ev ((dx, v) :: ρ) d, C, w)
    | .fnF K :: C => some (.rt v, K ++ C, w)
    | .armF _ :: C => some (.rt v, C, w)

def steps (M : Mach W) (F : List (Fn × (List Var × Exp))) : Nat → SState W → Option (SState W)
  | 0, s => some s
  | n + 1, s => (step M F s).bind (steps M F n)

/-- The program answers the number `b` and leaves the world `w'`. -/
def Answers (M : Mach W) (P : Prog) (w : W) (b : Int) (w' : W) : Prop :=
  ∃ n, steps M P.funs n (.ev [] P.main, [], w) = some (.rt (.base b), [], w')

mutual
/-- The abilities that are being handled: by the `handle`s that wait, and by those that belong to
the `resume` of an arm that is running. -/
def handledF : Frame → List Ab
  | .letF _ _ _ => []
  | .hdl hs _ _ _ => hs.map Arm.ab
  | .fnF K => handled K
  | .armF K => handled K
def handled : List Frame → List Ab
  | [] => []
  | f :: C => handledF f ++ handled C
end

/-- The next step installs a handler for an ability that is being handled already. -/
def Nests : SState W → Prop
  | (.ev _ (.handle _ hs _ _), C, _) => ∃ h ∈ hs, h.ab ∈ handled C
  | _ => False

/-- The program answers `b` without ever nesting two handlers for one ability. -/
def AnswersApart (M : Mach W) (P : Prog) (w : W) (b : Int) (w' : W) : Prop :=
  ∃ n, steps M P.funs n (.ev [] P.main, [], w) = some (.rt (.base b), [], w') ∧
    ∀ i s, steps M P.funs i (.ev [] P.main, [], w) = some s → ¬ Nests s

/-- The compiled program answers the number `b` and leaves the world `w'`. -/
def Compiled (M : Mach W) (P : Prog) (w : W) (b : Int) (w' : W) : Prop :=
  ∃ n c, run M P.code n [] P.mainCode w 0 = .ok (.base b) w' c

/-- The compiled program breaks: it reads a value that is not there, or reaches code the compiler
takes for unreachable. -/
def Breaks (M : Mach W) (P : Prog) (w : W) : Prop :=
  ∃ n, run M P.code n [] P.mainCode w 0 = .bad

end Verif.Effects
