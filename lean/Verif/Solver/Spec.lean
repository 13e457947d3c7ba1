import Verif.Solver.Model
import Mathlib.Data.List.Forall2

/-!
# What it means for a solution to satisfy an equation

Independent of the solver: simultaneous substitution, agreement of types and rows, and the
fragment of types whose abilities take no arguments.
-/

namespace Verif.Solver
open Verif.Types

/-! ## Substitutions -/

/-- An assignment of a type to every type variable and of a row to every row variable. -/
structure Sub where
  ty : UVar → Ty
  row : Nat → Row

/-- The identity assignment. -/
def Sub.id : Sub := ⟨.uni, fun v => ⟨[], some v⟩⟩

/-- The row a tail stands for. -/
def Sub.tail (θ : Sub) : Option Nat → Row
  | none => ⟨[], none⟩
  | some v => θ.row v

mutual
/-- Simultaneous substitution; the effects of the row assigned to a tail are appended. -/
def Sub.onTy (θ : Sub) : Ty → Ty
  | .uni v => θ.ty v
  | .node h ks es r => .node h (Sub.onTyL θ ks) (Sub.onEffL θ es ++ (θ.tail r).effects)
      (θ.tail r).rest
def Sub.onEff (θ : Sub) : Eff → Eff
  | .mk a as => .mk a (Sub.onTyL θ as)
def Sub.onTyL (θ : Sub) : List Ty → List Ty
  | [] => []
  | t :: ts => Sub.onTy θ t :: Sub.onTyL θ ts
def Sub.onEffL (θ : Sub) : List Eff → List Eff
  | [] => []
  | e :: es => Sub.onEff θ e :: Sub.onEffL θ es
end

/-- Substitution in a row. -/
def Sub.onRow (θ : Sub) (r : Row) : Row :=
  ⟨θ.onEffL r.effects ++ (θ.tail r.rest).effects, (θ.tail r.rest).rest⟩

/-- `θ` is a solution of the bindings the solver has recorded: every bound variable stands for
what its binding stands for. -/
def Solves (θ : Sub) (σ : TLog) (ρ : RLog) : Prop :=
  (∀ v t, (v, t) ∈ σ → θ.ty v = θ.onTy t) ∧ (∀ v r, (v, r) ∈ ρ → θ.row v = θ.onRow r)

/-! ## Agreement -/

/-- `Error` and `Never` are the documented wildcards. -/
def Wild : Ty → Prop
  | .node .error _ _ _ => True
  | .node .never _ _ _ => True
  | _ => False

/-- What identifies a kind: the display name of a nominal type and the calling convention of a
function type do not count. -/
def core : Head → Head
  | .named i _ => .named i 0
  | .func _ => .func 0
  | h => h

/-- Two lists of effects contain the same effects, up to `R` on the type arguments. -/
def SameEffects (R : Ty → Ty → Prop) (es es' : List Eff) : Prop :=
  (∀ e ∈ es, ∃ e' ∈ es', e.ability = e'.ability ∧ List.Forall₂ R e.args e'.args) ∧
  (∀ e' ∈ es', ∃ e ∈ es, e.ability = e'.ability ∧ List.Forall₂ R e.args e'.args)

/-- The row lists some ability more than once. -/
def Repeats (es : List Eff) : Prop := ¬ (es.map Eff.ability).Nodup

/-- Agreement of two rows: same effects, same tail.  Exception: a pure row on the left agrees with
every row that lists some effect (the solver lets a pure function be called in an effectful
context).  If `E` is set, a pure row on either side agrees with every row, and nothing is claimed about a row that lists an ability more than
once. -/
def RowAgree (E : Bool) (R : Ty → Ty → Prop) (r r' : Row) : Prop :=
  (r.effects = [] ∧ r.rest = none ∧ (E = false → r'.effects ≠ [])) ∨
  (E = true ∧ r'.effects = [] ∧ r'.rest = none) ∨
  (E = true ∧ (Repeats r.effects ∨ Repeats r'.effects)) ∨
  (r.rest = r'.rest ∧ SameEffects R r.effects r'.effects)

/-- Agreement of two types down to depth `n`.  Two types agree when they agree down to every
depth. -/
def Agree (E : Bool) : Nat → Ty → Ty → Prop
  | 0, _, _ => True
  | n + 1, a, b => Wild a ∨ Wild b ∨ match a, b with
    | .uni v, .uni w => v = w
    | .node h ks es r, .node h' ks' es' r' =>
      core h = core h' ∧ List.Forall₂ (Agree E n) ks ks' ∧
        RowAgree E (Agree E n) ⟨es, r⟩ ⟨es', r'⟩
    | _, _ => False

/-- `θ` satisfies a constraint. -/
def Con.Sat (E : Bool) (θ : Sub) : Con → Prop
  | .teq a b => ∀ n, Agree E n (θ.onTy a) (θ.onTy b)
  | .req a b => ∀ n, RowAgree E (Agree E n) (θ.onRow a) (θ.onRow b)

/-- The abilities of a list of effects. -/
abbrev abil (es : List Eff) : List Nat := es.map Eff.ability

/-- When should two rows of the fragment, as they are after substitution, unify?  Two closed rows
when they have the same effects; an open row against a closed one when its effects are among those
of the closed one; two open rows always, unless they share their tail.  (A pure row on the left is
let through against every open row.) -/
def RowsUnify (r1 r2 : Row) : Prop :=
  match r1.rest, r2.rest with
  | none, none => ∀ a, a ∈ abil r1.effects ↔ a ∈ abil r2.effects
  | some _, none => ∀ a ∈ abil r1.effects, a ∈ abil r2.effects
  | none, some _ => r1.effects = [] ∨ ∀ a ∈ abil r2.effects, a ∈ abil r1.effects
  | some v1, some v2 => v1 ≠ v2 ∨ ∀ a, a ∈ abil r1.effects ↔ a ∈ abil r2.effects

/-! ## The fragment without arguments of abilities -/

mutual
/-- Every ability in the type has no type arguments, no row lists an ability twice, and all row
variables are below `N`. -/
def Simple (N : Nat) : Ty → Prop
  | .uni _ => True
  | .node _ ks es r => SimpleL N ks ∧ (∀ e ∈ es, e.args = []) ∧ (es.map Eff.ability).Nodup ∧
      (∀ v, r = some v → v < N)
def SimpleL (N : Nat) : List Ty → Prop
  | [] => True
  | t :: ts => Simple N t ∧ SimpleL N ts
end

/-- The same for a row. -/
def SimpleRow (N : Nat) (r : Row) : Prop :=
  (∀ e ∈ r.effects, e.args = []) ∧ (r.effects.map Eff.ability).Nodup ∧
    (∀ v, r.rest = some v → v < N)

/-- A constraint in the fragment (the bound on row variables is immaterial: there always is
one). -/
def Con.Simple : Con → Prop
  | .teq a b => ∃ N, Solver.Simple N a ∧ Solver.Simple N b
  | .req a b => ∃ N, SimpleRow N a ∧ SimpleRow N b

mutual
/-- The type mentions neither `Error` nor `Never`. -/
def NoWild : Ty → Prop
  | .uni _ => True
  | .node h ks es _ => h ≠ .error ∧ h ≠ .never ∧ NoWildL ks ∧ NoWildE es
def NoWildL : List Ty → Prop
  | [] => True
  | t :: ts => NoWild t ∧ NoWildL ts
def NoWildEff : Eff → Prop
  | .mk _ as => NoWildL as
def NoWildE : List Eff → Prop
  | [] => True
  | e :: es => NoWildEff e ∧ NoWildE es
end

/-- A constraint of the fragment without `Error` and `Never`. -/
def Con.Plain (c : Con) : Prop :=
  c.Simple ∧ match c with
    | .teq a b => NoWild a ∧ NoWild b
    | .req _ _ => True

/-! ## Variables -/

mutual
/-- The type variable occurs in the type. -/
def Occurs (v : UVar) : Ty → Prop
  | .uni w => v = w
  | .node _ ks es _ => OccursL v ks ∨ OccursE v es
def OccursL (v : UVar) : List Ty → Prop
  | [] => False
  | t :: ts => Occurs v t ∨ OccursL v ts
def OccursEff (v : UVar) : Eff → Prop
  | .mk _ as => OccursL v as
def OccursE (v : UVar) : List Eff → Prop
  | [] => False
  | e :: es => OccursEff v e ∨ OccursE v es
end

/-! ## Histories -/

/-- States of a solver reached by solving constraint sets one after the other, each call with
enough fuel to finish, and drawing fresh variables (which only advances the counter).  `P` is
what the constraints have to satisfy. -/
inductive Reach (P : Con → Prop) : St → Prop
  | init : Reach P St.init
  | solve {n st cs bs st'} : Reach P st → (∀ c ∈ cs, P c) → Solver.solve n cs st = some (bs, st') →
      Reach P st'
  | fresh {st} : Reach P st → Reach P { st with next := st.next + 1 }
  | reserve {st} (vs : List Nat) : Reach P st →
      Reach P { st with next := Solver.reserve st.next vs }

/-- One binding mentions another variable. -/
def Mentions (σ : TLog) (v w : UVar) : Prop := ∃ t, σ.lookup v = some t ∧ Occurs w t

/-- The binding of one row variable ends in another one. -/
def EndsIn (ρ : RLog) (v w : Nat) : Prop := ∃ r, ρ.lookup v = some r ∧ r.rest = some w

end Verif.Solver
