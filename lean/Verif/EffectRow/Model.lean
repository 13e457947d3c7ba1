/-!
# Operations on effect rows

Model of `crates/tribute-front/src/typeck/effect_row.rs` 16-181.

Simplifications:
* effects are compared only for equality and their ability's name is read, so they are an arbitrary
  type `E` with decidable equality and a projection `name`;
* a hash set is used only to test membership; it is modelled by a list;
* the fresh-variable callback is called at most once and is modelled by its result.
-/
namespace Verif.EffectRow

/-- `struct EffectRow`, crates/tribute-front/src/ast/types.rs 335-344. -/
structure Row (E V : Type) where
  effects : List E
  rest : Option V
deriving DecidableEq, Repr

/-- `enum RemoveResult`, effect_row.rs 16-34. -/
inductive RemoveResult (E V : Type) where
  | removed (row : Row E V)
  | needsConstraint (var : V) (mustContain : E) (remainder : V)
  | notFound
deriving DecidableEq, Repr

variable {E V N : Type} [DecidableEq E] [DecidableEq N]

/-- `contains`, effect_row.rs 37-43. -/
def contains (row : Row E V) (effect : E) : Bool := row.effects.any (fun e => e == effect)

/-- `contains_by_name`, effect_row.rs 46-54. -/
def containsByName (name : E → N) (row : Row E V) (n : N) : Bool :=
  row.effects.any (fun e => name e == n)

/-- `find_by_name`, effect_row.rs 60-70. -/
def findByName (name : E → N) (row : Row E V) (n : N) : List E :=
  row.effects.filter (fun e => name e == n)

/-- `if !effects.contains(&effect) { effects.push(effect) }`, effect_row.rs 79-81 and 140-142. -/
def pushIfAbsent (effects : List E) (effect : E) : List E :=
  if effects.contains effect then effects else effects ++ [effect]

/-- `add_effect`, effect_row.rs 73-83. -/
def addEffect (row : Row E V) (effect : E) : Row E V :=
  ⟨pushIfAbsent row.effects effect, row.rest⟩

/-- `remove_effect`, effect_row.rs 88-101. -/
def removeEffect (row : Row E V) (effect : E) : Option (Row E V) :=
  match row.effects.findIdx? (fun e => e == effect) with
  | some pos => some ⟨row.effects.eraseIdx pos, row.rest⟩
  | none => none

/-- `remove_with_constraint`, effect_row.rs 107-129. The `unwrap` (line 115) is explicit: `none` is
a panic. -/
def removeWithConstraint (row : Row E V) (effect : E) (fresh : V) : Option (RemoveResult E V) :=
  if contains row effect then
    match removeEffect row effect with
    | some newRow => some (.removed newRow)
    | none => none
  else match row.rest with
    | some tail => some (.needsConstraint tail effect fresh)
    | none => some .notFound

/-- `union`, effect_row.rs 132-152. -/
def union (row1 row2 : Row E V) (fresh : V) : Row E V :=
  { effects := row2.effects.foldl pushIfAbsent row1.effects
    rest := match row1.rest, row2.rest with
      | none, none => none
      | some v, none => some v
      | none, some v => some v
      | some _, some _ => some fresh }

/-- Loop of `find_conflicting_effects`, effect_row.rs 169-177; the result is the first effect met a
second time. -/
def firstDuplicate (seen : List E) : List E → Option E
  | [] => none
  | e :: es => if seen.contains e then some e else firstDuplicate (e :: seen) es

/-- `find_conflicting_effects`, effect_row.rs 162-181 (the effect stands for its ability). -/
def findConflictingEffects (row : Row E V) : Option (E × List E) :=
  match firstDuplicate [] row.effects with
  | some effect => some (effect, row.effects.filter (fun e => e == effect))
  | none => none

end Verif.EffectRow
