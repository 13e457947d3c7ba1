import Verif.ModEnv.Model
import Mathlib.Data.List.Nodup
/-!
# What a module declares
-/
namespace Verif.ModEnv

def Items.toList : Items → List Item
  | .nil => []
  | .cons d ds => d :: ds.toList

/-- `Declared pre ds n x b`: the declarations `ds`, inside the modules `pre`, declare under the path `n`
the name `x`, which means `b`. The identity of an item is the path of the modules around it and its name,
that of a field also has the name of the struct, and a variant is identified as if it were an item. -/
inductive Declared : Path → Items → Path → Symbol → Binding → Prop
  | func {pre : Path} {ds : Items} {x : Symbol} (h : .func x ∈ ds.toList) :
      Declared pre ds [] x (.function (pre ++ [x]))
  | struct_ {pre : Path} {ds : Items} {x : Symbol} {fs : List Symbol} (h : .struct_ x fs ∈ ds.toList) :
      Declared pre ds [] x (.constructor (pre ++ [x]) none fs.length)
  | field {pre : Path} {ds : Items} {x f : Symbol} {fs : List Symbol} (h : .struct_ x fs ∈ ds.toList)
      (hf : f ∈ fs) : Declared pre ds [x] f (.function (pre ++ [x, f]))
  | enum {pre : Path} {ds : Items} {t : Symbol} {vs : List (Symbol × Nat)} (h : .enum t vs ∈ ds.toList) :
      Declared pre ds [] t (.typeDef (pre ++ [t]))
  | variant {pre : Path} {ds : Items} {t v : Symbol} {k : Nat} {vs : List (Symbol × Nat)}
      (h : .enum t vs ∈ ds.toList) (hv : (v, k) ∈ vs) :
      Declared pre ds [t] v (.constructor (pre ++ [v]) (some v) k)
  | bareVariant {pre : Path} {ds : Items} {t v : Symbol} {k : Nat} {vs : List (Symbol × Nat)}
      (h : .enum t vs ∈ ds.toList) (hv : (v, k) ∈ vs) :
      Declared pre ds [] v (.constructor (pre ++ [v]) (some v) k)
  | ability {pre : Path} {ds : Items} {a : Symbol} {os : List Symbol} (h : .ability a os ∈ ds.toList) :
      Declared pre ds [] a (.ability (pre ++ [a]))
  | op {pre : Path} {ds : Items} {a o : Symbol} {os : List Symbol} (h : .ability a os ∈ ds.toList)
      (ho : o ∈ os) : Declared pre ds [a] o (.abilityOp (pre ++ [a]) o)
  | mod {pre : Path} {ds body : Items} {m : Symbol} {n : Path} {x : Symbol} {b : Binding}
      (h : .mod m body ∈ ds.toList) (hb : Declared (pre ++ [m]) body n x b) :
      Declared pre ds (m :: n) x b

/-- A constructor of a type: the path and name under which it is declared, and its type. -/
inductive Constructs : Path → Items → Path → Symbol → CtorTy → Prop
  | struct_ {pre : Path} {ds : Items} {x : Symbol} {fs : List Symbol} (h : .struct_ x fs ∈ ds.toList) :
      Constructs pre ds [] x ⟨pre ++ [x], fs.length⟩
  | variant {pre : Path} {ds : Items} {t v : Symbol} {k : Nat} {vs : List (Symbol × Nat)}
      (h : .enum t vs ∈ ds.toList) (hv : (v, k) ∈ vs) : Constructs pre ds [t] v ⟨pre ++ [t], k⟩
  | mod {pre : Path} {ds body : Items} {m : Symbol} {n : Path} {x : Symbol} {t : CtorTy}
      (h : .mod m body ∈ ds.toList) (hb : Constructs (pre ++ [m]) body n x t) :
      Constructs pre ds (m :: n) x t

/-- The names an item introduces in the body it is in. -/
def bare : Item → List Symbol
  | .func x => [x]
  | .struct_ x _ => [x]
  | .enum t vs => t :: vs.map (·.1)
  | .ability a _ => [a]
  | .use _ _ => []
  | .mod _ _ => []

/-- The names of items that have members. -/
def spaces : Item → List Symbol
  | .struct_ x _ => [x]
  | .enum t _ => [t]
  | .ability a _ => [a]
  | .mod m _ => [m]
  | .func _ => []
  | .use _ _ => []

mutual
/-- The members of the item have different names. -/
def Item.Unique : Item → Prop
  | .func _ => True
  | .struct_ _ fs => fs.Nodup
  | .enum _ _ => True
  | .ability _ os => os.Nodup
  | .use _ _ => True
  | .mod _ body => body.Unique ∧ (body.toList.flatMap bare).Nodup ∧ (body.toList.flatMap spaces).Nodup
def Items.Unique : Items → Prop
  | .nil => True
  | .cons d ds => d.Unique ∧ ds.Unique
end

/-- In every body no name is introduced twice. -/
def Items.AllUnique (ds : Items) : Prop :=
  ds.Unique ∧ (ds.toList.flatMap bare).Nodup ∧ (ds.toList.flatMap spaces).Nodup

end Verif.ModEnv
