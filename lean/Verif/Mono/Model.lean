import Verif.Scheme.Model

/-!
# Names and type arguments of specialised functions

Models `crates/tribute-front/src/monomorphize/mangle.rs` (names of specialisations) and
`extract_type_args` and `is_concrete_type` of `monomorphize/collect.rs`, on the types of
`Types.lean`.
-/

namespace Verif.Mono
open Verif.Types

/-- `nominal_mangle_base`, `mangle.rs` 38-45, per type declaration: `BuiltinList` for the built-in
list and the qualified name otherwise (the declared name is used only when it is the qualified
name).  Symbols are lists of characters. -/
abbrev Names := Nat → List Char

/-- The names of the primitive types, `mangle.rs` 53-59. -/
def primName : Nat → List Char
  | 0 => "Int".toList
  | 1 => "Nat".toList
  | 2 => "Float".toList
  | 3 => "Bool".toList
  | 4 => "Bytes".toList
  | 5 => "Rune".toList
  | _ => "Nil".toList

mutual
/-- `write_type_mangled`, `mangle.rs` 47-89.  `none` is the panic. -/
def write (nm : Names) : Ty → Option (List Char)
  | .uni _ => none
  | .node h ks _ _ => match h with
    | .prim p => some (primName p)
    | .never => some "Never".toList
    | .error => some "error".toList
    | .bound i => some ('T' :: (toString i).toList)
    | .localBound _ i => some ('T' :: (toString i).toList)
    | .named id _ =>
      if ks.isEmpty then some (nm id)
      else match writeL nm ks with
        | none => none
        | some s => some (nm id ++ "$0$".toList ++ s ++ "$1".toList)
    | .tuple => match writeL nm ks with
      | none => none
      | some s => some ("Tup$0$".toList ++ s ++ "$1".toList)
    | .func _ => match writeF nm ks with
      | none => none
      | some s => some ("Fn$0$".toList ++ s)
    | .app => none
    | .cont => none
/-- `write_type_mangled_list`, `mangle.rs` 91-103. -/
def writeL (nm : Names) : List Ty → Option (List Char)
  | [] => some []
  | t :: ts => match write nm t, writeT nm ts with
    | some a, some b => some (a ++ b)
    | _, _ => none
/-- The iterations of `write_type_mangled_list` after the first. -/
def writeT (nm : Names) : List Ty → Option (List Char)
  | [] => some []
  | t :: ts => match write nm t, writeT nm ts with
    | some a, some b => some ('$' :: (a ++ b))
    | _, _ => none
/-- Parameters, `$1$`, result: `mangle.rs` 68-73 after `Fn$0$`.  The children of a function type
are its parameters followed by its result. -/
def writeF (nm : Names) : List Ty → Option (List Char)
  | [] => none
  | t :: ts => match write nm t, writeFT nm ts with
    | some a, some b => some (if ts.isEmpty then "$1$".toList ++ a else a ++ b)
    | _, _ => none
/-- The parameters after the first, `$1$`, result. -/
def writeFT (nm : Names) : List Ty → Option (List Char)
  | [] => some []
  | t :: ts => match write nm t, writeFT nm ts with
    | some a, some b => some (if ts.isEmpty then "$1$".toList ++ a else '$' :: (a ++ b))
    | _, _ => none
end

/-- `mangle_name`, `mangle.rs` 19-27. -/
def mangle (nm : Names) (base : List Char) (args : List Ty) : Option (List Char) :=
  (writeT nm args).map (base ++ ·)

mutual
/-- `is_concrete_type` and `is_concrete_effect_row`, `collect.rs` 271-317. -/
def concrete : Ty → Bool
  | .uni _ => false
  | .node h ks es r => match h with
    | .prim _ => true
    | .never => true
    | .error => false
    | .bound _ => false
    | .localBound _ _ => false
    | .app => false
    | .named _ _ => concreteL ks
    | .tuple => concreteL ks
    | .func _ => concreteL ks && r.isNone && concreteE es
    | .cont => concreteL ks && r.isNone && concreteE es
def concreteL : List Ty → Bool
  | [] => true
  | t :: ts => concrete t && concreteL ts
def concreteEff : Eff → Bool
  | .mk _ as => concreteL as
def concreteE : List Eff → Bool
  | [] => true
  | e :: es => concreteEff e && concreteE es
end

/-- The arms of `extract_recursive` that compare children. -/
def descends : Head → Head → Bool
  | .func _, .func _ => true
  | .named i _, .named j _ => i == j
  | .tuple, .tuple => true
  | _, _ => false

/-- The kinds that have an arm of their own in `extract_recursive`, so that two of them never
reach the last arm. -/
def ownArm : Head → Head → Bool
  | .func _, .func _ => true
  | .named _ _, .named _ _ => true
  | .tuple, .tuple => true
  | _, _ => false

mutual
/-- `extract_recursive`, `collect.rs` 47-118.  `none` is `false`. -/
def extractR : Ty → Ty → List (Option Ty) → Option (List (Option Ty))
  | .uni v, c, args => if c = .uni v then some args else none
  | .node h ks es r, c, args =>
    match h with
    | .bound i => match args[i]? with
      | none => none
      | some (some t) => if t = c then some args else none
      | some none => some (args.set i (some c))
    | _ => match c with
      | .uni _ => none
      | .node h' ks' es' r' =>
        if ownArm h h' then
          if descends h h' ∧ ks.length = ks'.length then extractL ks ks' args else none
        else if (.node h ks es r : Ty) = .node h' ks' es' r' then some args else none
/-- The loops over parameters, arguments and elements. -/
def extractL : List Ty → List Ty → List (Option Ty) → Option (List (Option Ty))
  | [], _, args => some args
  | _ :: _, [], args => some args
  | s :: ss, c :: cs, args => match extractR s c args with
    | none => none
    | some args' => extractL ss cs args'
end

/-- `type_args.into_iter().collect::<Option<Vec<_>>>()`. -/
def allSome : List (Option Ty) → Option (List Ty)
  | [] => some []
  | none :: _ => none
  | some t :: rest => (allSome rest).map (t :: ·)

/-- `extract_type_args`, `collect.rs` 30-45. -/
def extract (s : Scheme.PolyTy) (c : Ty) : Option (List Ty) :=
  if s.params = 0 then none
  else match extractR s.body c (List.replicate s.params none) with
    | none => none
    | some args => allSome args

/-- `try_record`, `collect.rs` 148-171, for one use of a generic function: the type arguments that
are recorded. -/
def record (s : Scheme.PolyTy) (c : Ty) : Option (List Ty) :=
  match extract s c with
  | none => none
  | some args => if args.all concrete then some args else none

/-- `build_rewrite_map` and `try_rewrite_ref`, `mod.rs` 342-368 and `rewrite.rs` 75-99: the name a
use of the generic function `base` at type `c` is redirected to, given the recorded argument
lists. -/
def redirect (nm : Names) (base : List Char) (recorded : List (List Ty)) (s : Scheme.PolyTy) (c : Ty) :
    Option (List Char) :=
  match extract s c with
  | none => none
  | some args => if args ∈ recorded then mangle nm base args else none

end Verif.Mono
