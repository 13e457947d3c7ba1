/-!
# The names a module declares

Model of `build_env` and `collect_definition` (`crates/tribute-front/src/resolve/mod.rs` 114-308), with
`ModuleEnv` (`resolve/env.rs`), and of the table of constructors the type checker keeps
(`typeck/checker/collect.rs` 30-66, 265-381, `typeck/context.rs` 258-260).

Simplifications:
* a qualified name is the list of its segments (the code joins them with `::`, which no identifier
  contains);
* a hash table is the list of the insertions, the newest first; a table is iterated from the oldest
  insertion on (each iteration of the code inserts different keys, so that its order is no matter);
* of a field only its name and of a variant only its name and the number of its fields are kept; of the
  type of a constructor the type it belongs to and the number of fields.
-/
namespace Verif.ModEnv

abbrev Symbol := String
abbrev Path := List Symbol

/-- `enum Binding`, resolve/env.rs 16-63. -/
inductive Binding where
  | function (id : Path)
  | constructor (id : Path) (tag : Option Symbol) (arity : Nat)
  | typeDef (id : Path)
  | module (path : Path)
  | abilityOp (ability : Path) (op : Symbol)
  | ability (id : Path)
deriving DecidableEq, Repr

mutual
/-- `Decl`, ast/decl.rs. `func` is a function or an extern function. -/
inductive Item where
  | func (name : Symbol)
  | struct_ (name : Symbol) (fields : List Symbol)
  | enum (name : Symbol) (variants : List (Symbol × Nat))
  | ability (name : Symbol) (ops : List Symbol)
  | use (path : Path) (rename : Option Symbol)
  | mod (name : Symbol) (body : Items)
inductive Items where
  | nil
  | cons (d : Item) (ds : Items)
end

/-- `struct ModuleEnv`, resolve/env.rs 68-79. -/
structure Env where
  defs : List (Symbol × Binding)
  imports : List (Symbol × Binding)
  ns : List ((Path × Symbol) × Binding)

/-- `ModuleEnv::new`, resolve/env.rs 83-85. -/
def Env.empty : Env := ⟨[], [], []⟩

/-- `lookup`, resolve/env.rs 157-165. -/
def Env.lookup (e : Env) (x : Symbol) : Option Binding := (e.defs.lookup x).or (e.imports.lookup x)

/-- `lookup_qualified`, resolve/env.rs 173-175. -/
def Env.lookupQualified (e : Env) (n : Path) (x : Symbol) : Option Binding := e.ns.lookup (n, x)

/-- `add_function` and the like, resolve/env.rs 88-115. -/
def Env.define (e : Env) (x : Symbol) (b : Binding) : Env := { e with defs := (x, b) :: e.defs }

/-- `add_to_namespace`, resolve/env.rs 118-123. -/
def Env.member (e : Env) (n : Path) (x : Symbol) (b : Binding) : Env :=
  { e with ns := ((n, x), b) :: e.ns }

/-- `add_to_namespace_if_absent`, resolve/env.rs 141-153. -/
def Env.memberIfAbsent (e : Env) (n : Path) (x : Symbol) (b : Binding) : Env :=
  match e.lookupQualified n x with
  | some _ => e
  | none => e.member n x b

/-- `add_import`, resolve/env.rs 126-128. -/
def Env.import_ (e : Env) (x : Symbol) (b : Binding) : Env := { e with imports := (x, b) :: e.imports }

/-- `add_import_if_absent`, resolve/env.rs 134-138. -/
def Env.importIfAbsent (e : Env) (x : Symbol) (b : Binding) : Env :=
  match e.lookup x with
  | some _ => e
  | none => e.import_ x b

/-- The fields of a struct become functions in its namespace, resolve/mod.rs 191-200. -/
def fieldsOf (pre : Path) (s : Symbol) : List Symbol → Env → Env
  | [], e => e
  | f :: fs, e => fieldsOf pre s fs (e.member [s] f (.function (pre ++ [s, f])))

/-- The variants of an enum, resolve/mod.rs 210-228. -/
def variantsOf (pre : Path) (t : Symbol) : List (Symbol × Nat) → Env → Env
  | [], e => e
  | (v, n) :: vs, e =>
    let b := Binding.constructor (pre ++ [v]) (some v) n
    variantsOf pre t vs ((e.member [t] v b).define v b)

/-- The operations of an ability, resolve/mod.rs 239-246. -/
def opsOf (pre : Path) (a : Symbol) : List Symbol → Env → Env
  | [], e => e
  | o :: os, e => opsOf pre a os (e.member [a] o (.abilityOp (pre ++ [a]) o))

/-- The inner namespaces become members of the module unless there is something of that name,
resolve/mod.rs 286-298. A namespace of more than one segment would become a member with `::` in its
name, which nothing can refer to: it is left out. -/
def spacesOf (m : Symbol) : List ((Path × Symbol) × Binding) → Env → Env
  | [], e => e
  | (([n], _), _) :: rest, e => (spacesOf m rest e).memberIfAbsent [m] n (.module [m, n])
  | _ :: rest, e => spacesOf m rest e

/-- What the inner environment adds, resolve/mod.rs 272-302. -/
def transfer (m : Symbol) (inner e : Env) : Env :=
  let e1 : Env := { e with ns := inner.defs.map (fun d => (([m], d.1), d.2)) ++ e.ns }
  let e2 : Env := { e1 with ns := inner.ns.map (fun d => ((m :: d.1.1, d.1.2), d.2)) ++ e1.ns }
  (spacesOf m inner.ns e2).import_ m (.module [m])

mutual
/-- `collect_definition`, resolve/mod.rs 163-308; `pre` is the path of the inline modules around. -/
def collect (pre : Path) : Item → Env → Env
  | .func x, e => e.define x (.function (pre ++ [x]))
  | .struct_ x fs, e =>
    fieldsOf pre x fs
      ((e.define x (.typeDef (pre ++ [x]))).define x (.constructor (pre ++ [x]) none fs.length))
  | .enum t vs, e => variantsOf pre t vs (e.define t (.typeDef (pre ++ [t])))
  | .ability a os, e => opsOf pre a os (e.define a (.ability (pre ++ [a])))
  | .use path rename, e =>
    match path.getLast? with
    | some x => e.import_ (rename.getD x) (.module path)
    | none => e
  | .mod m body, e => transfer m (collectAll (pre ++ [m]) body .empty) e
def collectAll (pre : Path) : Items → Env → Env
  | .nil, e => e
  | .cons d ds, e => collectAll pre ds (collect pre d e)
end

/-- `inject_builtin_bindings`, resolve/mod.rs 138-160. -/
def builtins (e : Env) : Env :=
  ((e.importIfAbsent "List" (.typeDef ["std", "collections", "List"])).memberIfAbsent
    ["std", "collections"] "List" (.typeDef ["std", "collections", "List"])).member
    ["std", "io"] "Io" (.ability ["std", "io", "Io"])

/-- `build_env`, resolve/mod.rs 114-135. -/
def build (ds : Items) : Env := builtins (collectAll [] ds .empty)

/-- The type of a constructor: the type it makes, and how many fields. -/
structure CtorTy where
  owner : Path
  fields : Nat
deriving DecidableEq, Repr

/-- The variants of an enum in `collect_enum_def`, typeck/checker/collect.rs 357-381. -/
def variantTypes (pre : Path) (t : Symbol) :
    List (Symbol × Nat) → List (Path × CtorTy) → List (Path × CtorTy)
  | [], tb => tb
  | (v, n) :: vs, tb => variantTypes pre t vs ((pre ++ [v], ⟨pre ++ [t], n⟩) :: tb)

mutual
/-- `collect_declarations_in_order`, typeck/checker/collect.rs 30-66, as far as it registers
constructors: `collect_struct_def`, 301-302, and `collect_enum_def`, 322-381. -/
def ctorTypes (pre : Path) : Item → List (Path × CtorTy) → List (Path × CtorTy)
  | .struct_ x fs, tb => (pre ++ [x], ⟨pre ++ [x], fs.length⟩) :: tb
  | .enum t vs, tb => variantTypes pre t vs tb
  | .mod m body, tb => ctorTypesAll (pre ++ [m]) body tb
  | .func _, tb => tb
  | .ability _ _, tb => tb
  | .use _ _, tb => tb
def ctorTypesAll (pre : Path) : Items → List (Path × CtorTy) → List (Path × CtorTy)
  | .nil, tb => tb
  | .cons d ds, tb => ctorTypesAll pre ds (ctorTypes pre d tb)
end

/-- The table after all declarations; looking up gives the type of a constructor. -/
def ctorTable (ds : Items) : List (Path × CtorTy) := ctorTypesAll [] ds []

end Verif.ModEnv
