/-!
# Module environments and name lookup

Model of `crates/tribute-front/src/resolve/env.rs`, of `resolve_use_imports`
(`crates/tribute-front/src/resolve/mod.rs` 62-112) and of the scope stack and `resolve_name`
(`crates/tribute-front/src/resolve/resolver.rs` 84-185).

Simplifications:
* symbols and definition identities are strings;
* a hash map is a function to `Option`. Where the code iterates over a map, the model takes the list
  of entries in iteration order as an argument: a Rust `HashMap` iterates in an unspecified order,
  different from run to run;
* diagnostics for unresolved names are not modelled (the result is `none`).
-/
namespace Verif.NameEnv

abbrev Symbol := String

/-- `enum Binding`, env.rs 14-61. -/
inductive Binding where
  | function (id : String)
  | constructor (id : String) (tag : Option Symbol) (arity : Nat)
  | typeDef (id : String)
  | module (path : List Symbol)
  | abilityOp (ability : String) (op : Symbol) (general : Bool)
  | ability (id : String)
deriving DecidableEq, Repr

/-- A hash map. -/
abbrev Map (β : Type) := Symbol → Option β

def Map.empty {β : Type} : Map β := fun _ => none

/-- `HashMap::insert`. -/
def Map.insert {β : Type} (m : Map β) (k : Symbol) (b : β) : Map β := fun x => if x = k then some b else m x

/-- `struct ModuleEnv`, env.rs 66-79. -/
structure Env where
  definitions : Map Binding
  imports : Map Binding
  namespaces : Symbol → Map Binding
  usePaths : Map (List Symbol)

/-- `ModuleEnv::new`, env.rs 83-85. -/
def Env.new : Env := ⟨.empty, .empty, fun _ => .empty, .empty⟩

/-- `add_function`, `add_constructor`, `add_type`, `add_ability`, env.rs 88-115. -/
def Env.define (e : Env) (name : Symbol) (b : Binding) : Env :=
  { e with definitions := e.definitions.insert name b }

/-- `add_to_namespace`, env.rs 118-123. -/
def Env.addToNamespace (e : Env) (ns name : Symbol) (b : Binding) : Env :=
  { e with namespaces := fun x => if x = ns then (e.namespaces ns).insert name b else e.namespaces x }

/-- `add_import`, env.rs 126-128. -/
def Env.addImport (e : Env) (name : Symbol) (b : Binding) : Env :=
  { e with imports := e.imports.insert name b }

/-- `add_import_if_absent`, env.rs 134-138. -/
def Env.addImportIfAbsent (e : Env) (name : Symbol) (b : Binding) : Env :=
  if (e.definitions name).isNone && (e.imports name).isNone then e.addImport name b else e

/-- `add_to_namespace_if_absent`, env.rs 141-152. -/
def Env.addToNamespaceIfAbsent (e : Env) (ns name : Symbol) (b : Binding) : Env :=
  match e.namespaces ns name with
  | some _ => e
  | none => e.addToNamespace ns name b

/-- `lookup`, env.rs 155-162. -/
def Env.lookup (e : Env) (name : Symbol) : Option Binding :=
  match e.definitions name with
  | some b => some b
  | none => e.imports name

/-- `lookup_qualified`, env.rs 170-172. -/
def Env.lookupQualified (e : Env) (ns name : Symbol) : Option Binding := e.namespaces ns name

/-- `replace_import`, env.rs 206-209. -/
def Env.replaceImport (e : Env) (name : Symbol) (b : Binding) (path : List Symbol) : Env :=
  { e with usePaths := e.usePaths.insert name path, imports := e.imports.insert name b }

/-- `merge`, env.rs 240-253. `defs` and `nss` are the entries of the other environment's definitions
and namespaces in iteration order. -/
def Env.merge (e : Env) (defs : List (Symbol × Binding)) (nss : List (Symbol × Symbol × Binding)) : Env :=
  let e := defs.foldl (fun e d => e.addImportIfAbsent d.1 d.2) e
  nss.foldl (fun e d => e.addToNamespaceIfAbsent d.1 d.2.1 d.2.2) e

/-- `path.join("::")`, mod.rs 76-81, 91-96; resolver.rs 159-165. -/
def join (path : List Symbol) : Symbol := "::".intercalate path

/-- Body of the loop of `resolve_use_imports`, mod.rs 74-111; `subOrder` lists the entries of a
namespace in iteration order. -/
def resolveUse (subOrder : Map Binding → List (Symbol × Binding)) (e : Env) (importName : Symbol)
    (path : List Symbol) : Env :=
  match path.getLast? with
  | none => e
  | some target =>
    match e.lookupQualified (join path.dropLast) target with
    | none => e
    | some binding =>
      let e := (subOrder (e.namespaces (join path))).foldl
        (fun e d => e.addToNamespaceIfAbsent importName d.1 d.2) e
      e.replaceImport importName binding path

/-- `resolve_use_imports`, mod.rs 62-112. `imports` lists the imports in iteration order. -/
def resolveUseImports (subOrder : Map Binding → List (Symbol × Binding)) (e : Env)
    (imports : List (Symbol × Binding)) : Env :=
  let moduleImports := imports.filterMap fun d => match d.2 with
    | .module path => if 2 ≤ path.length then some (d.1, path) else none
    | _ => none
  moduleImports.foldl (fun e d => resolveUse subOrder e d.1 d.2) e

/-! ## Scopes -/

/-- `struct Resolver`, resolver.rs 84-102, without what only serves diagnostics and `resume`.
`scopes` is the scope stack, innermost first. -/
structure Resolver where
  env : Env
  scopes : List (Map Nat)
  nextId : Nat
  effectOps : Map Binding
  modulePath : List Symbol

/-- `Resolver::new`, resolver.rs 106-117. -/
def Resolver.new (env : Env) : Resolver := ⟨env, [.empty], 0, .empty, []⟩

/-- `push_scope`, resolver.rs 119-121. -/
def Resolver.pushScope (r : Resolver) : Resolver := { r with scopes := .empty :: r.scopes }

/-- `pop_scope`, resolver.rs 124-126. -/
def Resolver.popScope (r : Resolver) : Resolver := { r with scopes := r.scopes.drop 1 }

/-- `bind_local`, resolver.rs 129-135, with the new id. -/
def Resolver.bindLocal (r : Resolver) (name : Symbol) : Resolver × Nat :=
  ({ r with nextId := r.nextId + 1
            scopes := match r.scopes with
              | [] => []
              | s :: ss => s.insert name r.nextId :: ss }, r.nextId)

/-- `lookup_local`, resolver.rs 138-145. -/
def lookupLocal : List (Map Nat) → Symbol → Option Nat
  | [], _ => none
  | s :: ss, name => match s name with
    | some id => some id
    | none => lookupLocal ss name

/-- What a name resolves to. -/
inductive Ref where
  | local_ (id : Nat)
  | binding (b : Binding)
deriving DecidableEq, Repr

/-- A name in the source: a simple one or one with a namespace. -/
inductive Name where
  | simple (name : Symbol)
  | qualified (ns name : Symbol)
deriving DecidableEq

/-- `resolve_name`, resolver.rs 148-197; `none` is the unresolved sentinel. -/
def Resolver.resolveName (r : Resolver) : Name → Option Ref
  | .simple sym =>
    match lookupLocal r.scopes sym with
    | some id => some (.local_ id)
    | none =>
      match (if r.modulePath.isEmpty then none else r.env.lookupQualified (join r.modulePath) sym) with
      | some b => some (.binding b)
      | none =>
        match r.env.lookup sym with
        | some b => some (.binding b)
        | none => (r.effectOps sym).map .binding
  | .qualified ns sym => (r.env.lookupQualified ns sym).map .binding

end Verif.NameEnv
