import Verif.NameEnv.Model
/-!
# What names should mean

An environment is built by a history of events. A name means its latest definition; without one, its
latest explicit import; without one, what the first merged prelude that defines it says.
-/
namespace Verif.NameEnv

/-- What can happen to an environment. A merged prelude is given by its definitions and its
qualified names. -/
inductive Event where
  | define (name : Symbol) (b : Binding)
  | import_ (name : Symbol) (b : Binding)
  | member (ns name : Symbol) (b : Binding)
  | merge (defs : Map Binding) (members : Symbol → Map Binding)

/-- `l` lists the entries of `m`, each once, in some order. -/
def Lists {β : Type} (l : List (Symbol × β)) (m : Map β) : Prop :=
  (l.map (·.1)).Nodup ∧ ∀ k b, (k, b) ∈ l ↔ m k = some b

/-- The same for a map of maps. -/
def Lists2 (l : List (Symbol × Symbol × Binding)) (m : Symbol → Map Binding) : Prop :=
  (l.map fun d => (d.1, d.2.1)).Nodup ∧ ∀ ns k b, (ns, k, b) ∈ l ↔ m ns k = some b

/-- One event happens; the order in which a merged environment is traversed is arbitrary. -/
inductive Step : Env → Event → Env → Prop
  | define (e : Env) (n : Symbol) (b : Binding) : Step e (.define n b) (e.define n b)
  | import_ (e : Env) (n : Symbol) (b : Binding) : Step e (.import_ n b) (e.addImport n b)
  | member (e : Env) (ns n : Symbol) (b : Binding) : Step e (.member ns n b) (e.addToNamespace ns n b)
  | merge (e : Env) (d : Map Binding) (m : Symbol → Map Binding) (l l2) (h : Lists l d)
      (h2 : Lists2 l2 m) : Step e (.merge d m) (e.merge l l2)

/-- A history of events, latest last. -/
inductive Steps : Env → List Event → Env → Prop
  | nil (e : Env) : Steps e [] e
  | cons {e e' e'' : Env} {ev : Event} {evs : List Event} (h : Step e ev e') (t : Steps e' evs e'') :
      Steps e (ev :: evs) e''

/-- The latest event of a history that gives `name` a meaning of some kind. -/
def latest (f : Event → Option Binding) (h : List Event) : Option Binding :=
  (h.filterMap f).getLast?

/-- The first one. -/
def first (f : Event → Option Binding) (h : List Event) : Option Binding :=
  (h.filterMap f).head?

def definitionOf (n : Symbol) : Event → Option Binding
  | .define m b => if m = n then some b else none
  | _ => none

def importOf (n : Symbol) : Event → Option Binding
  | .import_ m b => if m = n then some b else none
  | _ => none

def preludeOf (n : Symbol) : Event → Option Binding
  | .merge d _ => d n
  | _ => none

def memberOf (ns n : Symbol) : Event → Option Binding
  | .member ns' m b => if ns' = ns ∧ m = n then some b else none
  | _ => none

def preludeMemberOf (ns n : Symbol) : Event → Option Binding
  | .merge _ m => m ns n
  | _ => none

end Verif.NameEnv
