import Verif.Names.Model

/-!
# What a program does

Calls run the function of the program with the name called; a program starts with `main`.
-/
namespace Verif.Names.Spec

/-- Running source code: the texts written by its finished runs. -/
inductive Runs (p : Program) : List Stmt → List String → Prop where
  | nil : Runs p [] []
  | write {t rest tr} : Runs p rest tr → Runs p (.write t :: rest) (t :: tr)
  | call {f sig rest fn t1 t2} : fn ∈ p → fn.name = f → Runs p fn.body t1 → Runs p rest t2 →
      Runs p (.call f sig :: rest) (t1 ++ t2)
  | yes {a b rest tr} : Runs p (a ++ rest) tr → Runs p (.branch a b :: rest) tr
  | no {a b rest tr} : Runs p (b ++ rest) tr → Runs p (.branch a b :: rest) tr

/-- What the program does: what its `main` does. -/
def Does (p : Program) (tr : List String) : Prop := ∃ m ∈ p, m.name = "main" ∧ Runs p m.body tr

mutual
/-- Calls are to functions of the program, with their signatures. -/
def CallsOkStmt (p : Program) : Stmt → Prop
  | .call f sig => ∃ fn ∈ p, fn.name = f ∧ fn.sig = sig
  | .write _ => True
  | .branch a b => CallsOk p a ∧ CallsOk p b

def CallsOk (p : Program) : List Stmt → Prop
  | [] => True
  | s :: ss => CallsOkStmt p s ∧ CallsOk p ss
end

/-- A program the front end accepts: no two functions of the same name, calls well typed, a `main`. -/
structure Accepted (p : Program) : Prop where
  names : (p.map (·.name)).Nodup
  calls : ∀ f ∈ p, CallsOk p f.body
  main : "main" ∈ p.map (·.name)

/-- The names the compiler uses on WebAssembly. -/
def wasmNames : List String := ["fd_write", "__tribute_wasi_write", "_start"]

/-- The names the compiler uses on the native target. -/
def nativeNames : List String :=
  ["_tribute_main", "__tribute_init", "__tribute_io_write", "__tribute_alloc"]

/-- No function of the program has one of these names. -/
def Avoids (p : Program) (names : List String) : Prop := ∀ f ∈ p, f.name ∉ names

end Verif.Names.Spec
