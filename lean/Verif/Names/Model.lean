/-!
# Names of functions: the program's and the compiler's

Model of how calls find their functions in the two backends: `generate_native_entrypoint`
(`crates/tribute-passes/src/native/entrypoint.rs`), the lowering of output (`native/io.rs`,
`wasm/io.rs`), the start function and the import of `fd_write` (`wasm/lower.rs`), the function maps of
the two emitters (`trunk-ir-wasm-backend/src/emit.rs`, `trunk-ir-cranelift-backend/src/translate.rs`).

Simplifications: bodies are sequences of calls, writes of a text and branches taken by data that is
not modelled; arguments are not followed except for the text that is written; signatures are lists of
machine types and include hidden parameters; unused functions have been removed already; the mangled
linker names of different functions are taken to differ.
-/
namespace Verif.Names

/-- Machine types: integers, and references (pointers on the native target). -/
inductive Ty where
  | i32
  | i64
  | ref
deriving DecidableEq, Repr

structure Sig where
  params : List Ty
  results : List Ty
deriving DecidableEq, Repr

/-- What a function of the program does. A call carries the signature it was checked with. -/
inductive Stmt where
  | call (callee : String) (sig : Sig)
  | write (text : String)
  | branch (yes no : List Stmt)

/-- A function of the program, `func.func`. -/
structure Func where
  name : String
  sig : Sig
  body : List Stmt

abbrev Program := List Func

/-! ## Code with names -/

/-- The argument that is followed: nothing, a literal text, or the text the function was given. -/
inductive Arg where
  | none
  | text (t : String)
  | param
deriving DecidableEq, Repr

inductive TStmt where
  | call (callee : String) (sig : Sig) (arg : Arg)
  | branch (yes no : List TStmt)

structure TFunc where
  name : String
  sig : Sig
  body : List TStmt

/-- What the host or the runtime offers. -/
inductive Service where
  | write
  | init
  | alloc
deriving DecidableEq, Repr

structure Import where
  name : String
  sig : Sig
  service : Service
deriving DecidableEq, Repr

/-- What a called name is. -/
inductive Callee where
  | service (sig : Sig) (s : Service)
  | func (f : TFunc)

def Callee.sig : Callee → Sig
  | .service s _ => s
  | .func f => f.sig

/-- Why a program is not compiled. -/
inductive Err where
  | panic
  | functionNotFound
  | invalid
deriving DecidableEq, Repr

mutual
/-- Every call finds a function of the signature it was made with: `resolve_callee` (emit.rs
1134-1140), `Call` (function.rs 367-373), and then the validation of the module or the verifier of
Cranelift. -/
def checkStmt (resolve : String → Option Callee) : TStmt → Option Err
  | .call f sig _ =>
    match resolve f with
    | none => some .functionNotFound
    | some c => if c.sig = sig then none else some .invalid
  | .branch a b =>
    match checkStmts resolve a with
    | some e => some e
    | none => checkStmts resolve b

def checkStmts (resolve : String → Option Callee) : List TStmt → Option Err
  | [] => none
  | s :: ss =>
    match checkStmt resolve s with
    | some e => some e
    | none => checkStmts resolve ss
end

def checkFuncs (resolve : String → Option Callee) : List TFunc → Option Err
  | [] => none
  | f :: fs =>
    match checkStmts resolve f.body with
    | some e => some e
    | none => checkFuncs resolve fs

/-- What can be seen from outside. -/
inductive Event where
  | out (text : String)
  | init
deriving DecidableEq, Repr

def Arg.eval (param : Option String) : Arg → Option String
  | .none => Option.none
  | .text t => some t
  | .param => param

/-- The effect of a service. -/
def Service.run : Service → Option String → List Event
  | .write, some t => [.out t]
  | .write, none => []
  | .init, _ => [.init]
  | .alloc, _ => []

/-- Running code: the traces of its finished runs. -/
inductive TRuns (resolve : String → Option Callee) : Option String → List TStmt → List Event → Prop where
  | nil {param} : TRuns resolve param [] []
  | service {param f sig arg rest sig' s tr} : resolve f = some (.service sig' s) →
      TRuns resolve param rest tr →
      TRuns resolve param (.call f sig arg :: rest) (s.run (arg.eval param) ++ tr)
  | func {param f sig arg rest fn t1 t2} : resolve f = some (.func fn) →
      TRuns resolve (arg.eval param) fn.body t1 → TRuns resolve param rest t2 →
      TRuns resolve param (.call f sig arg :: rest) (t1 ++ t2)
  | yes {param a b rest tr} : TRuns resolve param (a ++ rest) tr →
      TRuns resolve param (.branch a b :: rest) tr
  | no {param a b rest tr} : TRuns resolve param (b ++ rest) tr →
      TRuns resolve param (.branch a b :: rest) tr

/-! ## WebAssembly -/

/-- `fd_write`, lower.rs 503-515. -/
def fdWrite : Import := ⟨"fd_write", ⟨[.i32, .i32, .i32, .i32], [.i32]⟩, .write⟩

/-- `WRITE_HELPER`, io.rs 18, and its signature, io.rs 208. -/
def writeHelper : String := "__tribute_wasi_write"
def writeSig : Sig := ⟨[.ref, .i32], []⟩

mutual
/-- `WritePattern` (wasm/io.rs 100-121). -/
def lowerW : Stmt → TStmt
  | .call f sig => .call f sig .none
  | .write t => .call writeHelper writeSig (.text t)
  | .branch a b => .branch (lowerWs a) (lowerWs b)

def lowerWs : List Stmt → List TStmt
  | [] => []
  | s :: ss => lowerW s :: lowerWs ss
end

mutual
def writesStmt : Stmt → Bool
  | .call _ _ => false
  | .write _ => true
  | .branch a b => writesStmts a || writesStmts b

/-- There is a `tribute_io.write` (wasm/io.rs 38-44). -/
def writesStmts : List Stmt → Bool
  | [] => false
  | s :: ss => writesStmt s || writesStmts ss
end

def needsFdWrite (p : Program) : Bool := p.any fun f => writesStmts f.body

/-- `build_write_helper` (wasm/io.rs 123-210): its only call is to `fd_write`. -/
def helperFunc : TFunc := ⟨writeHelper, writeSig, [.call "fd_write" fdWrite.sig .param]⟩

/-- `build_start_function` (lower.rs 612-648): it calls `main` with the arguments of its convention. -/
def startFunc (mainSig : Sig) : TFunc := ⟨"_start", ⟨[], []⟩, [.call "main" mainSig .none]⟩

/-- `scan_wasm_func` (lower.rs 463-485): the last function called `main`. -/
def mainOf (p : Program) : Option Func := p.reverse.find? fun f => f.name == "main"

/-- A module: imports, then functions, `ModuleInfo`. -/
structure WModule where
  imports : List Import
  funcs : List TFunc

/-- The functions in the order of the module: the program's, the helper pushed at the end
(wasm/io.rs 84-90), the start function (lower.rs 597-604). -/
def wasmModule (p : Program) : WModule :=
  let io := needsFdWrite p
  ⟨if io then [fdWrite] else [],
    p.map (fun f => ⟨f.name, f.sig, lowerWs f.body⟩) ++ (if io then [helperFunc] else []) ++
      (match mainOf p with
        | some m => [startFunc m.sig]
        | none => [])⟩

/-- The function map of `collect_module_info`, emit.rs 678-686: imports, then functions, each
insertion replacing an earlier one of the same name. -/
def funcIndices (m : WModule) : List (String × Nat) :=
  (m.imports.map (·.name) ++ m.funcs.map (·.name)).zipIdx

/-- The last insertion is the one that is found. -/
def indexOf (m : WModule) (name : String) : Option Nat := (funcIndices m).reverse.lookup name

/-- Indices count the imports first. -/
def calleeAt (m : WModule) (i : Nat) : Option Callee :=
  match m.imports[i]? with
  | some im => some (.service im.sig im.service)
  | none => (m.funcs[i - m.imports.length]?).map .func

def resolveW (m : WModule) (name : String) : Option Callee := (indexOf m name).bind (calleeAt m)

/-- `compile_to_wasm`: the module, if it is valid. -/
def compileWasm (p : Program) : Except Err WModule :=
  match checkFuncs (resolveW (wasmModule p)) (wasmModule p).funcs with
  | some e => .error e
  | none => .ok (wasmModule p)

/-- Running a module: the function exported as `_start` (lower.rs 600-604, emit.rs 466-474). -/
def wasmRuns (m : WModule) (tr : List Event) : Prop :=
  TRuns (resolveW m) none [.call "_start" ⟨[], []⟩ .none] tr

/-! ## Native -/

/-- `ALLOC_FN` (const_to_native.rs 36), `WRITE_FN` (native/io.rs 17), `__tribute_init`
(entrypoint.rs 49). -/
def allocImport : Import := ⟨"__tribute_alloc", ⟨[.i64], [.ref]⟩, .alloc⟩
def writeImport : Import := ⟨"__tribute_io_write", ⟨[.ref, .i32], []⟩, .write⟩
def initImport : Import := ⟨"__tribute_init", ⟨[], []⟩, .init⟩

/-- The renaming of `main`, entrypoint.rs 102-116 and 145-186. -/
def renameMain (name : String) : String := if name = "main" then "_tribute_main" else name

mutual
/-- Renamed calls, and a write: the text is allocated (const_to_native.rs 240-247) and written
(`NativeWritePattern`, native/io.rs 98-122). -/
def lowerN : Stmt → List TStmt
  | .call f sig => [.call (renameMain f) sig .none]
  | .write t => [.call "__tribute_alloc" allocImport.sig .none,
      .call "__tribute_io_write" writeImport.sig (.text t)]
  | .branch a b => [.branch (lowerNs a) (lowerNs b)]

def lowerNs : List Stmt → List TStmt
  | [] => []
  | s :: ss => lowerN s ++ lowerNs ss
end

/-- `build_entrypoint`, entrypoint.rs 211-304: initialise, call the program's `main`, return 0. -/
def entryFunc (mainSig : Sig) : TFunc :=
  ⟨"main", ⟨[], [.i32]⟩, [.call "__tribute_init" initImport.sig .none, .call "_tribute_main" mainSig .none]⟩

structure NModule where
  funcs : List TFunc
  imports : List Import

def hasFunc (p : Program) (name : String) : Bool := p.any fun f => f.name == name

/-- `generate_native_entrypoint` (entrypoint.rs 30-139), `ensure_runtime_declarations`
(native/io.rs 59-85) and `declare_runtime_functions` (translate.rs 664-683): each service is declared
unless a function of that name is there. -/
def nativeModule (p : Program) : Except Err NModule :=
  match mainOf p with
  | none => .error .functionNotFound
  | some m =>
    if hasFunc p "_tribute_main" then .error .panic
    else
      .ok ⟨p.map (fun f => ⟨renameMain f.name, f.sig, lowerNs f.body⟩) ++ [entryFunc m.sig],
        [initImport, writeImport, allocImport].filter fun i => !hasFunc p i.name⟩

/-- The function map of `emit_module_impl`, translate.rs 382-424. -/
def resolveN (m : NModule) (name : String) : Option Callee :=
  match m.funcs.reverse.find? fun f => f.name == name with
  | some f => some (.func f)
  | none => (m.imports.find? fun i => i.name == name).map fun i => .service i.sig i.service

def compileNative (p : Program) : Except Err NModule :=
  match nativeModule p with
  | .error e => .error e
  | .ok m =>
    match checkFuncs (resolveN m) m.funcs with
    | some e => .error e
    | none => .ok m

/-- Running a program: its C function `main`. -/
def nativeRuns (m : NModule) (tr : List Event) : Prop :=
  TRuns (resolveN m) none [.call "main" ⟨[], [.i32]⟩ .none] tr

end Verif.Names
