import Mathlib.Data.List.Dedup

/-!
# Effect handlers: lowering to continuation-passing code with evidence

The model follows the route of the production pipeline (`src/pipeline.rs` 690-725): the front end
lowers a normalised body to continuation-passing code
(`crates/tribute-front/src/ast_to_ir/lower/{expr,handle,control,lambda,mod}.rs`), `resolve_evidence.rs`
gives every call its evidence, `lower_handle_dispatch.rs` opens the answer of a handled body, and
`native/evidence.rs` (or `wasm/evidence_to_wasm.rs`) turns an operation into a call of the dispatch
closure found in the evidence.

Simplifications that hold for the whole file:
* values of the base types are integers; casts between them (`cast_if_needed`,
  `unrealized_conversion_cast`) are left out;
* patterns in `let`, parameters and `do` arms are variables, and `case` is a two-way choice
  (patterns are the subject of the areas `Case` and `Normalize`);
* the arguments of an operation are always packed in a tuple (`pack_ability_args` leaves a single
  argument alone);
* an operation index is the pair of ability and operation itself, not a hash of their names
  (`compute_op_idx`).
-/

namespace Verif.Effects

abbrev Var := Nat
abbrev Fn := Nat
abbrev Ab := Nat
abbrev Opn := Nat

/-- Whether an operation, or a handler arm, is declared with `op` or with `fn`
(`OpDeclKind`, `crates/tribute-front/src/ast/expr.rs`; `HandlerKind`). -/
inductive Kind where
  | op
  | fn
deriving DecidableEq, Repr

mutual
/-- A normalised expression (`ast/expr.rs` `ExprKind`, after `normalize_for_cps`): arguments are
variables.  `lam`, `call`, `app` are the callables of the `Cps` convention, `lamD` and `appD` those
of the `Direct` convention.  `op` is a call of a general operation, `fnop` of an operation declared
with `fn`. -/
inductive Exp where
  | var (x : Var)
  | prim (p : Nat) (xs : List Var)
  | lam (ps : List Var) (b : Exp)
  | lamD (ps : List Var) (b : Exp)
  | call (f : Fn) (xs : List Var)
  | app (c : Var) (xs : List Var)
  | appD (c : Var) (xs : List Var)
  | op (a : Ab) (o : Opn) (xs : List Var)
  | fnop (a : Ab) (o : Opn) (xs : List Var)
  | resume (k x : Var)
  | letE (x : Var) (a b : Exp)
  | ite (x : Var) (a b : Exp)
  | handle (b : Exp) (hs : List Arm) (dx : Var) (d : Exp)
/-- A handler arm (`HandlerArm`): the operation, its parameters, the name its `resume` refers to
(`resume_local_id`, unused in a `fn` arm) and its body. -/
inductive Arm where
  | mk (kd : Kind) (a : Ab) (o : Opn) (ps : List Var) (rk : Var) (b : Exp)
end

/-- The ability an arm belongs to. -/
def Arm.ab : Arm → Ab
  | .mk _ a _ _ _ _ => a
def Arm.opn : Arm → Opn
  | .mk _ _ o _ _ _ => o
def Arm.kind : Arm → Kind
  | .mk kd _ _ _ _ _ => kd

mutual
/-- Every local variable an expression refers to (`collect_free_vars`, `lower/lambda.rs` 27-117).
As there, binders are not subtracted. -/
def mentions : Exp → List Var
  | .var x => [x]
  | .prim _ xs => xs
  | .lam _ b => mentions b
  | .lamD _ b => mentions b
  | .call _ xs => xs
  | .app c xs => c :: xs
  | .appD c xs => c :: xs
  | .op _ _ xs => xs
  | .fnop _ _ xs => xs
  | .resume k x => [x, k]
  | .letE _ a b => mentions a ++ mentions b
  | .ite x a b => x :: (mentions a ++ mentions b)
  | .handle b hs _ d => mentions b ++ (mentionsArms hs ++ mentions d)
def mentionsArm : Arm → List Var
  | .mk _ _ _ _ _ b => mentions b
def mentionsArms : List Arm → List Var
  | [] => []
  | h :: hs => mentionsArm h ++ mentionsArms hs
end

/-- `evaluation_control_class_with_handle_propagation` (`lower/expr.rs` 936-1050): `true` is
`Direct`.  The flag is `propagates_handles`. -/
def direct (p : Bool) : Exp → Bool
  | .handle _ _ _ _ => !p
  | .lam _ _ => true
  | .lamD _ _ => true
  | .resume _ _ => false
  | .call _ _ => false
  | .app _ _ => false
  | .op _ _ _ => false
  | .letE _ a b => direct p a && direct p b
  | .ite _ a b => direct p a && direct p b
  | .var _ => true
  | .prim _ _ => true
  | .appD _ _ => true
  | .fnop _ _ _ => true

/-- The values of a lowered function: source variables, the continuations in scope, the evidence
values in scope (`ev 0` is the parameter of the function), the tag of the handler whose arm is
being lowered (`handler_owner_tag`) and temporaries. -/
inductive Reg where
  | v (x : Var)
  | k (n : Nat)
  | ev (n : Nat)
  | own
  | t (n : Nat)
deriving DecidableEq, Repr

/-- Lowered code.  `bind` is a nested computation whose result is used by the rest.  `callF`,
`callC` are calls of functions and closures that take evidence, `callD` is a call of a closure of
the `Direct` convention: `rep` is the value written over its environment operand, if any.
`perform` and `tailop` are `effect.dispatch_cps` and `effect.dispatch_tail`.  `normal`/`escape`
build the private completion carrier (`ability::cps_control_type_ref`), `caseN` tests for `Normal`
and takes its payload, `caseE` reads an `Escape` without a test (`adt.variant_cast`) and compares
its owner.  `ub` is a path the compiler claims cannot be taken (`func.unreachable`, a null
closure). -/
inductive T where
  | ret (r : Reg)
  | bind (r : Reg) (t k : T)
  | prim (r : Reg) (p : Nat) (rs : List Reg) (k : T)
  | lam (r : Reg) (caps ps : List Reg) (body k : T)
  | callF (r : Reg) (f : Fn) (ev : Reg) (rs : List Reg) (k : T)
  | callC (r c ev : Reg) (rs : List Reg) (k : T)
  | callD (r c : Reg) (rep : Option Reg) (rs : List Reg) (k : T)
  | perform (r : Reg) (a : Ab) (o : Opn) (ev kr : Reg) (rs : List Reg) (k : T)
  | tailop (r : Reg) (a : Ab) (o : Opn) (ev : Reg) (rs : List Reg) (k : T)
  | cond (r : Reg) (t e : T)
  | normal (r x : Reg) (k : T)
  | escape (r own x : Reg) (k : T)
  | caseN (r x : Reg) (t e : T)
  | caseE (r own x : Reg) (t e : T)
  | freshTag (r : Reg) (k : T)
  | extend (r ev tag tr hd : Reg) (as : List Ab) (k : T)
  | emptyEv (r : Reg) (k : T)
  | opcase (r : Reg) (a : Ab) (o : Opn) (t e : T)
  | unpack (r : Reg) (ps : List Reg) (k : T)
  | ub

/-- What a closure captures: the bindings in scope that the code refers to, without the given
ones, and the owner tag when one is active (`analyze_captures` `lower/lambda.rs` 163-187 with
`lower_lambda` 204-218; `analyze_continuation_captures` 135-160 with `build_cps_continuation`
`lower/expr.rs` 1520-1547; `build_cps_body` `lower/handle.rs` 250-275). -/
def capsOf (Γ : List Var) (own : Bool) (ms ps : List Var) : List Reg :=
  ((Γ.filter fun x => decide (x ∈ ms) && !decide (x ∈ ps)).map Reg.v) ++
    (if own then [Reg.own] else [])

/-- `invoke_continuation` (`lower/control.rs` 92-106): call the continuation and return its
answer. -/
def inv (k v : Nat) (r : Reg) : T :=
  .callC (.t 1) (.k k) (.ev v) [r] (.ret (.t 1))

/-- `create_identity_done_k` (`lower/mod.rs` 402-471). -/
def idBody : T := .ret (.t 0)

/-- `create_cps_control_done_k` (`lower/mod.rs` 479-560). -/
def doneBody : T := .normal (.t 1) (.t 0) (.ret (.t 1))

/-- `create_cps_escape_done_k` (`lower/mod.rs` 562-610). -/
def escBody : T := .escape (.t 1) .own (.t 0) (.ret (.t 1))

/-- `resume_into_current` (`lower/control.rs` 120-315): call the captured continuation; on
`Normal` run the rest of the arm and turn an `Escape` of the current owner into `Normal`. -/
def resumeCode (k v : Nat) (rk x : Var) : T :=
  .callC (.t 2) (.v rk) (.ev v) [.v x]
    (.caseN (.t 2) (.t 3)
      (.callC (.t 4) (.k k) (.ev v) [.t 3]
        (.caseE (.t 4) .own (.t 5) (.normal (.t 6) (.t 5) (.ret (.t 6))) (.ret (.t 4))))
      (.ret (.t 2)))

/-- The two ways to lower one expression: `dir` is `lower_value_normalized`, with the evidence
value in scope if there is one; `cps` is `lower_comp_normalized` with the continuation `k` and the
evidence `v`. -/
structure Low where
  dir : (Γ : List Var) → (own : Bool) → Option Nat → T
  cps : (Γ : List Var) → (own p : Bool) → (k v : Nat) → T

/-- An arm with its lowered body. -/
structure ArmL where
  kd : Kind
  a : Ab
  o : Opn
  ps : List Var
  rk : Var
  ms : List Var
  low : Low

/-- `build_handler_arm_for_dispatch` (`lower/handle.rs` 1085-1160) for an `op` arm: bind `resume`
to the continuation, take the parameters out of the payload and lower the body with the escaping
continuation. -/
def opArm (Γ : List Var) (h : ArmL) : T :=
  .bind (.v h.rk) (.ret (.k 0))
    (.unpack (.t 1) (h.ps.map Reg.v)
      (.lam (.k 1) [.own] [.t 0] escBody
        (h.low.cps (h.ps ++ h.rk :: Γ) true true 1 0)))

/-- `build_fn_handler_arm_for_dispatch` (`lower/handle.rs` 915-958) and the `fn` case of
`build_handler_arm_for_dispatch`: lower the body with the identity continuation. -/
def fnArm (Γ : List Var) (own : Bool) (h : ArmL) : T :=
  .unpack (.t 1) (h.ps.map Reg.v)
    (.lam (.k 1) [] [.t 0] idBody
      (h.low.cps (h.ps ++ Γ) own false 1 0))

/-- `build_handler_dispatch_chain` and `build_tr_dispatch_chain` (`lower/handle.rs` 815-910,
963-1083): compare the operation index with each arm in turn, except that the last arm is taken
without a comparison.  Without arms the code is `func.unreachable`. -/
def chain (r : Reg) (code : ArmL → T) : List ArmL → T
  | [] => .ub
  | [h] => code h
  | h :: hs => .opcase r h.a h.o (code h) (chain r code hs)

/-- The code of the `handler_dispatch` closure (`lower/handle.rs` 593-700), with parameters
continuation, owner, operation index and payload. -/
def hdCode (Γ : List Var) (hs : List ArmL) : T :=
  chain (.t 0) (fun h => match h.kd with
    | .op => opArm Γ h
    | .fn => fnArm Γ true h) hs

/-- The code of the `tr_dispatch_fn` closure (`lower/handle.rs` 702-800), over the `fn` arms. -/
def trCode (Γ : List Var) (own : Bool) (hs : List ArmL) : T :=
  chain (.t 0) (fnArm Γ own) (hs.filter fun h => h.kd = .fn)

/-- `collect_abilities_from_body_region` (`resolve_evidence.rs` 423-443). -/
def abilities (hs : List ArmL) : List Ab := (hs.map ArmL.a).dedup

def armsMs (hs : List ArmL) : List Var := hs.flatMap ArmL.ms

/-- What is done with the answer of a handled body (`lower_handle_dispatch.rs` 84-330 with
`build_done_handler_region` and `build_escape_handler_region`, `lower/handle.rs` 395-560): a
`Normal` answer enters the `do` arm, an `Escape` of this installation is passed to the completion,
any other answer is returned unchanged.  `resolve_evidence.rs` 905-915 rewrites the calls in the
`do` region, including the call of the completion, to the extended evidence `v + 1`; the escape
region is not rewritten and keeps the evidence of the function. -/
def answer (Γ : List Var) (own p : Bool) (k v : Nat) (dx : Var) (d : Low) : T :=
  .caseN (.t 7) (.v dx) (d.cps (dx :: Γ) own p k (v + 1))
    (.caseE (.t 7) (.t 6) (.t 8) (inv k 0 (.t 8)) (.ret (.t 7)))

/-- `lower_handle_answer` (`lower/handle.rs` 86-160) after `resolve_evidence.rs` 783-904: build
the body closure and its `Normal` continuation, the two dispatch closures and a fresh tag, extend
the evidence for every handled ability, call the body with the extended evidence and dispatch on
its answer. -/
def handleCode (Γ : List Var) (own p : Bool) (k v : Nat) (bms : List Var) (b : Low)
    (hs : List ArmL) (dx : Var) (d : Low) : T :=
  .lam (.t 2) (capsOf Γ own bms []) [.k 0] (b.cps Γ own true 0 0)
    (.lam (.t 3) [] [.t 0] doneBody
      (.lam (.t 4) (capsOf Γ false (armsMs hs) []) [.k 0, .own, .t 0, .t 1] (hdCode Γ hs)
        (.lam (.t 5) (capsOf Γ false (armsMs (hs.filter fun h => h.kd = .fn)) [])
            [.t 0, .t 1] (trCode Γ own hs)
          (.freshTag (.t 6)
            (.extend (.ev (v + 1)) (.ev v) (.t 6) (.t 5) (.t 4) (abilities hs)
              (.callC (.t 7) (.t 2) (.ev (v + 1)) [.t 3]
                (answer Γ own p k v dx d)))))))

/-- Every direct expression in computation position: evaluate it and pass the value to the
continuation (`lower_comp_normalized`, `lower/expr.rs` 1078-1092). -/
def ofDir (t : T) (k v : Nat) : T := .bind (.t 0) t (inv k v (.t 0))

mutual
/-- `lower_value_normalized` and `lower_comp_normalized` (`lower/expr.rs` 1063-1160, 1290-1415,
1505-1640), one case per form of expression. -/
def low : Exp → Low
  | .var x =>
    { dir := fun _ _ _ => .ret (.v x)
      cps := fun _ _ _ k v => ofDir (.ret (.v x)) k v }
  | .prim q xs =>
    { dir := fun _ _ _ => .prim (.t 0) q (xs.map Reg.v) (.ret (.t 0))
      cps := fun _ _ _ k v => ofDir (.prim (.t 0) q (xs.map Reg.v) (.ret (.t 0))) k v }
  -- `lower_lambda` (`lower/lambda.rs` 195-330), convention `Cps`
  | .lam ps b =>
    let code := fun Γ own => T.lam (.t 0) (capsOf Γ own (mentions b) ps) (.k 0 :: ps.map Reg.v)
      ((low b).cps (ps ++ Γ) own true 0 0) (.ret (.t 0))
    { dir := fun Γ own _ => code Γ own
      cps := fun Γ own _ k v => ofDir (code Γ own) k v }
  -- the same, convention `Direct`
  | .lamD ps b =>
    let code := fun Γ own => T.lam (.t 0) (capsOf Γ own (mentions b) ps) (ps.map Reg.v)
      ((low b).dir (ps ++ Γ) own none) (.ret (.t 0))
    { dir := fun Γ own _ => code Γ own
      cps := fun Γ own _ k v => ofDir (code Γ own) k v }
  -- `lower_cps_call_expr` (`lower/expr.rs` 1330-1352)
  | .call f xs =>
    { dir := fun _ _ _ => .ub
      cps := fun _ _ _ k v =>
        .callF (.t 1) f (.ev v) (.k k :: xs.map Reg.v) (.ret (.t 1)) }
  -- `lower_cps_call_expr` (`lower/expr.rs` 1353-1412)
  | .app c xs =>
    { dir := fun _ _ _ => .ub
      cps := fun _ _ _ k v =>
        .callC (.t 1) (.v c) (.ev v) (.k k :: xs.map Reg.v) (.ret (.t 1)) }
  -- a call of a closure without evidence (`lower/expr.rs` 430-483); `resolve_evidence.rs` 957-985
  -- writes the evidence over operand 1 of every indirect call of a function with evidence, which
  -- for this convention is the environment
  | .appD c xs =>
    let code := fun (ev : Option Nat) =>
      T.callD (.t 0) (.v c) (ev.map Reg.ev) (xs.map Reg.v) (.ret (.t 0))
    { dir := fun _ _ ev => code ev
      cps := fun _ _ _ k v => ofDir (code (some v)) k v }
  -- `lower_cps_call_expr` (`lower/expr.rs` 1310-1329)
  | .op a o xs =>
    { dir := fun _ _ _ => .ub
      cps := fun _ _ _ k v =>
        .perform (.t 1) a o (.ev v) (.k k) (xs.map Reg.v) (.ret (.t 1)) }
  -- `lower_ability_op_call` (`lower/handle.rs` 30-75)
  | .fnop a o xs =>
    let code := fun (ev : Option Nat) => match ev with
      | some v => T.tailop (.t 0) a o (.ev v) (xs.map Reg.v) (.ret (.t 0))
      | none => T.ub
    { dir := fun _ _ ev => code ev
      cps := fun _ _ _ k v => ofDir (code (some v)) k v }
  | .resume rk x =>
    { dir := fun _ _ _ => .ub
      cps := fun _ _ _ k v => resumeCode k v rk x }
  -- `lower_normalized_block` (`lower/expr.rs` 1115-1158) and `build_cps_continuation`
  | .letE x a b =>
    let dc := fun Γ own ev => T.bind (.v x) ((low a).dir Γ own ev) ((low b).dir (x :: Γ) own ev)
    { dir := dc
      cps := fun Γ own p k v =>
        if direct p a && direct p b then ofDir (dc Γ own (some v)) k v
        else if direct p a then
          .bind (.v x) ((low a).dir Γ own (some v)) ((low b).cps (x :: Γ) own p k v)
        else
          .lam (.k (k + 1)) (capsOf Γ own (mentions b) [] ++ [.k k]) [.v x]
            ((low b).cps (x :: Γ) own p k 0) ((low a).cps Γ own p (k + 1) v) }
  -- `lower_case_comp` on a two-way choice
  | .ite x a b =>
    let dc := fun Γ own ev => T.cond (.v x) ((low a).dir Γ own ev) ((low b).dir Γ own ev)
    { dir := dc
      cps := fun Γ own p k v =>
        if direct p a && direct p b then ofDir (dc Γ own (some v)) k v
        else .cond (.v x) ((low a).cps Γ own p k v) ((low b).cps Γ own p k v) }
  -- `lower_handle_source` and `lower_handle_comp` (`lower/handle.rs` 162-205)
  | .handle b hs dx d =>
    let src := fun Γ own (ev : Option Nat) => match ev with
      | some v => T.lam (.k 0) [] [.t 0] idBody
          (handleCode Γ own true 0 v (mentions b) (low b) (lowArms hs) dx (low d))
      | none => .emptyEv (.ev 0) (T.lam (.k 0) [] [.t 0] idBody
          (handleCode Γ own true 0 0 (mentions b) (low b) (lowArms hs) dx (low d)))
    { dir := src
      cps := fun Γ own p k v =>
        if p then handleCode Γ own p k v (mentions b) (low b) (lowArms hs) dx (low d)
        else ofDir (src Γ own (some v)) k v }
def lowArm : Arm → ArmL
  | .mk kd a o ps rk b => ⟨kd, a, o, ps, rk, mentions b, low b⟩
def lowArms : List Arm → List ArmL
  | [] => []
  | h :: hs => lowArm h :: lowArms hs
end

/-- A program: its functions of the `Cps` convention and the body of `main`, which has the
`Direct` convention. -/
structure Prog where
  funs : List (Fn × (List Var × Exp))
  main : Exp

/-- A lowered function of the `Cps` convention (`lower/decl.rs`): continuation first, then the
source parameters. -/
def lowFun (d : List Var × Exp) : List Reg × T :=
  (.k 0 :: d.1.map Reg.v, (low d.2).cps d.1 false true 0 0)

/-- The lowered functions of a program. -/
def Prog.code (P : Prog) : List (Fn × (List Reg × T)) :=
  P.funs.map fun d => (d.1, lowFun d.2)

/-- The lowered `main`. -/
def Prog.mainCode (P : Prog) : T := (low P.main).dir [] false none

/-! ## The target -/

/-- Values of the target.  A closure holds the values it captured.  `ev` is an evidence: ability,
tag, tail dispatch and general dispatch closure of each installed handler, the innermost first
(that the sorted array of the runtime behaves like this is C01). -/
inductive TVal where
  | base (b : Int)
  | clo (env : List (Reg × TVal)) (ps : List Reg) (body : T)
  | nrm (v : TVal)
  | esc (tag : Nat) (v : TVal)
  | tag (n : Nat)
  | opi (a : Ab) (o : Opn)
  | tup (vs : List TVal)
  | ev (ms : List (Ab × (Nat × (TVal × TVal))))

abbrev TEnv := List (Reg × TVal)

/-- The result of running target code: a value, the world and the next free tag; a broken
program; out of steps. -/
inductive Res (W : Type) where
  | ok (v : TVal) (w : W) (c : Nat)
  | bad
  | out

/-- The primitive operations, with their effect on the observable world; `none` is a trap. -/
structure Mach (W : Type) where
  prim : Nat → List Int → W → Option (Int × W)

def lookups (E : TEnv) : List Reg → Option (List TVal)
  | [] => some []
  | r :: rs => match E.lookup r, lookups E rs with
    | some v, some vs => some (v :: vs)
    | _, _ => none

def bases : List TVal → Option (List Int)
  | [] => some []
  | .base b :: vs => (bases vs).map (b :: ·)
  | _ :: _ => none

def Res.andThen {W : Type} (r : Res W) (f : TVal → W → Nat → Res W) : Res W :=
  match r with
  | .ok v w c => f v w c
  | .bad => .bad
  | .out => .out

/-- The evidence parameter of a frame, if the convention has one. -/
def evPart : Option TVal → TEnv
  | some e => [(Reg.ev 0, e)]
  | none => []

/-- The frame a call of a closure starts with: parameters, evidence and captured values
(`closure_lower.rs`, `lower_closure_lambda.rs`; the area `Closure` has the details). -/
def frame (env : TEnv) (ps : List Reg) (args : List TVal) (ev : Option TVal) : Option TEnv :=
  if ps.length = args.length then
    some (ps.zip args ++ (evPart ev ++ env))
  else none

/-- Running target code.  `perform` and `tailop` follow `native/evidence.rs` 410-545: find the
marker of the ability and call its dispatch closure with the evidence of the performer. -/
def run {W : Type} (M : Mach W) (P : List (Fn × (List Reg × T))) :
    Nat → TEnv → T → W → Nat → Res W
  | 0, _, _, _, _ => .out
  | n + 1, E, t, w, c =>
    match t with
    | .ret r => match E.lookup r with
      | some v => .ok v w c
      | none => .bad
    | .bind r t k => (run M P n E t w c).andThen fun v w c => run M P n ((r, v) :: E) k w c
    | .prim r p rs k => match (lookups E rs).bind bases with
      | some bs => match M.prim p bs w with
        | some (b, w) => run M P n ((r, .base b) :: E) k w c
        | none => .bad
      | none => .bad
    | .lam r caps ps body k => match lookups E caps with
      | some vs => run M P n ((r, .clo (caps.zip vs) ps body) :: E) k w c
      | none => .bad
    | .callF r f ev rs k => match P.lookup f, E.lookup ev, lookups E rs with
      | some (ps, body), some e, some vs => match frame [] ps vs (some e) with
        | some E' => (run M P n E' body w c).andThen fun v w c => run M P n ((r, v) :: E) k w c
        | none => .bad
      | _, _, _ => .bad
    | .callC r g ev rs k => match E.lookup g, E.lookup ev, lookups E rs with
      | some (.clo env ps body), some e, some vs => match frame env ps vs (some e) with
        | some E' => (run M P n E' body w c).andThen fun v w c => run M P n ((r, v) :: E) k w c
        | none => .bad
      | _, _, _ => .bad
    | .callD r g rep rs k => match E.lookup g, lookups E rs with
      | some (.clo env ps body), some vs =>
        -- an environment that was written over is only harmless if nothing is read from it
        if rep.isSome && !env.isEmpty then .bad
        else match frame env ps vs none with
          | some E' => (run M P n E' body w c).andThen fun v w c => run M P n ((r, v) :: E) k w c
          | none => .bad
      | _, _ => .bad
    | .perform r a o ev kr rs k => match E.lookup ev, E.lookup kr, lookups E rs with
      | some (.ev ms), some kv, some vs => match ms.lookup a with
        | some (tg, _, .clo env ps body) =>
          match frame env ps [kv, .tag tg, .opi a o, .tup vs] (some (.ev ms)) with
          | some E' => (run M P n E' body w c).andThen fun v w c => run M P n ((r, v) :: E) k w c
          | none => .bad
        | _ => .bad
      | _, _, _ => .bad
    | .tailop r a o ev rs k => match E.lookup ev, lookups E rs with
      | some (.ev ms), some vs => match ms.lookup a with
        | some (_, .clo env ps body, _) =>
          match frame env ps [.opi a o, .tup vs] (some (.ev ms)) with
          | some E' => (run M P n E' body w c).andThen fun v w c => run M P n ((r, v) :: E) k w c
          | none => .bad
        | _ => .bad
      | _, _ => .bad
    | .cond r t e => match E.lookup r with
      | some (.base b) => if b ≠ 0 then run M P n E t w c else run M P n E e w c
      | _ => .bad
    | .normal r x k => match E.lookup x with
      | some v => run M P n ((r, .nrm v) :: E) k w c
      | none => .bad
    | .escape r o x k => match E.lookup o, E.lookup x with
      | some (.tag g), some v => run M P n ((r, .esc g v) :: E) k w c
      | _, _ => .bad
    | .caseN r x t e => match E.lookup r with
      | some (.nrm v) => run M P n ((x, v) :: E) t w c
      | some (.esc _ _) => run M P n E e w c
      | _ => .bad
    | .caseE r o x t e => match E.lookup r, E.lookup o with
      | some (.esc g v), some (.tag g') =>
        if g = g' then run M P n ((x, v) :: E) t w c else run M P n E e w c
      | _, _ => .bad
    | .freshTag r k => run M P n ((r, .tag c) :: E) k w (c + 1)
    | .extend r ev tg tr hd as k =>
      match E.lookup ev, E.lookup tg, E.lookup tr, E.lookup hd with
      | some (.ev ms), some (.tag g), some vt, some vh =>
        run M P n ((r, .ev (as.foldl (fun ms a => (a, (g, (vt, vh))) :: ms) ms)) :: E) k w c
      | _, _, _, _ => .bad
    | .emptyEv r k => run M P n ((r, .ev []) :: E) k w c
    | .opcase r a o t e => match E.lookup r with
      | some (.opi a' o') => if a' = a ∧ o' = o then run M P n E t w c else run M P n E e w c
      | _ => .bad
    | .unpack r ps k => match E.lookup r with
      | some (.tup vs) =>
        if ps.length = vs.length then run M P n (ps.zip vs ++ E) k w c else .bad
      | _ => .bad
    | .ub => .bad

end Verif.Effects
