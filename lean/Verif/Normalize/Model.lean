/-!
# Normalisation before the lowering of effects

Model of `crates/tribute-front/src/ast_to_ir/normalize.rs` 13-382 (`Normalizer`, `validate_normal_form`),
which names the strict operands of an expression before it is lowered to continuation passing style, and of
how a record expression is built from the source (`astgen/expressions.rs` 300-328).

Simplifications:
* literals, global names, constructors, operations and patterns are numbers; a pattern has the list of
  the local names it binds;
* node identities, types and names of locals are left out: a local is its number;
* the fields of a record are a list of names beside a list of expressions; a record with a spread and
  an arm with a guard are separate constructors;
* the counter of locals (`IrLoweringCtx::next_local_id`, ast_to_ir/context.rs 411-422) is passed along and
  has no upper bound: the code panics at 2^32 - 1.
-/
namespace Verif.Normalize

/-- `Pattern`, ast/pattern.rs: what it matches, and the locals it binds. -/
structure Pat where
  shape : Nat
  ids : List Nat
deriving DecidableEq, Repr

mutual
/-- `ExprKind<TypedRef>`, ast/expr.rs. -/
inductive Expr where
  | var (i : Nat)
  | global (g : Nat)
  | lit (l : Nat)
  | lambda (params : List Nat) (body : Expr)
  | call (f : Expr) (args : Exprs)
  | cons (ctor : Nat) (args : Exprs)
  | tuple (args : Exprs)
  | list (args : Exprs)
  | record (ty : Nat) (names : List Nat) (fields : Exprs)
  | recordWith (ty : Nat) (spread : Expr) (names : List Nat) (fields : Exprs)
  | and (l r : Expr)
  | or (l r : Expr)
  | block (stmts : Stmts) (value : Expr)
  | cases (s : Expr) (arms : Arms)
  | handle (body : Expr) (handlers : Handlers)
  | resume (k : Nat) (arg : Expr)
  | method (receiver : Expr) (name : Nat) (args : Exprs)
inductive Exprs where
  | nil
  | cons (e : Expr) (es : Exprs)
/-- `Vec<Stmt>`. -/
inductive Stmts where
  | nil
  | bind (p : Pat) (e : Expr) (rest : Stmts)
  | run (e : Expr) (rest : Stmts)
/-- `Vec<Arm>`. -/
inductive Arms where
  | nil
  | arm (p : Pat) (body : Expr) (rest : Arms)
  | guarded (p : Pat) (guard body : Expr) (rest : Arms)
/-- `Vec<HandlerArm>`: the operation (or the result), the locals of its patterns and continuation. -/
inductive Handlers where
  | nil
  | on (op : Nat) (ids : List Nat) (body : Expr) (rest : Handlers)
end

/-- `Vec::extend`. -/
def Stmts.append : Stmts → Stmts → Stmts
  | .nil, t => t
  | .bind p e s, t => .bind p e (s.append t)
  | .run e s, t => .run e (s.append t)

/-- `is_atom`, normalize.rs 368-382. -/
def isAtom : Expr → Bool
  | .var _ | .global _ | .lit _ | .lambda _ _ => true
  | _ => false

/-- The statements of a block and its value; an expression that is no block has no statements. The
`match` on `ExprKind::Block` in `normalize_to_atom`, 314-317, and `normalize_block`, 243-292. -/
def peel : Expr → Stmts × Expr
  | .block ss e => (ss, e)
  | e => (.nil, e)

/-- `with_prefix`, normalize.rs 348-365. -/
def withPrefix (ss : Stmts) (e : Expr) : Expr :=
  match ss with
  | .nil => e
  | _ => .block ss e

/-- `normalize_to_atom`, normalize.rs 309-346, after the expression has been normalised. The temporary
`__cps_tmp` is the pattern of shape 0. -/
def atomize (r : Expr × Nat) : Stmts × Expr × Nat :=
  if isAtom (peel r.1).2 then ((peel r.1).1, (peel r.1).2, r.2)
  else ((peel r.1).1.append (.bind ⟨0, [r.2]⟩ (peel r.1).2 .nil), .var r.2, r.2 + 1)

mutual
/-- `normalize_expr`, normalize.rs 113-225, and `normalize_block`, 227-293. -/
def norm : Expr → Nat → Expr × Nat
  | .var i, c => (.var i, c)
  | .global g, c => (.global g, c)
  | .lit l, c => (.lit l, c)
  | .lambda ps b, c => (.lambda ps (norm b c).1, (norm b c).2)
  | .call f as, c =>
    let rf := atomize (norm f c)
    let ra := normAtoms as rf.2.2
    (withPrefix (rf.1.append ra.1) (.call rf.2.1 ra.2.1), ra.2.2)
  | .cons k as, c =>
    let ra := normAtoms as c
    (withPrefix ra.1 (.cons k ra.2.1), ra.2.2)
  | .tuple as, c =>
    let ra := normAtoms as c
    (withPrefix ra.1 (.tuple ra.2.1), ra.2.2)
  | .list as, c =>
    let ra := normAtoms as c
    (withPrefix ra.1 (.list ra.2.1), ra.2.2)
  | .record t ns as, c =>
    let ra := normAtoms as c
    (withPrefix ra.1 (.record t ns ra.2.1), ra.2.2)
  | .recordWith t sp ns as, c =>
    let rf := atomize (norm sp c)
    let ra := normAtoms as rf.2.2
    (withPrefix (rf.1.append ra.1) (.recordWith t rf.2.1 ns ra.2.1), ra.2.2)
  | .and l r, c =>
    let rl := atomize (norm l c)
    let rr := norm r rl.2.2
    (withPrefix rl.1 (.and rl.2.1 rr.1), rr.2)
  | .or l r, c =>
    let rl := atomize (norm l c)
    let rr := norm r rl.2.2
    (withPrefix rl.1 (.or rl.2.1 rr.1), rr.2)
  | .block ss e, c =>
    let rs := normStmts ss c
    let re := norm e rs.2
    (.block (rs.1.append (peel re.1).1) (peel re.1).2, re.2)
  | .cases s as, c =>
    let rs := atomize (norm s c)
    let ra := normArms as rs.2.2
    (withPrefix rs.1 (.cases rs.2.1 ra.1), ra.2)
  | .handle b hs, c =>
    let rb := norm b c
    let rh := normHandlers hs rb.2
    (.handle rb.1 rh.1, rh.2)
  | .resume k a, c =>
    let ra := atomize (norm a c)
    (withPrefix ra.1 (.resume k ra.2.1), ra.2.2)
  | .method r m as, c =>
    let rf := atomize (norm r c)
    let ra := normAtoms as rf.2.2
    (withPrefix (rf.1.append ra.1) (.method rf.2.1 m ra.2.1), ra.2.2)
/-- `normalize_atoms`, normalize.rs 295-307. -/
def normAtoms : Exprs → Nat → Stmts × Exprs × Nat
  | .nil, c => (.nil, .nil, c)
  | .cons e es, c =>
    let r := atomize (norm e c)
    let rs := normAtoms es r.2.2
    (r.1.append rs.1, .cons r.2.1 rs.2.1, rs.2.2)
/-- The statements in `normalize_block`, normalize.rs 234-272. -/
def normStmts : Stmts → Nat → Stmts × Nat
  | .nil, c => (.nil, c)
  | .bind p e ss, c =>
    let r := norm e c
    let rs := normStmts ss r.2
    ((peel r.1).1.append (.bind p (peel r.1).2 rs.1), rs.2)
  | .run e ss, c =>
    let r := norm e c
    let rs := normStmts ss r.2
    ((peel r.1).1.append (.run (peel r.1).2 rs.1), rs.2)
/-- The arms, normalize.rs 172-181. -/
def normArms : Arms → Nat → Arms × Nat
  | .nil, c => (.nil, c)
  | .arm p b as, c =>
    let rb := norm b c
    let ra := normArms as rb.2
    (.arm p rb.1 ra.1, ra.2)
  | .guarded p g b as, c =>
    let rg := norm g c
    let rb := norm b rg.2
    let ra := normArms as rb.2
    (.guarded p rg.1 rb.1 ra.1, ra.2)
/-- The handlers, normalize.rs 188-197. -/
def normHandlers : Handlers → Nat → Handlers × Nat
  | .nil, c => (.nil, c)
  | .on op ids b hs, c =>
    let rb := norm b c
    let rh := normHandlers hs rb.2
    (.on op ids rb.1 rh.1, rh.2)
end

/-- `args.iter().try_for_each(atom)`. -/
def allAtoms : Exprs → Bool
  | .nil => true
  | .cons e es => isAtom e && allAtoms es

mutual
/-- `validate_region_root`, normalize.rs 31-36. -/
def validRoot : Expr → Bool
  | .block ss e => validStmts ss && validExpr e
  | .and l r => isAtom l && validRoot r
  | .or l r => isAtom l && validRoot r
  | .cases s as => isAtom s && validArms as
  | .lambda _ b => validRoot b
  | .handle b hs => validRoot b && validHandlers hs
  | .call f as => isAtom f && allAtoms as
  | .cons _ as | .tuple as | .list as | .record _ _ as => allAtoms as
  | .recordWith _ s _ as => isAtom s && allAtoms as
  | .resume _ a => isAtom a
  | .method r _ as => isAtom r && allAtoms as
  | .var _ | .global _ | .lit _ => true
/-- `validate_expr`, normalize.rs 55-107. -/
def validExpr : Expr → Bool
  | .block _ _ => false
  | .and l r => isAtom l && validRoot r
  | .or l r => isAtom l && validRoot r
  | .cases s as => isAtom s && validArms as
  | .lambda _ b => validRoot b
  | .handle b hs => validRoot b && validHandlers hs
  | .call f as => isAtom f && allAtoms as
  | .cons _ as | .tuple as | .list as | .record _ _ as => allAtoms as
  | .recordWith _ s _ as => isAtom s && allAtoms as
  | .resume _ a => isAtom a
  | .method r _ as => isAtom r && allAtoms as
  | .var _ | .global _ | .lit _ => true
/-- `validate_block_contents`, normalize.rs 38-50. -/
def validStmts : Stmts → Bool
  | .nil => true
  | .bind _ e ss => validExpr e && validStmts ss
  | .run e ss => validExpr e && validStmts ss
/-- normalize.rs 82-91. -/
def validArms : Arms → Bool
  | .nil => true
  | .arm _ b as => validRoot b && validArms as
  | .guarded _ g b as => validRoot g && validRoot b && validArms as
/-- normalize.rs 93-98. -/
def validHandlers : Handlers → Bool
  | .nil => true
  | .on _ _ b hs => validRoot b && validHandlers hs
end

/-- What stands between the braces of a record expression. -/
inductive Part where
  | field (name : Nat) (e : Expr)
  | spread (e : Expr)

/-- The loop over the parts, astgen/expressions.rs 300-322: the fields in order, and the last spread. -/
def recordParts : List Part → List Nat × Exprs × Option Expr
  | [] => ([], .nil, none)
  | .field n e :: ps => (n :: (recordParts ps).1, .cons e (recordParts ps).2.1, (recordParts ps).2.2)
  | .spread e :: ps => ((recordParts ps).1, (recordParts ps).2.1, (recordParts ps).2.2.or (some e))

/-- A record expression, astgen/expressions.rs 284-330. -/
def recordExpr (ty : Nat) (ps : List Part) : Expr :=
  match (recordParts ps).2.2 with
  | none => .record ty (recordParts ps).1 (recordParts ps).2.1
  | some s => .recordWith ty s (recordParts ps).1 (recordParts ps).2.1

end Verif.Normalize
