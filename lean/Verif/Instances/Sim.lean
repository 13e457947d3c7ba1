import Verif.Instances.Machine

/-!
# Renaming functions and forgetting types does not change a run

`mapE σ` renames the functions of an expression and forgets its types and node ids.  It commutes
with every step of the machine.
-/

namespace Verif.Instances
open Verif.Types

def noId : NodeId := ⟨0, none⟩
def noTy : Ty := .node .never [] [] none

section
variable (σ : Name → Name)

def mapRes : Res → Res
  | .func f => .func (σ f)
  | .loc l => .loc l
  | .ctor c => .ctor c
  | .op a o => .op a o
  | .other => .other

def mapR (r : TRef) : TRef := ⟨mapRes σ r.res, noTy⟩

def forgetR (r : TRef) : TRef := ⟨r.res, noTy⟩

mutual
def mapP : Pat → Pat
  | .wild _ => .wild noId
  | .bind _ l => .bind noId l
  | .lit _ x => .lit noId x
  | .variant _ r ps => .variant noId (forgetR r) (mapPs ps)
  | .record _ r fs => .record noId (r.map forgetR) (mapFPs fs)
  | .tuple _ ps => .tuple noId (mapPs ps)
  | .list _ ps => .list noId (mapPs ps)
  | .listRest _ ps l => .listRest noId (mapPs ps) l
  | .as _ p l => .as noId (mapP p) l
  | .err _ => .err noId
def mapPs : List Pat → List Pat
  | [] => []
  | p :: ps => mapP p :: mapPs ps
def mapFP : FPat → FPat
  | .short _ n l => .short noId n l
  | .full _ n p => .full noId n (mapP p)
def mapFPs : List FPat → List FPat
  | [] => []
  | f :: fs => mapFP f :: mapFPs fs
end

def mapK : HKind → HKind
  | .done p => .done (mapP p)
  | .fn r o ps => .fn (forgetR r) o (mapPs ps)
  | .op r o ps l => .op (forgetR r) o (mapPs ps) l

mutual
def mapE : Expr → Expr
  | .var _ r => .var noId (mapR σ r)
  | .lit _ x => .lit noId x
  | .call _ f as => .call noId (mapE f) (mapEs as)
  | .cons _ r as => .cons noId (forgetR r) (mapEs as)
  | .record _ r ns vs sp => .record noId (forgetR r) ns (mapEs vs) (mapO sp)
  | .method _ r m as => .method noId (mapE r) m (mapEs as)
  | .block _ ss e => .block noId (mapSs ss) (mapE e)
  | .case _ s as => .case noId (mapE s) (mapAs as)
  | .lam _ ps b => .lam noId ps (mapE b)
  | .handle _ b hs => .handle noId (mapE b) (mapHs hs)
  | .resume _ l a => .resume noId l (mapE a)
  | .tuple _ as => .tuple noId (mapEs as)
  | .list _ as => .list noId (mapEs as)
  | .binop _ b l r => .binop noId b (mapE l) (mapE r)
  | .err _ => .err noId
def mapEs : List Expr → List Expr
  | [] => []
  | e :: es => mapE e :: mapEs es
def mapO : Option Expr → Option Expr
  | none => none
  | some e => some (mapE e)
def mapS : Stmt → Stmt
  | .bind _ p e => .bind noId (mapP p) (mapE e)
  | .expr _ e => .expr noId (mapE e)
def mapSs : List Stmt → List Stmt
  | [] => []
  | s :: ss => mapS s :: mapSs ss
def mapA : Arm → Arm
  | .mk _ p g b => .mk noId (mapP p) (mapO g) (mapE b)
def mapAs : List Arm → List Arm
  | [] => []
  | a :: as => mapA a :: mapAs as
def mapH : HArm → HArm
  | .mk _ k b => .mk noId (mapK k) (mapE b)
def mapHs : List HArm → List HArm
  | [] => []
  | h :: hs => mapH h :: mapHs hs
end

mutual
def mapV : Val → Val
  | .data t vs => .data t (mapVs vs)
  | .fn f => .fn (σ f)
  | .op a o => .op a o
  | .clo ps b env => .clo ps (mapE σ b) (mapEnv env)
  | .kont fs => .kont (mapFs fs)
def mapVs : List Val → List Val
  | [] => []
  | v :: vs => mapV v :: mapVs vs
def mapEnv : VEnv → VEnv
  | .nil => .nil
  | .cons l v env => .cons l (mapV v) (mapEnv env)
def mapF : Frame → Frame
  | .args b done todo env => .args b (mapVs done) (mapEs σ todo) (mapEnv env)
  | .stmt p ss e env => .stmt (p.map (mapP)) (mapSs σ ss) (mapE σ e) (mapEnv env)
  | .case as env => .case (mapAs σ as) (mapEnv env)
  | .guard v b benv as env => .guard (mapV v) (mapE σ b) (mapEnv benv) (mapAs σ as) (mapEnv env)
  | .binop a r env => .binop a (mapE σ r) (mapEnv env)
  | .handle hs env => .handle (mapHs σ hs) (mapEnv env)
  | .resume l env => .resume l (mapEnv env)
  | .tail fs => .tail (mapFs fs)
def mapFs : List Frame → List Frame
  | [] => []
  | f :: fs => mapF f :: mapFs fs
end

def mapC (c : Config) : Config :=
  ⟨match c.ctl with
    | .eval e env => .eval (mapE σ e) (mapEnv σ env)
    | .ret v => .ret (mapV σ v), mapFs σ c.stack, c.trace⟩

def mapOut : Out → Out
  | .next c => .next (mapC σ c)
  | .done v tr => .done (mapV σ v) tr
  | .wrong => .wrong

theorem mapVs_eq (vs : List Val) : mapVs σ vs = vs.map (mapV σ) := by
  induction vs with
  | nil => rfl
  | cons v vs ih => simp [mapVs, ih]

theorem mapFs_eq (fs : List Frame) : mapFs σ fs = fs.map (mapF σ) := by
  induction fs with
  | nil => rfl
  | cons v vs ih => simp [mapFs, ih]

theorem mapPs_length (ps : List Pat) : (mapPs ps).length = ps.length := by
  induction ps with
  | nil => rfl
  | cons v vs ih => simp [mapPs, ih]

theorem mapVs_length (ps : List Val) : (mapVs σ ps).length = ps.length := by
  rw [mapVs_eq]; simp

theorem get_map (env : VEnv) (x : Nat) : (mapEnv σ env).get x = (env.get x).map (mapV σ) := by
  fun_induction VEnv.get env x <;> simp_all [mapEnv, VEnv.get]

theorem bindAll_map (ps : List Nat) (vs : List Val) (env : VEnv) :
    bindAll ps (mapVs σ vs) (mapEnv σ env) = (bindAll ps vs env).map (mapEnv σ) := by
  fun_induction bindAll ps vs env with
  | case1 => simp [mapVs, bindAll]
  | case2 env p ps v vs ih => simp only [mapVs, bindAll]; exact ih
  | case3 ps vs env h1 h2 =>
    cases ps <;> cases vs <;> first
      | exact (h2 _ _ _ _ rfl rfl).elim
      | simp_all [mapVs, bindAll]

theorem bindOpt_map (l : Option Nat) (v : Val) (env : VEnv) :
    bindOpt l (mapV σ v) (mapEnv σ env) = mapEnv σ (bindOpt l v env) := by
  cases l <;> simp [bindOpt, mapEnv]

mutual
theorem shape_map : ∀ v : Val, shape (mapV σ v) = shape v
  | .data t vs => by simp [mapV, shape, shapes_map vs]
  | .fn f => by simp [mapV, shape]
  | .op a o => by simp [mapV, shape]
  | .clo ps b env => by simp [mapV, shape]
  | .kont fs => by simp [mapV, shape]
theorem shapes_map : ∀ vs : List Val, shapes (mapVs σ vs) = shapes vs
  | [] => by simp [mapVs]
  | v :: vs => by simp [mapVs, shapes, shape_map v, shapes_map vs]
end

mutual
theorem embed_map : ∀ s : Shape, mapV σ (embed s) = embed s
  | .data t vs => by simp [mapV, embed, embeds_map vs]
  | .opaque => by simp [mapV, embed, mapVs]
theorem embeds_map : ∀ ss : List Shape, mapVs σ (embeds ss) = embeds ss
  | [] => by simp [mapVs, embeds]
  | v :: vs => by simp [mapVs, embeds, embed_map v, embeds_map vs]
end

theorem field_map (ns : List Nat) (vs : List Val) (x : Nat) :
    field ns (mapVs σ vs) x = (field ns vs x).map (mapV σ) := by
  fun_induction field ns vs x with
  | case1 v vs n ns => simp [mapVs, field]
  | case2 v vs n ns x h ih => simp [mapVs, field, h, ih]
  | case3 ns vs x h =>
    cases ns <;> cases vs <;> first
      | exact (h _ _ _ _ rfl rfl).elim
      | simp_all [mapVs, field]

theorem mapVs_take (vs : List Val) (n : Nat) : (mapVs σ vs).take n = mapVs σ (vs.take n) := by
  simp [mapVs_eq, List.map_take]

theorem mapVs_drop (vs : List Val) (n : Nat) : (mapVs σ vs).drop n = mapVs σ (vs.drop n) := by
  simp [mapVs_eq, List.map_drop]

mutual
theorem pmatch_map : ∀ (p : Pat) (v : Val) (env : VEnv),
    pmatch (mapP p) (mapV σ v) (mapEnv σ env) = (pmatch p v env).map (mapEnv σ)
  | .wild _, v, env => by simp [mapP, pmatch]
  | .bind _ l, v, env => by simp [mapP, pmatch, mapEnv]
  | .lit _ x, v, env => by
    cases v <;> simp only [mapP, pmatch, mapV, Option.map_none]
    split <;> rfl
  | .variant _ r ps, v, env => by
    simp only [mapP, pmatch]
    cases hr : r.res <;> simp only [forgetR, hr, Option.map_none]
    cases v <;> simp only [mapV, Option.map_none]
    split
    · exact pmatchL_map ps _ env
    · rfl
  | .record _ r fs, v, env => by
    simp only [mapP, pmatch]
    cases v <;> simp only [mapV, Option.map_none]
    rename_i t vs
    cases t <;> simp only [Option.map_none]
    exact pmatchF_map fs _ vs env
  | .tuple _ ps, v, env => by
    simp only [mapP, pmatch]
    cases v <;> simp only [mapV, Option.map_none]
    split
    · exact pmatchL_map ps _ env
    · rfl
  | .list _ ps, v, env => by
    simp only [mapP, pmatch]
    cases v <;> simp only [mapV, Option.map_none]
    split
    · exact pmatchL_map ps _ env
    · rfl
  | .listRest _ ps l, v, env => by
    simp only [mapP, pmatch]
    cases v <;> simp only [mapV, Option.map_none]
    rename_i t vs
    simp only [mapPs_length, mapVs_length]
    split
    · rw [mapVs_take, pmatchL_map ps _ env, mapVs_drop]
      cases pmatchL ps (vs.take ps.length) env with
      | none => rfl
      | some env' =>
        simp only [Option.map_some]
        rw [← bindOpt_map]
        simp [mapV]
    · rfl
  | .as _ p l, v, env => by
    simp only [mapP, pmatch, pmatch_map p v env]
    cases pmatch p v env <;> simp [mapEnv]
  | .err _, v, env => by simp [mapP, pmatch]
theorem pmatchL_map : ∀ (ps : List Pat) (vs : List Val) (env : VEnv),
    pmatchL (mapPs ps) (mapVs σ vs) (mapEnv σ env) = (pmatchL ps vs env).map (mapEnv σ)
  | [], [], env => by simp [mapPs, mapVs, pmatchL]
  | [], _ :: _, env => by simp [mapPs, mapVs, pmatchL]
  | _ :: _, [], env => by simp [mapPs, mapVs, pmatchL]
  | p :: ps, v :: vs, env => by
    simp only [mapPs, mapVs, pmatchL, pmatch_map p v env]
    cases pmatch p v env with
    | none => rfl
    | some env' => simp only [Option.map_some]; exact pmatchL_map ps vs env'
theorem pmatch1_map : ∀ (f : FPat) (ns : List Nat) (vs : List Val) (env : VEnv),
    pmatch1 (mapFP f) ns (mapVs σ vs) (mapEnv σ env) = (pmatch1 f ns vs env).map (mapEnv σ)
  | .short _ n l, ns, vs, env => by
    simp only [mapFP, pmatch1, field_map]
    cases field ns vs n <;> simp [mapEnv]
  | .full _ n p, ns, vs, env => by
    simp only [mapFP, pmatch1, field_map]
    cases field ns vs n with
    | none => rfl
    | some v => simp only [Option.map_some]; exact pmatch_map p v env
theorem pmatchF_map : ∀ (fs : List FPat) (ns : List Nat) (vs : List Val) (env : VEnv),
    pmatchF (mapFPs fs) ns (mapVs σ vs) (mapEnv σ env) = (pmatchF fs ns vs env).map (mapEnv σ)
  | [], ns, vs, env => by simp [mapFPs, pmatchF]
  | f :: fs, ns, vs, env => by
    simp only [mapFPs, pmatchF, pmatch1_map f ns vs env]
    cases pmatch1 f ns vs env with
    | none => rfl
    | some env' => simp only [Option.map_some]; exact pmatchF_map fs ns vs env'
end

theorem doneArm_map (hs : List HArm) :
    doneArm (mapHs σ hs) = (doneArm hs).map fun x => (mapP x.1, mapE σ x.2) := by
  induction hs with
  | nil => rfl
  | cons h hs ih =>
    cases h with
    | mk id k b => cases k <;> simp [mapHs, mapH, mapK, doneArm, ih]

theorem abilityOf_map (r : TRef) : abilityOf (forgetR r) = abilityOf r := rfl

theorem opArm_map (a o : Nat) (hs : List HArm) :
    opArm a o (mapHs σ hs) = (opArm a o hs).map fun x => (mapPs x.1, mapE σ x.2.1, x.2.2) := by
  induction hs with
  | nil => rfl
  | cons h hs ih =>
    cases h with
    | mk id k b =>
      cases k <;> simp only [mapHs, mapH, mapK, opArm, abilityOf_map, ih]
      all_goals split <;> rfl

theorem findHandler_map (a o : Nat) (fs : List Frame) : ∀ acc : List Frame,
    findHandler a o (mapFs σ acc) (mapFs σ fs) = (findHandler a o acc fs).map fun x =>
      (mapFs σ x.1, (mapPs x.2.1.1, mapE σ x.2.1.2.1, x.2.1.2.2), mapEnv σ x.2.2.1, mapFs σ x.2.2.2) := by
  induction fs with
  | nil => intro acc; rfl
  | cons f fs ih =>
    intro acc
    cases f with
    | handle hs env =>
      simp only [mapFs, mapF, findHandler, opArm_map]
      cases opArm a o hs with
      | none =>
        simp only [Option.map_none]
        exact ih (.handle hs env :: acc)
      | some arm =>
        simp only [Option.map_some, mapFs_eq, List.reverse_cons, List.map_append, List.map_cons, List.map_reverse,
          List.map_nil, mapF]
    | args b done todo env => simp only [mapFs, mapF, findHandler]; exact ih (.args b done todo env :: acc)
    | stmt p ss e env => simp only [mapFs, mapF, findHandler]; exact ih (.stmt p ss e env :: acc)
    | case as env => simp only [mapFs, mapF, findHandler]; exact ih (.case as env :: acc)
    | guard v b benv as env => simp only [mapFs, mapF, findHandler]; exact ih (.guard v b benv as env :: acc)
    | binop i r env => simp only [mapFs, mapF, findHandler]; exact ih (.binop i r env :: acc)
    | resume l env => simp only [mapFs, mapF, findHandler]; exact ih (.resume l env :: acc)
    | tail ks => simp only [mapFs, mapF, findHandler]; exact ih (.tail ks :: acc)

theorem ask_map (X : Outside) (q : Ask) (args : List Val) (k : List Frame) (tr : List Event) :
    ask X q (mapVs σ args) (mapFs σ k) tr = mapOut σ (ask X q args k tr) := by
  simp only [ask, shapes_map]
  cases X.answer ((q, shapes args) :: tr) with
  | none => rfl
  | some s => simp only [mapOut, mapC, embed_map]

theorem perform_map (X : Outside) (a o : Nat) (args : List Val) (k : List Frame) (tr : List Event) :
    perform X a o (mapVs σ args) (mapFs σ k) tr = mapOut σ (perform X a o args k tr) := by
  have h := findHandler_map σ a o k []
  simp only [mapFs] at h
  simp only [perform, h]
  cases findHandler a o [] k with
  | none => simp only [Option.map_none]; exact ask_map σ X _ args k tr
  | some x =>
    obtain ⟨inner, ⟨ps, b, returns, l⟩, env, outer⟩ := x
    simp only [Option.map_some, pmatchL_map]
    cases pmatchL ps args env with
    | none => rfl
    | some env' =>
      simp only [Option.map_some]
      split
      · simp [mapOut, mapC, mapFs, mapF]
      · simp only [mapOut, mapC]
        rw [← bindOpt_map]
        simp [mapV]

variable {σ}

/-- `Q` is the program `P` with its functions renamed and its types forgotten; the outside does not
tell the names apart. -/
structure Renames (σ : Name → Name) (P Q : Prog) (X : Outside) : Prop where
  prog : ∀ n, Q (σ n) = (P n).map fun x => (x.1, mapE σ x.2)
  link : ∀ n, P n = none → X.link (σ n) = X.link n

variable {P Q : Prog} {X : Outside} (H : Renames σ P Q X)
include H

theorem apply_map (f : Val) (args : List Val) (k : List Frame) (tr : List Event) :
    apply Q X (mapV σ f) (mapVs σ args) (mapFs σ k) tr = mapOut σ (apply P X f args k tr) := by
  cases f with
  | data t vs => rfl
  | kont fs => rfl
  | op a o => simp only [mapV, apply]; exact perform_map σ X a o args k tr
  | clo ps b env =>
    simp only [mapV, apply, bindAll_map]
    cases bindAll ps args env <;> rfl
  | fn n =>
    simp only [mapV, apply, H.prog n]
    cases hp : P n with
    | none =>
      simp only [Option.map_none, H.link n hp]
      cases X.link n with
      | none => rfl
      | some s => exact ask_map σ X _ args k tr
    | some x =>
      simp only [Option.map_some]
      have h := bindAll_map σ x.1 args .nil
      simp only [mapEnv] at h
      rw [h]
      cases bindAll x.1 args .nil <;> rfl

omit H in
theorem spreadFields_map (names ns : List Nat) (vs : List Val) :
    spreadFields names ns (mapVs σ vs) = (spreadFields names ns vs).map fun x => (x.1, mapV σ x.2) := by
  fun_induction spreadFields names ns vs with
  | case1 n ns v vs h ih => simp [mapVs, spreadFields, h, ih]
  | case2 n ns v vs h ih => simp [mapVs, spreadFields, h, ih]
  | case3 ns vs h =>
    cases ns <;> cases vs <;> first
      | exact (h _ _ _ _ rfl rfl).elim
      | simp_all [mapVs, spreadFields]

theorem build_map (b : Build) (vs : List Val) (k : List Frame) (tr : List Event) :
    build Q X b (mapVs σ vs) (mapFs σ k) tr = mapOut σ (build P X b vs k tr) := by
  cases b with
  | call =>
    cases vs with
    | nil => rfl
    | cons f args => simp only [build, mapVs]; exact apply_map H f args k tr
  | data t => simp [build, mapOut, mapC, mapV]
  | record c names spread =>
    cases spread with
    | false => simp [build, mapOut, mapC, mapV]
    | true =>
      cases vs with
      | nil => rfl
      | cons v vals =>
        cases v with
        | data t ws =>
          cases t with
          | record c' ns =>
            simp only [build, mapVs, mapV, spreadFields_map, if_true, mapOut, mapC]
            simp [mapVs_eq, Function.comp_def]
          | _ => rfl
        | _ => rfl

theorem evalArgs_map (b : Build) (done : List Val) (todo : List Expr) (env : VEnv) (k : List Frame)
    (tr : List Event) :
    evalArgs Q X b (mapVs σ done) (mapEs σ todo) (mapEnv σ env) (mapFs σ k) tr
      = mapOut σ (evalArgs P X b done todo env k tr) := by
  cases todo with
  | nil =>
    simp only [mapEs, evalArgs]
    have : (mapVs σ done).reverse = mapVs σ done.reverse := by simp [mapVs_eq]
    rw [this]
    exact build_map H b done.reverse k tr
  | cons e es => simp [mapEs, evalArgs, mapOut, mapC, mapFs, mapF]

omit H in
theorem evalBlock_map (ss : List Stmt) (e : Expr) (env : VEnv) (k : List Frame) (tr : List Event) :
    evalBlock (mapSs σ ss) (mapE σ e) (mapEnv σ env) (mapFs σ k) tr = mapOut σ (evalBlock ss e env k tr) := by
  cases ss with
  | nil => simp [mapSs, evalBlock, mapOut, mapC]
  | cons s ss => cases s <;> simp [mapSs, mapS, evalBlock, mapOut, mapC, mapFs, mapF]

omit H in
theorem evalCase_map (v : Val) (env : VEnv) (k : List Frame) (tr : List Event) (as : List Arm) :
    evalCase (mapV σ v) (mapEnv σ env) (mapFs σ k) tr (mapAs σ as) = mapOut σ (evalCase v env k tr as) := by
  induction as with
  | nil => rfl
  | cons a as ih =>
    cases a with
    | mk id p g b =>
      simp only [mapAs, mapA, evalCase, pmatch_map]
      cases pmatch p v env with
      | none => exact ih
      | some env' =>
        cases g <;> simp [mapO, mapOut, mapC, mapFs, mapF]

omit H in
theorem evalRef_map (r : Res) (env : VEnv) :
    evalRef (mapRes σ r) (mapEnv σ env) = (evalRef r env).map (mapV σ) := by
  cases r <;> simp [mapRes, evalRef, get_map, mapV, mapVs]

omit H in
theorem ctorOf_map (r : TRef) : ctorOf (forgetR r) = ctorOf r := rfl

theorem evalE_map (e : Expr) (env : VEnv) (k : List Frame) (tr : List Event) :
    evalE Q X (mapE σ e) (mapEnv σ env) (mapFs σ k) tr = mapOut σ (evalE P X e env k tr) := by
  cases e with
  | var id r =>
    simp only [mapE, evalE, mapR, evalRef_map]
    cases evalRef r.res env <;> rfl
  | lit id x => simp [mapE, evalE, mapOut, mapC, mapV, mapVs]
  | call id f as => simp [mapE, evalE, mapOut, mapC, mapFs, mapF, mapVs]
  | cons id r as =>
    simp only [mapE, evalE, ctorOf_map]
    cases ctorOf r with
    | none => rfl
    | some c => exact evalArgs_map H _ [] as env k tr
  | record id r ns vs sp =>
    simp only [mapE, evalE, ctorOf_map]
    cases ctorOf r with
    | none => rfl
    | some c =>
      cases sp with
      | none => exact evalArgs_map H _ [] vs env k tr
      | some s => simp [mapO, mapOut, mapC, mapFs, mapF, mapVs]
  | method id r m as => rfl
  | block id ss e => simp only [mapE, evalE]; exact evalBlock_map ss e env k tr
  | case id s as => simp [mapE, evalE, mapOut, mapC, mapFs, mapF]
  | lam id ps b => simp [mapE, evalE, mapOut, mapC, mapV]
  | handle id b hs => simp [mapE, evalE, mapOut, mapC, mapFs, mapF]
  | resume id l a => simp [mapE, evalE, mapOut, mapC, mapFs, mapF]
  | tuple id as => simp only [mapE, evalE]; exact evalArgs_map H _ [] as env k tr
  | list id as => simp only [mapE, evalE]; exact evalArgs_map H _ [] as env k tr
  | binop id b l r => simp [mapE, evalE, mapOut, mapC, mapFs, mapF]
  | err id => rfl

omit H in
theorem truth_map (v : Val) : truth (mapV σ v) = truth v := by
  cases v <;> rfl

theorem retV_map (v : Val) (f : Frame) (k : List Frame) (tr : List Event) :
    retV Q X (mapV σ v) (mapF σ f) (mapFs σ k) tr = mapOut σ (retV P X v f k tr) := by
  cases f with
  | args b done todo env =>
    simp only [mapF, retV]
    have := evalArgs_map H b (v :: done) todo env k tr
    simpa only [mapVs] using this
  | stmt p ss e env =>
    cases p with
    | none => simp only [mapF, retV, Option.map_none]; exact evalBlock_map ss e env k tr
    | some p =>
      simp only [mapF, retV, Option.map_some, pmatch_map]
      cases pmatch p v env with
      | none => rfl
      | some env' => simp only [Option.map_some]; exact evalBlock_map ss e env' k tr
  | case as env => simp only [mapF, retV]; exact evalCase_map v env k tr as
  | guard w b benv as env =>
    simp only [mapF, retV, truth_map]
    cases truth v with
    | none => rfl
    | some t =>
      cases t with
      | true => rfl
      | false => exact evalCase_map w env k tr as
  | binop isAnd r env =>
    simp only [mapF, retV, truth_map]
    cases truth v with
    | none => rfl
    | some t => by_cases h : t = isAnd <;> simp [h, mapOut, mapC]
  | handle hs env =>
    simp only [mapF, retV, doneArm_map]
    cases doneArm hs with
    | none => rfl
    | some x =>
      simp only [Option.map_some, pmatch_map]
      cases pmatch x.1 v env <;> rfl
  | resume l env =>
    simp only [mapF, retV]
    cases l with
    | none => rfl
    | some l =>
      simp only [Option.bind_some, get_map]
      cases env.get l with
      | none => rfl
      | some w =>
        cases w <;> simp [mapV, mapOut, mapC, mapFs_eq]
  | tail fs => simp [mapF, retV, mapOut, mapC, mapFs_eq]

theorem step_map (c : Config) : step Q X (mapC σ c) = mapOut σ (step P X c) := by
  obtain ⟨ctl, k, tr⟩ := c
  cases ctl with
  | eval e env => exact evalE_map H e env k tr
  | ret v =>
    cases k with
    | nil => rfl
    | cons f k => exact retV_map H v f k tr

theorem run_map (n : Nat) : ∀ c : Config, run Q X n (mapC σ c) = mapOut σ (run P X n c) := by
  induction n with
  | zero => intro c; rfl
  | succ n ih =>
    intro c
    simp only [run, step_map H c]
    cases step P X c with
    | next c' => simp only [mapOut]; exact ih c'
    | done v tr => rfl
    | wrong => rfl

omit H in
theorem seen_map (o : Out) : seen (mapOut σ o) = seen o := by
  cases o <;> simp [mapOut, seen, mapC, shape_map]

theorem observe_map (main : Name) (args : List Shape) (n : Nat) :
    observe Q X (σ main) args n = observe P X main args n := by
  have h := apply_map H (.fn main) (embeds args) [] []
  simp only [mapV, embeds_map, mapFs] at h
  simp only [observe, h]
  cases apply P X (.fn main) (embeds args) [] [] with
  | next c =>
    have := seen_map (σ := σ) (run P X n c)
    rw [← run_map H] at this
    exact this
  | done v tr => simp [mapOut, seen, shape_map]
  | wrong => rfl

end

end Verif.Instances
