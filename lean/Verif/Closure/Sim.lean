import Verif.Closure.Spec
import Mathlib.Tactic.Push
import Mathlib.Data.List.Forall2
/-!
# Programs that differ in names and in lifted lambdas run alike
-/
namespace Verif.Closure
open Verif.CallConv (Conv)
variable {B σ : Type}

/-- How the values in scope are called on the other side. -/
abbrev PMap := Var → Option Var
def PMap.upd (m : PMap) (x y : Var) : PMap := fun v => if v = x then some y else m v
def PMap.updAll : PMap → List Var → List Var → PMap
  | m, x :: xs, y :: ys => PMap.updAll (m.upd x y) xs ys
  | m, _, _ => m
def PMap.only (m : PMap) (l : List Var) : PMap := fun v => if v ∈ l then m v else none
def PMap.none : PMap := fun _ => Option.none
def PMap.Fresh (m : PMap) (y : Var) : Prop := ∀ v, m v ≠ some y
def PMap.Inj (m : PMap) : Prop := ∀ v w y, m v = some y → m w = some y → v = w

def updOpt (m : PMap) : Option Var → Var → PMap
  | some e, y => m.upd e y
  | .none, _ => m

/-- The parameters of a lifted function. -/
def physParams (slot : Slot) (evv envv : Var) (qs : List (Var × Ty)) : List (Var × Ty) :=
  match slot with
  | .at _ i => insertAt i (envv, anyTy) qs
  | .legacy => (evv, evTy) :: (envv, anyTy) :: qs

/-- The start of a lifted function. -/
def entry (caps : List Var) (cst envv : Var) (gs : List Var) (body : Code) : Code :=
  if caps = [] then body else .op cst .cast [envv] (loads cst 0 gs body)

/-- A function made from a lambda. -/
structure Lifted (slot : Slot) (caps : List Var) (ps : List (Var × Ty)) (fn : Func)
    (evv envv cst : Var) (ps' gs : List Var) (body' : Code) : Prop where
  len : ps'.length = ps.length
  glen : gs.length = caps.length
  slotLe : ∀ c i, slot = .at c i → i ≤ ps.length
  nodup : (evv :: envv :: cst :: (ps' ++ gs)).Nodup
  hparams : fn.params = physParams slot evv envv (ps'.zip (ps.map Prod.snd))
  hbody : fn.body = entry caps cst envv gs body'

/-- The names inside a lifted function. -/
def liftMap (imp : Option Var) (caps : List Var) (ps : List Var) (evv : Var) (ps' gs : List Var) : PMap :=
  ((updOpt (PMap.none.updAll ps ps') imp evv)).updAll caps gs

/-- The two codes are the same up to the names of values; some lambdas of the first are functions of the
program `q` in the second. -/
inductive Alpha (q : Prog) : Option Var → Option Var → PMap → Code → Code → Prop
  | ret {E E' : Option Var} {m : PMap} {x x'} : m x = some x' → Alpha q E E' m (.ret x) (.ret x')
  | tail {E E' : Option Var} {m : PMap} {conv site args args'} : args.map m = args'.map some →
      Alpha q E E' m (.tail conv site args) (.tail conv site args')
  | op {E E' : Option Var} {m : PMap} {r r' o args args' k k'} : args.map m = args'.map some → m.Fresh r' →
      Alpha q E E' (m.upd r r') k k' → Alpha q E E' m (.op r o args k) (.op r' o args' k')
  | cond {E E' : Option Var} {m : PMap} {r r' c c' t t' e e' k k'} : m c = some c' → Alpha q E E' m t t' → Alpha q E E' m e e' →
      m.Fresh r' → Alpha q E E' (m.upd r r') k k' →
      Alpha q E E' m (.cond r c t e k) (.cond r' c' t' e' k')
  | lambda {E E' : Option Var} {m : PMap} {r r' caps caps' conv ty ps ps' body body' k k'} (slot : Slot) :
      contract conv ty = some slot → caps.map m = caps'.map some →
      m.Inj → (∀ e, E = some e → ∃ e', E' = some e' ∧ m e = some e') →
      ps.map Prod.snd = ps'.map Prod.snd → (ps.map Prod.fst).Nodup → (ps'.map Prod.fst).Nodup →
      (∀ y ∈ ps'.map Prod.fst, (m.only (caps ++ (rebinds slot E caps).toList)).Fresh y) →
      Alpha q (innerEv slot (rebinds slot E caps) ps) (innerEv slot (rebinds slot E' caps') ps')
        ((m.only (caps ++ (rebinds slot E caps).toList)).updAll (ps.map Prod.fst) (ps'.map Prod.fst))
        body body' →
      m.Fresh r' → Alpha q E E' (m.upd r r') k k' →
      Alpha q E E' m (.lambda r caps conv ty ps body k) (.lambda r' caps' conv ty ps' body' k')
  | lift {E E' : Option Var} {m : PMap} {r r' caps caps' conv ty ps body k k' e f fn evv envv cst ps' gs body'} (slot : Slot) :
      contract conv ty = some slot → caps.map m = caps'.map some →
      q.find f = some fn → (ps.map Prod.fst).Nodup →
      (∀ x ∈ ps.map Prod.fst, x ∉ caps ++ (rebinds slot E caps).toList) →
      Lifted slot caps ps fn evv envv cst ps' gs body' →
      Alpha q (innerEv slot (rebinds slot E caps) ps) (firstEvidence fn.params)
        (liftMap (rebinds slot E caps) caps (ps.map Prod.fst) evv ps' gs) body body' →
      m.Fresh e → m.Fresh r' → e ≠ r' →
      Alpha q E E' (m.upd r r') k k' →
      Alpha q E E' m (.lambda r caps conv ty ps body k)
        (.op e (if caps = [] then .null else .pack) caps'
          (.op r' (.closureNew f conv ty) [e] k'))

/-- Related values. -/
inductive VR (q : Prog) : Val B → Val B → Prop
  | base (b) : VR q (.base b) (.base b)
  | null : VR q .null .null
  | fn (f) : VR q (.fn f) (.fn f)
  | data {vs ws} : vs.length = ws.length →
      (∀ (i : Nat) v w, vs[i]? = some v → ws[i]? = some w → VR q v w) → VR q (.data vs) (.data ws)
  | pair {f v w slot} : VR q v w → VR q (.pair f v slot) (.pair f w slot)
  | clo {env env' re re' slot ps ps' body body'} (m : PMap) :
      (∀ v v', m v = some v' → (look env v).isSome ∧ (look env' v').isSome) →
      (∀ v v' x x', m v = some v' → look env v = some x → look env' v' = some x' → VR q x x') →
      (slot ≠ .legacy → re = none ∧ re' = none) →
      (∀ e, re = some e → ∃ e', re' = some e' ∧ (∀ v, m v = some e' → v = e)) →
      (re = none → ∀ e', re' = some e' → m.Fresh e') →
      (∀ y ∈ ps'.map Prod.fst, (updOpt m re (re'.getD 0)).Fresh y) → (ps'.map Prod.fst).Nodup →
      (ps.map Prod.fst).Nodup → ps.map Prod.snd = ps'.map Prod.snd →
      Alpha q (innerEv slot re ps) (innerEv slot re' ps')
        ((updOpt m re (re'.getD 0)).updAll (ps.map Prod.fst) (ps'.map Prod.fst)) body body' →
      VR q (.clo env re slot ps body) (.clo env' re' slot ps' body')
  | lift {env re slot ps body f w fn caps evv envv cst ps' gs body'} (cs : List (Val B)) :
      q.find f = some fn → (ps.map Prod.fst).Nodup → Lifted slot caps ps fn evv envv cst ps' gs body' →
      Alpha q (innerEv slot re ps) (firstEvidence fn.params)
        (liftMap re caps (ps.map Prod.fst) evv ps' gs) body body' →
      (slot ≠ .legacy → re = none) →
      cs.length = caps.length →
      (∀ v ∈ caps, (look env v).isSome) →
      (∀ (i : Nat) v x c, caps[i]? = some v → look env v = some x → cs[i]? = some c → VR q x c) →
      (∀ x ∈ ps.map Prod.fst, x ∉ caps ++ re.toList) → (∀ e ∈ re.toList, e ∉ caps) →
      w = (if caps = [] then .null else .data cs) →
      VR q (.clo env re slot ps body) (.pair f w slot)

abbrev VRs (q : Prog) (vs ws : List (Val B)) : Prop := List.Forall₂ (VR q) vs ws

def EnvRel (q : Prog) (m : PMap) (env env' : Env B) : Prop :=
  ∀ v v', m v = some v' → ∃ x x', look env v = some x ∧ look env' v' = some x' ∧ VR q x x'

inductive RRel (q : Prog) : Res B σ → Res B σ → Prop
  | err (r) : RRel q .err r
  | out : RRel q .out .out
  | ok {s v w} : VR q v w → RRel q (.ok s v) (.ok s w)

theorem RRel.andThen {q : Prog} {r r' : Res B σ} {k k' : σ → Val B → Res B σ} (h : RRel q r r')
    (hk : ∀ s v w, VR q v w → RRel q (k s v) (k' s w)) : RRel q (r.andThen k) (r'.andThen k') := by
  cases h with
  | err => exact .err _
  | out => exact .out
  | ok h => exact hk _ _ _ h

theorem VRs_length {q : Prog} {vs ws : List (Val B)} (h : VRs q vs ws) : vs.length = ws.length :=
  List.Forall₂.length_eq h

theorem looks_rel {q : Prog} {m : PMap} {env env' : Env B} (he : EnvRel q m env env') {args args' : List Var}
    (h : args.map m = args'.map some) :
    ∃ vs ws, looks env args = some vs ∧ looks env' args' = some ws ∧ VRs q vs ws := by
  induction args generalizing args' with
  | nil =>
    cases args' with
    | nil => exact ⟨[], [], rfl, rfl, .nil⟩
    | cons a as => simp at h
  | cons a as ih =>
    cases args' with
    | nil => simp at h
    | cons b bs =>
      simp only [List.map_cons, List.cons.injEq] at h
      obtain ⟨x, x', h1, h2, h3⟩ := he _ _ h.1
      obtain ⟨vs, ws, g1, g2, g3⟩ := ih h.2
      exact ⟨x :: vs, x' :: ws, by simp [looks, h1, g1], by simp [looks, h2, g2], .cons h3 g3⟩

theorem EnvRel.upd {q : Prog} {m : PMap} {env env' : Env B} (he : EnvRel q m env env') {r r' : Var}
    {x x' : Val B} (hf : m.Fresh r') (hx : VR q x x') :
    EnvRel q (m.upd r r') ((r, x) :: env) ((r', x') :: env') := by
  intro v v' hv
  unfold PMap.upd at hv
  split at hv
  · next h =>
    cases hv; subst h
    exact ⟨x, x', by simp [look], by simp [look], hx⟩
  · next h =>
    obtain ⟨y, y', h1, h2, h3⟩ := he _ _ hv
    have : r' ≠ v' := fun e => hf v (e ▸ hv)
    exact ⟨y, y', by simp [look, Ne.symm h, h1], by simp [look, this, h2], h3⟩

theorem fresh_upd {m : PMap} {x y z : Var} (h : m.Fresh z) (hne : y ≠ z) : (m.upd x y).Fresh z := by
  intro v hv
  unfold PMap.upd at hv
  split at hv
  · exact hne (Option.some.inj hv)
  · exact h v hv

theorem EnvRel.updAll {q : Prog} {xs ys : List Var} {vs ws : List (Val B)} :
    ∀ {m : PMap} {env env' : Env B}, EnvRel q m env env' → VRs q vs ws → xs.length = ys.length →
    xs.length = vs.length → ys.Nodup → (∀ y ∈ ys, m.Fresh y) →
    EnvRel q (m.updAll xs ys) (bindAll env xs vs) (bindAll env' ys ws) := by
  induction xs generalizing ys vs ws with
  | nil =>
    intro m env env' he hv hl hl2 _ _
    cases ys with
    | nil => simpa [PMap.updAll, bindAll] using he
    | cons y ys => simp at hl
  | cons x xs ih =>
    intro m env env' he hv hl hl2 hn hf
    cases ys with
    | nil => simp at hl
    | cons y ys =>
      cases hv with
      | nil => simp at hl2
      | cons h1 h2 =>
        simp only [PMap.updAll, bindAll]
        rw [List.nodup_cons] at hn
        refine ih (he.upd (hf y (by simp)) h1) h2 (by simpa using hl) (by simpa using hl2) hn.2 ?_
        intro z hz
        exact fresh_upd (hf z (by simp [hz])) (fun e => hn.1 (e ▸ hz))

/-! ## The names of a lifted function -/

theorem look_bindAll_not {env : Env B} {y : Var} : ∀ {xs : List Var} {vs : List (Val B)} , y ∉ xs →
    look (bindAll env xs vs) y = look env y := by
  intro xs
  induction xs generalizing env with
  | nil => intro vs _; simp [bindAll]
  | cons x xs ih =>
    intro vs h
    simp only [List.mem_cons, not_or] at h
    cases vs with
    | nil => simp [bindAll]
    | cons v vs =>
      simp only [bindAll]
      rw [ih h.2]
      simp [look, Ne.symm h.1]

theorem look_bindAll_get {env : Env B} : ∀ {xs : List Var} {vs : List (Val B)} {i : Nat} {x : Var} {v : Val B},
    xs.Nodup → xs[i]? = some x → vs[i]? = some v → look (bindAll env xs vs) x = some v := by
  intro xs
  induction xs generalizing env with
  | nil => intro vs i x v _ h; simp at h
  | cons y xs ih =>
    intro vs i x v hn hx hv
    rw [List.nodup_cons] at hn
    cases vs with
    | nil => simp at hv
    | cons w vs =>
      simp only [bindAll]
      cases i with
      | zero =>
        simp only [List.getElem?_cons_zero, Option.some.injEq] at hx hv
        subst hx; subst hv
        rw [look_bindAll_not hn.1]; simp [look]
      | succ i =>
        simp only [List.getElem?_cons_succ] at hx hv
        exact ih hn.2 hx hv

theorem look_bindAll_congr {y : Var} : ∀ {xs : List Var} {vs : List (Val B)} {env env' : Env B},
    look env y = look env' y → look (bindAll env xs vs) y = look (bindAll env' xs vs) y := by
  intro xs
  induction xs with
  | nil => intro vs env env' h; simpa [bindAll] using h
  | cons x xs ih =>
    intro vs env env' h
    cases vs with
    | nil => simpa [bindAll] using h
    | cons v vs =>
      simp only [bindAll]
      apply ih
      simp only [look]
      split
      · rfl
      · exact h

theorem look_bindAll_insert {x y : Var} {w : Val B} (hne : x ≠ y) : ∀ {i : Nat} {xs : List Var}
    {vs : List (Val B)} {env : Env B}, i ≤ xs.length → xs.length = vs.length →
    look (bindAll env (insertAt i x xs) (insertAt i w vs)) y = look (bindAll env xs vs) y := by
  intro i
  induction i with
  | zero =>
    intro xs vs env _ _
    simp only [insertAt, bindAll]
    exact look_bindAll_congr (by simp [look, hne])
  | succ i ih =>
    intro xs vs env hi hl
    cases xs with
    | nil => simp at hi
    | cons a xs =>
      cases vs with
      | nil => simp at hl
      | cons v vs =>
        simp only [insertAt, bindAll]
        exact ih (by simpa using hi) (by simpa using hl)

theorem look_bindAll_insert_same {x : Var} {w : Val B} : ∀ {i : Nat} {xs : List Var}
    {vs : List (Val B)} {env : Env B}, x ∉ xs → i ≤ xs.length → xs.length = vs.length →
    look (bindAll env (insertAt i x xs) (insertAt i w vs)) x = some w := by
  intro i
  induction i with
  | zero =>
    intro xs vs env hx _ _
    simp only [insertAt, bindAll]
    rw [look_bindAll_not hx]; simp [look]
  | succ i ih =>
    intro xs vs env hx hi hl
    cases xs with
    | nil => simp at hi
    | cons a xs =>
      cases vs with
      | nil => simp at hl
      | cons v vs =>
        simp only [insertAt, bindAll]
        exact ih (fun h => hx (by simp [h])) (by simpa using hi) (by simpa using hl)

theorem insertAt_eq {α : Type} {a : α} : ∀ {i : Nat} {l : List α}, i ≤ l.length →
    l.take i ++ a :: l.drop i = insertAt i a l := by
  intro i
  induction i with
  | zero => intro l _; rfl
  | succ i ih =>
    intro l h
    cases l with
    | nil => simp at h
    | cons b l => simp only [List.take_succ_cons, List.drop_succ_cons, insertAt, List.cons_append]; rw [ih (by simpa using h)]

theorem insertAt_length {α : Type} {a : α} : ∀ {i : Nat} {l : List α}, (insertAt i a l).length = l.length + 1 := by
  intro i
  induction i with
  | zero => intro l; rfl
  | succ i ih =>
    intro l
    cases l with
    | nil => rfl
    | cons b l => simp [insertAt, ih]

theorem insertAt_map {α β : Type} {f : α → β} {a : α} : ∀ {i : Nat} {l : List α},
    (insertAt i a l).map f = insertAt i (f a) (l.map f) := by
  intro i
  induction i with
  | zero => intro l; rfl
  | succ i ih =>
    intro l
    cases l with
    | nil => rfl
    | cons b l => simp [insertAt, ih]

theorem updAll_cases {v v' : Var} : ∀ {xs ys : List Var} {m : PMap}, (m.updAll xs ys) v = some v' →
    (∃ i : Nat, xs[i]? = some v ∧ ys[i]? = some v') ∨ m v = some v' ∧ (xs.length = ys.length → v ∉ xs) := by
  intro xs
  induction xs with
  | nil => intro ys m h; right; simpa [PMap.updAll] using h
  | cons x xs ih =>
    intro ys m h
    cases ys with
    | nil => right; exact ⟨by simpa [PMap.updAll] using h, by simp⟩
    | cons y ys =>
      simp only [PMap.updAll] at h
      rcases ih h with ⟨i, h1, h2⟩ | ⟨h1, h2⟩
      · left; exact ⟨i + 1, by simpa using h1, by simpa using h2⟩
      · unfold PMap.upd at h1
        split at h1
        · next e => left; exact ⟨0, by simp [e], by simpa using h1⟩
        · next e =>
          right
          exact ⟨h1, fun hl => by
            simp only [List.mem_cons, not_or]
            exact ⟨e, h2 (by simpa using hl)⟩⟩

theorem eval_loads (S : Sem B σ) (p : Prog) (enter) (E : Option Var) (ev : Option (Val B)) {cst : Var} {k : Code}
    {cs : List (Val B)} {s : σ} :
    ∀ {gs : List Var} {i : Nat} {env : Env B}, look env cst = some (.data cs) → cst ∉ gs →
      gs.length + i = cs.length →
      eval S p enter E ev (loads cst i gs k) env s = eval S p enter E ev k (bindAll env gs (cs.drop i)) s := by
  intro gs
  induction gs with
  | nil => intro i env _ _ _; simp [loads, bindAll]
  | cons g gs ih =>
    intro i env h hc hl
    simp only [List.mem_cons, not_or] at hc
    simp only [List.length_cons] at hl
    have hi : i < cs.length := by omega
    simp only [loads, eval, looks, h, act, List.getElem?_eq_getElem hi, Act.andThen]
    rw [ih (by simp [look, Ne.symm hc.1, h]) hc.2 (by omega), List.drop_eq_getElem_cons hi]
    rfl

end Verif.Closure
