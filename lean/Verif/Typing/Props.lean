import Verif.Typing.Plain

/-!
# C75: a module that the type checker accepts is well typed
-/

namespace Verif.Typing
open Verif.Types Verif.Solver Verif.Scheme

/-! ## Programs that are accepted although they cannot be typed -/

/-- `(ps) ->{e} r` with `np` type parameters. -/
def fnSig (np : Nat) (ps : List Ty) (r : Ty) : PolyTy := ⟨np, [0], tFunc ps r ⟨[], some 0⟩⟩

/-- `enum Option(a) { None, Some(a) }`: the type 1, the constructors 0 and 1. -/
def optC : List PolyTy :=
  [⟨1, [], tNamed 1 [tBound 0]⟩, ⟨1, [], tFunc [tBound 0] (tNamed 1 [tBound 0]) ⟨[], none⟩⟩]

def base (fns : List Fn) (ms : List Method) : Prog :=
  { fns := fns, ctors := optC, methods := ms, str := 100, list := 101, arith := [], cmp := [] }

/-- `fn f() -> Int { true && false }` -/
def pAnd : Prog := base [⟨fnSig 0 [] tInt, false, [],
  some (.block [] (.bin true (.lit (.bool true)) (.lit (.bool false))))⟩] []

/-- `extern fn unwrap(o: Option(a)) -> a` and `fn g(o: Option(Int)) -> Bool { o.unwrap() }` -/
def pMethod : Prog := base
  [⟨fnSig 1 [tNamed 1 [tBound 0]] (tBound 0), false, [0], none⟩,
   ⟨fnSig 0 [tNamed 1 [tInt]] tBool, false, [7], some (.block [] (.meth (.loc 1 7) 5 []))⟩]
  [⟨5, 0, tFunc [tNamed 1 [tBound 0]] (tBound 0) ⟨[], some 0⟩⟩]

/-- `extern fn add(x: Int, y: Int) -> Int` and `fn g(x: Int) -> Int { x.add() }` -/
def pArity : Prog := base
  [⟨fnSig 0 [tInt, tInt] tInt, false, [0, 1], none⟩,
   ⟨fnSig 0 [tInt] tInt, false, [7], some (.block [] (.meth (.loc 1 7) 5 []))⟩]
  [⟨5, 0, tFunc [tInt, tInt] tInt ⟨[], some 0⟩⟩]

/-- `extern fn pair() -> #(Int, Int)` and
`fn g() -> Bool { case pair() { #(a, b) -> a } }` -/
def pTuple : Prog := base
  [⟨fnSig 0 [] (tTuple [tInt, tInt]), false, [], none⟩,
   ⟨fnSig 0 [] tBool, false, [],
    some (.block [] (.case (.call (.fn 0) []) [.mk (.tuple [.bind 1, .bind 2]) (.loc 1 1)]))⟩] []

/-- `extern fn none() -> Option(a)`, `extern fn add(x: Int, y: Int) -> Int` and
`fn f() -> Bool { case none() { Some(y) -> { let z = 1.add(y)  y }  None -> true } }` -/
def pWalks : Prog := base
  [⟨fnSig 1 [] (tNamed 1 [tBound 0]), false, [], none⟩,
   ⟨fnSig 0 [tInt, tInt] tInt, false, [0, 1], none⟩,
   ⟨fnSig 0 [] tBool, false, [], some (.block [] (.case (.call (.fn 0) [])
     [.mk (.ctor 1 [.bind 1])
        (.block [.bind (some 2) none (.meth (.lit (.int 1)) 5 [.loc 10 1])] (.loc 11 1)),
      .mk (.ctor 0 []) (.lit (.bool true))]))⟩]
  [⟨5, 1, tFunc [tInt, tInt] tInt ⟨[], some 0⟩⟩]

/-- `fn g() -> Bool { k(1) }` and `fn k(x) { x }` -/
def pOrder : Prog := base
  [⟨fnSig 0 [] tBool, false, [], some (.block [] (.call (.fn 1) [.lit (.int 1)]))⟩,
   ⟨fnSig 2 [tBound 0] (tBound 1), false, [7], some (.block [] (.loc 1 7))⟩] []

/-- `fn g() -> Bool { let inc = fn(x) { x + 1 }  inc(true) }`, where `+` on `Nat` is the extern
function 0. -/
def pLet : Prog := { base
    [⟨fnSig 0 [tNat, tNat] tNat, false, [0, 1], none⟩,
     ⟨fnSig 0 [] tBool, false, [],
      some (.block [.bind (some 3) none (.lam 20 [(4, none)] (.meth (.loc 2 4) 5 [.lit (.nat 1)]))]
        (.call (.loc 1 3) [.lit (.bool true)]))⟩]
    [⟨5, 0, tFunc [tNat, tNat] tNat ⟨[], some 0⟩⟩] with arith := [5] }

/-- Is the module accepted? -/
def accepted (P : Prog) (n : Nat) : Option Bool := (checkProg P n).map (fun x => x.1.ok)

theorem inst_exists (s : PolyTy) : ∃ τ, Inst s τ :=
  ⟨ev (fun _ => default) (List.replicate s.params default) s.body, fun _ => default,
    List.replicate s.params default, by simp, rfl⟩

/-- In a typable program every function is well typed at some type that its declaration allows. -/
theorem typable_fn {P : Prog} {ss : List PolyTy} (h : WellTyped P ss) (hr : Respects P ss) {f : Nat}
    {d : Fn} (hd : P.fns[f]? = some d) : ∃ τ, Inst d.sig τ ∧ FnTy (P.sig ss) d τ := by
  have hlt : f < ss.length := by
    rw [h.1]
    exact (List.getElem?_eq_some_iff.1 hd).1
  obtain ⟨τ, hτ⟩ := inst_exists ss[f]
  exact ⟨τ, hr f d _ hd (List.getElem?_eq_getElem hlt) τ hτ,
    h.2 f d _ hd (List.getElem?_eq_getElem hlt) τ hτ⟩

/-- A function is used at a type its declaration allows. -/
theorem sig_fn {P : Prog} {ss : List PolyTy} (hr : Respects P ss) {f : Nat} {d : Fn} {τ : S}
    (hd : P.fns[f]? = some d) (h : (P.sig ss).fn f τ) : Inst d.sig τ := by
  obtain ⟨s, hs, hi⟩ := h
  exact hr f d s hd hs τ hi

theorem fn_inj {a c : List S} {b d : S} : S.fn a b = S.fn c d ↔ a = c ∧ b = d := by
  simp only [S.fn, S.node.injEq, true_and]
  constructor
  · intro h
    have h1 := List.append_inj' h rfl
    simpa using h1
  · rintro ⟨rfl, rfl⟩; rfl

theorem evL_append (δ : UVar → S) (β : List S) (as bs : List Ty) :
    evL δ β (as ++ bs) = evL δ β as ++ evL δ β bs := by
  induction as with
  | nil => rfl
  | cons a as ih => simp [evL, ih]

theorem ev_tFunc (δ : UVar → S) (β : List S) (ps : List Ty) (r : Ty) (row : Row) :
    ev δ β (tFunc ps r row) = S.fn (evL δ β ps) (ev δ β r) := by
  simp [tFunc, ev, S.fn, evL_append, evL, head]

theorem inst_fnSig {np : Nat} {ps : List Ty} {r : Ty} {τ : S} (h : Inst (fnSig np ps r) τ) :
    ∃ δ β, τ = S.fn (evL δ β ps) (ev δ β r) := by
  obtain ⟨δ, β, _, rfl⟩ := h
  exact ⟨δ, β, ev_tFunc ..⟩

theorem sig_fnSig {P : Prog} {ss : List PolyTy} (hr : Respects P ss) {f : Nat} {np : Nat}
    {ps : List Ty} {r : Ty} {an : Bool} {xs : List Nat} {b : Option E} {as : List S} {τ : S}
    (hd : P.fns[f]? = some ⟨fnSig np ps r, an, xs, b⟩) (h : (P.sig ss).fn f (S.fn as τ)) :
    ∃ δ β, as = evL δ β ps ∧ τ = ev δ β r := by
  obtain ⟨δ, β, h⟩ := inst_fnSig (sig_fn hr hd h)
  exact ⟨δ, β, fn_inj.1 h⟩

theorem pAnd_untypable : ¬ Typable pAnd := by
  rintro ⟨ss, h, hr⟩
  obtain ⟨τ, hi, hf⟩ := typable_fn h hr (f := 0) rfl
  obtain ⟨δ, β, rfl⟩ := inst_fnSig hi
  obtain ⟨τs, ρ, h1, _, h2⟩ := hf _ rfl
  obtain ⟨rfl, rfl⟩ := fn_inj.1 h1
  simp [HasTy, Stmts, ev, S.bool, S.prim, head, tInt] at h2

theorem pMethod_untypable : ¬ Typable pMethod := by
  rintro ⟨ss, h, hr⟩
  obtain ⟨τ, hi, hf⟩ := typable_fn h hr (f := 1) rfl
  obtain ⟨δ, β, rfl⟩ := inst_fnSig hi
  obtain ⟨τs, ρ, h1, _, h2⟩ := hf _ rfl
  obtain ⟨rfl, rfl⟩ := fn_inj.1 h1
  simp only [HasTy, Stmts, HasTyL] at h2
  obtain ⟨ρ, f, τs, h3, h4, h5, h6⟩ := h2
  simp [TEnv.bindAll, TEnv.set, evL, ev, tNamed, head, tInt] at h3
  subst h3
  have h4' : f = 0 := by
    have : (some 0 : Option Nat) = some f := h4
    simpa using this.symm
  subst h4'
  obtain ⟨δ', β', h7, h8⟩ := sig_fnSig hr (P := pMethod) rfl h5
  simp [evL, ev, tNamed, head, tBound, tBool] at h7 h8
  rw [h7.1.symm] at h8
  cases h8

theorem pArity_untypable : ¬ Typable pArity := by
  rintro ⟨ss, h, hr⟩
  obtain ⟨τ, hi, hf⟩ := typable_fn h hr (f := 1) rfl
  obtain ⟨δ, β, rfl⟩ := inst_fnSig hi
  obtain ⟨τs, ρ, h1, _, h2⟩ := hf _ rfl
  obtain ⟨rfl, rfl⟩ := fn_inj.1 h1
  simp only [HasTy, Stmts, HasTyL] at h2
  obtain ⟨ρ, f, τs, h3, h4, h5, h6⟩ := h2
  simp [TEnv.bindAll, TEnv.set, evL, ev, head, tInt] at h3
  subst h3
  have h4' : f = 0 := by
    have : (some 0 : Option Nat) = some f := h4
    simpa using this.symm
  subst h4' h6
  obtain ⟨δ', β', h7, h8⟩ := sig_fnSig hr (P := pArity) rfl h5
  simp [evL] at h7

theorem pTuple_untypable : ¬ Typable pTuple := by
  rintro ⟨ss, h, hr⟩
  obtain ⟨τ, hi, hf⟩ := typable_fn h hr (f := 1) rfl
  obtain ⟨δ, β, rfl⟩ := inst_fnSig hi
  obtain ⟨τs, ρ, h1, _, h2⟩ := hf _ rfl
  obtain ⟨rfl, rfl⟩ := fn_inj.1 h1
  simp only [HasTy, Stmts, HasTyL, ArmsTy, PatTy, PatTyL] at h2
  obtain ⟨ρ, ⟨τs, h3, rfl⟩, ⟨b, ⟨τs, rfl, τ1, τs', b1, b2, rfl, rfl, rfl, τ2, τs'', b3, b4, rfl, rfl,
    rfl, rfl, rfl⟩, h5⟩, _⟩ := h2
  obtain ⟨δ', β', h7, h8⟩ := sig_fnSig hr (P := pTuple) rfl h3
  simp [evL, ev, tTuple, tInt, head, S.tuple] at h8
  obtain ⟨rfl, rfl⟩ := h8
  simp [TEnv.bindAll, TEnv.set, ev, tBool, evL, head] at h5

theorem pWalks_untypable : ¬ Typable pWalks := by
  rintro ⟨ss, h, hr⟩
  obtain ⟨τ, hi, hf⟩ := typable_fn h hr (f := 2) rfl
  obtain ⟨δ, β, rfl⟩ := inst_fnSig hi
  obtain ⟨τs, ρ, h1, _, h2⟩ := hf _ rfl
  obtain ⟨rfl, rfl⟩ := fn_inj.1 h1
  simp only [HasTy, Stmts, HasTyL, ArmsTy, PatTy, PatTyL] at h2
  obtain ⟨ρ, ⟨τs, h3, rfl⟩, ⟨b, hb, T, _, h4, h5⟩, _⟩ := h2
  rcases hb with ⟨hb, _⟩ | ⟨τs, hb, τ1, τs', b1, b2, rfl, rfl, rfl, rfl, rfl⟩
  · cases hb
  simp [TEnv.bindAll, TEnv.set, ev, tBool, evL, head] at h5
  subst h5
  rename_i hT
  obtain ⟨τ, hT⟩ := hT
  obtain ⟨⟨ρ', f, τs, rfl, h6, h7, τ2, τs2, rfl, h8, rfl⟩, _⟩ := h4 τ hT
  simp [TEnv.bindAll, TEnv.set] at h8
  subst h8
  have h6' : f = 1 := by
    have : (some 1 : Option Nat) = some f := h6
    simpa using this.symm
  subst h6'
  obtain ⟨δ', β', h9, _⟩ := sig_fnSig hr (P := pWalks) rfl h7
  simp [evL, ev, tInt, head, Sig.lit] at h9

theorem pOrder_untypable : ¬ Typable pOrder := by
  rintro ⟨ss, h, hr⟩
  obtain ⟨τ, hi, hf⟩ := typable_fn h hr (f := 0) rfl
  obtain ⟨δ, β, rfl⟩ := inst_fnSig hi
  obtain ⟨τs, ρ, h1, _, h2⟩ := hf _ rfl
  obtain ⟨rfl, rfl⟩ := fn_inj.1 h1
  simp only [HasTy, Stmts, HasTyL] at h2
  obtain ⟨τs, ⟨s, hs, hi⟩, τ1, τs', rfl, rfl, rfl⟩ := h2
  obtain ⟨τs, ρ, h3, h4, h5⟩ := h.2 1 _ s rfl hs _ hi _ rfl
  obtain ⟨rfl, rfl⟩ := fn_inj.1 h3
  simp [HasTy, Stmts, TEnv.bindAll, TEnv.set, ev, tBool, head, evL, Sig.lit, S.prim] at h5

theorem pLet_untypable : ¬ Typable pLet := by
  rintro ⟨ss, h, hr⟩
  obtain ⟨τ, hi, hf⟩ := typable_fn h hr (f := 1) rfl
  obtain ⟨δ, β, rfl⟩ := inst_fnSig hi
  obtain ⟨τs, ρ, h1, _, h2⟩ := hf _ rfl
  obtain ⟨rfl, rfl⟩ := fn_inj.1 h1
  simp only [HasTy, Stmts, HasTyL] at h2
  obtain ⟨T, _, h3, τs, h4, τ1, τs', rfl, rfl, rfl⟩ := h2
  simp [TEnv.set] at h4
  obtain ⟨⟨τs, ρ, h5, _, ρ', f, τs2, h6, h7, h8, _⟩, _⟩ := h3 _ h4
  obtain ⟨rfl, rfl⟩ := fn_inj.1 h5
  simp [TEnv.bindAll, TEnv.set, Sig.lit] at h6
  subst h6
  have h7' : (none : Option Nat) = some f := h7
  cases h7'

/-- C75 (violated): `&&` and `||` have any type as the value of a block. -/
theorem C75_logic_operator_violated : accepted pAnd 30 = some true ∧ ¬ Typable pAnd :=
  ⟨by decide +kernel, pAnd_untypable⟩

/-- C75 (violated): the result of a generic method is not connected to its receiver. -/
theorem C75_generic_method_violated : accepted pMethod 30 = some true ∧ ¬ Typable pMethod :=
  ⟨by decide +kernel, pMethod_untypable⟩

/-- C75 (violated): a method may be called without its arguments. -/
theorem C75_method_arity_violated : accepted pArity 30 = some true ∧ ¬ Typable pArity :=
  ⟨by decide +kernel, pArity_untypable⟩

/-- C75 (violated): the variables of a tuple pattern matched against the result of a call have any
type. -/
theorem C75_tuple_pattern_violated : accepted pTuple 30 = some true ∧ ¬ Typable pTuple :=
  ⟨by decide +kernel, pTuple_untypable⟩

/-- C75 (violated): a variable may have one type for the result of a function and another one for
the arguments of its method calls. -/
theorem C75_two_walks_violated : accepted pWalks 30 = some true ∧ ¬ Typable pWalks :=
  ⟨by decide +kernel, pWalks_untypable⟩

/-- C75 (violated): a function that is called before its definition may be called at any type. -/
theorem C75_use_before_definition_violated :
    accepted pOrder 30 = some true ∧ ¬ Typable pOrder :=
  ⟨by decide +kernel, pOrder_untypable⟩

/-- C75 (violated): a `let`-bound function that uses an operator on its parameter may be called at
any type. -/
theorem C75_let_method_violated : accepted pLet 9 = some true ∧ ¬ Typable pLet :=
  ⟨by decide +kernel, pLet_untypable⟩

/-! ## What acceptance means nevertheless -/

/-- `fn id(x: a) -> a { x }` and
`fn g(o: Option(Int)) -> Int { let y = id(1)  case o { Some(x) -> id(x)  None -> y } }` -/
def pPlain : Prog := base
  [⟨fnSig 1 [tBound 0] (tBound 0), false, [7], some (.block [] (.loc 1 7))⟩,
   ⟨fnSig 0 [tNamed 1 [tInt]] tInt, false, [8],
    some (.block [.bind (some 9) none (.call (.fn 0) [.lit (.int 1)])]
     (.case (.loc 2 8) [.mk (.ctor 1 [.bind 4]) (.call (.fn 0) [.loc 3 4]),
       .mk (.ctor 0 []) (.loc 4 9)]))⟩] []

/-- `fn first(x: a, y: a) -> a { x }`, `extern fn add(x: Int, y: Int) -> Int` and
`fn g(x: Int) -> Int { first(x, 2).add(1) }` -/
def pMeth : Prog := base
  [⟨fnSig 1 [tBound 0, tBound 0] (tBound 0), false, [7, 8], some (.block [] (.loc 1 7))⟩,
   ⟨fnSig 0 [tInt, tInt] tInt, false, [0, 1], none⟩,
   ⟨fnSig 0 [tInt] tInt, false, [8], some (.block []
     (.meth (.call (.fn 0) [.loc 2 8, .lit (.int 2)]) 5 [.lit (.int 1)]))⟩]
  [⟨5, 1, tFunc [tInt, tInt] tInt ⟨[], some 0⟩⟩]

theorem wfFn_fnSig {np : Nat} {ps : List Ty} {r : Ty} {an : Bool} {xs : List Nat} {b : Option E}
    (h1 : OkL np ps) (h2 : Ok np r) (h3 : ps.length = xs.length)
    (h4 : ∀ e, b = some e → (∃ ss v, e = .block ss v) ∧ e.anns = [] ∧ e.nodes.Nodup) :
    WfFn ⟨fnSig np ps r, an, xs, b⟩ where
  sig := by
    simp only [fnSig, tFunc, Ok, OkHead, okL_iff]
    refine ⟨trivial, ?_, by simp, by simp⟩
    intro t ht
    rcases List.mem_append.1 ht with ht | ht
    · exact okL_iff.1 h1 t ht
    · rw [List.mem_singleton.1 ht]; exact h2
  arity := ⟨_, _, _, _, rfl, by simp [h3]⟩
  block e he := (h4 e he).1
  anns e he a ha := by rw [(h4 e he).2.1] at ha; cases ha
  nodes e he := (h4 e he).2.2

theorem optC_ok : ∀ s ∈ optC, Ok s.params s.body := by
  simp [optC, Ok, OkL, OkHead, tNamed, tBound, tFunc]

theorem optC_heads : ∀ s ∈ optC, CtorHead s.body := by
  simp [optC, CtorHead, tNamed, tFunc]

theorem pPlain_wf : pPlain.Wf := by
  refine ⟨?_, optC_ok, optC_heads⟩
  simp only [pPlain, base, List.mem_cons, List.not_mem_nil, or_false, forall_eq_or_imp, forall_eq]
  refine ⟨wfFn_fnSig ?_ ?_ rfl ?_, wfFn_fnSig ?_ ?_ rfl ?_⟩ <;>
    simp [Ok, OkL, OkHead, tNamed, tBound, tInt, E.anns, annsSS, annsL, annsArms, E.nodes, nodesSS,
      nodesL, nodesArms]

theorem pMeth_wf : pMeth.Wf := by
  refine ⟨?_, optC_ok, optC_heads⟩
  simp only [pMeth, base, List.mem_cons, List.not_mem_nil, or_false, forall_eq_or_imp, forall_eq]
  refine ⟨wfFn_fnSig ?_ ?_ rfl ?_, wfFn_fnSig ?_ ?_ rfl ?_, wfFn_fnSig ?_ ?_ rfl ?_⟩ <;>
    simp [Ok, OkL, OkHead, tNamed, tBound, tInt, E.anns, annsSS, annsL, annsArms, E.nodes, nodesSS,
      nodesL, nodesArms]

theorem pPlain_plain : pPlain.plain := by
  intro d hd b hb
  simp only [pPlain, base, List.mem_cons, List.not_mem_nil, or_false] at hd
  rcases hd with rfl | rfl <;> simp only [Option.some.injEq] at hb <;> subst hb <;>
    simp [E.plain, plainSS, plainL, plainArms, Pat.plain, plainPats]

/-- C75 (partial): in an accepted module in which the checker dropped no connection between types,
every function has the types of its final scheme, which are types that its declaration allows.  Its
body is typed with the final schemes of the functions before it and the declared types of the
others.  Missing: the connections that the checker does drop, and functions used before they are
checked. -/
theorem C75_accepted_functions_partial (P : Prog) (hP : P.Wf) (n : Nat) (ss : List PolyTy)
    (h : checkProg P n = some (⟨true, false⟩, ss)) :
    ss.length = P.fns.length ∧ Respects P ss ∧
      ∀ (f : Nat) d s, P.fns[f]? = some d → ss[f]? = some s → ∀ τ, Inst s τ →
        FnTy (P.sig (ss.take f ++ (P.fns.drop f).map Fn.sig)) d τ := by
  obtain ⟨h1, h2⟩ := accepted_fns hP h rfl (.inl rfl)
  exact ⟨h1, fun f d s hd hs τ hτ => (h2 f d s hd hs τ hτ).1, fun f d s hd hs τ hτ => (h2 f d s hd hs τ hτ).2⟩

/-- The outcome of checking, without the schemes. -/
def outcome (P : Prog) (n : Nat) : Option (Bool × Bool) := (checkProg P n).map (fun x => (x.1.ok, x.1.lost))

theorem outcome_some {P : Prog} {n : Nat} {a b : Bool} (h : outcome P n = some (a, b)) :
    ∃ ss, checkProg P n = some (⟨a, b⟩, ss) := by
  simp only [outcome, Option.map_eq_some_iff] at h
  obtain ⟨⟨⟨a', b'⟩, ss⟩, h1, h2⟩ := h
  simp only [Prod.mk.injEq] at h2
  obtain ⟨rfl, rfl⟩ := h2
  exact ⟨ss, h1⟩

/-- A module with a method call whose receiver is the result of a generic function. -/
example : pMeth.Wf ∧ ∃ ss, checkProg pMeth 5 = some (⟨true, false⟩, ss) :=
  ⟨pMeth_wf, outcome_some (by decide +kernel)⟩

/-- C75 (partial): the same for every accepted module without `&&`, `||`, method calls, tuple patterns
and list patterns. -/
theorem C75_plain_functions_partial (P : Prog) (hP : P.Wf) (hp : P.plain) (n : Nat) (v : Verdict)
    (ss : List PolyTy) (h : checkProg P n = some (v, ss)) (hv : v.ok = true) :
    ss.length = P.fns.length ∧ Respects P ss ∧
      ∀ (f : Nat) d s, P.fns[f]? = some d → ss[f]? = some s → ∀ τ, Inst s τ →
        FnTy (P.sig (ss.take f ++ (P.fns.drop f).map Fn.sig)) d τ := by
  obtain ⟨h1, h2⟩ := accepted_fns hP h hv (.inr hp)
  exact ⟨h1, fun f d s hd hs τ hτ => (h2 f d s hd hs τ hτ).1, fun f d s hd hs τ hτ => (h2 f d s hd hs τ hτ).2⟩

/-- A module with a generic function, a `let` and a `case`. -/
example : pPlain.Wf ∧ pPlain.plain ∧ ∃ ss, checkProg pPlain 4 = some (⟨true, false⟩, ss) :=
  ⟨pPlain_wf, pPlain_plain, outcome_some (by decide +kernel)⟩

/-- C75 (partial): an accepted module is well typed if nothing was dropped (which is the case for
plain modules) and a function used before it is checked turns out to have all its declared types. -/
theorem C75_accepted_modules_partial (P : Prog) (hP : P.Wf) (n : Nat) (v : Verdict)
    (ss : List PolyTy) (h : checkProg P n = some (v, ss)) (hv : v.ok = true)
    (hl : v.lost = false ∨ P.plain) (hh : Honest P ss) : WellTyped P ss ∧ Respects P ss := by
  obtain ⟨h1, h2⟩ := accepted_fns hP h hv hl
  exact honest_typed h1 h2 hh

/-- In a module whose functions use only functions before them there is nothing to turn out. -/
example (ss : List PolyTy) : Honest pMeth ss := by
  intro i f d b d' s hd hb hif hm hd' hs
  match i, f with
  | 0, f =>
    simp only [pMeth, base, List.getElem?_cons_zero, Option.some.injEq] at hd
    subst hd
    simp only [Option.some.injEq] at hb
    subst hb
    simp [E.mentions, mentionsSS] at hm
  | 1, f =>
    simp only [pMeth, base, List.getElem?_cons_succ, List.getElem?_cons_zero, Option.some.injEq] at hd
    subst hd
    cases hb
  | 2, f =>
    simp only [pMeth, base, List.getElem?_cons_succ, List.getElem?_cons_zero, Option.some.injEq] at hd
    subst hd
    simp only [Option.some.injEq] at hb
    subst hb
    simp [E.mentions, mentionsSS, mentionsL, pMeth, base] at hm
    omega
  | i + 3, f => simp [pMeth, base] at hd

/-- C75 (partial): an accepted plain module is well typed if every function that is used before it is
checked, or in its own body, is declared with all its types. -/
theorem C75_annotated_modules_partial (P : Prog) (hP : P.Wf) (hp : P.plain) (ha : Annotated P) (n : Nat)
    (v : Verdict) (ss : List PolyTy) (h : checkProg P n = some (v, ss)) (hv : v.ok = true) :
    Typable P := by
  obtain ⟨h1, h2⟩ := accepted_fns hP h hv (.inr hp)
  refine ⟨ss, honest_typed h1 h2 ?_⟩
  intro i f d b d' s hd hb hif hm hd' hs τ hτ
  obtain ⟨τ', hτ'⟩ := inst_exists s
  rw [ha i f d b d' hd hb hif hm hd' τ τ' hτ (h2 f d' s hd' hs τ' hτ').1]
  exact hτ'

/-- `fn f(o: Option(Int)) -> Int { case o { Some(y) -> f(None)  None -> 0 } }` -/
def pRec : Prog := base
  [⟨fnSig 0 [tNamed 1 [tInt]] tInt, false, [8], some (.block []
     (.case (.loc 2 8) [.mk (.ctor 1 [.bind 4]) (.call (.fn 0) [.cons 0 []]),
       .mk (.ctor 0 []) (.lit (.int 0))]))⟩] []

theorem pPlain_annotated : Annotated pPlain := by
  intro i f d b d' hd hb hif hm hd'
  match i, f with
  | 0, f =>
    simp only [pPlain, base, List.getElem?_cons_zero, Option.some.injEq] at hd
    subst hd
    simp only [Option.some.injEq] at hb
    subst hb
    simp [E.mentions, mentionsSS] at hm
  | 1, 0 => omega
  | 1, f + 1 =>
    simp only [pPlain, base, List.getElem?_cons_succ, List.getElem?_cons_zero, Option.some.injEq] at hd
    subst hd
    simp only [Option.some.injEq] at hb
    subst hb
    simp [E.mentions, mentionsSS, mentionsL, mentionsArms] at hm
  | i + 2, f => simp [pPlain, base] at hd

theorem pRec_annotated : Annotated pRec := by
  intro i f d b d' hd hb hif hm hd'
  match f with
  | 0 =>
    simp only [pRec, base, List.getElem?_cons_zero, Option.some.injEq] at hd'
    subst hd'
    intro τ τ' h h'
    obtain ⟨δ, β, rfl⟩ := inst_fnSig h
    obtain ⟨δ', β', rfl⟩ := inst_fnSig h'
    simp [evL, ev, tNamed, tInt, head]
  | f + 1 => simp [pRec, base] at hd'

theorem pRec_wf : pRec.Wf := by
  refine ⟨?_, optC_ok, optC_heads⟩
  simp only [pRec, base, List.mem_cons, List.not_mem_nil, or_false, forall_eq]
  refine wfFn_fnSig ?_ ?_ rfl ?_ <;>
    simp [Ok, OkL, OkHead, tNamed, tInt, E.anns, annsSS, annsL, annsArms, E.nodes, nodesSS,
      nodesL, nodesArms]

theorem pRec_plain : pRec.plain := by
  intro d hd b hb
  simp only [pRec, base, List.mem_cons, List.not_mem_nil, or_false] at hd
  subst hd
  simp only [Option.some.injEq] at hb
  subst hb
  simp [E.plain, plainSS, plainL, plainArms, Pat.plain, plainPats]

example : pPlain.Wf ∧ pPlain.plain ∧ Annotated pPlain ∧ ∃ ss, checkProg pPlain 4 = some (⟨true, false⟩, ss) :=
  ⟨pPlain_wf, pPlain_plain, pPlain_annotated, outcome_some (by decide +kernel)⟩

example : pRec.Wf ∧ pRec.plain ∧ Annotated pRec ∧ ∃ ss, checkProg pRec 5 = some (⟨true, false⟩, ss) :=
  ⟨pRec_wf, pRec_plain, pRec_annotated, outcome_some (by decide +kernel)⟩

end Verif.Typing
