import Verif.WasmGc.Emit

/-! Typed operations emit instructions that pass validation. -/

namespace Verif.WasmGc

open Spec

/-- Typing of an indexed operation, given the types of the values before it and the
signatures of the functions. -/
def IWt (D : Decls) (ix : List (Ty × Nat)) (sigs : List (List Ty × Ty)) (result : Ty) (env : List Ty) :
    IOp → Prop
  | .const _ => True
  | .add a b => (env[a]? = some .i32 ∨ env[a]? = some .i1) ∧ (env[b]? = some .i32 ∨ env[b]? = some .i1)
  | .structNew rty idx args =>
    ∃ t, Declared t ∧ RefersTo D rty t ∧ ix.lookup t = some idx ∧ args.length = D.arity t ∧
      ∀ a ∈ args, a < env.length
  | .structGet rty idx r f =>
    ∃ t, Declared t ∧ (∃ ty, env[r]? = some ty ∧ RefersTo D ty t) ∧ ix.lookup t = some idx ∧
      f < D.arity t ∧ readable rty = true
  | .structSet idx r v f =>
    ∃ t, Declared t ∧ (∃ ty, env[r]? = some ty ∧ RefersTo D ty t) ∧ ix.lookup t = some idx ∧
      f < D.arity t ∧ v < env.length
  | .refNull rty tgt idx =>
    (∃ t k, Declared t ∧ RefersTo D rty t ∧ ix.lookup t = some k ∧ idx = some k) ∨
      (idx = none ∧ rty = tgt ∧ (tgt = .anyref ∨ tgt = .structref))
  | .refCast rty tgt idx r =>
    ((∃ t k, Declared t ∧ RefersTo D rty t ∧ ix.lookup t = some k ∧ idx = some k) ∨
      (idx = none ∧ rty = tgt ∧ (tgt = .anyref ∨ tgt = .structref))) ∧
      ∃ ty, env[r]? = some ty ∧ isRef ty = true
  | .refTest _ idx r =>
    (∃ t k, Declared t ∧ ix.lookup t = some k ∧ idx = some k) ∧
      ∃ ty, env[r]? = some ty ∧ isRef ty = true
  | .call k rty args =>
    ∃ ps, sigs[k]? = some (ps, rty) ∧
      List.Forall₂ (fun a p => ∃ ty, env[a]? = some ty ∧ Assignable ty p) args ps
  | .ret vs =>
    (result = .nil ∧ ∀ v ∈ vs, v < env.length) ∨
      (result ≠ .nil ∧ ∃ v ty, vs = [v] ∧ env[v]? = some ty ∧ Assignable ty result)

/-- Typing of the rest of a body. -/
def IBody (D : Decls) (ix : List (Ty × Nat)) (sigs : List (List Ty × Ty)) (result : Ty) :
    List Ty → List IOp → Prop
  | _, [] => False
  | env, op :: ops =>
    IWt D ix sigs result env op ∧
    match op, ops with
    | .ret _, [] => True
    | .ret _, _ :: _ => False
    | op, ops => IBody D ix sigs result (env ++ op.resultTy.toList) ops

theorem tyAt_of {tys : List Ty} {r : Nat} {ty : Ty} (h : tys[r]? = some ty) : tyAt tys r = ty := by
  simp [tyAt, h]

theorem prefix_get {env rest : List Ty} {r : Nat} {ty : Ty} (h : env[r]? = some ty) :
    (env ++ rest)[r]? = some ty := by
  obtain ⟨hlt, _⟩ := List.getElem?_eq_some_iff.1 h
  rw [List.getElem?_append_left hlt]; exact h

theorem IWt.iok {D : Decls} {ix : List (Ty × Nat)} {sigs : List (List Ty × Ty)} {result : Ty}
    {env rest : List Ty} {op : IOp} (h : IWt D ix sigs result env op) : IOk D ix (env ++ rest) op := by
  cases op with
  | structNew rty idx args => obtain ⟨t, h1, h2, h3, h4, _⟩ := h; exact ⟨t, h1, h2, h3, h4⟩
  | structGet rty idx r f =>
    obtain ⟨t, h1, ⟨ty, e, h2⟩, h3, h4, _⟩ := h
    exact ⟨t, h1, by rw [tyAt_of (prefix_get e)]; exact h2, h3, h4⟩
  | structSet idx r v f =>
    obtain ⟨t, h1, ⟨ty, e, h2⟩, h3, h4, _⟩ := h
    exact ⟨t, h1, by rw [tyAt_of (prefix_get e)]; exact h2, h3, h4⟩
  | refNull rty tgt idx =>
    rcases h with ⟨t, k, h1, h2, h3, rfl⟩ | ⟨rfl, _⟩
    · exact ⟨t, h1, h2, h3⟩
    · trivial
  | refCast rty tgt idx r =>
    rcases h.1 with ⟨t, k, h1, h2, h3, rfl⟩ | ⟨rfl, _⟩
    · exact ⟨t, h1, h2, h3⟩
    · trivial
  | refTest tgt idx r =>
    obtain ⟨⟨t, k, h1, h2, rfl⟩, _⟩ := h
    exact ⟨t, h1, h2⟩
  | const _ | add _ _ | call _ _ _ | ret _ => trivial

theorem IBody.iok {D : Decls} {ix : List (Ty × Nat)} {sigs : List (List Ty × Ty)} {result : Ty} :
    ∀ {ops : List IOp} {env : List Ty}, IBody D ix sigs result env ops →
      ∀ op ∈ ops, IOk D ix (env ++ ops.filterMap IOp.resultTy) op
  | [], env, h, op, hm => by simp at hm
  | o :: ops, env, h, op, hm => by
    unfold IBody at h
    obtain ⟨h1, h2⟩ := h
    rcases List.mem_cons.1 hm with rfl | hm'
    · exact h1.iok
    · split at h2
      · simp at hm'
      · exact h2.elim
      · have := IBody.iok h2 op hm'
        rw [List.append_assoc] at this
        convert this using 2
        cases hr : o.resultTy <;> simp [hr]

/-! ## One operation -/

theorem check_add (C : Ctx) (s : List VT) (set : List Nat) : check C (.run s set) .i32Add =
    (popAll C.defs s [.i32, .i32]).map fun s => .run (.i32 :: s) set := rfl

theorem check_new {C : Ctx} {t : Nat} {fs : List (VT × Bool)} (h : C.defs[t]? = some (.struct fs))
    (s : List VT) (set : List Nat) : check C (.run s set) (.structNew t) =
      (popAll C.defs s (fs.map (·.1))).map fun s => .run (.ref false (.concrete t) :: s) set := by
  simp only [check, h]

theorem check_getf {C : Ctx} {t f : Nat} {fs : List (VT × Bool)} {v : VT} {b : Bool}
    (h : C.defs[t]? = some (.struct fs)) (h' : fs[f]? = some (v, b))
    (s : List VT) (set : List Nat) : check C (.run s set) (.structGet t f) =
      (popAll C.defs s [.ref true (.concrete t)]).map fun s => .run (v :: s) set := by
  simp only [check, h, h']

theorem check_setf {C : Ctx} {t f : Nat} {fs : List (VT × Bool)} {v : VT}
    (h : C.defs[t]? = some (.struct fs)) (h' : fs[f]? = some (v, true))
    (s : List VT) (set : List Nat) : check C (.run s set) (.structSet t f) =
      (popAll C.defs s [.ref true (.concrete t), v]).map fun s => .run s set := by
  simp only [check, h, h']

theorem check_null {C : Ctx} {h : Heap} (hh : inAny C.defs h = true) (s : List VT) (set : List Nat) :
    check C (.run s set) (.refNull h) = some (.run (.ref true h :: s) set) := by
  simp only [check, hh, or_true, if_true]

theorem check_cast {C : Ctx} {h : Heap} (hh : inAny C.defs h = true) {v : VT}
    (hv : vtLe C.defs v (.ref true .any) = true) (s : List VT) (set : List Nat) (n : Bool) :
    check C (.run (v :: s) set) (.refCast n h) = some (.run (.ref n h :: s) set) := by
  simp only [check, hh, if_true, popAll_one hv, Option.map_some]

theorem check_test {C : Ctx} {h : Heap} (hh : inAny C.defs h = true) {v : VT}
    (hv : vtLe C.defs v (.ref true .any) = true) (s : List VT) (set : List Nat) (n : Bool) :
    check C (.run (v :: s) set) (.refTest n h) = some (.run (.i32 :: s) set) := by
  simp only [check, hh, if_true, popAll_one hv, Option.map_some]

theorem check_call {C : Ctx} {k : Nat} {ps rs : List VT} (h : C.fns[k]? = some (ps, rs))
    (s : List VT) (set : List Nat) : check C (.run s set) (.call k) =
      (popAll C.defs s ps).map fun s => .run (rs.reverse ++ s) set := by
  simp only [check, h]

theorem check_ret (C : Ctx) (s : List VT) (set : List Nat) : check C (.run s set) .ret =
    (popAll C.defs s C.results).map fun _ => .done := rfl


section

variable {D : Decls} {g : List (Fn GOp)} {c : Coll} {defs : List GcDef}

/-- The validation context of a function fits the IR types of its values. -/
structure FnCtx (c : Coll) (defs : List GcDef) (sigs : List (List Ty × Ty)) (result : Ty)
    (tys : List Ty) (C : Ctx) : Prop where
  defs : C.defs = defs
  locals : List.Forall₂ (fun t v => valtype c.map t = some v) tys C.locals
  results : resultVTs c.map result = some C.results
  fns : List.Forall₂ (fun (s : List Ty × Ty) w => List.Forall₂ (fun t v => valtype c.map t = some v) s.1 w.1 ∧
    resultVTs c.map s.2 = some w.2) sigs C.fns
  nominal : ∀ ty ∈ tys, nominal ty = true → Known c ty

variable {sigs : List (List Ty × Ty)} {result : Ty} {tys : List Ty} {C : Ctx}

theorem FnCtx.local_ (hc : FnCtx c defs sigs result tys C) {k : Nat} {ty : Ty} (h : tys[k]? = some ty) :
    ∃ v, C.locals[k]? = some v ∧ valtype c.map ty = some v :=
  forall₂_get hc.locals k ty h

/-- The emitted instructions take one state to another, keep what is set, and set the
local of the result. -/
def Goes (C : Ctx) (set : List Nat) (s : List VT) (is : List Instr) (dst : Nat) (res : Option Ty) : Prop :=
  ∃ s' set', checks C (.run s set) is = some (.run s' set') ∧ (∀ k ∈ set, k ∈ set') ∧
    ∀ t, res = some t → t ≠ .nil → dst ∈ set'

theorem goes_result {C : Ctx} {set : List Nat} {s s1 : List VT} {is : List Instr} {dst : Nat} {rty : Ty}
    {v w : VT} (h : checks C (.run s set) is = some (.run (v :: s1) set)) (hw : C.locals[dst]? = some w)
    (hl : vtLe C.defs v w = true) : Goes C set s (is ++ setResult rty dst) dst (some rty) := by
  obtain ⟨s', set', h1, h2, h3⟩ := checks_setResult (rty := rty) (s := s1) (set := set) hw hl
  refine ⟨s', set', by rw [checks_append, h]; exact h1, h2, ?_⟩
  intro t e hn
  simp only [Option.some.injEq] at e
  subst e
  exact h3 hn

theorem gets_spec (hc : FnCtx c defs sigs result tys C) {n : Nat} {args : List Nat}
    (ha : ∀ a ∈ args, a < n) (hn : n ≤ tys.length) :
    ∃ vs, List.Forall₂ (fun a v => a < n ∧ C.locals[a]? = some v) args vs ∧
      List.Forall₂ (fun a v => ∃ ty, tys[a]? = some ty ∧ valtype c.map ty = some v) args vs := by
  induction args with
  | nil => exact ⟨[], .nil, .nil⟩
  | cons a args ih =>
    obtain ⟨vs, h1, h2⟩ := ih fun x hx => ha x (by simp [hx])
    have hlt := ha a (by simp)
    obtain ⟨ty, hty⟩ : ∃ ty, tys[a]? = some ty := ⟨tys[a]'(by omega), by simp⟩
    obtain ⟨v, hv, hv'⟩ := hc.local_ hty
    exact ⟨v :: vs, .cons ⟨hlt, hv⟩ h1, .cons ⟨ty, hty, hv'⟩ h2⟩

theorem refers_shape {ty t : Ty} (ht : Declared t) (hr : RefersTo D ty t) :
    ty ≠ .anyref ∧ ty ≠ .structref ∧ ty ≠ .nil := by
  rcases refersTo_nominal ht hr with ⟨n, l, rfl, _⟩ | ⟨n, rfl⟩ | ⟨n, l, tag, rfl⟩ <;> simp

theorem castNullable_true {info : Info} {rty : Ty} {h : Heap} (hv : valtype info.map rty = some (.ref true h)) :
    castNullable info rty = true := by
  simp [castNullable, hv]

/-- Reading a field: what follows `struct.get` makes the value fit its local. -/
theorem Final.read (h : Final D g c defs) (hCd : C.defs = defs) {rty F : Ty} {v vF : VT} {idx field : Nat}
    (h9 : firstUser ≤ idx) (hs : Sub (norm rty) F) (hr : readable rty = true)
    (hv : valtype c.map rty = some v) (hF : valtype c.map F = some vF)
    (hfv : fieldVT defs idx field = some vF) (s : List VT) (set : List Nat) :
    ∃ v', checks C (.run (vF :: s) set) (afterGet { defs := defs, map := c.map } rty idx field) =
      some (.run (v' :: s) set) ∧ vtLe C.defs v' v = true := by
  have hidx : idx ≠ 3 := by simp only [firstUser] at h9; omega
  rw [hCd]
  rcases hs with rfl | ⟨rfl, hc⟩
  · -- the field has the type read
    have hsame : vF = v := by
      have : norm rty = rty ∨ ∃ l, rty = .struct "_closure" l := by
        cases rty
        case struct n l =>
          by_cases e : n = "_closure"
          · exact .inr ⟨l, by rw [e]⟩
          · exact .inl (by simp [norm, e])
        all_goals first
          | exact .inl rfl
          | simp [readable] at hr
      rcases this with e | ⟨l, rfl⟩
      · rw [e, hv] at hF; simpa using hF.symm
      · simp only [norm, if_true] at hF
        rw [h.valtype_closure] at hF hv
        simp only [Option.some.injEq] at hF hv
        rw [← hF, ← hv]
    subst hsame
    refine ⟨vF, ?_, vtLe_refl _⟩
    have h1 : ¬ (rty = .anyref ∧ fieldVT defs idx field = some .i64) := by
      rintro ⟨rfl, e⟩
      rw [h.valtype_anyref] at hv
      rw [hfv] at e
      simp_all
    unfold afterGet
    rw [if_neg h1]
    split
    · rename_i hc
      rw [hfv] at hc
      have : vF = .ref true .any := by simpa using hc.1
      subst this
      simp only [hv, checks]
    · rfl
  · rw [h.valtype_anyref] at hF
    simp only [Option.some.injEq] at hF
    subst hF
    have h1 : ¬ (rty = .anyref ∧ fieldVT defs idx field = some .i64) := by
      rintro ⟨_, e⟩; rw [hfv] at e; simp at e
    unfold afterGet
    rw [if_neg h1, if_pos ⟨hfv, fun e => hidx e.1⟩]
    -- the types read through `anyref`
    have hshape : (∃ n l, rty = .struct n l) ∨ (∃ n l, rty = .enum n l) ∨ rty = .arrayref := by
      cases rty <;> simp_all [norm, anyCompat, readable]
    have hv' : v = .ref true .any ∨ ∃ i, v = .ref true (.concrete i) ∧ i < defs.length := by
      rcases valtype_cases hv with ⟨i, hi, rfl, hne⟩ | hv
      · exact .inr ⟨i, rfl, h.lookup_lt hi hne⟩
      · rcases hshape with ⟨n, l, rfl⟩ | ⟨n, l, rfl⟩ | rfl
        · simp only [valtype, List.lookup] at hv
          split at hv <;> simp only [Option.some.injEq] at hv
          · exact .inr ⟨4, hv.symm, by rw [h.length]; omega⟩
          · exact .inl hv.symm
        · simp only [valtype, List.lookup, Option.some.injEq] at hv
          exact .inl hv.symm
        · have := ‹valtype c.map Ty.arrayref = some v›
          rw [valtype_lookup h.arr (.inr (.inr rfl))] at this
          simp only [Option.some.injEq] at this
          exact .inr ⟨6, this.symm, by rw [h.length]; omega⟩
    rcases hv' with rfl | ⟨i, rfl, hi⟩
    · simp only [hv]
      exact ⟨.ref true .any, rfl, vtLe_refl _⟩
    · simp only [hv]
      refine ⟨.ref true (.concrete i), ?_, vtLe_refl _⟩
      simp only [checks, check, inAny, heapLe, hCd, hi, decide_true, if_true]
      rw [popAll_one (by simp [vtLe, heapLe])]
      rfl

theorem Final.hasField (h : Final D g c defs) {idx k : Nat} {t : Ty} (h9 : firstUser ≤ idx)
    (hcnt : idx - firstUser < c.count) (hf : HasField c idx k t) :
    ∃ F vF fs, Sub (norm t) F ∧ valtype c.map F = some vF ∧ defs[idx]? = some (.struct fs) ∧
      fs[k]? = some (vF, true) ∧ fs.length = (c.builders (idx - firstUser)).len := by
  obtain ⟨hlt, F, hF, hs⟩ := hf
  obtain ⟨fs, h1, h2, h3⟩ := h.user h9 hcnt
  obtain ⟨p, hp, hfd⟩ := h3 k hlt
  rw [hF] at hfd
  simp only [fieldDef, Option.map_eq_some_iff] at hfd
  obtain ⟨vF, e1, rfl⟩ := hfd
  exact ⟨F, vF, fs, hs, e1, h1, hp, h2⟩

theorem Final.concrete_any (h : Final D g c defs) {idx : Nat} (h9 : firstUser ≤ idx)
    (hcnt : idx - firstUser < c.count) : inAny defs (.concrete idx) = true := by
  have := h.length
  simp only [firstUser] at h9 hcnt
  simp only [inAny, heapLe, decide_eq_true_eq]
  omega

theorem op_goes (h : Final D g c defs) (hc : FnCtx c defs sigs result tys C) {env rest : List Ty}
    {op : IOp} {is : List Instr} {set : List Nat}
    (htys : tys = env ++ op.resultTy.toList ++ rest) (hw : IWt D (indices g) sigs result env op)
    (hd : Done tys c op) (hr : Readable C set env.length) (hret : ∀ vs, op ≠ .ret vs)
    (he : emitOp { defs := defs, map := c.map } tys env.length op = some is) (s : List VT) :
    Goes C set s is env.length op.resultTy := by
  have hlen : env.length ≤ tys.length := by rw [htys]; simp
  have hin : ∀ {r : Nat} {ty : Ty}, env[r]? = some ty → tys[r]? = some ty ∧ r < env.length := by
    intro r ty e
    exact ⟨by rw [htys, List.append_assoc]; exact prefix_get e, (List.getElem?_eq_some_iff.1 e).1⟩
  have hdst : ∀ {t : Ty}, op.resultTy = some t → ∃ w, C.locals[env.length]? = some w ∧ valtype c.map t = some w := by
    intro t e
    refine hc.local_ ?_
    rw [htys, e, List.append_assoc]
    simp
  have hCd := hc.defs
  have one : ∀ {r : Nat} {ty : Ty}, env[r]? = some ty → ∃ v, valtype c.map ty = some v ∧
      ∀ s, check C (.run s set) (.localGet r) = some (.run (v :: s) set) := by
    intro r ty e
    obtain ⟨h1, h2⟩ := hin e
    obtain ⟨v, hv, hv'⟩ := hc.local_ h1
    exact ⟨v, hv', fun s => checks_get hr h2 hv⟩
  cases op with
  | const z =>
    simp only [emitOp, Option.some.injEq] at he
    subst he
    obtain ⟨w, hw1, hw2⟩ := hdst rfl
    simp only [valtype, Option.some.injEq] at hw2
    subst hw2
    have := goes_result (C := C) (set := set) (s := s) (s1 := s) (is := [.i32Const z]) (rty := .i32)
      (v := .i32) rfl hw1 (by simp [vtLe])
    simpa [setResult, IOp.resultTy] using this
  | add a b =>
    simp only [emitOp, Option.some.injEq] at he
    subst he
    obtain ⟨w, hw1, hw2⟩ := hdst rfl
    simp only [valtype, Option.some.injEq] at hw2
    subst hw2
    have i32 : ∀ {r : Nat}, (env[r]? = some .i32 ∨ env[r]? = some .i1) →
        ∀ s, check C (.run s set) (.localGet r) = some (.run (.i32 :: s) set) := by
      rintro r (e | e)
      all_goals
        obtain ⟨v, hv, hg⟩ := one e
        simp only [valtype, Option.some.injEq] at hv
        subst hv
        exact hg
    have := goes_result (C := C) (set := set) (s := s) (s1 := s)
      (is := [.localGet a, .localGet b, .i32Add]) (rty := .i32) (v := .i32)
      (by
        simp only [checks, i32 hw.1, i32 hw.2, check_add]
        rw [popAll_two (by simp [vtLe]) (by simp [vtLe])]
        rfl) hw1 (by simp [vtLe])
    simpa [setResult, IOp.resultTy] using this
  | structNew rty idx args =>
    simp only [emitOp, Option.some.injEq] at he
    subst he
    obtain ⟨t, ht, hrt, hl, har, hlt⟩ := hw
    obtain ⟨hk, hcnt, hal, hfs⟩ := hd
    have h9 := indices_declared ht hl
    obtain ⟨w, hw1, hw2⟩ := hdst rfl
    rw [h.valtype_refers ht hrt hl hk] at hw2
    simp only [Option.some.injEq] at hw2
    subst hw2
    obtain ⟨vs, g1, g2⟩ := gets_spec hc hlt hlen
    obtain ⟨fs, hdf, hfl, hff⟩ := h.user h9 hcnt
    have hfl' : fs.length = args.length := by
      have := h.inv.len t idx ht hl
      omega
    refine goes_result (v := .ref false (.concrete idx)) (s1 := s) ?_ hw1 (by simp [vtLe, heapLe])
    rw [checks_append, checks_gets hr args vs s g1]
    simp only [Option.bind_some, checks]
    rw [check_new (by rw [hCd]; exact hdf), hCd, popAll_list]
    · rfl
    · -- each argument fits its field
      rw [List.forall₂_iff_get]
      refine ⟨by rw [List.length_map, hfl', g1.length_eq], ?_⟩
      intro i hi1 hi2
      simp only [List.get_eq_getElem, List.getElem_map]
      have hia : i < args.length := by rw [g1.length_eq]; exact hi1
      have e1 : args[i]? = some args[i] := by simp [hia]
      obtain ⟨F, vF, fs', s1, s2, s3, s4, _⟩ := h.hasField h9 hcnt (hfs i _ e1)
      rw [hdf] at s3
      simp only [Option.some.injEq, GcDef.struct.injEq] at s3
      subst s3
      have e4 : fs[i]'(by omega) = (vF, true) := (List.getElem?_eq_some_iff.1 s4).2
      rw [e4]
      obtain ⟨v, hv, ty, hty, hvt⟩ := forall₂_get g2 i _ e1
      have : vs[i] = v := (List.getElem?_eq_some_iff.1 hv).2
      rw [this]
      rw [tyAt_of hty] at s1
      exact h.stored s1 hvt s2 (hc.nominal ty (List.mem_of_getElem? hty))
  | structGet rty idx r f =>
    obtain ⟨t, ht, ⟨ty, hty, hrt⟩, hl, har, hrd⟩ := hw
    obtain ⟨hk, hcnt, hfld⟩ := hd
    have h9 := indices_declared ht hl
    rw [tyAt_of (hin hty).1] at hk
    obtain ⟨n1, n2, _⟩ := refers_shape ht hrt
    simp only [emitOp, tyAt_of (hin hty).1, n1, n2, or_self, if_false, Option.some.injEq,
      List.append_nil] at he
    subst he
    obtain ⟨w, hw1, hw2⟩ := hdst rfl
    obtain ⟨v, hv, hg⟩ := one hty
    rw [h.valtype_refers ht hrt hl hk] at hv
    simp only [Option.some.injEq] at hv
    subst hv
    obtain ⟨F, vF, fs, s1, s2, s3, s4, _⟩ := h.hasField h9 hcnt hfld
    obtain ⟨v', c1, c2⟩ := h.read (C := C) (idx := idx) (field := f) hCd h9 s1 hrd hw2 s2
      (by simp [fieldVT, s3, s4]) s set
    refine goes_result (v := v') (s1 := s) ?_ hw1 c2
    rw [checks_append]
    simp only [List.cons_append, List.nil_append, checks, hg]
    rw [check_getf (by rw [hCd]; exact s3) s4, popAll_one (by simp [vtLe, heapLe])]
    exact c1
  | structSet idx r v f =>
    obtain ⟨t, ht, ⟨ty, hty, hrt⟩, hl, har, hvl⟩ := hw
    obtain ⟨hk, hcnt, hfld⟩ := hd
    have h9 := indices_declared ht hl
    rw [tyAt_of (hin hty).1] at hk
    simp only [emitOp, Option.some.injEq] at he
    subst he
    obtain ⟨v0, hv0, hg0⟩ := one hty
    rw [h.valtype_refers ht hrt hl hk] at hv0
    simp only [Option.some.injEq] at hv0
    subst hv0
    obtain ⟨tv, htv⟩ : ∃ tv, env[v]? = some tv := ⟨env[v], by simp [hvl]⟩
    obtain ⟨v1, hv1, hg1⟩ := one htv
    obtain ⟨F, vF, fs, s1, s2, s3, s4, _⟩ := h.hasField h9 hcnt hfld
    rw [tyAt_of (hin htv).1] at s1
    refine ⟨s, set, ?_, fun _ h => h, by simp [IOp.resultTy]⟩
    simp only [checks, hg0, hg1]
    rw [check_setf (by rw [hCd]; exact s3) s4, hCd, popAll_two (by simp [vtLe, heapLe])
      (h.stored s1 hv1 s2 (hc.nominal tv (List.mem_of_getElem? (hin htv).1)))]
    rfl
  | refNull rty tgt idx =>
    obtain ⟨w, hw1, hw2⟩ := hdst rfl
    rcases hw with ⟨t, k, ht, hrt, hl, rfl⟩ | ⟨rfl, rfl, hab⟩
    · obtain ⟨hk, hcnt⟩ := hd
      have h9 := indices_declared ht hl
      simp only [emitOp, targetHeap, Option.map_some, Option.some.injEq] at he
      subst he
      rw [h.valtype_refers ht hrt hl hk] at hw2
      simp only [Option.some.injEq] at hw2
      subst hw2
      refine goes_result (v := .ref true (.concrete k)) (s1 := s) ?_ hw1 (vtLe_refl _)
      simp only [checks]; rw [check_null (by rw [hCd]; exact h.concrete_any h9 hcnt)]
    · rcases hab with rfl | rfl
      · simp only [emitOp, targetHeap, abstractHeap, Option.map_some, Option.some.injEq] at he
        subst he
        rw [h.valtype_anyref] at hw2
        simp only [Option.some.injEq] at hw2
        subst hw2
        refine goes_result (v := .ref true .any) (s1 := s) ?_ hw1 (vtLe_refl _)
        simp only [checks]; rw [check_null (by simp [inAny, heapLe])]
      · simp only [emitOp, targetHeap, abstractHeap, Option.map_some, Option.some.injEq] at he
        subst he
        rw [h.valtype_structref] at hw2
        simp only [Option.some.injEq] at hw2
        subst hw2
        refine goes_result (v := .ref true .struct) (s1 := s) ?_ hw1 (vtLe_refl _)
        simp only [checks]; rw [check_null (by simp [inAny, heapLe])]
  | refCast rty tgt idx r =>
    obtain ⟨w, hw1, hw2⟩ := hdst rfl
    obtain ⟨hw, ty, hty, hrf⟩ := hw
    obtain ⟨v, hv, hg⟩ := one hty
    obtain ⟨n, kk, rfl, hle⟩ := h.valtype_ref (.inl hrf) hv
    have hpop : vtLe C.defs (VT.ref n kk) (.ref true .any) = true := by simp [hCd, vtLe, hle]
    rcases hw with ⟨t, k, ht, hrt, hl, rfl⟩ | ⟨rfl, rfl, hab⟩
    · obtain ⟨hk, hcnt⟩ := hd
      have h9 := indices_declared ht hl
      have hvt := h.valtype_refers ht hrt hl hk
      have hnul := castNullable_true (info := { defs := defs, map := c.map }) hvt
      simp only [emitOp, targetHeap, Option.map_some, Option.some.injEq] at he
      rw [hnul] at he
      subst he
      rw [hvt] at hw2
      simp only [Option.some.injEq] at hw2
      subst hw2
      refine goes_result (v := .ref true (.concrete k)) (s1 := s) ?_ hw1 (vtLe_refl _)
      simp only [checks, hg]; rw [check_cast (by rw [hCd]; exact h.concrete_any h9 hcnt) hpop]
    · rcases hab with rfl | rfl
      · have hnul := castNullable_true (info := { defs := defs, map := c.map }) h.valtype_anyref
        simp only [emitOp, targetHeap, abstractHeap, Option.map_some, Option.some.injEq] at he
        rw [hnul] at he
        subst he
        rw [h.valtype_anyref] at hw2
        simp only [Option.some.injEq] at hw2
        subst hw2
        refine goes_result (v := .ref true .any) (s1 := s) ?_ hw1 (vtLe_refl _)
        simp only [checks, hg]; rw [check_cast (by simp [inAny, heapLe]) hpop]
      · have hnul := castNullable_true (info := { defs := defs, map := c.map }) h.valtype_structref
        simp only [emitOp, targetHeap, abstractHeap, Option.map_some, Option.some.injEq] at he
        rw [hnul] at he
        subst he
        rw [h.valtype_structref] at hw2
        simp only [Option.some.injEq] at hw2
        subst hw2
        refine goes_result (v := .ref true .struct) (s1 := s) ?_ hw1 (vtLe_refl _)
        simp only [checks, hg]; rw [check_cast (by simp [inAny, heapLe]) hpop]
  | refTest tgt idx r =>
    obtain ⟨w, hw1, hw2⟩ := hdst rfl
    obtain ⟨⟨t, k, ht, hl, rfl⟩, ty, hty, hrf⟩ := hw
    obtain ⟨v, hv, hg⟩ := one hty
    obtain ⟨n, kk, rfl, hle⟩ := h.valtype_ref (.inl hrf) hv
    have hpop : vtLe C.defs (VT.ref n kk) (.ref true .any) = true := by simp [hCd, vtLe, hle]
    have h9 := indices_declared ht hl
    simp only [emitOp, targetHeap, Option.map_some, Option.some.injEq] at he
    subst he
    simp only [valtype, Option.some.injEq] at hw2
    subst hw2
    have := goes_result (C := C) (set := set) (s := s) (s1 := s)
      (is := [.localGet r, .refTest true (.concrete k)]) (rty := .i32) (v := .i32)
      (by simp only [checks, hg]; rw [check_test (by rw [hCd]; exact h.concrete_any h9 hd) hpop]) hw1 (by simp [vtLe])
    simpa [setResult, IOp.resultTy] using this
  | call k rty args =>
    simp only [emitOp, Option.some.injEq] at he
    subst he
    obtain ⟨w, hw1, hw2⟩ := hdst rfl
    obtain ⟨ps, hsig, hargs⟩ := hw
    obtain ⟨⟨wps, wrs⟩, hfn, hps, hres⟩ := forall₂_get hc.fns k _ hsig
    simp only at hps hres
    have hlt : ∀ a ∈ args, a < env.length := by
      intro a ha
      obtain ⟨i, hi, rfl⟩ := List.getElem_of_mem ha
      obtain ⟨p, _, ty, e, _⟩ := forall₂_get hargs i args[i] (by simp [hi])
      exact (List.getElem?_eq_some_iff.1 e).1
    obtain ⟨vs, g1, g2⟩ := gets_spec hc hlt hlen
    have hpop : popAll defs (vs.reverse ++ s) wps = some s := by
      refine popAll_list ?_
      rw [List.forall₂_iff_get]
      have hl1 := g1.length_eq
      have hl2 := hargs.length_eq
      have hl3 := hps.length_eq
      refine ⟨by omega, ?_⟩
      intro i hi1 hi2
      simp only [List.get_eq_getElem]
      have e1 : args[i]? = some (args[i]'(by omega)) := by simp
      obtain ⟨v, hv, ty, hty, hvt⟩ := forall₂_get g2 i _ e1
      have e2 : vs[i] = v := (List.getElem?_eq_some_iff.1 hv).2
      obtain ⟨p, hp, ty', hty', has⟩ := forall₂_get hargs i _ e1
      obtain ⟨w', hw', hvp⟩ := forall₂_get hps i p hp
      have e3 : wps[i] = w' := (List.getElem?_eq_some_iff.1 hw').2
      rw [e2, e3]
      have := (hin hty').1
      rw [hty] at this
      simp only [Option.some.injEq] at this
      subst this
      exact h.assignable has hvt hvp
    unfold resultVTs at hres
    split at hres
    · rename_i e
      subst e
      simp only [Option.some.injEq] at hres
      refine ⟨s, set, ?_, fun _ h => h, by simp [IOp.resultTy]⟩
      rw [List.append_assoc, checks_append, checks_gets hr args vs s g1]
      simp only [Option.bind_some, setResult, if_true, List.append_nil, checks, check_call hfn, hCd, hpop,
        Option.map_some, ← hres, List.reverse_nil, List.nil_append]
    · rw [hw2] at hres
      simp only [Option.map_some, Option.some.injEq] at hres
      refine goes_result (v := w) (s1 := s) ?_ hw1 (vtLe_refl _)
      rw [checks_append, checks_gets hr args vs s g1]
      simp only [Option.bind_some, checks, check_call hfn, hCd, hpop, Option.map_some, ← hres,
        List.reverse_singleton, List.singleton_append]
  | ret vs => exact absurd rfl (hret vs)

theorem ret_done (h : Final D g c defs) (hc : FnCtx c defs sigs result tys C) {env rest : List Ty}
    {vs : List Nat} {is : List Instr} {set : List Nat} (htys : tys = env ++ rest)
    (hw : IWt D (indices g) sigs result env (.ret vs)) (hr : Readable C set env.length)
    (he : emitOp { defs := defs, map := c.map } tys env.length (.ret vs) = some is) (s : List VT) :
    checks C (.run s set) is = some .done := by
  simp only [emitOp, Option.some.injEq] at he
  subst he
  have hlen : env.length ≤ tys.length := by rw [htys]; simp
  have hres := hc.results
  unfold resultVTs at hres
  rcases hw with ⟨rfl, hlt⟩ | ⟨hne, v, ty, rfl, hty, has⟩
  · obtain ⟨ws, g1, _⟩ := gets_spec hc hlt hlen
    rw [checks_append, checks_gets hr vs ws s g1]
    simp only [if_true, Option.some.injEq] at hres
    simp only [Option.bind_some, checks, check_ret, ← hres]
    simp [popAll]
  · have hlt : v < env.length := (List.getElem?_eq_some_iff.1 hty).1
    obtain ⟨wv, hwv, hvt⟩ := hc.local_ (ty := ty) (k := v) (by rw [htys]; exact prefix_get hty)
    simp only [hne, if_false, Option.map_eq_some_iff] at hres
    obtain ⟨wr, hwr, hres⟩ := hres
    simp only [List.map_cons, List.map_nil, List.cons_append, List.nil_append, checks,
      checks_get hr hlt hwv, check_ret, ← hres]
    rw [popAll_one (by rw [hc.defs]; exact h.assignable has hvt hwr)]
    rfl

theorem valtype_nil_defaultable {map : List (Ty × Nat)} {v : VT} (hv : valtype map .nil = some v) :
    defaultable v = true := by
  simp only [valtype] at hv
  split at hv <;> simp only [Option.some.injEq] at hv <;> subst hv <;> rfl

theorem body_done (h : Final D g c defs) (hc : FnCtx c defs sigs result tys C) :
    ∀ (ops : List IOp) (env : List Ty) (is : List Instr) (set : List Nat) (s : List VT),
    tys = env ++ ops.filterMap IOp.resultTy → IBody D (indices g) sigs result env ops →
    (∀ op ∈ ops, Done tys c op) → Readable C set env.length →
    emitOps { defs := defs, map := c.map } tys env.length ops = some is →
    checks C (.run s set) is = some .done
  | [], env, is, set, s, _, hb, _, _, _ => hb.elim
  | op :: ops, env, is, set, s, htys, hb, hd, hr, he => by
    unfold IBody at hb
    obtain ⟨hw, hb⟩ := hb
    simp only [emitOps] at he
    cases h1 : emitOp { defs := defs, map := c.map } tys env.length op with
    | none => simp [h1] at he
    | some a =>
      cases h2 : emitOps { defs := defs, map := c.map } tys (nextLocal env.length op) ops with
      | none => simp [h1, h2] at he
      | some b =>
        simp only [h1, h2, Option.some.injEq] at he
        subst he
        have general : (∀ vs, op ≠ .ret vs) →
            IBody D (indices g) sigs result (env ++ op.resultTy.toList) ops →
            checks C (.run s set) (a ++ b) = some .done := by
          intro hnr hb
          have ht : tys = env ++ op.resultTy.toList ++ ops.filterMap IOp.resultTy := by
            rw [htys]; cases hx : op.resultTy <;> simp [hx]
          obtain ⟨s', set', c1, c2, c3⟩ := op_goes h hc ht hw (hd op (by simp)) hr hnr h1 s
          rw [checks_append, c1]
          simp only [Option.bind_some]
          have hnl : nextLocal env.length op = (env ++ op.resultTy.toList).length := by
            unfold nextLocal; cases hx : op.resultTy <;> simp
          rw [hnl] at h2
          refine body_done h hc ops _ b set' s' ht hb (fun o m => hd o (by simp [m])) ?_ h2
          intro k v hk hv
          by_cases hlt : k < env.length
          · rcases hr k v hlt hv with h' | h'
            · exact .inl h'
            · exact .inr (c2 k h')
          · cases hx : op.resultTy with
            | none => simp [hx] at hk; omega
            | some t =>
              have : k = env.length := by simp [hx] at hk; omega
              subst this
              by_cases hn : t = .nil
              · obtain ⟨w, hw1, hw2⟩ := hc.local_ (k := env.length) (ty := t)
                  (by rw [ht, hx, List.append_assoc]; simp)
                rw [hv] at hw1
                simp only [Option.some.injEq] at hw1
                subst hw1 hn
                exact .inl (valtype_nil_defaultable hw2)
              · exact .inr (c3 t hx hn)
        split at hb
        · simp only [emitOps, Option.some.injEq] at h2
          subst h2
          rw [List.append_nil]
          exact ret_done h hc htys hw hr h1 s
        · exact hb.elim
        · rename_i op' ops' h1' h2'
          exact general (by
            intro vs e
            cases ops with
            | nil => exact h1' vs e rfl
            | cons x xs => exact h2' vs x xs e rfl) hb

end

end Verif.WasmGc
