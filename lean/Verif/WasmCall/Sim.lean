import Verif.WasmCall.Tables

/-! # The emitted module runs like the module -/

namespace Verif.WasmCall

open Spec

/-! ## What `compile` yields -/

theorem lowerFns_get {tbl : List String} {fs : List (Fn Code)} {ws : List (Fn WCode)}
    (h : lowerFns tbl fs = some ws) {j : Nat} {g : Fn Code} (hg : fs[j]? = some g) :
    ∃ b, lower tbl g.ty g.body = some b ∧
      ws[j]? = some { name := g.name, sig := g.sig, ty := g.ty, body := b } := by
  induction fs generalizing ws j with
  | nil => simp at hg
  | cons f fs ih =>
    unfold lowerFns at h
    split at h
    · rename_i w ws' h1 h2
      cases h
      cases j with
      | zero =>
        simp at hg; subst hg
        unfold lowerFn at h1
        cases h3 : lower tbl f.ty f.body with
        | none => simp [h3] at h1
        | some b => simp [h3] at h1; exact ⟨b, rfl, by simp [h1]⟩
      | succ j =>
        obtain ⟨b, h3, h4⟩ := ih h2 (by simpa using hg)
        exact ⟨b, h3, by simpa using h4⟩
    · cases h

theorem lowerFns_sigs {tbl : List String} {fs : List (Fn Code)} {ws : List (Fn WCode)}
    (h : lowerFns tbl fs = some ws) : ws.map (·.sig) = fs.map (·.sig) := by
  induction fs generalizing ws with
  | nil => cases h; rfl
  | cons f fs ih =>
    unfold lowerFns at h
    split at h
    · rename_i w ws' h1 h2
      cases h
      unfold lowerFn at h1
      cases h3 : lower tbl f.ty f.body with
      | none => simp [h3] at h1
      | some b => simp [h3] at h1; subst h1; simp [ih h2]
    · cases h

theorem emitFns_get {m : Mod} {r : Reg} {n : Nat} {ws : List (Fn WCode)} {fns : List WFn}
    (h : emitFns m r n ws = some fns) {j : Nat} {f : Fn WCode} (hf : ws[j]? = some f) :
    ∃ c, emit m r f.ty f.sig.result f.body = some c ∧ fns[j]? = some ⟨n + j, c⟩ := by
  induction ws generalizing n fns j with
  | nil => simp at hf
  | cons x xs ih =>
    unfold emitFns at h
    split at h
    · rename_i c rest h1 h2
      cases h
      cases j with
      | zero => simp at hf; subst hf; exact ⟨c, h1, by simp⟩
      | succ j =>
        obtain ⟨c', h3, h4⟩ := ih h2 (by simpa using hf)
        exact ⟨c', h3, by simp [h4]; omega⟩
    · cases h

theorem emitFns_types {m : Mod} {r : Reg} {n : Nat} {ws : List (Fn WCode)} {fns : List WFn}
    (h : emitFns m r n ws = some fns) : fns.map (·.type) = List.range' n ws.length := by
  induction ws generalizing n fns with
  | nil => cases h; rfl
  | cons x xs ih =>
    unfold emitFns at h
    split at h
    · rename_i c rest h1 h2
      cases h
      simp [List.range'_succ, ih h2]
    · cases h

theorem emitImports_types (n : Nat) (is : List (String × Sig)) :
    (emitImports n is).map (·.2) = List.range' n is.length := by
  induction is generalizing n with
  | nil => rfl
  | cons x xs ih => obtain ⟨a, b⟩ := x; simp [emitImports, List.range'_succ, ih]

theorem emitImports_get (n : Nat) (is : List (String × Sig)) (i : Nat) :
    (emitImports n is)[i]? = is[i]?.map fun p => (p.1, n + i) := by
  induction is generalizing n i with
  | nil => simp [emitImports]
  | cons x xs ih =>
    obtain ⟨a, b⟩ := x
    cases i with
    | zero => simp [emitImports]
    | succ i => simp [emitImports, ih]; congr 1; funext p; congr 1; omega

theorem emitImports_length (n : Nat) (is : List (String × Sig)) :
    (emitImports n is).length = is.length := by
  induction is generalizing n with
  | nil => rfl
  | cons x xs ih => obtain ⟨a, b⟩ := x; simp [emitImports, ih]

/-- The parts of a successful compilation. -/
structure Parts (m : Mod) (w : WMod) where
  ws : List (Fn WCode)
  defs : List TypeDef
  lowered : lowerFns (tableSyms m) m.fns = some ws
  types : typeDefs m.gcMap
    (m.imports.map (·.2) ++ ws.map effectiveSig ++ (registered m ws).added) = some defs
  emitted : emitFns m (registered m ws) (gcCount m + m.imports.length) ws = some w.fns
  wtypes : w.types = List.replicate (gcCount m) .gc ++ defs
  wimports : w.imports = emitImports (gcCount m) m.imports
  wtable : w.tableSize = tableOf m ws
  welem : w.elem = elemIdxs m (tableSyms m)

theorem compile_parts {m : Mod} {w : WMod} (h : compile m = some w) : Nonempty (Parts m w) := by
  unfold compile at h
  split at h
  · cases h
  · rename_i ws h1
    simp only at h
    split at h
    · rename_i defs fns h2 h3
      cases h
      exact ⟨⟨ws, defs, h1, h2, h3, rfl, rfl, rfl, rfl⟩⟩
    · cases h

theorem effectiveSig_params (f : Fn WCode) : (effectiveSig f).params = f.sig.params := by
  unfold effectiveSig; split <;> rfl

theorem effectiveSig_arity (f : Fn WCode) : arity (effectiveSig f).result = arity f.sig.result := by
  unfold effectiveSig
  split
  · rename_i h
    simp at h
    simp [arity, h.1]
  · rfl

theorem effectiveSig_nil {f : Fn WCode} (h : f.sig.result ≠ .funcref) :
    effectiveSig f = f.sig := by
  unfold effectiveSig
  simp [h]

namespace Parts

variable {m : Mod} {w : WMod}

theorem types_get (p : Parts m w) (k : Nat) : w.types[gcCount m + k]? = p.defs[k]? := by
  rw [p.wtypes, List.getElem?_append_right (by simp)]
  simp

/-- The type emitted for the signature at a position. -/
theorem type_at (p : Parts m w) {k : Nat} {s : Sig}
    (h : (declSigs m ++ (registered m p.ws).added)[k]? = some s) :
    ∃ ps rs, w.types[gcCount m + k]? = some (.func ps rs) ∧
      ps.length = s.params.length ∧ rs.length = arity s.result ∧
      (s.result ≠ .funcref → typeDef m.gcMap s = some (.func ps rs)) := by
  have hs := lowerFns_sigs p.lowered
  have : ∃ s', (m.imports.map (·.2) ++ p.ws.map effectiveSig ++ (registered m p.ws).added)[k]? =
      some s' ∧ s'.params = s.params ∧ arity s'.result = arity s.result ∧
      (s.result ≠ .funcref → s' = s) := by
    unfold declSigs at h
    rw [← hs] at h
    rw [List.append_assoc] at h ⊢
    by_cases h1 : k < m.imports.length
    · rw [List.getElem?_append_left (by simpa using h1)] at h ⊢
      exact ⟨s, h, rfl, rfl, fun _ => rfl⟩
    · rw [List.getElem?_append_right (by simpa using h1)] at h ⊢
      by_cases h2 : k - m.imports.length < p.ws.length
      · rw [List.getElem?_append_left (by simpa using h2)] at h ⊢
        simp only [List.getElem?_map, List.length_map] at h ⊢
        cases h3 : p.ws[k - m.imports.length]? with
        | none => simp [h3] at h
        | some f =>
          simp [h3] at h
          refine ⟨effectiveSig f, by simp, ?_, ?_, ?_⟩
          · rw [effectiveSig_params, h]
          · rw [effectiveSig_arity, h]
          · intro hne
            rw [effectiveSig_nil (by rw [h]; exact hne), h]
      · rw [List.getElem?_append_right (by simpa using h2)] at h ⊢
        simp only [List.length_map] at h ⊢
        exact ⟨s, h, rfl, rfl, fun _ => rfl⟩
  obtain ⟨s', h1, h2, h3, h4⟩ := this
  obtain ⟨d, h5, h6⟩ := typeDefs_get p.types h1
  obtain ⟨ps, rs, rfl, h7, h8⟩ := typeDef_shape h5
  refine ⟨ps, rs, by rw [p.types_get, h6], by rw [h7, h2], by rw [h8, h3], ?_⟩
  intro hne
  rw [← h4 hne]
  exact h5

/-- Index of the type of a function. -/
theorem func_type_idx (p : Parts m w) {i : Nat} (hi : i < (declSigs m).length) :
    (w.imports.map (·.2) ++ w.fns.map (·.type))[i]? = some (gcCount m + i) := by
  have hl : p.ws.length = m.fns.length := by
    have := congrArg List.length (lowerFns_sigs p.lowered)
    simpa using this
  rw [p.wimports, emitImports_types, emitFns_types p.emitted, List.range'_append_1]
  have hd : (declSigs m).length = m.imports.length + m.fns.length := by simp [declSigs]
  rw [List.getElem?_range' (by rw [hl]; omega)]
  simp

/-- The type of a function of the emitted module. -/
theorem func_type (p : Parts m w) {i : Nat} {s : Sig} (h : (declSigs m)[i]? = some s) :
    ∃ ps rs, funcType w i = some (.func ps rs) ∧
      ps.length = s.params.length ∧ rs.length = arity s.result ∧
      (s.result ≠ .funcref → typeDef m.gcMap s = some (.func ps rs)) := by
  have hi := (List.getElem?_eq_some_iff.mp h).1
  obtain ⟨ps, rs, h1, h2⟩ := p.type_at (k := i) (s := s)
    (by rw [List.getElem?_append_left hi]; exact h)
  refine ⟨ps, rs, ?_, h2⟩
  unfold funcType
  rw [p.func_type_idx hi]
  exact h1

/-- The type at the index of a registered signature. -/
theorem reg_type (p : Parts m w) {s : Sig} {i : Nat}
    (h : sigIdx (registered m p.ws).map s = some i) (hne : s.result ≠ .funcref) :
    ∃ ps rs, w.types[i]? = some (.func ps rs) ∧ typeDef m.gcMap s = some (.func ps rs) := by
  obtain ⟨k, rfl, hk⟩ := registered_ok m p.ws s i h
  obtain ⟨ps, rs, h1, _, _, h2⟩ := p.type_at hk
  exact ⟨ps, rs, h1, h2 hne⟩

/-- A reference to a function holds the number of its slot. -/
theorem slot_of (p : Parts m w) (hl : Linked m) {f : String} {i : Nat}
    (h : tableIdx (tableSyms m) f = some i) : Rep m w (.fn f) (BitVec.ofNat 32 i) := by
  have hi := tableIdx_some h
  have hlt := (List.getElem?_eq_some_iff.mp hi).1
  have hall : ∀ f ∈ tableSyms m, ∃ j, funcIdx m f = some j := by
    intro f hf
    obtain ⟨g, hg, hf⟩ := mem_tableSyms.mp hf
    obtain ⟨i, hi⟩ := every_refs (hl.refs g hg) hf
    exact funcIdx_of_nameAt hi
  obtain ⟨j, hj, he⟩ := elemIdxs_get hall hi
  have hsmall : i < 2 ^ 32 :=
    Nat.lt_of_lt_of_le hlt (Nat.le_trans (tableSyms_length m) (Nat.le_of_lt hl.few))
  have hne : tableSyms m ≠ [] := by
    intro h0; rw [h0] at hlt; simp at hlt
  refine ⟨j, ?_, funcIdx_nameAt hj⟩
  unfold slot
  rw [p.wtable, p.welem]
  unfold tableOf
  simp only [hne, if_false]
  rw [BitVec.toNat_ofNat, Nat.mod_eq_of_lt hsmall]
  simp [hlt, he]

end Parts

/-! ## Running instructions -/

section
variable {w : WMod} {cf : Nat → List (BitVec 32) → Option WOut} {n : Nat}
  {l : Nat → BitVec 32} {st : List (BitVec 32)} {k : ICode}

theorem wexec_get (v : Nat) :
    wexec w cf n l st (.ins (.get v) k) = wexec w cf n l (l v :: st) k := by
  simp [wexec]

theorem wexec_set (v : Nat) (z : BitVec 32) :
    wexec w cf n l (z :: st) (.ins (.set v) k) =
      wexec w cf n (fun x => if x = v then z else l x) st k := by
  simp [wexec]

theorem wexec_const (z : BitVec 32) :
    wexec w cf n l st (.ins (.const z) k) = wexec w cf n l (z :: st) k := by
  simp [wexec]

theorem wexec_add (a b : BitVec 32) :
    wexec w cf n l (b :: a :: st) (.ins .add k) = wexec w cf n l ((a + b) :: st) k := by
  simp [wexec]

theorem wexec_call (f : Nat) :
    wexec w cf n l st (.ins (.call f) k) =
      resume (direct w cf f st) fun st' => wexec w cf n l st' k := by
  simp [wexec]

theorem wexec_ret : wexec w cf n l st (.ins .ret k) = some (.fin (returned n st)) := by
  simp [wexec]

theorem wexec_retCall (f : Nat) :
    wexec w cf n l st (.ins (.retCall f) k) = (direct w cf f st).map fun p => .fin p.1 := by
  simp [wexec]

theorem wexec_retCallInd (t tb : Nat) :
    wexec w cf n l st (.ins (.retCallInd t tb) k) =
      (indirect w cf t tb st).map fun p => .fin p.1 := by
  simp [wexec]

theorem wexec_unreach : wexec w cf n l st (.ins .unreach k) = some (.fin .trap) := by
  simp [wexec]

theorem wexec_ifte (c : BitVec 32) (t e : ICode) :
    wexec w cf n l (c :: st) (.ifte t e k) =
      afterBranch (if c = 0 then wexec w cf n l [] e else wexec w cf n l [] t)
        fun l' => wexec w cf n l' st k := by
  simp [wexec]

theorem wexec_gets (vs : List Nat) (is : List Ins) :
    wexec w cf n l st (pre (gets vs ++ is) k) =
      wexec w cf n l ((vs.map l).reverse ++ st) (pre is k) := by
  induction vs generalizing st with
  | nil => simp [gets]
  | cons v vs ih =>
    have := ih (st := l v :: st)
    simp only [gets, List.map_cons, List.cons_append, pre, wexec_get] at this ⊢
    rw [this]; simp

end

theorem popN_rev (zs st : List (BitVec 32)) : popN zs.length (zs.reverse ++ st) = some (zs, st) := by
  unfold popN
  have h1 : (zs.reverse ++ st).take zs.length = zs.reverse := by
    exact List.take_left' (by simp)
  have h2 : (zs.reverse ++ st).drop zs.length = st := by
    exact List.drop_left' (by simp)
  simp [h1, h2]

/-! ## Correspondence of environments -/

def LocRep (m : Mod) (w : WMod) (env : Nat → Option Val) (l : Nat → BitVec 32) : Prop :=
  ∀ (x : Nat) (v : Val), env x = some v → Rep m w v (l x)

theorem LocRep.bind {m : Mod} {w : WMod} {env : Nat → Option Val} {l : Nat → BitVec 32}
    (h : LocRep m w env l) {d : Nat} {v : Val} {z : BitVec 32} (hv : Rep m w v z) :
    LocRep m w (bind env d v) (fun x => if x = d then z else l x) := by
  intro x u hx
  unfold Spec.bind at hx
  by_cases hd : x = d
  · simp [hd] at hx ⊢; subst hx; exact hv
  · simp [hd] at hx ⊢; exact h x u hx

theorem LocRep.readAll {m : Mod} {w : WMod} {env : Nat → Option Val} {l : Nat → BitVec 32}
    (h : LocRep m w env l) {xs : List Nat} {vs : List Val} (hx : readAll env xs = some vs) :
    Reps m w vs (xs.map l) := by
  induction xs generalizing vs with
  | nil => cases hx; trivial
  | cons x xs ih =>
    unfold Spec.readAll at hx
    split at hx
    · rename_i v vs' h1 h2
      cases hx
      exact ⟨h x v h1, ih h2⟩
    · cases hx

theorem Spec.Reps.length {m : Mod} {w : WMod} {vs : List Val} {zs : List (BitVec 32)}
    (h : Reps m w vs zs) : vs.length = zs.length := by
  induction vs generalizing zs with
  | nil => cases zs with
    | nil => rfl
    | cons => exact h.elim
  | cons v vs ih => cases zs with
    | nil => exact h.elim
    | cons z zs => simp [ih h.2]

theorem Spec.Reps.get {m : Mod} {w : WMod} {vs : List Val} {zs : List (BitVec 32)}
    (h : Reps m w vs zs) : LocRep m w (fun i => vs[i]?) (fun i => (zs[i]?).getD 0) := by
  induction vs generalizing zs with
  | nil => intro x v hx; simp at hx
  | cons v vs ih => cases zs with
    | nil => exact h.elim
    | cons z zs =>
      intro x u hx
      cases x with
      | zero => simp at hx ⊢; subst hx; exact h.1
      | succ x => simpa using ih h.2 x u (by simpa using hx)

theorem Spec.Reps.ints {m : Mod} {w : WMod} {vs : List Val} {zs ns : List (BitVec 32)}
    (h : Reps m w vs zs) (hi : Spec.ints vs = some ns) : zs = ns := by
  induction vs generalizing zs ns with
  | nil => cases zs with
    | nil => cases hi; rfl
    | cons => exact h.elim
  | cons v vs ih => cases zs with
    | nil => exact h.elim
    | cons z zs =>
      cases v with
      | fn f => simp [Spec.ints] at hi
      | int a =>
        unfold Spec.ints at hi
        cases h1 : Spec.ints vs with
        | none => simp [h1] at hi
        | some ns' =>
          simp [h1] at hi
          subst hi
          have ha : z = a := h.1
          rw [ih h.2 h1, ha]

/-! ## Calls -/

/-- What calls by name and calls by index have to do with each other. -/
structure CallsAgree (m : Mod) (w : WMod) (cf : String → List Val → Option Out)
    (wcf : Nat → List (BitVec 32) → Option WOut) : Prop where
  shape : ∀ (f : String) (vs : List Val) (o : Out), cf f vs = some o → o ≠ .stuck →
    ∃ (i : Nat) (s : Sig), nameAt m i = some f ∧ (declSigs m)[i]? = some s ∧
      vs.length = s.params.length
  agree : ∀ (f : String) (vs : List Val) (o : Out) (i : Nat) (zs : List (BitVec 32)),
    cf f vs = some o → o ≠ .stuck → nameAt m i = some f → Reps m w vs zs →
    ∃ o', wcf i zs = some o' ∧ OutRep m w o o'

section
variable {m : Mod} {w : WMod} {cf : String → List Val → Option Out}
  {wcf : Nat → List (BitVec 32) → Option WOut}

theorem direct_sim (p : Parts m w) (hl : Linked m) (hc : CallsAgree m w cf wcf)
    {f : String} {vs : List Val} {o : Out} {i : Nat} {zs st : List (BitVec 32)}
    (h : cf f vs = some o) (ho : o ≠ .stuck) (hi : nameAt m i = some f)
    (hz : Reps m w vs zs) :
    ∃ o', direct w wcf i (zs.reverse ++ st) = some (o', st) ∧ OutRep m w o o' := by
  obtain ⟨j, s, h1, h2, h3⟩ := hc.shape f vs o h ho
  have := nameAt_inj hl.distinct hi h1
  subst this
  obtain ⟨ps, rs, h4, h5, h6, _⟩ := p.func_type h2
  obtain ⟨o', h7, h8⟩ := hc.agree f vs o i zs h ho hi hz
  refine ⟨o', ?_, h8⟩
  unfold direct
  rw [h4]
  simp only
  rw [h5, ← h3, hz.length, popN_rev]
  simp [h7]

theorem sigOf_at {f : String} {s : Sig} (h : sigOf m f = some s) :
    ∃ i, nameAt m i = some f ∧ (declSigs m)[i]? = some s := by
  unfold sigOf at h
  cases h1 : (m.imports ++ m.fns.map fun g => (g.name, g.sig)).find? fun p => p.1 = f with
  | none => simp [h1] at h
  | some q =>
    simp [h1] at h
    have h2 := List.find?_some h1
    have h3 := List.mem_of_find?_eq_some h1
    obtain ⟨i, hi⟩ := List.mem_iff_getElem?.mp h3
    refine ⟨i, ?_, ?_⟩
    · have := congrArg (Option.map Prod.fst) hi
      rw [← List.getElem?_map] at this
      simp [Function.comp_def] at this h2
      unfold nameAt
      rw [this, h2]
    · have := congrArg (Option.map Prod.snd) hi
      rw [← List.getElem?_map] at this
      simp [Function.comp_def] at this
      unfold declSigs
      rw [this, h]

theorem indirect_sim (p : Parts m w) (hl : Linked m) (hc : CallsAgree m w cf wcf)
    {f : String} {vs : List Val} {o : Out} {zs : List (BitVec 32)} {z : BitVec 32} {s : Sig}
    {t : Nat} (h : cf f vs = some o) (ho : o ≠ .stuck) (hf : Rep m w (.fn f) z)
    (hz : Reps m w vs zs) (hs : sigOf m f = some s) (hr : s.result = .nil)
    (ht : sigIdx (registered m p.ws).map s = some t) :
    ∃ o', indirect w wcf t 0 (z :: zs.reverse) = some (o', []) ∧ OutRep m w o o' := by
  have hne : s.result ≠ .funcref := by rw [hr]; decide
  obtain ⟨i, hslot, hname⟩ := hf
  obtain ⟨j, h1, h2⟩ := sigOf_at hs
  have := nameAt_inj hl.distinct hname h1
  subst this
  obtain ⟨ps, rs, h3, _, _, h4⟩ := p.func_type h2
  obtain ⟨ps', rs', h5, h6⟩ := p.reg_type ht hne
  rw [h4 hne] at h6
  cases h6
  obtain ⟨o', h7, h8⟩ := direct_sim (st := []) p hl hc h ho hname hz
  refine ⟨o', ?_, h8⟩
  unfold indirect
  rw [h5]
  simp only [hslot, h3, if_true]
  simpa using h7

end

/-! ## Code -/

/-- The end of running code, in a function with `n` results. -/
def FlowRep (m : Mod) (w : WMod) (n : Nat) : Flow → WFlow → Prop
  | .cont env, .cont l st => st = [] ∧ LocRep m w env l
  | .fin (.done none), .fin o => n = 0 → o = .done none
  | .fin (.done (some v)), .fin o => n = 1 → ∃ z, o = .done (some z) ∧ Rep m w v z
  | .fin .trap, .fin o => o = .trap
  | _, _ => False

theorem outRep_flow {m : Mod} {w : WMod} {n : Nat} {o : Out} {o' : WOut} (h : OutRep m w o o') :
    FlowRep m w n (.fin o) (.fin o') := by
  cases o with
  | done v =>
    cases v with
    | none =>
      cases o' with
      | done v' => cases v' with
        | none => intro _; rfl
        | some => exact h.elim
      | trap => exact h.elim
      | invalid => exact h.elim
    | some v =>
      cases o' with
      | done v' => cases v' with
        | none => exact h.elim
        | some z => intro _; exact ⟨z, rfl, h⟩
      | trap => exact h.elim
      | invalid => exact h.elim
  | trap =>
    cases o' with
    | trap => rfl
    | done v' => cases v' <;> exact h.elim
    | invalid => exact h.elim
  | stuck => exact h.elim

/-- No indirect call in the middle. -/
abbrev plain : Cond := ⟨fun _ => True, fun _ => True, fun _ _ _ => False, fun _ _ _ => True⟩

theorem exec_sim {m : Mod} {w : WMod} (p : Parts m w) (hl : Linked m)
    {cf : String → List Val → Option Out} {wcf : Nat → List (BitVec 32) → Option WOut}
    (hc : CallsAgree m w cf wcf) (ty : Nat → Ty) (ret : Ty) (n : Nat) (c : Code)
    {wc : WCode} {ic : ICode} {env : Nat → Option Val} {l : Nat → BitVec 32} {fl : Flow}
    (hlow : lower (tableSyms m) ty c = some wc)
    (hem : emit m (registered m p.ws) ty ret wc = some ic)
    (hp : Every plain c) (hr : LocRep m w env l)
    (hx : exec m cf env c = some fl) (hns : fl ≠ .fin .stuck) :
    ∃ fl', wexec w wcf n l [] ic = some fl' ∧ FlowRep m w n fl fl' := by
  induction c generalizing wc ic env l fl with
  | const d f k ih =>
    unfold lower at hlow
    split at hlow
    · cases hlow
    · rename_i i hi
      cases h1 : lower (tableSyms m) ty k with
      | none => simp [h1] at hlow
      | some k' =>
        simp [h1] at hlow; subst hlow
        unfold emit at hem
        cases h2 : emit m (registered m p.ws) ty ret k' with
        | none => simp [h2] at hem
        | some ik =>
          simp [h2] at hem; subst hem
          unfold exec at hx
          obtain ⟨fl', h3, h4⟩ := ih h1 h2 hp.2 (hr.bind (p.slot_of hl hi)) hx hns
          exact ⟨fl', by simp only [pre, wexec_const, wexec_set]; exact h3, h4⟩
  | num d z k ih =>
    unfold lower at hlow
    cases h1 : lower (tableSyms m) ty k with
    | none => simp [h1] at hlow
    | some k' =>
      simp [h1] at hlow; subst hlow
      unfold emit at hem
      cases h2 : emit m (registered m p.ws) ty ret k' with
      | none => simp [h2] at hem
      | some ik =>
        simp [h2] at hem; subst hem
        unfold exec at hx
        obtain ⟨fl', h3, h4⟩ := ih h1 h2 hp (hr.bind (v := .int z) (z := z) rfl) hx hns
        exact ⟨fl', by simp only [pre, wexec_const, wexec_set]; exact h3, h4⟩
  | add d a b k ih =>
    unfold lower at hlow
    cases h1 : lower (tableSyms m) ty k with
    | none => simp [h1] at hlow
    | some k' =>
      simp [h1] at hlow; subst hlow
      unfold emit at hem
      cases h2 : emit m (registered m p.ws) ty ret k' with
      | none => simp [h2] at hem
      | some ik =>
        simp [h2] at hem; subst hem
        unfold exec at hx
        split at hx
        · rename_i x y ha hb
          have ra : l a = x := hr a _ ha
          have rb : l b = y := hr b _ hb
          obtain ⟨fl', h3, h4⟩ := ih h1 h2 hp
            (hr.bind (d := d) (v := .int (x + y)) (z := x + y) rfl) hx hns
          refine ⟨fl', ?_, h4⟩
          simp only [pre, wexec_get, wexec_add, wexec_set, ra, rb]
          exact h3
        · cases hx; exact absurd rfl hns
  | call d rty f args k ih =>
    unfold lower at hlow
    cases h1 : lower (tableSyms m) ty k with
    | none => simp [h1] at hlow
    | some k' =>
      simp [h1] at hlow; subst hlow
      unfold emit at hem
      split at hem
      · cases hem
      · rename_i i hi
        cases h2 : emit m (registered m p.ws) ty ret k' with
        | none => simp [h2] at hem
        | some ik =>
          simp [h2] at hem; subst hem
          unfold exec at hx
          split at hx
          · cases hx; exact absurd rfl hns
          · rename_i vs hvs
            have hz := hr.readAll hvs
            have hpre : wexec w wcf n l [] (pre (gets args ++ .call i :: setResult rty d) ik) =
                resume (direct w wcf i ((args.map l).reverse ++ []))
                  fun st' => wexec w wcf n l st' (pre (setResult rty d) ik) := by
              rw [wexec_gets]
              simp only [pre, wexec_call]
            rw [hpre]
            cases ho : cf f vs with
            | none => rw [ho] at hx; cases hx
            | some o =>
              rw [ho] at hx
              cases o with
              | stuck => cases hx; exact absurd rfl hns
              | trap =>
                cases hx
                obtain ⟨o', h5, h6⟩ := direct_sim (st := []) p hl hc ho (by simp)
                  (funcIdx_nameAt hi) hz
                rw [h5]
                cases o' with
                | trap => exact ⟨.fin .trap, rfl, rfl⟩
                | done v => cases v <;> exact h6.elim
                | invalid => exact h6.elim
              | done v =>
                obtain ⟨o', h5, h6⟩ := direct_sim (st := []) p hl hc ho (by simp)
                  (funcIdx_nameAt hi) hz
                rw [h5]
                cases v with
                | none =>
                  cases o' with
                  | trap => exact h6.elim
                  | invalid => exact h6.elim
                  | done v' =>
                    cases v' with
                    | some => exact h6.elim
                    | none =>
                      simp only [after] at hx
                      split at hx
                      · rename_i hn
                        obtain ⟨fl', h3, h4⟩ := ih h1 h2 hp.2 hr hx hns
                        exact ⟨fl', by simpa [resume, push, setResult, hn, pre] using h3, h4⟩
                      · cases hx; exact absurd rfl hns
                | some v =>
                  cases o' with
                  | trap => exact h6.elim
                  | invalid => exact h6.elim
                  | done v' =>
                    cases v' with
                    | none => exact h6.elim
                    | some z =>
                      simp only [after] at hx
                      split at hx
                      · cases hx; exact absurd rfl hns
                      · rename_i hn
                        obtain ⟨fl', h3, h4⟩ := ih h1 h2 hp.2 (hr.bind (d := d) h6) hx hns
                        refine ⟨fl', ?_, h4⟩
                        simp only [resume, push, setResult, hn, if_false, pre, wexec_set]
                        exact h3
  | callInd d rty callee args k ih => exact hp.1.elim
  | ifte c t e k iht ihe ihk =>
    unfold lower at hlow
    split at hlow
    · rename_i t' e' k' ht he hk
      cases hlow
      unfold emit at hem
      split at hem
      · rename_i ti ei ki ht' he' hk'
        cases hem
        unfold exec at hx
        split at hx
        · rename_i z hz
          have rz : l c = z := hr c _ hz
          simp only [wexec_get, wexec_ifte, rz]
          by_cases h0 : z = 0
          · simp only [h0, if_true] at hx ⊢
            cases hb : exec m cf env e with
            | none => rw [hb] at hx; cases hx
            | some flb =>
              rw [hb] at hx
              cases flb with
              | cont env' =>
                obtain ⟨flb', h3, h4⟩ := ihe he he' hp.2.1 hr hb (by simp)
                cases flb' with
                | fin o => exact h4.elim
                | cont l' st' =>
                  obtain ⟨rfl, h4⟩ := h4
                  rw [h3]
                  exact ihk hk hk' hp.2.2 h4 hx hns
              | fin o =>
                cases hx
                obtain ⟨flb', h3, h4⟩ := ihe he he' hp.2.1 hr hb hns
                rw [h3]
                cases flb' with
                | cont l' st' => cases o with
                  | done v => cases v <;> exact h4.elim
                  | trap => exact h4.elim
                  | stuck => exact h4.elim
                | fin o' => exact ⟨.fin o', rfl, h4⟩
          · simp only [h0, if_false] at hx ⊢
            cases hb : exec m cf env t with
            | none => rw [hb] at hx; cases hx
            | some flb =>
              rw [hb] at hx
              cases flb with
              | cont env' =>
                obtain ⟨flb', h3, h4⟩ := iht ht ht' hp.1 hr hb (by simp)
                cases flb' with
                | fin o => exact h4.elim
                | cont l' st' =>
                  obtain ⟨rfl, h4⟩ := h4
                  rw [h3]
                  exact ihk hk hk' hp.2.2 h4 hx hns
              | fin o =>
                cases hx
                obtain ⟨flb', h3, h4⟩ := iht ht ht' hp.1 hr hb hns
                rw [h3]
                cases flb' with
                | cont l' st' => cases o with
                  | done v => cases v <;> exact h4.elim
                  | trap => exact h4.elim
                  | stuck => exact h4.elim
                | fin o' => exact ⟨.fin o', rfl, h4⟩
        · cases hx; exact absurd rfl hns
      · cases hem
    · cases hlow
  | fall =>
    cases hlow; cases hem; cases hx
    exact ⟨.cont l [], by simp [wexec], rfl, hr⟩
  | ret v =>
    cases v with
    | none =>
      cases hlow; cases hem; cases hx
      refine ⟨.fin (returned n []), by simp only [pre, wexec_ret], ?_⟩
      intro hn
      simp [returned, hn]
    | some v =>
      cases hlow; cases hem
      unfold exec at hx
      split at hx
      · rename_i x hv
        cases hx
        refine ⟨.fin (returned n [l v]), by simp only [pre, wexec_get, wexec_ret], ?_⟩
        intro hn
        exact ⟨l v, by simp [returned, hn], hr v x hv⟩
      · cases hx; exact absurd rfl hns
  | tail f args =>
    cases hlow
    unfold emit at hem
    split at hem
    · cases hem
    · rename_i i hi
      cases hem
      unfold exec at hx
      split at hx
      · cases hx; exact absurd rfl hns
      · rename_i vs hvs
        cases ho : cf f vs with
        | none => rw [ho] at hx; cases hx
        | some o =>
          rw [ho] at hx
          cases hx
          obtain ⟨o', h5, h6⟩ := direct_sim (st := []) p hl hc ho (fun h => hns (by rw [h]))
            (funcIdx_nameAt hi) (hr.readAll hvs)
          refine ⟨.fin o', ?_, outRep_flow h6⟩
          rw [wexec_gets]
          simp only [pre, wexec_retCall, h5]
          rfl
  | tailInd callee args sig =>
    unfold lower at hlow
    split at hlow
    · cases hlow
    · rename_i s hs
      cases hlow
      have hsig : sig = some s ∧ s.result = .nil := by
        cases sig with
        | none => cases hs
        | some s' =>
          simp only [exactSig] at hs
          split at hs
          · rename_i hnil
            split at hs
            · split at hs
              · cases hs; exact ⟨rfl, hnil⟩
              · cases hs
            · cases hs
          · cases hs
      unfold emit at hem
      split at hem
      · cases hem
      · rename_i i hi
        cases hem
        unfold exec at hx
        split at hx
        · rename_i f vs hf hvs
          split at hx
          · rename_i hso
            cases ho : cf f vs with
            | none => rw [ho] at hx; cases hx
            | some o =>
              rw [ho] at hx
              cases hx
              obtain ⟨o', h5, h6⟩ := indirect_sim p hl hc ho (fun h => hns (by rw [h]))
                (hr callee _ hf) (hr.readAll hvs) (hso.2.trans hsig.1) hsig.2 hi
              refine ⟨.fin o', ?_, outRep_flow h6⟩
              rw [wexec_gets]
              simp only [pre, wexec_get, wexec_retCallInd, List.append_nil, h5]
              rfl
          · cases hx; exact absurd rfl hns
        · cases hx; exact absurd rfl hns
  | unreach =>
    cases hlow; cases hem; cases hx
    exact ⟨.fin .trap, by simp only [pre, wexec_unreach], rfl⟩

/-! ## Functions -/

theorem finish_sim {m : Mod} {w : WMod} {t : Ty} {n : Nat} (hn : n = arity t) {fl : Flow}
    {fl' : WFlow} (h : FlowRep m w n fl fl') (hs : checkResult t fl ≠ .stuck) :
    OutRep m w (checkResult t fl) (finish n fl') := by
  unfold arity at hn
  by_cases ht : t = .nil
  · simp [ht] at hn
    subst hn
    cases fl with
    | cont env => cases fl' with
      | fin o => exact h.elim
      | cont l st =>
        simp [checkResult, ht, finish, returned, OutRep]
    | fin o =>
      cases fl' with
      | cont l st => cases o with
        | done v => cases v <;> exact h.elim
        | trap => exact h.elim
        | stuck => exact h.elim
      | fin o' =>
        cases o with
        | done v => cases v with
          | none =>
            have := h rfl
            subst this
            simp [checkResult, ht, finish, OutRep]
          | some v => simp [checkResult, ht] at hs
        | trap =>
          have : o' = .trap := h
          subst this
          simp [checkResult, finish, OutRep]
        | stuck => exact h.elim
  · simp [ht] at hn
    subst hn
    cases fl with
    | cont env => simp [checkResult, ht] at hs
    | fin o =>
      cases fl' with
      | cont l st => cases o with
        | done v => cases v <;> exact h.elim
        | trap => exact h.elim
        | stuck => exact h.elim
      | fin o' =>
        cases o with
        | done v => cases v with
          | none => simp [checkResult, ht] at hs
          | some v =>
            obtain ⟨z, rfl, hz⟩ := h rfl
            simpa [checkResult, ht, finish, OutRep] using hz
        | trap =>
          have : o' = .trap := h
          subst this
          simp [checkResult, finish, OutRep]
        | stuck => exact h.elim

/-- Where `run` finds a function. -/
theorem find_import {m : Mod} {f n : String} {s : Sig}
    (h : (m.imports.find? fun p => p.1 = f) = some (n, s)) :
    ∃ i : Nat, m.imports[i]? = some (f, s) := by
  have h1 := List.find?_some h
  have h2 := List.mem_of_find?_eq_some h
  simp at h1
  subst h1
  exact List.mem_iff_getElem?.mp h2

theorem find_fn {m : Mod} {f : String} {g : Fn Code}
    (h : (m.fns.find? fun g => g.name = f) = some g) :
    ∃ j : Nat, m.fns[j]? = some g ∧ g.name = f := by
  have h1 := List.find?_some h
  have h2 := List.mem_of_find?_eq_some h
  simp at h1
  obtain ⟨j, hj⟩ := List.mem_iff_getElem?.mp h2
  exact ⟨j, hj, h1⟩

theorem nameAt_import {m : Mod} {i : Nat} {f : String} {s : Sig}
    (h : m.imports[i]? = some (f, s)) : nameAt m i = some f ∧ (declSigs m)[i]? = some s := by
  have hlt := (List.getElem?_eq_some_iff.mp h).1
  constructor
  · unfold nameAt
    rw [List.getElem?_append_left (by simpa using hlt)]
    simp [h]
  · unfold declSigs
    rw [List.getElem?_append_left (by simpa using hlt)]
    simp [h]

theorem nameAt_fn {m : Mod} {j : Nat} {g : Fn Code} (h : m.fns[j]? = some g) :
    nameAt m (m.imports.length + j) = some g.name ∧
      (declSigs m)[m.imports.length + j]? = some g.sig := by
  constructor
  · unfold nameAt
    rw [List.getElem?_append_right (by simp)]
    simp [h]
  · unfold declSigs
    rw [List.getElem?_append_right (by simp)]
    simp [h]

theorem run_agree {m : Mod} {w : WMod} (p : Parts m w) (hl : Linked m) (hp : NoIndirectCall m)
    (host : String → List (BitVec 32) → BitVec 32) (n : Nat) :
    CallsAgree m w (run m host n) (wrun w host n) := by
  induction n with
  | zero =>
    constructor
    · intro f vs o h; cases h
    · intro f vs o i zs h; cases h
  | succ n ih =>
    constructor
    · intro f vs o h ho
      unfold run at h
      split at h
      · rename_i q s hq
        obtain ⟨i, hi⟩ := find_import hq
        obtain ⟨h1, h2⟩ := nameAt_import hi
        split at h
        · rename_i hlen
          exact ⟨i, s, h1, h2, hlen⟩
        · cases h; exact absurd rfl ho
      · split at h
        · cases h; exact absurd rfl ho
        · rename_i g hg
          obtain ⟨j, hj, rfl⟩ := find_fn hg
          obtain ⟨h1, h2⟩ := nameAt_fn hj
          split at h
          · rename_i hlen
            exact ⟨_, g.sig, h1, h2, hlen⟩
          · cases h; exact absurd rfl ho
    · intro f vs o i zs h ho hi hz
      unfold run at h
      split at h
      · rename_i q s hq
        obtain ⟨i', hi'⟩ := find_import hq
        obtain ⟨h1, h2⟩ := nameAt_import hi'
        have := nameAt_inj hl.distinct hi h1
        subst this
        split at h
        · rename_i hlen
          obtain ⟨ps, rs, h3, h4, h5, _⟩ := p.func_type h2
          split at h
          · rename_i ns hns
            cases h
            have hzs := hz.ints hns
            subst hzs
            have himp : w.imports[i]? = some (f, gcCount m + i) := by
              rw [p.wimports, emitImports_get, hi']; rfl
            refine ⟨if rs = [] then .done none else .done (some (host f zs)), ?_, ?_⟩
            · unfold wrun
              rw [h3]
              simp only
              rw [if_pos (by rw [← hz.length, hlen, h4]), himp]
            · unfold hostOut
              unfold arity at h5
              by_cases hnil : s.result = .nil
              · simp [hnil] at h5
                simp [h5, hnil, OutRep]
              · simp [hnil] at h5
                have : rs ≠ [] := by intro h0; simp [h0] at h5
                simp [this, hnil, OutRep, Rep]
          · cases h; exact absurd rfl ho
        · cases h; exact absurd rfl ho
      · split at h
        · cases h; exact absurd rfl ho
        · rename_i g hg
          obtain ⟨j, hj, rfl⟩ := find_fn hg
          obtain ⟨h1, h2⟩ := nameAt_fn hj
          have := nameAt_inj hl.distinct hi h1
          subst this
          split at h
          · rename_i hlen
            obtain ⟨ps, rs, h3, h4, h5, _⟩ := p.func_type h2
            obtain ⟨b, h6, h7⟩ := lowerFns_get p.lowered hj
            obtain ⟨c, h8, h9⟩ := emitFns_get p.emitted h7
            cases hx : exec m (run m host n) (fun i => vs[i]?) g.body with
            | none => simp [hx] at h
            | some fl =>
              simp [hx] at h
              subst h
              have hns : fl ≠ .fin .stuck := by
                intro h0; subst h0; exact ho rfl
              obtain ⟨fl', h10, h11⟩ := exec_sim p hl ih g.ty g.sig.result rs.length g.body
                h6 h8 (hp g (List.mem_of_getElem? hj)) hz.get hx hns
              refine ⟨finish rs.length fl', ?_, finish_sim h5 h11 ho⟩
              unfold wrun
              rw [h3]
              simp only
              rw [if_pos (by rw [← hz.length, hlen, h4])]
              have himp : w.imports[m.imports.length + j]? = none := by
                rw [p.wimports]
                apply List.getElem?_eq_none
                rw [emitImports_length]; omega
              have hlen' : w.imports.length = m.imports.length := by
                rw [p.wimports, emitImports_length]
              rw [himp]
              simp only [hlen', Nat.add_sub_cancel_left, h9, h10]
              rfl
          · cases h; exact absurd rfl ho

end Verif.WasmCall
