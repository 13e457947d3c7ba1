import Verif.TempBorrow.Analysis

/-!
# Temporaries that are not counted are backed
-/

namespace Verif.TempBorrow

open Verif.Live Verif.RcInsert

/-- Every value is defined once. -/
def Ssa (body : Body) : Prop := (body.flatMap (fun blk => blk.args ++ blk.ops.flatMap (·.results))).Nodup

theorem Ssa.at {body : Body} (h : Ssa body) {b i b' i' : Nat} {op op' : Op} (h1 : IsAt body b i op) (h2 : IsAt body b' i' op') {v : Nat}
    (hv : v ∈ op.results) (hv' : v ∈ op'.results) : b = b' ∧ i = i' ∧ op = op' := by
  obtain ⟨blk, hb, ho⟩ := h1
  obtain ⟨blk', hb', ho'⟩ := h2
  have e : b = b' := flatMap_index h hb hb' (v := v)
    (List.mem_append_right _ (List.mem_flatMap.2 ⟨op, List.mem_of_getElem? ho, hv⟩))
    (List.mem_append_right _ (List.mem_flatMap.2 ⟨op', List.mem_of_getElem? ho', hv'⟩))
  subst e
  rw [hb] at hb'
  cases hb'
  have hn := flatMap_nodup h (List.mem_of_getElem? hb)
  have e : i = i' := flatMap_index (List.nodup_append.1 hn).2.1 ho ho' hv hv'
  subst e
  rw [ho] at ho'
  exact ⟨rfl, rfl, Option.some.inj ho'⟩

theorem Ssa.arg {body : Body} (h : Ssa body) {b b' : Nat} {blk blk' : Block} (hb : body[b]? = some blk) (hb' : body[b']? = some blk')
    {v : Nat} (hv : v ∈ blk.args) (hv' : v ∈ blk'.args) : b = b' :=
  flatMap_index h hb hb' (v := v) (List.mem_append_left _ hv) (List.mem_append_left _ hv')

theorem Ssa.argRes {body : Body} (h : Ssa body) {b b' i : Nat} {blk : Block} {op : Op} (hb : body[b]? = some blk) (h2 : IsAt body b' i op)
    {v : Nat} (hv : v ∈ blk.args) (hv' : v ∈ op.results) : False := by
  obtain ⟨blk', hb', ho'⟩ := h2
  have e : b = b' := flatMap_index h hb hb' (v := v) (List.mem_append_left _ hv)
    (List.mem_append_right _ (List.mem_flatMap.2 ⟨op, List.mem_of_getElem? ho', hv'⟩))
  subst e
  rw [hb] at hb'
  cases hb'
  have hn := flatMap_nodup h (List.mem_of_getElem? hb)
  exact (List.nodup_append.1 hn).2.2 v hv v (List.mem_flatMap.2 ⟨op, List.mem_of_getElem? ho', hv'⟩) rfl

/-- The value is defined before the point on every path. -/
def DefBefore (body : Body) (v b i : Nat) : Prop :=
  (∃ blk, body[0]? = some blk ∧ v ∈ blk.args) ∨ ∃ b0 i0 op, IsAt body b0 i0 op ∧ v ∈ op.results ∧ DomPt body b0 i0 b i

theorem DefBefore.trans {body : Body} {v b i b' i' : Nat} (h : DefBefore body v b i) (h' : DomPt body b i b' i') :
    DefBefore body v b' i' := by
  rcases h with h | ⟨b0, i0, op, h1, h2, h3⟩
  · exact Or.inl h
  · exact Or.inr ⟨b0, i0, op, h1, h2, h3.trans h'⟩

theorem DefBefore.at {body : Body} (hs : Ssa body) {v b i b' i' : Nat} {op : Op} (h : DefBefore body v b i)
    (hat : IsAt body b' i' op) (hv : v ∈ op.results) : DomPt body b' i' b i := by
  rcases h with ⟨blk, hb, ha⟩ | ⟨b0, i0, op0, h1, h2, h3⟩
  · exact absurd hv (fun hv => hs.argRes hb hat ha hv)
  · obtain ⟨rfl, rfl, rfl⟩ := hs.at h1 hat h2 hv
    exact h3

theorem castAlias_spec {u : Use} {a : Nat} (h : castAlias u = some a) :
    u.op.kind = .cast ∧ u.j = 0 ∧ u.op.results = [a] ∧ ∃ x, u.op.operands = [x] := by
  simp only [castAlias] at h
  split at h
  · rename_i hk
    split at h
    · rename_i x r h1 h2
      injection h with h
      subst h
      exact ⟨hk.1, hk.2, h2, x, h1⟩
    · cases h
  · cases h

/-- A value is a cast of one value only. -/
theorem castTo_unique {body : Body} (hs : Ssa body) {x x' y : Nat} (h : CastTo body x y) (h' : CastTo body x' y) : x = x' := by
  obtain ⟨u, hu, e⟩ := h
  obtain ⟨u', hu', e'⟩ := h'
  obtain ⟨-, j1, r1, z, o1⟩ := castAlias_spec e
  obtain ⟨-, j2, r2, z', o2⟩ := castAlias_spec e'
  rw [mem_usesOf] at hu hu'
  obtain ⟨-, -, eo⟩ := hs.at hu.1 hu'.1 (v := y) (by simp [r1]) (by simp [r2])
  have h1 := hu.2
  have h2 := hu'.2
  rw [j1] at h1
  rw [j2, ← eo] at h2
  rw [h1] at h2
  exact Option.some.inj h2

theorem castTo_res {body : Body} {x y : Nat} (h : CastTo body x y) : ∃ b i op, IsAt body b i op ∧ op.kind = .cast ∧ y ∈ op.results := by
  obtain ⟨u, hu, e⟩ := h
  obtain ⟨k, -, r1, -⟩ := castAlias_spec e
  exact ⟨u.b, u.i, u.op, (mem_usesOf.1 hu).1, k, by simp [r1]⟩

/-- Chains of casts that end in the same value start in the same value, when neither start is a cast itself. -/
theorem chain_unique {body : Body} (hs : Ssa body) {x x' y : Nat} (h : Relation.ReflTransGen (CastTo body) x y)
    (h' : Relation.ReflTransGen (CastTo body) x' y) (hx : ∀ z, ¬ CastTo body z x) (hx' : ∀ z, ¬ CastTo body z x') : x = x' := by
  induction h generalizing x' with
  | refl =>
    rcases Relation.ReflTransGen.cases_tail h' with e | ⟨z, -, hz⟩
    · exact e
    · exact absurd hz (hx z)
  | tail h1 h2 ih =>
    rcases Relation.ReflTransGen.cases_tail h' with e | ⟨z, hz, hz'⟩
    · subst e
      exact absurd h2 (hx' _)
    · have := castTo_unique hs h2 hz'
      subst this
      exact ih hz hx'

section
variable {c : Config} {I : Info} {body : Body} {contract : Nat → Nat → Option Contract} {t : Dominance.Tree body.length}
  (hd : ∀ a b, t.dominates a b = true → Dominance.Dominates (cfgOf body) a b) (hs : Ssa body)

theorem valueDom_sound (hd : ∀ a b, t.dominates a b = true → Dominance.Dominates (cfgOf body) a b) {v b i : Nat}
    (h : valueDom body t v b i = true) : DefBefore body v b i := by
  simp only [valueDom] at h
  split at h
  · rename_i a ha
    simp only [Bool.and_eq_true, decide_eq_true_eq] at h
    obtain ⟨rfl, -⟩ := h
    exact Or.inl (defOf_arg ha)
  · rename_i b' i' hr
    obtain ⟨op, h1, h2⟩ := defOf_res hr
    exact Or.inr ⟨b', i', op, h1, h2, opDom_sound hd h⟩
  · cases h

section
variable {inp : Input} {b i : Nat} {op : Op} {temp owner : Nat} {as V : List Nat}

/-- A load does not define a cast. -/
theorem TempOf.noCast {n : Nat} {t : Dominance.Tree n} (hs : Ssa inp.body) (h : TempOf inp contract t b i op temp owner as V) (z : Nat) : ¬ CastTo inp.body z temp := by
  intro hz
  obtain ⟨b', i', op', h1, h2, h3⟩ := castTo_res hz
  obtain ⟨-, -, e⟩ := hs.at h.at_ h1 (v := temp) (by simp [h.results]) h3
  rw [← e, h.load] at h2
  cases h2

/-- Two temporaries share no names. -/
theorem TempOf.same {n : Nat} {t : Dominance.Tree n} (hs : Ssa inp.body) (h : TempOf inp contract t b i op temp owner as V)
    {b' i' : Nat} {op' : Op} {temp' owner' : Nat} {as' V' : List Nat} (h' : TempOf inp contract t b' i' op' temp' owner' as' V') {w : Nat}
    (hw : w ∈ V) (hw' : w ∈ V') : temp = temp' ∧ b = b' ∧ i = i' ∧ op = op' ∧ owner = owner' := by
  have e := chain_unique hs (h.proven.chain w hw) (h'.proven.chain w hw') (h.noCast hs) (h'.noCast hs)
  subst e
  obtain ⟨rfl, rfl, rfl⟩ := hs.at h.at_ h'.at_ (v := temp) (by simp [h.results]) (by simp [h'.results])
  obtain ⟨a, h1, h2⟩ := h.address
  obtain ⟨a', h1', h2'⟩ := h'.address
  rw [h1] at h1'
  cases h1'
  rw [h2] at h2'
  exact ⟨rfl, rfl, rfl, rfl, Option.some.inj h2'⟩

end

/-- The analysed temporaries of a body. -/
abbrev infoOf (I : Info) (body : Body) (contract : Nat → Nat → Option Contract) (t : Dominance.Tree body.length) : TempInfo :=
  tempBorrows (analyse I body []) contract t

abbrev Temp (I : Info) (body : Body) (contract : Nat → Nat → Option Contract) (t : Dominance.Tree body.length) (b i : Nat) (op : Op)
    (temp owner : Nat) (as V : List Nat) : Prop := TempOf (analyse I body []) contract t b i op temp owner as V

include hs in
/-- The names of a temporary have its owner in the map. -/
theorem deps_iff {b i : Nat} {op : Op} {temp owner : Nat} {as V : List Nat} (h : Temp I body contract t b i op temp owner as V)
    (hm : temp ∈ (infoOf I body contract t).borrowed) {w : Nat} (hw : w ∈ V) : (infoOf I body contract t).deps.lookup w = some owner := by
  obtain ⟨b', i', op', o', as', V', h', hl⟩ := temp_deps hm
  obtain ⟨-, rfl, rfl, rfl, rfl⟩ := h.same hs h' h.proven.self h'.proven.self
  -- the value is a name in both collections
  have hw' : w ∈ V' := by
    -- both are closed under the same casts
    have hc := h.proven.chain w hw
    clear hw hl
    induction hc with
    | refl => exact h'.proven.self
    | tail _ h2 ih =>
      obtain ⟨u, hu, e⟩ := h2
      obtain ⟨-, -, h3⟩ := h'.proven.good _ ih u hu
      rcases h3 with ⟨a, ea, ha⟩ | ⟨ea, -⟩
      · rw [e] at ea
        cases ea
        exact ha
      · rw [e] at ea
        cases ea
  obtain ⟨o'', ho⟩ := hl w hw'
  obtain ⟨b2, i2, op2, v2, as2, V2, h2, hw2, -⟩ := mem_deps (lookup_mem' ho)
  obtain ⟨-, -, -, -, e⟩ := h.same hs h2 hw hw2
  rw [ho, e]

include hd hs in
/-- What is borrowed from is defined before the user. -/
theorem borrow_before {w o b i : Nat} (h : (infoOf I body contract t).deps.lookup w = some o)
    (hu : (∃ op, IsAt body b i op ∧ w ∈ op.operands) ∨ DefBefore body w b i) : DefBefore body o b i := by
  obtain ⟨lb, li, ld, v, as, V, hT, hw, -⟩ := mem_deps (lookup_mem' h)
  have ho := valueDom_sound hd hT.proven.owner
  apply ho.trans
  rcases hu with ⟨op, hat, hop⟩ | hb
  · obtain ⟨j, hj⟩ := List.mem_iff_getElem?.1 hop
    exact opDom_sound hd (hT.proven.good w hw ⟨b, i, j, op⟩ (mem_usesOf.2 ⟨hat, hj⟩)).2.1
  · rcases hT.proven.named w hw with rfl | ha
    · exact hb.at hs hT.at_ (by simp [hT.results])
    · obtain ⟨-, w', hw', u, hu, e⟩ := hT.proven.made w ha
      have h1 := opDom_sound hd (hT.proven.good w' hw' u hu).2.1
      exact h1.trans (hb.at hs (mem_usesOf.1 hu).1 (by simp [(castAlias_spec e).2.2.1]))

include hd hs in
theorem trans_before {inp : Input} (hdep : inp.deps = (infoOf I body contract t).deps) {v o b i : Nat} {op : Op} (hat : IsAt body b i op) (hv : v ∈ op.operands)
    (h : Relation.TransGen (BorrowsFrom inp) v o) : DefBefore body o b i := by
  induction h with
  | single h =>
    rw [BorrowsFrom, hdep] at h
    exact borrow_before hd hs h (Or.inl ⟨op, hat, hv⟩)
  | tail _ h ih =>
    rw [BorrowsFrom, hdep] at h
    exact borrow_before hd hs h (Or.inr ih)

/-- Casts are followed. -/
theorem alias_named {n : Nat} {t : Dominance.Tree n} {inp : Input} {b i : Nat} {op : Op} {temp owner : Nat} {as V : List Nat} (h : TempOf inp contract t b i op temp owner as V)
    (hct : ∀ b i op, IsAt inp.body b i op → op.kind = .cast → contract b i = none) {v : Nat} {J : Info}
    (hc : Relation.TransGen (CastStep J (inp.body.flatMap (·.ops))) temp v) : v ∈ V := by
  have one : ∀ x y, x ∈ V → CastStep J (inp.body.flatMap (·.ops)) x y → y ∈ V := by
    rintro x y hx ⟨o, ho, hk, h1, h2, -⟩
    obtain ⟨blk, hb, ho⟩ := List.mem_flatMap.1 ho
    obtain ⟨b', hb'⟩ := List.mem_iff_getElem?.1 hb
    obtain ⟨i', hi'⟩ := List.mem_iff_getElem?.1 ho
    have hat : IsAt inp.body b' i' o := ⟨blk, hb', hi'⟩
    obtain ⟨-, -, hg⟩ := h.proven.good x hx ⟨b', i', 0, o⟩ (mem_usesOf.2 ⟨hat, by rw [← List.head?_eq_getElem?]; exact h1⟩)
    rcases hg with ⟨a, ea, ha⟩ | ⟨-, hok⟩
    · have := (castAlias_spec ea).2.2.1
      simp only at this
      rw [this] at h2
      simp only [List.head?_cons, Option.some.injEq] at h2
      rw [← h2]
      exact ha
    · simp [useOk, hk, hct b' i' o hat hk] at hok
  induction hc with
  | single hc => exact one _ _ h.proven.self hc
  | tail _ hc ih => exact one _ _ ih hc

end

end Verif.TempBorrow
