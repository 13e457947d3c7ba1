import Verif.WasmCf.Spec
import Mathlib.Data.List.Nodup

/- The assignment of locals. -/
namespace Verif.WasmCf

/-- Every entry has its own local, below the next free one. -/
def Good (m : Locals × Nat) : Prop := (∀ p ∈ m.1, p.2 < m.2) ∧ (m.1.map Prod.snd).Nodup

theorem Good.push {l : Locals} {k : Nat} (h : Good (l, k)) (a : Name) : Good ((a, k) :: l, k + 1) := by
  obtain ⟨h1, h2⟩ := h
  constructor
  · intro p hp
    rcases List.mem_cons.1 hp with rfl | hp
    · exact Nat.lt_succ_self _
    · exact Nat.lt_succ_of_lt (h1 p hp)
  · simp only [List.map_cons, List.nodup_cons]
    refine ⟨?_, h2⟩
    intro hk
    obtain ⟨p, hp, e⟩ := List.mem_map.1 hk
    have := h1 p hp
    simp only at e this
    omega

theorem Good.args {as : List Name} : ∀ {m : Locals × Nat}, Good m → Good (assignArgs as m) := by
  induction as with
  | nil => intro m h; exact h
  | cons a as ih =>
    intro m h
    obtain ⟨l, k⟩ := m
    rw [assignArgs]
    split
    · exact ih h
    · exact ih (h.push a)

theorem Good.res {r : Option Name} {m : Locals × Nat} (h : Good m) : Good (assignRes r m) := by
  obtain ⟨l, k⟩ := m
  cases r with
  | none => exact h
  | some v => exact h.push v

mutual
theorem Good.op : ∀ (o : WOp) {m : Locals × Nat}, Good m → Good (assignOp o m)
  | .plain _ _ _, _, h => h.res
  | .ite _ _ t e, _, h => (Good.ops e (Good.ops t h)).res
  | .block _ b, _, h => (Good.ops b h).res
  | .loop _ _ _ b, _, h => (Good.ops b h.args).res
  | .yield _, _, h => h
  | .br _, _, h => h
  | .exit _ _, _, h => h
  | .left, _, h => h
theorem Good.ops : ∀ (os : List WOp) {m : Locals × Nat}, Good m → Good (assignOps os m)
  | [], _, h => h
  | o :: os, _, h => Good.ops os (Good.op o h)
end

theorem good_localsOf (f : Func) :
    Good (assignOps (lowerOps f.body) (assignArgs (f.params.map .src) ([], 0))) :=
  Good.ops _ (Good.args ⟨by simp, by simp⟩)

theorem mem_of_lookup {l : Locals} {a : Name} {i : Nat} (h : l.lookup a = some i) : (a, i) ∈ l := by
  induction l with
  | nil => simp at h
  | cons p l ih =>
    obtain ⟨b, j⟩ := p
    rw [List.lookup_cons] at h
    split at h
    · next e =>
      rw [beq_iff_eq] at e
      subst e
      cases h
      exact List.mem_cons_self
    · exact List.mem_cons_of_mem _ (ih h)

/-- Two values never share a local. -/
def Inj (l : Locals) : Prop := ∀ a b i, l.lookup a = some i → l.lookup b = some i → a = b

theorem snd_inj {l : Locals} (h : (l.map Prod.snd).Nodup) {a b : Name} {i : Nat} (ha : (a, i) ∈ l)
    (hb : (b, i) ∈ l) : a = b :=
  congrArg Prod.fst (List.inj_on_of_nodup_map h ha hb rfl)

theorem inj_localsOf (f : Func) : Inj (localsOf f) := fun _ _ _ ha hb =>
  snd_inj (good_localsOf f).2 (mem_of_lookup ha) (mem_of_lookup hb)

theorem types_lookup {l : Locals} (h : (l.map Prod.snd).Nodup) (T : Name → Ty) {a : Name} {i : Nat}
    (ha : (a, i) ∈ l) : (l.map fun p => (p.2, T p.1)).lookup i = some (T a) := by
  induction l with
  | nil => simp at ha
  | cons p l ih =>
    obtain ⟨b, j⟩ := p
    rw [List.map_cons, List.lookup_cons]
    split
    · next e =>
      rw [beq_iff_eq] at e
      subst e
      have := snd_inj h ha List.mem_cons_self
      rw [this]
    · next e =>
      rcases List.mem_cons.1 ha with e' | ha
      · cases e'
        simp at e
      · exact ih (List.nodup_cons.1 h).2 ha

theorem localTypes_lookup (f : Func) {a : Name} {i : Nat} (h : (localsOf f).lookup a = some i) :
    (localTypes f).lookup i = some (tyName f.ty a) :=
  types_lookup (good_localsOf f).2 _ (mem_of_lookup h)

/-! Which names have locals -/

theorem lookup_push {l : Locals} {a b : Name} {k : Nat} (h : (l.lookup a).isSome) :
    (List.lookup a ((b, k) :: l)).isSome := by
  rw [List.lookup_cons]
  split
  · rfl
  · exact h

theorem assignArgs_mono {as : List Name} {a : Name} : ∀ {m : Locals × Nat},
    (m.1.lookup a).isSome → ((assignArgs as m).1.lookup a).isSome := by
  induction as with
  | nil => intro m h; exact h
  | cons b as ih =>
    intro m h
    obtain ⟨l, k⟩ := m
    rw [assignArgs]
    split
    · exact ih h
    · exact ih (lookup_push h)

theorem assignArgs_has {as : List Name} {a : Name} (ha : a ∈ as) : ∀ {m : Locals × Nat},
    ((assignArgs as m).1.lookup a).isSome := by
  induction as with
  | nil => cases ha
  | cons b as ih =>
    intro m
    obtain ⟨l, k⟩ := m
    rw [assignArgs]
    rcases List.mem_cons.1 ha with rfl | ha
    · split
      · next h => exact assignArgs_mono h
      · exact assignArgs_mono (by simp)
    · exact ih ha

theorem assignRes_mono {r : Option Name} {a : Name} {m : Locals × Nat}
    (h : (m.1.lookup a).isSome) : ((assignRes r m).1.lookup a).isSome := by
  obtain ⟨l, k⟩ := m
  cases r with
  | none => exact h
  | some v => exact lookup_push h

theorem assignRes_has {a : Name} {m : Locals × Nat} :
    ((assignRes (some a) m).1.lookup a).isSome := by
  obtain ⟨l, k⟩ := m
  simp [assignRes]

mutual
theorem assignOp_mono {a : Name} : ∀ (o : WOp) {m : Locals × Nat},
    (m.1.lookup a).isSome → ((assignOp o m).1.lookup a).isSome
  | .plain _ _ _, _, h => assignRes_mono h
  | .ite _ _ t e, _, h => assignRes_mono (assignOps_mono e (assignOps_mono t h))
  | .block _ b, _, h => assignRes_mono (assignOps_mono b h)
  | .loop _ _ _ b, _, h => assignRes_mono (assignOps_mono b (assignArgs_mono h))
  | .yield _, _, h => h
  | .br _, _, h => h
  | .exit _ _, _, h => h
  | .left, _, h => h
theorem assignOps_mono {a : Name} : ∀ (os : List WOp) {m : Locals × Nat},
    (m.1.lookup a).isSome → ((assignOps os m).1.lookup a).isSome
  | [], _, h => h
  | o :: os, _, h => assignOps_mono os (assignOp_mono o h)
end

mutual
/-- Names defined by an operation after the pass. -/
def WOp.defs : WOp → List Name
  | .plain _ _ r => r.toList
  | .ite _ r t e => r :: (wdefs t ++ wdefs e)
  | .block r b => r :: wdefs b
  | .loop _ r ps b => r :: (ps ++ wdefs b)
  | _ => []
def wdefs : List WOp → List Name
  | [] => []
  | o :: os => o.defs ++ wdefs os
end

mutual
theorem assignOp_has {a : Name} : ∀ (o : WOp) {m : Locals × Nat},
    a ∈ o.defs → ((assignOp o m).1.lookup a).isSome
  | .plain _ _ r, m, h => by
    cases r with
    | none => simp [WOp.defs] at h
    | some v =>
      simp only [WOp.defs, Option.toList_some, List.mem_singleton] at h
      subst h
      exact assignRes_has
  | .ite _ r t e, m, h => by
    rcases List.mem_cons.1 h with rfl | h
    · exact assignRes_has
    · rcases List.mem_append.1 h with h | h
      · exact assignRes_mono (assignOps_mono e (assignOps_has t h))
      · exact assignRes_mono (assignOps_has e h)
  | .block r b, m, h => by
    rcases List.mem_cons.1 h with rfl | h
    · exact assignRes_has
    · exact assignRes_mono (assignOps_has b h)
  | .loop _ r ps b, m, h => by
    rcases List.mem_cons.1 h with rfl | h
    · exact assignRes_has
    · rcases List.mem_append.1 h with h | h
      · exact assignRes_mono (assignOps_mono b (assignArgs_has h))
      · exact assignRes_mono (assignOps_has b h)
  | .yield _, _, h => by simp [WOp.defs] at h
  | .br _, _, h => by simp [WOp.defs] at h
  | .exit _ _, _, h => by simp [WOp.defs] at h
  | .left, _, h => by simp [WOp.defs] at h
theorem assignOps_has {a : Name} : ∀ (os : List WOp) {m : Locals × Nat},
    a ∈ wdefs os → ((assignOps os m).1.lookup a).isSome
  | [], _, h => by simp [wdefs] at h
  | o :: os, m, h => by
    rcases List.mem_append.1 h with h | h
    · exact assignOps_mono os (assignOp_has o h)
    · exact assignOps_has os h
end

theorem wdefs_append (a b : List WOp) : wdefs (a ++ b) = wdefs a ++ wdefs b := by
  induction a with
  | nil => rfl
  | cons o a ih => simp only [List.cons_append, wdefs, ih, List.append_assoc]

/-! Parameters -/

theorem lookup_ne {l : Locals} {a b : Name} {k : Nat} (h : a ≠ b) :
    List.lookup a ((b, k) :: l) = l.lookup a := by
  rw [List.lookup_cons, beq_false_of_ne h]

/-- An operation gives no new local to a name it does not define. -/
theorem assignArgs_same {as : List Name} {a : Name} (ha : a ∉ as) : ∀ {m : Locals × Nat},
    (assignArgs as m).1.lookup a = m.1.lookup a := by
  induction as with
  | nil => intro m; rfl
  | cons b as ih =>
    intro m
    obtain ⟨l, k⟩ := m
    have hb : a ≠ b := fun e => ha (e ▸ List.mem_cons_self)
    rw [assignArgs]
    split
    · exact ih (fun h => ha (List.mem_cons_of_mem _ h))
    · rw [ih (fun h => ha (List.mem_cons_of_mem _ h))]
      exact lookup_ne hb

theorem assignRes_same {r : Option Name} {a : Name} (ha : a ∉ r.toList) {m : Locals × Nat} :
    (assignRes r m).1.lookup a = m.1.lookup a := by
  obtain ⟨l, k⟩ := m
  cases r with
  | none => rfl
  | some v =>
    have hb : a ≠ v := fun e => ha (by simp [e])
    exact lookup_ne hb

mutual
theorem assignOp_same {a : Name} : ∀ (o : WOp) {m : Locals × Nat},
    a ∉ o.defs → (assignOp o m).1.lookup a = m.1.lookup a
  | .plain _ _ r, m, h => assignRes_same h
  | .ite _ r t e, m, h => by
    simp only [WOp.defs, List.mem_cons, List.mem_append, not_or] at h
    rw [assignOp, assignRes_same (by simpa using h.1), assignOps_same e h.2.2,
      assignOps_same t h.2.1]
  | .block r b, m, h => by
    simp only [WOp.defs, List.mem_cons, not_or] at h
    rw [assignOp, assignRes_same (by simpa using h.1), assignOps_same b h.2]
  | .loop _ r ps b, m, h => by
    simp only [WOp.defs, List.mem_cons, List.mem_append, not_or] at h
    rw [assignOp, assignRes_same (by simpa using h.1), assignOps_same b h.2.2,
      assignArgs_same h.2.1]
  | .yield _, _, h => rfl
  | .br _, _, h => rfl
  | .exit _ _, _, h => rfl
  | .left, _, h => rfl
theorem assignOps_same {a : Name} : ∀ (os : List WOp) {m : Locals × Nat},
    a ∉ wdefs os → (assignOps os m).1.lookup a = m.1.lookup a
  | [], _, h => rfl
  | o :: os, m, h => by
    simp only [wdefs, List.mem_append, not_or] at h
    rw [assignOps, assignOps_same os h.2, assignOp_same o h.1]
end

mutual
/-- The values defined after the pass are those of the function. -/
theorem defs_lower {v : Value} : ∀ (o : Op), .src v ∈ wdefs (lowerOp o) → v ∈ o.defs
  | .plain _ _ r, h => by
    cases r <;> simp_all [lowerOp, wdefs, WOp.defs, Op.defs]
  | .ite c res t e, h => by
    have ht := defs_lowers (v := v) t
    have he := defs_lowers (v := v) e
    match res with
    | [] =>
      simp only [lowerOp, wdefs, WOp.defs, List.append_nil, List.mem_cons, List.mem_append,
        reduceCtorEq, false_or] at h
      simp only [Op.defs, List.nil_append, List.mem_append]
      exact h.imp ht he
    | [r] =>
      simp only [lowerOp, wdefs, WOp.defs, List.append_nil, List.mem_cons, List.mem_append,
        Name.src.injEq] at h
      simp only [Op.defs, List.cons_append, List.nil_append, List.mem_cons, List.mem_append]
      exact h.imp id (Or.imp ht he)
    | r :: r' :: rs => simp [lowerOp, wdefs, WOp.defs] at h
  | .loop init res ps b, h => by
    have hb := defs_lowers (v := v) b
    match res with
    | [] =>
      simp only [lowerOp, wdefs, WOp.defs, List.append_nil, List.mem_cons, List.mem_append,
        reduceCtorEq, false_or, List.mem_map, Name.src.injEq, exists_eq_right] at h
      simp only [Op.defs, List.nil_append, List.mem_append]
      exact h.imp id hb
    | [r] =>
      simp only [lowerOp, wdefs, WOp.defs, List.append_nil, List.mem_cons, List.mem_append,
        reduceCtorEq, false_or, List.mem_map, Name.src.injEq, exists_eq_right] at h
      simp only [Op.defs, List.cons_append, List.nil_append, List.mem_cons, List.mem_append]
      exact h.imp id (Or.imp id hb)
    | r :: r' :: rs => simp [lowerOp, wdefs, WOp.defs] at h
  | .yield vs, h => by
    match vs with
    | [] => simp [lowerOp, wdefs] at h
    | [_] => simp [lowerOp, wdefs, WOp.defs] at h
    | _ :: _ :: _ => simp [lowerOp, wdefs, WOp.defs] at h
  | .cont vs, h => by
    match vs with
    | [] => simp [lowerOp, wdefs, WOp.defs] at h
    | [_] => simp [lowerOp, wdefs, WOp.defs] at h
    | _ :: _ :: _ => simp [lowerOp, wdefs, WOp.defs] at h
  | .brk _, h => by simp [lowerOp, wdefs, WOp.defs] at h
  | .exit _ _, h => by simp [lowerOp, wdefs, WOp.defs] at h
theorem defs_lowers {v : Value} : ∀ (os : List Op), .src v ∈ wdefs (lowerOps os) → v ∈ defsO os
  | [], h => by simp [lowerOps, wdefs] at h
  | o :: os, h => by
    rw [lowerOps, wdefs_append] at h
    rcases List.mem_append.1 h with h | h
    · exact List.mem_append_left _ (defs_lower o h)
    · exact List.mem_append_right _ (defs_lowers os h)
end

theorem assignArgs_index : ∀ (ps : List Value) (l : Locals) (k j : Nat) (p : Value),
    ps.Nodup → (∀ q ∈ ps, l.lookup (.src q) = none) → ps[j]? = some p →
    (assignArgs (ps.map .src) (l, k)).1.lookup (.src p) = some (k + j)
  | [], _, _, _, _, _, _, h => by simp at h
  | q :: ps, l, k, j, p, hn, hl, h => by
    have hq : l.lookup (.src q) = none := hl q List.mem_cons_self
    obtain ⟨hq1, hq2⟩ := List.nodup_cons.1 hn
    rw [List.map_cons, assignArgs, if_neg (by simp [hq])]
    cases j with
    | zero =>
      simp only [List.getElem?_cons_zero, Option.some.injEq] at h
      subst h
      rw [assignArgs_same (by simpa using hq1)]
      simp
    | succ j =>
      rw [List.getElem?_cons_succ] at h
      rw [assignArgs_index ps _ (k + 1) j p hq2 ?_ h]
      · congr 1
        omega
      · intro r hr
        have : r ≠ q := fun e => hq1 (e ▸ hr)
        rw [lookup_ne (by simpa using this)]
        exact hl r (List.mem_cons_of_mem _ hr)

theorem param_local {f : Func} (h : (f.params ++ defsO f.body).Nodup) {j : Nat} {p : Value}
    (hj : f.params[j]? = some p) : (localsOf f).lookup (.src p) = some j := by
  have hp := List.nodup_append.1 h
  rw [localsOf, assignOps_same]
  · have := assignArgs_index f.params [] 0 j p hp.1 (by simp) hj
    rw [this]
    congr 1
    omega
  · intro hd
    exact hp.2.2 p (List.mem_of_getElem? hj) p (defs_lowers _ hd) rfl

end Verif.WasmCf
