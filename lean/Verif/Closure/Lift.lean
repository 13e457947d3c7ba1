import Verif.Closure.Rename2
/-!
# The function made from a lambda
-/
namespace Verif.Closure
open Verif.CallConv (Conv)

theorem evArg_eq (ps : List (Var × Ty)) : evArg ps = firstEvidence ps := by
  cases ps with
  | nil => rfl
  | cons p r => rfl

theorem slotOf_eq (conv : Option Conv) (ty : CloTy) : slotOf conv ty = contract conv ty := by
  obtain ⟨prov, index, params⟩ := ty
  cases conv with
  | none => cases prov <;> rfl
  | some c =>
    cases prov with
    | none => cases c <;> rfl
    | some p =>
      cases index with
      | none => cases c <;> cases p <;> rfl
      | some i => cases c <;> cases p <;> rfl

theorem implicitEvidence_eq (slot : Slot) (ev : Option Var) (caps : List Var) :
    implicitEvidence slot ev caps = rebinds slot ev caps := by
  cases slot with
  | «at» c i => rw [rebinds_at]; rfl
  | legacy =>
    cases ev with
    | none => rfl
    | some e =>
      simp only [implicitEvidence, rebinds]
      by_cases h : e ∈ caps
      · simp [h]
      · simp [h]

theorem accept_some {conv : Option Conv} {ty : CloTy} {ps : List (Var × Ty)} {slot : Slot}
    (h : accept conv ty ps = some slot) :
    contract conv ty = some slot ∧ ty.params = ps.map Prod.snd ∧ ∀ c i, slot = .at c i → i ≤ ps.length := by
  unfold accept at h
  rw [slotOf_eq] at h
  cases hc : contract conv ty with
  | none => rw [hc] at h; cases h
  | some s =>
    rw [hc] at h
    simp only at h
    split at h
    · cases h
    · next hp =>
      simp only [ne_eq, Decidable.not_not] at hp
      cases s with
      | legacy => cases h; exact ⟨rfl, hp, fun c i e => by cases e⟩
      | «at» c i =>
        simp only at h
        split at h
        · cases h
        · next hi =>
          cases h
          exact ⟨rfl, hp, fun c i e => by cases e; omega⟩

/-! ## The names in the function -/

def setOpt (m : Map) : Option Var → Var → Map
  | some e, y => m.set e y
  | none, _ => m

def liftFun (imp : Option Var) (caps ps : List Var) (evv : Var) (ps' gs : List Var) : Map :=
  (setOpt (Map.setAll id ps ps') imp evv).setAll caps gs

theorem liftMap_eq {imp : Option Var} {caps ps : List Var} {evv : Var} {ps' gs : List Var}
    (h1 : ps.length = ps'.length) (h2 : caps.length = gs.length) :
    liftMap imp caps ps evv ps' gs = pm (caps ++ (imp.toList ++ ps)) (liftFun imp caps ps evv ps' gs) := by
  unfold liftMap liftFun
  rw [← pm_nil (f := id), pm_updAll (f := id) h1]
  cases imp with
  | none => simp only [updOpt, setOpt]; rw [pm_updAll (f := id) h2]; simp
  | some e =>
    simp only [updOpt, setOpt]
    rw [pm_upd, pm_updAll (f := id) h2]
    simp

theorem base_injOn {imp : Option Var} {ps : List Var} {evv : Var} {ps' : List Var} (h1 : ps.length = ps'.length)
    (hn : (evv :: ps').Nodup) : InjOn (imp.toList ++ ps) (setOpt (Map.setAll id ps ps') imp evv) ∧
      ∀ v ∈ imp.toList ++ ps, setOpt (Map.setAll id ps ps') imp evv v ∈ evv :: ps' := by
  rw [List.nodup_cons] at hn
  have hi : InjOn ps (Map.setAll id ps ps') := by
    have := injOn_append (S := []) (f := id) (xs := ps) (ys := ps') (fun v hv => by simp at hv) h1 hn.2 (fun v hv => by simp at hv)
    simpa using this
  have hr : ∀ v ∈ ps, Map.setAll id ps ps' v ∈ ps' := by
    intro v hv
    obtain ⟨i, _, h⟩ := setAll_mem (m := id) h1 hv
    exact List.mem_of_getElem? h
  cases imp with
  | none => exact ⟨by simpa [setOpt] using hi, fun v hv => by simp only [setOpt]; exact List.mem_cons_of_mem _ (hr v (by simpa using hv))⟩
  | some e =>
    constructor
    · simp only [setOpt, Option.toList_some, List.cons_append, List.nil_append]
      exact injOn_cons hi (fun v hv h => hn.1 (h ▸ hr v hv))
    · intro v hv
      simp only [setOpt]
      by_cases h : v = e
      · rw [h, set_same]; simp
      · rw [set_ne h]
        exact List.mem_cons_of_mem _ (hr v (by simpa [h] using hv))

theorem liftFun_injOn {imp : Option Var} {caps ps : List Var} {evv : Var} {ps' gs : List Var}
    (h1 : ps.length = ps'.length) (h2 : caps.length = gs.length) (hn : (evv :: (ps' ++ gs)).Nodup) :
    InjOn (caps ++ (imp.toList ++ ps)) (liftFun imp caps ps evv ps' gs) ∧
      ∀ v ∈ caps ++ (imp.toList ++ ps), liftFun imp caps ps evv ps' gs v ∈ evv :: (ps' ++ gs) := by
  rw [← List.cons_append, List.nodup_append] at hn
  obtain ⟨n1, n2, n3⟩ := hn
  obtain ⟨b1, b2⟩ := base_injOn (imp := imp) h1 n1
  constructor
  · refine injOn_append b1 h2 n2 ?_
    intro v hv h
    exact n3 _ (b2 v hv) _ h rfl
  · intro v hv
    by_cases h : v ∈ caps
    · obtain ⟨i, _, hh⟩ := setAll_mem (m := setOpt (Map.setAll id ps ps') imp evv) h2 h
      have := List.mem_of_getElem? hh
      rw [← List.cons_append]
      exact List.mem_append_right _ this
    · unfold liftFun
      rw [setAll_not (m := setOpt (Map.setAll id ps ps') imp evv) h, ← List.cons_append]
      exact List.mem_append_left _ (b2 v ((List.mem_append.mp hv).resolve_left h))

/-- Where a value is among the keys, the rest of the map does not matter. -/
theorem setAll_map' {f : Map} {v : Var} : ∀ {xs ys : List Var} {m m' : Map}, (∀ x ∈ xs, f v = f x → v = x) →
    v ∈ xs → xs.length = ys.length → m.setAll (xs.map f) ys (f v) = m'.setAll xs ys v := by
  intro xs
  induction xs with
  | nil => intro ys m m' _ h; simp at h
  | cons x xs ih =>
    intro ys m m' hx hv hl
    cases ys with
    | nil => simp at hl
    | cons y ys =>
      simp only [List.map_cons, Map.setAll]
      by_cases h : v ∈ xs
      · exact ih (fun z hz => hx z (by simp [hz])) h (by simpa using hl)
      · have : v = x := by simpa [h] using hv
        subst this
        apply setAll_map (fun z hz => hx z (by simp [hz]))
        rw [set_same, set_same]

theorem liftFun_comp {imp : Option Var} {caps ps : List Var} {evv : Var} {ps' gs : List Var} {f : Map}
    (h2 : caps.length = gs.length) (hf : InjOn (ps ++ (caps ++ imp.toList)) f) (hps : ∀ x ∈ ps, f x = x)
    (himp : ∀ e, imp = some e → f e = e) :
    ∀ v ∈ ps ++ (caps ++ imp.toList),
      liftFun imp (caps.map f) ps evv ps' gs (f v) = liftFun imp caps ps evv ps' gs v := by
  intro v hv
  unfold liftFun
  have hx : ∀ x ∈ caps, f v = f x → v = x := fun x hx e => hf v hv x (by simp [hx]) e
  by_cases h : v ∈ caps
  · exact setAll_map' hx h h2
  · refine setAll_map hx ?_
    have : f v = v := by
      rcases List.mem_append.mp hv with h1 | h1
      · exact hps v h1
      · rcases List.mem_append.mp h1 with h1 | h1
        · exact absurd h1 h
        · exact himp v (Option.mem_toList.mp h1)
    rw [this]

/-! ## Parameters -/

theorem getElem?_insertAt {α : Type} {a : α} : ∀ {i : Nat} {l : List α} {j : Nat}, i ≤ l.length →
    (insertAt i a l)[j]? = if j < i then l[j]? else if j = i then some a else l[j - 1]? := by
  intro i
  induction i with
  | zero =>
    intro l j _
    cases j with
    | zero => simp [insertAt]
    | succ j => simp [insertAt]
  | succ i ih =>
    intro l j h
    cases l with
    | nil => simp at h
    | cons b l =>
      cases j with
      | zero => simp [insertAt]
      | succ j =>
        simp only [insertAt, List.getElem?_cons_succ]
        rw [ih (by simpa using h)]
        by_cases h1 : j < i
        · simp [h1]
        · by_cases h2 : j = i
          · simp [h2]
          · cases j with
            | zero => omega
            | succ j => simp [h1, h2]

theorem zip_insertAt {α β : Type} {a : α} {b : β} : ∀ {i : Nat} {xs : List α} {ys : List β}, xs.length = ys.length →
    (insertAt i a xs).zip (insertAt i b ys) = insertAt i (a, b) (xs.zip ys) := by
  intro i
  induction i with
  | zero => intro xs ys _; rfl
  | succ i ih =>
    intro xs ys h
    cases xs with
    | nil => cases ys with
      | nil => rfl
      | cons y ys => simp at h
    | cons x xs => cases ys with
      | nil => simp at h
      | cons y ys => simp [insertAt, ih (by simpa using h)]

theorem range_insertAt {n i len : Nat} (hi : i ≤ len) :
    List.range' n (len + 1) =
      insertAt i (n + i) ((List.range len).map fun k => n + (0 + k + if k ≥ i - 0 then 1 else 0)) := by
  apply List.ext_getElem?
  intro j
  rw [getElem?_insertAt (by simpa using hi)]
  by_cases h1 : j < i
  · simp only [h1, if_true, List.getElem?_map, List.getElem?_range' (show j < len + 1 by omega),
      List.getElem?_range (show j < len by omega), Option.map_some]
    rw [if_neg (by omega)]; simp
  · by_cases h2 : j = i
    · subst h2
      simp only [h1, if_false, if_true, List.getElem?_range' (show j < len + 1 by omega)]
      simp
    · simp only [h1, h2, if_false]
      by_cases h3 : j < len + 1
      · simp only [List.getElem?_map, List.getElem?_range' h3, List.getElem?_range (show j - 1 < len by omega),
          Option.map_some]
        rw [if_pos (by omega)]
        congr 1; omega
      · rw [List.getElem?_eq_none (by simpa using h3), List.getElem?_eq_none (by simp; omega)]

/-- The references of a lifted function's parameters, without the environment and the evidence. -/
def lparams (n : Nat) (slot : Slot) (len : Nat) : List Var :=
  match slot with
  | .at _ i => (List.range len).map fun k => n + (0 + k + if k ≥ i - 0 then 1 else 0)
  | .legacy => List.range' (n + 2) len

def lenv (n : Nat) : Slot → Var
  | .at _ i => n + i
  | .legacy => n + 1

def lcount (slot : Slot) (len : Nat) : Nat :=
  match slot with
  | .at _ _ => len + 1
  | .legacy => len + 2

theorem lparams_length (n : Nat) (slot : Slot) (len : Nat) : (lparams n slot len).length = len := by
  cases slot <;> simp [lparams]

theorem legacy_params (n len : Nat) :
    ((List.range len).map fun k => n + (1 + k + if k ≥ 1 - 1 then 1 else 0)) = List.range' (n + 2) len := by
  apply List.ext_getElem?
  intro j
  by_cases h : j < len
  · simp only [List.getElem?_map, List.getElem?_range h, List.getElem?_range' h, Option.map_some]
    congr 1; simp; omega
  · rw [List.getElem?_eq_none (by simpa using h), List.getElem?_eq_none (by simpa using h)]

/-- `lift`, spelled out. -/
theorem lift_eq (n : Nat) (slot : Slot) (imp : Option Var) (caps : List Var) (ps : List (Var × Ty)) (body : Code)
    (hi : ∀ c i, slot = .at c i → i ≤ ps.length) :
    let ps' := lparams n slot ps.length
    let n₁ := n + lcount slot ps.length
    let gs := List.range' (n₁ + 1) caps.length
    let start := if caps = [] then n₁ else n₁ + 1 + caps.length
    lift n slot imp caps ps body =
      (⟨physParams slot n (lenv n slot) (ps'.zip (ps.map Prod.snd)),
        entry caps n₁ (lenv n slot) gs (clone (liftFun imp caps (ps.map Prod.fst) n ps' gs) start body).1⟩,
        (clone (liftFun imp caps (ps.map Prod.fst) n ps' gs) start body).2) := by
  intro ps' n₁ gs start
  cases slot with
  | legacy =>
    have hp : ((List.range' n (ps.length + 2)).zip (evTy :: insertAt 0 anyTy (ps.map Prod.snd)) : List (Var × Ty))
        = (n, evTy) :: (n + 1, anyTy) :: (List.range' (n + 2) ps.length).zip (ps.map Prod.snd) := by
      simp [List.range'_succ, insertAt, Nat.add_assoc]
    simp only [lift]
    rw [hp, legacy_params]
    have hlen : ((n, evTy) :: (n + 1, anyTy) :: (List.range' (n + 2) ps.length).zip (ps.map Prod.snd) : List (Var × Ty)).length
        = ps.length + 2 := by simp
    rw [hlen]
    cases caps with
    | nil => cases imp <;> simp [physParams, entry, lenv, lparams, lcount, liftFun, Map.setAll, setOpt, start, n₁, ps']
    | cons a l => cases imp <;> simp [physParams, entry, lenv, lparams, lcount, liftFun, setOpt, start, n₁, ps', gs]
  | «at» c i =>
    have hi := hi c i rfl
    have hp : ((List.range' n (ps.length + 1)).zip (insertAt i anyTy (ps.map Prod.snd)) : List (Var × Ty))
        = insertAt i (n + i, anyTy) ((lparams n (.at c i) ps.length).zip (ps.map Prod.snd)) := by
      rw [range_insertAt hi, zip_insertAt (by simp)]
      rfl
    simp only [lift]
    rw [hp]
    have hlen : (insertAt i (n + i, anyTy) ((lparams n (.at c i) ps.length).zip (ps.map Prod.snd)) : List (Var × Ty)).length
        = ps.length + 1 := by rw [insertAt_length]; simp [lparams]
    rw [hlen]
    cases caps with
    | nil => cases imp <;> simp [physParams, entry, lenv, lparams, lcount, liftFun, Map.setAll, setOpt, start, n₁, ps']
    | cons a l => cases imp <;> simp [physParams, entry, lenv, lparams, lcount, liftFun, setOpt, start, n₁, ps', gs]

end Verif.Closure
