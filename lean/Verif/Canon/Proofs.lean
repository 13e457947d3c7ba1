import Verif.Canon.Stable
import Verif.Arith.Props
import Mathlib.Tactic.Tauto

/-!
# An iteration keeps what a body does
-/
namespace Verif.Canon

open Verif.Arith (I128 BinOp)

variable {O S : Type}

/-! ## Values bound -/

theorem bindAll_not_mem {ρ : Env O} : ∀ {rs : List Value} {vs : List (Val O)} {x : Value}, x ∉ rs →
    bindAll ρ rs vs x = ρ x
  | [], _, _, _ => by simp [bindAll]
  | _ :: _, [], _, _ => by simp [bindAll]
  | r :: rs, v :: vs, x, h => by
    simp only [List.mem_cons, not_or] at h
    simp only [bindAll, if_neg h.1]
    exact bindAll_not_mem h.2

theorem bindAll_mem {ty : Value → Ty} {ρ ρ' : Env O} : ∀ {rs : List Value} {vs : List (Val O)} {x : Value},
    HasTys (rs.map ty) vs → x ∈ rs → bindAll ρ rs vs x = bindAll ρ' rs vs x ∧ HasTy (ty x) (bindAll ρ rs vs x)
  | [], _, _, _, h => by simp at h
  | r :: rs, [], _, h, _ => by simp [HasTys] at h
  | r :: rs, v :: vs, x, h, hx => by
    simp only [List.map_cons, HasTys] at h
    simp only [bindAll]
    by_cases e : x = r
    · subst e
      simp [h.1]
    · rw [if_neg e, if_neg e]
      exact bindAll_mem h.2 ((List.mem_cons.1 hx).resolve_left e)

theorem hasTys_map {ty : Value → Ty} {ρ : Env O} : ∀ {vs : List Value}, (∀ x ∈ vs, HasTy (ty x) (ρ x)) →
    HasTys (vs.map ty) (vs.map ρ)
  | [], _ => trivial
  | v :: vs, h => ⟨h v (by simp), hasTys_map fun x hx => h x (by simp [hx])⟩

/-! ## The relation between the two runs -/

/-- The run after canonicalisation has, under the name a value was replaced by, the same value. -/
structure Inv (M : Machine O S) (ty : Value → Ty) (D A : Value → Prop) (st : St) (ρ ρ' : Env O) : Prop where
  avail : ∀ x, D x → A (st.sub x)
  same : ∀ x, D x → ρ x = ρ' (st.sub x)
  tyEq : ∀ x, D x → ty (st.sub x) = ty x
  typed : ∀ x, A x → HasTy (ty x) (ρ' x)
  const : ∀ y v, A y → st.defs y = .const v → ∃ w, ty y = .int w ∧ 1 ≤ w ∧ w ≤ 128 ∧
    (Arith.Normal w v ∨ w = 1) ∧ ρ' y = .int w (Arith.machine w v)
  cast : ∀ y a, A y → st.defs y = .castOf a → A a ∧ M.cast (ty a) (ty y) (ρ' a) = some (ρ' y)

theorem Inv.srcTyped {M : Machine O S} {ty : Value → Ty} {D A : Value → Prop} {st : St} {ρ ρ' : Env O}
    (h : Inv M ty D A st ρ ρ') {x : Value} (hx : D x) : HasTy (ty x) (ρ x) := by
  rw [h.same x hx, ← h.tyEq x hx]
  exact h.typed _ (h.avail x hx)

theorem Inv.map {M : Machine O S} {ty : Value → Ty} {D A : Value → Prop} {st : St} {ρ ρ' : Env O}
    (h : Inv M ty D A st ρ ρ') {xs : List Value} (hx : ∀ x ∈ xs, D x) :
    xs.map ρ = (xs.map st.sub).map ρ' ∧ HasTys (xs.map ty) (xs.map ρ) := by
  refine ⟨?_, hasTys_map fun x hx' => h.srcTyped (hx x hx')⟩
  rw [List.map_map]
  exact List.map_congr_left fun x hx' => h.same x (hx x hx')

/-- Results that stay. -/
theorem Inv.keepAll {M : Machine O S} {ty : Value → Ty} {D A : Value → Prop} {st : St} {ρ ρ' : Env O}
    (h : Inv M ty D A st ρ ρ') {rs : List Value} (hA : ∀ r ∈ rs, ¬ A r) {vs : List (Val O)}
    (hv : HasTys (rs.map ty) vs) :
    Inv M ty (fun x => D x ∨ x ∈ rs) (fun x => A x ∨ x ∈ rs) (st.keepAll rs) (bindAll ρ rs vs)
      (bindAll ρ' rs vs) := by
  have hnA : ∀ {x}, A x → x ∉ rs := fun ha hm => hA _ hm ha
  constructor
  · intro x hx
    by_cases hm : x ∈ rs
    · simp [St.keepAll, hm]
    · simp only [St.keepAll, if_neg hm]
      exact .inl (h.avail x (hx.resolve_right hm))
  · intro x hx
    by_cases hm : x ∈ rs
    · simp only [St.keepAll, if_pos hm]
      exact (bindAll_mem hv hm).1
    · have hd := hx.resolve_right hm
      simp only [St.keepAll, if_neg hm]
      rw [bindAll_not_mem hm, bindAll_not_mem (hnA (h.avail x hd))]
      exact h.same x hd
  · intro x hx
    by_cases hm : x ∈ rs
    · simp only [St.keepAll, if_pos hm]
    · simp only [St.keepAll, if_neg hm]
      exact h.tyEq x (hx.resolve_right hm)
  · intro x hx
    by_cases hm : x ∈ rs
    · exact (bindAll_mem (ρ' := ρ') hv hm).2
    · rw [bindAll_not_mem hm]
      exact h.typed x (hx.resolve_right hm)
  · intro y v hy hd
    by_cases hm : y ∈ rs
    · simp [St.keepAll, hm] at hd
    · simp only [St.keepAll, if_neg hm] at hd
      rw [bindAll_not_mem hm]
      exact h.const y v (hy.resolve_right hm) hd
  · intro y a hy hd
    by_cases hm : y ∈ rs
    · simp [St.keepAll, hm] at hd
    · simp only [St.keepAll, if_neg hm] at hd
      obtain ⟨h1, h2⟩ := h.cast y a (hy.resolve_right hm) hd
      rw [bindAll_not_mem hm, bindAll_not_mem (hnA h1)]
      exact ⟨.inl h1, h2⟩

/-- A result that stays, with a definition the folds know. -/
theorem Inv.keep {M : Machine O S} {ty : Value → Ty} {D A : Value → Prop} {st : St} {ρ ρ' : Env O}
    (h : Inv M ty D A st ρ ρ') {r : Value} (hA : ¬ A r) {v : Val O} (hv : HasTy (ty r) v) {d : Def}
    (hc : ∀ k, d = .const k → ∃ w, ty r = .int w ∧ 1 ≤ w ∧ w ≤ 128 ∧
      (Arith.Normal w k ∨ w = 1) ∧ v = .int w (Arith.machine w k))
    (hk : ∀ a, d = .castOf a → A a ∧ M.cast (ty a) (ty r) (ρ' a) = some v) :
    Inv M ty (fun x => D x ∨ x ∈ [r]) (fun x => A x ∨ x ∈ [r]) (st.keep r d) (bindAll ρ [r] [v])
      (bindAll ρ' [r] [v]) := by
  have hb := h.keepAll (rs := [r]) (by simpa using hA) (vs := [v]) ⟨hv, trivial⟩
  have hsub : (st.keep r d).sub = (st.keepAll [r]).sub := by
    funext x
    simp only [St.keep, St.keepAll, List.mem_singleton]
    split <;> simp_all
  have hne : ∀ {a}, A a → a ∉ [r] := fun ha hm => hA (by simp only [List.mem_singleton] at hm; exact hm ▸ ha)
  have hrr : ∀ ρ : Env O, bindAll ρ [r] [v] r = v := fun ρ => by simp [bindAll]
  refine ⟨?_, ?_, ?_, hb.typed, ?_, ?_⟩
  · rw [hsub]; exact hb.avail
  · rw [hsub]; exact hb.same
  · rw [hsub]; exact hb.tyEq
  · intro y k hy hd
    by_cases e : y = r
    · subst e
      simp only [St.keep, if_true] at hd
      rw [hrr]
      exact hc k hd
    · refine hb.const y k hy ?_
      simpa [St.keep, St.keepAll, e] using hd
  · intro y a hy hd
    by_cases e : y = r
    · subst e
      simp only [St.keep, if_true] at hd
      obtain ⟨h1, h2⟩ := hk a hd
      rw [hrr, bindAll_not_mem (hne h1)]
      exact ⟨.inl h1, h2⟩
    · refine hb.cast y a hy ?_
      simpa [St.keep, St.keepAll, e] using hd

/-- A result that is replaced. -/
theorem Inv.forward {M : Machine O S} {ty : Value → Ty} {D A : Value → Prop} {st : St} {ρ ρ' : Env O}
    (h : Inv M ty D A st ρ ρ') {r y : Value} (hy : A y) (ht : ty y = ty r) :
    Inv M ty (fun x => D x ∨ x ∈ [r]) A (st.forward r y) (bindAll ρ [r] [ρ' y]) ρ' := by
  refine ⟨?_, ?_, ?_, h.typed, h.const, h.cast⟩
  · intro x hx
    simp only [St.forward]
    split
    · exact hy
    · rename_i e
      exact h.avail x (hx.resolve_right (by simpa using e))
  · intro x hx
    simp only [St.forward, bindAll]
    split
    · rfl
    · rename_i e
      exact h.same x (hx.resolve_right (by simpa using e))
  · intro x hx
    simp only [St.forward]
    split
    · rename_i e; rw [e, ht]
    · rename_i e
      exact h.tyEq x (hx.resolve_right (by simpa using e))

theorem Inv.weaken {M : Machine O S} {ty : Value → Ty} {D D' A : Value → Prop} {st : St} {ρ ρ' : Env O}
    (h : Inv M ty D A st ρ ρ') (hD : ∀ x, D' x → D x) : Inv M ty D' A st ρ ρ' :=
  ⟨fun x hx => h.avail x (hD x hx), fun x hx => h.same x (hD x hx), fun x hx => h.tyEq x (hD x hx), h.typed,
    h.const, h.cast⟩

/-- Results that are replaced. -/
theorem Inv.forwardAll {M : Machine O S} {ty : Value → Ty} {D A : Value → Prop} {st : St} {ρ ρ' : Env O}
    (h : Inv M ty D A st ρ ρ') : ∀ {rs ys : List Value}, (∀ y ∈ ys, A y) → ys.map ty = rs.map ty →
    Inv M ty (fun x => D x ∨ x ∈ rs) A (st.forwardAll rs ys) (bindAll ρ rs (ys.map ρ')) ρ'
  | [], _, _, _ => by
    simp only [St.forwardAll, bindAll, List.not_mem_nil, or_false]
    exact h
  | r :: rs, [], _, e => by simp at e
  | r :: rs, y :: ys, hy, e => by
    simp only [List.map_cons, List.cons.injEq] at e
    have := (h.forwardAll (rs := rs) (ys := ys) (fun z hz => hy z (by simp [hz])) e.2).forward
      (r := r) (hy y (by simp)) e.1
    simp only [bindAll, List.map_cons, St.forwardAll] at this ⊢
    refine this.weaken ?_
    intro x hx
    simp only [List.mem_cons, List.not_mem_nil, or_false] at hx ⊢
    tauto

/-! ## The integer folds -/

theorem binVal_int (o : BinOp) {w : Nat} (x y : BitVec w) :
    binVal (O := O) o (.int w x) (.int w y) = (Arith.exec o x y).map (.int w) := by
  simp [binVal]

theorem fold_sound {M : Machine O S} {ty : Value → Ty} {D A : Value → Prop} {st : St} {ρ ρ' : Env O}
    (h : Inv M ty D A st ρ ρ') {o : BinOp} {r a b : Value} {w : Nat} (hr : ty r = .int w) (ha : ty a = .int w)
    (hb : ty b = .int w) (h1 : 1 ≤ w) (h2 : w ≤ 128) (ho : o = .divsi ∨ o = .remsi → w ≠ 1)
    (hAa : A a) (hAb : A b) {f : Arith.FoldResult} (hf : foldBin ty st.defs o r a b = some f) :
    ∃ x y, ρ' a = .int w x ∧ ρ' b = .int w y ∧
      binVal o (ρ' a) (ρ' b) = some (.int w (Arith.replacement f x y)) ∧
      ∀ v, f = .arithConst v → Arith.Normal w v := by
  obtain ⟨x, hx⟩ : HasTy (.int w) (ρ' a) := ha ▸ h.typed a hAa
  obtain ⟨y, hy⟩ : HasTy (.int w) (ρ' b) := hb ▸ h.typed b hAb
  refine ⟨x, y, hx, hy, ?_⟩
  simp only [foldBin, hr] at hf
  have key : ∀ c z, ty c = .int w → A c → ρ' c = .int w z → Arith.Holds (operand st.defs c) z ∧
      (w ≠ 1 → Arith.NormalOperand w (operand st.defs c)) := by
    intro c z hc hAc hz
    unfold operand
    cases hd : st.defs c with
    | castOf i => exact ⟨trivial, fun _ => trivial⟩
    | other => exact ⟨trivial, fun _ => trivial⟩
    | const v =>
      obtain ⟨w', e, -, -, hn, hv⟩ := h.const c v hAc hd
      rw [hc, Ty.int.injEq] at e
      subst e
      rw [hz] at hv
      simp only [Val.int.injEq, heq_eq_eq, true_and] at hv
      exact ⟨hv, fun hw => hn.resolve_right hw⟩
  obtain ⟨ka, na⟩ := key a x ha hAa hx
  obtain ⟨kb, nb⟩ := key b y hb hAb hy
  rw [hx, hy, binVal_int]
  have he : Arith.exec o x y = some (Arith.replacement f x y) := by
    by_cases hs : o = .divsi ∨ o = .remsi
    · exact Arith.C16_fold_partial o h1 h2 (na (ho hs)) (nb (ho hs)) hf x y ka kb
    · exact Arith.C16_fold ⟨fun e => hs (.inl e), fun e => hs (.inr e)⟩ h1 h2 hf x y ka kb
  rw [he]
  refine ⟨rfl, ?_⟩
  rintro v rfl
  exact Arith.result_normal h1 h2 hf

theorem binVal_typed {o : BinOp} {w : Nat} {x y v : Val O} (hx : HasTy (.int w) x)
    (h : binVal o x y = some v) : HasTy (.int w) v := by
  obtain ⟨b, rfl⟩ := hx
  cases y with
  | other _ => simp [binVal] at h
  | int w' c =>
    simp only [binVal] at h
    split at h
    · simp only [Option.map_eq_some_iff] at h
      obtain ⟨z, -, rfl⟩ := h
      exact ⟨z, rfl⟩
    · cases h

theorem decided_sound {M : Machine O S} {ty : Value → Ty} {D A : Value → Prop} {st : St} {ρ ρ' : Env O}
    (h : Inv M ty D A st ρ ρ') {c : Value} (hc : A c) {b : Bool} (hd : decided ty st.defs c = some b) :
    truth (ρ' c) = b := by
  unfold decided at hd
  split at hd
  · rename_i ht
    cases hdef : st.defs c with
    | castOf i => simp [hdef] at hd
    | other => simp [hdef] at hd
    | const v =>
      simp only [hdef] at hd
      obtain ⟨w, e, -, -, -, hv⟩ := h.const c v hc hdef
      rw [ht, Ty.int.injEq] at e
      subst e
      rw [hv]
      split at hd
      · rename_i hv0
        subst hv0
        cases hd
        simp only [truth]
        decide
      · split at hd
        · rename_i hv1
          subst hv1
          cases hd
          simp only [truth]
          decide
        · cases hd
  · cases hd

/-! ## Running appended operations -/

theorem andThen_assoc (r : Option (Out O S)) (f g : Env O → S → Option (Out O S)) :
    andThen (andThen r f) g = andThen r (fun ρ s => andThen (f ρ s) g) := by
  cases r with
  | none => rfl
  | some o => cases o <;> rfl

theorem execOps_append (M : Machine O S) (ty : Value → Ty) (n : Nat) (a b : List Op) : ∀ (ρ : Env O) (s : S),
    execOps M ty n ρ s (a ++ b) = andThen (execOps M ty n ρ s a) fun ρ' s' => execOps M ty n ρ' s' b := by
  induction a with
  | nil => intro ρ s; rfl
  | cons o a ih =>
    intro ρ s
    rw [List.cons_append, execOps, execOps, andThen_assoc]
    congr
    funext ρ' s'
    exact ih ρ' s'

/-! ## The results only -/

theorem frame_op {M : Machine O S} {ty : Value → Ty} {n : Nat} {ρ ρ1 : Env O} {s s1 : S} {o : Op}
    (h : execOp M ty n ρ s o = some (.next ρ1 s1)) {x : Value} (hx : x ∉ o.results) : ρ1 x = ρ x := by
  cases o with
  | const r v =>
    simp only [execOp] at h
    split at h
    · simp only [Option.some.injEq, Out.next.injEq] at h
      obtain ⟨rfl, -⟩ := h
      exact bindAll_not_mem hx
    · cases h
  | constBool r v =>
    simp only [execOp] at h
    split at h
    · simp only [Option.some.injEq, Out.next.injEq] at h
      obtain ⟨rfl, -⟩ := h
      exact bindAll_not_mem hx
    · cases h
  | bin o r a b =>
    simp only [execOp] at h
    split at h
    · simp only [Option.some.injEq, Out.next.injEq] at h
      obtain ⟨rfl, -⟩ := h
      exact bindAll_not_mem hx
    · cases h
  | cast r a =>
    simp only [execOp] at h
    split at h
    · simp only [Option.some.injEq, Out.next.injEq] at h
      obtain ⟨rfl, -⟩ := h
      exact bindAll_not_mem hx
    · cases h
  | plain f args rs =>
    simp only [execOp] at h
    split at h
    · simp only [Option.some.injEq, Out.next.injEq] at h
      obtain ⟨rfl, -⟩ := h
      exact bindAll_not_mem hx
    · cases h
  | ite c rs t e =>
    simp only [execOp] at h
    revert h
    generalize (if truth (ρ c) then execOps M ty n ρ s t else execOps M ty n ρ s e) = q
    intro h
    cases q with
    | none => cases h
    | some q =>
      cases q <;> simp only [afterIf, Option.some.injEq, Out.next.injEq, reduceCtorEq] at h
      obtain ⟨rfl, -⟩ := h
      exact bindAll_not_mem hx
  | loop inits args rs body =>
    simp only [execOp] at h
    revert h
    generalize iterate _ n _ s = q
    intro h
    cases q with
    | none => cases h
    | some q =>
      cases q <;> simp only [afterLoop, Option.some.injEq, Out.next.injEq, reduceCtorEq] at h
      obtain ⟨rfl, -⟩ := h
      exact bindAll_not_mem hx
  | yield vs => cases h
  | cont vs => cases h
  | brk vs => cases h
  | exit f vs => cases h

theorem results_binders (o : Op) : ∀ x ∈ o.results, x ∈ bindersOp o := by
  intro x hx
  cases o <;> simp_all [Op.results, bindersOp]

theorem frame_ops {M : Machine O S} {ty : Value → Ty} {n : Nat} {os : List Op} : ∀ {ρ ρ1 : Env O} {s s1 : S},
    execOps M ty n ρ s os = some (.next ρ1 s1) → ∀ {x : Value}, x ∉ bindersOps os → ρ1 x = ρ x := by
  induction os with
  | nil =>
    intro ρ ρ1 s s1 h x _
    simp only [execOps, Option.some.injEq, Out.next.injEq] at h
    rw [h.1]
  | cons o os ih =>
    intro ρ ρ1 s s1 h x hx
    simp only [bindersOps, List.mem_append, not_or] at hx
    simp only [execOps] at h
    cases hq : execOp M ty n ρ s o with
    | none => rw [hq] at h; cases h
    | some q =>
      rw [hq] at h
      cases q <;> simp only [andThen, Option.some.injEq, reduceCtorEq] at h
      rw [ih h hx.2, frame_op hq fun hr => hx.1 (results_binders o x hr)]

/-! ## Both runs -/

/-- The two runs end the same way. -/
inductive OutRel (M : Machine O S) (ty : Value → Ty) (K : Ctx) (D A : Value → Prop) (st : St) :
    Option (Out O S) → Option (Out O S) → Prop
  | none : OutRel M ty K D A st none none
  | next {ρ ρ' : Env O} {s : S} : Inv M ty D A st ρ ρ' →
      OutRel M ty K D A st (some (.next ρ s)) (some (.next ρ' s))
  | yield {vs : List (Val O)} {s : S} {ts : List Ty} : K.yield = some ts → HasTys ts vs →
      OutRel M ty K D A st (some (.yield vs s)) (some (.yield vs s))
  | cont {vs : List (Val O)} {s : S} {ts : List Ty} : K.cont = some ts → HasTys ts vs →
      OutRel M ty K D A st (some (.cont vs s)) (some (.cont vs s))
  | brk {vs : List (Val O)} {s : S} {ts : List Ty} : K.brk = some ts → HasTys ts vs →
      OutRel M ty K D A st (some (.brk vs s)) (some (.brk vs s))
  | exit {f : Nat} {vs : List (Val O)} {s : S} : OutRel M ty K D A st (some (.exit f vs s)) (some (.exit f vs s))
  | trap {s : S} : OutRel M ty K D A st (some (.trap s)) (some (.trap s))
  | stuck : OutRel M ty K D A st (some .stuck) (some .stuck)

/-- Visiting operations keeps what they do. -/
def Sim (M : Machine O S) (ty : Value → Ty) (n : Nat) (K : Ctx) (D A : Value → Prop) (binders : List Value)
    (D1 : Value → Prop) (st : St) (src : Env O → S → Option (Out O S)) (r : List Op × St × Nat) : Prop :=
  ∃ A1 : Value → Prop, (∀ x, A x → A1 x) ∧ (∀ x, A1 x → A x ∨ x ∈ binders) ∧
    ∀ ρ ρ' s, Inv M ty D A st ρ ρ' → OutRel M ty K D1 A1 r.2.1 (src ρ s) (execOps M ty n ρ' s r.1)

theorem Sim.leave {M : Machine O S} {ty : Value → Ty} {n : Nat} {K : Ctx} {D A D1 : Value → Prop}
    {binders : List Value} {st : St} {src : Env O → S → Option (Out O S)} {o : Op} {st' : St} {k : Nat}
    (h : ∀ ρ ρ' s, Inv M ty D A st ρ ρ' →
      OutRel M ty K D1 (fun x => A x ∨ x ∈ binders) st' (src ρ s) (execOp M ty n ρ' s o)) :
    Sim M ty n K D A binders D1 st src ([o], st', k) := by
  refine ⟨fun x => A x ∨ x ∈ binders, fun x hx => .inl hx, fun x hx => hx, fun ρ ρ' s hi => ?_⟩
  have := h ρ ρ' s hi
  simp only [execOps]
  revert this
  generalize execOp M ty n ρ' s o = q
  generalize src ρ s = q2
  intro this
  cases this <;> simp only [andThen] <;> constructor <;> assumption

/-- Nested bodies of a conditional that stays. -/
theorem afterIf_rel {M : Machine O S} {ty : Value → Ty} {K : Ctx} {D A : Value → Prop} {st : St}
    {rs : List Value} {D1 A1 : Value → Prop} {st1 : St} {ρ ρ' : Env O} {q q' : Option (Out O S)}
    (hq : OutRel M ty ⟨some (rs.map ty), K.cont, K.brk⟩ D1 A1 st1 q q') (hi : Inv M ty D A st ρ ρ')
    (hA : ∀ r ∈ rs, ¬ A r) :
    OutRel M ty K (fun x => D x ∨ x ∈ rs) (fun x => A x ∨ x ∈ rs) (st.keepAll rs) (afterIf ρ rs q)
      (afterIf ρ' rs q') := by
  cases hq with
  | none => exact .none
  | next _ => exact .stuck
  | yield hk hv =>
    simp only [Option.some.injEq] at hk
    subst hk
    exact .next (hi.keepAll hA hv)
  | cont hk hv => exact .cont hk hv
  | brk hk hv => exact .brk hk hv
  | exit => exact .exit
  | trap => exact .trap
  | stuck => exact .stuck

end Verif.Canon
