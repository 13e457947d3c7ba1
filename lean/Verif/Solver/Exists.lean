import Verif.Solver.Sound
import Mathlib.Data.List.Perm.Subperm
import Mathlib.Logic.Relation

/-!
# Solutions exist and application terminates, in the fragment
-/

namespace Verif.Solver
open Verif.Types

/-! ## Composition -/

/-- First `θ1`, then `θ2`. -/
def Sub.comp (θ2 θ1 : Sub) : Sub :=
  ⟨fun v => θ2.onTy (θ1.ty v), fun r => θ2.onRow (θ1.row r)⟩

theorem comp_tail (θ2 θ1 : Sub) (r : Option Nat) :
    (θ2.comp θ1).tail r = θ2.onRow (θ1.tail r) := by
  cases r with
  | none => simp [Sub.tail, Sub.onRow, Sub.onEffL]
  | some v => simp [Sub.tail, Sub.comp]

theorem comp_onTy (θ2 θ1 : Sub) (t : Ty) : (θ2.comp θ1).onTy t = θ2.onTy (θ1.onTy t) := by
  induction t using Ty.ind with
  | hu v => simp [Sub.onTy, Sub.comp]
  | hn h ks es r ihk ihe =>
    simp only [Sub.onTy, comp_tail, onTyL_eq, onEffL_eq, List.map_map, List.map_append]
    have h1 : ks.map (θ2.comp θ1).onTy = ks.map (θ2.onTy ∘ θ1.onTy) :=
      List.map_congr_left (fun k hk => ihk k hk)
    have h2 : es.map (θ2.comp θ1).onEff = es.map (θ2.onEff ∘ θ1.onEff) := by
      refine List.map_congr_left (fun e he => ?_)
      cases e with
      | mk a as =>
        simp only [Function.comp, Sub.onEff, onTyL_eq, List.map_map]
        congr 1
        exact List.map_congr_left (fun x hx => ihe _ he x hx)
    rw [h1, h2]
    simp [Sub.onRow, onEffL_eq]

theorem comp_onEffL (θ2 θ1 : Sub) (es : List Eff) :
    (θ2.comp θ1).onEffL es = θ2.onEffL (θ1.onEffL es) := by
  simp only [onEffL_eq, List.map_map]
  refine List.map_congr_left (fun e _ => ?_)
  cases e with
  | mk a as =>
    simp only [Function.comp, Sub.onEff, onTyL_eq, List.map_map]
    congr 1
    exact List.map_congr_left (fun x _ => comp_onTy θ2 θ1 x)

theorem comp_onRow (θ2 θ1 : Sub) (r : Row) : (θ2.comp θ1).onRow r = θ2.onRow (θ1.onRow r) := by
  simp only [Sub.onRow, comp_tail, comp_onEffL]
  simp [onEffL_eq]

theorem onEffL_simple (θ : Sub) {es : List Eff} (h : ∀ e ∈ es, e.args = []) : θ.onEffL es = es := by
  rw [onEffL_eq]
  conv => rhs; rw [← List.map_id es]
  refine List.map_congr_left (fun e he => ?_)
  have := h e he
  cases e with
  | mk a as => simp only [Eff.args] at this; subst this; simp [Sub.onEff, Sub.onTyL]

/-- A substitution that fixes the variables of a type fixes the type. -/
theorem onTy_fix {θ : Sub} (hr : ∀ r, θ.row r = ⟨[], some r⟩) {t : Ty}
    (ht : ∀ v, Occurs v t → θ.ty v = .uni v) : θ.onTy t = t := by
  induction t using Ty.ind with
  | hu v => simp only [Sub.onTy]; exact ht v (by simp [Occurs])
  | hn h ks es r ihk ihe =>
    simp only [Sub.onTy, onTyL_eq, onEffL_eq]
    have h1 : ks.map θ.onTy = ks := by
      conv => rhs; rw [← List.map_id ks]
      exact List.map_congr_left (fun k hk => ihk k hk (fun v hv => ht v (occurs_node.mpr (Or.inl ⟨k, hk, hv⟩))))
    have h2 : es.map θ.onEff = es := by
      conv => rhs; rw [← List.map_id es]
      refine List.map_congr_left (fun e he => ?_)
      cases e with
      | mk a as =>
        simp only [Sub.onEff, onTyL_eq, id]
        congr 1
        conv => rhs; rw [← List.map_id as]
        exact List.map_congr_left (fun x hx =>
          ihe _ he x hx (fun v hv => ht v (occurs_node.mpr (Or.inr ⟨_, he, x, hx, hv⟩))))
    rw [h1, h2]
    cases r with
    | none => simp [Sub.tail]
    | some v => simp [Sub.tail, hr]

/-! ## The solution recorded in a triangular log -/

def bindT1 (v : UVar) (t : Ty) : Sub := ⟨fun w => if w = v then t else .uni w, fun r => ⟨[], some r⟩⟩
def bindR1 (v : Nat) (r : Row) : Sub := ⟨.uni, fun w => if w = v then r else ⟨[], some w⟩⟩

def chainT : TLog → Sub
  | [] => Sub.id
  | (v, t) :: σ => (bindT1 v t).comp (chainT σ)

def chainR : RLog → Sub
  | [] => Sub.id
  | (v, r) :: ρ => (bindR1 v r).comp (chainR ρ)

theorem onRow_tail (θ : Sub) (r : Nat) : θ.onRow ⟨[], some r⟩ = θ.row r := by
  simp [Sub.onRow, Sub.tail, Sub.onEffL]

theorem chainT_row (σ : TLog) (r : Nat) : (chainT σ).row r = ⟨[], some r⟩ := by
  induction σ with
  | nil => rfl
  | cons p σ ih =>
    obtain ⟨v, t⟩ := p
    show (bindT1 v t).onRow ((chainT σ).row r) = _
    rw [ih, onRow_tail]; rfl

theorem chainT_unbound (σ : TLog) {w : UVar} (h : σ.lookup w = none) :
    (chainT σ).ty w = .uni w := by
  induction σ with
  | nil => rfl
  | cons p σ ih =>
    obtain ⟨v, t⟩ := p
    rw [lookup_none_iff] at h ih
    simp only [List.map_cons, List.mem_cons, not_or] at h
    show (bindT1 v t).onTy ((chainT σ).ty w) = _
    rw [ih h.2]
    simp [Sub.onTy, bindT1, h.1]

theorem chainT_solves {σ : TLog} (h : Tri Occurs σ) :
    ∀ v t, (v, t) ∈ σ → (chainT σ).ty v = (chainT σ).onTy t := by
  induction σ with
  | nil => intro v t hm; cases hm
  | cons p σ ih =>
    obtain ⟨v0, t0⟩ := p
    simp only [Tri] at h
    intro v t hm
    simp only [chainT, comp_onTy]
    show (bindT1 v0 t0).onTy ((chainT σ).ty v) = _
    rcases List.mem_cons.mp hm with hm | hm
    · cases hm
      have h0 : (chainT σ).onTy t0 = t0 :=
        onTy_fix (chainT_row σ) (fun w hw => chainT_unbound σ (lookup_none_iff.mpr (fun hk => h.2.2.1 w hk hw)))
      have h1 : (bindT1 v0 t0).onTy t0 = t0 := by
        refine onTy_fix (fun r => rfl) (fun w hw => ?_)
        have : w ≠ v0 := by rintro rfl; exact h.2.1 hw
        simp [bindT1, this]
      rw [h0, h1, chainT_unbound σ (lookup_none_iff.mpr h.1)]
      simp [Sub.onTy, bindT1]
    · rw [ih h.2.2.2 v t hm]

theorem chainR_ty (ρ : RLog) (v : UVar) : (chainR ρ).ty v = .uni v := by
  induction ρ with
  | nil => rfl
  | cons p ρ ih =>
    obtain ⟨w, r⟩ := p
    show (bindR1 w r).onTy ((chainR ρ).ty v) = _
    rw [ih]; rfl

theorem chainR_unbound (ρ : RLog) {w : Nat} (h : ρ.lookup w = none) :
    (chainR ρ).row w = ⟨[], some w⟩ := by
  induction ρ with
  | nil => rfl
  | cons p ρ ih =>
    obtain ⟨v, r⟩ := p
    rw [lookup_none_iff] at h ih
    simp only [List.map_cons, List.mem_cons, not_or] at h
    show (bindR1 v r).onRow ((chainR ρ).row w) = _
    rw [ih h.2, onRow_tail]
    simp [bindR1, h.1]

/-- Substitution in a row of the fragment whose tail is fixed. -/
theorem onRow_fix {θ : Sub} {r : Row} (hs : ∀ e ∈ r.effects, e.args = [])
    (ht : ∀ v, r.rest = some v → θ.row v = ⟨[], some v⟩) : θ.onRow r = r := by
  obtain ⟨es, t⟩ := r
  simp only [Sub.onRow, onEffL_simple θ hs]
  cases t with
  | none => simp [Sub.tail]
  | some v => simp [Sub.tail, ht v rfl]

theorem chainR_solves {ρ : RLog} (h : Tri tailOcc ρ)
    (hs : ∀ v r, (v, r) ∈ ρ → ∀ e ∈ r.effects, e.args = []) :
    ∀ v r, (v, r) ∈ ρ → (chainR ρ).row v = (chainR ρ).onRow r := by
  induction ρ with
  | nil => intro v t hm; cases hm
  | cons p ρ ih =>
    obtain ⟨v0, r0⟩ := p
    simp only [Tri] at h
    intro v r hm
    simp only [chainR, comp_onRow]
    show (bindR1 v0 r0).onRow ((chainR ρ).row v) = _
    rcases List.mem_cons.mp hm with hm | hm
    · cases hm
      have hs0 := hs v0 r0 (.head _)
      have h0 : (chainR ρ).onRow r0 = r0 :=
        onRow_fix hs0 (fun w hw => chainR_unbound ρ (lookup_none_iff.mpr (fun hk => h.2.2.1 w hk hw)))
      have h1 : (bindR1 v0 r0).onRow r0 = r0 := by
        refine onRow_fix hs0 (fun w hw => ?_)
        have : w ≠ v0 := by rintro rfl; exact h.2.1 hw
        simp [bindR1, this]
      rw [h0, h1, chainR_unbound ρ (lookup_none_iff.mpr h.1), onRow_tail]
      simp [bindR1]
    · rw [ih h.2.2.2 (fun v r hm => hs v r (.tail _ hm)) v r hm]

/-- The solution recorded by a solver. -/
def solution (σ : TLog) (ρ : RLog) : Sub := (chainR ρ).comp (chainT σ)

theorem solution_row (σ : TLog) (ρ : RLog) (r : Nat) : (solution σ ρ).row r = (chainR ρ).row r := by
  show (chainR ρ).onRow ((chainT σ).row r) = _
  rw [chainT_row, onRow_tail]

theorem solution_solves {st : St} (h : Inv st) : SolvesSt (solution st.σ st.ρ) st := by
  constructor
  · intro v t hm
    show (chainR st.ρ).onTy ((chainT st.σ).ty v) = _
    rw [chainT_solves h.triT v t hm, solution, comp_onTy]
  · intro v r hm
    have hs : ∀ v r, (v, r) ∈ st.ρ → ∀ e ∈ r.effects, e.args = [] :=
      fun v r hm => (h.frag.2 v r hm).2.1
    rw [solution_row, chainR_solves h.triR hs v r hm, solution, comp_onRow]
    rw [onRow_fix (hs v r hm) (fun w _ => chainT_row st.σ w)]

theorem solution_unboundT {σ : TLog} {ρ : RLog} {v : UVar} (h : σ.lookup v = none) :
    (solution σ ρ).ty v = .uni v := by
  show (chainR ρ).onTy ((chainT σ).ty v) = _
  rw [chainT_unbound σ h]
  simp only [Sub.onTy]
  exact chainR_ty ρ v

theorem solution_unboundR {σ : TLog} {ρ : RLog} {v : Nat} (h : ρ.lookup v = none) :
    (solution σ ρ).row v = ⟨[], some v⟩ := by
  rw [solution_row, chainR_unbound ρ h]

/-! ## Application terminates -/

theorem mapO_mono {α β : Type} {f g : α → Option β} {l : List α} {r : List β}
    (h : ∀ a b, f a = some b → g a = some b) (hf : mapO f l = some r) : mapO g l = some r := by
  induction l generalizing r with
  | nil => simpa [mapO] using hf
  | cons a l ih =>
    simp only [mapO] at hf ⊢
    cases ha : f a with
    | none => simp [ha] at hf
    | some b =>
      cases hl : mapO f l with
      | none => simp [ha, hl] at hf
      | some bs =>
        simp [ha, hl] at hf
        subst hf
        simp [h a b ha, ih hl]

theorem mapArgs_mono {f g : Ty → Option Ty} {es r : List Eff}
    (h : ∀ a b, f a = some b → g a = some b) (hf : mapArgs f es = some r) : mapArgs g es = some r := by
  refine mapO_mono (fun e e' he => ?_) hf
  cases hm : mapO f e.args with
  | none => simp [hm] at he
  | some as =>
    simp only [hm] at he
    rw [mapO_mono h hm]; exact he

theorem apply_mono {σ : TLog} {ρ : RLog} {n : Nat} {t t' : Ty} (h : apply σ ρ n t = some t') :
    apply σ ρ (n + 1) t = some t' := by
  induction n generalizing t t' with
  | zero => simp [apply] at h
  | succ n ih =>
    cases t with
    | uni v =>
      rw [apply] at h ⊢
      cases hl : σ.lookup v with
      | none => simpa [hl] using h
      | some s => simp only [hl] at h ⊢; exact ih h
    | node hd ks es r =>
      rw [apply] at h ⊢
      cases hk : mapO (apply σ ρ n) ks with
      | none => simp [hk] at h
      | some ks' =>
        cases he : mapArgs (apply σ ρ n) (rowApply ρ ⟨es, r⟩).effects with
        | none => simp [hk, he] at h
        | some es' =>
          simp only [hk, he] at h
          rw [mapO_mono (fun a b hab => ih hab) hk, mapArgs_mono (fun a b hab => ih hab) he]
          exact h

theorem apply_mono_le {σ : TLog} {ρ : RLog} {n m : Nat} (hnm : n ≤ m) {t t' : Ty}
    (h : apply σ ρ n t = some t') : apply σ ρ m t = some t' := by
  induction m with
  | zero => have : n = 0 := by omega
            subst this; exact h
  | succ m ih =>
    by_cases hm : n = m + 1
    · subst hm; exact h
    · exact apply_mono (ih (by omega))

theorem mapO_total {α β : Type} {f : Nat → α → Option β}
    (hmono : ∀ n m a b, n ≤ m → f n a = some b → f m a = some b) {l : List α}
    (h : ∀ a ∈ l, ∃ n b, f n a = some b) : ∃ n r, mapO (f n) l = some r := by
  induction l with
  | nil => exact ⟨0, [], rfl⟩
  | cons a l ih =>
    obtain ⟨n1, b, h1⟩ := h a (.head _)
    obtain ⟨n2, r, h2⟩ := ih (fun x hx => h x (.tail _ hx))
    refine ⟨max n1 n2, b :: r, ?_⟩
    simp only [mapO]
    rw [hmono n1 _ a b (Nat.le_max_left _ _) h1,
      mapO_mono (fun a b hab => hmono n2 _ a b (Nat.le_max_right _ _) hab) h2]

theorem addNew_mem {acc es : List Eff} {e : Eff} (h : e ∈ addNew acc es) : e ∈ acc ∨ e ∈ es := by
  induction es generalizing acc with
  | nil => exact Or.inl h
  | cons x es ih =>
    simp only [addNew] at h
    split at h
    · exact (ih h).imp id (List.mem_cons_of_mem _)
    · rcases ih h with h | h
      · rcases List.mem_append.mp h with h | h
        · exact Or.inl h
        · simp at h; subst h; exact Or.inr (.head _)
      · exact Or.inr (.tail _ h)

theorem rowLoop_mem {ρ : RLog} (n : Nat) (vis : List Nat) (row : Row) {e : Eff}
    (h : e ∈ (rowLoop ρ n vis row).effects) :
    e ∈ row.effects ∨ ∃ v r, (v, r) ∈ ρ ∧ e ∈ r.effects := by
  induction n generalizing vis row with
  | zero => exact Or.inl h
  | succ n ih =>
    rw [rowLoop] at h
    cases hr : row.rest with
    | none => simp only [hr] at h; exact Or.inl h
    | some v =>
      simp only [hr] at h
      cases hl : ρ.lookup v with
      | none => simp only [hl] at h; exact Or.inl h
      | some s =>
        simp only [hl] at h
        split at h
        · exact Or.inl h
        · rcases ih _ _ h with h | h
          · rcases addNew_mem h with h | h
            · exact Or.inl h
            · exact Or.inr ⟨v, s, lookup_mem hl, h⟩
          · exact Or.inr h

/-- `ρ.length + 1` rounds of the loop are enough. -/
theorem rowLoop_fuel (ρ : RLog) (n : Nat) (hn : ρ.length + 1 ≤ n) (row : Row) :
    rowLoop ρ n [] row = rowApply ρ row := by
  have key : ∀ (n m : Nat) (vis : List Nat) (row : Row), vis.Nodup →
      (∀ v ∈ vis, v ∈ ρ.map Prod.fst) → ρ.length + 1 ≤ n + vis.length →
      ρ.length + 1 ≤ m + vis.length → rowLoop ρ n vis row = rowLoop ρ m vis row := by
    intro n
    induction n with
    | zero =>
      intro m vis row hnd hsub h1 h2
      have := (hnd.subperm hsub).length_le
      simp at this
      omega
    | succ n ih =>
      intro m vis row hnd hsub h1 h2
      cases m with
      | zero =>
        have := (hnd.subperm hsub).length_le
        simp at this
        omega
      | succ m =>
        simp only [rowLoop]
        cases hr : row.rest with
        | none => rfl
        | some v =>
          simp only
          cases hl : ρ.lookup v with
          | none => rfl
          | some s =>
            simp only
            split
            · rfl
            · rename_i hv
              refine ih m (v :: vis) _ (List.nodup_cons.mpr ⟨hv, hnd⟩) ?_ (by simp; omega) (by simp; omega)
              intro w hw
              rcases List.mem_cons.mp hw with rfl | hw
              · exact List.mem_map.mpr ⟨_, lookup_mem hl, rfl⟩
              · exact hsub w hw
  exact key n (ρ.length + 1) [] row .nil (by simp) (by simpa using hn) (by simp)

/-- Application terminates on every type when the bindings are in the fragment. -/
theorem apply_total_all {st : St} (h : Inv st) (ρ : RLog)
    (hR : ∀ v r, (v, r) ∈ ρ → ∀ e ∈ r.effects, e.args = []) (t : Ty) :
    ∃ n t', apply st.σ ρ n t = some t' := by
  have node : ∀ (hd : Head) (ks : List Ty) (es : List Eff) (r : Option Nat),
      (∀ k ∈ ks, ∃ n t', apply st.σ ρ n k = some t') →
      (∀ e ∈ es, ∀ a ∈ e.args, ∃ n t', apply st.σ ρ n a = some t') →
      ∃ n t', apply st.σ ρ n (.node hd ks es r) = some t' := by
    intro hd ks es r hk he
    have mono : ∀ n m (a b : Ty), n ≤ m → apply st.σ ρ n a = some b → apply st.σ ρ m a = some b :=
      fun n m a b hnm hab => apply_mono_le hnm hab
    obtain ⟨n1, ks', h1⟩ := mapO_total (f := fun n t => apply st.σ ρ n t) mono hk
    have he' : ∀ e ∈ (rowApply ρ ⟨es, r⟩).effects,
        ∃ n e', (match mapO (apply st.σ ρ n) e.args with
          | none => none
          | some as => some (Eff.mk e.ability as)) = some e' := by
      intro e hm
      have hargs : ∀ a ∈ e.args, ∃ n t', apply st.σ ρ n a = some t' := by
        rcases rowLoop_mem _ _ _ hm with hm | ⟨v, s, hv, hm⟩
        · exact he e hm
        · rw [hR v s hv e hm]; simp
      obtain ⟨n, as, hn⟩ := mapO_total (f := fun n t => apply st.σ ρ n t) mono hargs
      have hn' : mapO (apply st.σ ρ n) e.args = some as := hn
      exact ⟨n, .mk e.ability as, by simp [hn']⟩
    obtain ⟨n2, es', h2⟩ := mapO_total
      (f := fun n (e : Eff) => match mapO (apply st.σ ρ n) e.args with
          | none => none
          | some as => some (Eff.mk e.ability as))
      (by
        intro n m e b hnm hab
        cases hx : mapO (apply st.σ ρ n) e.args with
        | none => simp [hx] at hab
        | some as =>
          simp only [hx] at hab
          rw [mapO_mono (fun a b hab => mono n m a b hnm hab) hx]
          exact hab) he'
    refine ⟨max n1 n2 + 1, .node hd ks' es' (rowApply ρ ⟨es, r⟩).rest, ?_⟩
    have h1' : mapO (apply st.σ ρ (max n1 n2)) ks = some ks' :=
      mapO_mono (fun a b hab => mono n1 _ a b (Nat.le_max_left _ _) hab) h1
    have h2' : mapArgs (apply st.σ ρ (max n1 n2)) (rowApply ρ ⟨es, r⟩).effects = some es' :=
      mapArgs_mono (fun a b hab => mono n2 _ a b (Nat.le_max_right _ _) hab) h2
    simp only [apply, h1', h2']
  have key : ∀ (k : Nat) (t : Ty), (∀ v, Occurs v t → rank st.σ v ≤ k) →
      ∃ n t', apply st.σ ρ n t = some t' := by
    intro k
    induction k with
    | zero =>
      intro t
      induction t using Ty.ind with
      | hu v =>
        intro hk
        have h0 : rank st.σ v = 0 := Nat.le_zero.mp (hk v (by simp [Occurs]))
        have := lookup_none_iff.mpr (rank_eq_zero.mp h0)
        exact ⟨1, .uni v, by simp [apply, this]⟩
      | hn hd ks es r ihk ihe =>
        intro hk
        exact node hd ks es r
          (fun a ha => ihk a ha (fun v hv => hk v (occurs_node.mpr (Or.inl ⟨a, ha, hv⟩))))
          (fun e he a ha => ihe e he a ha (fun v hv => hk v (occurs_node.mpr (Or.inr ⟨e, he, a, ha, hv⟩))))
    | succ k ihk0 =>
      intro t
      induction t using Ty.ind with
      | hu v =>
        intro hk
        cases hl : st.σ.lookup v with
        | none => exact ⟨1, .uni v, by simp [apply, hl]⟩
        | some s =>
          obtain ⟨n, t', hn⟩ := ihk0 s (fun w hw => by
            have h1 := h.triT.rank_lt hl hw
            have h2 := hk v (by simp [Occurs])
            omega)
          exact ⟨n + 1, t', by simp only [apply, hl]; exact hn⟩
      | hn hd ks es r ihk ihe =>
        intro hk
        exact node hd ks es r
          (fun a ha => ihk a ha (fun v hv => hk v (occurs_node.mpr (Or.inl ⟨a, ha, hv⟩))))
          (fun e he a ha => ihe e he a ha (fun v hv => hk v (occurs_node.mpr (Or.inr ⟨e, he, a, ha, hv⟩))))
  exact key st.σ.length t (fun v _ => rank_le _ _)

theorem apply_total {st : St} (h : Inv st) {N : Nat} (_hN : st.next ≤ N) (ρ : RLog)
    (hR : ∀ v r, (v, r) ∈ ρ → SimpleRow N r) (t : Ty) (_ht : Simple N t) :
    ∃ n t', apply st.σ ρ n t = some t' :=
  apply_total_all h ρ (fun v r hm => (hR v r hm).1) t

/-- The bindings are acyclic. -/
theorem tri_acyclic {κ β : Type} [DecidableEq κ] {occ : κ → β → Prop} {l : List (κ × β)}
    (h : Tri occ l) (v : κ) : ¬ Relation.TransGen (fun v w => ∃ t, l.lookup v = some t ∧ occ w t) v v := by
  have hlt : ∀ {v w}, Relation.TransGen (fun v w => ∃ t, l.lookup v = some t ∧ occ w t) v w →
      rank l w < rank l v := by
    intro v w hvw
    induction hvw with
    | single hs => obtain ⟨t, h1, h2⟩ := hs; exact h.rank_lt h1 h2
    | tail _ hs ih => obtain ⟨t, h1, h2⟩ := hs; exact Nat.lt_trans (h.rank_lt h1 h2) ih
  intro hvv
  exact Nat.lt_irrefl _ (hlt hvv)

/-- An applied type is not changed by the solution any more. -/
theorem solution_fix {st : St} (h : Inv st) {N : Nat} (hN : st.next ≤ N) (n : Nat) {t t' : Ty}
    (ht : Simple N t) (ha : apply st.σ st.ρ n t = some t') :
    (solution st.σ st.ρ).onTy t' = t' := by
  have hR : ∀ v r, (v, r) ∈ st.ρ → SimpleRow N r := fun v r hm => (h.frag.2 v r hm).2.mono hN
  have hT : ∀ v t, (v, t) ∈ st.σ → Simple N t := fun v t hm => (h.frag.1 v t hm).mono hN
  induction n generalizing t t' with
  | zero => simp [apply] at ha
  | succ n ih =>
    cases t with
    | uni v =>
      simp only [apply] at ha
      cases hl : st.σ.lookup v with
      | none => simp [hl] at ha; subst ha; exact solution_unboundT hl
      | some s => simp only [hl] at ha; exact ih (hT v s (lookup_mem hl)) ha
    | node hd ks es r =>
      rw [simple_node] at ht
      have hr := rowApply_simple hR _ ht.2
      simp only [apply, mapArgs_simple hr.1] at ha
      cases hk : mapO (apply st.σ st.ρ n) ks with
      | none => simp [hk] at ha
      | some ks' =>
        simp [hk] at ha
        subst ha
        have h1 : ks'.map (solution st.σ st.ρ).onTy = ks' := by
          conv => rhs; rw [← List.map_id ks']
          refine List.map_congr_left (fun k hkm => ?_)
          obtain ⟨k0, hk0, hk1⟩ := Forall₂_right (mapO_some hk) k hkm
          exact ih (ht.1 k0 hk0) hk1
        have h2 := onRow_fix (θ := solution st.σ st.ρ) hr.1
          (fun v hv => solution_unboundR (rowApply_unbound h.triR _ hv))
        have h3 := congrArg Row.effects h2
        have h4 := congrArg Row.rest h2
        simp only [Sub.onRow] at h3 h4
        simp only [Sub.onTy, onTyL_eq, h1, h3, h4]

/-! ## Agreement of reduced types -/

theorem SameEffects.conj' {R S T U : Ty → Ty → Prop}
    (hU : ∀ a b c d, R a b → S b c → T d c → U a d) {ea eb ec ed : List Eff}
    (h1 : SameEffects R ea eb) (h2 : SameEffects S eb ec) (h3 : SameEffects T ed ec) :
    SameEffects U ea ed :=
  SameEffects.conj (R := fun b a => R a b) (S := S) (T := fun c d => T d c)
    (fun a b c d => hU a b c d) (h1.flip (fun _ _ h => h)) h2 (h3.flip (fun _ _ h => h))

theorem RowAgree.reduce' {n : Nat}
    (ih : ∀ a b c d, Red n a b → Agree false n b c → Red n d c → Agree false n a d)
    {ea eb ec ed : List Eff} {r s : Option Nat}
    (h1 : RedEffects (Red n) ea eb) (h2 : RowAgree false (Agree false n) ⟨eb, r⟩ ⟨ec, s⟩)
    (h3 : RedEffects (Red n) ed ec) : RowAgree false (Agree false n) ⟨ea, r⟩ ⟨ed, s⟩ := by
  rcases h2 with h | h | h | h
  · exact Or.inl ⟨(h1.2.empty_iff).mpr h.1, h.2.1, fun hE he => h.2.2 hE ((h3.2.empty_iff).mp he)⟩
  · simp at h
  · simp at h
  · exact Or.inr (Or.inr (Or.inr ⟨h.1, SameEffects.conj' ih h1.2 h.2 h3.2⟩))

theorem Agree.reduce {n : Nat} (a b c d : Ty) (h1 : Red n a b) (h2 : Agree false n b c)
    (h3 : Red n d c) : Agree false n a d := by
  induction n generalizing a b c d with
  | zero => simp [Agree]
  | succ n ih =>
    rcases h2 with h | h | h
    · exact Or.inl ((Red.wild h1).mpr h)
    · exact Or.inr (Or.inl ((Red.wild h3).mpr h))
    · refine Or.inr (Or.inr ?_)
      cases b with
      | uni v =>
        cases c with
        | node => exact h.elim
        | uni w =>
          cases a with
          | node => simp [Red] at h1
          | uni v' => cases d with
            | node => simp [Red] at h3
            | uni w' =>
              simp only [Red] at h1 h3
              have h : v = w := h
              show v' = w'
              rw [h1, h, h3]
      | node hb kb eb rb =>
        cases c with
        | uni => exact h.elim
        | node hc kc ec rc =>
          cases a with
          | uni => simp [Red] at h1
          | node ha ka ea ra => cases d with
            | uni => simp [Red] at h3
            | node hd kd ed rd =>
              simp only [Red] at h1 h3
              obtain ⟨rfl, rfl, k1, e1⟩ := h1
              obtain ⟨rfl, rfl, k3, e3⟩ := h3
              obtain ⟨hc, k2, e2⟩ := h
              refine ⟨hc, ?_, RowAgree.reduce' ih e1 e2 e3⟩
              exact Forall₂_trans3 (R := fun b a => Red n a b) (S := Agree false n)
                (T := fun c d => Red n d c) (fun a b c d => ih a b c d) k1.flip k2 k3.flip

/-- The end-to-end statement for types: the two applied types exist and agree. -/
theorem applied_agree {st : St} (h : Inv st) {N : Nat} (hN : st.next ≤ N) {a b : Ty}
    (ha : Simple N a) (hb : Simple N b)
    (hs : ∀ m, Agree false m ((solution st.σ st.ρ).onTy a) ((solution st.σ st.ρ).onTy b)) :
    ∃ n a' b', apply st.σ st.ρ n a = some a' ∧ apply st.σ st.ρ n b = some b' ∧
      ∀ m, Agree false m a' b' := by
  have hR : ∀ v r, (v, r) ∈ st.ρ → SimpleRow N r := fun v r hm => (h.frag.2 v r hm).2.mono hN
  obtain ⟨n1, a', h1⟩ := apply_total h hN st.ρ hR a ha
  obtain ⟨n2, b', h2⟩ := apply_total h hN st.ρ hR b hb
  refine ⟨max n1 n2, a', b', apply_mono_le (Nat.le_max_left _ _) h1,
    apply_mono_le (Nat.le_max_right _ _) h2, fun m => ?_⟩
  have r1 := apply_red (solution_solves h) n1 h1 m
  have r2 := apply_red (solution_solves h) n2 h2 m
  rw [solution_fix h hN n1 ha h1] at r1
  rw [solution_fix h hN n2 hb h2] at r2
  exact Agree.reduce _ _ _ _ r1 (hs m) r2

/-- The end-to-end statement for rows. -/
theorem applied_rows_agree {st : St} (h : Inv st) {N : Nat} (hN : st.next ≤ N) {a b : Row}
    (ha : SimpleRow N a) (hb : SimpleRow N b)
    (hs : ∀ m, RowAgree false (Agree false m) ((solution st.σ st.ρ).onRow a)
      ((solution st.σ st.ρ).onRow b)) (m : Nat) :
    RowAgree false (Agree false m) (rowApply st.ρ a) (rowApply st.ρ b) := by
  have hR : ∀ v r, (v, r) ∈ st.ρ → SimpleRow N r := fun v r hm => (h.frag.2 v r hm).2.mono hN
  obtain ⟨x1, y1⟩ := rowApply_red (solution_solves h) a m
  obtain ⟨x2, y2⟩ := rowApply_red (solution_solves h) b m
  have f1 := onRow_fix (θ := solution st.σ st.ρ) (rowApply_simple hR a ha).1
    (fun v hv => solution_unboundR (rowApply_unbound h.triR _ hv))
  have f2 := onRow_fix (θ := solution st.σ st.ρ) (rowApply_simple hR b hb).1
    (fun v hv => solution_unboundR (rowApply_unbound h.triR _ hv))
  rw [f1] at x1 y1
  rw [f2] at x2 y2
  have := RowAgree.reduce' (fun a b c d => Agree.reduce a b c d) y1 (hs m) y2
  have e1 : (⟨(rowApply st.ρ a).effects, ((solution st.σ st.ρ).onRow a).rest⟩ : Row)
      = rowApply st.ρ a := by rw [← x1]
  have e2 : (⟨(rowApply st.ρ b).effects, ((solution st.σ st.ρ).onRow b).rest⟩ : Row)
      = rowApply st.ρ b := by rw [← x2]
  exact e1 ▸ e2 ▸ this

/-! ## Histories -/

theorem rowVarsL_mem {v : Nat} {ts : List Ty} : v ∈ Ty.rowVarsL ts ↔ ∃ t ∈ ts, v ∈ Ty.rowVars t := by
  induction ts with
  | nil => simp [Ty.rowVarsL]
  | cons t ts ih => simp [Ty.rowVarsL, ih]

theorem Simple.below {N M : Nat} {t : Ty} (h : Simple N t) (hv : ∀ v ∈ Ty.rowVars t, v < M) :
    Simple M t := by
  induction t using Ty.ind with
  | hu v => simp [Simple]
  | hn hd ks es r ihk _ =>
    rw [simple_node] at h ⊢
    refine ⟨fun k hk => ihk k hk (h.1 k hk) (fun v hvk => hv v ?_), h.2.1, h.2.2.1, ?_⟩
    · simp only [Ty.rowVars, List.mem_append]
      exact Or.inl (Or.inl (rowVarsL_mem.mpr ⟨k, hk, hvk⟩))
    · intro v hr
      apply hv
      simp only at hr
      simp [Ty.rowVars, hr]

theorem SimpleRow.below {N M : Nat} {r : Row} (h : SimpleRow N r) (hv : ∀ v ∈ Row.rowVars r, v < M) :
    SimpleRow M r := by
  refine ⟨h.1, h.2.1, fun v hr => hv v ?_⟩
  simp [Row.rowVars, hr]

theorem reserve_le (next : Nat) (vs : List Nat) :
    next ≤ reserve next vs ∧ ∀ v ∈ vs, v < reserve next vs := by
  unfold reserve
  induction vs generalizing next with
  | nil => simp
  | cons v vs ih =>
    simp only [List.foldl_cons]
    obtain ⟨h1, h2⟩ := ih (max next (v + 1))
    refine ⟨by omega, ?_⟩
    intro w hw
    rcases List.mem_cons.mp hw with rfl | hw
    · omega
    · exact h2 w hw

theorem conBelow_reserved {cs : List Con} (next : Nat) (h : ∀ c ∈ cs, c.Simple) :
    ∀ c ∈ cs, ConBelow (reserve next (cs.flatMap Con.rowVars)) c := by
  intro c hc
  obtain ⟨_, hr⟩ := reserve_le next (cs.flatMap Con.rowVars)
  have hv : ∀ v ∈ c.rowVars, v < reserve next (cs.flatMap Con.rowVars) :=
    fun v hv => hr v (List.mem_flatMap.mpr ⟨c, hc, hv⟩)
  have hs := h c hc
  cases c with
  | teq a b =>
    obtain ⟨N, h1, h2⟩ := hs
    exact ⟨h1.below (fun v hm => hv v (by simp [Con.rowVars, hm])),
      h2.below (fun v hm => hv v (by simp [Con.rowVars, hm]))⟩
  | req a b =>
    obtain ⟨N, h1, h2⟩ := hs
    exact ⟨h1.below (fun v hm => hv v (by simp [Con.rowVars, hm])),
      h2.below (fun v hm => hv v (by simp [Con.rowVars, hm]))⟩

theorem reserved_inv {st : St} (h : Inv st) (vs : List Nat) :
    Inv { st with next := reserve st.next vs } := h.mono (reserve_le st.next vs).1

theorem reach_inv {st : St} (h : Reach Con.Simple st) : Inv st := by
  induction h with
  | init =>
    exact ⟨⟨fun v t h => by simp [St.init] at h, fun v t h => by simp [St.init] at h⟩,
      trivial, trivial⟩
  | solve h hc hs ih =>
    exact (solveLoop_inv (reserved_inv ih _) (conBelow_reserved _ hc) hs).1
  | fresh h ih => exact ih.mono (Nat.le_succ _)
  | reserve vs h ih => exact reserved_inv ih vs

end Verif.Solver
