import Verif.Scheme.Rename
import Verif.Solver.Rows

/-!
# Generalising `let` bindings: lemmas
-/

namespace Verif.Scheme
open Verif.Types Verif.Solver

theorem mapO_idem {α : Type} {f : α → Option α} (h : ∀ a b, f a = some b → f b = some b) {l l' : List α}
    (hl : mapO f l = some l') : mapO f l' = some l' := by
  induction l generalizing l' with
  | nil => simp [mapO] at hl; subst hl; rfl
  | cons a l ih =>
    rw [mapO] at hl
    cases ha : f a with
    | none => simp [ha] at hl
    | some b =>
      cases hr : mapO f l with
      | none => simp [ha, hr] at hl
      | some bs =>
        simp [ha, hr] at hl
        subst hl
        rw [mapO, h a b ha]
        simp only [ih hr]

theorem mapArgs_idem {f : Ty → Option Ty} (h : ∀ a b, f a = some b → f b = some b) {l l' : List Eff}
    (hl : mapArgs f l = some l') : mapArgs f l' = some l' := by
  refine mapO_idem (fun e e' he => ?_) hl
  split at he
  · simp at he
  · rename_i as has
    simp only [Option.some.injEq] at he
    subst he
    simp only [Eff.args, mapO_idem h has, Eff.ability]

theorem apply_idem {σ : TLog} {ρ : RLog} (hρ : RowsResolved ρ) (n : Nat) {t t' : Ty}
    (h : apply σ ρ n t = some t') : apply σ ρ n t' = some t' := by
  induction n generalizing t t' with
  | zero => simp [apply] at h
  | succ n ih =>
    cases t with
    | uni v =>
      rw [apply] at h
      cases hl : σ.lookup v with
      | none =>
        simp only [hl, Option.some.injEq] at h
        subst h
        rw [apply, hl]
      | some u =>
        simp only [hl] at h
        exact apply_mono (ih h)
    | node hd ks es r =>
      rw [apply] at h
      cases hk : mapO (apply σ ρ n) ks with
      | none => simp [hk] at h
      | some ks' =>
        cases he : mapArgs (apply σ ρ n) (rowApply ρ ⟨es, r⟩).effects with
        | none => simp [hk, he] at h
        | some es' =>
          simp [hk, he] at h
          subst h
          have e1 := mapO_idem (f := apply σ ρ n) (fun a b hab => ih hab) hk
          have e2 := mapArgs_idem (f := apply σ ρ n) (fun a b hab => ih hab) he
          have e3 : rowApply ρ ⟨es', (rowApply ρ ⟨es, r⟩).rest⟩ = ⟨es', (rowApply ρ ⟨es, r⟩).rest⟩ :=
            rowApply_fix (fun v hv => hρ ⟨es, r⟩ v hv)
          rw [apply]
          simp only [e1, e3, e2]

theorem mem_pushAll {out xs : List UVar} {v : UVar} : v ∈ pushAll out xs ↔ v ∈ out ∨ v ∈ xs := by
  rw [pushAll_eq]
  simp only [List.mem_append, List.mem_filter, mem_firsts, decide_eq_true_eq]
  by_cases h : v ∈ out <;> simp [h]

theorem envVars_mem {st : St} (hρ : RowsResolved st.ρ) {n : Nat} {ss : List PolyTy} {out out' : List UVar}
    (h : envVars st.σ st.ρ n ss out = some out') (v : UVar) :
    v ∈ out' ↔ v ∈ out ∨ ∃ s ∈ ss, ∃ b, apply st.σ st.ρ n s.body = some b ∧ v ∈ tyVars b := by
  induction ss generalizing out with
  | nil => simp [envVars] at h; subst h; simp
  | cons s ss ih =>
    rw [envVars] at h
    cases hb : apply st.σ st.ρ n s.body with
    | none => simp [hb] at h
    | some b =>
      simp only [hb, collect_eq n b b (apply_idem hρ n hb)] at h
      rw [ih h, mem_pushAll]
      simp only [List.mem_cons, exists_eq_or_imp, hb, Option.some.injEq, exists_eq_left', or_assoc]

theorem envRows_mem {st : St} {n : Nat} {ss : List PolyTy} {out out' : List Nat}
    (h : envRows st.σ st.ρ n ss out = some out') (v : Nat) :
    v ∈ out' ↔ v ∈ out ∨
      ∃ s ∈ ss, ∃ b, apply st.σ st.ρ n s.body = some b ∧ v ∈ Ty.rowVars b ∧ v ∉ s.rows := by
  induction ss generalizing out with
  | nil => simp [envRows] at h; subst h; simp
  | cons s ss ih =>
    rw [envRows] at h
    cases hb : apply st.σ st.ρ n s.body with
    | none => simp [hb] at h
    | some b =>
      simp only [hb] at h
      rw [ih h]
      simp only [List.mem_cons, exists_eq_or_imp, hb, Option.some.injEq, exists_eq_left', List.mem_append,
        List.mem_filter, decide_eq_true_eq]
      by_cases h1 : v ∈ out <;> by_cases h2 : v ∈ s.rows <;> by_cases h3 : v ∈ Ty.rowVars b <;>
        simp [h1, h2, h3]

theorem rowVars_bodyOf (vs : List UVar) (t : Ty) : Ty.rowVars (bodyOf vs t) = Ty.rowVars t := by
  rw [bodyOf]
  have hb : ∀ v, Ty.rowVars (bindOf vs.zipIdx [] v) = [] := by
    intro v
    rw [bindOf]
    simp only [List.lookup_nil]
    split <;> simp [tBound, Ty.rowVars, Ty.rowVarsL, Eff.rowVarsL]
  induction t using Ty.ind with
  | hu v => exact hb v
  | hn hd ks es r ihk ihe =>
    rw [onTy_withTys_node, Ty.rowVars, Ty.rowVars, rowVarsL_map _ ihk, rowVarsE_map _ rfl]
    intro e he
    cases e with
    | mk a as =>
      rw [onEff_mk, Eff.rowVars, Eff.rowVars]
      exact rowVarsL_map _ (ihe _ he)

end Verif.Scheme
