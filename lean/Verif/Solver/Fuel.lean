import Verif.Solver.Exists

/-!
# The answer of the solver does not depend on the fuel
-/

namespace Verif.Solver
open Verif.Types

/-- `g` answers whatever `f` answers. -/
def Le {α : Type} (f g : Option α) : Prop := ∀ b, f = some b → g = some b

theorem Le.refl {α : Type} (f : Option α) : Le f f := fun _ h => h

theorem anyO_mono {α : Type} {f g : α → Option Bool} (h : ∀ a, Le (f a) (g a)) (l : List α) :
    Le (anyO f l) (anyO g l) := by
  induction l with
  | nil => exact Le.refl _
  | cons a l ih =>
    intro b hb
    simp only [anyO] at hb ⊢
    cases ha : f a with
    | none => simp [ha] at hb
    | some x =>
      rw [h a x ha]
      cases x with
      | true => simpa [ha] using hb
      | false => simp only [ha] at hb; exact ih b hb

theorem allO₂_mono {f g : Ty → Ty → Option Bool} (h : ∀ a b, Le (f a b) (g a b)) (l m : List Ty) :
    Le (allO₂ f l m) (allO₂ g l m) := by
  induction l generalizing m with
  | nil => simp only [allO₂]; exact Le.refl _
  | cons a l ih =>
    cases m with
    | nil => simp only [allO₂]; exact Le.refl _
    | cons b m =>
      intro r hr
      simp only [allO₂] at hr ⊢
      cases ha : f a b with
      | none => simp [ha] at hr
      | some x =>
        rw [h a b x ha]
        cases x with
        | false => simpa [ha] using hr
        | true => simp only [ha] at hr; exact ih m r hr

theorem orO_mono {a b c d : Option Bool} (h1 : Le a b) (h2 : Le c d) : Le (orO a c) (orO b d) := by
  intro r hr
  simp only [orO] at hr ⊢
  cases a with
  | none => simp at hr
  | some x =>
    rw [h1 x rfl]
    cases x with
    | true => exact hr
    | false => exact h2 r hr

theorem apply_le (σ : TLog) (ρ : RLog) (n : Nat) (t : Ty) :
    Le (apply σ ρ n t) (apply σ ρ (n + 1) t) := fun _ h => apply_mono h

theorem applyArgs_le (σ : TLog) (n : Nat) (r : Row) :
    Le (applyArgs σ n r) (applyArgs σ (n + 1) r) := by
  intro b hb
  simp only [applyArgs] at hb ⊢
  cases hm : mapArgs (apply σ [] n) r.effects with
  | none => simp [hm] at hb
  | some es =>
    rw [mapArgs_mono (fun a b => apply_le σ [] n a b) hm]
    simpa [hm] using hb

theorem occursIn_le (v : UVar) (ρ : RLog) (n : Nat) (t : Ty) :
    Le (occursIn v ρ n t) (occursIn v ρ (n + 1) t) := by
  induction n generalizing t with
  | zero => intro b h; simp [occursIn] at h
  | succ n ih =>
    cases t with
    | uni w => simp only [occursIn]; exact Le.refl _
    | node h ks es r =>
      rw [occursIn, occursIn]
      exact orO_mono (anyO_mono ih _) (anyO_mono (fun e => anyO_mono ih _) _)

theorem rowOccT_le (v : Nat) (σ : TLog) (ρ : RLog) (n : Nat) (t : Ty) :
    Le (rowOccT v σ ρ n t) (rowOccT v σ ρ (n + 1) t) := by
  induction n generalizing t with
  | zero => intro b h; simp [rowOccT] at h
  | succ n ih =>
    cases t with
    | uni w =>
      rw [rowOccT, rowOccT]
      cases σ.lookup w with
      | none => exact Le.refl _
      | some s => exact ih s
    | node h ks es r =>
      rw [rowOccT, rowOccT]
      have h1 := anyO_mono ih ks
      have h2 : Le (if (rowApply ρ ⟨es, r⟩).rest = some v then some true
          else anyO (fun e => anyO (rowOccT v σ ρ n) e.args) (rowApply ρ ⟨es, r⟩).effects)
          (if (rowApply ρ ⟨es, r⟩).rest = some v then some true
          else anyO (fun e => anyO (rowOccT v σ ρ (n + 1)) e.args) (rowApply ρ ⟨es, r⟩).effects) := by
        split
        · exact Le.refl _
        · exact anyO_mono (fun e => anyO_mono ih _) _
      split
      · exact orO_mono h1 h2
      · exact orO_mono h2 h1

theorem rowOccursIn_le (v : Nat) (σ : TLog) (ρ : RLog) (n : Nat) (r : Row) :
    Le (rowOccursIn v σ ρ n r) (rowOccursIn v σ ρ (n + 1) r) := by
  simp only [rowOccursIn]
  split
  · exact Le.refl _
  · exact anyO_mono (fun e => anyO_mono (rowOccT_le v σ ρ n) _) _

theorem unifiable_le (σ : TLog) (n : Nat) (a b : Ty) :
    Le (unifiable σ n a b) (unifiable σ (n + 1) a b) := by
  induction n generalizing a b with
  | zero => intro r h; simp [unifiable] at h
  | succ n ih =>
    intro r h
    rw [unifiable] at h ⊢
    cases h1 : apply σ [] n a with
    | none => simp [h1] at h
    | some a' =>
      cases h2 : apply σ [] n b with
      | none => simp [h1, h2] at h
      | some b' =>
        rw [apply_mono h1, apply_mono h2]
        simp only [h1, h2] at h ⊢
        split at h
        · rename_i he; rw [if_pos he]; exact h
        · rename_i he
          rw [if_neg he]
          split at h
          · exact h
          · exact h
          · split at h
            · rename_i hc; rw [if_pos hc]; exact h
            · rename_i hc
              rw [if_neg hc]
              split at h
              · rename_i hd; rw [if_pos hd]; exact h
              · rename_i hd
                rw [if_neg hd]
                split at h
                · rename_i hf; rw [if_pos hf]; exact allO₂_mono ih _ _ r h
                · rename_i hf; rw [if_neg hf]; exact h

/-! ## Unification -/

theorem andThen_le {r r' : Res} {k k' : St → Res} (h1 : Le r r') (h2 : ∀ s, Le (k s) (k' s)) :
    Le (andThen r k) (andThen r' k') := by
  intro b hb
  cases r with
  | none => simp [andThen] at hb
  | some x =>
    rw [h1 x rfl]
    obtain ⟨f, s⟩ := x
    cases f with
    | false => exact hb
    | true => exact h2 s b hb

section
variable {u u' : Ty → Ty → St → Res} (hu : ∀ a b st, Le (u a b st) (u' a b st))
variable {p p' : TLog → Ty → Ty → Option Bool} (hp : ∀ σ a b, Le (p σ a b) (p' σ a b))
include hu

theorem unifyL_le (as bs : List Ty) (st : St) : Le (unifyL u as bs st) (unifyL u' as bs st) := by
  induction as generalizing bs st with
  | nil => simp only [unifyL]; exact Le.refl _
  | cons a as ih =>
    cases bs with
    | nil => simp only [unifyL]; exact Le.refl _
    | cons b bs =>
      simp only [unifyL]
      exact andThen_le (hu a b st) (fun s => ih bs s)

include hp

theorem tryFirst_le (as : List Ty) (es : List Eff) (st : St) :
    Le (tryFirst p u as es st) (tryFirst p' u' as es st) := by
  induction es with
  | nil => simp only [tryFirst]; exact Le.refl _
  | cons e es ih =>
    intro r h
    simp only [tryFirst] at h ⊢
    cases ha : allO₂ (p st.σ) as e.args with
    | none => simp [ha] at h
    | some x =>
      rw [allO₂_mono (hp st.σ) _ _ x ha]
      cases x with
      | false => simp only [ha] at h; exact ih r h
      | true =>
        simp only [ha] at h
        cases hl : unifyL u as e.args st with
        | none => simp [hl] at h
        | some y => rw [unifyL_le hu _ _ _ y hl]; simpa [hl] using h

theorem asSetsLoop_le (es2 es1 : List Eff) (st : St) :
    Le (asSetsLoop p u es2 es1 st) (asSetsLoop p' u' es2 es1 st) := by
  induction es1 generalizing st with
  | nil => simp only [asSetsLoop]; exact Le.refl _
  | cons e es ih =>
    intro r h
    simp only [asSetsLoop] at h ⊢
    split at h
    · rename_i hc; rw [if_pos hc]; exact h
    · rename_i hc
      rw [if_neg hc]
      split at h
      · rename_i hd; rw [if_pos hd]; exact h
      · rename_i hd
        rw [if_neg hd]
        cases ht : tryFirst p u e.args (es2.filter (fun e2 => e.ability == e2.ability)) st with
        | none => simp [ht] at h
        | some x =>
          rw [tryFirst_le hu hp _ _ _ x ht]
          rw [ht] at h
          rcases x with _ | ⟨f, s⟩
          · exact h
          · cases f with
            | false => exact h
            | true => exact ih s r h

theorem asSets_le (es1 es2 : List Eff) (st : St) :
    Le (asSets p u es1 es2 st) (asSets p' u' es1 es2 st) := by
  simp only [asSets]
  split
  · exact Le.refl _
  · exact asSetsLoop_le hu hp _ _ _

theorem diffLoop_le (l1 es2 : List Eff) (st : St) :
    Le (diffLoop p u l1 es2 st) (diffLoop p' u' l1 es2 st) := by
  induction es2 generalizing st with
  | nil => simp only [diffLoop]; exact Le.refl _
  | cons e es ih =>
    intro r h
    simp only [diffLoop] at h ⊢
    split at h
    · rename_i hc; rw [if_pos hc]; exact h
    · rename_i hc
      rw [if_neg hc]
      cases ht : tryFirst (fun σ a b => p σ b a) (fun a b => u b a) e.args
          (l1.filter (fun e1 => e1.ability == e.ability)) st with
      | none => simp [ht] at h
      | some x =>
        rw [tryFirst_le (u' := fun a b => u' b a) (p' := fun σ a b => p' σ b a)
          (fun a b st => hu b a st) (fun σ a b => hp σ b a) _ _ _ x ht]
        rw [ht] at h
        rcases x with _ | ⟨f, s⟩
        · simp only at h ⊢
          cases hd : diffLoop p u l1 es st with
          | none => simp [hd] at h
          | some y => rw [ih st y hd]; rw [hd] at h; exact h
        · cases f with
          | false => exact h
          | true => exact ih s r h

theorem pick_le (e1 : Eff) (es2 : List Eff) (st : St) :
    Le (pick p u e1 es2 st) (pick p' u' e1 es2 st) := by
  induction es2 with
  | nil => simp only [pick]; exact Le.refl _
  | cons e es ih =>
    intro r h
    simp only [pick] at h ⊢
    split at h
    · rename_i hc
      rw [if_pos hc]
      cases hk : pick p u e1 es st with
      | none => simp [hk] at h
      | some y => rw [ih y hk]; rw [hk] at h; exact h
    · rename_i hc
      rw [if_neg hc]
      cases ha : allO₂ (p st.σ) e1.args e.args with
      | none => simp [ha] at h
      | some x =>
        rw [allO₂_mono (hp st.σ) _ _ x ha]
        rw [ha] at h
        cases x with
        | true =>
          simp only at h ⊢
          cases hl : unifyL u e1.args e.args st with
          | none => simp [hl] at h
          | some y => rw [unifyL_le hu _ _ _ y hl]; rw [hl] at h; exact h
        | false =>
          simp only at h ⊢
          cases hk : pick p u e1 es st with
          | none => simp [hk] at h
          | some y => rw [ih y hk]; rw [hk] at h; exact h

theorem splitLoop_le (l2 es1 rem : List Eff) (st : St) :
    Le (splitLoop p u l2 es1 rem st) (splitLoop p' u' l2 es1 rem st) := by
  induction es1 generalizing rem st with
  | nil => simp only [splitLoop]; exact Le.refl _
  | cons e es ih =>
    intro r h
    simp only [splitLoop] at h ⊢
    split at h
    · rename_i hc; rw [if_pos hc]; exact h
    · rename_i hc
      rw [if_neg hc]
      cases hk : pick p u e rem st with
      | none => simp [hk] at h
      | some x =>
        rw [pick_le hu hp _ _ _ x hk]
        rw [hk] at h
        rcases x with _ | ⟨f, s, rm⟩
        · simp only at h ⊢
          cases hd : splitLoop p u l2 es rem st with
          | none => simp [hd] at h
          | some y => rw [ih rem st y hd]; rw [hd] at h; exact h
        · cases f with
          | false => exact h
          | true => exact ih rm s r h

theorem bindDiff_le (v : Nat) (small big : List Eff) (st : St) :
    Le (bindDiff p u v small big st) (bindDiff p' u' v small big st) := by
  intro r h
  simp only [bindDiff] at h ⊢
  cases hd : diffLoop p u small big st with
  | none => simp [hd] at h
  | some y => rw [diffLoop_le hu hp _ _ _ y hd]; rw [hd] at h; exact h

theorem bindSplit_le (v1 v2 : Nat) (es1 es2 : List Eff) (st : St) :
    Le (bindSplit p u v1 v2 es1 es2 st) (bindSplit p' u' v1 v2 es1 es2 st) := by
  intro r h
  simp only [bindSplit] at h ⊢
  cases hd : splitLoop p u es2 es1 es2 st with
  | none => simp [hd] at h
  | some y => rw [splitLoop_le hu hp _ _ _ _ y hd]; rw [hd] at h; exact h

theorem unifyRows'_le (n : Nat) (r1 r2 : Row) (st : St) :
    Le (unifyRows' n p u r1 r2 st) (unifyRows' (n + 1) p' u' r1 r2 st) := by
  intro r h
  obtain ⟨es1, t1⟩ := r1
  obtain ⟨es2, t2⟩ := r2
  simp only [unifyRows'] at h ⊢
  split at h
  · rename_i hc; rw [if_pos hc]; exact h
  · rename_i hc
    rw [if_neg hc]
    cases t1 with
    | none =>
      cases t2 with
      | none => exact asSets_le hu hp _ _ _ r h
      | some v2 =>
        simp only at h ⊢
        split at h
        · rename_i hd; rw [if_pos hd]; exact h
        · rename_i hd
          rw [if_neg hd]
          cases ho : rowOccursIn v2 st.σ st.ρ n ⟨es1, none⟩ with
          | none => simp [ho] at h
          | some y =>
            rw [rowOccursIn_le _ _ _ _ _ y ho]
            rw [ho] at h
            cases y with
            | true => exact h
            | false => exact bindDiff_le hu hp _ _ _ _ r h
    | some v1 =>
      cases t2 with
      | none =>
        simp only at h ⊢
        cases ho : rowOccursIn v1 st.σ st.ρ n ⟨es2, none⟩ with
        | none => simp [ho] at h
        | some y =>
          rw [rowOccursIn_le _ _ _ _ _ y ho]
          rw [ho] at h
          cases y with
          | true => exact h
          | false => exact bindDiff_le hu hp _ _ _ _ r h
      | some v2 =>
        simp only at h ⊢
        split at h
        · rename_i hd; rw [if_pos hd]; exact asSets_le hu hp _ _ _ r h
        · rename_i hd
          rw [if_neg hd]
          cases ho : orO (rowOccursIn v1 st.σ st.ρ n ⟨es2, some v2⟩)
              (rowOccursIn v2 st.σ st.ρ n ⟨es1, some v1⟩) with
          | none => simp [ho] at h
          | some y =>
            rw [orO_mono (rowOccursIn_le _ _ _ _ _) (rowOccursIn_le _ _ _ _ _) y ho]
            rw [ho] at h
            cases y with
            | true => exact h
            | false => exact bindSplit_le hu hp _ _ _ _ _ r h

theorem unifyRowsWith_le (n : Nat) (r1 r2 : Row) (st : St) :
    Le (unifyRowsWith n p u r1 r2 st) (unifyRowsWith (n + 1) p' u' r1 r2 st) := by
  intro r h
  simp only [unifyRowsWith] at h ⊢
  cases h1 : applyArgs st.σ n (rowApply st.ρ r1) with
  | none => simp [h1] at h
  | some a =>
    cases h2 : applyArgs st.σ n (rowApply st.ρ r2) with
    | none => simp [h1, h2] at h
    | some b =>
      rw [applyArgs_le _ _ _ a h1, applyArgs_le _ _ _ b h2]
      simp only [h1, h2] at h
      exact unifyRows'_le hu hp n a b st r h

theorem unifyNodes_le (n : Nat) (h h' : Head) (ks ks' : List Ty) (row row' : Row) (st : St) :
    Le (unifyNodes n p u h h' ks ks' row row' st) (unifyNodes (n + 1) p' u' h h' ks ks' row row' st) := by
  simp only [unifyNodes]
  split
  · exact Le.refl _
  · split
    · split
      · exact andThen_le (unifyL_le hu _ _ _) (fun _ => Le.refl _)
      · exact Le.refl _
    · exact andThen_le (unifyL_le hu _ _ _) (fun s => unifyRowsWith_le hu hp n row row' s)

end

theorem bindVar_le (n : Nat) (v : UVar) (t : Ty) (st : St) :
    Le (bindVar n v t st) (bindVar (n + 1) v t st) := by
  intro r h
  simp only [bindVar] at h ⊢
  cases ho : occursIn v st.ρ n t with
  | none => simp [ho] at h
  | some y => rw [occursIn_le _ _ _ _ y ho]; rw [ho] at h; exact h

theorem unify_le (n : Nat) (a b : Ty) (st : St) : Le (unify n a b st) (unify (n + 1) a b st) := by
  induction n generalizing a b st with
  | zero => intro r h; simp [unify] at h
  | succ n ih =>
    intro r h
    rw [unify] at h ⊢
    cases h1 : apply st.σ [] n a with
    | none => simp [h1] at h
    | some a' =>
      cases h2 : apply st.σ [] n b with
      | none => simp [h1, h2] at h
      | some b' =>
        rw [apply_mono h1, apply_mono h2]
        simp only [h1, h2] at h ⊢
        split at h
        · rename_i he; rw [if_pos he]; exact h
        · rename_i he
          rw [if_neg he]
          split at h
          · exact bindVar_le _ _ _ _ r h
          · exact bindVar_le _ _ _ _ r h
          · split at h
            · rename_i hc; rw [if_pos hc]; exact h
            · rename_i hc
              rw [if_neg hc]
              split at h
              · rename_i hd; rw [if_pos hd]; exact h
              · rename_i hd
                rw [if_neg hd]
                split at h
                · rename_i hf; rw [if_pos hf]; exact h
                · rename_i hf
                  rw [if_neg hf]
                  exact unifyNodes_le ih (fun σ a b => unifiable_le σ n a b) n _ _ _ _ _ _ st r h

theorem le_mono {α : Type} {f : Nat → Option α} (h : ∀ n, Le (f n) (f (n + 1))) {n m : Nat}
    (hnm : n ≤ m) : Le (f n) (f m) := by
  induction m with
  | zero => have : n = 0 := by omega
            subst this; exact Le.refl _
  | succ m ih =>
    by_cases hm : n = m + 1
    · subst hm; exact Le.refl _
    · intro b hb; exact h m b (ih (by omega) b hb)

theorem solveCon_le (n : Nat) (c : Con) (st : St) : Le (solveCon n c st) (solveCon (n + 1) c st) := by
  cases c with
  | teq a b => exact unify_le n a b st
  | req a b =>
    exact unifyRowsWith_le (fun a b st => unify_le n a b st) (fun σ a b => unifiable_le σ n a b) n a b st

theorem solveLoop_le (n : Nat) (cs : List Con) (st : St) :
    Le (solveLoop n cs st) (solveLoop (n + 1) cs st) := by
  induction cs generalizing st with
  | nil => simp only [solveLoop]; exact Le.refl _
  | cons c cs ih =>
    intro r h
    simp only [solveLoop] at h ⊢
    cases hc : solveCon n c st with
    | none => simp [hc] at h
    | some x =>
      rw [solveCon_le _ _ _ x hc]
      obtain ⟨b, s⟩ := x
      simp only [hc] at h ⊢
      cases hl : solveLoop n cs s with
      | none => simp [hl] at h
      | some y => rw [ih s y hl]; rw [hl] at h; exact h

end Verif.Solver
