import Verif.Solver.Exists
import Verif.Scheme.Model

/-!
# The variables in the solver's state

Unification never invents a type variable, and the row variables it invents come from the counter.
-/

namespace Verif.Scheme
open Verif.Types Verif.Solver

/-- Every type variable of the type satisfies `P` and every row variable is below `N`. -/
def Bel (P : UVar → Prop) (N : Nat) (t : Ty) : Prop :=
  (∀ v, Occurs v t → P v) ∧ ∀ v ∈ Ty.rowVars t, v < N

def BelEs (P : UVar → Prop) (N : Nat) (es : List Eff) : Prop := ∀ e ∈ es, ∀ a ∈ e.args, Bel P N a

def BelRow (P : UVar → Prop) (N : Nat) (r : Row) : Prop :=
  BelEs P N r.effects ∧ ∀ v, r.rest = some v → v < N

variable {P : UVar → Prop}

theorem rowVarsL_mem {ts : List Ty} {v : Nat} : v ∈ Ty.rowVarsL ts ↔ ∃ t ∈ ts, v ∈ Ty.rowVars t := by
  induction ts with
  | nil => simp [Ty.rowVarsL]
  | cons t ts ih => simp [Ty.rowVarsL, ih]

theorem eff_rowVarsL_mem {es : List Eff} {v : Nat} :
    v ∈ Eff.rowVarsL es ↔ ∃ e ∈ es, ∃ a ∈ e.args, v ∈ Ty.rowVars a := by
  induction es with
  | nil => simp [Eff.rowVarsL]
  | cons e es ih =>
    cases e
    simp [Eff.rowVarsL, Eff.rowVars, Eff.args, rowVarsL_mem, ih]

theorem rowVars_node {h : Head} {ks : List Ty} {es : List Eff} {r : Option Nat} {v : Nat} :
    v ∈ Ty.rowVars (.node h ks es r) ↔ (∃ k ∈ ks, v ∈ Ty.rowVars k) ∨
      (∃ e ∈ es, ∃ a ∈ e.args, v ∈ Ty.rowVars a) ∨ r = some v := by
  simp [Ty.rowVars, rowVarsL_mem, eff_rowVarsL_mem, or_assoc]

theorem bel_node {N : Nat} {h : Head} {ks : List Ty} {es : List Eff} {r : Option Nat} :
    Bel P N (.node h ks es r) ↔ (∀ k ∈ ks, Bel P N k) ∧ BelRow P N ⟨es, r⟩ := by
  simp only [Bel, BelRow, BelEs, rowVars_node, occurs_node]
  constructor
  · rintro ⟨h1, h2⟩
    exact ⟨fun k hk => ⟨fun v hv => h1 v (Or.inl ⟨k, hk, hv⟩), fun v hv => h2 v (Or.inl ⟨k, hk, hv⟩)⟩,
      fun e he a ha => ⟨fun v hv => h1 v (Or.inr ⟨e, he, a, ha, hv⟩),
        fun v hv => h2 v (Or.inr (Or.inl ⟨e, he, a, ha, hv⟩))⟩, fun v hv => h2 v (Or.inr (Or.inr hv))⟩
  · rintro ⟨h1, h2, h3⟩
    refine ⟨fun v hv => ?_, fun v hv => ?_⟩
    · rcases hv with ⟨k, hk, hv⟩ | ⟨e, he, a, ha, hv⟩
      · exact (h1 k hk).1 v hv
      · exact (h2 e he a ha).1 v hv
    · rcases hv with ⟨k, hk, hv⟩ | ⟨e, he, a, ha, hv⟩ | hv
      · exact (h1 k hk).2 v hv
      · exact (h2 e he a ha).2 v hv
      · exact h3 v hv

theorem Bel.mono {N M : Nat} (h : N ≤ M) {t : Ty} (ht : Bel P N t) : Bel P M t :=
  ⟨ht.1, fun v hv => Nat.lt_of_lt_of_le (ht.2 v hv) h⟩
theorem BelEs.mono {N M : Nat} (h : N ≤ M) {es : List Eff} (ht : BelEs P N es) : BelEs P M es :=
  fun e he a ha => (ht e he a ha).mono h
theorem BelRow.mono {N M : Nat} (h : N ≤ M) {r : Row} (ht : BelRow P N r) : BelRow P M r :=
  ⟨ht.1.mono h, fun v hv => Nat.lt_of_lt_of_le (ht.2 v hv) h⟩

/-- The state of a solver. -/
structure BelSt (P : UVar → Prop) (st : St) : Prop where
  tys : ∀ v t, (v, t) ∈ st.σ → P v ∧ Bel P st.next t
  rows : ∀ v r, (v, r) ∈ st.ρ → v < st.next ∧ BelRow P st.next r

theorem BelSt.bump {st : St} (h : BelSt P st) {N : Nat} (hN : st.next ≤ N) :
    BelSt P { st with next := N } :=
  ⟨fun v t hm => ⟨(h.tys v t hm).1, (h.tys v t hm).2.mono hN⟩,
   fun v r hm => ⟨Nat.lt_of_lt_of_le (h.rows v r hm).1 hN, (h.rows v r hm).2.mono hN⟩⟩

/-! ## Substitution -/

theorem addNew_bel {N : Nat} {acc es : List Eff} (ha : BelEs P N acc) (he : BelEs P N es) :
    BelEs P N (addNew acc es) := by
  intro e hm
  rcases addNew_mem hm with h | h
  · exact ha e h
  · exact he e h

theorem rowLoop_bel {ρ : RLog} {N : Nat} (h : ∀ v r, (v, r) ∈ ρ → BelRow P N r) (n : Nat)
    (vis : List Nat) (row : Row) (hr : BelRow P N row) : BelRow P N (rowLoop ρ n vis row) := by
  induction n generalizing vis row with
  | zero => exact hr
  | succ n ih =>
    rw [rowLoop]
    split
    · exact hr
    · split
      · exact hr
      · rename_i s hl
        split
        · exact hr
        · have hs := h _ _ (lookup_mem hl)
          exact ih _ _ ⟨addNew_bel hr.1 hs.1, hs.2⟩

theorem rowApply_bel {ρ : RLog} {N : Nat} (h : ∀ v r, (v, r) ∈ ρ → BelRow P N r) (row : Row)
    (hr : BelRow P N row) : BelRow P N (rowApply ρ row) := rowLoop_bel h _ _ _ hr

theorem mapO_bel {N : Nat} {f : Ty → Option Ty} (hf : ∀ t t', Bel P N t → f t = some t' → Bel P N t')
    {ks ks' : List Ty} (h : mapO f ks = some ks') (hk : ∀ k ∈ ks, Bel P N k) :
    ∀ k ∈ ks', Bel P N k := by
  have := mapO_some h
  intro k hm
  obtain ⟨a, ha, hx⟩ := Forall₂_right this k hm
  exact hf a k (hk a ha) hx

theorem mapArgs_bel {N : Nat} {f : Ty → Option Ty}
    (hf : ∀ t t', Bel P N t → f t = some t' → Bel P N t') {es es' : List Eff}
    (h : mapArgs f es = some es') (hk : BelEs P N es) : BelEs P N es' := by
  have := mapArgs_some h
  intro e he
  obtain ⟨a, ha, hx⟩ := Forall₂_right this e he
  intro t ht
  obtain ⟨b, hb, hy⟩ := Forall₂_right hx.2 t ht
  exact hf b t (hk a ha b hb) hy

theorem apply_bel {σ : TLog} {ρ : RLog} {N : Nat} (hT : ∀ v t, (v, t) ∈ σ → Bel P N t)
    (hR : ∀ v r, (v, r) ∈ ρ → BelRow P N r) (n : Nat) (t t' : Ty) (ht : Bel P N t)
    (h : apply σ ρ n t = some t') : Bel P N t' := by
  induction n generalizing t t' with
  | zero => simp [apply] at h
  | succ n ih =>
    cases t with
    | uni v =>
      rw [apply] at h
      cases hl : σ.lookup v with
      | none => simp [hl] at h; subst h; exact ht
      | some s => simp [hl] at h; exact ih _ _ (hT _ _ (lookup_mem hl)) h
    | node hd ks es r =>
      rw [bel_node] at ht
      rw [apply] at h
      have hrow := rowApply_bel hR _ ht.2
      cases hk : mapO (apply σ ρ n) ks with
      | none => simp [hk] at h
      | some ks' =>
        cases he : mapArgs (apply σ ρ n) (rowApply ρ ⟨es, r⟩).effects with
        | none => simp [hk, he] at h
        | some es' =>
          simp [hk, he] at h
          subst h
          rw [bel_node]
          exact ⟨mapO_bel ih hk ht.1, mapArgs_bel ih he hrow.1, hrow.2⟩

theorem BelSt.apply {st : St} (h : BelSt P st) {n : Nat} {t t' : Ty} (ht : Bel P st.next t)
    (ha : Solver.apply st.σ st.ρ n t = some t') : Bel P st.next t' :=
  apply_bel (fun v t hm => (h.tys v t hm).2) (fun v r hm => (h.rows v r hm).2) n t t' ht ha

theorem BelSt.apply0 {st : St} (h : BelSt P st) {n : Nat} {t t' : Ty} (ht : Bel P st.next t)
    (ha : Solver.apply st.σ [] n t = some t') : Bel P st.next t' :=
  apply_bel (fun v t hm => (h.tys v t hm).2) (by simp) n t t' ht ha

/-! ## Unification -/

/-- What is kept by a unification step. -/
def Keeps (P : UVar → Prop) (st st' : St) : Prop := BelSt P st' ∧ st.next ≤ st'.next

theorem Keeps.refl {st : St} (h : BelSt P st) : Keeps P st st := ⟨h, Nat.le_refl _⟩
theorem Keeps.trans {a b c : St} (h : Keeps P a b) (h' : Keeps P b c) : Keeps P a c :=
  ⟨h'.1, Nat.le_trans h.2 h'.2⟩

def UBel (P : UVar → Prop) (u : Ty → Ty → St → Res) : Prop :=
  ∀ a b st r st', BelSt P st → Bel P st.next a → Bel P st.next b → u a b st = some (r, st') →
    Keeps P st st'

theorem bindVar_bel {st : St} (h : BelSt P st) {n : Nat} {v : UVar} {t : Ty} {b : Bool} {st' : St}
    (hv : P v) (ht : Bel P st.next t) (hb : bindVar n v t st = some (b, st')) : Keeps P st st' := by
  rw [bindVar] at hb
  split at hb
  · simp at hb
  · simp only [Option.some.injEq, Prod.mk.injEq] at hb
    rw [← hb.2]; exact Keeps.refl h
  · simp only [Option.some.injEq, Prod.mk.injEq] at hb
    rw [← hb.2]
    refine ⟨⟨fun w s hm => ?_, h.rows⟩, Nat.le_refl _⟩
    rcases List.mem_cons.mp hm with hm | hm
    · cases hm; exact ⟨hv, ht⟩
    · exact h.tys w s hm

theorem unifyL_bel {u : Ty → Ty → St → Res} (hu : UBel P u) (as bs : List Ty) (st : St) (r : Bool)
    (st' : St) (h : BelSt P st) (ha : ∀ a ∈ as, Bel P st.next a) (hb : ∀ b ∈ bs, Bel P st.next b)
    (he : unifyL u as bs st = some (r, st')) : Keeps P st st' := by
  induction as generalizing bs st with
  | nil => simp [unifyL] at he; rw [← he.2]; exact Keeps.refl h
  | cons a as ih =>
    cases bs with
    | nil => simp [unifyL] at he; rw [← he.2]; exact Keeps.refl h
    | cons b bs =>
      simp only [unifyL, andThen] at he
      split at he
      · simp at he
      · rename_i hx
        simp only [Option.some.injEq, Prod.mk.injEq] at he
        rw [← he.2]
        exact hu _ _ _ _ _ h (ha a (.head _)) (hb b (.head _)) hx
      · rename_i s hx
        have k := hu _ _ _ _ _ h (ha a (.head _)) (hb b (.head _)) hx
        exact k.trans (ih bs s k.1 (fun x hx => (ha x (.tail _ hx)).mono k.2)
          (fun x hx => (hb x (.tail _ hx)).mono k.2) he)

theorem tryFirst_bel {p : TLog → Ty → Ty → Option Bool} {u : Ty → Ty → St → Res} (hu : UBel P u)
    (as : List Ty) (es : List Eff) (st : St) (r : Bool) (st' : St) (h : BelSt P st)
    (ha : ∀ a ∈ as, Bel P st.next a) (he : BelEs P st.next es)
    (ht : tryFirst p u as es st = some (some (r, st'))) : Keeps P st st' := by
  induction es with
  | nil => simp [tryFirst] at ht
  | cons e es ih =>
    rw [tryFirst] at ht
    split at ht
    · simp at ht
    · exact ih (fun x hx => he x (.tail _ hx)) ht
    · split at ht
      · simp at ht
      · rename_i hx
        simp only [Option.some.injEq] at ht
        rw [ht] at hx
        exact unifyL_bel hu _ _ _ _ _ h ha (he e (.head _)) hx

theorem BelEs.filter {N : Nat} {es : List Eff} (h : BelEs P N es) (q : Eff → Bool) :
    BelEs P N (es.filter q) := fun e he => h e (List.mem_filter.mp he).1

theorem asSetsLoop_bel {p : TLog → Ty → Ty → Option Bool} {u : Ty → Ty → St → Res} (hu : UBel P u)
    (es2 es1 : List Eff) (st : St) (r : Bool) (st' : St) (h : BelSt P st) (h1 : BelEs P st.next es1)
    (h2 : BelEs P st.next es2) (he : asSetsLoop p u es2 es1 st = some (r, st')) : Keeps P st st' := by
  induction es1 generalizing st with
  | nil => simp [asSetsLoop] at he; rw [← he.2]; exact Keeps.refl h
  | cons e1 es1 ih =>
    simp only [asSetsLoop] at he
    split at he
    · simp only [Option.some.injEq, Prod.mk.injEq] at he; rw [← he.2]; exact Keeps.refl h
    split at he
    · simp only [Option.some.injEq, Prod.mk.injEq] at he; rw [← he.2]; exact Keeps.refl h
    split at he
    · simp at he
    · simp only [Option.some.injEq, Prod.mk.injEq] at he; rw [← he.2]; exact Keeps.refl h
    · rename_i hx
      simp only [Option.some.injEq, Prod.mk.injEq] at he; rw [← he.2]
      exact tryFirst_bel hu _ _ _ _ _ h (h1 e1 (.head _)) (h2.filter _) hx
    · rename_i s hx
      have k := tryFirst_bel hu _ _ _ _ _ h (h1 e1 (.head _)) (h2.filter _) hx
      exact k.trans (ih s k.1 (fun e he => (h1.mono k.2) e (.tail _ he)) (h2.mono k.2) he)

theorem diffLoop_bel {p : TLog → Ty → Ty → Option Bool} {u : Ty → Ty → St → Res} (hu : UBel P u)
    (l1 l2 : List Eff) (st : St) (o : Option (List Eff)) (st' : St) (h : BelSt P st)
    (h1 : BelEs P st.next l1) (h2 : BelEs P st.next l2)
    (he : diffLoop p u l1 l2 st = some (o, st')) : Keeps P st st' := by
  have hu' : UBel P (fun a b => u b a) := fun a b st r st' hs ha hb hx => hu b a st r st' hs hb ha hx
  induction l2 generalizing st o st' with
  | nil => simp [diffLoop] at he; rw [← he.2]; exact Keeps.refl h
  | cons e2 es2 ih =>
    simp only [diffLoop] at he
    split at he
    · simp only [Option.some.injEq, Prod.mk.injEq] at he; rw [← he.2]; exact Keeps.refl h
    split at he
    · simp at he
    · rename_i hx
      simp only [Option.some.injEq, Prod.mk.injEq] at he; rw [← he.2]
      exact tryFirst_bel hu' _ _ _ _ _ h (h2 e2 (.head _)) (h1.filter _) hx
    · rename_i s hx
      have k := tryFirst_bel hu' _ _ _ _ _ h (h2 e2 (.head _)) (h1.filter _) hx
      exact k.trans (ih s o st' k.1 (h1.mono k.2) (fun e he => (h2.mono k.2) e (.tail _ he)) he)
    · split at he
      · simp at he
      · rename_i hx
        simp only [Option.some.injEq, Prod.mk.injEq] at he; rw [← he.2]
        exact ih _ _ _ h h1 (fun e he => h2 e (.tail _ he)) hx
      · rename_i hx
        simp only [Option.some.injEq, Prod.mk.injEq] at he; rw [← he.2]
        exact ih _ _ _ h h1 (fun e he => h2 e (.tail _ he)) hx

theorem pick_bel {p : TLog → Ty → Ty → Option Bool} {u : Ty → Ty → St → Res} (hu : UBel P u)
    (e1 : Eff) (es2 : List Eff) (st : St) (b : Bool) (st' : St) (rem : List Eff) (h : BelSt P st)
    (h1 : ∀ a ∈ e1.args, Bel P st.next a) (h2 : BelEs P st.next es2)
    (he : pick p u e1 es2 st = some (some (b, st', rem))) : Keeps P st st' := by
  induction es2 generalizing b st' rem with
  | nil => simp [pick] at he
  | cons e2 es2 ih =>
    have h2' : BelEs P st.next es2 := fun e he => h2 e (.tail _ he)
    rw [pick] at he
    split at he
    · split at he
      · simp at he
      · simp at he
      · rename_i hx
        simp only [Option.some.injEq, Prod.mk.injEq] at he
        rw [← he.2.1]
        exact ih _ _ _ h2' hx
    · split at he
      · simp at he
      · split at he
        · simp at he
        · rename_i hx
          simp only [Option.some.injEq, Prod.mk.injEq] at he
          rw [← he.2.1]
          exact unifyL_bel hu _ _ _ _ _ h h1 (h2 e2 (.head _)) hx
      · split at he
        · simp at he
        · simp at he
        · rename_i hx
          simp only [Option.some.injEq, Prod.mk.injEq] at he
          rw [← he.2.1]
          exact ih _ _ _ h2' hx

theorem splitLoop_bel {p : TLog → Ty → Ty → Option Bool} {u : Ty → Ty → St → Res} (hu : UBel P u)
    (l2 es1 rem : List Eff) (st : St) (o : Option (List Eff × List Eff)) (st' : St) (h : BelSt P st)
    (h1 : BelEs P st.next es1) (h2 : BelEs P st.next rem)
    (he : splitLoop p u l2 es1 rem st = some (o, st')) : Keeps P st st' := by
  induction es1 generalizing st rem o st' with
  | nil => simp [splitLoop] at he; rw [← he.2]; exact Keeps.refl h
  | cons e1 es1 ih =>
    have h1' : ∀ {N}, st.next ≤ N → BelEs P N es1 := fun hN e he => (h1.mono hN) e (.tail _ he)
    simp only [splitLoop] at he
    split at he
    · simp only [Option.some.injEq, Prod.mk.injEq] at he; rw [← he.2]; exact Keeps.refl h
    split at he
    · simp at he
    · rename_i hx
      simp only [Option.some.injEq, Prod.mk.injEq] at he; rw [← he.2]
      exact pick_bel hu _ _ _ _ _ _ h (h1 e1 (.head _)) h2 hx
    · rename_i s rem' hx
      have k := pick_bel hu _ _ _ _ _ _ h (h1 e1 (.head _)) h2 hx
      have hs : BelEs P s.next rem' := fun e he => (h2.mono k.2) e ((pick_sub hx).subset he)
      exact k.trans (ih _ s _ _ k.1 (h1' k.2) hs he)
    · split at he
      · simp at he
      · rename_i hx
        simp only [Option.some.injEq, Prod.mk.injEq] at he; rw [← he.2]
        exact ih _ _ _ _ h (h1' (Nat.le_refl _)) h2 hx
      · rename_i hx
        simp only [Option.some.injEq, Prod.mk.injEq] at he; rw [← he.2]
        exact ih _ _ _ _ h (h1' (Nat.le_refl _)) h2 hx

theorem BelEs.sub {N : Nat} {es es' : List Eff} (h : BelEs P N es) (hs : es'.Sublist es) :
    BelEs P N es' := fun e he => h e (hs.subset he)

theorem bindDiff_bel {p : TLog → Ty → Ty → Option Bool} {u : Ty → Ty → St → Res} (hu : UBel P u)
    {v : Nat} {small big : List Eff} {st : St} {r : Bool} {st' : St} (h : BelSt P st)
    (hv : v < st.next) (h1 : BelEs P st.next small) (h2 : BelEs P st.next big)
    (he : bindDiff p u v small big st = some (r, st')) : Keeps P st st' := by
  rw [bindDiff] at he
  split at he
  · simp at he
  · rename_i hx
    simp only [Option.some.injEq, Prod.mk.injEq] at he; rw [← he.2]
    exact diffLoop_bel hu _ _ _ _ _ h h1 h2 hx
  · rename_i only s hx
    have k := diffLoop_bel hu _ _ _ _ _ h h1 h2 hx
    split at he
    · simp only [Option.some.injEq, Prod.mk.injEq] at he; rw [← he.2]; exact k
    · simp only [Option.some.injEq, Prod.mk.injEq] at he; rw [← he.2]
      refine ⟨⟨k.1.tys, fun w r hm => ?_⟩, k.2⟩
      rcases List.mem_cons.mp hm with hm | hm
      · cases hm
        exact ⟨Nat.lt_of_lt_of_le hv k.2, (h2.sub (diffLoop_sub hx)).mono k.2, by simp⟩
      · exact k.1.rows w r hm

theorem bindSplit_bel {p : TLog → Ty → Ty → Option Bool} {u : Ty → Ty → St → Res} (hu : UBel P u)
    {v1 v2 : Nat} {es1 es2 : List Eff} {st : St} {r : Bool} {st' : St} (h : BelSt P st)
    (hv1 : v1 < st.next) (hv2 : v2 < st.next) (h1 : BelEs P st.next es1) (h2 : BelEs P st.next es2)
    (he : bindSplit p u v1 v2 es1 es2 st = some (r, st')) : Keeps P st st' := by
  rw [bindSplit] at he
  split at he
  · simp at he
  · rename_i hx
    simp only [Option.some.injEq, Prod.mk.injEq] at he; rw [← he.2]
    exact splitLoop_bel hu _ _ _ _ _ _ h h1 h2 hx
  · rename_i o1 o2 s hx
    have k := splitLoop_bel hu _ _ _ _ _ _ h h1 h2 hx
    obtain ⟨s1, s2⟩ := splitLoop_sub hx
    simp only [Option.some.injEq, Prod.mk.injEq] at he; rw [← he.2]
    have hle : s.next ≤ s.next + 1 := Nat.le_succ _
    have b1 := ((h1.sub s1).mono k.2).mono hle
    have b2 := ((h2.sub s2).mono k.2).mono hle
    have k2 := k.2
    refine ⟨⟨fun v t hm => ⟨(k.1.tys v t hm).1, (k.1.tys v t hm).2.mono hle⟩, fun w r hm => ?_⟩,
      Nat.le_trans k.2 hle⟩
    rcases List.mem_cons.mp hm with hm | hm
    · cases hm
      exact ⟨show v2 < s.next + 1 by omega, b1, fun v hv => by cases hv; exact Nat.lt_succ_self _⟩
    rcases List.mem_cons.mp hm with hm | hm
    · cases hm
      exact ⟨show v1 < s.next + 1 by omega, b2, fun v hv => by cases hv; exact Nat.lt_succ_self _⟩
    · have := k.1.rows w r hm
      exact ⟨Nat.lt_of_lt_of_le this.1 hle, this.2.mono hle⟩

theorem asSets_bel {p : TLog → Ty → Ty → Option Bool} {u : Ty → Ty → St → Res} (hu : UBel P u)
    {es1 es2 : List Eff} {st : St} {r : Bool} {st' : St} (h : BelSt P st) (h1 : BelEs P st.next es1)
    (h2 : BelEs P st.next es2) (he : asSets p u es1 es2 st = some (r, st')) : Keeps P st st' := by
  rw [asSets] at he
  split at he
  · simp only [Option.some.injEq, Prod.mk.injEq] at he; rw [← he.2]; exact Keeps.refl h
  · exact asSetsLoop_bel hu _ _ _ _ _ h h1 h2 he

theorem unifyRows'_bel {n : Nat} {p : TLog → Ty → Ty → Option Bool} {u : Ty → Ty → St → Res}
    (hu : UBel P u) {r1 r2 : Row} {st : St} {r : Bool} {st' : St} (h : BelSt P st)
    (h1 : BelRow P st.next r1) (h2 : BelRow P st.next r2)
    (he : unifyRows' n p u r1 r2 st = some (r, st')) : Keeps P st st' := by
  obtain ⟨es1, t1⟩ := r1
  obtain ⟨es2, t2⟩ := r2
  have stay : ∀ {b : Bool}, some (b, st) = some (r, st') → Keeps P st st' := by
    intro b hx
    simp only [Option.some.injEq, Prod.mk.injEq] at hx; rw [← hx.2]; exact Keeps.refl h
  simp only [unifyRows'] at he
  split at he
  · exact stay he
  cases t1 with
  | none =>
    cases t2 with
    | none => exact asSets_bel hu h h1.1 h2.1 he
    | some v2 =>
      simp only at he
      split at he
      · exact stay he
      split at he
      · simp at he
      · exact stay he
      · exact bindDiff_bel hu h (h2.2 _ rfl) h2.1 h1.1 he
  | some v1 =>
    cases t2 with
    | none =>
      simp only at he
      split at he
      · simp at he
      · exact stay he
      · exact bindDiff_bel hu h (h1.2 _ rfl) h1.1 h2.1 he
    | some v2 =>
      simp only at he
      split at he
      · exact asSets_bel hu h h1.1 h2.1 he
      split at he
      · simp at he
      · exact stay he
      · exact bindSplit_bel hu h (h1.2 _ rfl) (h2.2 _ rfl) h1.1 h2.1 he

theorem unifyRowsWith_bel {n : Nat} {p : TLog → Ty → Ty → Option Bool} {u : Ty → Ty → St → Res}
    (hu : UBel P u) {r1 r2 : Row} {st : St} {r : Bool} {st' : St} (h : BelSt P st)
    (h1 : BelRow P st.next r1) (h2 : BelRow P st.next r2)
    (he : unifyRowsWith n p u r1 r2 st = some (r, st')) : Keeps P st st' := by
  have args : ∀ r a, BelRow P st.next r → applyArgs st.σ n (rowApply st.ρ r) = some a →
      BelRow P st.next a := by
    intro r a hr ha
    have hrow := rowApply_bel (fun v r hm => (h.rows v r hm).2) _ hr
    rw [applyArgs] at ha
    split at ha
    · simp at ha
    · rename_i es hx
      simp only [Option.some.injEq] at ha
      subst ha
      exact ⟨mapArgs_bel (fun t t' ht hx => h.apply0 ht hx) hx hrow.1, hrow.2⟩
  rw [unifyRowsWith] at he
  split at he
  · rename_i a b ha hb
    exact unifyRows'_bel hu h (args _ _ h1 ha) (args _ _ h2 hb) he
  · simp at he

theorem unifyNodes_bel {n : Nat} {p : TLog → Ty → Ty → Option Bool} {u : Ty → Ty → St → Res}
    (hu : UBel P u) {hd hd' : Head} {ks ks' : List Ty} {row row' : Row} {st : St} {r : Bool} {st' : St}
    (h : BelSt P st) (k1 : ∀ k ∈ ks, Bel P st.next k) (k2 : ∀ k ∈ ks', Bel P st.next k)
    (h1 : BelRow P st.next row) (h2 : BelRow P st.next row')
    (he : unifyNodes n p u hd hd' ks ks' row row' st = some (r, st')) : Keeps P st st' := by
  have stay : ∀ {b : Bool}, some (b, st) = some (r, st') → Keeps P st st' := by
    intro b hx
    simp only [Option.some.injEq, Prod.mk.injEq] at hx; rw [← hx.2]; exact Keeps.refl h
  rw [unifyNodes] at he
  split at he
  · exact stay he
  split at he
  · split at he
    · rw [andThen.eq_def] at he
      have t1 : ∀ k ∈ ks.take 1, Bel P st.next k := fun k hk => k1 k (List.mem_of_mem_take hk)
      have t2 : ∀ k ∈ ks'.take 1, Bel P st.next k := fun k hk => k2 k (List.mem_of_mem_take hk)
      split at he
      · simp at he
      · rename_i hx
        simp only [Option.some.injEq, Prod.mk.injEq] at he; rw [← he.2]
        exact unifyL_bel hu _ _ _ _ _ h t1 t2 hx
      · rename_i hx
        simp only [Option.some.injEq, Prod.mk.injEq] at he; rw [← he.2]
        exact unifyL_bel hu _ _ _ _ _ h t1 t2 hx
    · exact stay he
  · rw [andThen.eq_def] at he
    split at he
    · simp at he
    · rename_i hx
      simp only [Option.some.injEq, Prod.mk.injEq] at he; rw [← he.2]
      exact unifyL_bel hu _ _ _ _ _ h k1 k2 hx
    · rename_i s hx
      have k := unifyL_bel hu _ _ _ _ _ h k1 k2 hx
      exact k.trans (unifyRowsWith_bel hu k.1 (h1.mono k.2) (h2.mono k.2) he)

theorem unify_bel (n : Nat) : UBel P (unify n) := by
  induction n with
  | zero => intro a b st r st' _ _ _ h; simp [unify] at h
  | succ n ih =>
    intro t1 t2 st r st' h h1 h2 he
    have stay : ∀ {b : Bool}, some (b, st) = some (r, st') → Keeps P st st' := by
      intro b hx
      simp only [Option.some.injEq, Prod.mk.injEq] at hx; rw [← hx.2]; exact Keeps.refl h
    rw [unify] at he
    cases ha : apply st.σ [] n t1 with
    | none => simp [ha] at he
    | some a =>
      cases hb : apply st.σ [] n t2 with
      | none => simp [ha, hb] at he
      | some b =>
        have ba := h.apply0 h1 ha
        have bb := h.apply0 h2 hb
        simp only [ha, hb] at he
        by_cases hab : a = b
        · rw [if_pos hab] at he; exact stay he
        rw [if_neg hab] at he
        cases a with
        | uni v => exact bindVar_bel h (ba.1 v rfl) bb he
        | node hd ks es r1 =>
          cases b with
          | uni v => exact bindVar_bel h (bb.1 v rfl) ba he
          | node hd' ks' es' r2 =>
            rw [bel_node] at ba bb
            simp only at he
            split at he
            · exact stay he
            split at he
            · exact stay he
            split at he
            · exact stay he
            · exact unifyNodes_bel ih h ba.1 bb.1 ba.2 bb.2 he

/-! ## Solving -/

/-- The constraint mentions only such variables. -/
def BelCon (P : UVar → Prop) (N : Nat) : Con → Prop
  | .teq a b => Bel P N a ∧ Bel P N b
  | .req a b => BelRow P N a ∧ BelRow P N b

theorem BelCon.mono {N M : Nat} (h : N ≤ M) {c : Con} (hc : BelCon P N c) : BelCon P M c := by
  cases c with
  | teq a b => exact ⟨hc.1.mono h, hc.2.mono h⟩
  | req a b => exact ⟨hc.1.mono h, hc.2.mono h⟩

theorem solveLoop_bel (n : Nat) (cs : List Con) (st : St) (bs : List Bool) (st' : St)
    (h : BelSt P st) (hc : ∀ c ∈ cs, BelCon P st.next c) (he : solveLoop n cs st = some (bs, st')) :
    Keeps P st st' := by
  induction cs generalizing st bs st' with
  | nil => simp [solveLoop] at he; rw [← he.2]; exact Keeps.refl h
  | cons c cs ih =>
    rw [solveLoop] at he
    split at he
    · simp at he
    · rename_i b s hx
      have k : Keeps P st s := by
        have h1 := hc c (.head _)
        cases c with
        | teq x y => exact unify_bel n _ _ _ _ _ h h1.1 h1.2 hx
        | req x y => exact unifyRowsWith_bel (unify_bel n) h h1.1 h1.2 hx
      split at he
      · simp at he
      · rename_i hy
        simp only [Option.some.injEq, Prod.mk.injEq] at he; rw [← he.2]
        exact k.trans (ih _ _ _ k.1 (fun c hm => (hc c (.tail _ hm)).mono k.2) hy)

/-- The type variables of a constraint. -/
def conOccurs (v : UVar) : Con → Prop
  | .teq a b => Occurs v a ∨ Occurs v b
  | .req a b => OccursE v a.effects ∨ OccursE v b.effects

theorem belCon_iff {N : Nat} {c : Con} :
    BelCon P N c ↔ (∀ v, conOccurs v c → P v) ∧ ∀ v ∈ Con.rowVars c, v < N := by
  have row : ∀ r : Row, BelRow P N r ↔ (∀ v, OccursE v r.effects → P v) ∧
      ∀ v ∈ Row.rowVars r, v < N := by
    intro r
    simp only [BelRow, BelEs, Bel, occursE_iff, Row.rowVars, List.mem_append, eff_rowVarsL_mem,
      Option.mem_toList, Option.mem_def]
    constructor
    · rintro ⟨h1, h2⟩
      refine ⟨?_, ?_⟩
      · rintro v ⟨e, he, a, ha, ho⟩; exact (h1 e he a ha).1 v ho
      · rintro v (hv | ⟨e, he, a, ha, ho⟩)
        · exact h2 v hv
        · exact (h1 e he a ha).2 v ho
    · rintro ⟨h1, h2⟩
      exact ⟨fun e he a ha => ⟨fun v hv => h1 v ⟨e, he, a, ha, hv⟩,
        fun v hv => h2 v (Or.inr ⟨e, he, a, ha, hv⟩)⟩, fun v hv => h2 v (Or.inl hv)⟩
  cases c with
  | teq a b =>
    simp only [BelCon, Bel, conOccurs, Con.rowVars, List.mem_append]
    constructor
    · rintro ⟨h1, h2⟩
      exact ⟨fun v hv => hv.elim (h1.1 v) (h2.1 v), fun v hv => hv.elim (h1.2 v) (h2.2 v)⟩
    · rintro ⟨h1, h2⟩
      exact ⟨⟨fun v hv => h1 v (Or.inl hv), fun v hv => h2 v (Or.inl hv)⟩,
        ⟨fun v hv => h1 v (Or.inr hv), fun v hv => h2 v (Or.inr hv)⟩⟩
  | req a b =>
    simp only [BelCon, row, conOccurs, Con.rowVars, List.mem_append]
    constructor
    · rintro ⟨h1, h2⟩
      exact ⟨fun v hv => hv.elim (h1.1 v) (h2.1 v), fun v hv => hv.elim (h1.2 v) (h2.2 v)⟩
    · rintro ⟨h1, h2⟩
      exact ⟨⟨fun v hv => h1 v (Or.inl hv), fun v hv => h2 v (Or.inl hv)⟩,
        ⟨fun v hv => h1 v (Or.inr hv), fun v hv => h2 v (Or.inr hv)⟩⟩

/-- Solving keeps all row variables in the state below the counter, and never invents a type
variable. -/
theorem solve_bel {n : Nat} {cs : List Con} {st : St} {bs : List Bool} {st' : St} (h : BelSt P st)
    (hc : ∀ c ∈ cs, ∀ v, conOccurs v c → P v) (he : solve n cs st = some (bs, st')) :
    BelSt P st' ∧ st.next ≤ st'.next ∧ ∀ c ∈ cs, ∀ v ∈ Con.rowVars c, v < st'.next := by
  have hr := reserve_le st.next (cs.flatMap Con.rowVars)
  have hc' : ∀ c ∈ cs, BelCon P (reserve st.next (cs.flatMap Con.rowVars)) c := fun c hm =>
    belCon_iff.mpr ⟨hc c hm, fun v hv => hr.2 _ (List.mem_flatMap.mpr ⟨c, hm, hv⟩)⟩
  have k := solveLoop_bel n cs _ bs st' (h.bump hr.1) hc' he
  exact ⟨k.1, Nat.le_trans hr.1 k.2, fun c hm v hv =>
    Nat.lt_of_lt_of_le ((belCon_iff.mp (hc' c hm)).2 v hv) k.2⟩

end Verif.Scheme
