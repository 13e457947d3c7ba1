import Verif.Solver.Proofs

/-!
# Acyclicity of the recorded bindings in the fragment without ability arguments
-/

namespace Verif.Solver
open Verif.Types

/-! ## Induction on types -/

mutual
theorem Ty.ind {P : Ty → Prop} (hu : ∀ v, P (.uni v))
    (hn : ∀ h ks es r, (∀ k ∈ ks, P k) → (∀ e ∈ es, ∀ a ∈ e.args, P a) → P (.node h ks es r)) :
    ∀ t, P t
  | .uni v => hu v
  | .node h ks es r => hn h ks es r (Ty.indL hu hn ks) (Ty.indE hu hn es)
theorem Ty.indL {P : Ty → Prop} (hu : ∀ v, P (.uni v))
    (hn : ∀ h ks es r, (∀ k ∈ ks, P k) → (∀ e ∈ es, ∀ a ∈ e.args, P a) → P (.node h ks es r)) :
    ∀ ts : List Ty, ∀ k ∈ ts, P k
  | [] => by simp
  | t :: ts => List.forall_mem_cons.mpr ⟨Ty.ind hu hn t, Ty.indL hu hn ts⟩
theorem Ty.indEff {P : Ty → Prop} (hu : ∀ v, P (.uni v))
    (hn : ∀ h ks es r, (∀ k ∈ ks, P k) → (∀ e ∈ es, ∀ a ∈ e.args, P a) → P (.node h ks es r)) :
    ∀ e : Eff, ∀ a ∈ e.args, P a
  | .mk _ as => Ty.indL hu hn as
theorem Ty.indE {P : Ty → Prop} (hu : ∀ v, P (.uni v))
    (hn : ∀ h ks es r, (∀ k ∈ ks, P k) → (∀ e ∈ es, ∀ a ∈ e.args, P a) → P (.node h ks es r)) :
    ∀ es : List Eff, ∀ e ∈ es, ∀ a ∈ e.args, P a
  | [] => by simp
  | e :: es => List.forall_mem_cons.mpr ⟨Ty.indEff hu hn e, Ty.indE hu hn es⟩
end

theorem occursL_iff (v : UVar) (ts : List Ty) : OccursL v ts ↔ ∃ t ∈ ts, Occurs v t := by
  induction ts with
  | nil => simp [OccursL]
  | cons t ts ih => simp [OccursL, ih]

theorem occursE_iff (v : UVar) (es : List Eff) :
    OccursE v es ↔ ∃ e ∈ es, ∃ a ∈ e.args, Occurs v a := by
  induction es with
  | nil => simp [OccursE]
  | cons e es ih => cases e; simp [OccursE, OccursEff, ih, occursL_iff, Eff.args]

theorem occurs_node {v : UVar} {h : Head} {ks : List Ty} {es : List Eff} {r : Option Nat} :
    Occurs v (.node h ks es r) ↔
      (∃ t ∈ ks, Occurs v t) ∨ (∃ e ∈ es, ∃ a ∈ e.args, Occurs v a) := by
  simp only [Occurs, occursL_iff, occursE_iff]

theorem simpleL_iff (N : Nat) (ts : List Ty) : SimpleL N ts ↔ ∀ t ∈ ts, Simple N t := by
  induction ts with
  | nil => simp [SimpleL]
  | cons t ts ih => simp [SimpleL, ih]

theorem simple_node {N : Nat} {h : Head} {ks : List Ty} {es : List Eff} {r : Option Nat} :
    Simple N (.node h ks es r) ↔ (∀ t ∈ ks, Simple N t) ∧ SimpleRow N ⟨es, r⟩ := by
  simp only [Simple, simpleL_iff, SimpleRow]

theorem SimpleRow.mono {N M : Nat} (h : N ≤ M) {r : Row} (hr : SimpleRow N r) : SimpleRow M r :=
  ⟨hr.1, hr.2.1, fun v hv => Nat.lt_of_lt_of_le (hr.2.2 v hv) h⟩

theorem Simple.mono {N M : Nat} (h : N ≤ M) {t : Ty} (ht : Simple N t) : Simple M t := by
  induction t using Ty.ind with
  | hu v => simp [Simple]
  | hn hd ks es r ihk _ =>
    rw [simple_node] at ht ⊢
    exact ⟨fun t hm => ihk t hm (ht.1 t hm), ht.2.mono h⟩

/-! ## Triangular logs -/

/-- No entry's right-hand side mentions its own key or the key of an older entry, and keys are
distinct. -/
def Tri {κ β : Type} (occ : κ → β → Prop) : List (κ × β) → Prop
  | [] => True
  | (k, b) :: l => k ∉ l.map Prod.fst ∧ ¬ occ k b ∧ (∀ k' ∈ l.map Prod.fst, ¬ occ k' b) ∧ Tri occ l

/-- Position of a key, newest first, counted from one; zero for an unbound one. -/
def rank {κ β : Type} [DecidableEq κ] : List (κ × β) → κ → Nat
  | [], _ => 0
  | (k0, _) :: l, k => if k = k0 then 1 else match rank l k with
    | 0 => 0
    | r + 1 => r + 2

theorem rank_le {κ β : Type} [DecidableEq κ] (l : List (κ × β)) (k : κ) : rank l k ≤ l.length := by
  induction l with
  | nil => simp [rank]
  | cons p l ih =>
    obtain ⟨k0, b⟩ := p
    simp only [rank]
    by_cases h : k = k0
    · simp [h]
    · simp only [h, if_false, List.length_cons]
      cases hr : rank l k with
      | zero => simp
      | succ r => simp; omega

theorem rank_eq_zero {κ β : Type} [DecidableEq κ] {l : List (κ × β)} {k : κ} :
    rank l k = 0 ↔ k ∉ l.map Prod.fst := by
  induction l with
  | nil => simp [rank]
  | cons p l ih =>
    obtain ⟨k0, b⟩ := p
    simp only [rank]
    by_cases h : k = k0
    · simp [h]
    · simp only [h, if_false, List.map_cons, List.mem_cons, false_or]
      rw [← ih]
      cases rank l k <;> simp

theorem lookup_none_iff {κ β : Type} [DecidableEq κ] {l : List (κ × β)} {k : κ} :
    l.lookup k = none ↔ k ∉ l.map Prod.fst := by
  induction l with
  | nil => simp
  | cons p l ih =>
    obtain ⟨k0, b⟩ := p
    rw [List.lookup_cons]
    by_cases h : k = k0
    · simp [h]
    · simp only [beq_eq_false_iff_ne.mpr h, List.map_cons, List.mem_cons, h, false_or]
      exact ih

theorem Tri.lookup_of_mem {κ β : Type} [DecidableEq κ] {occ : κ → β → Prop} {l : List (κ × β)}
    (h : Tri occ l) {k : κ} {b : β} (hm : (k, b) ∈ l) : l.lookup k = some b := by
  induction l with
  | nil => cases hm
  | cons p l ih =>
    obtain ⟨k0, b0⟩ := p
    simp only [Tri] at h
    rw [List.lookup_cons]
    rcases List.mem_cons.mp hm with hm | hm
    · cases hm; simp
    · have hk : k ∈ l.map Prod.fst := List.mem_map.mpr ⟨(k, b), hm, rfl⟩
      have : k ≠ k0 := by
        rintro rfl
        exact h.1 hk
      simp only [beq_eq_false_iff_ne.mpr this]
      exact ih h.2.2.2 hm

theorem Tri.rank_lt {κ β : Type} [DecidableEq κ] {occ : κ → β → Prop} {l : List (κ × β)}
    (h : Tri occ l) {k k' : κ} {b : β} (hl : l.lookup k = some b) (ho : occ k' b) :
    rank l k' < rank l k := by
  induction l with
  | nil => simp at hl
  | cons p l ih =>
    obtain ⟨k0, b0⟩ := p
    simp only [Tri] at h
    rw [List.lookup_cons] at hl
    by_cases hk : k = k0
    · subst hk
      simp at hl
      subst hl
      have h1 : k' ≠ k := by rintro rfl; exact h.2.1 ho
      have h2 : rank l k' = 0 := rank_eq_zero.mpr (fun hm => h.2.2.1 k' hm ho)
      simp [rank, h1, h2]
    · simp only [beq_eq_false_iff_ne.mpr hk] at hl
      have := ih h.2.2.2 hl
      simp only [rank, hk, if_false]
      cases hr : rank l k with
      | zero => omega
      | succ r =>
        by_cases hk' : k' = k0
        · simp [hk']
        · simp only [hk', if_false]
          cases hr' : rank l k' with
          | zero => simp
          | succ r' => simp; omega

/-- A row mentions a row variable as its tail. -/
def tailOcc (v : Nat) (r : Row) : Prop := r.rest = some v

theorem rowLoop_unbound {ρ : RLog} (h : Tri tailOcc ρ) (n : Nat) (vis : List Nat) (row : Row)
    (hn : ∀ v, row.rest = some v → rank ρ v < n)
    (hv : ∀ v, row.rest = some v → ∀ x ∈ vis, rank ρ v < rank ρ x) :
    ∀ v, (rowLoop ρ n vis row).rest = some v → ρ.lookup v = none := by
  induction n generalizing vis row with
  | zero =>
    intro v hr
    simp only [rowLoop] at hr
    have := hn v hr
    omega
  | succ n ih =>
    intro v
    rw [rowLoop]
    cases hr : row.rest with
    | none => simp [hr]
    | some w =>
      cases hl : ρ.lookup w with
      | none =>
        intro hv
        simp only [hl] at hv
        rw [hr] at hv; cases hv; exact hl
      | some s =>
        have hw : w ∉ vis := fun hm => by have := hv w hr w hm; omega
        simp only [hl, hw, if_false]
        refine ih (w :: vis) _ ?_ ?_ v
        · intro x hx
          have h1 := h.rank_lt hl (k' := x) hx
          have h2 := hn w hr
          omega
        · intro x hx y hy
          have h1 := h.rank_lt hl (k' := x) hx
          rcases List.mem_cons.mp hy with rfl | hy
          · exact h1
          · have := hv w hr y hy
            omega

theorem rowApply_unbound {ρ : RLog} (h : Tri tailOcc ρ) (row : Row) {v : Nat}
    (hv : (rowApply ρ row).rest = some v) : ρ.lookup v = none := by
  refine rowLoop_unbound h (ρ.length + 1) [] row ?_ (by simp) v hv
  intro w _
  have := rank_le ρ w
  omega

/-! ## The invariant -/

/-- States whose recorded bindings are in the fragment. -/
def FragSt (st : St) : Prop :=
  (∀ v t, (v, t) ∈ st.σ → Simple st.next t) ∧
  (∀ v r, (v, r) ∈ st.ρ → v < st.next ∧ SimpleRow st.next r)

/-- The invariant of the solver on the fragment. -/
structure Inv (st : St) : Prop where
  frag : FragSt st
  triT : Tri Occurs st.σ
  triR : Tri tailOcc st.ρ

theorem addNew_simple {acc es : List Eff} (ha : ∀ e ∈ acc, e.args = []) (hes : ∀ e ∈ es, e.args = [])
    (hn : (acc.map Eff.ability).Nodup) :
    (∀ e ∈ addNew acc es, e.args = []) ∧ ((addNew acc es).map Eff.ability).Nodup := by
  induction es generalizing acc with
  | nil => exact ⟨ha, hn⟩
  | cons e es ih =>
    simp only [addNew]
    by_cases he : e ∈ acc
    · simp only [he, if_true]
      exact ih ha (fun x hx => hes x (.tail _ hx)) hn
    · simp only [he, if_false]
      refine ih ?_ (fun x hx => hes x (.tail _ hx)) ?_
      · intro x hx
        rcases List.mem_append.mp hx with hx | hx
        · exact ha x hx
        · exact hes x (by simp at hx; simp [hx])
      · rw [List.map_append]
        refine List.nodup_append.mpr ⟨hn, by simp, ?_⟩
        intro a haa b hb
        simp at hb
        subst hb
        rintro rfl
        obtain ⟨x, hx, hxa⟩ := List.mem_map.mp haa
        apply he
        have h1 := ha x hx
        have h2 := hes e (.head _)
        cases x; cases e
        simp only [Eff.args, Eff.ability] at *
        subst h1; subst h2; subst hxa
        exact hx

theorem rowLoop_simple {ρ : RLog} {N : Nat} (h : ∀ v r, (v, r) ∈ ρ → SimpleRow N r) (n : Nat)
    (vis : List Nat) (row : Row) (hr : SimpleRow N row) : SimpleRow N (rowLoop ρ n vis row) := by
  induction n generalizing vis row with
  | zero => exact hr
  | succ n ih =>
    rw [rowLoop]
    cases hrest : row.rest with
    | none => exact hr
    | some v =>
      cases hl : ρ.lookup v with
      | none => simp only [hl]; exact hr
      | some s =>
        by_cases hv : v ∈ vis
        · simp only [hl, hv, if_true]; exact hr
        · simp only [hl, hv, if_false]
          apply ih
          have hs := h v s (lookup_mem hl)
          obtain ⟨h1, h2⟩ := addNew_simple hr.1 hs.1 hr.2.1
          exact ⟨h1, h2, hs.2.2⟩

theorem rowApply_simple {ρ : RLog} {N : Nat} (h : ∀ v r, (v, r) ∈ ρ → SimpleRow N r) (row : Row)
    (hr : SimpleRow N row) : SimpleRow N (rowApply ρ row) := rowLoop_simple h _ _ _ hr

theorem rowApply_nil (row : Row) : rowApply [] row = row := by
  obtain ⟨es, r⟩ := row
  cases r <;> simp [rowApply, rowLoop]

/-- Without arguments there is nothing to map. -/
theorem mapArgs_simple {f : Ty → Option Ty} {es : List Eff} (h : ∀ e ∈ es, e.args = []) :
    mapArgs f es = some es := by
  unfold mapArgs
  induction es with
  | nil => rfl
  | cons e es ih =>
    have h1 := h e (.head _)
    have h2 := ih (fun x hx => h x (.tail _ hx))
    simp only [mapO]
    rw [h2]
    cases e
    simp only [Eff.args] at h1
    subst h1
    simp [mapO, Eff.args, Eff.ability]

theorem apply_simple {σ : TLog} {ρ : RLog} {N : Nat} (hT : ∀ v t, (v, t) ∈ σ → Simple N t)
    (hR : ∀ v r, (v, r) ∈ ρ → SimpleRow N r) (n : Nat) {t t' : Ty} (ht : Simple N t)
    (h : apply σ ρ n t = some t') : Simple N t' := by
  induction n generalizing t t' with
  | zero => simp [apply] at h
  | succ n ih =>
    cases t with
    | uni v =>
      simp only [apply] at h
      cases hl : σ.lookup v with
      | none => simp [hl] at h; subst h; simp [Simple]
      | some s => simp only [hl] at h; exact ih (hT v s (lookup_mem hl)) h
    | node hd ks es r =>
      rw [simple_node] at ht
      have hr := rowApply_simple hR _ ht.2
      simp only [apply, mapArgs_simple hr.1] at h
      cases hk : mapO (apply σ ρ n) ks with
      | none => simp [hk] at h
      | some ks' =>
        simp [hk] at h
        subst h
        rw [simple_node]
        refine ⟨?_, hr⟩
        intro t hm
        obtain ⟨k, hk1, hk2⟩ := Forall₂_right (mapO_some hk) t hm
        exact ih (ht.1 k hk1) hk2

theorem apply_unbound {σ : TLog} {ρ : RLog} (n : Nat) {t t' : Ty} (h : apply σ ρ n t = some t')
    {v : UVar} (hv : Occurs v t') : σ.lookup v = none := by
  induction n generalizing t t' with
  | zero => simp [apply] at h
  | succ n ih =>
    cases t with
    | uni w =>
      simp only [apply] at h
      cases hl : σ.lookup w with
      | none => simp [hl] at h; subst h; simp [Occurs] at hv; subst hv; exact hl
      | some s => simp only [hl] at h; exact ih h hv
    | node hd ks es r =>
      simp only [apply] at h
      cases hk : mapO (apply σ ρ n) ks with
      | none => simp [hk] at h
      | some ks' =>
        cases he : mapArgs (apply σ ρ n) (rowApply ρ ⟨es, r⟩).effects with
        | none => simp [hk, he] at h
        | some es' =>
          simp [hk, he] at h
          subst h
          rw [occurs_node] at hv
          rcases hv with ⟨t, ht, hv⟩ | ⟨e, hee, a, ha, hv⟩
          · obtain ⟨k, _, hk2⟩ := Forall₂_right (mapO_some hk) t ht
            exact ih hk2 hv
          · obtain ⟨e0, _, _, hf⟩ := Forall₂_right (mapArgs_some he) e hee
            obtain ⟨a0, _, ha0⟩ := Forall₂_right hf a ha
            exact ih ha0 hv

/-! ## The occurs check -/

theorem anyO_false {α : Type} {f : α → Option Bool} {l : List α} (h : anyO f l = some false) :
    ∀ a ∈ l, f a = some false := by
  induction l with
  | nil => simp
  | cons a l ih =>
    simp only [anyO] at h
    cases ha : f a with
    | none => simp [ha] at h
    | some b =>
      cases b with
      | true => simp [ha] at h
      | false =>
        simp only [ha] at h
        intro x hx
        rcases List.mem_cons.mp hx with rfl | hx
        · exact ha
        · exact ih h x hx

theorem orO_false {a b : Option Bool} (h : orO a b = some false) : a = some false ∧ b = some false := by
  cases a with
  | none => simp [orO] at h
  | some a => cases a <;> simp [orO] at h; exact ⟨rfl, h⟩

theorem rowLoop_effects (ρ : RLog) (n : Nat) (vis : List Nat) (row : Row) :
    ∀ e ∈ row.effects, e ∈ (rowLoop ρ n vis row).effects := by
  induction n generalizing vis row with
  | zero => simp [rowLoop]
  | succ n ih =>
    rw [rowLoop]
    cases hrest : row.rest with
    | none => simp
    | some v =>
      cases hl : ρ.lookup v with
      | none => simp [hl]
      | some s =>
        by_cases hv : v ∈ vis
        · simp [hl, hv]
        · simp only [hl, hv, if_false]
          intro e he
          apply ih
          obtain ⟨x, hx, _⟩ := addNew_spec row.effects s.effects
          simp only [hx]
          exact List.mem_append_left _ he

/-- The occurs check rejects every type in which the variable is written. -/
theorem occursIn_false {v : UVar} {ρ : RLog} {n : Nat} {t : Ty} (h : occursIn v ρ n t = some false) :
    ¬ Occurs v t := by
  induction n generalizing t with
  | zero => simp [occursIn] at h
  | succ n ih =>
    cases t with
    | uni w =>
      simp only [occursIn, Option.some.injEq, beq_eq_false_iff_ne] at h
      simp only [Occurs]
      exact fun hh => h hh.symm
    | node hd ks es r =>
      simp only [occursIn] at h
      obtain ⟨h1, h2⟩ := orO_false h
      rw [occurs_node]
      rintro (⟨t, ht, ho⟩ | ⟨e, he, a, ha, ho⟩)
      · exact ih (anyO_false h1 t ht) ho
      · have := anyO_false h2 e (rowLoop_effects _ _ _ _ e he)
        exact ih (anyO_false this a ha) ho

/-! ## Preservation -/

theorem Inv.bindT {st : St} (h : Inv st) {v : UVar} {t : Ty} (hv : st.σ.lookup v = none)
    (ht : Simple st.next t) (hno : ¬ Occurs v t) (hf : ∀ w, Occurs w t → st.σ.lookup w = none) :
    Inv { st with σ := (v, t) :: st.σ } := by
  refine ⟨⟨?_, h.frag.2⟩, ⟨lookup_none_iff.mp hv, hno, ?_, h.triT⟩, h.triR⟩
  · intro w s hm
    rcases List.mem_cons.mp hm with hm | hm
    · cases hm; exact ht
    · exact h.frag.1 w s hm
  · intro k hk ho
    exact lookup_none_iff.mp (hf k ho) hk

theorem Inv.bindR {st : St} (h : Inv st) {v : Nat} {r : Row} (hv : st.ρ.lookup v = none)
    (hlt : v < st.next) (hr : SimpleRow st.next r)
    (hf : ∀ w, r.rest = some w → w ≠ v ∧ st.ρ.lookup w = none) :
    Inv { st with ρ := (v, r) :: st.ρ } := by
  refine ⟨⟨h.frag.1, ?_⟩, h.triT, ⟨lookup_none_iff.mp hv, ?_, ?_, h.triR⟩⟩
  · intro w s hm
    rcases List.mem_cons.mp hm with hm | hm
    · cases hm; exact ⟨hlt, hr⟩
    · exact h.frag.2 w s hm
  · intro ho
    exact (hf v ho).1 rfl
  · intro k hk ho
    exact lookup_none_iff.mp (hf k ho).2 hk

theorem Inv.mono {st : St} (h : Inv st) {N : Nat} (hN : st.next ≤ N) : Inv { st with next := N } := by
  refine ⟨⟨fun v t hm => (h.frag.1 v t hm).mono hN, fun v r hm => ?_⟩, h.triT, h.triR⟩
  obtain ⟨h1, h2⟩ := h.frag.2 v r hm
  exact ⟨Nat.lt_of_lt_of_le h1 hN, h2.mono hN⟩

theorem bindVar_inv {st : St} (h : Inv st) {n : Nat} {v : UVar} {t : Ty} {b : Bool} {st' : St}
    (hv : st.σ.lookup v = none) (ht : Simple st.next t)
    (hf : ∀ w, Occurs w t → st.σ.lookup w = none)
    (hb : bindVar n v t st = some (b, st')) : Inv st' ∧ st.next ≤ st'.next := by
  simp only [bindVar] at hb
  cases ho : occursIn v st.ρ n t with
  | none => simp [ho] at hb
  | some o =>
    cases o with
    | true => simp [ho] at hb; obtain ⟨_, rfl⟩ := hb; exact ⟨h, Nat.le_refl _⟩
    | false =>
      simp [ho] at hb
      obtain ⟨_, rfl⟩ := hb
      exact ⟨h.bindT hv ht (occursIn_false ho) hf, Nat.le_refl _⟩

theorem unifyL_inv {u : Ty → Ty → St → Res}
    (hu : ∀ a b st r st', Inv st → Simple st.next a → Simple st.next b → u a b st = some (r, st') →
      Inv st' ∧ st.next ≤ st'.next)
    (as bs : List Ty) {st : St} (h : Inv st) (ha : ∀ t ∈ as, Simple st.next t)
    (hb : ∀ t ∈ bs, Simple st.next t) {r : Bool} {st' : St} (hr : unifyL u as bs st = some (r, st')) :
    Inv st' ∧ st.next ≤ st'.next := by
  induction as generalizing bs st with
  | nil => simp [unifyL] at hr; obtain ⟨_, rfl⟩ := hr; exact ⟨h, Nat.le_refl _⟩
  | cons a as ih =>
    cases bs with
    | nil => simp [unifyL] at hr; obtain ⟨_, rfl⟩ := hr; exact ⟨h, Nat.le_refl _⟩
    | cons b bs =>
      simp only [unifyL, andThen] at hr
      cases hh : u a b st with
      | none => simp [hh] at hr
      | some p =>
        obtain ⟨r1, s1⟩ := p
        obtain ⟨i1, i2⟩ := hu a b st r1 s1 h (ha a (.head _)) (hb b (.head _)) hh
        cases r1 with
        | false => simp [hh] at hr; obtain ⟨_, rfl⟩ := hr; exact ⟨i1, i2⟩
        | true =>
          simp only [hh] at hr
          obtain ⟨j1, j2⟩ := ih bs i1 (fun t hm => (ha t (.tail _ hm)).mono i2)
            (fun t hm => (hb t (.tail _ hm)).mono i2) hr
          exact ⟨j1, Nat.le_trans i2 j2⟩

theorem tryFirst_simple {p : TLog → Ty → Ty → Option Bool} {u : Ty → Ty → St → Res} {es : List Eff}
    {st : St} :
    tryFirst p u [] es st = some (match es with | [] => none | _ :: _ => some (true, st)) := by
  cases es with
  | nil => simp [tryFirst]
  | cons e es => simp [tryFirst, allO₂, unifyL]

theorem asSetsLoop_simple {p : TLog → Ty → Ty → Option Bool} {u : Ty → Ty → St → Res}
    {es2 es1 : List Eff} (h1 : ∀ e ∈ es1, e.args = []) {st : St} {r : Bool} {st' : St}
    (h : asSetsLoop p u es2 es1 st = some (r, st')) : st' = st := by
  induction es1 with
  | nil => simp [asSetsLoop] at h; exact h.2.symm
  | cons e es ih =>
    simp only [asSetsLoop, h1 e (.head _), tryFirst_simple] at h
    split at h
    · simp at h; exact h.2.symm
    · split at h
      · simp at h; exact h.2.symm
      · cases hf : es2.filter (fun e2 => e.ability == e2.ability) with
        | nil => simp [hf] at h; exact h.2.symm
        | cons x xs =>
          simp only [hf] at h
          exact ih (fun x hx => h1 x (.tail _ hx)) h

theorem diffLoop_simple {p : TLog → Ty → Ty → Option Bool} {u : Ty → Ty → St → Res}
    {es1 es2 : List Eff} (h2 : ∀ e ∈ es2, e.args = []) {st : St} {r : Option (List Eff)} {st' : St}
    (h : diffLoop p u es1 es2 st = some (r, st')) : st' = st := by
  induction es2 generalizing r st' with
  | nil => simp [diffLoop] at h; exact h.2.symm
  | cons e es ih =>
    simp only [diffLoop, h2 e (.head _), tryFirst_simple] at h
    split at h
    · simp at h; exact h.2.symm
    · cases hf : es1.filter (fun e1 => e1.ability == e.ability) with
      | nil =>
        simp only [hf] at h
        cases hd : diffLoop p u es1 es st with
        | none => simp [hd] at h
        | some q =>
          obtain ⟨q1, q2⟩ := q
          have := ih (fun x hx => h2 x (.tail _ hx)) hd
          cases q1 with
          | none => simp [hd] at h; rw [← h.2]; exact this
          | some o => simp [hd] at h; rw [← h.2]; exact this
      | cons x xs =>
        simp only [hf] at h
        exact ih (fun x hx => h2 x (.tail _ hx)) h

theorem pick_simple {p : TLog → Ty → Ty → Option Bool} {u : Ty → Ty → St → Res}
    {e1 : Eff} {es2 : List Eff} (h1 : e1.args = []) {st : St} {b : Bool} {st' : St} {rem : List Eff}
    (h : pick p u e1 es2 st = some (some (b, st', rem))) : st' = st ∧ b = true := by
  induction es2 generalizing b st' rem with
  | nil => simp [pick] at h
  | cons e es ih =>
    simp only [pick, h1, allO₂, unifyL] at h
    split at h
    · cases hp : pick p u e1 es st with
      | none => simp [hp] at h
      | some q => cases q with
        | none => simp [hp] at h
        | some q =>
          obtain ⟨b', s', r'⟩ := q
          simp [hp] at h
          obtain ⟨rfl, rfl, rfl⟩ := h
          exact ih hp
    · simp at h
      exact ⟨h.2.1.symm, h.1⟩

theorem splitLoop_simple {p : TLog → Ty → Ty → Option Bool} {u : Ty → Ty → St → Res}
    {list2 es1 rem : List Eff} (h1 : ∀ e ∈ es1, e.args = []) {st : St}
    {r : Option (List Eff × List Eff)} {st' : St}
    (h : splitLoop p u list2 es1 rem st = some (r, st')) : st' = st := by
  induction es1 generalizing r rem st' with
  | nil => simp [splitLoop] at h; exact h.2.symm
  | cons e es ih =>
    simp only [splitLoop] at h
    split at h
    · simp at h; exact h.2.symm
    · cases hp : pick p u e rem st with
      | none => simp [hp] at h
      | some q => cases q with
        | none =>
          simp only [hp] at h
          cases hd : splitLoop p u list2 es rem st with
          | none => simp [hd] at h
          | some q =>
            obtain ⟨q1, q2⟩ := q
            have := ih (fun x hx => h1 x (.tail _ hx)) hd
            cases q1 with
            | none => simp [hd] at h; rw [← h.2]; exact this
            | some o => simp [hd] at h; rw [← h.2]; exact this
        | some q =>
          obtain ⟨b', s', r'⟩ := q
          obtain ⟨rfl, rfl⟩ := pick_simple (h1 e (.head _)) hp
          simp only [hp] at h
          exact ih (fun x hx => h1 x (.tail _ hx)) h

/-! What the loops return. -/

theorem diffLoop_sub {p : TLog → Ty → Ty → Option Bool} {u : Ty → Ty → St → Res}
    {es1 es2 : List Eff} {st : St} {only : List Eff} {st' : St}
    (h : diffLoop p u es1 es2 st = some (some only, st')) : only.Sublist es2 := by
  induction es2 generalizing only st with
  | nil => simp [diffLoop] at h; rw [h.1]
  | cons e es ih =>
    simp only [diffLoop] at h
    split at h
    · simp at h
    · cases ht : tryFirst (fun σ a b => p σ b a) (fun a b => u b a) e.args
          (es1.filter (fun e1 => e1.ability == e.ability)) st with
      | none => simp [ht] at h
      | some q => cases q with
        | none =>
          simp only [ht] at h
          cases hd : diffLoop p u es1 es st with
          | none => simp [hd] at h
          | some q =>
            obtain ⟨q1, q2⟩ := q
            cases q1 with
            | none => simp [hd] at h
            | some o =>
              simp [hd] at h
              obtain ⟨rfl, rfl⟩ := h
              exact (ih hd).cons_cons e
        | some q =>
          obtain ⟨b, s⟩ := q
          cases b with
          | false => simp [ht] at h
          | true =>
            simp only [ht] at h
            exact (ih h).cons e

theorem pick_sub {p : TLog → Ty → Ty → Option Bool} {u : Ty → Ty → St → Res}
    {e1 : Eff} {es2 : List Eff} {st : St} {b : Bool} {st' : St} {rem : List Eff}
    (h : pick p u e1 es2 st = some (some (b, st', rem))) : rem.Sublist es2 := by
  induction es2 generalizing b st' rem with
  | nil => simp [pick] at h
  | cons e es ih =>
    simp only [pick] at h
    split at h
    · cases hp : pick p u e1 es st with
      | none => simp [hp] at h
      | some q => cases q with
        | none => simp [hp] at h
        | some q =>
          obtain ⟨b', s', r'⟩ := q
          simp [hp] at h
          obtain ⟨rfl, rfl, rfl⟩ := h
          exact (ih hp).cons_cons e
    · split at h
      · simp at h
      · cases hq : unifyL u e1.args e.args st with
        | none => simp [hq] at h
        | some q =>
          obtain ⟨b', s'⟩ := q
          simp [hq] at h
          obtain ⟨rfl, rfl, rfl⟩ := h
          exact (List.Sublist.refl _).cons e
      · cases hp : pick p u e1 es st with
        | none => simp [hp] at h
        | some q => cases q with
          | none => simp [hp] at h
          | some q =>
            obtain ⟨b', s', r'⟩ := q
            simp [hp] at h
            obtain ⟨rfl, rfl, rfl⟩ := h
            exact (ih hp).cons_cons e

theorem splitLoop_sub {p : TLog → Ty → Ty → Option Bool} {u : Ty → Ty → St → Res}
    {list2 es1 rem : List Eff} {st : St} {o1 o2 : List Eff} {st' : St}
    (h : splitLoop p u list2 es1 rem st = some (some (o1, o2), st')) :
    o1.Sublist es1 ∧ o2.Sublist rem := by
  induction es1 generalizing rem st o1 o2 with
  | nil => simp [splitLoop] at h; obtain ⟨⟨rfl, rfl⟩, _⟩ := h; simp
  | cons e es ih =>
    simp only [splitLoop] at h
    split at h
    · simp at h
    · cases hp : pick p u e rem st with
      | none => simp [hp] at h
      | some q => cases q with
        | none =>
          simp only [hp] at h
          cases hd : splitLoop p u list2 es rem st with
          | none => simp [hd] at h
          | some q =>
            obtain ⟨q1, q2⟩ := q
            cases q1 with
            | none => simp [hd] at h
            | some o =>
              obtain ⟨x, y⟩ := o
              simp [hd] at h
              obtain ⟨⟨rfl, rfl⟩, rfl⟩ := h
              obtain ⟨j1, j2⟩ := ih hd
              exact ⟨j1.cons_cons e, j2⟩
        | some q =>
          obtain ⟨b', s', r'⟩ := q
          cases b' with
          | false => simp [hp] at h
          | true =>
            simp only [hp] at h
            obtain ⟨j1, j2⟩ := ih h
            exact ⟨j1.cons e, j2.trans (pick_sub hp)⟩

theorem SimpleRow.sub {N : Nat} {es es' : List Eff} {r r' : Option Nat} (h : SimpleRow N ⟨es, r⟩)
    (hs : es'.Sublist es) (hr : ∀ v, r' = some v → v < N) : SimpleRow N ⟨es', r'⟩ :=
  ⟨fun e he => h.1 e (hs.subset he), (hs.map _).nodup h.2.1, hr⟩

theorem bindDiff_inv {st : St} (h : Inv st) {p : TLog → Ty → Ty → Option Bool}
    {u : Ty → Ty → St → Res} {v : Nat} {small big : List Eff} {b : Bool} {st' : St}
    (hv : st.ρ.lookup v = none) (hlt : v < st.next)
    (hb : SimpleRow st.next ⟨big, none⟩)
    (hr : bindDiff p u v small big st = some (b, st')) : Inv st' ∧ st.next ≤ st'.next := by
  simp only [bindDiff] at hr
  cases hd : diffLoop p u small big st with
  | none => simp [hd] at hr
  | some q =>
    obtain ⟨q1, q2⟩ := q
    have hq := diffLoop_simple hb.1 hd
    subst hq
    cases q1 with
    | none => simp [hd] at hr; obtain ⟨_, rfl⟩ := hr; exact ⟨h, Nat.le_refl _⟩
    | some only =>
      simp only [hd] at hr
      split at hr
      · simp at hr; obtain ⟨_, rfl⟩ := hr; exact ⟨h, Nat.le_refl _⟩
      · simp at hr
        obtain ⟨_, rfl⟩ := hr
        exact ⟨h.bindR hv hlt (hb.sub (diffLoop_sub hd) (by simp)) (by simp), Nat.le_refl _⟩

theorem Inv.fresh_unbound {st : St} (h : Inv st) : st.ρ.lookup st.next = none := by
  rw [lookup_none_iff]
  intro hm
  obtain ⟨⟨v, r⟩, hp, hv⟩ := List.mem_map.mp hm
  have := (h.frag.2 v r hp).1
  simp at hv
  omega

theorem bindSplit_inv {st : St} (h : Inv st) {p : TLog → Ty → Ty → Option Bool}
    {u : Ty → Ty → St → Res} {v1 v2 : Nat} {es1 es2 : List Eff} {b : Bool} {st' : St}
    (hv1 : st.ρ.lookup v1 = none) (hv2 : st.ρ.lookup v2 = none) (hne : v1 ≠ v2)
    (h1 : SimpleRow st.next ⟨es1, some v1⟩) (h2 : SimpleRow st.next ⟨es2, some v2⟩)
    (hr : bindSplit p u v1 v2 es1 es2 st = some (b, st')) : Inv st' ∧ st.next ≤ st'.next := by
  simp only [bindSplit] at hr
  cases hd : splitLoop p u es2 es1 es2 st with
  | none => simp [hd] at hr
  | some q =>
    obtain ⟨q1, q2⟩ := q
    have hq := splitLoop_simple h1.1 hd
    subst hq
    cases q1 with
    | none => simp [hd] at hr; obtain ⟨_, rfl⟩ := hr; exact ⟨h, Nat.le_refl _⟩
    | some o =>
      obtain ⟨o1, o2⟩ := o
      simp [hd] at hr
      obtain ⟨_, rfl⟩ := hr
      obtain ⟨s1, s2⟩ := splitLoop_sub hd
      have l1 := h1.2.2 v1 rfl
      have l2 := h2.2.2 v2 rfl
      have hfr := h.fresh_unbound
      have hm := h.mono (N := q2.next + 1) (by omega)
      have i1 : Inv { q2 with ρ := (v1, ⟨o2, some q2.next⟩) :: q2.ρ, next := q2.next + 1 } := by
        refine hm.bindR hv1 (by simp; omega)
          ((h2.mono (Nat.le_succ _)).sub s2 (by simp)) ?_
        intro w hw
        simp at hw
        subst hw
        exact ⟨by omega, hfr⟩
      refine ⟨i1.bindR ?_ (by simp; omega) ((h1.mono (Nat.le_succ _)).sub s1 (by simp)) ?_, by simp⟩
      · rw [List.lookup_cons]
        simp only [beq_eq_false_iff_ne.mpr (Ne.symm hne)]
        exact hv2
      · intro w hw
        simp at hw
        subst hw
        refine ⟨by omega, ?_⟩
        rw [List.lookup_cons]
        simp only [beq_eq_false_iff_ne.mpr (show q2.next ≠ v1 by omega)]
        exact hfr

theorem applyArgs_simple {st : St} {N : Nat} {n : Nat} {r r' : Row} (hr : SimpleRow N r)
    (h : applyArgs st.σ n r = some r') : r' = r := by
  simp only [applyArgs, mapArgs_simple hr.1] at h
  simpa using h.symm

theorem unifyRowsWith_inv {n : Nat} {p : TLog → Ty → Ty → Option Bool} {u : Ty → Ty → St → Res}
    {st : St} (h : Inv st) {r1 r2 : Row} (h1 : SimpleRow st.next r1) (h2 : SimpleRow st.next r2)
    {b : Bool} {st' : St} (hr : unifyRowsWith n p u r1 r2 st = some (b, st')) :
    Inv st' ∧ st.next ≤ st'.next := by
  simp only [unifyRowsWith] at hr
  have hR : ∀ v r, (v, r) ∈ st.ρ → SimpleRow st.next r := fun v r hm => (h.frag.2 v r hm).2
  cases ha : applyArgs st.σ n (rowApply st.ρ r1) with
  | none => simp [ha] at hr
  | some a1 =>
    cases hb : applyArgs st.σ n (rowApply st.ρ r2) with
    | none => simp [ha, hb] at hr
    | some a2 =>
      simp only [ha, hb] at hr
      have s1 := rowApply_simple hR r1 h1
      have s2 := rowApply_simple hR r2 h2
      have e1 := applyArgs_simple s1 ha
      have e2 := applyArgs_simple s2 hb
      rw [← e1] at s1
      rw [← e2] at s2
      have f1 : ∀ v, a1.rest = some v → st.ρ.lookup v = none := by
        intro v hv; rw [e1] at hv; exact rowApply_unbound h.triR r1 hv
      have f2 : ∀ v, a2.rest = some v → st.ρ.lookup v = none := by
        intro v hv; rw [e2] at hv; exact rowApply_unbound h.triR r2 hv
      clear ha hb e1 e2
      obtain ⟨es1, t1⟩ := a1
      obtain ⟨es2, t2⟩ := a2
      simp only [unifyRows'] at hr
      split at hr
      · simp at hr; obtain ⟨_, rfl⟩ := hr; exact ⟨h, Nat.le_refl _⟩
      · cases t1 with
        | none =>
          cases t2 with
          | none =>
            simp only [asSets] at hr
            split at hr
            · simp at hr; obtain ⟨_, rfl⟩ := hr; exact ⟨h, Nat.le_refl _⟩
            · have := asSetsLoop_simple s1.1 hr
              subst this; exact ⟨h, Nat.le_refl _⟩
          | some v2 =>
            simp only at hr
            split at hr
            · simp at hr; obtain ⟨_, rfl⟩ := hr; exact ⟨h, Nat.le_refl _⟩
            · split at hr
              · simp at hr
              · simp at hr; obtain ⟨_, rfl⟩ := hr; exact ⟨h, Nat.le_refl _⟩
              · exact bindDiff_inv h (f2 v2 rfl) (s2.2.2 v2 rfl) s1 hr
        | some v1 =>
          cases t2 with
          | none =>
            simp only at hr
            split at hr
            · simp at hr
            · simp at hr; obtain ⟨_, rfl⟩ := hr; exact ⟨h, Nat.le_refl _⟩
            · exact bindDiff_inv h (f1 v1 rfl) (s1.2.2 v1 rfl) s2 hr
          | some v2 =>
            simp only at hr
            split at hr
            · simp only [asSets] at hr
              split at hr
              · simp at hr; obtain ⟨_, rfl⟩ := hr; exact ⟨h, Nat.le_refl _⟩
              · have := asSetsLoop_simple s1.1 hr
                subst this; exact ⟨h, Nat.le_refl _⟩
            · rename_i hne
              split at hr
              · simp at hr
              · simp at hr; obtain ⟨_, rfl⟩ := hr; exact ⟨h, Nat.le_refl _⟩
              · exact bindSplit_inv h (f1 v1 rfl) (f2 v2 rfl) hne s1 s2 hr

theorem unify_inv (n : Nat) (t1 t2 : Ty) (st : St) (b : Bool) (st' : St) (h : Inv st)
    (h1 : Simple st.next t1) (h2 : Simple st.next t2) (hu : unify n t1 t2 st = some (b, st')) :
    Inv st' ∧ st.next ≤ st'.next := by
  induction n generalizing t1 t2 st b st' with
  | zero => simp [unify] at hu
  | succ n ih =>
    simp only [unify] at hu
    cases ha : apply st.σ [] n t1 with
    | none => simp [ha] at hu
    | some a =>
      cases hb : apply st.σ [] n t2 with
      | none => simp [ha, hb] at hu
      | some b' =>
        simp only [ha, hb] at hu
        have s1 := apply_simple h.frag.1 (by simp) n h1 ha
        have s2 := apply_simple h.frag.1 (by simp) n h2 hb
        have f1 : ∀ v, Occurs v a → st.σ.lookup v = none := fun v hv => apply_unbound n ha hv
        have f2 : ∀ v, Occurs v b' → st.σ.lookup v = none := fun v hv => apply_unbound n hb hv
        clear ha hb
        split at hu
        · simp at hu; obtain ⟨_, rfl⟩ := hu; exact ⟨h, Nat.le_refl _⟩
        · cases a with
          | uni v => exact bindVar_inv h (f1 v (by simp [Occurs])) s2 f2 hu
          | node hd ks es r =>
            cases b' with
            | uni v => exact bindVar_inv h (f2 v (by simp [Occurs])) s1 f1 hu
            | node hd' ks' es' r' =>
              simp only at hu
              split at hu
              · simp at hu; obtain ⟨_, rfl⟩ := hu; exact ⟨h, Nat.le_refl _⟩
              split at hu
              · simp at hu; obtain ⟨_, rfl⟩ := hu; exact ⟨h, Nat.le_refl _⟩
              split at hu
              · simp at hu; obtain ⟨_, rfl⟩ := hu; exact ⟨h, Nat.le_refl _⟩
              rw [simple_node] at s1 s2
              simp only [unifyNodes] at hu
              split at hu
              · simp at hu; obtain ⟨_, rfl⟩ := hu; exact ⟨h, Nat.le_refl _⟩
              split at hu
              · split at hu
                · simp only [andThen] at hu
                  cases hl : unifyL (unify n) (ks.take 1) (ks'.take 1) st with
                  | none => simp [hl] at hu
                  | some q =>
                    obtain ⟨q1, q2⟩ := q
                    have := unifyL_inv (u := unify n) (fun a b st r st' h1 h2 h3 h4 => ih a b st r st' h1 h2 h3 h4)
                      _ _ h (fun t hm => s1.1 t (List.mem_of_mem_take hm))
                      (fun t hm => s2.1 t (List.mem_of_mem_take hm)) hl
                    cases q1 <;> simp [hl] at hu <;> obtain ⟨_, rfl⟩ := hu <;> exact this
                · simp at hu; obtain ⟨_, rfl⟩ := hu; exact ⟨h, Nat.le_refl _⟩
              · simp only [andThen] at hu
                cases hl : unifyL (unify n) ks ks' st with
                | none => simp [hl] at hu
                | some q =>
                  obtain ⟨q1, q2⟩ := q
                  obtain ⟨j1, j2⟩ := unifyL_inv (u := unify n)
                    (fun a b st r st' h1 h2 h3 h4 => ih a b st r st' h1 h2 h3 h4)
                    _ _ h s1.1 s2.1 hl
                  cases q1 with
                  | false => simp [hl] at hu; obtain ⟨_, rfl⟩ := hu; exact ⟨j1, j2⟩
                  | true =>
                    simp only [hl] at hu
                    obtain ⟨k1, k2⟩ := unifyRowsWith_inv j1 (s1.2.mono j2) (s2.2.mono j2) hu
                    exact ⟨k1, Nat.le_trans j2 k2⟩

end Verif.Solver
