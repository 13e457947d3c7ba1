import Verif.Solver.Fuel
import Mathlib.Data.List.Nodup

/-!
# What row unification does exactly, in the fragment
-/

namespace Verif.Solver
open Verif.Types

theorem mem_abil_filter {es : List Eff} {a : Nat} :
    (es.filter (fun e2 => a == e2.ability)).isEmpty = true ↔ a ∉ abil es := by
  rw [List.isEmpty_iff, List.filter_eq_nil_iff]
  simp only [abil, List.mem_map, not_exists, not_and, beq_iff_eq]
  exact ⟨fun h e he ha => h e he ha.symm, fun h e he ha => h e he ha.symm⟩

section
variable {p : TLog → Ty → Ty → Option Bool} {u : Ty → Ty → St → Res}

theorem noArity {es : List Eff} {f : Eff → Bool} (h2 : ∀ e ∈ es, e.args = []) :
    (es.filter f).any (fun e2 => ([] : List Ty).length != e2.args.length) = false := by
  rw [List.any_eq_false]
  intro e he
  simp [h2 e (List.mem_filter.mp he).1]

theorem noArity' {es : List Eff} {f : Eff → Bool} (h2 : ∀ e ∈ es, e.args = []) :
    (es.filter f).any (fun e2 => e2.args.length != ([] : List Ty).length) = false := by
  rw [List.any_eq_false]
  intro e he
  simp [h2 e (List.mem_filter.mp he).1]

theorem asSetsLoop_exact {es2 es1 : List Eff} (h1 : ∀ e ∈ es1, e.args = [])
    (h2 : ∀ e ∈ es2, e.args = []) (st : St) :
    asSetsLoop p u es2 es1 st = some (es1.all (fun e => decide (e.ability ∈ abil es2)), st) := by
  induction es1 with
  | nil => simp [asSetsLoop]
  | cons e es ih =>
    simp only [asSetsLoop, h1 e (.head _), noArity h2, tryFirst_simple, List.all_cons]
    by_cases hm : e.ability ∈ abil es2
    · have hne : ¬ (es2.filter (fun e2 => e.ability == e2.ability)).isEmpty = true :=
        fun hh => mem_abil_filter.mp hh hm
      rw [if_neg hne]
      cases hf : es2.filter (fun e2 => e.ability == e2.ability) with
      | nil => rw [hf] at hne; simp at hne
      | cons x xs =>
        simp only [decide_eq_true hm, Bool.true_and]
        exact ih (fun e he => h1 e (.tail _ he))
    · rw [if_pos (mem_abil_filter.mpr hm)]
      simp only [decide_eq_false hm, Bool.false_and]

theorem diffLoop_exact {es1 es2 : List Eff} (h1 : ∀ e ∈ es1, e.args = [])
    (h2 : ∀ e ∈ es2, e.args = []) (st : St) :
    diffLoop p u es1 es2 st
      = some (some (es2.filter (fun e => decide (e.ability ∉ abil es1))), st) := by
  induction es2 with
  | nil => simp [diffLoop]
  | cons e es ih =>
    have ih := ih (fun e he => h2 e (.tail _ he))
    simp only [diffLoop, h2 e (.head _), noArity' h1, tryFirst_simple]
    by_cases hm : e.ability ∈ abil es1
    · cases hf : es1.filter (fun e1 => e1.ability == e.ability) with
      | nil =>
        rw [List.filter_eq_nil_iff] at hf
        obtain ⟨x, hx, hxe⟩ := List.mem_map.mp hm
        exact absurd (by simpa using hxe) (hf x hx)
      | cons x xs =>
        simp only [Bool.false_eq_true, if_false]
        rw [ih, List.filter_cons_of_neg (by simpa using hm)]
    · cases hf : es1.filter (fun e1 => e1.ability == e.ability) with
      | cons x xs =>
        exfalso
        have : x ∈ es1.filter (fun e1 => e1.ability == e.ability) := by rw [hf]; exact .head _
        obtain ⟨hx, hxe⟩ := List.mem_filter.mp this
        exact hm (List.mem_map.mpr ⟨x, hx, by simpa using hxe⟩)
      | nil =>
        simp only [Bool.false_eq_true, if_false]
        rw [ih, List.filter_cons_of_pos (by simpa using hm)]

theorem pick_exact {e1 : Eff} {es2 : List Eff} (h1 : e1.args = [])
    (hn : (abil es2).Nodup) (st : St) :
    pick p u e1 es2 st
      = some (if e1.ability ∈ abil es2
          then some (true, st, es2.filter (fun e => decide (e.ability ≠ e1.ability))) else none) := by
  induction es2 with
  | nil => simp [pick]
  | cons e es ih =>
    simp only [abil, List.map_cons, List.nodup_cons] at hn
    have ih := ih hn.2
    simp only [pick, h1, allO₂, unifyL]
    by_cases he : e1.ability = e.ability
    · rw [if_neg (by simpa using he), if_pos (by simp [he])]
      rw [List.filter_cons_of_neg (by simp [he])]
      have : es.filter (fun x => decide (x.ability ≠ e1.ability)) = es := by
        rw [List.filter_eq_self]
        intro x hx
        simp only [decide_eq_true_eq]
        intro hxe
        exact hn.1 (List.mem_map.mpr ⟨x, hx, by rw [hxe, he]⟩)
      rw [this]
    · rw [if_pos he, ih]
      by_cases hm : e1.ability ∈ abil es
      · rw [if_pos hm, if_pos (by simp [hm])]
        rw [List.filter_cons_of_pos (by simpa using fun h => he h.symm)]
      · rw [if_neg hm, if_neg (by simp only [abil, List.map_cons, List.mem_cons, not_or]; exact ⟨he, hm⟩)]

theorem splitLoop_exact {list2 es1 rem : List Eff} (h1 : ∀ e ∈ es1, e.args = [])
    (h2 : ∀ e ∈ list2, e.args = []) (hn1 : (abil es1).Nodup) (hn : (abil rem).Nodup) (st : St) :
    splitLoop p u list2 es1 rem st
      = some (some (es1.filter (fun e => decide (e.ability ∉ abil rem)),
          rem.filter (fun e => decide (e.ability ∉ abil es1))), st) := by
  induction es1 generalizing rem with
  | nil => simp [splitLoop]
  | cons e es ih =>
    simp only [abil, List.map_cons, List.nodup_cons] at hn1
    simp only [splitLoop, h1 e (.head _), noArity h2, pick_exact (h1 e (.head _)) hn,
      Bool.false_eq_true, if_false]
    by_cases hm : e.ability ∈ abil rem
    · rw [if_pos hm]
      simp only
      have hn' : (abil (rem.filter (fun x => decide (x.ability ≠ e.ability)))).Nodup :=
        (List.filter_sublist.map _).nodup hn
      rw [ih (fun e he => h1 e (.tail _ he)) hn1.2 hn']
      rw [List.filter_cons_of_neg (by simpa using hm)]
      congr 3
      · congr 1
        · refine List.filter_congr (fun x hx => ?_)
          congr 1
          simp only [abil, List.mem_map, List.mem_filter, decide_eq_true_eq, eq_iff_iff]
          constructor
          · rintro h ⟨y, hy, hyx⟩
            refine h ⟨y, ⟨hy, ?_⟩, hyx⟩
            rw [hyx]
            intro hxe
            exact hn1.1 (List.mem_map.mpr ⟨x, hx, hxe⟩)
          · rintro h ⟨y, ⟨hy, _⟩, hyx⟩
            exact h ⟨y, hy, hyx⟩
        · rw [List.filter_filter]
          refine List.filter_congr (fun x hx => ?_)
          by_cases h1 : x.ability = e.ability <;> by_cases h2 : x.ability ∈ abil es <;>
            simp_all [abil]
    · rw [if_neg hm]
      simp only
      rw [ih (fun e he => h1 e (.tail _ he)) hn1.2 hn]
      rw [List.filter_cons_of_pos (by simpa using hm)]
      simp only [Option.some.injEq, Prod.mk.injEq, and_true, true_and]
      refine List.filter_congr (fun x hx => ?_)
      have : x.ability ≠ e.ability := fun h => hm (List.mem_map.mpr ⟨x, hx, h⟩)
      simp [abil, this]

end

theorem rowApply_fix {ρ : RLog} {r : Row} (h : ∀ v, r.rest = some v → ρ.lookup v = none) :
    rowApply ρ r = r := by
  obtain ⟨es, t⟩ := r
  simp only [rowApply, rowLoop]
  cases t with
  | none => rfl
  | some v => simp [h v rfl]

theorem anyArgs_simple {es : List Eff} {f : Ty → Option Bool} (h : ∀ e ∈ es, e.args = []) :
    anyO (fun e => anyO f e.args) es = some false := by
  induction es with
  | nil => rfl
  | cons e es ih =>
    simp only [anyO, h e (.head _)]
    exact ih (fun e he => h e (.tail _ he))

theorem rowOccursIn_exact {v : Nat} {σ : TLog} {ρ : RLog} {n : Nat} {r : Row}
    (hs : ∀ e ∈ r.effects, e.args = []) (h : ∀ v, r.rest = some v → ρ.lookup v = none) :
    rowOccursIn v σ ρ n r = some (decide (r.rest = some v)) := by
  simp only [rowOccursIn, rowApply_fix h]
  split
  · rename_i hr; simp [hr]
  · rename_i hr; rw [anyArgs_simple hs]; simp [hr]

theorem abil_nodup {es : List Eff} (h : (abil es).Nodup) : es.Nodup := h.of_map

/-- Sets of the same size, one contained in the other. -/
theorem abil_ext {es1 es2 : List Eff} (hn1 : (abil es1).Nodup) (hlen : es1.length = es2.length)
    (hs : ∀ a ∈ abil es1, a ∈ abil es2) : ∀ a, a ∈ abil es1 ↔ a ∈ abil es2 := by
  have hp : (abil es1).Subperm (abil es2) := hn1.subperm hs
  have := (hp.perm_of_length_le (by simp [abil, hlen]))
  exact fun a => this.mem_iff

theorem asSets_exact {p : TLog → Ty → Ty → Option Bool} {u : Ty → Ty → St → Res}
    {es1 es2 : List Eff} (h1 : ∀ e ∈ es1, e.args = []) (h2 : ∀ e ∈ es2, e.args = [])
    (hn1 : (abil es1).Nodup) (hn2 : (abil es2).Nodup) (st : St) :
    ∃ b, asSets p u es1 es2 st = some (b, st) ∧
      (b = true ↔ ∀ a, a ∈ abil es1 ↔ a ∈ abil es2) := by
  simp only [asSets, asSetsLoop_exact h1 h2]
  by_cases hlen : es1.length = es2.length
  · rw [if_neg (by simpa using hlen)]
    refine ⟨_, rfl, ?_⟩
    rw [List.all_eq_true]
    simp only [decide_eq_true_eq]
    constructor
    · intro h
      refine abil_ext hn1 hlen (fun a ha => ?_)
      obtain ⟨e, he, rfl⟩ := List.mem_map.mp ha
      exact h e he
    · intro h e he
      exact (h _).mp (List.mem_map.mpr ⟨e, he, rfl⟩)
  · rw [if_pos (by simpa using hlen)]
    refine ⟨false, rfl, ?_⟩
    simp only [Bool.false_eq_true, false_iff]
    intro h
    have := (List.perm_ext_iff_of_nodup hn1 hn2).mpr h
    exact hlen (by simpa [abil] using this.length_eq)

/-- Of a set, the elements outside a subset are as many as the difference says. -/
theorem diff_count {small big : List Eff} (hs : (abil small).Nodup) (hb : (abil big).Nodup) :
    big.length - (big.filter (fun e => decide (e.ability ∉ abil small))).length = small.length ↔
      ∀ a ∈ abil small, a ∈ abil big := by
  have hsplit : (big.filter (fun e => decide (e.ability ∉ abil small))).length
      + (big.filter (fun e => decide (e.ability ∈ abil small))).length = big.length := by
    have := List.length_eq_length_filter_add (l := big) (fun e => decide (e.ability ∈ abil small))
    simp only [decide_not] at this ⊢
    omega
  have hnd : (abil (big.filter (fun e => decide (e.ability ∈ abil small)))).Nodup :=
    (List.filter_sublist.map _).nodup hb
  have hsub : ∀ a ∈ abil (big.filter (fun e => decide (e.ability ∈ abil small))), a ∈ abil small := by
    intro a ha
    obtain ⟨e, he, rfl⟩ := List.mem_map.mp ha
    simpa using (List.mem_filter.mp he).2
  have heq : big.length - (big.filter (fun e => decide (e.ability ∉ abil small))).length
      = (abil (big.filter (fun e => decide (e.ability ∈ abil small)))).length := by
    simp only [abil, List.length_map] at *
    omega
  rw [heq]
  constructor
  · intro h a ha
    have := (hnd.subperm hsub).perm_of_length_le (by rw [h]; simp only [abil, List.length_map, Nat.le_refl])
    obtain ⟨e, he, rfl⟩ := List.mem_map.mp (this.mem_iff.mpr ha)
    exact List.mem_map.mpr ⟨e, (List.mem_filter.mp he).1, rfl⟩
  · intro h
    have hp : (abil (big.filter (fun e => decide (e.ability ∈ abil small)))).Perm (abil small) := by
      refine (List.perm_ext_iff_of_nodup hnd hs).mpr (fun a => ⟨hsub a, fun ha => ?_⟩)
      obtain ⟨e, he, rfl⟩ := List.mem_map.mp (h a ha)
      exact List.mem_map.mpr ⟨e, List.mem_filter.mpr ⟨he, by simpa using ha⟩, rfl⟩
    simpa using hp.length_eq

theorem bindDiff_exact {p : TLog → Ty → Ty → Option Bool} {u : Ty → Ty → St → Res} {v : Nat}
    {small big : List Eff} (h1 : ∀ e ∈ small, e.args = []) (h2 : ∀ e ∈ big, e.args = [])
    (hn1 : (abil small).Nodup) (hn2 : (abil big).Nodup) (st : St) :
    ∃ b st', bindDiff p u v small big st = some (b, st') ∧ st'.σ = st.σ ∧
      (b = true ↔ ∀ a ∈ abil small, a ∈ abil big) := by
  simp only [bindDiff, diffLoop_exact h1 h2]
  have hd := diff_count hn1 hn2
  split
  · rename_i hc
    exact ⟨false, st, rfl, rfl, by simp only [Bool.false_eq_true, false_iff, ← hd]; exact hc⟩
  · rename_i hc
    exact ⟨true, _, rfl, rfl, by rw [← hd]; simpa using hc⟩

/-- Row unification answers, does not touch the type substitution, and accepts in exactly the
cases of `RowsUnify`. -/
theorem unifyRowsWith_exact {p : TLog → Ty → Ty → Option Bool} {u : Ty → Ty → St → Res} {n : Nat}
    {st : St} (h : Inv st) {r1 r2 : Row} (s1 : SimpleRow st.next r1) (s2 : SimpleRow st.next r2) :
    ∃ b st', unifyRowsWith n p u r1 r2 st = some (b, st') ∧ st'.σ = st.σ ∧
      (b = true ↔ RowsUnify (rowApply st.ρ r1) (rowApply st.ρ r2)) := by
  have hR : ∀ v r, (v, r) ∈ st.ρ → SimpleRow st.next r := fun v r hm => (h.frag.2 v r hm).2
  have t1 := rowApply_simple hR r1 s1
  have t2 := rowApply_simple hR r2 s2
  have u1 : ∀ v, (rowApply st.ρ r1).rest = some v → st.ρ.lookup v = none :=
    fun v hv => rowApply_unbound h.triR _ hv
  have u2 : ∀ v, (rowApply st.ρ r2).rest = some v → st.ρ.lookup v = none :=
    fun v hv => rowApply_unbound h.triR _ hv
  simp only [unifyRowsWith, applyArgs, mapArgs_simple t1.1, mapArgs_simple t2.1]
  generalize rowApply st.ρ r1 = a1 at t1 u1
  generalize rowApply st.ρ r2 = a2 at t2 u2
  obtain ⟨es1, x1⟩ := a1
  obtain ⟨es2, x2⟩ := a2
  simp only [unifyRows']
  by_cases heq : (⟨es1, x1⟩ : Row) = ⟨es2, x2⟩
  · rw [if_pos heq]
    refine ⟨true, st, rfl, rfl, ?_⟩
    cases heq
    simp only [true_iff, RowsUnify]
    cases x1 <;> simp
  rw [if_neg heq]
  obtain ⟨e1, n1, _⟩ := t1
  obtain ⟨e2, n2, _⟩ := t2
  cases x1 with
  | none =>
    cases x2 with
    | none =>
      obtain ⟨b, hb, hi⟩ := asSets_exact (p := p) (u := u) e1 e2 n1 n2 st
      exact ⟨b, st, hb, rfl, hi⟩
    | some v2 =>
      simp only
      by_cases hp : (⟨es1, none⟩ : Row).isPure = true ∧ es2 ≠ []
      · rw [if_pos hp]
        refine ⟨true, st, rfl, rfl, ?_⟩
        have : es1 = [] := by have := hp.1; simp [Row.isPure] at this; exact this
        simp [RowsUnify, this]
      · rw [if_neg hp, rowOccursIn_exact e1 u1]
        simp only [reduceCtorEq, decide_false]
        obtain ⟨b, st', hb, hσ, hi⟩ := bindDiff_exact (p := p) (u := u) (v := v2) e2 e1 n2 n1 st
        refine ⟨b, st', hb, hσ, hi.trans ?_⟩
        simp only [RowsUnify]
        refine ⟨Or.inr, ?_⟩
        rintro (hh | hh)
        · have hp2 : es2 = [] := by
            by_cases h0 : es2 = []
            · exact h0
            · exact absurd ⟨by simp [Row.isPure, hh], h0⟩ hp
          simp [hp2]
        · exact hh
  | some v1 =>
    cases x2 with
    | none =>
      simp only
      rw [rowOccursIn_exact e2 u2]
      simp only [reduceCtorEq, decide_false]
      obtain ⟨b, st', hb, hσ, hi⟩ := bindDiff_exact (p := p) (u := u) (v := v1) e1 e2 n1 n2 st
      exact ⟨b, st', hb, hσ, hi⟩
    | some v2 =>
      simp only
      by_cases hv : v1 = v2
      · rw [if_pos hv]
        obtain ⟨b, hb, hi⟩ := asSets_exact (p := p) (u := u) e1 e2 n1 n2 st
        exact ⟨b, st, hb, rfl, hi.trans ⟨Or.inr, fun h => h.resolve_left (fun h => h hv)⟩⟩
      · rw [if_neg hv, rowOccursIn_exact e2 u2, rowOccursIn_exact e1 u1]
        have d1 : decide (some v2 = some v1) = false := by simp [Ne.symm hv]
        have d2 : decide (some v1 = some v2) = false := by simp [hv]
        simp only [d1, d2, orO]
        simp only [bindSplit, splitLoop_exact e1 e2 n1 n2]
        exact ⟨true, _, rfl, rfl, by simp [RowsUnify, hv]⟩

end Verif.Solver
