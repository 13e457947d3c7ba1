import Verif.Solver.Frag
import Mathlib.Data.List.Nodup
import Mathlib.Data.List.Perm.Subperm

/-!
# Soundness of unification
-/

namespace Verif.Solver
open Verif.Types

/-- Bindings are only added. -/
def Ext (st st' : St) : Prop := (∀ x ∈ st.σ, x ∈ st'.σ) ∧ (∀ x ∈ st.ρ, x ∈ st'.ρ)

theorem Ext.refl (st : St) : Ext st st := ⟨fun _ h => h, fun _ h => h⟩

theorem Ext.trans {a b c : St} (h1 : Ext a b) (h2 : Ext b c) : Ext a c :=
  ⟨fun x h => h2.1 x (h1.1 x h), fun x h => h2.2 x (h1.2 x h)⟩

/-- `θ` solves the bindings of a state. -/
abbrev SolvesSt (θ : Sub) (st : St) : Prop := Solves θ st.σ st.ρ

theorem SolvesSt.of_ext {θ : Sub} {st st' : St} (h : Ext st st') (hs : SolvesSt θ st') :
    SolvesSt θ st :=
  ⟨fun v t hm => hs.1 v t (h.1 _ hm), fun v r hm => hs.2 v r (h.2 _ hm)⟩

/-- A unification procedure only adds bindings. -/
def UExt (u : Ty → Ty → St → Res) : Prop :=
  ∀ a b st r st', u a b st = some (r, st') → Ext st st'

theorem UExt.flip {u : Ty → Ty → St → Res} (h : UExt u) : UExt (fun a b => u b a) :=
  fun a b st r st' hh => h b a st r st' hh

theorem bindVar_ext {n : Nat} {v : UVar} {t : Ty} {st : St} {r : Bool} {st' : St}
    (h : bindVar n v t st = some (r, st')) : Ext st st' := by
  simp only [bindVar] at h
  split at h
  · simp at h
  · simp at h; obtain ⟨_, rfl⟩ := h; exact Ext.refl _
  · simp at h; obtain ⟨_, rfl⟩ := h
    exact ⟨fun x hx => .tail _ hx, fun x hx => hx⟩

theorem unifyL_ext {u : Ty → Ty → St → Res} (hu : UExt u) (as bs : List Ty) {st : St} {r : Bool}
    {st' : St} (h : unifyL u as bs st = some (r, st')) : Ext st st' := by
  induction as generalizing bs st with
  | nil => simp [unifyL] at h; obtain ⟨_, rfl⟩ := h; exact Ext.refl _
  | cons a as ih =>
    cases bs with
    | nil => simp [unifyL] at h; obtain ⟨_, rfl⟩ := h; exact Ext.refl _
    | cons b bs =>
      simp only [unifyL, andThen] at h
      cases hh : u a b st with
      | none => simp [hh] at h
      | some q =>
        obtain ⟨q1, q2⟩ := q
        have e1 := hu a b st q1 q2 hh
        cases q1 with
        | false => simp [hh] at h; obtain ⟨_, rfl⟩ := h; exact e1
        | true => simp only [hh] at h; exact e1.trans (ih bs h)

theorem tryFirst_some {p : TLog → Ty → Ty → Option Bool} {u : Ty → Ty → St → Res} {as : List Ty}
    {es : List Eff} {st : St} {r : Bool × St} (h : tryFirst p u as es st = some (some r)) :
    ∃ e ∈ es, unifyL u as e.args st = some r := by
  induction es with
  | nil => simp [tryFirst] at h
  | cons e es ih =>
    simp only [tryFirst] at h
    split at h
    · simp at h
    · obtain ⟨x, hx, hh⟩ := ih h
      exact ⟨x, .tail _ hx, hh⟩
    · cases hq : unifyL u as e.args st with
      | none => simp [hq] at h
      | some q => simp [hq] at h; exact ⟨e, .head _, by rw [hq, h]⟩

theorem tryFirst_ext {p : TLog → Ty → Ty → Option Bool} {u : Ty → Ty → St → Res} (hu : UExt u)
    {as : List Ty} {es : List Eff} {st : St} {r : Bool} {st' : St}
    (h : tryFirst p u as es st = some (some (r, st'))) : Ext st st' := by
  obtain ⟨e, _, hh⟩ := tryFirst_some h
  exact unifyL_ext hu _ _ hh

theorem asSetsLoop_ext {p : TLog → Ty → Ty → Option Bool} {u : Ty → Ty → St → Res} (hu : UExt u)
    {es2 es1 : List Eff} {st : St} {r : Bool} {st' : St}
    (h : asSetsLoop p u es2 es1 st = some (r, st')) : Ext st st' := by
  induction es1 generalizing st with
  | nil => simp [asSetsLoop] at h; obtain ⟨_, rfl⟩ := h; exact Ext.refl _
  | cons e es ih =>
    simp only [asSetsLoop] at h
    split at h
    · simp at h; obtain ⟨_, rfl⟩ := h; exact Ext.refl _
    split at h
    · simp at h; obtain ⟨_, rfl⟩ := h; exact Ext.refl _
    split at h
    · simp at h
    · simp at h; obtain ⟨_, rfl⟩ := h; exact Ext.refl _
    · rename_i ht
      simp at h; obtain ⟨_, rfl⟩ := h
      exact tryFirst_ext hu ht
    · rename_i ht
      exact (tryFirst_ext hu ht).trans (ih h)

theorem diffLoop_ext {p : TLog → Ty → Ty → Option Bool} {u : Ty → Ty → St → Res} (hu : UExt u)
    {es1 es2 : List Eff} {st : St} {r : Option (List Eff)} {st' : St}
    (h : diffLoop p u es1 es2 st = some (r, st')) : Ext st st' := by
  induction es2 generalizing st r with
  | nil => simp [diffLoop] at h; obtain ⟨_, rfl⟩ := h; exact Ext.refl _
  | cons e es ih =>
    simp only [diffLoop] at h
    split at h
    · simp at h; obtain ⟨_, rfl⟩ := h; exact Ext.refl _
    split at h
    · simp at h
    · rename_i ht
      simp at h; obtain ⟨_, rfl⟩ := h
      exact tryFirst_ext hu.flip ht
    · rename_i ht
      exact (tryFirst_ext hu.flip ht).trans (ih h)
    · split at h
      · simp at h
      · rename_i ht
        simp at h; obtain ⟨_, rfl⟩ := h
        exact ih ht
      · rename_i ht
        simp at h; obtain ⟨_, rfl⟩ := h
        exact ih ht

theorem pick_some {p : TLog → Ty → Ty → Option Bool} {u : Ty → Ty → St → Res}
    {e1 : Eff} {es2 : List Eff} {st : St} {b : Bool} {st' : St} {rem : List Eff}
    (h : pick p u e1 es2 st = some (some (b, st', rem))) :
    ∃ e2 ∈ es2, e1.ability = e2.ability ∧ unifyL u e1.args e2.args st = some (b, st') ∧
      (∀ x ∈ es2, x = e2 ∨ x ∈ rem) := by
  induction es2 generalizing b st' rem with
  | nil => simp [pick] at h
  | cons e es ih =>
    have key : ∀ {b st' rem}, (match pick p u e1 es st with
          | none => none
          | some none => some none
          | some (some (b, st', rem)) => some (some (b, st', e :: rem))) = some (some (b, st', rem)) →
        ∃ e2 ∈ e :: es, e1.ability = e2.ability ∧ unifyL u e1.args e2.args st = some (b, st') ∧
          (∀ x ∈ e :: es, x = e2 ∨ x ∈ rem) := by
      intro b st' rem h
      cases hp : pick p u e1 es st with
      | none => simp [hp] at h
      | some q => cases q with
        | none => simp [hp] at h
        | some q =>
          obtain ⟨b', s', r'⟩ := q
          simp [hp] at h
          obtain ⟨rfl, rfl, rfl⟩ := h
          obtain ⟨e2, h2, h3, h4, h5⟩ := ih hp
          refine ⟨e2, .tail _ h2, h3, h4, ?_⟩
          intro x hx
          rcases List.mem_cons.mp hx with rfl | hx
          · exact Or.inr (.head _)
          · rcases h5 x hx with h | h
            · exact Or.inl h
            · exact Or.inr (.tail _ h)
    simp only [pick] at h
    split at h
    · exact key h
    · rename_i hab
      split at h
      · simp at h
      · cases hq : unifyL u e1.args e.args st with
        | none => simp [hq] at h
        | some q =>
          obtain ⟨b', s'⟩ := q
          simp [hq] at h
          obtain ⟨rfl, rfl, rfl⟩ := h
          refine ⟨e, .head _, by simpa using hab, hq, ?_⟩
          intro x hx
          exact List.mem_cons.mp hx
      · exact key h

theorem pick_ext {p : TLog → Ty → Ty → Option Bool} {u : Ty → Ty → St → Res} (hu : UExt u)
    {e1 : Eff} {es2 : List Eff} {st : St} {b : Bool} {st' : St} {rem : List Eff}
    (h : pick p u e1 es2 st = some (some (b, st', rem))) : Ext st st' := by
  obtain ⟨_, _, _, hh, _⟩ := pick_some h
  exact unifyL_ext hu _ _ hh

theorem splitLoop_ext {p : TLog → Ty → Ty → Option Bool} {u : Ty → Ty → St → Res} (hu : UExt u)
    {list2 es1 rem : List Eff} {st : St} {r : Option (List Eff × List Eff)} {st' : St}
    (h : splitLoop p u list2 es1 rem st = some (r, st')) : Ext st st' := by
  induction es1 generalizing rem st r with
  | nil => simp [splitLoop] at h; obtain ⟨_, rfl⟩ := h; exact Ext.refl _
  | cons e es ih =>
    simp only [splitLoop] at h
    split at h
    · simp at h; obtain ⟨_, rfl⟩ := h; exact Ext.refl _
    split at h
    · simp at h
    · rename_i ht
      simp at h; obtain ⟨_, rfl⟩ := h
      exact pick_ext hu ht
    · rename_i ht
      exact (pick_ext hu ht).trans (ih h)
    · split at h
      · simp at h
      · rename_i ht
        simp at h; obtain ⟨_, rfl⟩ := h
        exact ih ht
      · rename_i ht
        simp at h; obtain ⟨_, rfl⟩ := h
        exact ih ht

theorem bindDiff_ext {p : TLog → Ty → Ty → Option Bool} {u : Ty → Ty → St → Res} (hu : UExt u)
    {v : Nat} {small big : List Eff} {st : St} {b : Bool} {st' : St}
    (hr : bindDiff p u v small big st = some (b, st')) : Ext st st' := by
  simp only [bindDiff] at hr
  split at hr
  · simp at hr
  · rename_i h; simp at hr; obtain ⟨_, rfl⟩ := hr; exact diffLoop_ext hu h
  · rename_i h
    split at hr
    · simp at hr; obtain ⟨_, rfl⟩ := hr; exact diffLoop_ext hu h
    · simp at hr; obtain ⟨_, rfl⟩ := hr
      exact (diffLoop_ext hu h).trans ⟨fun x hx => hx, fun x hx => .tail _ hx⟩

theorem bindSplit_ext {p : TLog → Ty → Ty → Option Bool} {u : Ty → Ty → St → Res} (hu : UExt u)
    {v1 v2 : Nat} {es1 es2 : List Eff} {st : St} {b : Bool} {st' : St}
    (hr : bindSplit p u v1 v2 es1 es2 st = some (b, st')) : Ext st st' := by
  simp only [bindSplit] at hr
  split at hr
  · simp at hr
  · rename_i h; simp at hr; obtain ⟨_, rfl⟩ := hr; exact splitLoop_ext hu h
  · rename_i h
    simp at hr; obtain ⟨_, rfl⟩ := hr
    exact (splitLoop_ext hu h).trans ⟨fun x hx => hx, fun x hx => .tail _ (.tail _ hx)⟩

theorem asSets_ext {p : TLog → Ty → Ty → Option Bool} {u : Ty → Ty → St → Res} (hu : UExt u)
    {es1 es2 : List Eff} {st : St} {b : Bool} {st' : St}
    (hr : asSets p u es1 es2 st = some (b, st')) : Ext st st' := by
  simp only [asSets] at hr
  split at hr
  · simp at hr; obtain ⟨_, rfl⟩ := hr; exact Ext.refl _
  · exact asSetsLoop_ext hu hr

theorem unifyRows'_ext {n : Nat} {p : TLog → Ty → Ty → Option Bool} {u : Ty → Ty → St → Res}
    (hu : UExt u) {r1 r2 : Row} {st : St} {b : Bool} {st' : St}
    (hr : unifyRows' n p u r1 r2 st = some (b, st')) : Ext st st' := by
  simp only [unifyRows'] at hr
  split at hr
  · simp at hr; obtain ⟨_, rfl⟩ := hr; exact Ext.refl _
  split at hr
  · exact asSets_ext hu hr
  · split at hr
    · simp at hr
    · simp at hr; obtain ⟨_, rfl⟩ := hr; exact Ext.refl _
    · exact bindDiff_ext hu hr
  · split at hr
    · simp at hr; obtain ⟨_, rfl⟩ := hr; exact Ext.refl _
    split at hr
    · simp at hr
    · simp at hr; obtain ⟨_, rfl⟩ := hr; exact Ext.refl _
    · exact bindDiff_ext hu hr
  · split at hr
    · exact asSets_ext hu hr
    split at hr
    · simp at hr
    · simp at hr; obtain ⟨_, rfl⟩ := hr; exact Ext.refl _
    · exact bindSplit_ext hu hr

theorem unifyRowsWith_ext {n : Nat} {p : TLog → Ty → Ty → Option Bool} {u : Ty → Ty → St → Res}
    (hu : UExt u) {r1 r2 : Row} {st : St} {b : Bool} {st' : St}
    (hr : unifyRowsWith n p u r1 r2 st = some (b, st')) : Ext st st' := by
  simp only [unifyRowsWith] at hr
  split at hr
  · exact unifyRows'_ext hu hr
  · simp at hr

theorem unify_ext (n : Nat) : UExt (unify n) := by
  induction n with
  | zero => intro a b st r st' h; simp [unify] at h
  | succ n ih =>
    intro t1 t2 st r st' hu
    simp only [unify] at hu
    split at hu
    · rename_i a b _ _
      split at hu
      · simp at hu; obtain ⟨_, rfl⟩ := hu; exact Ext.refl _
      cases a with
      | uni v => exact bindVar_ext hu
      | node hd ks es r => cases b with
        | uni v => exact bindVar_ext hu
        | node hd' ks' es' r' =>
          simp only at hu
          split at hu
          · simp at hu; obtain ⟨_, rfl⟩ := hu; exact Ext.refl _
          split at hu
          · simp at hu; obtain ⟨_, rfl⟩ := hu; exact Ext.refl _
          split at hu
          · simp at hu; obtain ⟨_, rfl⟩ := hu; exact Ext.refl _
          simp only [unifyNodes] at hu
          split at hu
          · simp at hu; obtain ⟨_, rfl⟩ := hu; exact Ext.refl _
          split at hu
          · split at hu
            · simp only [andThen] at hu
              cases hl : unifyL (unify n) (ks.take 1) (ks'.take 1) st with
              | none => simp [hl] at hu
              | some q =>
                obtain ⟨q1, q2⟩ := q
                have := unifyL_ext ih _ _ hl
                cases q1 <;> simp [hl] at hu <;> obtain ⟨_, rfl⟩ := hu <;> exact this
            · simp at hu; obtain ⟨_, rfl⟩ := hu; exact Ext.refl _
          · simp only [andThen] at hu
            cases hl : unifyL (unify n) ks ks' st with
            | none => simp [hl] at hu
            | some q =>
              obtain ⟨q1, q2⟩ := q
              have := unifyL_ext ih _ _ hl
              cases q1 with
              | false => simp [hl] at hu; obtain ⟨_, rfl⟩ := hu; exact this
              | true => simp only [hl] at hu; exact this.trans (unifyRowsWith_ext ih hu)
    · simp at hu

/-! ## Matching effects -/

/-- The effects stand for the same effect in `θ`. -/
def Matches (E : Bool) (θ : Sub) (e1 e2 : Eff) : Prop :=
  e1.ability = e2.ability ∧
    ∀ m, List.Forall₂ (Agree E m) (e1.args.map θ.onTy) (e2.args.map θ.onTy)

theorem Matches.symm {E : Bool} {θ : Sub} {e1 e2 : Eff} (hE : E = true ∨ e1.args = [])
    (h : Matches E θ e1 e2) : Matches E θ e2 e1 := by
  refine ⟨h.1.symm, fun m => ?_⟩
  rcases hE with rfl | hE
  · exact (h.2 m).flip.imp (fun _ _ => Agree.symm)
  · have := h.2 m
    rw [hE] at this ⊢
    cases hx : e2.args with
    | nil => simp
    | cons a l => simp [hx] at this

/-- The unification procedure is sound for `θ` on arbitrary types. -/
def USound (E : Bool) (θ : Sub) (u : Ty → Ty → St → Res) : Prop :=
  ∀ a b st st', u a b st = some (true, st') → SolvesSt θ st' →
    ∀ m, Agree E m (θ.onTy a) (θ.onTy b)

theorem args_sound {E : Bool} {θ : Sub} {u : Ty → Ty → St → Res} (hx : UExt u)
    (as bs : List Ty) (hu : USound E θ u ∨ as = []) {st st' : St}
    (h : unifyL u as bs st = some (true, st')) (hlen : as.length = bs.length)
    (hs : SolvesSt θ st') (m : Nat) :
    List.Forall₂ (Agree E m) (as.map θ.onTy) (bs.map θ.onTy) := by
  induction as generalizing bs st with
  | nil =>
    cases bs with
    | nil => exact .nil
    | cons => simp at hlen
  | cons a as ih =>
    cases bs with
    | nil => simp at hlen
    | cons b bs =>
      rcases hu with hu | hu
      · simp only [unifyL, andThen] at h
        cases hh : u a b st with
        | none => simp [hh] at h
        | some q =>
          obtain ⟨q1, q2⟩ := q
          cases q1 with
          | false => simp [hh] at h
          | true =>
            simp only [hh] at h
            refine .cons (hu a b st q2 hh (SolvesSt.of_ext (unifyL_ext hx _ _ h) hs) m) ?_
            exact ih bs (Or.inl hu) h (by simpa using hlen)
      · simp at hu

theorem filter_any_len {α : Type} {q : α → Bool} {f : α → Nat} {k : Nat} {l : List α}
    (h : ¬ (l.filter q).any (fun e => k != f e) = true) {x : α} (hx : x ∈ l) (hq : q x = true) :
    k = f x := by
  simp only [List.any_eq_true, not_exists, not_and] at h
  have := h x (List.mem_filter.mpr ⟨hx, hq⟩)
  simpa using this

theorem filter_any_len' {α : Type} {q : α → Bool} {f : α → Nat} {k : Nat} {l : List α}
    (h : ¬ (l.filter q).any (fun e => f e != k) = true) {x : α} (hx : x ∈ l) (hq : q x = true) :
    f x = k := by
  simp only [List.any_eq_true, not_exists, not_and] at h
  have := h x (List.mem_filter.mpr ⟨hx, hq⟩)
  simpa using this

theorem asSetsLoop_sound {E : Bool} {θ : Sub} {p : TLog → Ty → Ty → Option Bool}
    {u : Ty → Ty → St → Res} (hx : UExt u) {es2 es1 : List Eff}
    (hu : USound E θ u ∨ ∀ e ∈ es1, e.args = []) {st st' : St}
    (h : asSetsLoop p u es2 es1 st = some (true, st')) (hs : SolvesSt θ st') :
    ∀ e1 ∈ es1, ∃ e2 ∈ es2, Matches E θ e1 e2 := by
  induction es1 generalizing st with
  | nil => simp
  | cons e es ih =>
    simp only [asSetsLoop] at h
    split at h
    · simp at h
    split at h
    · simp at h
    rename_i hany
    split at h
    · simp at h
    · simp at h
    · simp at h
    · rename_i ht
      intro e1 he
      rcases List.mem_cons.mp he with rfl | he
      · obtain ⟨e2, h2, h3⟩ := tryFirst_some ht
        obtain ⟨h4, h5⟩ := List.mem_filter.mp h2
        refine ⟨e2, h4, by simpa using h5, fun m => ?_⟩
        exact args_sound hx _ _ (hu.imp id (fun hh => hh e1 (.head _))) h3
          (filter_any_len hany h4 h5) (SolvesSt.of_ext (asSetsLoop_ext hx h) hs) m
      · exact ih (hu.imp id (fun hh x hx => hh x (.tail _ hx))) h e1 he

theorem USound.flip {E : Bool} (hE : E = true) {θ : Sub} {u : Ty → Ty → St → Res}
    (h : USound E θ u) : USound E θ (fun a b => u b a) := by
  subst hE
  exact fun a b st st' hh hs m => (h b a st st' hh hs m).symm

theorem diffLoop_sound {E : Bool} {θ : Sub} {p : TLog → Ty → Ty → Option Bool}
    {u : Ty → Ty → St → Res} (hx : UExt u) {es1 es2 : List Eff}
    (hu : (E = true ∧ USound E θ u) ∨ ∀ e ∈ es2, e.args = []) {st st' : St} {only : List Eff}
    (h : diffLoop p u es1 es2 st = some (some only, st')) (hs : SolvesSt θ st') :
    ∃ M : List Eff, M.Sublist es2 ∧ M.length + only.length = es2.length ∧
      (∀ e ∈ es2, e ∈ M ∨ e ∈ only) ∧ (∀ e ∈ M, ∃ e1 ∈ es1, Matches E θ e1 e) := by
  induction es2 generalizing st only with
  | nil => simp [diffLoop] at h; obtain ⟨rfl, _⟩ := h; exact ⟨[], by simp⟩
  | cons e es ih =>
    have hu' : (E = true ∧ USound E θ u) ∨ ∀ e ∈ es, e.args = [] := hu.imp id (fun hh x hx => hh x (.tail _ hx))
    simp only [diffLoop] at h
    split at h
    · simp at h
    rename_i hany
    split at h
    · simp at h
    · simp at h
    · rename_i ht
      obtain ⟨M, h1, h2, h3, h4⟩ := ih hu' h
      refine ⟨e :: M, h1.cons_cons e, by simp; omega, ?_, ?_⟩
      · intro x hx
        rcases List.mem_cons.mp hx with rfl | hx
        · exact Or.inl (.head _)
        · exact (h3 x hx).imp (fun h => .tail _ h) id
      · intro x hxm
        rcases List.mem_cons.mp hxm with rfl | hxm
        · obtain ⟨e1, h5, h6⟩ := tryFirst_some ht
          obtain ⟨h7, h8⟩ := List.mem_filter.mp h5
          have hlen := filter_any_len' hany h7 h8
          have hm : Matches E θ x e1 := by
            refine ⟨by simpa using (beq_iff_eq.mp h8).symm, fun m => ?_⟩
            exact args_sound hx.flip _ _ (hu.imp (fun h => h.2.flip h.1) (fun hh => hh x (.head _))) h6
              hlen.symm (SolvesSt.of_ext (diffLoop_ext hx h) hs) m
          exact ⟨e1, h7, hm.symm (hu.imp (fun h => h.1) (fun hh => hh x (.head _)))⟩
        · exact h4 x hxm
    · split at h
      · simp at h
      · simp at h
      · rename_i ht
        simp at h
        obtain ⟨rfl, rfl⟩ := h
        obtain ⟨M, h1, h2, h3, h4⟩ := ih hu' ht
        refine ⟨M, h1.cons e, by simp; omega, ?_, h4⟩
        intro x hx
        rcases List.mem_cons.mp hx with rfl | hx
        · exact Or.inr (.head _)
        · exact (h3 x hx).imp id (fun h => .tail _ h)

theorem splitLoop_sound {E : Bool} {θ : Sub} {p : TLog → Ty → Ty → Option Bool}
    {u : Ty → Ty → St → Res} (hx : UExt u) {list2 es1 rem : List Eff}
    (hu : USound E θ u ∨ ∀ e ∈ es1, e.args = []) {st st' : St} {o1 o2 : List Eff}
    (hrem : ∀ e ∈ rem, e ∈ list2)
    (h : splitLoop p u list2 es1 rem st = some (some (o1, o2), st')) (hs : SolvesSt θ st') :
    (∀ e1 ∈ es1, e1 ∈ o1 ∨ ∃ e2 ∈ rem, Matches E θ e1 e2) ∧
    (∀ e2 ∈ rem, e2 ∈ o2 ∨ ∃ e1 ∈ es1, Matches E θ e1 e2) := by
  induction es1 generalizing rem st o1 o2 with
  | nil => simp [splitLoop] at h; obtain ⟨⟨rfl, rfl⟩, _⟩ := h; simp
  | cons e es ih =>
    have hu' : USound E θ u ∨ ∀ e ∈ es, e.args = [] := hu.imp id (fun hh x hx => hh x (.tail _ hx))
    simp only [splitLoop] at h
    split at h
    · simp at h
    rename_i hany
    split at h
    · simp at h
    · simp at h
    · rename_i ht
      have hsub := pick_sub ht
      obtain ⟨j1, j2⟩ := ih hu' (fun x hx => hrem x (hsub.subset hx)) h
      obtain ⟨e2, m1, m2, m3, m4⟩ := pick_some ht
      have hm : Matches E θ e e2 := by
        refine ⟨m2, fun m => ?_⟩
        exact args_sound hx _ _ (hu.imp id (fun hh => hh e (.head _))) m3
          (filter_any_len hany (hrem e2 m1) (by simp [m2]))
          (SolvesSt.of_ext (splitLoop_ext hx h) hs) m
      constructor
      · intro x hx
        rcases List.mem_cons.mp hx with rfl | hx
        · exact Or.inr ⟨e2, m1, hm⟩
        · rcases j1 x hx with h | ⟨y, hy, h⟩
          · exact Or.inl h
          · exact Or.inr ⟨y, hsub.subset hy, h⟩
      · intro x hx
        rcases m4 x hx with rfl | hx
        · exact Or.inr ⟨e, .head _, hm⟩
        · rcases j2 x hx with h | ⟨y, hy, h⟩
          · exact Or.inl h
          · exact Or.inr ⟨y, .tail _ hy, h⟩
    · split at h
      · simp at h
      · simp at h
      · rename_i ht
        simp at h
        obtain ⟨⟨rfl, rfl⟩, rfl⟩ := h
        obtain ⟨j1, j2⟩ := ih hu' hrem ht
        constructor
        · intro x hx
          rcases List.mem_cons.mp hx with rfl | hx
          · exact Or.inl (.head _)
          · rcases j1 x hx with h | h
            · exact Or.inl (.tail _ h)
            · exact Or.inr h
        · intro x hx
          rcases j2 x hx with h | ⟨y, hy, h⟩
          · exact Or.inl h
          · exact Or.inr ⟨y, .tail _ hy, h⟩

/-! ## Counting -/

theorem eq_of_ability {es : List Eff} (h : (es.map Eff.ability).Nodup) {a b : Eff} (ha : a ∈ es)
    (hb : b ∈ es) (hab : a.ability = b.ability) : a = b :=
  List.inj_on_of_nodup_map h ha hb hab

/-- A list without repetitions contained in one that is no longer fills it. -/
theorem fill {l l' : List Nat} (hn : l.Nodup) (hsub : ∀ x ∈ l, x ∈ l') (hlen : l'.length ≤ l.length) :
    ∀ x ∈ l', x ∈ l := by
  have := (List.subperm_of_subset hn hsub).perm_of_length_le hlen
  exact fun x hx => this.mem_iff.mpr hx

/-- If every effect on the left has a match on the right, the lists have the same length and list
no ability twice, then every effect on the right has a match on the left. -/
theorem matches_back {E : Bool} {θ : Sub} {es1 es2 : List Eff} (h1 : (es1.map Eff.ability).Nodup)
    (h2 : (es2.map Eff.ability).Nodup) (hlen : es1.length = es2.length)
    (h : ∀ e1 ∈ es1, ∃ e2 ∈ es2, Matches E θ e1 e2) :
    ∀ e2 ∈ es2, ∃ e1 ∈ es1, Matches E θ e1 e2 := by
  intro e2 he2
  have hsub : ∀ x ∈ es1.map Eff.ability, x ∈ es2.map Eff.ability := by
    intro x hx
    obtain ⟨e1, he1, rfl⟩ := List.mem_map.mp hx
    obtain ⟨e, he, hm⟩ := h e1 he1
    rw [hm.1]; exact List.mem_map_of_mem he
  have := fill h1 hsub (by simp [hlen]) e2.ability (List.mem_map_of_mem he2)
  obtain ⟨e1, he1, hab⟩ := List.mem_map.mp this
  obtain ⟨e, he, hm⟩ := h e1 he1
  have : e = e2 := eq_of_ability h2 he he2 (by rw [← hm.1, hab])
  subst this
  exact ⟨e1, he1, hm⟩

/-- The counting argument of the closed/open case. -/
theorem matches_diff {E : Bool} {θ : Sub} {small big M : List Eff}
    (h1 : (small.map Eff.ability).Nodup) (h2 : (big.map Eff.ability).Nodup) (hM : M.Sublist big)
    (hlen : M.length = small.length) (h : ∀ e ∈ M, ∃ e1 ∈ small, Matches E θ e1 e) :
    ∀ e1 ∈ small, ∃ e ∈ M, Matches E θ e1 e := by
  have hMn : (M.map Eff.ability).Nodup := (hM.map _).nodup h2
  intro e1 he1
  have hsub : ∀ x ∈ M.map Eff.ability, x ∈ small.map Eff.ability := by
    intro x hx
    obtain ⟨e, he, rfl⟩ := List.mem_map.mp hx
    obtain ⟨e0, he0, hm⟩ := h e he
    rw [← hm.1]; exact List.mem_map_of_mem he0
  have := fill hMn hsub (by simp [hlen]) e1.ability (List.mem_map_of_mem he1)
  obtain ⟨e, he, hab⟩ := List.mem_map.mp this
  obtain ⟨e0, he0, hm⟩ := h e he
  have : e0 = e1 := eq_of_ability h1 he0 he1 (by rw [hm.1, hab])
  subst this
  exact ⟨e, he, hm⟩

/-! ## Rows -/

theorem Matches.on {E : Bool} {θ : Sub} {e1 e2 : Eff} (h : Matches E θ e1 e2) (m : Nat) :
    (θ.onEff e1).ability = (θ.onEff e2).ability ∧
      List.Forall₂ (Agree E m) (θ.onEff e1).args (θ.onEff e2).args := by
  simp only [onEff_ability, onEff_args]
  exact ⟨h.1, h.2 m⟩

theorem repeats_on {θ : Sub} {es tail : List Eff} (h : ¬ (es.map Eff.ability).Nodup) :
    Repeats (θ.onEffL es ++ tail) := by
  intro hn
  apply h
  rw [List.map_append] at hn
  have := (List.nodup_append.mp hn).1
  rw [onEffL_eq, List.map_map] at this
  have he : (Eff.ability ∘ θ.onEff) = Eff.ability := by funext e; simp
  rwa [he] at this

/-- Agreement of two rows given by agreement of their parts. -/
theorem same_effects_of {E : Bool} {θ : Sub} {m : Nat} {es1 es2 t1 t2 : List Eff}
    (h1 : ∀ e1 ∈ es1, (∃ e2 ∈ es2, Matches E θ e1 e2) ∨ θ.onEff e1 ∈ t2)
    (h2 : ∀ e2 ∈ es2, (∃ e1 ∈ es1, Matches E θ e1 e2) ∨ θ.onEff e2 ∈ t1)
    (h3 : ∀ e ∈ t1, e ∈ t2 ∨ ∃ x ∈ es2, e = θ.onEff x)
    (h4 : ∀ e ∈ t2, e ∈ t1 ∨ ∃ x ∈ es1, e = θ.onEff x) :
    SameEffects (Agree E m) (θ.onEffL es1 ++ t1) (θ.onEffL es2 ++ t2) := by
  simp only [onEffL_eq]
  have hrefl : ∀ e : Eff, e.ability = e.ability ∧ List.Forall₂ (Agree E m) e.args e.args :=
    fun e => ⟨rfl, Forall₂_refl (Agree.refl E m) _⟩
  constructor
  · intro e he
    rcases List.mem_append.mp he with he | he
    · obtain ⟨x, hx, rfl⟩ := List.mem_map.mp he
      rcases h1 x hx with ⟨y, hy, hm⟩ | hm
      · exact ⟨θ.onEff y, List.mem_append_left _ (List.mem_map_of_mem hy), hm.on m⟩
      · exact ⟨_, List.mem_append_right _ hm, hrefl _⟩
    · rcases h3 e he with hm | ⟨x, hx, rfl⟩
      · exact ⟨e, List.mem_append_right _ hm, hrefl _⟩
      · exact ⟨_, List.mem_append_left _ (List.mem_map_of_mem hx), hrefl _⟩
  · intro e he
    rcases List.mem_append.mp he with he | he
    · obtain ⟨x, hx, rfl⟩ := List.mem_map.mp he
      rcases h2 x hx with ⟨y, hy, hm⟩ | hm
      · exact ⟨θ.onEff y, List.mem_append_left _ (List.mem_map_of_mem hy), hm.on m⟩
      · exact ⟨_, List.mem_append_right _ hm, hrefl _⟩
    · rcases h4 e he with hm | ⟨x, hx, rfl⟩
      · exact ⟨e, List.mem_append_right _ hm, hrefl _⟩
      · exact ⟨_, List.mem_append_left _ (List.mem_map_of_mem hx), hrefl _⟩

/-- In which situations something is claimed: everywhere, with the exception for repeated
abilities, or in the fragment. -/
def ModeRow (E : Bool) (es1 es2 : List Eff) : Prop :=
  E = true ∨ ((∀ e ∈ es1, e.args = []) ∧ (∀ e ∈ es2, e.args = []) ∧
    (es1.map Eff.ability).Nodup ∧ (es2.map Eff.ability).Nodup)

theorem ModeRow.symm {E : Bool} {es1 es2 : List Eff} (h : ModeRow E es1 es2) : ModeRow E es2 es1 :=
  h.imp id (fun ⟨a, b, c, d⟩ => ⟨b, a, d, c⟩)

theorem ModeRow.cases {E : Bool} {es1 es2 : List Eff} (h : ModeRow E es1 es2) :
    (E = true ∧ (¬ (es1.map Eff.ability).Nodup ∨ ¬ (es2.map Eff.ability).Nodup)) ∨
    ((es1.map Eff.ability).Nodup ∧ (es2.map Eff.ability).Nodup) := by
  rcases h with h | h
  · by_cases h1 : (es1.map Eff.ability).Nodup
    · by_cases h2 : (es2.map Eff.ability).Nodup
      · exact Or.inr ⟨h1, h2⟩
      · exact Or.inl ⟨h, Or.inr h2⟩
    · exact Or.inl ⟨h, Or.inl h1⟩
  · exact Or.inr h.2.2

theorem asSets_sound {E : Bool} {θ : Sub} {p : TLog → Ty → Ty → Option Bool}
    {u : Ty → Ty → St → Res} (hx : UExt u) {es1 es2 : List Eff} {r : Option Nat}
    (hu : E = true → USound E θ u) (hm : ModeRow E es1 es2) {st st' : St}
    (h : asSets p u es1 es2 st = some (true, st')) (hs : SolvesSt θ st') (m : Nat) :
    RowAgree E (Agree E m) (θ.onRow ⟨es1, r⟩) (θ.onRow ⟨es2, r⟩) := by
  simp only [asSets] at h
  split at h
  · simp at h
  rename_i hlen
  have hlen : es1.length = es2.length := by simpa using hlen
  have hf := asSetsLoop_sound (E := E) hx (hm.imp hu (fun h => h.1)) h hs
  refine Or.inr (Or.inr ?_)
  rcases hm.cases with hc | hc
  · refine Or.inl ⟨hc.1, ?_⟩
    simp only [Sub.onRow]
    exact hc.2.imp repeats_on repeats_on
  · refine Or.inr ⟨rfl, ?_⟩
    have hb := matches_back hc.1 hc.2 hlen hf
    exact same_effects_of (fun e he => Or.inl (hf e he)) (fun e he => Or.inl (hb e he))
      (fun e he => Or.inl he) (fun e he => Or.inl he)

theorem bindDiff_sound {E : Bool} {θ : Sub} {p : TLog → Ty → Ty → Option Bool}
    {u : Ty → Ty → St → Res} (hx : UExt u) {v : Nat} {small big : List Eff}
    (hu : E = true → USound E θ u) (hm : ModeRow E small big) {st st' : St}
    (h : bindDiff p u v small big st = some (true, st')) (hs : SolvesSt θ st') (m : Nat) :
    (E = true ∧ (Repeats (θ.onRow ⟨small, some v⟩).effects ∨ Repeats (θ.onRow ⟨big, none⟩).effects)) ∨
    ((θ.onRow ⟨small, some v⟩).rest = (θ.onRow ⟨big, none⟩).rest ∧
      SameEffects (Agree E m) (θ.onRow ⟨small, some v⟩).effects (θ.onRow ⟨big, none⟩).effects) := by
  simp only [bindDiff] at h
  split at h
  · simp at h
  · simp at h
  · rename_i only st1 hd
    split at h
    · simp at h
    rename_i hlen
    simp at h
    subst h
    have hE : Ext st1 { st1 with ρ := (v, ⟨only, none⟩) :: st1.ρ } :=
      ⟨fun x h => h, fun x h => .tail _ h⟩
    have hs1 : SolvesSt θ st1 := SolvesSt.of_ext hE hs
    have hv : θ.row v = θ.onRow ⟨only, none⟩ := hs.2 v ⟨only, none⟩ (.head _)
    obtain ⟨M, h1, h2, h3, h4⟩ := diffLoop_sound (E := E) hx (hm.imp (fun hE => ⟨hE, hu hE⟩) (fun h => h.2.1)) hd hs1
    have hsub := diffLoop_sub hd
    have hlen : M.length = small.length := by
      have : big.length - only.length = small.length := by simpa using hlen
      omega
    rcases hm.cases with hc | hc
    · refine Or.inl ⟨hc.1, ?_⟩
      simp only [Sub.onRow]
      exact hc.2.imp repeats_on repeats_on
    · refine Or.inr ⟨by simp [Sub.onRow, Sub.tail, hv], ?_⟩
      have hf := matches_diff hc.1 hc.2 h1 hlen h4
      have e2 : (θ.onRow ⟨big, none⟩).effects = θ.onEffL big ++ [] := by
        simp [Sub.onRow, Sub.tail]
      have e1 : (θ.onRow ⟨small, some v⟩).effects = θ.onEffL small ++ θ.onEffL only := by
        simp [Sub.onRow, Sub.tail, hv]
      rw [e1, e2]
      refine same_effects_of (fun e he => ?_) (fun e he => ?_) (fun e he => ?_) (by simp)
      · obtain ⟨x, hx, hm⟩ := hf e he
        exact Or.inl ⟨x, h1.subset hx, hm⟩
      · rcases h3 e he with h | h
        · exact Or.inl (h4 e h)
        · refine Or.inr ?_
          rw [onEffL_eq]; exact List.mem_map_of_mem h
      · rw [onEffL_eq] at he
        obtain ⟨x, hx, rfl⟩ := List.mem_map.mp he
        exact Or.inr ⟨x, hsub.subset hx, rfl⟩

theorem bindSplit_sound {E : Bool} {θ : Sub} {p : TLog → Ty → Ty → Option Bool}
    {u : Ty → Ty → St → Res} (hx : UExt u) {v1 v2 : Nat} {es1 es2 : List Eff}
    (hu : E = true → USound E θ u) (hm : ModeRow E es1 es2) {st st' : St}
    (h : bindSplit p u v1 v2 es1 es2 st = some (true, st')) (hs : SolvesSt θ st') (m : Nat) :
    RowAgree E (Agree E m) (θ.onRow ⟨es1, some v1⟩) (θ.onRow ⟨es2, some v2⟩) := by
  simp only [bindSplit] at h
  split at h
  · simp at h
  · simp at h
  · rename_i o1 o2 st1 hd
    simp at h
    subst h
    have hE : Ext st1 { st1 with
        ρ := (v2, ⟨o1, some st1.next⟩) :: (v1, ⟨o2, some st1.next⟩) :: st1.ρ } :=
      ⟨fun x h => h, fun x h => .tail _ (.tail _ h)⟩
    have hs1 : SolvesSt θ st1 := SolvesSt.of_ext hE hs
    have hv1 : θ.row v1 = θ.onRow ⟨o2, some st1.next⟩ := hs.2 v1 _ (.tail _ (.head _))
    have hv2 : θ.row v2 = θ.onRow ⟨o1, some st1.next⟩ := hs.2 v2 _ (.head _)
    obtain ⟨j1, j2⟩ := splitLoop_sound (E := E) hx (hm.imp hu (fun h => h.1)) (fun e h => h) hd hs1
    obtain ⟨s1, s2⟩ := splitLoop_sub hd
    refine Or.inr (Or.inr (Or.inr ⟨by simp [Sub.onRow, Sub.tail, hv1, hv2], ?_⟩))
    have e1 : (θ.onRow ⟨es1, some v1⟩).effects =
        θ.onEffL es1 ++ (θ.onEffL o2 ++ (θ.row st1.next).effects) := by
      simp [Sub.onRow, Sub.tail, hv1]
    have e2 : (θ.onRow ⟨es2, some v2⟩).effects =
        θ.onEffL es2 ++ (θ.onEffL o1 ++ (θ.row st1.next).effects) := by
      simp [Sub.onRow, Sub.tail, hv2]
    rw [e1, e2]
    refine same_effects_of (fun e he => ?_) (fun e he => ?_) (fun e he => ?_) (fun e he => ?_)
    · rcases j1 e he with h | h
      · refine Or.inr (List.mem_append_left _ ?_)
        rw [onEffL_eq]; exact List.mem_map_of_mem h
      · exact Or.inl h
    · rcases j2 e he with h | h
      · refine Or.inr (List.mem_append_left _ ?_)
        rw [onEffL_eq]; exact List.mem_map_of_mem h
      · exact Or.inl h
    · rcases List.mem_append.mp he with he | he
      · rw [onEffL_eq] at he
        obtain ⟨x, hx, rfl⟩ := List.mem_map.mp he
        exact Or.inr ⟨x, s2.subset hx, rfl⟩
      · exact Or.inl (List.mem_append_right _ he)
    · rcases List.mem_append.mp he with he | he
      · rw [onEffL_eq] at he
        obtain ⟨x, hx, rfl⟩ := List.mem_map.mp he
        exact Or.inr ⟨x, s1.subset hx, rfl⟩
      · exact Or.inl (List.mem_append_right _ he)

theorem SameEffects.flip' {R S : Ty → Ty → Prop} {es es' : List Eff} (h : SameEffects R es es')
    (hS : (∀ a b, R a b → S b a) ∨ ∀ e ∈ es', e.args = []) : SameEffects S es' es := by
  rcases hS with hS | hS
  · exact h.flip hS
  · refine ⟨fun e he => ?_, fun e he => ?_⟩
    · obtain ⟨x, hx, ha, hf⟩ := h.2 e he
      rw [hS e he] at hf ⊢
      cases hx' : x.args with
      | nil => exact ⟨x, hx, ha.symm, by rw [hx']; exact .nil⟩
      | cons a l => rw [hx'] at hf; cases hf
    · obtain ⟨x, hx, ha, hf⟩ := h.1 e he
      rw [hS x hx] at hf
      refine ⟨x, hx, ha.symm, ?_⟩
      rw [hS x hx]
      cases hx' : e.args with
      | nil => exact .nil
      | cons a l => rw [hx'] at hf; cases hf

theorem unifyRows'_sound {E : Bool} {θ : Sub} {n : Nat} {p : TLog → Ty → Ty → Option Bool}
    {u : Ty → Ty → St → Res} (hx : UExt u) {r1 r2 : Row}
    (hu : E = true → USound E θ u) (hm : ModeRow E r1.effects r2.effects) {st st' : St}
    (h : unifyRows' n p u r1 r2 st = some (true, st')) (hs : SolvesSt θ st') (m : Nat) :
    RowAgree E (Agree E m) (θ.onRow r1) (θ.onRow r2) := by
  obtain ⟨es1, t1⟩ := r1
  obtain ⟨es2, t2⟩ := r2
  simp only [unifyRows'] at h
  split at h
  · rename_i he; rw [he]; exact RowAgree.refl E m _
  cases t1 with
  | none =>
    cases t2 with
    | none => exact asSets_sound hx hu hm h hs m
    | some v2 =>
      simp only at h
      split at h
      · rename_i hp
        refine Or.inl ?_
        have : es1 = [] := by simpa [Row.isPure] using hp.1
        have hne : es2 ≠ [] := hp.2
        refine ⟨by simp [Sub.onRow, Sub.tail, this, Sub.onEffL], by simp [Sub.onRow, Sub.tail], fun _ he => ?_⟩
        cases es2 with
        | nil => exact hne rfl
        | cons x xs => simp [Sub.onRow, Sub.onEffL] at he
      split at h
      · simp at h
      · simp at h
      · refine Or.inr (Or.inr ?_)
        rcases bindDiff_sound hx hu hm.symm h hs m with hb | hb
        · exact Or.inl ⟨hb.1, hb.2.symm⟩
        · refine Or.inr ⟨hb.1.symm, ?_⟩
          refine hb.2.flip' (hm.imp (fun hE a b hab => by subst hE; exact Agree.symm hab) (fun h e he => ?_))
          simp only [Sub.onRow, Sub.tail, List.append_nil, onEffL_eq] at he
          obtain ⟨x, hx, rfl⟩ := List.mem_map.mp he
          rw [onEff_args, h.1 x hx]; rfl
  | some v1 =>
    cases t2 with
    | none =>
      simp only at h
      split at h
      · simp at h
      · simp at h
      · exact Or.inr (Or.inr (bindDiff_sound hx hu hm h hs m))
    | some v2 =>
      simp only at h
      split at h
      · rename_i hv; subst hv
        exact asSets_sound hx hu hm h hs m
      split at h
      · simp at h
      · simp at h
      · exact bindSplit_sound hx hu hm h hs m

/-- The modes on rows before substitution. -/
def ModeRows (E : Bool) (st : St) (r1 r2 : Row) : Prop :=
  E = true ∨ (Inv st ∧ SimpleRow st.next r1 ∧ SimpleRow st.next r2)

theorem unifyRowsWith_sound {E : Bool} {θ : Sub} {n : Nat} {p : TLog → Ty → Ty → Option Bool}
    {u : Ty → Ty → St → Res} (hx : UExt u) {r1 r2 : Row}
    (hu : E = true → USound E θ u) {st st' : St} (hm : ModeRows E st r1 r2)
    (h : unifyRowsWith n p u r1 r2 st = some (true, st')) (hs : SolvesSt θ st') (m : Nat) :
    RowAgree E (Agree E m) (θ.onRow r1) (θ.onRow r2) := by
  have hext := unifyRowsWith_ext hx h
  simp only [unifyRowsWith] at h
  split at h
  · rename_i a1 a2 h1 h2
    have hs0 := SolvesSt.of_ext hext hs
    obtain ⟨x1, y1⟩ := applyArgs_red hs0 h1 m
    obtain ⟨x2, y2⟩ := applyArgs_red hs0 h2 m
    have hm' : ModeRow E a1.effects a2.effects := by
      refine hm.imp id ?_
      rintro ⟨hi, s1, s2⟩
      have hR : ∀ v r, (v, r) ∈ st.ρ → SimpleRow st.next r := fun v r hm => (hi.frag.2 v r hm).2
      have t1 := rowApply_simple hR r1 s1
      have t2 := rowApply_simple hR r2 s2
      have e1 := applyArgs_simple t1 h1
      have e2 := applyArgs_simple t2 h2
      rw [← e1] at t1
      rw [← e2] at t2
      exact ⟨t1.1, t2.1, t1.2.1, t2.2.1⟩
    have := unifyRows'_sound hx hu hm' h hs m
    have r := RowAgree.absorb (E := E) (r := (θ.onRow a1).rest) (s := (θ.onRow a2).rest) y1 this y2
    rw [x1, x2] at r
    exact r
  · simp at h

/-! ## Types -/

/-- The modes on types. -/
def Mode (E : Bool) (st : St) (t1 t2 : Ty) : Prop :=
  E = true ∨ (Inv st ∧ Simple st.next t1 ∧ Simple st.next t2)

theorem core_of_sameHead {h h' : Head} (hh : sameHead h h' = true) : core h = core h' := by
  cases h <;> cases h' <;> simp_all [sameHead, core]

theorem wild_on {θ : Sub} {h : Head} {ks : List Ty} {es : List Eff} {r : Option Nat}
    (hh : h = .error ∨ h = .never) : Wild (θ.onTy (.node h ks es r)) := by
  rcases hh with rfl | rfl <;> simp [Sub.onTy, Wild]

theorem kids_sound {E : Bool} {θ : Sub} {n : Nat}
    (ih : ∀ t1 t2 st st', Mode E st t1 t2 → unify n t1 t2 st = some (true, st') → SolvesSt θ st' →
      ∀ m, Agree E m (θ.onTy t1) (θ.onTy t2))
    (as bs : List Ty) {st st' : St}
    (hm : E = true ∨ (Inv st ∧ (∀ t ∈ as, Simple st.next t) ∧ (∀ t ∈ bs, Simple st.next t)))
    (h : unifyL (unify n) as bs st = some (true, st')) (hlen : as.length = bs.length)
    (hs : SolvesSt θ st') (m : Nat) :
    List.Forall₂ (Agree E m) (as.map θ.onTy) (bs.map θ.onTy) := by
  induction as generalizing bs st with
  | nil =>
    cases bs with
    | nil => exact .nil
    | cons => simp at hlen
  | cons a as ihl =>
    cases bs with
    | nil => simp at hlen
    | cons b bs =>
      simp only [unifyL, andThen] at h
      cases hh : unify n a b st with
      | none => simp [hh] at h
      | some q =>
        obtain ⟨q1, q2⟩ := q
        cases q1 with
        | false => simp [hh] at h
        | true =>
          simp only [hh] at h
          have hm1 : Mode E st a b :=
            hm.imp id (fun ⟨h1, h2, h3⟩ => ⟨h1, h2 a (.head _), h3 b (.head _)⟩)
          refine .cons (ih a b st q2 hm1 hh
            (SolvesSt.of_ext (unifyL_ext (unify_ext n) _ _ h) hs) m) ?_
          refine ihl bs ?_ h (by simpa using hlen)
          refine hm.imp id (fun ⟨h1, h2, h3⟩ => ?_)
          obtain ⟨i1, i2⟩ := unify_inv n a b st true q2 h1 (h2 a (.head _)) (h3 b (.head _)) hh
          exact ⟨i1, fun t ht => (h2 t (.tail _ ht)).mono i2, fun t ht => (h3 t (.tail _ ht)).mono i2⟩

/-- If unification accepts two types, they agree in every solution of the recorded bindings. -/
theorem unify_sound {E : Bool} {θ : Sub} (n : Nat) (t1 t2 : Ty) (st st' : St)
    (hm : Mode E st t1 t2) (hu : unify n t1 t2 st = some (true, st')) (hs : SolvesSt θ st') :
    ∀ m, Agree E m (θ.onTy t1) (θ.onTy t2) := by
  induction n generalizing t1 t2 st st' with
  | zero => simp [unify] at hu
  | succ n ih =>
    intro m
    have hs0 := SolvesSt.of_ext (unify_ext (n + 1) t1 t2 st true st' hu) hs
    simp only [unify] at hu
    cases ha : apply st.σ [] n t1 with
    | none => simp [ha] at hu
    | some a =>
      cases hb : apply st.σ [] n t2 with
      | none => simp [ha, hb] at hu
      | some b =>
        simp only [ha, hb] at hu
        have ra := apply_red hs0.typesOnly n ha m
        have rb := apply_red hs0.typesOnly n hb m
        have hm' : Mode E st a b := by
          refine hm.imp id (fun ⟨h, s1, s2⟩ => ⟨h, ?_, ?_⟩)
          · exact apply_simple h.frag.1 (by simp) n s1 ha
          · exact apply_simple h.frag.1 (by simp) n s2 hb
        refine Agree.absorb _ (θ.onTy a) (θ.onTy b) _ ra ?_ rb
        clear ha hb ra rb hm hs0
        split at hu
        · rename_i he; rw [he]; exact Agree.refl E m _
        have hbind : ∀ v t, bindVar n v t st = some (true, st') → θ.onTy (.uni v) = θ.onTy t := by
          intro v t hbv
          simp only [bindVar] at hbv
          split at hbv
          · simp at hbv
          · simp at hbv
          · simp at hbv
            subst hbv
            simp only [Sub.onTy]
            exact hs.1 v t (.head _)
        cases a with
        | uni v => rw [hbind v b hu]; exact Agree.refl E m _
        | node hd ks es r =>
          cases b with
          | uni v => rw [hbind v _ hu]; exact Agree.refl E m _
          | node hd' ks' es' r' =>
            simp only at hu
            split at hu
            · simp at hu
            cases m with
            | zero => simp [Agree]
            | succ m =>
              split at hu
              · rename_i hw
                rcases hw with hw | hw
                · exact Or.inl (wild_on (Or.inl hw))
                · exact Or.inr (Or.inl (wild_on (Or.inl hw)))
              split at hu
              · rename_i hw
                rcases hw with hw | hw
                · exact Or.inl (wild_on (Or.inr hw))
                · exact Or.inr (Or.inl (wild_on (Or.inr hw)))
              simp only [unifyNodes] at hu
              split at hu
              · simp at hu
              rename_i hhead
              split at hu
              · split at hu
                · simp only [andThen] at hu
                  split at hu <;> simp at hu
                · simp at hu
              rename_i hlen
              have hlen : ks.length = ks'.length := by simpa using hlen
              simp only [andThen] at hu
              cases hl : unifyL (unify n) ks ks' st with
              | none => simp [hl] at hu
              | some q =>
                obtain ⟨q1, q2⟩ := q
                cases q1 with
                | false => simp [hl] at hu
                | true =>
                  simp only [hl] at hu
                  have hmk : E = true ∨ (Inv st ∧ (∀ t ∈ ks, Simple st.next t) ∧
                      (∀ t ∈ ks', Simple st.next t)) := by
                    refine hm'.imp id (fun ⟨h, s1, s2⟩ => ?_)
                    rw [simple_node] at s1 s2
                    exact ⟨h, s1.1, s2.1⟩
                  have hmr : ModeRows E q2 ⟨es, r⟩ ⟨es', r'⟩ := by
                    refine hm'.imp id (fun ⟨h, s1, s2⟩ => ?_)
                    rw [simple_node] at s1 s2
                    obtain ⟨i1, i2⟩ := unifyL_inv (u := unify n)
                      (fun a b st r st' h1 h2 h3 h4 => unify_inv n a b st r st' h1 h2 h3 h4)
                      _ _ h s1.1 s2.1 hl
                    exact ⟨i1, s1.2.mono i2, s2.2.mono i2⟩
                  have hs1 := SolvesSt.of_ext (unifyRowsWith_ext (unify_ext n) hu) hs
                  refine Or.inr (Or.inr ⟨?_, ?_, ?_⟩)
                  · exact core_of_sameHead (by simpa using hhead)
                  · rw [onTyL_eq, onTyL_eq]
                    exact kids_sound ih ks ks' hmk hl hlen hs1 m
                  · exact unifyRowsWith_sound (unify_ext n)
                      (fun hE a b st st' hab hs => ih a b st st' (Or.inl hE) hab hs) hmr hu hs m

/-! ## Constraint sets -/

theorem unifyRows_ext (n : Nat) {r1 r2 : Row} {st : St} {b : Bool} {st' : St}
    (h : unifyRows n r1 r2 st = some (b, st')) : Ext st st' := unifyRowsWith_ext (unify_ext n) h

theorem solveCon_ext {n : Nat} {c : Con} {st : St} {b : Bool} {st' : St}
    (h : solveCon n c st = some (b, st')) : Ext st st' := by
  cases c with
  | teq a b => exact unify_ext n _ _ _ _ _ h
  | req a b => exact unifyRows_ext n h

theorem solveLoop_ext {n : Nat} {cs : List Con} {st : St} {bs : List Bool} {st' : St}
    (h : solveLoop n cs st = some (bs, st')) : Ext st st' := by
  induction cs generalizing st bs with
  | nil => simp [solveLoop] at h; obtain ⟨_, rfl⟩ := h; exact Ext.refl _
  | cons c cs ih =>
    simp only [solveLoop] at h
    split at h
    · simp at h
    · rename_i hc
      split at h
      · simp at h
      · rename_i hl
        simp at h; obtain ⟨_, rfl⟩ := h
        exact (solveCon_ext hc).trans (ih hl)

/-- A constraint whose types and rows are in the fragment, below the counter. -/
def ConBelow (N : Nat) : Con → Prop
  | .teq a b => Simple N a ∧ Simple N b
  | .req a b => SimpleRow N a ∧ SimpleRow N b

theorem ConBelow.mono {N M : Nat} (h : N ≤ M) {c : Con} (hc : ConBelow N c) : ConBelow M c := by
  cases c with
  | teq a b => exact ⟨hc.1.mono h, hc.2.mono h⟩
  | req a b => exact ⟨hc.1.mono h, hc.2.mono h⟩

theorem solveCon_inv {n : Nat} {c : Con} {st : St} (h : Inv st) (hc : ConBelow st.next c) {b : Bool}
    {st' : St} (hs : solveCon n c st = some (b, st')) : Inv st' ∧ st.next ≤ st'.next := by
  cases c with
  | teq x y => exact unify_inv n x y st b st' h hc.1 hc.2 hs
  | req x y => exact unifyRowsWith_inv h hc.1 hc.2 hs

theorem solveLoop_inv {n : Nat} {cs : List Con} {st : St} (h : Inv st)
    (hc : ∀ c ∈ cs, ConBelow st.next c) {bs : List Bool} {st' : St}
    (hs : solveLoop n cs st = some (bs, st')) : Inv st' ∧ st.next ≤ st'.next := by
  induction cs generalizing st bs with
  | nil => simp [solveLoop] at hs; obtain ⟨_, rfl⟩ := hs; exact ⟨h, Nat.le_refl _⟩
  | cons c cs ih =>
    simp only [solveLoop] at hs
    split at hs
    · simp at hs
    · rename_i hcc
      split at hs
      · simp at hs
      · rename_i hl
        simp at hs; obtain ⟨_, rfl⟩ := hs
        obtain ⟨i1, i2⟩ := solveCon_inv h (hc c (.head _)) hcc
        obtain ⟨j1, j2⟩ := ih i1 (fun x hx => (hc x (.tail _ hx)).mono i2) hl
        exact ⟨j1, Nat.le_trans i2 j2⟩

theorem solveCon_sound {E : Bool} {θ : Sub} {n : Nat} {c : Con} {st st' : St}
    (hm : E = true ∨ (Inv st ∧ ConBelow st.next c))
    (h : solveCon n c st = some (true, st')) (hs : SolvesSt θ st') : c.Sat E θ := by
  cases c with
  | teq a b => exact unify_sound n a b st st' hm h hs
  | req a b =>
    intro m
    refine unifyRowsWith_sound (unify_ext n) (fun hE a b st st' hab hs => ?_) hm h hs m
    exact unify_sound n a b st st' (Or.inl hE) hab hs

theorem solveLoop_sound {E : Bool} {θ : Sub} {n : Nat} {cs : List Con} {st st' : St} {bs : List Bool}
    (hm : E = true ∨ (Inv st ∧ ∀ c ∈ cs, ConBelow st.next c))
    (h : solveLoop n cs st = some (bs, st')) (hs : SolvesSt θ st') :
    bs.length = cs.length ∧ ∀ c b, (c, b) ∈ cs.zip bs → b = true → c.Sat E θ := by
  induction cs generalizing st bs with
  | nil => simp [solveLoop] at h; obtain ⟨rfl, _⟩ := h; simp
  | cons c cs ih =>
    simp only [solveLoop] at h
    split at h
    · simp at h
    · rename_i b1 st1 hcc
      split at h
      · simp at h
      · rename_i bs1 st2 hl
        simp at h; obtain ⟨rfl, rfl⟩ := h
        have hm1 : E = true ∨ (Inv st1 ∧ ∀ c ∈ cs, ConBelow st1.next c) := by
          refine hm.imp id (fun ⟨h1, h2⟩ => ?_)
          obtain ⟨i1, i2⟩ := solveCon_inv h1 (h2 c (.head _)) hcc
          exact ⟨i1, fun x hx => (h2 x (.tail _ hx)).mono i2⟩
        obtain ⟨j1, j2⟩ := ih hm1 hl
        refine ⟨by simp [j1], ?_⟩
        intro c' b' hz hb
        simp only [List.zip_cons_cons, List.mem_cons] at hz
        rcases hz with hz | hz
        · cases hz
          subst hb
          refine solveCon_sound (hm.imp id (fun ⟨h1, h2⟩ => ⟨h1, h2 _ (.head _)⟩)) hcc ?_
          exact SolvesSt.of_ext (solveLoop_ext hl) hs
        · exact j2 c' b' hz hb

end Verif.Solver
