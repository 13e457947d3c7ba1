import Verif.Solver.Spec

/-!
# Lemmas for the soundness of unification
-/

namespace Verif.Solver
open Verif.Types

/-! ## Lists -/

theorem onTyL_eq (θ : Sub) (ts : List Ty) : θ.onTyL ts = ts.map θ.onTy := by
  induction ts with
  | nil => simp [Sub.onTyL]
  | cons t ts ih => simp [Sub.onTyL, ih]

theorem onEffL_eq (θ : Sub) (es : List Eff) : θ.onEffL es = es.map θ.onEff := by
  induction es with
  | nil => simp [Sub.onEffL]
  | cons e es ih => simp [Sub.onEffL, ih]

@[simp] theorem onEff_ability (θ : Sub) (e : Eff) : (θ.onEff e).ability = e.ability := by
  cases e; simp [Sub.onEff, Eff.ability]

@[simp] theorem onEff_args (θ : Sub) (e : Eff) : (θ.onEff e).args = e.args.map θ.onTy := by
  cases e; simp [Sub.onEff, Eff.args, onTyL_eq]

theorem mapO_some {α β : Type} {f : α → Option β} {l : List α} {l' : List β}
    (h : mapO f l = some l') : List.Forall₂ (fun a b => f a = some b) l l' := by
  induction l generalizing l' with
  | nil => simp [mapO] at h; subst h; exact .nil
  | cons a as ih =>
    simp only [mapO] at h
    cases ha : f a with
    | none => simp [ha] at h
    | some b =>
      cases hr : mapO f as with
      | none => simp [ha, hr] at h
      | some bs =>
        simp [ha, hr] at h
        subst h
        exact .cons ha (ih hr)

theorem mapArgs_some {f : Ty → Option Ty} {es es' : List Eff} (h : mapArgs f es = some es') :
    List.Forall₂ (fun e e' => e.ability = e'.ability ∧
      List.Forall₂ (fun a b => f a = some b) e.args e'.args) es es' := by
  refine (mapO_some h).imp ?_
  intro e e' he
  cases hr : mapO f e.args with
  | none => simp [hr] at he
  | some as =>
    simp [hr] at he
    subst he
    exact ⟨rfl, mapO_some hr⟩

theorem lookup_mem {α β : Type} [BEq α] [LawfulBEq α] {l : List (α × β)} {a : α} {b : β}
    (h : l.lookup a = some b) : (a, b) ∈ l := by
  induction l with
  | nil => simp at h
  | cons p l ih =>
    obtain ⟨x, y⟩ := p
    rw [List.lookup_cons] at h
    by_cases hx : a == x
    · simp [hx] at h
      have : a = x := by simpa using hx
      subst this; subst h; exact .head _
    · simp [hx] at h
      exact .tail _ (ih h)

theorem Forall₂_refl {α : Type} {R : α → α → Prop} (h : ∀ a, R a a) (l : List α) :
    List.Forall₂ R l l := by
  induction l with
  | nil => exact .nil
  | cons a l ih => exact .cons (h a) ih

theorem Forall₂_map {α β γ δ : Type} {R : γ → δ → Prop} {f : α → γ} {g : β → δ} {l : List α}
    {l' : List β} (h : List.Forall₂ (fun a b => R (f a) (g b)) l l') :
    List.Forall₂ R (l.map f) (l'.map g) := by
  induction h with
  | nil => exact .nil
  | cons a _ ih => exact .cons a ih

theorem Forall₂_left {α β : Type} {R : α → β → Prop} {l : List α} {l' : List β}
    (h : List.Forall₂ R l l') : ∀ a ∈ l, ∃ b ∈ l', R a b := by
  induction h with
  | nil => simp
  | cons hab _ ih =>
    intro a ha
    rcases List.mem_cons.mp ha with rfl | ha
    · exact ⟨_, .head _, hab⟩
    · obtain ⟨b, hb, hr⟩ := ih a ha
      exact ⟨b, .tail _ hb, hr⟩

theorem Forall₂_right {α β : Type} {R : α → β → Prop} {l : List α} {l' : List β}
    (h : List.Forall₂ R l l') : ∀ b ∈ l', ∃ a ∈ l, R a b := by
  induction h with
  | nil => simp
  | cons hab _ ih =>
    intro a ha
    rcases List.mem_cons.mp ha with rfl | ha
    · exact ⟨_, .head _, hab⟩
    · obtain ⟨b, hb, hr⟩ := ih a ha
      exact ⟨b, .tail _ hb, hr⟩

/-- Three aligned lists. -/
theorem Forall₂_trans3 {α β γ δ : Type} {R : β → α → Prop} {S : β → γ → Prop} {T : γ → δ → Prop}
    {U : α → δ → Prop} (hU : ∀ a b c d, R b a → S b c → T c d → U a d)
    {la : List α} {lb : List β} {lc : List γ} {ld : List δ}
    (h1 : List.Forall₂ R lb la) (h2 : List.Forall₂ S lb lc) (h3 : List.Forall₂ T lc ld) :
    List.Forall₂ U la ld := by
  induction h1 generalizing lc ld with
  | nil => cases h2; cases h3; exact .nil
  | cons hr _ ih =>
    cases h2 with
    | cons hs h2 =>
      cases h3 with
      | cons ht h3 => exact .cons (hU _ _ _ _ hr hs ht) (ih h2 h3)

/-! ## Reduction: what applying a substitution does to a type -/

/-- `es'` is `es` without some repeated entries, up to `R` on arguments. -/
def RedEffects (R : Ty → Ty → Prop) (es' es : List Eff) : Prop :=
  ((es.map Eff.ability).Nodup → (es'.map Eff.ability).Nodup) ∧ SameEffects R es' es

/-- `t'` is `t` with repeated effects dropped from rows, down to depth `n`. -/
def Red : Nat → Ty → Ty → Prop
  | 0, _, _ => True
  | _ + 1, .uni v, .uni w => v = w
  | n + 1, .node h ks es r, .node h' ks' es' r' =>
    h = h' ∧ r = r' ∧ List.Forall₂ (Red n) ks ks' ∧ RedEffects (Red n) es es'
  | _ + 1, .uni _, .node .. => False
  | _ + 1, .node .., .uni _ => False

theorem SameEffects.refl {R : Ty → Ty → Prop} (h : ∀ t, R t t) (es : List Eff) :
    SameEffects R es es :=
  ⟨fun e he => ⟨e, he, rfl, Forall₂_refl h _⟩, fun e he => ⟨e, he, rfl, Forall₂_refl h _⟩⟩

theorem Red.refl (n : Nat) (t : Ty) : Red n t t := by
  induction n generalizing t with
  | zero => cases t <;> simp [Red]
  | succ n ih =>
    cases t with
    | uni v => simp [Red]
    | node h ks es r =>
      simp only [Red]
      exact ⟨trivial, trivial, Forall₂_refl ih ks, fun h => h, SameEffects.refl ih es⟩

theorem Agree.refl (E : Bool) (n : Nat) (t : Ty) : Agree E n t t := by
  induction n generalizing t with
  | zero => simp [Agree]
  | succ n ih =>
    refine Or.inr (Or.inr ?_)
    cases t with
    | uni v => rfl
    | node h ks es r =>
      exact ⟨rfl, Forall₂_refl ih ks, Or.inr (Or.inr (Or.inr ⟨rfl, SameEffects.refl ih es⟩))⟩

theorem RowAgree.refl (E : Bool) (n : Nat) (r : Row) : RowAgree E (Agree E n) r r :=
  Or.inr (Or.inr (Or.inr ⟨rfl, SameEffects.refl (Agree.refl E n) _⟩))

theorem SameEffects.empty_iff {R : Ty → Ty → Prop} {es es' : List Eff} (h : SameEffects R es es') :
    es = [] ↔ es' = [] := by
  constructor
  · rintro rfl
    cases es' with
    | nil => rfl
    | cons e _ => obtain ⟨x, hx, _⟩ := h.2 e (.head _); cases hx
  · rintro rfl
    cases es with
    | nil => rfl
    | cons e _ => obtain ⟨x, hx, _⟩ := h.1 e (.head _); cases hx

theorem SameEffects.flip {R : Ty → Ty → Prop} {S : Ty → Ty → Prop} (hS : ∀ a b, R a b → S b a)
    {es es' : List Eff} (h : SameEffects R es es') : SameEffects S es' es := by
  refine ⟨fun e he => ?_, fun e he => ?_⟩
  · obtain ⟨x, hx, ha, hf⟩ := h.2 e he
    exact ⟨x, hx, ha.symm, (hf.flip).imp (fun a b => hS b a)⟩
  · obtain ⟨x, hx, ha, hf⟩ := h.1 e he
    exact ⟨x, hx, ha.symm, (hf.flip).imp (fun a b => hS b a)⟩

theorem Agree.symm {n : Nat} {a b : Ty} (h : Agree true n a b) : Agree true n b a := by
  induction n generalizing a b with
  | zero => simp [Agree]
  | succ n ih =>
    rcases h with h | h | h
    · exact Or.inr (Or.inl h)
    · exact Or.inl h
    · refine Or.inr (Or.inr ?_)
      cases a with
      | uni v => cases b with
        | uni w => exact Eq.symm h
        | node => exact h
      | node hd ks es r => cases b with
        | uni w => exact h
        | node hd' ks' es' r' =>
          obtain ⟨h1, h2, h3⟩ := h
          refine ⟨h1.symm, h2.flip.imp (fun a b => ih), ?_⟩
          rcases h3 with h3 | h3 | h3 | ⟨h3, h4⟩
          · exact Or.inr (Or.inl ⟨rfl, h3.1, h3.2.1⟩)
          · exact Or.inl ⟨h3.2.1, h3.2.2, by simp⟩
          · exact Or.inr (Or.inr (Or.inl ⟨h3.1, h3.2.symm⟩))
          · exact Or.inr (Or.inr (Or.inr ⟨h3.symm, h4.flip (fun a b => ih)⟩))

theorem Red.wild {n : Nat} {a b : Ty} (h : Red (n + 1) a b) : Wild a ↔ Wild b := by
  cases a with
  | uni v => cases b with
    | uni w => simp [Wild]
    | node => simp [Red] at h
  | node hd ks es r => cases b with
    | uni w => simp [Red] at h
    | node hd' ks' es' r' =>
      simp only [Red] at h
      obtain ⟨rfl, _⟩ := h
      cases hd <;> simp [Wild]

theorem SameEffects.conj {R S : Ty → Ty → Prop} {T : Ty → Ty → Prop}
    {U : Ty → Ty → Prop} (hU : ∀ a b c d, R b a → S b c → T c d → U a d)
    {ea eb ec ed : List Eff} (h1 : SameEffects R eb ea) (h2 : SameEffects S eb ec)
    (h3 : SameEffects T ec ed) : SameEffects U ea ed := by
  refine ⟨fun a ha => ?_, fun d hd => ?_⟩
  · obtain ⟨b, hb, e1, f1⟩ := h1.2 a ha
    obtain ⟨c, hc, e2, f2⟩ := h2.1 b hb
    obtain ⟨d, hd, e3, f3⟩ := h3.1 c hc
    exact ⟨d, hd, by omega, Forall₂_trans3 hU f1 f2 f3⟩
  · obtain ⟨c, hc, e3, f3⟩ := h3.2 d hd
    obtain ⟨b, hb, e2, f2⟩ := h2.2 c hc
    obtain ⟨a, ha, e1, f1⟩ := h1.1 b hb
    exact ⟨a, ha, by omega, Forall₂_trans3 hU f1 f2 f3⟩

theorem RowAgree.absorb' {E : Bool} {n : Nat}
    (ih : ∀ a b c d, Red n b a → Agree E n b c → Red n c d → Agree E n a d)
    {ea eb ec ed : List Eff} {r s : Option Nat}
    (h1 : RedEffects (Red n) eb ea) (h2 : RowAgree E (Agree E n) ⟨eb, r⟩ ⟨ec, s⟩)
    (h3 : RedEffects (Red n) ec ed) : RowAgree E (Agree E n) ⟨ea, r⟩ ⟨ed, s⟩ := by
  rcases h2 with h | h | h | h
  · exact Or.inl ⟨(h1.2.empty_iff).mp h.1, h.2.1, fun hE he => h.2.2 hE ((h3.2.empty_iff).mpr he)⟩
  · exact Or.inr (Or.inl ⟨h.1, (h3.2.empty_iff).mp h.2.1, h.2.2⟩)
  · refine Or.inr (Or.inr (Or.inl ⟨h.1, ?_⟩))
    rcases h.2 with h | h
    · exact Or.inl (fun hn => h (h1.1 hn))
    · exact Or.inr (fun hn => h (h3.1 hn))
  · refine Or.inr (Or.inr (Or.inr ⟨h.1, ?_⟩))
    exact SameEffects.conj ih h1.2 h.2 h3.2

/-- Agreement does not notice that repeated effects were dropped. -/
theorem Agree.absorb {E : Bool} {n : Nat} (a b c d : Ty) (h1 : Red n b a) (h2 : Agree E n b c)
    (h3 : Red n c d) : Agree E n a d := by
  induction n generalizing a b c d with
  | zero => simp [Agree]
  | succ n ih =>
    rcases h2 with h | h | h
    · exact Or.inl ((Red.wild h1).mp h)
    · exact Or.inr (Or.inl ((Red.wild h3).mp h))
    · refine Or.inr (Or.inr ?_)
      cases b with
      | uni v =>
        cases c with
        | node => exact h.elim
        | uni w =>
          cases a with
          | node => simp [Red] at h1
          | uni v' => cases d with
            | node => simp [Red] at h3
            | uni w' =>
              simp only [Red] at h1 h3
              have h : v = w := h
              show v' = w'
              rw [← h1, h, h3]
      | node hb kb eb rb =>
        cases c with
        | uni => exact h.elim
        | node hc kc ec rc =>
          cases a with
          | uni => simp [Red] at h1
          | node ha ka ea ra => cases d with
            | uni => simp [Red] at h3
            | node hd kd ed rd =>
              simp only [Red] at h1 h3
              obtain ⟨rfl, rfl, k1, e1⟩ := h1
              obtain ⟨rfl, rfl, k3, e3⟩ := h3
              obtain ⟨hc, k2, e2⟩ := h
              exact ⟨hc, Forall₂_trans3 ih k1 k2 k3, RowAgree.absorb' ih e1 e2 e3⟩

theorem RowAgree.absorb {E : Bool} {n : Nat} {ea eb ec ed : List Eff} {r s : Option Nat}
    (h1 : RedEffects (Red n) eb ea) (h2 : RowAgree E (Agree E n) ⟨eb, r⟩ ⟨ec, s⟩)
    (h3 : RedEffects (Red n) ec ed) : RowAgree E (Agree E n) ⟨ea, r⟩ ⟨ed, s⟩ :=
  RowAgree.absorb' (fun a b c d => Agree.absorb a b c d) h1 h2 h3

/-! ## Application of the row substitution -/

theorem addNew_spec (acc es : List Eff) :
    ∃ s : List Eff, addNew acc es = acc ++ s ∧ s.Sublist es ∧ ∀ e ∈ es, e ∈ acc ++ s := by
  induction es generalizing acc with
  | nil => exact ⟨[], by simp [addNew]⟩
  | cons e es ih =>
    by_cases he : e ∈ acc
    · obtain ⟨s, h1, h2, h3⟩ := ih acc
      refine ⟨s, by simp [addNew, he, h1], h2.cons e, ?_⟩
      intro x hx
      rcases List.mem_cons.mp hx with rfl | hx
      · exact List.mem_append_left _ he
      · exact h3 x hx
    · obtain ⟨s, h1, h2, h3⟩ := ih (acc ++ [e])
      refine ⟨e :: s, by simp [addNew, he, h1], h2.cons_cons e, ?_⟩
      intro x hx
      rcases List.mem_cons.mp hx with rfl | hx
      · simp
      · simpa using h3 x hx

theorem Solves.lookupT {θ : Sub} {σ : TLog} {ρ : RLog} (h : Solves θ σ ρ) {v : UVar} {t : Ty}
    (hl : σ.lookup v = some t) : θ.ty v = θ.onTy t := h.1 v t (lookup_mem hl)

theorem Solves.lookupR {θ : Sub} {σ : TLog} {ρ : RLog} (h : Solves θ σ ρ) {v : Nat} {r : Row}
    (hl : ρ.lookup v = some r) : θ.row v = θ.onRow r := h.2 v r (lookup_mem hl)

/-- The effects of the substituted row are a selection without loss. -/
theorem rowLoop_onRow {θ : Sub} {ρ : RLog} (h : Solves θ [] ρ) (n : Nat) (vis : List Nat) (row : Row) :
    (θ.onRow (rowLoop ρ n vis row)).rest = (θ.onRow row).rest ∧
    (θ.onRow (rowLoop ρ n vis row)).effects.Sublist (θ.onRow row).effects ∧
    (∀ e ∈ (θ.onRow row).effects, e ∈ (θ.onRow (rowLoop ρ n vis row)).effects) := by
  induction n generalizing vis row with
  | zero => simp [rowLoop]
  | succ n ih =>
    rw [rowLoop]
    cases hr : row.rest with
    | none => simp
    | some v =>
      cases hl : ρ.lookup v with
      | none => simp [hl]
      | some s =>
        by_cases hv : v ∈ vis
        · simp [hl, hv]
        · simp only [hl, hv, if_false]
          obtain ⟨i1, i2, i3⟩ := ih (v :: vis) ⟨addNew row.effects s.effects, s.rest⟩
          obtain ⟨x, a1, a2, a3⟩ := addNew_spec row.effects s.effects
          have hθ := h.lookupR hl
          have key : (θ.onRow row).rest = (θ.onRow ⟨addNew row.effects s.effects, s.rest⟩).rest ∧
            (θ.onRow ⟨addNew row.effects s.effects, s.rest⟩).effects.Sublist (θ.onRow row).effects ∧
            (∀ e ∈ (θ.onRow row).effects,
              e ∈ (θ.onRow ⟨addNew row.effects s.effects, s.rest⟩).effects) := by
            simp only [Sub.onRow, hr, Sub.tail, hθ, a1, onEffL_eq]
            refine ⟨trivial, ?_, ?_⟩
            · simp only [List.map_append, List.append_assoc]
              exact (List.Sublist.refl _).append ((a2.map _).append (List.Sublist.refl _))
            · intro e he
              simp only [List.mem_append, List.map_append] at he ⊢
              rcases he with he | he | he
              · exact Or.inl (Or.inl he)
              · obtain ⟨y, hy, rfl⟩ := List.mem_map.mp he
                have := a3 y hy
                rcases List.mem_append.mp this with h | h
                · exact Or.inl (Or.inl (List.mem_map_of_mem h))
                · exact Or.inl (Or.inr (List.mem_map_of_mem h))
              · exact Or.inr he
          exact ⟨i1.trans key.1.symm, i2.trans key.2.1, fun e he => i3 e (key.2.2 e he)⟩

theorem Solves.rowsOnly {θ : Sub} {σ : TLog} {ρ : RLog} (h : Solves θ σ ρ) : Solves θ [] ρ :=
  ⟨fun v t hm => (by cases hm), h.2⟩

theorem Solves.typesOnly {θ : Sub} {σ : TLog} {ρ : RLog} (h : Solves θ σ ρ) : Solves θ σ [] :=
  ⟨h.1, fun v t hm => (by cases hm)⟩

theorem rowApply_red {θ : Sub} {σ : TLog} {ρ : RLog} (h : Solves θ σ ρ) (row : Row) (n : Nat) :
    (θ.onRow (rowApply ρ row)).rest = (θ.onRow row).rest ∧
    RedEffects (Red n) (θ.onRow (rowApply ρ row)).effects (θ.onRow row).effects := by
  obtain ⟨h1, h2, h3⟩ := rowLoop_onRow h.rowsOnly (ρ.length + 1) [] row
  refine ⟨h1, fun hn => (h2.map _).nodup hn, ?_, ?_⟩
  · intro e he
    exact ⟨e, h2.subset he, rfl, Forall₂_refl (Red.refl n) _⟩
  · intro e he
    exact ⟨e, h3 e he, rfl, Forall₂_refl (Red.refl n) _⟩

/-- Mapping the arguments of the effects of a row. -/
theorem mapArgs_red {θ : Sub} {f : Ty → Option Ty} {n : Nat}
    (hf : ∀ t t', f t = some t' → Red n (θ.onTy t') (θ.onTy t))
    {es es' : List Eff} (h : mapArgs f es = some es') (tail : List Eff) :
    ((θ.onEffL es' ++ tail).map Eff.ability = (θ.onEffL es ++ tail).map Eff.ability) ∧
    SameEffects (Red n) (θ.onEffL es' ++ tail) (θ.onEffL es ++ tail) := by
  have h2 := mapArgs_some h
  simp only [onEffL_eq]
  have hab : es'.map (Eff.ability ∘ θ.onEff) = es.map (Eff.ability ∘ θ.onEff) := by
    clear h
    induction h2 with
    | nil => rfl
    | cons hh _ ih => simp [ih, hh.1]
  refine ⟨by simpa using hab, ?_, ?_⟩
  · intro e he
    rcases List.mem_append.mp he with he | he
    · obtain ⟨x, hx, rfl⟩ := List.mem_map.mp he
      obtain ⟨y, hy, hab, hargs⟩ := Forall₂_right h2 x hx
      refine ⟨θ.onEff y, List.mem_append_left _ (List.mem_map_of_mem hy), by simp [hab], ?_⟩
      simp only [onEff_args]
      exact Forall₂_map (hargs.flip.imp (fun a b hab => hf _ _ hab))
    · exact ⟨e, List.mem_append_right _ he, rfl, Forall₂_refl (Red.refl n) _⟩
  · intro e he
    rcases List.mem_append.mp he with he | he
    · obtain ⟨x, hx, rfl⟩ := List.mem_map.mp he
      obtain ⟨y, hy, hab, hargs⟩ := Forall₂_left h2 x hx
      refine ⟨θ.onEff y, List.mem_append_left _ (List.mem_map_of_mem hy), by simp [hab], ?_⟩
      simp only [onEff_args]
      exact Forall₂_map (hargs.flip.imp (fun a b hab => hf _ _ hab))
    · exact ⟨e, List.mem_append_right _ he, rfl, Forall₂_refl (Red.refl n) _⟩

theorem Red.trans {n : Nat} {a b c : Ty} (h1 : Red n a b) (h2 : Red n b c) : Red n a c := by
  induction n generalizing a b c with
  | zero => cases a <;> cases c <;> simp [Red]
  | succ n ih =>
    cases a with
    | uni v =>
      cases b with
      | node => simp [Red] at h1
      | uni w => cases c with
        | node => simp [Red] at h2
        | uni x => simp only [Red] at *; rw [h1, h2]
    | node ha ka ea ra =>
      cases b with
      | uni w => simp [Red] at h1
      | node hb kb eb rb => cases c with
        | uni x => simp [Red] at h2
        | node hc kc ec rc =>
          simp only [Red] at *
          obtain ⟨rfl, rfl, k1, n1, e1⟩ := h1
          obtain ⟨rfl, rfl, k2, n2, e2⟩ := h2
          refine ⟨rfl, rfl, ?_, fun h => n1 (n2 h), ?_⟩
          · exact Forall₂_trans3 (R := fun a b => a = b) (S := Red n) (T := Red n)
              (by rintro a _ c d rfl h1 h2; exact ih h1 h2) (Forall₂_refl (fun _ => rfl) _) k1 k2
          · exact SameEffects.conj (R := fun a b => a = b) (S := Red n) (T := Red n)
              (by rintro a _ c d rfl h1 h2; exact ih h1 h2) (SameEffects.refl (fun _ => rfl) _) e1 e2

theorem RedEffects.trans {n : Nat} {a b c : List Eff} (h1 : RedEffects (Red n) a b)
    (h2 : RedEffects (Red n) b c) : RedEffects (Red n) a c := by
  refine ⟨fun h => h1.1 (h2.1 h), ?_⟩
  exact SameEffects.conj (R := fun a b => a = b) (S := Red n) (T := Red n)
    (by rintro a _ c d rfl h1 h2; exact h1.trans h2) (SameEffects.refl (fun _ => rfl) _) h1.2 h2.2

/-- Applying the recorded bindings to a type does not change what it stands for in a solution,
up to repetitions in rows. -/
theorem apply_red {θ : Sub} {σ : TLog} {ρ : RLog} (h : Solves θ σ ρ) (n : Nat) {t t' : Ty}
    (ht : apply σ ρ n t = some t') (m : Nat) : Red m (θ.onTy t') (θ.onTy t) := by
  induction n generalizing t t' m with
  | zero => simp [apply] at ht
  | succ n ih =>
    cases t with
    | uni v =>
      simp only [apply] at ht
      cases hl : σ.lookup v with
      | none => simp [hl] at ht; subst ht; exact Red.refl _ _
      | some s =>
        simp only [hl] at ht
        have := ih ht m
        rw [show θ.onTy (.uni v) = θ.onTy s from by rw [Sub.onTy]; exact h.lookupT hl]
        exact this
    | node hd ks es r =>
      simp only [apply] at ht
      cases hk : mapO (apply σ ρ n) ks with
      | none => simp [hk] at ht
      | some ks' =>
        cases he : mapArgs (apply σ ρ n) (rowApply ρ ⟨es, r⟩).effects with
        | none => simp [hk, he] at ht
        | some es' =>
          simp [hk, he] at ht
          subst ht
          cases m with
          | zero => simp [Red]
          | succ m =>
            simp only [Sub.onTy, Red, onTyL_eq]
            obtain ⟨r1, r2⟩ := rowApply_red h ⟨es, r⟩ m
            obtain ⟨a1, a2⟩ := mapArgs_red (θ := θ) (n := m) (fun t t' ht => ih ht m) he
              (θ.tail (rowApply ρ ⟨es, r⟩).rest).effects
            refine ⟨trivial, r1, ?_, ?_⟩
            · exact Forall₂_map ((mapO_some hk).flip.imp (fun a b hab => ih hab m))
            · exact RedEffects.trans ⟨fun hn => by rw [a1]; exact hn, a2⟩ r2

theorem applyArgs_red {θ : Sub} {σ : TLog} {ρ : RLog} (h : Solves θ σ ρ) {n : Nat} {r r' : Row}
    (hr : applyArgs σ n (rowApply ρ r) = some r') (m : Nat) :
    (θ.onRow r').rest = (θ.onRow r).rest ∧
    RedEffects (Red m) (θ.onRow r').effects (θ.onRow r).effects := by
  simp only [applyArgs] at hr
  cases he : mapArgs (apply σ [] n) (rowApply ρ r).effects with
  | none => simp [he] at hr
  | some es =>
    simp [he] at hr
    subst hr
    obtain ⟨r1, r2⟩ := rowApply_red h r m
    obtain ⟨a1, a2⟩ := mapArgs_red (θ := θ) (n := m)
      (fun t t' ht => apply_red h.typesOnly n ht m) he (θ.tail (rowApply ρ r).rest).effects
    exact ⟨r1, RedEffects.trans ⟨fun hn => by simp only [Sub.onRow]; rw [a1]; exact hn, a2⟩ r2⟩

end Verif.Solver
