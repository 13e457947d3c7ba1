import Verif.Run.Spec
import Mathlib.Data.List.Forall2

/-!
# Well typed programs do not go wrong
-/

namespace Verif.Run
open Verif.Types Verif.Scheme Verif.Typing

/-! ## Ends of runs -/

theorem Res.Safe.bind {α β : Type} {Q : α → Prop} {R : β → Prop} {r : Res α} {f : α → Res β} (h : r.Safe Q)
    (hf : ∀ a, r = .ok a → Q a → (f a).Safe R) : (r.bind f).Safe R := by
  cases r with
  | ok a => exact hf a rfl h
  | wrong => exact h
  | trap => trivial
  | out => trivial

theorem Res.Safe.mono {α : Type} {Q R : α → Prop} {r : Res α} (h : r.Safe Q) (hf : ∀ a, Q a → R a) : r.Safe R := by
  cases r with
  | ok a => exact hf a h
  | wrong => exact h
  | trap => trivial
  | out => trivial

/-! ## Types -/

theorem sfn_inj {a c : List S} {b d : S} (h : S.fn a b = S.fn c d) : a = c ∧ b = d := by
  simp only [S.fn, S.node.injEq, true_and] at h
  have h1 := List.append_inj' h rfl
  simpa using h1

theorem evL_map (δ : UVar → S) (β : List S) (ts : List Ty) : evL δ β ts = ts.map (ev δ β) := by
  induction ts with
  | nil => rfl
  | cons t ts ih => simp [evL, ih]

theorem ev_func {δ : UVar → S} {β : List S} {c : Nat} {ks : List Ty} {es : List Eff} {r : Option Nat} {t : Ty}
    (h : ks.getLast? = some t) :
    ev δ β (.node (.func c) ks es r) = S.fn (ks.dropLast.map (ev δ β)) (ev δ β t) := by
  have : ks = ks.dropLast ++ [t] := by
    obtain ⟨hne, hl⟩ := List.getLast?_eq_some_iff.1 h
    rw [hl]; simp
  have e : ev δ β (.node (.func c) ks es r) = .node (.func 0) (evL δ β ks) := by simp [ev, head]
  rw [e, evL_map, S.fn]
  congr 1
  conv => lhs; rw [this]
  simp

/-! ## Declarations -/

/-- What is needed of a program and the types of its functions. -/
structure Ready (P : Prog) (ss : List PolyTy) (X : Ext) : Prop where
  typed : WellTyped P ss
  respects : Respects P ss
  ctors : CtorsOk P
  arities : Arities P
  ext : ExtOk P (P.sig ss) X

variable {P : Prog} {ss : List PolyTy} {X : Ext}

theorem Ready.fn (h : Ready P ss X) {f : Nat} {τ : S} (hf : (P.sig ss).fn f τ) :
    ∃ d τs ρ, P.fns[f]? = some d ∧ Inst d.sig τ ∧ FnTy (P.sig ss) d τ ∧ τ = S.fn τs ρ ∧
      τs.length = d.params.length := by
  obtain ⟨s, hs, hi⟩ := hf
  have hlt : f < P.fns.length := by
    rw [← h.typed.1]
    exact (List.getElem?_eq_some_iff.1 hs).1
  have hd : P.fns[f]? = some P.fns[f] := List.getElem?_eq_getElem hlt
  have hr := h.respects f _ s hd hs τ hi
  obtain ⟨c, ks, es, r, h1, h2⟩ := h.arities P.fns[f] (List.getElem_mem hlt)
  obtain ⟨δ, β, _, h3⟩ := hr
  have hne : ks ≠ [] := by rintro rfl; simp at h2
  have hl : ks.getLast? = some (ks.getLast hne) := List.getLast?_eq_some_getLast hne
  rw [h1, ev_func hl] at h3
  exact ⟨P.fns[f], _, _, hd, h.respects f _ s hd hs τ hi, h.typed.2 f _ s hd hs τ hi, h3, by simp [h2]⟩

theorem Ready.ctor (h : Ready P ss X) {c : Nat} {τ : S} (hc : (P.sig ss).ctor c τ) :
    ∃ i k args, ctorShape P c = some (i, k) ∧ i ≠ P.str ∧ i ≠ P.list ∧
      ((k = 0 ∧ τ = .named i args) ∨ (k ≠ 0 ∧ ∃ τs, τs.length = k ∧ τ = S.fn τs (.named i args))) := by
  obtain ⟨s, hs, δ, β, _, rfl⟩ := hc
  obtain ⟨i, k, h1, h2, h3, _⟩ := h.ctors c s hs
  have hcs : ctorShape P c = some (i, k) := by simp [ctorShape, hs, h1]
  rw [shape] at h1
  split at h1
  · rename_i j nm ks es r hb
    simp only [Option.some.injEq, Prod.mk.injEq] at h1
    obtain ⟨rfl, rfl⟩ := h1
    exact ⟨j, 0, evL δ β ks, hcs, h2, h3, .inl ⟨rfl, by rw [hb, ev, head, S.named]; simp⟩⟩
  · rename_i cc ks es r hb
    split at h1
    · rename_i j nm ks' es' r' hl
      split at h1
      · cases h1
      · rename_i hlen
        simp only [Option.some.injEq, Prod.mk.injEq] at h1
        obtain ⟨rfl, rfl⟩ := h1
        refine ⟨j, ks.length - 1, evL δ β ks', hcs, h2, h3, .inr ⟨by omega, ks.dropLast.map (ev δ β), by simp, ?_⟩⟩
        rw [hb, ev_func hl, ev, head, S.named]; simp
    · cases h1
  · cases h1

theorem Ready.fields (h : Ready P ss X) {c : Nat} {τs τs' : List S} {τ : S} (h1 : (P.sig ss).ctor c (.fn τs τ))
    (h2 : (P.sig ss).ctor c (.fn τs' τ)) : τs = τs' := by
  obtain ⟨s, hs, hi⟩ := h1
  obtain ⟨s', hs', hi'⟩ := h2
  rw [hs] at hs'
  cases hs'
  obtain ⟨_, _, _, _, _, hd⟩ := h.ctors c s hs
  exact hd _ _ _ hi hi'

/-! ## Canonical forms -/

theorem named_ne_fn {i : Nat} {args τs : List S} {τ : S} : S.named i args ≠ S.fn τs τ := by
  intro h; simp [S.named, S.fn] at h

theorem vty_data_shape (h : Ready P ss X) {c : Nat} {vs : List Val} {τ : S} (hv : VTy (P.sig ss) (.data c vs) τ) :
    ∃ i k args, ctorShape P c = some (i, k) ∧ i ≠ P.str ∧ i ≠ P.list ∧ τ = .named i args := by
  cases hv with
  | unit c τ hc hn =>
    obtain ⟨i, k, args, h1, h2, h3, h4⟩ := h.ctor hc
    rcases h4 with ⟨_, h4⟩ | ⟨_, τs, _, h4⟩
    · exact ⟨i, k, args, h1, h2, h3, h4⟩
    · exact absurd h4 (hn _ _)
  | data c vs τs τ hc hne hl hvs =>
    obtain ⟨i, k, args, h1, h2, h3, h4⟩ := h.ctor hc
    rcases h4 with ⟨_, h4⟩ | ⟨_, τs', _, h4⟩
    · exact absurd h4.symm named_ne_fn
    · exact ⟨i, k, args, h1, h2, h3, (sfn_inj h4).2⟩

theorem lit_head (D : Sig) (l : Lit) : ∃ h, D.lit l = .node h [] ∧ (h = .named D.str 0 ∨ ∃ p, h = .prim p) := by
  cases l <;> simp [Sig.lit, S.prim, S.bool, S.named]

theorem lit_tag {l l' : Lit} (h : (P.sig ss).lit l = (P.sig ss).lit l') : litTag P l = litTag P l' := by
  cases l <;> cases l' <;> simp [Sig.lit, S.prim, S.bool, S.named, litTag, Prog.sig] at h ⊢

theorem vty_lit (h : Ready P ss X) {v : Val} {τ : S} (hv : VTy (P.sig ss) v τ) {l : Lit}
    (hτ : τ = (P.sig ss).lit l) : ∃ l', v = .lit l' ∧ litTag P l = litTag P l' := by
  obtain ⟨hd, h1, h2⟩ := lit_head (P.sig ss) l
  cases hv with
  | lit l' => exact ⟨l', rfl, lit_tag hτ.symm⟩
  | tuple vs τs =>
    rw [h1, S.tuple] at hτ
    simp only [S.node.injEq] at hτ
    rcases h2 with h2 | ⟨p, h2⟩ <;> rw [h2] at hτ <;> simp at hτ
  | list vs τ =>
    rw [h1, Sig.listOf, S.named] at hτ
    simp at hτ
  | unit c τ hc hn =>
    obtain ⟨i, k, args, h3, h4, h5, h6⟩ := vty_data_shape h (.unit c τ hc hn)
    rw [h6, h1, S.named] at hτ
    simp only [S.node.injEq] at hτ
    rcases h2 with h2 | ⟨p, h2⟩ <;> rw [h2] at hτ <;> simp [Prog.sig] at hτ
    exact absurd hτ.1 h4
  | data c vs τs τ a1 a2 a3 a4 =>
    obtain ⟨i, k, args, h3, h4, h5, h6⟩ := vty_data_shape h (.data c vs τs τ a1 a2 a3 a4)
    rw [h6, h1, S.named] at hτ
    simp only [S.node.injEq] at hτ
    rcases h2 with h2 | ⟨p, h2⟩ <;> rw [h2] at hτ <;> simp [Prog.sig] at hτ
    exact absurd hτ.1 h4
  | con c τs τ => rw [h1, S.fn] at hτ; simp at hτ
  | fn f τs τ => rw [h1, S.fn] at hτ; simp at hτ
  | clos ρ ps b Γ τs τ => rw [h1, S.fn] at hτ; simp at hτ

theorem forall2_of {D : Sig} {vs : List Val} {τs : List S} (hl : vs.length = τs.length)
    (h : ∀ (i : Nat) v τ, vs[i]? = some v → τs[i]? = some τ → VTy D v τ) : VTys D vs τs := by
  rw [VTys, List.forall₂_iff_get]
  refine ⟨hl, fun i h1 h2 => h i _ _ ?_ ?_⟩
  · simp
  · simp

theorem vtys_get {D : Sig} {vs : List Val} {τs : List S} (h : VTys D vs τs) :
    ∀ (i : Nat) v τ, vs[i]? = some v → τs[i]? = some τ → VTy D v τ := by
  rw [VTys, List.forall₂_iff_get] at h
  intro i v τ h1 h2
  obtain ⟨a, rfl⟩ := List.getElem?_eq_some_iff.1 h1
  obtain ⟨b, rfl⟩ := List.getElem?_eq_some_iff.1 h2
  exact h.2 i a b

theorem vty_tuple (h : Ready P ss X) {v : Val} {τ : S} (hv : VTy (P.sig ss) v τ) {τs : List S}
    (hτ : τ = .tuple τs) : ∃ vs, v = .tuple vs ∧ VTys (P.sig ss) vs τs := by
  cases hv with
  | lit l' =>
    obtain ⟨hd, h1, h2⟩ := lit_head (P.sig ss) l'
    rw [h1, S.tuple] at hτ
    simp only [S.node.injEq] at hτ
    rcases h2 with h2 | ⟨p, h2⟩ <;> rw [h2] at hτ <;> simp at hτ
  | tuple vs τs' hl hvs =>
    simp only [S.tuple, S.node.injEq, true_and] at hτ
    subst hτ
    exact ⟨vs, rfl, forall2_of hl hvs⟩
  | list vs τ => simp [Sig.listOf, S.named, S.tuple] at hτ
  | unit c τ hc hn =>
    obtain ⟨i, k, args, h3, h4, h5, h6⟩ := vty_data_shape h (.unit c τ hc hn)
    rw [h6] at hτ
    simp [S.named, S.tuple] at hτ
  | data c vs τs τ a1 a2 a3 a4 =>
    obtain ⟨i, k, args, h3, h4, h5, h6⟩ := vty_data_shape h (.data c vs τs τ a1 a2 a3 a4)
    rw [h6] at hτ
    simp [S.named, S.tuple] at hτ
  | con c τs τ => simp [S.fn, S.tuple] at hτ
  | fn f τs τ => simp [S.fn, S.tuple] at hτ
  | clos ρ ps b Γ τs τ => simp [S.fn, S.tuple] at hτ

theorem vty_list (h : Ready P ss X) {v : Val} {τ : S} (hv : VTy (P.sig ss) v τ) {el : S}
    (hτ : τ = (P.sig ss).listOf el) : ∃ vs, v = .list vs ∧ ∀ v ∈ vs, VTy (P.sig ss) v el := by
  cases hv with
  | lit l' =>
    obtain ⟨hd, h1, h2⟩ := lit_head (P.sig ss) l'
    rw [h1, Sig.listOf, S.named] at hτ
    simp at hτ
  | tuple vs τs' hl hvs => simp [Sig.listOf, S.named, S.tuple] at hτ
  | list vs τ hvs =>
    simp only [Sig.listOf, S.named, S.node.injEq, true_and, List.cons.injEq, and_true] at hτ
    subst hτ
    exact ⟨vs, rfl, hvs⟩
  | unit c τ hc hn =>
    obtain ⟨i, k, args, h3, h4, h5, h6⟩ := vty_data_shape h (.unit c τ hc hn)
    rw [h6] at hτ
    simp [S.named, Sig.listOf, Prog.sig, h5] at hτ
  | data c vs τs τ a1 a2 a3 a4 =>
    obtain ⟨i, k, args, h3, h4, h5, h6⟩ := vty_data_shape h (.data c vs τs τ a1 a2 a3 a4)
    rw [h6] at hτ
    simp [S.named, Sig.listOf, Prog.sig, h5] at hτ
  | con c τs τ => simp [S.fn, Sig.listOf, S.named] at hτ
  | fn f τs τ => simp [S.fn, Sig.listOf, S.named] at hτ
  | clos ρ ps b Γ τs τ => simp [S.fn, Sig.listOf, S.named] at hτ

theorem vty_named (h : Ready P ss X) {v : Val} {τ : S} (hv : VTy (P.sig ss) v τ) {i : Nat} {args : List S}
    (hτ : τ = .named i args) (h1 : i ≠ P.str) (h2 : i ≠ P.list) :
    ∃ c vs k, v = .data c vs ∧ ctorShape P c = some (i, k) := by
  cases hv with
  | lit l' =>
    obtain ⟨hd, h3, h4⟩ := lit_head (P.sig ss) l'
    rw [h3, S.named] at hτ
    simp only [S.node.injEq] at hτ
    rcases h4 with h4 | ⟨p, h4⟩ <;> rw [h4] at hτ <;> simp [Prog.sig] at hτ
    exact absurd hτ.1.symm h1
  | tuple vs τs' hl hvs => simp [S.named, S.tuple] at hτ
  | list vs τ hvs =>
    simp [Sig.listOf, S.named, Prog.sig] at hτ
    exact absurd hτ.1.symm h2
  | unit c τ hc hn =>
    obtain ⟨j, k, args, h3, h4, h5, h6⟩ := vty_data_shape h (.unit c τ hc hn)
    rw [h6] at hτ
    simp [S.named] at hτ
    rw [hτ.1] at h3
    exact ⟨c, [], k, rfl, h3⟩
  | data c vs τs τ a1 a2 a3 a4 =>
    obtain ⟨j, k, args, h3, h4, h5, h6⟩ := vty_data_shape h (.data c vs τs τ a1 a2 a3 a4)
    rw [h6] at hτ
    simp [S.named] at hτ
    rw [hτ.1] at h3
    exact ⟨c, vs, k, rfl, h3⟩
  | con c τs τ => simp [S.fn, S.named] at hτ
  | fn f τs τ => simp [S.fn, S.named] at hτ
  | clos ρ ps b Γ τs τ => simp [S.fn, S.named] at hτ

theorem vtag_ty (h : Ready P ss X) {v : Val} {τ : S} (hv : VTy (P.sig ss) v τ) : vtag P v = tag τ := by
  cases hv with
  | lit l => cases l <;> simp [vtag, litTag, tag, Sig.lit, S.prim, S.bool, S.named, Prog.sig]
  | tuple vs τs' hl hvs => simp [vtag, tag, S.tuple]
  | list vs τ hvs => simp [vtag, tag, Sig.listOf, S.named, Prog.sig]
  | unit c τ hc hn =>
    obtain ⟨j, k, args, h3, h4, h5, h6⟩ := vty_data_shape h (.unit c τ hc hn)
    simp [vtag, h3, h6, tag, S.named]
  | data c vs τs τ a1 a2 a3 a4 =>
    obtain ⟨j, k, args, h3, h4, h5, h6⟩ := vty_data_shape h (.data c vs τs τ a1 a2 a3 a4)
    simp [vtag, h3, h6, tag, S.named]
  | con c τs τ => simp [vtag, tag, S.fn]
  | fn f τs τ => simp [vtag, tag, S.fn]
  | clos ρ ps b Γ τs τ => simp [vtag, tag, S.fn]

/-- The values of a callable type. -/
theorem vty_fn (h : Ready P ss X) {v : Val} {τ : S} (hv : VTy (P.sig ss) v τ) {τs : List S} {σ : S}
    (hτ : τ = .fn τs σ) :
    (∃ c, v = .con c ∧ (P.sig ss).ctor c (.fn τs σ)) ∨ (∃ f, v = .fn f ∧ (P.sig ss).fn f (.fn τs σ)) ∨
    ∃ ρ ps b Γ, v = .clos ρ ps b ∧ (∀ x σ, Γ x σ → ∃ v, ρ.lookup x = some v) ∧
      (∀ x σ v, Γ x σ → ρ.lookup x = some v → VTy (P.sig ss) v σ) ∧ ps.length = τs.length ∧
      HasTy (P.sig ss) b (TEnv.bindAll Γ (ps.zip τs)) σ := by
  cases hv with
  | lit l' =>
    obtain ⟨hd, h3, h4⟩ := lit_head (P.sig ss) l'
    rw [h3, S.fn] at hτ
    simp at hτ
  | tuple vs τs' hl hvs => simp [S.fn, S.tuple] at hτ
  | list vs τ hvs => simp [Sig.listOf, S.named, S.fn] at hτ
  | unit c τ hc hn => exact absurd hτ (hn _ _)
  | data c vs τs τ a1 a2 a3 a4 =>
    obtain ⟨j, k, args, h3, h4, h5, h6⟩ := vty_data_shape h (.data c vs τs τ a1 a2 a3 a4)
    rw [h6] at hτ
    exact absurd hτ named_ne_fn
  | con c τs τ hc => obtain ⟨rfl, rfl⟩ := sfn_inj hτ; exact .inl ⟨c, rfl, hc⟩
  | fn f τs τ hf => obtain ⟨rfl, rfl⟩ := sfn_inj hτ; exact .inr (.inl ⟨f, rfl, hf⟩)
  | clos ρ ps b Γ τs τ a1 a2 a3 a4 =>
    obtain ⟨rfl, rfl⟩ := sfn_inj hτ
    exact .inr (.inr ⟨ρ, ps, b, Γ, rfl, a1, a2, a3, a4⟩)

/-! ## Environments -/

def EnvTy (D : Sig) (ρ : VEnv) (Γ : TEnv) : Prop := ∀ x σ, Γ x σ → ∃ v, ρ.lookup x = some v ∧ VTy D v σ

theorem EnvTy.set {D : Sig} {ρ : VEnv} {Γ : TEnv} (h : EnvTy D ρ Γ) {x : Nat} {v : Val} {T : S → Prop}
    (hv : ∀ τ, T τ → VTy D v τ) : EnvTy D ((x, v) :: ρ) (Γ.set x T) := by
  intro y σ hy
  by_cases hxy : y = x
  · subst hxy
    simp only [TEnv.set, if_true] at hy
    exact ⟨v, by simp, hv σ hy⟩
  · simp only [TEnv.set, hxy, if_false] at hy
    obtain ⟨w, h1, h2⟩ := h y σ hy
    exact ⟨w, by rw [List.lookup_cons, beq_eq_false_iff_ne.2 hxy]; exact h1, h2⟩

def BindTy (D : Sig) (b : VEnv) (bs : List (Nat × S)) : Prop :=
  List.Forall₂ (fun p q => p.1 = q.1 ∧ VTy D p.2 q.2) b bs

theorem EnvTy.bind {D : Sig} {b : VEnv} {bs : List (Nat × S)} (hb : BindTy D b bs) : ∀ {ρ : VEnv} {Γ : TEnv},
    EnvTy D ρ Γ → EnvTy D (bindV ρ b) (Γ.bindAll bs) := by
  induction hb with
  | nil => exact fun h => h
  | @cons p q ps qs h1 _ ih =>
    intro ρ Γ h
    obtain ⟨x, v⟩ := p
    obtain ⟨y, τ⟩ := q
    obtain ⟨rfl, h2⟩ := h1
    exact ih (h.set (fun σ hσ => by rw [hσ]; exact h2))

theorem bindTy_zip {D : Sig} : ∀ {xs : List Nat} {vs : List Val} {τs : List S}, VTys D vs τs →
    BindTy D (xs.zip vs) (xs.zip τs)
  | [], _, _, _ => by simp [BindTy]
  | x :: xs, [], [], _ => by simp [BindTy]
  | x :: xs, v :: vs, τ :: τs, h => by
    obtain ⟨h1, h2⟩ := List.forall₂_cons.1 h
    exact List.Forall₂.cons ⟨rfl, h1⟩ (bindTy_zip h2)

theorem bindTy_append {D : Sig} {a b : VEnv} {as bs : List (Nat × S)} (h1 : BindTy D a as) (h2 : BindTy D b bs) :
    BindTy D (a ++ b) (as ++ bs) := List.rel_append h1 h2

/-! ## Patterns -/

def PSafe (D : Sig) (bs : List (Nat × S)) : Option VEnv → Prop
  | some b => BindTy D b bs
  | none => True

theorem vtys_replicate {D : Sig} {el : S} {α : Type} : ∀ {vs : List Val} {ps : List α}, ps.length = vs.length →
    (∀ v ∈ vs, VTy D v el) → VTys D vs (ps.map (fun _ => el))
  | [], [], _, _ => .nil
  | v :: vs, p :: ps, hl, h => .cons (h v (.head _))
      (vtys_replicate (by simpa using hl) (fun w hw => h w (.tail _ hw)))

mutual
theorem pmatch_safe (h : Ready P ss X) : ∀ (p : Pat) {v : Val} {τ : S} {bs : List (Nat × S)},
    PatTy (P.sig ss) p τ bs → VTy (P.sig ss) v τ → (pmatch P p v).Safe (PSafe (P.sig ss) bs)
  | .wild, v, τ, bs, hp, hv => by
    simp only [PatTy] at hp
    subst hp
    simp [pmatch, Res.Safe, PSafe, BindTy]
  | .bind x, v, τ, bs, hp, hv => by
    simp only [PatTy] at hp
    subst hp
    simp [pmatch, Res.Safe, PSafe, BindTy, hv]
  | .lit l, v, τ, bs, hp, hv => by
    simp only [PatTy] at hp
    obtain ⟨h1, rfl⟩ := hp
    obtain ⟨l', rfl, h2⟩ := vty_lit h hv h1
    simp only [pmatch, h2, if_true, Res.Safe]
    split <;> simp [PSafe, BindTy]
  | .ctor c ps, v, τ, bs, hp, hv => by
    simp only [PatTy] at hp
    rcases hp with ⟨rfl, rfl, hc, hnf⟩ | ⟨τs, hc, hps⟩
    · obtain ⟨i, k, args, h1, h2, h3, h4⟩ := h.ctor hc
      rcases h4 with ⟨rfl, h4⟩ | ⟨hk, τs, hl, h4⟩
      · obtain ⟨c', vs, k', rfl, h5⟩ := vty_named h hv h4 h2 h3
        simp only [pmatch, h1, h5, if_true]
        split
        · rename_i hcc
          subst hcc
          cases hv with
          | unit => simp [pmatchL, Res.Safe, PSafe, BindTy]
          | data _ _ τs _ a1 a2 a3 a4 =>
            obtain ⟨i', k', args', b1, b2, b3, b4⟩ := h.ctor a1
            rw [h1] at b1
            cases b1
            rcases b4 with ⟨_, b4⟩ | ⟨b4, _⟩
            · exact absurd b4.symm named_ne_fn
            · exact absurd rfl b4
        · simp [Res.Safe, PSafe]
      · exact absurd h4 (hnf _ _)
    · obtain ⟨i, k, args, h1, h2, h3, h4⟩ := h.ctor hc
      rcases h4 with ⟨rfl, h4⟩ | ⟨hk, τs', hl, h4⟩
      · exact absurd h4.symm named_ne_fn
      · have h4 := (sfn_inj h4).2
        obtain ⟨c', vs, k', rfl, h5⟩ := vty_named h hv h4 h2 h3
        simp only [pmatch, h1, h5, if_true]
        split
        · rename_i hcc
          subst hcc
          cases hv with
          | unit _ _ hu _ =>
            obtain ⟨i', k', args', b1, b2, b3, b4⟩ := h.ctor hu
            rw [h1] at b1
            cases b1
            rcases b4 with ⟨b4, _⟩ | ⟨_, τs', _, b4⟩
            · exact absurd b4 hk
            · rw [h4] at b4
              exact absurd b4 named_ne_fn
          | data _ _ τs' _ a1 a2 a3 a4 =>
            have := h.fields hc a1
            subst this
            exact pmatchL_safe h ps hps (forall2_of a3 a4)
        · simp [Res.Safe, PSafe]
  | .tuple ps, v, τ, bs, hp, hv => by
    simp only [PatTy] at hp
    obtain ⟨τs, h1, h2⟩ := hp
    obtain ⟨vs, rfl, h3⟩ := vty_tuple h hv h1
    simp only [pmatch]
    exact pmatchL_safe h ps h2 h3
  | .list ps, v, τ, bs, hp, hv => by
    simp only [PatTy] at hp
    obtain ⟨el, h1, h2⟩ := hp
    obtain ⟨vs, rfl, h3⟩ := vty_list h hv h1
    simp only [pmatch]
    split
    · rename_i hl
      exact pmatchL_safe h ps h2 (vtys_replicate hl h3)
    · simp [Res.Safe, PSafe]
  | .listRest ps none, v, τ, bs, hp, hv => by
    simp only [PatTy] at hp
    obtain ⟨el, h1, h2⟩ := hp
    obtain ⟨vs, rfl, h3⟩ := vty_list h hv h1
    simp only [pmatch]
    split
    · rename_i hl
      exact pmatchL_safe h ps h2 (vtys_replicate (by simp; omega) (fun v hv => h3 v (List.mem_of_mem_take hv)))
    · simp [Res.Safe, PSafe]
  | .listRest ps (some x), v, τ, bs, hp, hv => by
    simp only [PatTy] at hp
    obtain ⟨el, b', h1, h2, rfl⟩ := hp
    obtain ⟨vs, rfl, h3⟩ := vty_list h hv h1
    simp only [pmatch]
    split
    · rename_i hl
      refine (pmatchL_safe h ps h2 (vtys_replicate (by simp; omega)
        (fun v hv => h3 v (List.mem_of_mem_take hv)))).bind ?_
      intro o _ ho
      cases o with
      | none => simp [Res.Safe, PSafe]
      | some b =>
        refine bindTy_append ho (.cons ⟨rfl, ?_⟩ .nil)
        rw [h1]
        exact .list _ _ (fun v hv => h3 v (List.mem_of_mem_drop hv))
    · simp [Res.Safe, PSafe]
  | .as p x, v, τ, bs, hp, hv => by
    simp only [PatTy] at hp
    obtain ⟨b', h1, rfl⟩ := hp
    simp only [pmatch]
    refine (pmatch_safe h p h1 hv).bind ?_
    intro o _ ho
    cases o with
    | none => simp [Res.Safe, PSafe]
    | some b => exact List.Forall₂.cons ⟨rfl, hv⟩ ho
theorem pmatchL_safe (h : Ready P ss X) : ∀ (ps : List Pat) {vs : List Val} {τs : List S} {bs : List (Nat × S)},
    PatTyL (P.sig ss) ps τs bs → VTys (P.sig ss) vs τs → (pmatchL P ps vs).Safe (PSafe (P.sig ss) bs)
  | [], vs, τs, bs, hp, hv => by
    simp only [PatTyL] at hp
    obtain ⟨rfl, rfl⟩ := hp
    cases hv
    simp [pmatchL, Res.Safe, PSafe, BindTy]
  | p :: ps, vs, τs, bs, hp, hv => by
    simp only [PatTyL] at hp
    obtain ⟨τ, τs', b1, b2, rfl, rfl, h1, h2⟩ := hp
    cases hv with
    | cons hv hvs =>
      simp only [pmatchL]
      refine (pmatch_safe h p h1 hv).bind ?_
      intro o _ ho
      cases o with
      | none => simp [Res.Safe, PSafe]
      | some b =>
        refine (pmatchL_safe h ps h2 hvs).bind ?_
        intro o' _ ho'
        cases o' with
        | none => simp [Res.Safe, PSafe]
        | some b' => exact bindTy_append ho ho'
end

/-! ## Evaluation -/

def SSafe (D : Sig) (Q : TEnv → Prop) (ρ : VEnv) : Prop := ∃ Γ, EnvTy D ρ Γ ∧ Q Γ

/-- All five parts for `n` steps. -/
structure SafeAt (P : Prog) (ss : List PolyTy) (X : Ext) (n : Nat) : Prop where
  expr : ∀ {e ρ Γ τ}, EnvTy (P.sig ss) ρ Γ → HasTy (P.sig ss) e Γ τ →
    (eval P X n ρ e).Safe (fun v => VTy (P.sig ss) v τ)
  exprs : ∀ {es ρ Γ τs}, EnvTy (P.sig ss) ρ Γ → HasTyL (P.sig ss) es Γ τs →
    (evalL P X n ρ es).Safe (fun vs => VTys (P.sig ss) vs τs)
  stmts : ∀ {st ρ Γ Q}, EnvTy (P.sig ss) ρ Γ → Stmts (P.sig ss) st Γ Q →
    (evalSS P X n ρ st).Safe (SSafe (P.sig ss) Q)
  arms : ∀ {v arms ρ Γ σ τ}, EnvTy (P.sig ss) ρ Γ → VTy (P.sig ss) v σ → ArmsTy (P.sig ss) arms Γ σ τ →
    (evalArms P X n ρ v arms).Safe (fun v => VTy (P.sig ss) v τ)
  app : ∀ {v vs τs τ}, VTy (P.sig ss) v (.fn τs τ) → VTys (P.sig ss) vs τs →
    (applyV P X n v vs).Safe (fun v => VTy (P.sig ss) v τ)

theorem vtys_length {D : Sig} {vs : List Val} {τs : List S} (h : VTys D vs τs) : vs.length = τs.length :=
  List.Forall₂.length_eq h

theorem vty_bool (h : Ready P ss X) {v : Val} (hv : VTy (P.sig ss) v S.bool) : ∃ b, v = .lit (.bool b) := by
  obtain ⟨l, rfl, h1⟩ := vty_lit h hv (l := .bool true) rfl
  cases l <;> simp [litTag] at h1
  exact ⟨_, rfl⟩

theorem hasTyL_ne {D : Sig} {es : List E} {Γ : TEnv} {τs : List S} (h : HasTyL D es Γ τs) (hne : es ≠ []) :
    τs ≠ [] := by
  cases es with
  | nil => exact absurd rfl hne
  | cons e es =>
    simp only [HasTyL] at h
    obtain ⟨τ, τs', rfl, _⟩ := h
    simp

theorem expr_step (h : Ready P ss X) {n : Nat} (ih : SafeAt P ss X n) {e : E} {ρ : VEnv} {Γ : TEnv} {τ : S}
    (hρ : EnvTy (P.sig ss) ρ Γ) (he : HasTy (P.sig ss) e Γ τ) :
    (eval P X (n + 1) ρ e).Safe (fun v => VTy (P.sig ss) v τ) := by
  cases e with
  | lit l =>
    simp only [HasTy] at he
    subst he
    simp only [eval]
    exact .lit l
  | loc node x =>
    simp only [HasTy] at he
    obtain ⟨v, h1, h2⟩ := hρ x τ he
    simp only [eval, h1]
    exact h2
  | fn f =>
    simp only [HasTy] at he
    obtain ⟨d, τs, σ, h1, h2, h3, rfl, h5⟩ := h.fn he
    have hlt : f < P.fns.length := (List.getElem?_eq_some_iff.1 h1).1
    simp only [eval, hlt, if_true]
    exact .fn f τs σ he
  | call e es =>
    simp only [HasTy] at he
    obtain ⟨τs, h1, h2⟩ := he
    simp only [eval]
    exact (ih.expr hρ h1).bind fun v _ hv => (ih.exprs hρ h2).bind fun vs _ hvs => ih.app hv hvs
  | cons c es =>
    simp only [HasTy] at he
    rcases he with ⟨rfl, hc⟩ | ⟨hne, τs, hc, hes⟩
    · obtain ⟨i, k, args, h1, h2, h3, h4⟩ := h.ctor hc
      rcases h4 with ⟨rfl, rfl⟩ | ⟨hk, τs, hl, rfl⟩
      · simp only [eval, h1]
        exact .unit c _ hc (fun _ _ => named_ne_fn)
      · cases k with
        | zero => exact absurd rfl hk
        | succ k =>
          simp only [eval, h1]
          exact .con c _ _ hc
    · cases es with
      | nil => exact absurd rfl hne
      | cons e es =>
        simp only [eval]
        exact (ih.exprs hρ hes).bind fun vs _ hvs => ih.app (.con c τs τ hc) hvs
  | meth r m es =>
    simp only [HasTy] at he
    obtain ⟨σ, f, τs, h1, h2, h3, h4⟩ := he
    simp only [eval]
    refine (ih.expr hρ h1).bind fun v _ hv => (ih.exprs hρ h4).bind fun vs _ hvs => ?_
    have h2 : select P.methods m (tag σ) = some f := h2
    simp only [vtag_ty h hv, h2]
    exact ih.app (.fn f _ _ h3) (.cons hv hvs)
  | bin b l r =>
    simp only [HasTy] at he
    obtain ⟨rfl, h1, h2⟩ := he
    simp only [eval]
    refine (ih.expr hρ h1).bind fun v _ hv => ?_
    obtain ⟨b', rfl⟩ := vty_bool h hv
    dsimp only
    split
    · refine (ih.expr hρ h2).bind fun w _ hw => ?_
      obtain ⟨b'', rfl⟩ := vty_bool h hw
      exact hw
    · exact hv
  | block st v =>
    simp only [HasTy] at he
    simp only [eval]
    exact (ih.stmts hρ he).bind fun ρ' _ ⟨Γ', h1, h2⟩ => ih.expr h1 h2
  | case s arms =>
    simp only [HasTy] at he
    obtain ⟨σ, h1, h2⟩ := he
    simp only [eval]
    exact (ih.expr hρ h1).bind fun v _ hv => ih.arms hρ hv h2
  | lam node ps b =>
    simp only [HasTy] at he
    obtain ⟨τs, σ, rfl, h1, h2⟩ := he
    simp only [eval]
    refine .clos ρ _ b Γ τs σ (fun x σ hx => ?_) (fun x σ v hx hl => ?_) ?_ h2
    · obtain ⟨v, hv, _⟩ := hρ x σ hx
      exact ⟨v, hv⟩
    · obtain ⟨w, hw, hv⟩ := hρ x σ hx
      rw [hl] at hw
      cases hw
      exact hv
    · have := List.Forall₂.length_eq h1
      simpa using this
  | tuple es =>
    simp only [HasTy] at he
    obtain ⟨τs, rfl, h1⟩ := he
    simp only [eval]
    exact (ih.exprs hρ h1).bind fun vs _ hvs => .tuple vs τs (vtys_length hvs) (vtys_get hvs)
  | list es =>
    simp only [HasTy] at he
    obtain ⟨el, rfl, h1⟩ := he
    simp only [eval]
    refine (ih.exprs hρ h1).bind fun vs _ hvs => .list vs el fun v hv => ?_
    obtain ⟨i, hi⟩ := List.mem_iff_getElem?.1 hv
    have hlt := (List.getElem?_eq_some_iff.1 hi).1
    have hl := vtys_length hvs
    simp only [List.length_map] at hl
    exact vtys_get hvs i v el hi (by rw [List.getElem?_map, List.getElem?_eq_getElem (show i < es.length by omega)]; rfl)

theorem exprs_step {n : Nat} (ih : SafeAt P ss X n) {es : List E} {ρ : VEnv} {Γ : TEnv} {τs : List S}
    (hρ : EnvTy (P.sig ss) ρ Γ) (he : HasTyL (P.sig ss) es Γ τs) :
    (evalL P X (n + 1) ρ es).Safe (fun vs => VTys (P.sig ss) vs τs) := by
  cases es with
  | nil =>
    simp only [HasTyL] at he
    subst he
    simp only [evalL]
    exact .nil
  | cons e es =>
    simp only [HasTyL] at he
    obtain ⟨τ, τs', rfl, h1, h2⟩ := he
    simp only [evalL]
    exact (ih.expr hρ h1).bind fun v _ hv => (ih.exprs hρ h2).bind fun vs _ hvs => .cons hv hvs

theorem stmts_step {n : Nat} (ih : SafeAt P ss X n) {st : List Stmt} {ρ : VEnv} {Γ : TEnv} {Q : TEnv → Prop}
    (hρ : EnvTy (P.sig ss) ρ Γ) (he : Stmts (P.sig ss) st Γ Q) :
    (evalSS P X (n + 1) ρ st).Safe (SSafe (P.sig ss) Q) := by
  cases st with
  | nil =>
    simp only [Stmts] at he
    simp only [evalSS]
    exact ⟨Γ, hρ, he⟩
  | cons s st =>
    cases s with
    | expr e =>
      simp only [Stmts] at he
      obtain ⟨⟨τ, h1⟩, h2⟩ := he
      simp only [evalSS]
      exact (ih.expr hρ h1).bind fun _ _ _ => ih.stmts hρ h2
    | bind x ann e =>
      cases x with
      | none =>
        simp only [Stmts] at he
        obtain ⟨⟨τ, h1, _⟩, h2⟩ := he
        simp only [evalSS]
        exact (ih.expr hρ h1).bind fun _ _ _ => ih.stmts hρ h2
      | some x =>
        simp only [Stmts] at he
        obtain ⟨T, ⟨τ, hτ⟩, h1, h2⟩ := he
        simp only [evalSS]
        refine (ih.expr hρ (h1 τ hτ).1).bind fun v hv _ => ih.stmts (hρ.set fun σ hσ => ?_) h2
        have := ih.expr hρ (h1 σ hσ).1
        rw [hv] at this
        exact this

theorem arms_step (h : Ready P ss X) {n : Nat} (ih : SafeAt P ss X n) {v : Val} {arms : List Arm} {ρ : VEnv}
    {Γ : TEnv} {σ τ : S} (hρ : EnvTy (P.sig ss) ρ Γ) (hv : VTy (P.sig ss) v σ)
    (he : ArmsTy (P.sig ss) arms Γ σ τ) :
    (evalArms P X (n + 1) ρ v arms).Safe (fun v => VTy (P.sig ss) v τ) := by
  cases arms with
  | nil => simp only [evalArms]; trivial
  | cons a arms =>
    obtain ⟨p, b⟩ := a
    simp only [ArmsTy] at he
    obtain ⟨⟨bs, h1, h2⟩, h3⟩ := he
    simp only [evalArms]
    refine (pmatch_safe h p h1 hv).bind fun o _ ho => ?_
    cases o with
    | none => exact ih.arms hρ hv h3
    | some b => exact ih.expr (hρ.bind ho) h2

theorem envTy_empty {D : Sig} : EnvTy D [] TEnv.empty := fun _ _ h => h.elim

theorem app_step (h : Ready P ss X) {n : Nat} (ih : SafeAt P ss X n) {v : Val} {vs : List Val} {τs : List S}
    {τ : S} (hv : VTy (P.sig ss) v (.fn τs τ)) (hvs : VTys (P.sig ss) vs τs) :
    (applyV P X (n + 1) v vs).Safe (fun v => VTy (P.sig ss) v τ) := by
  rcases vty_fn h hv rfl with ⟨c, rfl, hc⟩ | ⟨f, rfl, hf⟩ | ⟨ρ, ps, b, Γ, rfl, h1, h2, h3, h4⟩
  · obtain ⟨i, k, args, h1, h2, h3, h4⟩ := h.ctor hc
    rcases h4 with ⟨rfl, h4⟩ | ⟨hk, τs', hl, h4⟩
    · exact absurd h4.symm named_ne_fn
    · obtain ⟨rfl, h5⟩ := sfn_inj h4
      have hlen := vtys_length hvs
      have : vs.length = k ∧ k ≠ 0 := ⟨by omega, hk⟩
      simp only [applyV, h1]
      rw [if_pos this]
      refine VTy.data c vs τs τ hc ?_ hlen (vtys_get hvs)
      rintro rfl
      exact hk (by simpa using this.1.symm)
  · obtain ⟨d, τs', σ, h1, h2, h3, h4, h5⟩ := h.fn hf
    obtain ⟨rfl, rfl⟩ := sfn_inj h4
    have hlen := vtys_length hvs
    have hl : d.params.length = vs.length := by omega
    simp only [applyV, h1, hl, if_true]
    cases hb : d.body with
    | none =>
      dsimp only
      cases hx : X f vs with
      | none => trivial
      | some v => exact h.ext f d h1 hb _ _ vs v h2 hvs hx
    | some b =>
      obtain ⟨τs', σ, h6, _, h7⟩ := h3 b hb
      obtain ⟨rfl, rfl⟩ := sfn_inj h6
      exact ih.expr (envTy_empty.bind (bindTy_zip hvs)) h7
  · have hlen := vtys_length hvs
    have hl : ps.length = vs.length := by omega
    simp only [applyV, hl, if_true]
    have hρ : EnvTy (P.sig ss) ρ Γ := fun x σ hx => by
      obtain ⟨v, hv⟩ := h1 x σ hx
      exact ⟨v, hv, h2 x σ v hx hv⟩
    exact ih.expr (hρ.bind (bindTy_zip hvs)) h4

theorem safe_all (h : Ready P ss X) : ∀ n, SafeAt P ss X n
  | 0 => by
    constructor <;> intros <;> simp only [eval, evalL, evalSS, evalArms, applyV] <;> trivial
  | n + 1 =>
    ⟨expr_step h (safe_all h n), exprs_step (safe_all h n), stmts_step (safe_all h n),
      arms_step h (safe_all h n), app_step h (safe_all h n)⟩

end Verif.Run
