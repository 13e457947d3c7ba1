import Verif.Mono.Extract
import Verif.Instances.Spec
import Mathlib.Tactic.Tauto
import Mathlib.Data.List.Forall2

/-!
# Matching a scheme against a type that may mention type parameters
-/

namespace Verif.Instances
open Verif.Types Verif.Mono Verif.Solver

/-- `SoundAt` without a condition on the matched type, for the schemes of functions. -/
def SoundAt2 (s : Ty) : Prop := ∀ c a b, extractR s c a = some b →
  Ext a b ∧ (WF s → Plain s → ∀ ts, Agree b ts → InstOf ts s c)

theorem extractL_sound2 {ss cs : List Ty} {a b : List (Option Ty)} (hi : ∀ s ∈ ss, SoundAt2 s)
    (hl : ss.length = cs.length) (h : extractL ss cs a = some b) :
    Ext a b ∧ ((∀ s ∈ ss, WF s) → (∀ s ∈ ss, Plain s) → ∀ ts, Agree b ts → InstOfL ts ss cs) := by
  induction ss generalizing cs a with
  | nil =>
    cases cs with
    | nil => simp [extractL] at h; subst h; exact ⟨.refl _, fun _ _ ts _ => by simp [InstOfL]⟩
    | cons c cs => simp at hl
  | cons s ss ih =>
    cases cs with
    | nil => simp at hl
    | cons c cs =>
      rw [extractL] at h
      split at h
      · simp at h
      · rename_i a' ha
        obtain ⟨e1, e2⟩ := hi s (.head _) c a a' ha
        obtain ⟨f1, f2⟩ := ih (fun s hs => hi s (.tail _ hs)) (by simpa using hl) h
        exact ⟨e1.trans f1, fun hw hp ts hts => ⟨c, cs, rfl,
          e2 (hw s (.head _)) (hp s (.head _)) ts (.of_ext f1 hts),
          f2 (fun s hs => hw s (.tail _ hs)) (fun s hs => hp s (.tail _ hs)) ts hts⟩⟩

theorem rigid_noBound {hd : Head} {ks : List Ty} {es : List Eff} {r : Option Nat}
    (hw : WF (.node hd ks es r)) (hp : Plain (.node hd ks es r)) (hb : ¬∃ i, hd = .bound i)
    (ho : ownArm hd hd ≠ true) : Scheme.NoBound (.node hd ks es r) := by
  cases hd <;> simp only [WF, Plain] at hw hp <;> first
    | exact absurd ⟨_, rfl⟩ hb
    | exact absurd rfl ho
    | (obtain ⟨_, h⟩ := hw; simp_all [Scheme.NoBound, Scheme.NoBoundL, Scheme.NoBoundE])

theorem extractR_sound2 (s : Ty) : SoundAt2 s := by
  induction s using Ty.ind with
  | hu v =>
    intro c a b h
    rw [extractR] at h
    split at h
    · rename_i e
      simp only [Option.some.injEq] at h
      subst h
      exact ⟨.refl _, fun _ _ ts _ => by rw [InstOf]; exact e⟩
    · simp at h
  | hn hd ks es r ihk _ =>
    intro c a b h
    by_cases hbd : ∃ i, hd = .bound i
    · obtain ⟨i, rfl⟩ := hbd
      simp only [extractR] at h
      cases hai : a[i]? with
      | none => rw [hai] at h; simp at h
      | some o =>
        rw [hai] at h
        cases o with
        | none =>
          simp only [Option.some.injEq] at h
          subst h
          have hlt : i < a.length := (List.getElem?_eq_some_iff.mp hai).1
          refine ⟨⟨by simp, fun j t hj => ?_⟩, fun _ _ ts hts => ?_⟩
          · by_cases hij : i = j
            · subst hij; rw [hai] at hj; simp at hj
            · rw [List.getElem?_set_ne hij]; exact hj
          · simp only [InstOf]
            exact hts i c (List.getElem?_set_self hlt)
        | some t =>
          simp only at h
          split at h
          · rename_i e
            simp only [Option.some.injEq] at h
            subst h; subst e
            exact ⟨.refl _, fun _ _ ts hts => by simp only [InstOf]; exact hts i t hai⟩
          · simp at h
    · have main : ∀ h' ks' es' r', c = .node h' ks' es' r' →
          (if ownArm hd h' then
            if descends hd h' ∧ ks.length = ks'.length then extractL ks ks' a else none
          else if (.node hd ks es r : Ty) = .node h' ks' es' r' then some a else none) = some b →
          Ext a b ∧ (WF (.node hd ks es r) → Plain (.node hd ks es r) →
            ∀ ts, Agree b ts → InstOf ts (.node hd ks es r) c) := by
        intro h' ks' es' r' hc h2
        clear h
        rename _ = some b => h
        subst hc
        by_cases ho : ownArm hd h' = true
        · rw [if_pos ho] at h
          split at h
          · rename_i hdl
            obtain ⟨e1, e2⟩ := extractL_sound2 ihk hdl.2 h
            refine ⟨e1, fun hw hp ts hts => ?_⟩
            have hpl : ∀ s ∈ ks, Plain s := by
              have hde := hdl.1
              rw [← plainL_iff]
              cases hd <;> cases h' <;> simp only [descends, Bool.false_eq_true] at hde <;>
                simpa [Plain] using hp
            have hwl : ∀ s ∈ ks, WF s := wfl_mem.mp (by simp only [WF] at hw; exact hw.1)
            have := e2 hwl hpl ts hts
            have hde := hdl.1
            cases hd <;> cases h' <;> simp only [descends, Bool.false_eq_true, beq_iff_eq] at hde <;>
              simp only [InstOf]
            · subst hde; exact ⟨_, _, _, _, rfl, this⟩
            · exact ⟨_, _, _, _, rfl, this⟩
            · exact ⟨_, _, _, rfl, this⟩
          · simp at h
        · rw [if_neg ho] at h
          split at h
          · rename_i e
            simp only [Option.some.injEq] at h
            subst h
            refine ⟨.refl _, fun hw hp ts _ => ?_⟩
            have he : hd = h' := by injection e
            subst he
            have := substB_noBound (ts := ts) _ (rigid_noBound hw hp hbd ho)
            rw [← e]
            cases hd <;> simp only [ownArm, not_true_eq_false] at ho <;> first
              | exact absurd ⟨_, rfl⟩ hbd
              | (simp only [InstOf]; exact this)
          · simp at h
      cases c with
      | uni v => cases hd <;> first | exact absurd ⟨_, rfl⟩ hbd | simp [extractR] at h
      | node h' ks' es' r' =>
        refine main h' ks' es' r' rfl ?_
        rw [← h]
        cases hd <;> first | exact absurd ⟨_, rfl⟩ hbd | simp only [extractR]

theorem extract_length {s : Scheme.PolyTy} {c : Ty} {ts : List Ty} (h : extract s c = some ts) :
    ts.length = s.params ∧ s.params ≠ 0 := by
  rw [extract] at h
  split at h
  · simp at h
  · rename_i hp
    split at h
    · simp at h
    · rename_i b hb
      have e := allSome_eq h
      have e1 := (extractR_sound2 _ _ _ _ hb).1.1
      rw [e] at e1
      exact ⟨by simpa using e1, hp⟩

theorem extract_sound2 {s : Scheme.PolyTy} {c : Ty} {ts : List Ty} (hw : WF s.body) (hp : Plain s.body)
    (h : extract s c = some ts) : InstOf ts s.body c := by
  rw [extract] at h
  split at h
  · simp at h
  · split at h
    · simp at h
    · rename_i b hb
      have e := allSome_eq h
      refine (extractR_sound2 _ _ _ _ hb).2 hw hp ts (fun i t hi => ?_)
      rw [e, List.getElem?_map] at hi
      cases hti : ts[i]? with
      | none => rw [hti] at hi; simp at hi
      | some u => rw [hti] at hi; simpa using hi

theorem formedL_iff (ts : List Ty) : FormedL ts ↔ ∀ t ∈ ts, Formed t := by
  induction ts with
  | nil => simp [FormedL]
  | cons t ts ih => simp [FormedL, ih]

theorem formedE_iff (es : List Eff) : FormedE es ↔ ∀ e ∈ es, ∀ a ∈ e.args, Formed a := by
  induction es with
  | nil => simp [FormedE]
  | cons e es ih => cases e; simp [FormedE, FormedEff, formedL_iff, Eff.args, ih]

theorem concreteL_mem {ts : List Ty} : concreteL ts = true ↔ ∀ t ∈ ts, concrete t = true := by
  induction ts with
  | nil => simp [concreteL]
  | cons t ts ih => simp [concreteL, ih]

theorem concreteE_mem {es : List Eff} : concreteE es = true ↔ ∀ e ∈ es, ∀ a ∈ e.args, concrete a = true := by
  induction es with
  | nil => simp [concreteE]
  | cons e es ih => cases e; simp [concreteE, concreteEff, concreteL_mem, Eff.args, ih]

/-- A concrete type mentions no type parameter. -/
theorem concrete_noBound (t : Ty) : Formed t → concrete t = true → Scheme.NoBound t := by
  induction t using Ty.ind with
  | hu v => intro _ h; simp [concrete] at h
  | hn hd ks es r ihk ihe =>
    intro hf hc
    simp only [Formed, formedL_iff, formedE_iff] at hf
    obtain ⟨h1, h2, h3⟩ := hf
    simp only [Scheme.NoBound, Scheme.noBoundL_iff, Scheme.noBoundE_iff]
    have hk : concreteL ks = true → ∀ k ∈ ks, Scheme.NoBound k := fun h k hm =>
      ihk k hm (h2 k hm) (concreteL_mem.mp h k hm)
    have he : concreteE es = true → ∀ e ∈ es, ∀ a ∈ e.args, Scheme.NoBound a := fun h e hm a ha =>
      ihe e hm a ha (h3 e hm a ha) (concreteE_mem.mp h e hm a ha)
    cases hd <;> simp only [concrete, Bool.false_eq_true, Bool.and_eq_true] at hc <;> simp only [Shaped] at h1
    case prim => simp [h1.1, h1.2]
    case never => simp [h1.1, h1.2]
    case named => subst h1; exact ⟨by simp, hk hc, by simp⟩
    case tuple => subst h1; exact ⟨by simp, hk hc, by simp⟩
    case func => exact ⟨by simp, hk hc.1.1, he hc.2⟩
    case cont => exact ⟨by simp, hk hc.1.1, he hc.2⟩

theorem substBL_inv {ts : List Ty} {l l' : List Ty} (h : Scheme.substBL ts l = .ok l') :
    List.Forall₂ (fun a b => Scheme.substB ts a = .ok b) l l' := by
  induction l generalizing l' with
  | nil => simp only [Scheme.substBL, Except.ok.injEq] at h; subst h; exact .nil
  | cons t l ih =>
    simp only [Scheme.substBL] at h
    split at h
    · simp at h
    · rename_i t' ht
      split at h
      · simp at h
      · rename_i l2 hl
        simp only [Except.ok.injEq] at h
        subst h
        exact .cons ht (ih hl)

theorem substE_inv {ts : List Ty} {l l' : List Eff} (h : Scheme.substE ts l = .ok l') :
    List.Forall₂ (fun e e' => e.ability = e'.ability ∧
      List.Forall₂ (fun a b => Scheme.substB ts a = .ok b) e.args e'.args) l l' := by
  induction l generalizing l' with
  | nil => simp only [Scheme.substE, Except.ok.injEq] at h; subst h; exact .nil
  | cons t l ih =>
    simp only [Scheme.substE] at h
    split at h
    · simp at h
    · rename_i t' ht
      split at h
      · simp at h
      · rename_i l2 hl
        simp only [Except.ok.injEq] at h
        subst h
        refine .cons ?_ (ih hl)
        cases t with
        | mk a as =>
          simp only [Scheme.substEff] at ht
          split at ht
          · simp at ht
          · rename_i as' ha
            simp only [Except.ok.injEq] at ht
            subst ht
            exact ⟨rfl, substBL_inv ha⟩

/-- What a substitution makes of a type that is not a variable. -/
theorem substB_inv {ts : List Ty} {hd : Head} {ks : List Ty} {es : List Eff} {r : Option Nat} {c : Ty}
    (hb : ∀ i, hd ≠ .bound i) (h : Scheme.substB ts (.node hd ks es r) = .ok c) :
    ∃ ks' es', c = .node hd ks' es' r ∧ List.Forall₂ (fun a b => Scheme.substB ts a = .ok b) ks ks' ∧
      List.Forall₂ (fun e e' => e.ability = e'.ability ∧
        List.Forall₂ (fun a b => Scheme.substB ts a = .ok b) e.args e'.args) es es' := by
  have main : (match Scheme.substBL ts ks with
      | .error e => .error e
      | .ok ks' => match Scheme.substE ts es with
        | .error _ => .error .panic
        | .ok es' => .ok (.node hd ks' es' r)) = Except.ok c := by
    rw [← h]
    cases hd <;> first | exact absurd rfl (hb _) | (simp only [Scheme.substB]; done) | rfl
  split at main
  · simp at main
  · rename_i ks' hk
    split at main
    · simp at main
    · rename_i es' he
      simp only [Except.ok.injEq] at main
      exact ⟨ks', es', main.symm, substBL_inv hk, substE_inv he⟩

theorem forall₂_right {α β : Type} {R : α → β → Prop} {l : List α} {l' : List β} (h : List.Forall₂ R l l')
    {y : β} (hy : y ∈ l') : ∃ x ∈ l, R x y := by
  induction h with
  | nil => simp at hy
  | cons hr _ ih =>
    cases List.mem_cons.mp hy with
    | inl h => subst h; exact ⟨_, .head _, hr⟩
    | inr h => obtain ⟨x, hx, hr⟩ := ih h; exact ⟨x, .tail _ hx, hr⟩

theorem shaped_of {hd : Head} {ks ks' : List Ty} {es es' : List Eff} (hk : ks = [] → ks' = [])
    (he : es = [] → es' = []) (h : Shaped hd ks es) : Shaped hd ks' es' := by
  cases hd <;> simp only [Shaped] at h ⊢ <;> tauto

theorem formed_subst {ts : List Ty} (hts : ∀ t ∈ ts, Formed t) (t : Ty) : ∀ c, Formed t →
    Scheme.substB ts t = .ok c → Formed c := by
  induction t using Ty.ind with
  | hu v => intro c _ h; simp only [Scheme.substB, Except.ok.injEq] at h; subst h; simp [Formed]
  | hn hd ks es r ihk ihe =>
    intro c hf h
    by_cases hb : ∃ i, hd = .bound i
    · obtain ⟨i, rfl⟩ := hb
      simp only [Scheme.substB] at h
      split at h
      · rename_i t ht
        simp only [Except.ok.injEq] at h
        subst h
        exact hts _ (List.mem_of_getElem? ht)
      · simp at h
    · obtain ⟨ks', es', rfl, hk, he⟩ := substB_inv (fun i hi => hb ⟨i, hi⟩) h
      simp only [Formed, formedL_iff, formedE_iff] at hf ⊢
      refine ⟨shaped_of (fun e => ?_) (fun e => ?_) hf.1, fun k' hk' => ?_, fun e' he' a' ha' => ?_⟩
      · subst e; cases hk; rfl
      · subst e; cases he; rfl
      · obtain ⟨k, hm, hs⟩ := forall₂_right hk hk'
        exact ihk k hm k' (hf.2.1 k hm) hs
      · obtain ⟨e, hm, hs⟩ := forall₂_right he he'
        obtain ⟨a, ha, hs⟩ := forall₂_right hs.2 ha'
        exact ihe e hm a ha a' (hf.2.2 e hm a ha) hs

/-- All arguments found so far are well formed. -/
def AllFormed (a : List (Option Ty)) : Prop := ∀ t, some t ∈ a → Formed t

def FormedAt (s : Ty) : Prop := ∀ c a b, Formed c → AllFormed a → extractR s c a = some b → AllFormed b

theorem extractL_formed {ss cs : List Ty} {a b : List (Option Ty)} (hi : ∀ s ∈ ss, FormedAt s)
    (hc : ∀ c ∈ cs, Formed c) (ha : AllFormed a) (h : extractL ss cs a = some b) : AllFormed b := by
  induction ss generalizing cs a with
  | nil => simp [extractL] at h; subst h; exact ha
  | cons s ss ih =>
    cases cs with
    | nil => simp [extractL] at h; subst h; exact ha
    | cons c cs =>
      rw [extractL] at h
      split at h
      · simp at h
      · rename_i a' h'
        exact ih (fun s hs => hi s (.tail _ hs)) (fun c hm => hc c (.tail _ hm))
          (hi s (.head _) c a a' (hc c (.head _)) ha h') h

theorem extractR_formed (s : Ty) : FormedAt s := by
  induction s using Ty.ind with
  | hu v =>
    intro c a b _ ha h
    rw [extractR] at h
    split at h
    · simp only [Option.some.injEq] at h; subst h; exact ha
    · simp at h
  | hn hd ks es r ihk _ =>
    intro c a b hc ha h
    by_cases hbd : ∃ i, hd = .bound i
    · obtain ⟨i, rfl⟩ := hbd
      simp only [extractR] at h
      split at h
      · simp at h
      · split at h
        · simp only [Option.some.injEq] at h; subst h; exact ha
        · simp at h
      · simp only [Option.some.injEq] at h
        subst h
        intro t ht
        cases List.mem_or_eq_of_mem_set ht with
        | inl h => exact ha t h
        | inr h => simp only [Option.some.injEq] at h; subst h; exact hc
    · cases c with
      | uni v => cases hd <;> first | exact absurd ⟨_, rfl⟩ hbd | simp [extractR] at h
      | node h' ks' es' r' =>
        have main : (if ownArm hd h' then
            if descends hd h' ∧ ks.length = ks'.length then extractL ks ks' a else none
          else if (.node hd ks es r : Ty) = .node h' ks' es' r' then some a else none) = some b := by
          rw [← h]
          cases hd <;> first | exact absurd ⟨_, rfl⟩ hbd | simp only [extractR]
        simp only [Formed, formedL_iff] at hc
        split at main
        · split at main
          · exact extractL_formed ihk hc.2.1 ha main
          · simp at main
        · split at main
          · simp only [Option.some.injEq] at main; subst main; exact ha
          · simp at main

theorem extract_formed {s : Scheme.PolyTy} {c : Ty} {ts : List Ty} (hc : Formed c)
    (h : extract s c = some ts) : ∀ t ∈ ts, Formed t := by
  rw [extract] at h
  split at h
  · simp at h
  · split at h
    · simp at h
    · rename_i b hb
      have e := allSome_eq h
      have := extractR_formed _ _ _ _ hc (fun t ht => by simp at ht) hb
      intro t ht
      exact this t (by rw [e]; exact List.mem_map.mpr ⟨t, ht, rfl⟩)

/-- Substituting in an instance at types without parameters gives another one. -/
theorem instOf_subst {ts us : List Ty} (hts : ∀ t ∈ ts, Scheme.NoBound t) (s : Ty) : WF s → Plain s →
    ∀ c c', InstOf ts s c → Scheme.substB us c = .ok c' → InstOf ts s c' := by
  induction s using Ty.ind with
  | hu v =>
    intro _ _ c c' h h'
    simp only [InstOf] at h ⊢
    subst h
    simp only [Scheme.substB, Except.ok.injEq] at h'
    exact h'.symm
  | hn hd ks es r ihk _ =>
    intro hw hp c c' h h'
    have kids : ∀ ks', (PlainL ks) → InstOfL ts ks ks' → ∀ ks'',
        List.Forall₂ (fun a b => Scheme.substB us a = .ok b) ks' ks'' → InstOfL ts ks ks'' := by
      have hwl : ∀ s ∈ ks, WF s := wfl_mem.mp (by simp only [WF] at hw; exact hw.1)
      intro ks' hpl
      rw [plainL_iff] at hpl
      clear hw hp h
      induction ks generalizing ks' with
      | nil =>
        intro h ks'' h2
        simp only [InstOfL] at h ⊢
        subst h
        cases h2
        rfl
      | cons s ss ih =>
        intro h ks'' h2
        simp only [InstOfL] at h ⊢
        obtain ⟨c, cs, rfl, h3, h4⟩ := h
        cases h2 with
        | cons h5 h6 =>
          exact ⟨_, _, rfl, ihk s (.head _) (hwl s (.head _)) (hpl s (.head _)) _ _ h3 h5,
            ih (fun k hk => ihk k (.tail _ hk)) (fun k hk => hwl k (.tail _ hk)) _ (fun k hk => hpl k (.tail _ hk)) h4 _ h6⟩
    by_cases hbd : ∃ i, hd = .bound i
    · obtain ⟨i, rfl⟩ := hbd
      simp only [InstOf] at h ⊢
      rw [substB_noBound _ (hts _ (List.mem_of_getElem? h))] at h'
      simp only [Except.ok.injEq] at h'
      rw [h, h']
    · by_cases ho : ownArm hd hd = true
      · cases hd <;> simp only [ownArm, Bool.false_eq_true] at ho
        case named =>
          simp only [InstOf, Plain] at h hp ⊢
          obtain ⟨n, ks', es', r', rfl, h⟩ := h
          obtain ⟨ks2, es2, rfl, hk, _⟩ := substB_inv (by simp) h'
          exact ⟨_, _, _, _, rfl, kids ks' hp h ks2 hk⟩
        case func =>
          simp only [InstOf, Plain] at h hp ⊢
          obtain ⟨n, ks', es', r', rfl, h⟩ := h
          obtain ⟨ks2, es2, rfl, hk, _⟩ := substB_inv (by simp) h'
          exact ⟨_, _, _, _, rfl, kids ks' hp h ks2 hk⟩
        case tuple =>
          simp only [InstOf, Plain] at h hp ⊢
          obtain ⟨ks', es', r', rfl, h⟩ := h
          obtain ⟨ks2, es2, rfl, hk, _⟩ := substB_inv (by simp) h'
          exact ⟨_, _, _, rfl, kids ks' hp h ks2 hk⟩
      · have hn := rigid_noBound hw hp hbd ho
        have e : Scheme.substB ts (.node hd ks es r) = .ok c := by
          cases hd <;> simp only [ownArm, not_true_eq_false] at ho <;> first
            | exact absurd ⟨_, rfl⟩ hbd
            | (simp only [InstOf] at h; exact h)
        rw [substB_noBound _ hn] at e
        simp only [Except.ok.injEq] at e
        subst e
        rw [substB_noBound _ hn] at h'
        simp only [Except.ok.injEq] at h'
        subst h'
        exact h

end Verif.Instances
