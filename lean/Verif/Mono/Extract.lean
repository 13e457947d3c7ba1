import Verif.Mono.Spec
import Verif.Scheme.Proofs

/-!
# Type arguments found by matching: lemmas
-/

namespace Verif.Mono
open Verif.Types Verif.Solver

theorem substB_noBound {ts : List Ty} (t : Ty) (h : Scheme.NoBound t) : Scheme.substB ts t = .ok t := by
  induction t using Ty.ind with
  | hu v => rfl
  | hn hd ks es r ihk ihe =>
    simp only [Scheme.NoBound, Scheme.noBoundL_iff, Scheme.noBoundE_iff] at h
    have same : ∀ {ks : List Ty}, (∀ k ∈ ks, Scheme.substB ts k = .ok k) →
        List.Forall₂ (fun a b => Scheme.substB ts a = .ok b) ks ks := by
      intro ks hk
      induction ks with
      | nil => exact .nil
      | cons k ks ih => exact .cons (hk k (.head _)) (ih (fun k hm => hk k (.tail _ hm)))
    refine Scheme.substB_node h.1 (same (fun k hk => ihk k hk (h.2.1 k hk))) ?_
    have he : ∀ e ∈ es, ∀ a ∈ e.args, Scheme.substB ts a = .ok a :=
      fun e hm a ha => ihe e hm a ha (h.2.2 e hm a ha)
    clear ihk ihe h
    induction es with
    | nil => exact .nil
    | cons e es ih => exact .cons ⟨rfl, same (he e (.head _))⟩ (ih (fun e hm => he e (.tail _ hm)))

/-- Arguments already found stay. -/
def Ext (a b : List (Option Ty)) : Prop :=
  b.length = a.length ∧ ∀ (i : Nat) (t : Ty), a[i]? = some (some t) → b[i]? = some (some t)

/-- The arguments found so far are those of `ts`. -/
def Agree (a : List (Option Ty)) (ts : List Ty) : Prop :=
  ∀ (i : Nat) (t : Ty), a[i]? = some (some t) → ts[i]? = some t

theorem Ext.refl (a : List (Option Ty)) : Ext a a := ⟨rfl, fun _ _ h => h⟩

theorem Ext.trans {a b c : List (Option Ty)} (h : Ext a b) (h' : Ext b c) : Ext a c :=
  ⟨h'.1.trans h.1, fun i t e => h'.2 i t (h.2 i t e)⟩

theorem Agree.of_ext {a b : List (Option Ty)} {ts : List Ty} (h : Ext a b) (h' : Agree b ts) : Agree a ts :=
  fun i t e => h' i t (h.2 i t e)

/-- What the matching of one type establishes. -/
def SoundAt (s : Ty) : Prop := ∀ c a b, Scheme.NoBound c → extractR s c a = some b →
  Ext a b ∧ ∀ ts, Agree b ts → InstOf ts s c

theorem extractL_sound {ss cs : List Ty} {a b : List (Option Ty)} (hi : ∀ s ∈ ss, SoundAt s)
    (hb : ∀ c ∈ cs, Scheme.NoBound c) (hl : ss.length = cs.length) (h : extractL ss cs a = some b) :
    Ext a b ∧ ∀ ts, Agree b ts → InstOfL ts ss cs := by
  induction ss generalizing cs a with
  | nil =>
    cases cs with
    | nil => simp [extractL] at h; subst h; exact ⟨.refl _, fun ts _ => by simp [InstOfL]⟩
    | cons c cs => simp at hl
  | cons s ss ih =>
    cases cs with
    | nil => simp at hl
    | cons c cs =>
      rw [extractL] at h
      split at h
      · simp at h
      · rename_i a' ha
        obtain ⟨e1, e2⟩ := hi s (.head _) c a a' (hb c (.head _)) ha
        obtain ⟨f1, f2⟩ := ih (fun s hs => hi s (.tail _ hs)) (fun c hc => hb c (.tail _ hc)) (by simpa using hl) h
        exact ⟨e1.trans f1, fun ts hts => ⟨c, cs, rfl, e2 ts (.of_ext f1 hts), f2 ts hts⟩⟩

theorem extractR_sound (s : Ty) : SoundAt s := by
  induction s using Ty.ind with
  | hu v =>
    intro c a b _ h
    rw [extractR] at h
    split at h
    · rename_i e
      simp only [Option.some.injEq] at h
      subst h
      exact ⟨.refl _, fun ts _ => by rw [InstOf]; exact e⟩
    · simp at h
  | hn hd ks es r ihk _ =>
    intro c a b hb h
    by_cases hbd : ∃ i, hd = .bound i
    · obtain ⟨i, rfl⟩ := hbd
      simp only [extractR] at h
      cases hai : a[i]? with
      | none => rw [hai] at h; simp at h
      | some o =>
        rw [hai] at h
        cases o with
        | none =>
          simp only [Option.some.injEq] at h
          subst h
          have hlt : i < a.length := (List.getElem?_eq_some_iff.mp hai).1
          refine ⟨⟨by simp, fun j t hj => ?_⟩, fun ts hts => ?_⟩
          · by_cases hij : i = j
            · subst hij; rw [hai] at hj; simp at hj
            · rw [List.getElem?_set_ne hij]; exact hj
          · simp only [InstOf]
            exact hts i c (List.getElem?_set_self hlt)
        | some t =>
          simp only at h
          split at h
          · rename_i e
            simp only [Option.some.injEq] at h
            subst h; subst e
            exact ⟨.refl _, fun ts hts => by simp only [InstOf]; exact hts i t hai⟩
          · simp at h
    · have main : ∀ h' ks' es' r', c = .node h' ks' es' r' →
          (if ownArm hd h' then
            if descends hd h' ∧ ks.length = ks'.length then extractL ks ks' a else none
          else if (.node hd ks es r : Ty) = .node h' ks' es' r' then some a else none) = some b →
          Ext a b ∧ ∀ ts, Agree b ts → InstOf ts (.node hd ks es r) c := by
        intro h' ks' es' r' hc h2
        clear h
        rename _ = some b => h
        subst hc
        have hbk : ∀ k ∈ ks', Scheme.NoBound k := (Scheme.noBoundL_iff _).mp hb.2.1
        by_cases ho : ownArm hd h' = true
        · rw [if_pos ho] at h
          split at h
          · rename_i hdl
            obtain ⟨e1, e2⟩ := extractL_sound ihk hbk hdl.2 h
            refine ⟨e1, fun ts hts => ?_⟩
            have := e2 ts hts
            have hde := hdl.1
            cases hd <;> cases h' <;> simp only [descends, Bool.false_eq_true, beq_iff_eq] at hde <;>
              simp only [InstOf]
            · subst hde; exact ⟨_, _, _, _, rfl, this⟩
            · exact ⟨_, _, _, _, rfl, this⟩
            · exact ⟨_, _, _, rfl, this⟩
          · simp at h
        · rw [if_neg ho] at h
          split at h
          · rename_i e
            simp only [Option.some.injEq] at h
            subst h
            refine ⟨.refl _, fun ts _ => ?_⟩
            have := substB_noBound (ts := ts) _ hb
            rw [← e] at this ⊢
            have he : hd = h' := by injection e
            subst he
            cases hd <;> simp only [ownArm, not_true_eq_false] at ho <;> first
              | exact absurd ⟨_, rfl⟩ hbd
              | (simp only [InstOf]; exact this)
          · simp at h
      cases c with
      | uni v => cases hd <;> first | exact absurd ⟨_, rfl⟩ hbd | simp [extractR] at h
      | node h' ks' es' r' =>
        refine main h' ks' es' r' rfl ?_
        rw [← h]
        cases hd <;> first | exact absurd ⟨_, rfl⟩ hbd | simp only [extractR]

theorem allSome_eq {l : List (Option Ty)} {ts : List Ty} (h : allSome l = some ts) : l = ts.map some := by
  induction l generalizing ts with
  | nil => simp [allSome] at h; subst h; rfl
  | cons o l ih =>
    cases o with
    | none => simp [allSome] at h
    | some t =>
      simp only [allSome, Option.map_eq_some_iff] at h
      obtain ⟨us, hu, rfl⟩ := h
      simp [ih hu]

theorem allSome_map (ts : List Ty) : allSome (ts.map some) = some ts := by
  induction ts with
  | nil => rfl
  | cons t ts ih => simp [allSome, ih]

/-- What the matching of an instance achieves. -/
def CompleteAt (s : Ty) : Prop := ∀ ts c a, WF s → Plain s → InstOf ts s c → Agree a ts →
  a.length = ts.length →
  ∃ b, extractR s c a = some b ∧ Ext a b ∧ Agree b ts ∧ ∀ i, Shows i s → ∃ t, b[i]? = some (some t)

theorem plainL_iff {l : List Ty} : PlainL l ↔ ∀ t ∈ l, Plain t := by
  induction l with
  | nil => simp [PlainL]
  | cons t l ih => simp [PlainL, ih]

theorem wfl_mem {ts : List Ty} : WFL ts ↔ ∀ t ∈ ts, WF t := by
  induction ts with
  | nil => simp [WFL]
  | cons t ts ih => simp [WFL, ih]

theorem instL_length {ts ss cs : List Ty} (h : InstOfL ts ss cs) : ss.length = cs.length := by
  induction ss generalizing cs with
  | nil => simp [InstOfL] at h; simp [h]
  | cons s ss ih =>
    obtain ⟨c, cs', rfl, _, h2⟩ := h
    simp [ih h2]

theorem extractL_complete {ss cs ts : List Ty} {a : List (Option Ty)} (hi : ∀ s ∈ ss, CompleteAt s)
    (hw : ∀ s ∈ ss, WF s) (hp : ∀ s ∈ ss, Plain s) (h : InstOfL ts ss cs) (ha : Agree a ts)
    (hl : a.length = ts.length) :
    ∃ b, extractL ss cs a = some b ∧ Ext a b ∧ Agree b ts ∧ ∀ i, ShowsL i ss → ∃ t, b[i]? = some (some t) := by
  induction ss generalizing cs a with
  | nil => exact ⟨a, by simp [extractL], .refl _, ha, fun i hi => by simp [ShowsL] at hi⟩
  | cons s ss ih =>
    obtain ⟨c, cs', rfl, h1, h2⟩ := h
    obtain ⟨a', e1, e2, e3, e4⟩ := hi s (.head _) ts c a (hw s (.head _)) (hp s (.head _)) h1 ha hl
    obtain ⟨b, f1, f2, f3, f4⟩ := ih (fun s hs => hi s (.tail _ hs)) (fun s hs => hw s (.tail _ hs))
      (fun s hs => hp s (.tail _ hs)) h2 e3 (e2.1.trans hl)
    refine ⟨b, by rw [extractL, e1]; exact f1, e2.trans f2, f3, fun i hs => ?_⟩
    rcases hs with hs | hs
    · obtain ⟨t, ht⟩ := e4 i hs
      exact ⟨t, f2.2 i t ht⟩
    · exact f4 i hs

theorem extractR_complete (s : Ty) : CompleteAt s := by
  induction s using Ty.ind with
  | hu v =>
    intro ts c a _ _ h ha hl
    simp only [InstOf] at h
    exact ⟨a, by simp [extractR, h], .refl _, ha, fun i hs => hs.elim⟩
  | hn hd ks es r ihk _ =>
    intro ts c a hw hp h ha hl
    have hwk := wfl_mem.mp hw.1
    have same : (∀ i, hd ≠ .bound i) → (∀ n m, hd ≠ .named n m) → (∀ m, hd ≠ .func m) → hd ≠ .tuple →
        Scheme.NoBound (.node hd ks es r) → Scheme.substB ts (.node hd ks es r) = .ok c →
        (∀ i, ¬ Shows i (.node hd ks es r)) →
        ∃ b, extractR (.node hd ks es r) c a = some b ∧ Ext a b ∧ Agree b ts ∧
          ∀ i, Shows i (.node hd ks es r) → ∃ t, b[i]? = some (some t) := by
      intro h1 h2 h3 h4 hb hs hn
      rw [substB_noBound _ hb] at hs
      injection hs with hs
      subst hs
      refine ⟨a, ?_, .refl _, ha, fun i hi => (hn i hi).elim⟩
      cases hd <;> first
        | exact absurd rfl (h1 _)
        | exact absurd rfl (h2 _ _)
        | exact absurd rfl (h3 _)
        | exact absurd rfl h4
        | simp [extractR, ownArm]
    cases hd with
    | bound i =>
      simp only [InstOf] at h
      have hlt : i < a.length := by rw [hl]; exact (List.getElem?_eq_some_iff.mp h).1
      cases hai : a[i]? with
      | none => exact absurd (List.getElem?_eq_none_iff.mp hai) (by omega)
      | some o =>
        cases o with
        | none =>
          refine ⟨a.set i (some c), by simp only [extractR, hai], ⟨by simp, fun j t hj => ?_⟩, fun j t hj => ?_,
            fun j hj => ?_⟩
          · by_cases hij : i = j
            · subst hij; rw [hai] at hj; simp at hj
            · rw [List.getElem?_set_ne hij]; exact hj
          · by_cases hij : i = j
            · subst hij
              rw [List.getElem?_set_self hlt] at hj
              simp only [Option.some.injEq] at hj
              rw [← hj]; exact h
            · rw [List.getElem?_set_ne hij] at hj; exact ha j t hj
          · simp only [Shows] at hj
            subst hj
            exact ⟨c, List.getElem?_set_self hlt⟩
        | some t =>
          have := ha i t hai
          rw [h] at this
          injection this with this
          subst this
          refine ⟨a, by simp [extractR, hai], .refl _, ha, fun j hj => ?_⟩
          simp only [Shows] at hj
          subst hj
          exact ⟨c, hai⟩
    | func m =>
      simp only [InstOf] at h
      obtain ⟨m', ks', es', r', rfl, h⟩ := h
      obtain ⟨b, e1, e2, e3, e4⟩ := extractL_complete ihk hwk (plainL_iff.mp hp) h ha hl
      exact ⟨b, by simp [extractR, ownArm, descends, instL_length h, e1], e2, e3, e4⟩
    | named i n =>
      simp only [InstOf] at h
      obtain ⟨m', ks', es', r', rfl, h⟩ := h
      obtain ⟨b, e1, e2, e3, e4⟩ := extractL_complete ihk hwk (plainL_iff.mp hp) h ha hl
      exact ⟨b, by simp [extractR, ownArm, descends, instL_length h, e1], e2, e3, e4⟩
    | tuple =>
      simp only [InstOf] at h
      obtain ⟨ks', es', r', rfl, h⟩ := h
      obtain ⟨b, e1, e2, e3, e4⟩ := extractL_complete ihk hwk (plainL_iff.mp hp) h ha hl
      exact ⟨b, by simp [extractR, ownArm, descends, instL_length h, e1], e2, e3, e4⟩
    | app =>
      simp only [InstOf] at h
      exact same (by simp) (by simp) (by simp) (by simp) ⟨by simp, hp⟩ h (fun i hi => hi)
    | cont =>
      simp only [InstOf] at h
      exact same (by simp) (by simp) (by simp) (by simp) ⟨by simp, hp⟩ h (fun i hi => hi)
    | prim p =>
      simp only [InstOf] at h
      obtain ⟨_, _, rfl, rfl, rfl⟩ := hw
      exact same (by simp) (by simp) (by simp) (by simp) ⟨by simp, by simp [Scheme.NoBoundL], by simp [Scheme.NoBoundE]⟩ h (fun i hi => hi)
    | never =>
      simp only [InstOf] at h
      obtain ⟨_, rfl, rfl, rfl⟩ := hw
      exact same (by simp) (by simp) (by simp) (by simp) ⟨by simp, by simp [Scheme.NoBoundL], by simp [Scheme.NoBoundE]⟩ h (fun i hi => hi)
    | error =>
      simp only [InstOf] at h
      obtain ⟨_, rfl, rfl, rfl⟩ := hw
      exact same (by simp) (by simp) (by simp) (by simp) ⟨by simp, by simp [Scheme.NoBoundL], by simp [Scheme.NoBoundE]⟩ h (fun i hi => hi)
    | localBound p q =>
      simp only [InstOf] at h
      obtain ⟨_, rfl, rfl, rfl⟩ := hw
      exact same (by simp) (by simp) (by simp) (by simp) ⟨by simp, by simp [Scheme.NoBoundL], by simp [Scheme.NoBoundE]⟩ h (fun i hi => hi)

theorem agree_map {ts us : List Ty} (hl : us.length = ts.length) (h : Agree (ts.map some) us) : us = ts := by
  refine List.ext_getElem? (fun i => ?_)
  by_cases hi : i < ts.length
  · have h1 : ts[i]? = some ts[i] := List.getElem?_eq_getElem hi
    rw [h1]
    exact h i ts[i] (by simp [h1])
  · rw [List.getElem?_eq_none_iff.mpr (by omega), List.getElem?_eq_none_iff.mpr (by omega)]

theorem full_agree {b : List (Option Ty)} {ts : List Ty} (hl : b.length = ts.length) (h : Agree b ts)
    (hf : ∀ i < ts.length, ∃ t, b[i]? = some (some t)) : b = ts.map some := by
  refine List.ext_getElem? (fun i => ?_)
  by_cases hi : i < ts.length
  · obtain ⟨t, ht⟩ := hf i hi
    rw [ht, List.getElem?_map, h i t ht]; rfl
  · rw [List.getElem?_eq_none_iff.mpr (by omega), List.getElem?_eq_none_iff.mpr (by simp; omega)]

theorem extract_sound {s : Scheme.PolyTy} {c : Ty} {ts : List Ty} (hb : Scheme.NoBound c)
    (h : extract s c = some ts) : ts.length = s.params ∧ s.params ≠ 0 ∧ InstOf ts s.body c := by
  rw [extract] at h
  split at h
  · simp at h
  · rename_i hp
    split at h
    · simp at h
    · rename_i b hb'
      have e := allSome_eq h
      obtain ⟨e1, e2⟩ := extractR_sound _ _ _ _ hb hb'
      have hl : ts.length = s.params := by
        have := e1.1
        rw [e] at this
        simpa using this
      refine ⟨hl, hp, e2 ts (fun i t hi => ?_)⟩
      rw [e, List.getElem?_map] at hi
      cases hti : ts[i]? with
      | none => rw [hti] at hi; simp at hi
      | some u => rw [hti] at hi; simpa using hi

theorem extract_complete {s : Scheme.PolyTy} {c : Ty} {ts : List Ty} (hw : WF s.body) (hp : Plain s.body)
    (hl : ts.length = s.params) (h0 : s.params ≠ 0) (hs : ∀ i < s.params, Shows i s.body)
    (h : InstOf ts s.body c) : extract s c = some ts := by
  have ha : Agree (List.replicate s.params none) ts := by
    intro i t hi
    rw [List.getElem?_replicate] at hi
    split at hi <;> simp at hi
  obtain ⟨b, e1, e2, e3, e4⟩ := extractR_complete s.body ts c _ hw hp h ha (by simp [hl])
  have hbl : b.length = ts.length := by rw [e2.1]; simp [hl]
  have := full_agree hbl e3 (fun i hi => e4 i (hs i (hl ▸ hi)))
  rw [extract, if_neg h0, e1]
  simp only [this, allSome_map]

end Verif.Mono
