import Verif.PassMgr.Spec

/-! # Lemmas about the pass manager -/
namespace Verif.PassMgr

variable {X : Type}

theorem chain_append : ∀ (l₁ : List (Event X)) {l₂ : List (Event X)} {a b c : Ir X},
    Chain a l₁ b → Chain b l₂ c → Chain a (l₁ ++ l₂) c
  | [], _, a, b, c, h₁, h₂ => by
    have : a = b := h₁
    exact this ▸ h₂
  | .ran .. :: es, _, _, _, _, h₁, h₂ => ⟨h₁.1, chain_append es h₁.2 h₂⟩
  | .verified .. :: es, _, _, _, _, h₁, h₂ => ⟨h₁.1, chain_append es h₁.2 h₂⟩

theorem checked_append (force : List Nat → Option (Verifier X)) : ∀ (l₁ l₂ : List (Event X)),
    Checked force l₁ → Checked force l₂ → Checked force (l₁ ++ l₂)
  | [], _, _, h₂ => h₂
  | .ran .. :: es, l₂, h₁, h₂ => by
    refine ⟨fun hf hs v hv => ?_, checked_append force es l₂ h₁.2 h₂⟩
    obtain ⟨es', he⟩ := h₁.1 hf hs v hv
    exact ⟨es' ++ l₂, by rw [he]; rfl⟩
  | .verified .. :: es, l₂, h₁, h₂ => checked_append force es l₂ h₁ h₂

theorem runs_append : ∀ (l₁ l₂ : List (Event X)), runs (l₁ ++ l₂) = runs l₁ ++ runs l₂
  | [], _ => rfl
  | .ran .. :: es, l₂ => by simp [runs, runs_append es l₂]
  | .verified .. :: es, l₂ => by simp [runs, runs_append es l₂]

/-- How a run ends. -/
def Ends (isolated : String → Bool) (events : List (Event X)) : Option Err → Prop
  | none => ∀ e ∈ events, e.bad = none
  | some err =>
    (∃ pre last, events = pre ++ [last] ∧ (∀ e ∈ pre, e.bad = none) ∧ Tells err last)
      ∨ (∃ k, err = .notIsolated k ∧ isolated k = false ∧ ∀ e ∈ events, e.bad = none)

structure Inv (R : Prop) (isolated : String → Bool) (force : List Nat → Option (Verifier X))
    (ir : Ir X) (r : Result X) : Prop where
  honest : ∀ e ∈ r.events, Honest force e
  guarded : R → ∀ e ∈ r.events, Guarded force e
  chain : Chain ir r.events r.ir
  checked : Checked force r.events
  ends : Ends isolated r.events r.err

theorem ends_append {isolated : String → Bool} {l₁ l₂ : List (Event X)} {e : Option Err}
    (h₁ : ∀ e ∈ l₁, e.bad = none) (h₂ : Ends isolated l₂ e) : Ends isolated (l₁ ++ l₂) e := by
  cases e with
  | none =>
    intro x hx
    rcases List.mem_append.1 hx with hx | hx
    · exact h₁ x hx
    · exact h₂ x hx
  | some err =>
    rcases h₂ with ⟨pre, last, rfl, hp, ht⟩ | ⟨k, he, hk, hp⟩
    · refine .inl ⟨l₁ ++ pre, last, by simp, fun x hx => ?_, ht⟩
      rcases List.mem_append.1 hx with hx | hx
      · exact h₁ x hx
      · exact hp x hx
    · refine .inr ⟨k, he, hk, fun x hx => ?_⟩
      rcases List.mem_append.1 hx with hx | hx
      · exact h₁ x hx
      · exact hp x hx

theorem all_append {P : Event X → Prop} {l₁ l₂ : List (Event X)} (h₁ : ∀ e ∈ l₁, P e)
    (h₂ : ∀ e ∈ l₂, P e) : ∀ e ∈ l₁ ++ l₂, P e := by
  intro e he
  rcases List.mem_append.1 he with he | he
  · exact h₁ e he
  · exact h₂ e he

theorem all_cons {P : Event X → Prop} {x : Event X} {l : List (Event X)} (h₁ : P x)
    (h₂ : ∀ e ∈ l, P e) : ∀ e ∈ x :: l, P e := by
  intro e he
  rcases List.mem_cons.1 he with rfl | he
  · exact h₁
  · exact h₂ e he

theorem all_nil {P : Event X → Prop} : ∀ e ∈ ([] : List (Event X)), P e := by
  intro e he; cases he

theorem inv_andThen {R : Prop} {isolated : String → Bool} {force : List Nat → Option (Verifier X)} {ir : Ir X}
    {r : Result X} {f : Ir X → Result X} (h₁ : Inv R isolated force ir r)
    (h₂ : r.err = none → Inv R isolated force r.ir (f r.ir)) :
    Inv R isolated force ir (r.andThen f) := by
  unfold Result.andThen
  split
  · exact h₁
  · rename_i he
    have h := h₂ he
    have hends := h₁.ends
    rw [he] at hends
    exact ⟨all_append h₁.honest h.honest, fun r => all_append (h₁.guarded r) (h.guarded r),
      chain_append _ h₁.chain h.chain, checked_append _ _ _ h₁.checked h.checked,
      ends_append hends h.ends⟩

theorem inv_nil (R : Prop) (isolated : String → Bool) (force : List Nat → Option (Verifier X)) (ir : Ir X) :
    Inv R isolated force ir ⟨ir, [], none⟩ :=
  ⟨all_nil, fun _ => all_nil, rfl, trivial, all_nil⟩

theorem alive_of_survives {kind : String} {pre : Bool} {b a : Ir X} {op : Nat}
    (hk : b.kind op = kind) (hp : pre = true → b.attached op = true) (hs : Survives b a op) :
    stillAlive kind pre a op = true := by
  unfold stillAlive
  have : a.kind op = kind := hs.1.trans hk
  simp only [this, bne_self_eq_false, Bool.false_eq_true, if_false, Bool.or_eq_true,
    Bool.not_eq_true']
  cases pre with
  | false => exact .inl rfl
  | true => exact .inr (hs.2 (hp rfl))

theorem kind_of_alive {kind : String} {pre : Bool} {a : Ir X} {op : Nat}
    (h : stillAlive kind pre a op = true) :
    a.kind op = kind ∧ (pre = true → a.attached op = true) := by
  unfold stillAlive at h
  split at h
  · cases h
  · rename_i hk
    refine ⟨by simpa using hk, fun hp => ?_⟩
    subst hp
    simpa using h

theorem runPasses_inv (R : Prop) (isolated : String → Bool) (force : List Nat → Option (Verifier X))
    (path : List Nat) (kind : String) (pre : Bool) (v : Option (Verifier X)) (op : Nat)
    (hf : force path = v) (hR : R → v ≠ none) : ∀ (ps : List (Pass X)) (ir : Ir X), ir.kind op = kind →
      (pre = true → ir.attached op = true) →
      Inv R isolated force ir (runPasses path kind pre v op ps ir).1
  | [], ir, _, _ => inv_nil R isolated force ir
  | p :: ps, ir, hk, hp => by
    rw [runPasses.eq_def]
    simp only
    have hg : R → ∃ w, force path = some w := fun r => by
      cases hv : v with
      | none => exact absurd hv (hR r)
      | some w => exact ⟨w, hf.trans hv⟩
    rcases hout : p.run ir op with ⟨ir', f⟩
    simp only
    cases f with
    | some msg =>
      simp only
      refine ⟨all_cons trivial all_nil, fun r => all_cons (hg r) all_nil, ⟨rfl, rfl⟩, ⟨fun h => (by cases h), trivial⟩, .inl ⟨[], _, rfl, ?_, rfl, rfl⟩⟩
      intro e he; cases he
    | none =>
      simp only
      by_cases ha : stillAlive kind pre ir' op = true
      · rw [if_pos ha]
        have hk' := kind_of_alive ha
        have ih := runPasses_inv R isolated force path kind pre v op hf hR ps ir' hk'.1 hk'.2
        cases v with
        | none =>
          simp only
          refine ⟨all_cons trivial ih.honest, fun r => all_cons (hg r) (ih.guarded r), ⟨rfl, ih.chain⟩, ⟨fun _ _ v hv => ?_, ih.checked⟩, ?_⟩
          · rw [hf] at hv; cases hv
          · exact ends_append (l₁ := [_]) (by simp [Event.bad]) ih.ends
        | some check =>
          simp only
          cases hc : check ir' op with
          | some msg =>
            simp only
            refine ⟨all_cons trivial (all_cons ⟨check, hf, hc.symm⟩ all_nil), fun r => all_cons (hg r) (all_cons trivial all_nil), ⟨rfl, rfl, rfl⟩, ⟨fun _ _ v hv => ?_, trivial⟩, .inl ⟨[_], _, rfl, ?_, rfl, rfl⟩⟩
            · rw [hf] at hv; cases hv
              exact ⟨[], by rw [hc]⟩
            · simp [Event.bad]
          | none =>
            simp only
            refine ⟨all_cons trivial (all_cons ⟨check, hf, hc.symm⟩ ih.honest), fun r => all_cons (hg r) (all_cons trivial (ih.guarded r)), ⟨rfl, rfl, ih.chain⟩, ⟨fun _ _ v hv => ?_, ih.checked⟩, ?_⟩
            · rw [hf] at hv; cases hv
              exact ⟨_, by rw [hc]⟩
            · exact ends_append (l₁ := [_, _]) (by simp [Event.bad]) ih.ends
      · rw [if_neg ha]
        refine ⟨all_cons trivial all_nil, fun r => all_cons (hg r) all_nil, ⟨rfl, rfl⟩, ⟨fun _ hs => ?_, trivial⟩, ?_⟩
        · exact absurd (alive_of_survives hk hp hs) ha
        · intro e he
          rw [List.mem_singleton.1 he]; rfl

theorem runTargets_inv (R : Prop) (isolated : String → Bool) (force : List Nat → Option (Verifier X))
    (kind : String) (f : Nat → Ir X → Result X)
    (h : ∀ t ir, ir.kind t = kind → Inv R isolated force ir (f t ir)) :
    ∀ (ts : List Nat) (ir : Ir X), Inv R isolated force ir (runTargets isolated kind f ts ir)
  | [], ir => inv_nil R isolated force ir
  | t :: ts, ir => by
    rw [runTargets]
    split
    · exact runTargets_inv R isolated force kind f h ts ir
    · rename_i hk
      split
      · rename_i hi
        refine ⟨all_nil, fun _ => all_nil, rfl, trivial, .inr ⟨_, rfl, by simpa using hi, ?_⟩⟩
        intro e he; cases he
      · exact inv_andThen (h t ir (by simpa using hk))
          fun _ => runTargets_inv R isolated force kind f h ts _

mutual
theorem runManager_inv (R : Prop) (isolated : String → Bool) (force : List Nat → Option (Verifier X)) :
    ∀ (m : Manager X) (path : List Nat) (inh : Option (Verifier X)) (op : Nat) (ir : Ir X),
      (∀ q, force (path ++ q) = inForce inh m q) → (R → m.verifier.or inh ≠ none) →
      ir.kind op = m.kind →
      Inv R isolated force ir (runManager isolated m path inh op ir)
  | .mk kind passes nested verifier, path, inh, op, ir, hf, hR, hk => by
    rw [runManager]
    have hf0 : force path = verifier.or inh := by
      have := hf []
      rwa [List.append_nil] at this
    have hp := runPasses_inv R isolated force path kind (ir.attached op) (verifier.or inh) op hf0 hR
      passes ir hk (fun h => h)
    split
    · refine inv_andThen hp fun _ => ?_
      refine runNested_inv R isolated force nested path 0 (verifier.or inh) op _ ?_ hR
      intro j q
      have := hf (j :: q)
      rw [Nat.zero_add, this]
      rfl
    · exact hp
theorem runNested_inv (R : Prop) (isolated : String → Bool) (force : List Nat → Option (Verifier X)) :
    ∀ (ms : List (Manager X)) (path : List Nat) (i : Nat) (v : Option (Verifier X)) (op : Nat)
      (ir : Ir X),
      (∀ j q, force (path ++ (i + j) :: q) = match ms[j]? with
        | some n => inForce v n q
        | none => none) → (R → v ≠ none) →
      Inv R isolated force ir (runNested isolated ms path i v op ir)
  | [], _, _, _, _, ir, _, _ => by rw [runNested]; exact inv_nil R isolated force ir
  | m :: ms, path, i, v, op, ir, hf, hR => by
    rw [runNested]
    refine inv_andThen ?_ fun _ => ?_
    · refine runTargets_inv R isolated force m.kind _ (fun t ir hk => ?_) _ _
      refine runManager_inv R isolated force m (path ++ [i]) v t ir (fun q => ?_)
        (fun r => ?_) hk
      · have := hf 0 q
        simpa using this
      · cases m.verifier with
        | none => exact hR r
        | some w => simp
    · refine runNested_inv R isolated force ms path (i + 1) v op _ (fun j q => ?_) hR
      have := hf (j + 1) q
      rw [show i + 1 + j = i + (j + 1) by omega, this]
      rfl
end

theorem run_inv (isolated : String → Bool) (m : Manager X) (op : Nat) (ir : Ir X)
    (hk : ir.kind op = m.kind) :
    Inv (m.verifier ≠ none) isolated (inForce none m) ir (run isolated m op ir) :=
  runManager_inv _ isolated (inForce none m) m [] none op ir (fun _ => rfl)
    (fun h => by cases hv : m.verifier with
      | none => exact absurd hv h
      | some w => simp) hk

/-! ### Blame -/

theorem blame (force : List Nat → Option (Verifier X)) (check : Ir X → Option String)
    (hcheck : ∀ path v, force path = some v → v = fun ir _ => check ir) :
    ∀ (l pre : List (Event X)) (ir x : Ir X) (path : List Nat) (p : String) (op : Nat) (i : Ir X)
      (msg : String),
      check ir = none → Chain ir l x → Checked force l → (∀ e ∈ l, Honest force e) →
      (∀ e ∈ l, Guarded force e) → (∀ e ∈ l, Kept e) →
      l = pre ++ [.verified path p op i (some msg)] → (∀ e ∈ pre, e.bad = none) →
      ∃ pre' b, pre = pre' ++ [.ran path p op b i none] ∧ check b = none ∧ check i = some msg
  | [], pre, _, _, _, _, _, _, _, _, _, _, _, _, _, hl, _ => by
    have := congrArg List.length hl
    simp at this
  | .verified path' n o i' c :: es, pre, ir, x, path, p, op, i, msg, hir, hch, hck, hho, hgu, hke,
      hl, hpre => by
    obtain ⟨v, hv, hc⟩ := hho _ List.mem_cons_self
    have hi : i' = ir := hch.1
    have hcn : c = none := by rw [hc, hcheck _ _ hv, hi]; exact hir
    cases pre with
    | nil =>
      simp only [List.nil_append, List.cons.injEq, Event.verified.injEq] at hl
      rw [hcn] at hl
      exact absurd hl.1.2.2.2.2 (by simp)
    | cons e0 pre =>
      simp only [List.cons_append, List.cons.injEq] at hl
      obtain ⟨pre', b, hp, h1, h2⟩ := blame force check hcheck es pre ir x path p op i msg hir hch.2
        hck (fun e he => hho e (List.mem_cons_of_mem _ he))
        (fun e he => hgu e (List.mem_cons_of_mem _ he))
        (fun e he => hke e (List.mem_cons_of_mem _ he)) hl.2
        (fun e he => hpre e (List.mem_cons_of_mem _ he))
      exact ⟨e0 :: pre', b, by rw [hp]; rfl, h1, h2⟩
  | .ran path' n o b a f :: es, pre, ir, x, path, p, op, i, msg, hir, hch, hck, hho, hgu, hke,
      hl, hpre => by
    cases pre with
    | nil =>
      simp only [List.nil_append, List.cons.injEq] at hl
      exact absurd hl.1 (by simp)
    | cons e0 pre =>
      simp only [List.cons_append, List.cons.injEq] at hl
      obtain ⟨he0, hes⟩ := hl
      have hf : f = none := by
        have := hpre e0 List.mem_cons_self
        rw [← he0] at this
        exact this
      obtain ⟨v, hv⟩ := hgu _ List.mem_cons_self
      obtain ⟨es', hes'⟩ := hck.1 hf (hke _ List.mem_cons_self) v hv
      have hb : b = ir := hch.1
      have hva : v a o = check a := by rw [hcheck _ _ hv]
      rw [hva] at hes'
      cases hca : check a with
      | none =>
        obtain ⟨pre', b', hp, h1, h2⟩ := blame force check hcheck es pre a x path p op i msg hca
          hch.2 hck.2 (fun e he => hho e (List.mem_cons_of_mem _ he))
          (fun e he => hgu e (List.mem_cons_of_mem _ he))
          (fun e he => hke e (List.mem_cons_of_mem _ he)) hes
          (fun e he => hpre e (List.mem_cons_of_mem _ he))
        exact ⟨e0 :: pre', b', by rw [hp]; rfl, h1, h2⟩
      | some m =>
        rw [hca] at hes'
        cases pre with
        | nil =>
          rw [hes'] at hes
          simp only [List.nil_append, List.cons.injEq, Event.verified.injEq,
            Option.some.injEq] at hes
          obtain ⟨⟨h1, h2, h3, h4, h5⟩, _⟩ := hes
          subst h1 h2 h3 h4 h5
          refine ⟨[], b, ?_, hb ▸ hir, hca⟩
          rw [← he0, hf]; rfl
        | cons e1 pre =>
          rw [hes'] at hes
          simp only [List.cons_append, List.cons.injEq] at hes
          have := hpre e1 (List.mem_cons_of_mem _ List.mem_cons_self)
          rw [← hes.1] at this
          exact absurd this (by simp [Event.bad])

/-! ### Which passes run on what -/

theorem Keeps.refl (K : String → Prop) (ir : Ir X) : Keeps K ir ir :=
  ⟨fun _ _ => ⟨rfl, rfl⟩, fun _ _ _ => rfl⟩

theorem Keeps.trans {K : String → Prop} {a b c : Ir X} (h₁ : Keeps K a b) (h₂ : Keeps K b c) :
    Keeps K a c := by
  refine ⟨fun op hk => ?_, fun k hk op => (h₂.2 k hk op).trans (h₁.2 k hk op)⟩
  have ha := h₁.1 op hk
  have hb := h₂.1 op (ha.1 ▸ hk)
  exact ⟨hb.1.trans ha.1, hb.2.trans ha.2⟩

/-- What a step must have done when it went well: the given runs, keeping the operations. -/
def Did (K : String → Prop) (ir₀ : Ir X) (r : Result X) (s : List (List Nat × String × Nat)) : Prop :=
  r.err = none → Keeps K ir₀ r.ir ∧ runs r.events = s

theorem did_andThen {K : String → Prop} {ir₀ : Ir X} {r : Result X} {f : Ir X → Result X}
    {s t : List (List Nat × String × Nat)} (h₁ : Did K ir₀ r s)
    (h₂ : Keeps K ir₀ r.ir → Did K ir₀ (f r.ir) t) : Did K ir₀ (r.andThen f) (s ++ t) := by
  unfold Result.andThen
  intro he
  split at he
  · rename_i e hre
    rw [hre] at he; cases he
  · rename_i hre
    simp only at he ⊢
    have a := h₁ hre
    have b := h₂ a.1 he
    exact ⟨b.1, by rw [runs_append, a.2, b.2]⟩

theorem runPasses_did (K : String → Prop) (ir₀ : Ir X) (path : List Nat) (kind : String) (pre : Bool)
    (v : Option (Verifier X)) (op : Nat) (hK : K kind) (hk₀ : ir₀.kind op = kind)
    (hp₀ : ir₀.attached op = pre) :
    ∀ (ps : List (Pass X)) (ir : Ir X), (∀ p ∈ ps, ∀ ir op, Keeps K ir (p.run ir op).1) →
      Keeps K ir₀ ir →
      Did K ir₀ (runPasses path kind pre v op ps ir).1 (ps.map fun p => (path, p.name, op))
        ∧ ((runPasses path kind pre v op ps ir).1.err = none →
          (runPasses path kind pre v op ps ir).2 = true)
  | [], ir, _, hir => ⟨fun _ => ⟨hir, rfl⟩, fun _ => rfl⟩
  | p :: ps, ir, hps, hir => by
    rw [runPasses.eq_def]
    simp only
    have hkeep := hir.trans (hps p List.mem_cons_self ir op)
    rcases hout : p.run ir op with ⟨ir', f⟩
    rw [hout] at hkeep
    simp only at hkeep ⊢
    cases f with
    | some msg => exact ⟨fun h => (by cases h), fun h => (by cases h)⟩
    | none =>
      have ha : stillAlive kind pre ir' op = true := by
        have h := hkeep.1 op (hk₀ ▸ hK)
        unfold stillAlive
        rw [h.1, h.2, hk₀, hp₀]
        cases pre <;> simp
      have ih := runPasses_did K ir₀ path kind pre v op hK hk₀ hp₀ ps ir'
        (fun q hq => hps q (List.mem_cons_of_mem _ hq)) hkeep
      simp only [ha, if_true]
      cases v with
      | none =>
        simp only
        refine ⟨fun h => ?_, ih.2⟩
        have := ih.1 h
        exact ⟨this.1, by simp [runs, this.2]⟩
      | some check =>
        simp only
        cases hc : check ir' op with
        | some msg => exact ⟨fun h => (by cases h), fun h => (by cases h)⟩
        | none =>
          simp only
          refine ⟨fun h => ?_, ih.2⟩
          have := ih.1 h
          exact ⟨this.1, by simp [runs, this.2]⟩

theorem runTargets_did (K : String → Prop) (ir₀ : Ir X) (isolated : String → Bool) (kind : String)
    (hK : K kind) (f : Nat → Ir X → Result X) (s : Nat → List (List Nat × String × Nat))
    (h : ∀ t ir, ir₀.kind t = kind → Keeps K ir₀ ir → Did K ir₀ (f t ir) (s t)) :
    ∀ (ts : List Nat) (ir : Ir X), (∀ t ∈ ts, ir₀.kind t = kind) → Keeps K ir₀ ir →
      Did K ir₀ (runTargets isolated kind f ts ir) (ts.flatMap s)
  | [], ir, _, hir => fun _ => ⟨hir, rfl⟩
  | t :: ts, ir, hts, hir => by
    rw [runTargets]
    have hk := hts t List.mem_cons_self
    have hk' : ir.kind t = kind := ((hir.1 t (hk ▸ hK)).1).trans hk
    rw [if_neg (by simp [hk'])]
    split
    · intro he; cases he
    · rw [List.flatMap_cons]
      exact did_andThen (h t ir hk hir) fun hir' =>
        runTargets_did K ir₀ isolated kind hK f s h ts _
          (fun u hu => hts u (List.mem_cons_of_mem _ hu)) hir'

mutual
theorem runManager_did (K : String → Prop) (ir₀ : Ir X) (isolated : String → Bool) :
    ∀ (m : Manager X) (path : List Nat) (inh : Option (Verifier X)) (op : Nat) (ir : Ir X),
      (∀ k, HasKind k m → K k) → AllPasses (fun p => ∀ ir op, Keeps K ir (p.run ir op).1) m →
      ir₀.kind op = m.kind → Keeps K ir₀ ir →
      Did K ir₀ (runManager isolated m path inh op ir) (schedule ir₀ m path op)
  | .mk kind passes nested verifier, path, inh, op, ir, hK, hA, hk, hir => by
    rw [runManager, schedule]
    have hK0 : K kind := hK kind (by rw [HasKind]; exact .inl rfl)
    rw [AllPasses] at hA
    have hk : ir₀.kind op = kind := hk
    have hatt := (hir.1 op (hk ▸ hK0)).2
    have hp := runPasses_did K ir₀ path kind (ir.attached op) (verifier.or inh) op hK0 hk hatt.symm
      passes ir hA.1 hir
    split
    · refine did_andThen hp.1 fun hir' => ?_
      exact runNested_did K ir₀ isolated nested path 0 (verifier.or inh) op _
        (fun k h => hK k (by rw [HasKind]; exact .inr h)) hA.2 hir'
    · rename_i hflag
      intro he
      exact absurd (hp.2 he) hflag
theorem runNested_did (K : String → Prop) (ir₀ : Ir X) (isolated : String → Bool) :
    ∀ (ms : List (Manager X)) (path : List Nat) (i : Nat) (v : Option (Verifier X)) (op : Nat)
      (ir : Ir X),
      (∀ k, HasKindIn k ms → K k) →
      AllPassesIn (fun p => ∀ ir op, Keeps K ir (p.run ir op).1) ms → Keeps K ir₀ ir →
      Did K ir₀ (runNested isolated ms path i v op ir) (scheduleNested ir₀ ms path i op)
  | [], _, _, _, _, ir, _, _, hir => by
    rw [runNested, scheduleNested]; exact fun _ => ⟨hir, rfl⟩
  | m :: ms, path, i, v, op, ir, hK, hA, hir => by
    rw [runNested, scheduleNested]
    rw [AllPassesIn] at hA
    have hKm : ∀ k, HasKind k m → K k := fun k h => hK k (by rw [HasKindIn]; exact .inl h)
    have hm : HasKind m.kind m := by cases m; rw [HasKind]; exact .inl rfl
    refine did_andThen ?_ fun hir' => ?_
    · have hc : collectTargets m.kind ir op = instances m.kind ir₀ op := hir.2 _ (hKm _ hm) op
      rw [hc]
      refine runTargets_did K ir₀ isolated m.kind (hKm _ hm) _ _ (fun t ir ht hir => ?_) _ _ ?_ hir
      · exact runManager_did K ir₀ isolated m (path ++ [i]) v t ir hKm hA.1 ht hir
      · intro t ht
        simpa using (List.mem_filter.1 ht).2
    · exact runNested_did K ir₀ isolated ms path (i + 1) v op _
        (fun k h => hK k (by rw [HasKindIn]; exact .inr h)) hA.2 hir'
end

end Verif.PassMgr
