import Verif.Effects.Runs
import Mathlib.Data.List.Forall2

/-! The relation between the machine and the lowered code. -/

namespace Verif.Effects

variable {W : Type}

/-! ## Look-ups -/

theorem lk {E : TEnv} {r r0 : Reg} {v : TVal} :
    List.lookup r ((r0, v) :: E) = if r = r0 then some v else E.lookup r := by
  by_cases e : r = r0
  · subst e; simp
  · have e' : (r == r0) = false := by simpa using e
    simp only [List.lookup, e', e, if_false]

theorem lookup_append_of_none {α β : Type} [BEq α] [LawfulBEq α] {l l' : List (α × β)} {a : α}
    (h : l.lookup a = none) : (l ++ l').lookup a = l'.lookup a := by
  induction l with
  | nil => rfl
  | cons x l ih =>
    obtain ⟨x1, x2⟩ := x
    by_cases e : a = x1
    · subst e; simp at h
    · have e' : (a == x1) = false := by simpa using e
      simp only [List.lookup, e'] at h
      simp only [List.cons_append, List.lookup, e']
      exact ih h

theorem lookup_zip_none {α β : Type} [BEq α] [LawfulBEq α] {ks : List α} {vs : List β} {a : α}
    (h : a ∉ ks) : (ks.zip vs).lookup a = none := by
  induction ks generalizing vs with
  | nil => rfl
  | cons x ks ih =>
    cases vs with
    | nil => rfl
    | cons v vs =>
      have e' : (a == x) = false := by
        simp only [List.mem_cons, not_or] at h
        simpa using h.1
      simp only [List.zip_cons_cons, List.lookup, e']
      exact ih (fun hm => h (List.mem_cons_of_mem _ hm))

theorem lookup_mem_keys {α β : Type} [BEq α] [LawfulBEq α] {l : List (α × β)} {a : α} {b : β}
    (h : l.lookup a = some b) : a ∈ l.map Prod.fst := by
  induction l with
  | nil => simp at h
  | cons x l ih =>
    obtain ⟨x1, x2⟩ := x
    by_cases e : a = x1
    · simp [e]
    · have e' : (a == x1) = false := by simpa using e
      simp only [List.lookup, e'] at h
      simp only [List.map_cons, List.mem_cons]
      exact .inr (ih h)

theorem mem_keys_lookup {α β : Type} [BEq α] [LawfulBEq α] {l : List (α × β)} {a : α}
    (h : a ∈ l.map Prod.fst) : ∃ b, l.lookup a = some b := by
  induction l with
  | nil => simp at h
  | cons x l ih =>
    obtain ⟨x1, x2⟩ := x
    by_cases e : a = x1
    · exact ⟨x2, by simp [e]⟩
    · have e' : (a == x1) = false := by simpa using e
      simp only [List.lookup, e']
      simp only [List.map_cons, List.mem_cons, e, false_or] at h
      exact ih h

theorem lookups_some {E : TEnv} {rs : List Reg} (h : ∀ r ∈ rs, ∃ v, E.lookup r = some v) :
    ∃ vs, lookups E rs = some vs := by
  induction rs with
  | nil => exact ⟨[], rfl⟩
  | cons r rs ih =>
    obtain ⟨v, hv⟩ := h r (by simp)
    obtain ⟨vs, hvs⟩ := ih fun r hr => h r (List.mem_cons_of_mem _ hr)
    exact ⟨v :: vs, by simp [lookups, hv, hvs]⟩

theorem lookups_zip {E : TEnv} {rs : List Reg} {vs : List TVal} (h : lookups E rs = some vs) :
    ∀ r ∈ rs, (rs.zip vs).lookup r = E.lookup r := by
  induction rs generalizing vs with
  | nil => simp
  | cons r0 rs ih =>
    simp only [lookups] at h
    cases h1 : E.lookup r0 with
    | none => simp [h1] at h
    | some v =>
      cases h2 : lookups E rs with
      | none => simp [h1, h2] at h
      | some vs' =>
        simp only [h1, h2, Option.some.injEq] at h
        subst h
        intro r hr
        by_cases e : r = r0
        · subst e; simp [h1]
        · have e' : (r == r0) = false := by simpa using e
          simp only [List.zip_cons_cons, List.lookup, e']
          exact ih h2 r (by simpa [e] using hr)

/-! ## Values -/

abbrev keys (ρ : SEnv) : List Var := ρ.map Prod.fst

theorem keys_zip {ps : List Var} {us : List SVal} (l : SEnv)
    (h : ps.length = us.length) : keys (ps.zip us ++ l) = ps ++ keys l := by
  simp [keys, List.map_append, List.map_fst_zip (Nat.le_of_eq h)]

/-- A source value and its representation. -/
inductive VRel : SVal → TVal → Prop
  | base (b : Int) : VRel (.base b) (.base b)
  | clo (ps : List Var) (b : Exp) (ρ : SEnv) (E : TEnv) (own : Bool) (g : Var → TVal)
      (hok : okE ⟨ps ++ keys ρ, own, 3, none⟩ b = true)
      (hown : own = true → ∃ t, E.lookup .own = some (.tag t))
      (hE : ∀ x u, x ∈ mentions b → x ∉ ps → ρ.lookup x = some u → E.lookup (.v x) = some (g x))
      (hg : ∀ x u, x ∈ mentions b → x ∉ ps → ρ.lookup x = some u → VRel u (g x)) :
      VRel (.clo false ps b ρ)
        (.clo E (.k 0 :: ps.map Reg.v) ((low b).cps (ps ++ keys ρ) own true 0 0))
  | cloD (ps : List Var) (b : Exp) (ρ : SEnv)
      (hok : okE ⟨ps ++ keys ρ, false, 1, none⟩ b = true)
      (hd : direct true b = true)
      (hn : ∀ x, x ∈ mentions b → x ∉ ps → ρ.lookup x = none) :
      VRel (.clo true ps b ρ) (.clo [] (ps.map Reg.v) ((low b).dir (ps ++ keys ρ) false none))

/-- The variables of `ms` other than `rk` have related values. -/
def EnvRel (ms : List Var) (rk : Option Var) (ρ : SEnv) (E : TEnv) : Prop :=
  ∀ x ∈ ms, some x ≠ rk → ∀ u, ρ.lookup x = some u → ∃ u', E.lookup (.v x) = some u' ∧ VRel u u'

theorem nm_iff {rk : Option Var} {xs : List Var} : nm rk xs = true ↔ ∀ x ∈ xs, some x ≠ rk := by
  cases rk with
  | none => simp [nm]
  | some r =>
    simp only [nm, Bool.not_eq_true', decide_eq_false_iff_not]
    constructor
    · intro h x hx e
      cases e
      exact h hx
    · intro h hr
      exact h r hr rfl

theorem EnvRel.mono {ms ms' : List Var} {rk rk' : Option Var} {ρ E} (h : EnvRel ms rk ρ E)
    (hs : ∀ x ∈ ms', some x ≠ rk' → x ∈ ms ∧ some x ≠ rk) : EnvRel ms' rk' ρ E :=
  fun x hx hr => h x (hs x hx hr).1 (hs x hx hr).2

theorem EnvRel.sub {ms ms' : List Var} {rk : Option Var} {ρ E} (h : EnvRel ms rk ρ E)
    (hs : ∀ x ∈ ms', x ∈ ms) : EnvRel ms' rk ρ E :=
  h.mono fun x hx hr => ⟨hs x hx, hr⟩

/-- Registers of other kinds do not matter. -/
theorem EnvRel.skip {ms : List Var} {rk : Option Var} {ρ E} {r : Reg} {v : TVal}
    (h : EnvRel ms rk ρ E) (hr : ∀ x, r ≠ .v x) : EnvRel ms rk ρ ((r, v) :: E) := by
  intro x hx hn u hu
  obtain ⟨u', h1, h2⟩ := h x hx hn u hu
  refine ⟨u', ?_, h2⟩
  have : (Reg.v x == r) = false := by
    have := hr x
    simp only [beq_eq_false_iff_ne, ne_eq]
    exact fun e => this e.symm
  simp only [List.lookup, this]
  exact h1

theorem EnvRel.cons {ms : List Var} {rk : Option Var} {ρ E} {x : Var} {u : SVal} {u' : TVal}
    (h : EnvRel ms rk ρ E) (hu : VRel u u') : EnvRel ms rk ((x, u) :: ρ) ((.v x, u') :: E) := by
  intro y hy hn v hv
  by_cases e : y = x
  · subst e
    simp only [List.lookup, beq_self_eq_true, Option.some.injEq] at hv
    subst hv
    exact ⟨u', by simp, hu⟩
  · have e1 : (y == x) = false := by simpa using e
    have e2 : (Reg.v y == Reg.v x) = false := by simpa using e
    simp only [List.lookup, e1] at hv
    simp only [List.lookup, e2]
    exact h y hy hn v hv

theorem EnvRel.zip {ms : List Var} {rk : Option Var} {ps : List Var} {us : List SVal}
    {us' : List TVal} {ρ E} (hu : List.Forall₂ VRel us us') (hl : ps.length = us.length)
    (h : ∀ x ∈ ms, some x ≠ rk → x ∉ ps → ∀ u, ρ.lookup x = some u →
      ∃ u', E.lookup (.v x) = some u' ∧ VRel u u') :
    EnvRel ms rk (ps.zip us ++ ρ) ((ps.map Reg.v).zip us' ++ E) := by
  induction hu generalizing ps ms with
  | nil =>
    cases ps with
    | nil => exact fun x hx hn => h x hx hn (by simp)
    | cons => simp at hl
  | @cons u u' us us' h1 h2 ih =>
    cases ps with
    | nil => simp at hl
    | cons p ps =>
      simp only [List.length_cons, Nat.add_right_cancel_iff] at hl
      intro y hy hn v hv
      by_cases e : y = p
      · subst e
        simp only [List.zip_cons_cons, List.cons_append, List.lookup, beq_self_eq_true,
          Option.some.injEq] at hv
        subst hv
        exact ⟨u', by simp, h1⟩
      · have e1 : (y == p) = false := by simpa using e
        have e2 : (Reg.v y == Reg.v p) = false := by simpa using e
        simp only [List.zip_cons_cons, List.cons_append, List.lookup, e1] at hv
        simp only [List.map_cons, List.zip_cons_cons, List.cons_append, List.lookup, e2]
        refine ih (ps := ps) hl (ms := [y]) ?_ y (by simp) hn v hv
        intro x hx hn' hxp
        rw [List.mem_singleton] at hx
        subst hx
        exact h x hy hn' (by simp [e, hxp])

theorem lookup_zipv {ps : List Var} {us : List TVal} {E : TEnv} {r : Reg}
    (h : ∀ x ∈ ps, r ≠ .v x) : ((ps.map Reg.v).zip us ++ E).lookup r = E.lookup r :=
  lookup_append_of_none (lookup_zip_none (by
    intro hm
    obtain ⟨x, hx, e⟩ := List.mem_map.1 hm
    exact h x hx e.symm))

theorem lookups_rel {ms : List Var} {rk : Option Var} {ρ E} (h : EnvRel ms rk ρ E) {xs : List Var}
    (hs : ∀ x ∈ xs, x ∈ ms ∧ some x ≠ rk) {us} (hu : slookups ρ xs = some us) :
    ∃ us', lookups E (xs.map Reg.v) = some us' ∧ List.Forall₂ VRel us us' := by
  induction xs generalizing us with
  | nil =>
    simp only [slookups, Option.some.injEq] at hu
    subst hu
    exact ⟨[], rfl, .nil⟩
  | cons x xs ih =>
    simp only [slookups] at hu
    cases h1 : ρ.lookup x with
    | none => simp [h1] at hu
    | some u =>
      cases h2 : slookups ρ xs with
      | none => simp [h1, h2] at hu
      | some us1 =>
        simp only [h1, h2, Option.some.injEq] at hu
        subst hu
        obtain ⟨us', h3, h4⟩ := ih (fun y hy => hs y (List.mem_cons_of_mem _ hy)) h2
        obtain ⟨u', h5, h6⟩ := h x (hs x (by simp)).1 (hs x (by simp)).2 u h1
        exact ⟨u' :: us', by simp [lookups, h5, h3], .cons h6 h4⟩

theorem bases_rel {us us'} (h : List.Forall₂ VRel us us') {bs} (hb : sbases us = some bs) :
    bases us' = some bs := by
  induction h generalizing bs with
  | nil => simpa [sbases, bases] using hb
  | @cons u u' us us' h1 h2 ih =>
    cases h1 with
    | base b =>
      simp only [sbases, Option.map_eq_some_iff] at hb
      obtain ⟨bs', hb', rfl⟩ := hb
      simp [bases, ih hb']
    | clo => simp [sbases] at hb
    | cloD => simp [sbases] at hb

/-! ## Captures -/

theorem mem_capsOf {Γ : List Var} {own : Bool} {ms ps : List Var} {x : Var} (h1 : x ∈ Γ)
    (h2 : x ∈ ms) (h3 : x ∉ ps) : Reg.v x ∈ capsOf Γ own ms ps := by
  unfold capsOf
  refine List.mem_append_left _ (List.mem_map_of_mem ?_)
  simp [h1, h2, h3]

theorem own_mem_capsOf {Γ : List Var} {ms ps : List Var} : Reg.own ∈ capsOf Γ true ms ps := by
  unfold capsOf
  exact List.mem_append_right _ (by simp)

theorem of_mem_capsOf {Γ : List Var} {own : Bool} {ms ps : List Var} {r : Reg}
    (h : r ∈ capsOf Γ own ms ps) :
    (∃ x, r = .v x ∧ x ∈ Γ ∧ x ∈ ms ∧ x ∉ ps) ∨ (r = .own ∧ own = true) := by
  unfold capsOf at h
  rcases List.mem_append.1 h with h | h
  · obtain ⟨x, hx, rfl⟩ := List.mem_map.1 h
    simp only [List.mem_filter, Bool.and_eq_true, decide_eq_true_eq, Bool.not_eq_true',
      decide_eq_false_iff_not] at hx
    exact .inl ⟨x, rfl, hx.1, hx.2.1, hx.2.2⟩
  · cases own with
    | false => simp at h
    | true => exact .inr ⟨by simpa using h, rfl⟩

/-- Capturing succeeds, and the closure holds what the frame holds. -/
theorem capture {ρ : SEnv} {E : TEnv} {own : Bool} {ms ps : List Var} {rk : Option Var}
    (h : EnvRel ms rk ρ E) (hrk : ∀ r ∈ ms, some r = rk → ∃ v, E.lookup (.v r) = some v)
    (hown : own = true → ∃ t, E.lookup .own = some (.tag t)) {extra : List Reg}
    (hx : ∀ r ∈ extra, ∃ v, E.lookup r = some v) :
    ∃ vs, lookups E (capsOf (keys ρ) own ms ps ++ extra) = some vs ∧
      ∀ r ∈ capsOf (keys ρ) own ms ps ++ extra,
        ((capsOf (keys ρ) own ms ps ++ extra).zip vs).lookup r = E.lookup r := by
  obtain ⟨vs, hvs⟩ := lookups_some (E := E) (rs := capsOf (keys ρ) own ms ps ++ extra) (by
    intro r hr
    rcases List.mem_append.1 hr with hr | hr
    · rcases of_mem_capsOf hr with ⟨x, rfl, h1, h2, -⟩ | ⟨rfl, ho⟩
      · by_cases e : some x = rk
        · exact hrk x h2 e
        · obtain ⟨u, hu⟩ := mem_keys_lookup h1
          obtain ⟨u', h3, -⟩ := h x h2 e u hu
          exact ⟨u', h3⟩
      · obtain ⟨t, ht⟩ := hown ho
        exact ⟨_, ht⟩
    · exact hx r hr)
  exact ⟨vs, hvs, lookups_zip hvs⟩

theorem capture_env {ρ : SEnv} {E E' : TEnv} {own : Bool} {ms ps : List Var} {rk : Option Var}
    {extra : List Reg} (h : EnvRel ms rk ρ E)
    (he : ∀ r ∈ capsOf (keys ρ) own ms ps ++ extra, E'.lookup r = E.lookup r) :
    ∀ x ∈ ms, some x ≠ rk → x ∉ ps → ∀ u, ρ.lookup x = some u →
      ∃ u', E'.lookup (.v x) = some u' ∧ VRel u u' := by
  intro x hx hn hp u hu
  obtain ⟨u', h1, h2⟩ := h x hx hn u hu
  refine ⟨u', ?_, h2⟩
  rw [he _ (List.mem_append_left _ (mem_capsOf (lookup_mem_keys hu) hx hp)), h1]

/-! ## Handlers and contexts -/

/-- A handler that is installed: its source, its tag and dispatch closures, the continuation its
`handle` completes with, and the frame that waits for the answer of its body. -/
structure Pend where
  hs : List Arm
  dx : Var
  d : Exp
  ρ : SEnv
  own : Bool
  tag : Nat
  tr : TVal
  hd : TVal
  kv : TVal
  E : TEnv
  k : Nat
  v : Nat

def Pend.frame (p : Pend) : Frame := .hdl p.hs p.dx p.d p.ρ

def fnArms (hs : List Arm) : List Arm := hs.filter fun h => h.kind = .fn

/-- The dispatch closures of an installed handler. -/
structure HOk (p : Pend) : Prop where
  ok : okArms (keys p.ρ) p.own p.hs = true
  hd : ∃ Eh, p.hd = .clo Eh [.k 0, .own, .t 0, .t 1] (hdCode (keys p.ρ) (lowArms p.hs)) ∧
    EnvRel (mentionsArms p.hs) none p.ρ Eh
  tr : ∃ Et, p.tr = .clo Et [.t 0, .t 1] (trCode (keys p.ρ) p.own (lowArms p.hs)) ∧
    EnvRel (mentionsArms (fnArms p.hs)) none p.ρ Et

/-- The evidence leads to the installed handlers. -/
def EvRel (P : List Pend) (ms : List (Ab × (Nat × (TVal × TVal)))) : Prop :=
  ∀ p ∈ P, ∀ a ∈ armAbs p.hs, ms.lookup a = some (p.tag, p.tr, p.hd)

/-- Installed handlers have different tags, all smaller than the next one. -/
structure POk (P : List Pend) (c : Nat) : Prop where
  nodup : (P.map Pend.tag).Nodup
  lt : ∀ p ∈ P, p.tag < c
  ok : ∀ p ∈ P, HOk p

/-- The frame that waits for the answer of a handled body. -/
structure PendOk (P : List Pend) (p : Pend) : Prop where
  okd : okE ⟨p.dx :: keys p.ρ, p.own, 3, none⟩ p.d = true
  hown : p.own = true → ∃ t, p.E.lookup .own = some (.tag t)
  env : EnvRel (mentions p.d) none p.ρ p.E
  k : p.E.lookup (.k p.k) = some p.kv
  ev1 : ∃ ms, p.E.lookup (.ev (p.v + 1)) = some (.ev ms) ∧ EvRel P ms
  ev0 : ∃ ms, p.E.lookup (.ev 0) = some (.ev ms) ∧ EvRel P ms
  tag : p.E.lookup (.t 6) = some (.tag p.tag)

/-- What an arm knows about its `resume`. -/
structure RInfo where
  K : List Frame
  kv : TVal
  tag : Nat

/-- The parts of the relation between an expression and a frame that do not mention the
continuation. -/
structure Base (A : Option RInfo) (own : Bool) (rk : Option Var) (ρ : SEnv) (ms : List Var)
    (E : TEnv) : Prop where
  env : EnvRel ms rk ρ E
  hown : own = true → ∃ t, E.lookup .own = some (.tag t)
  res : ∀ r, rk = some r → own = true ∧ ∃ K kv tg, A = some ⟨K, kv, tg⟩ ∧
    ρ.lookup r = some (.cont K) ∧ (r ∈ ms → E.lookup (.v r) = some kv) ∧
    E.lookup .own = some (.tag tg)

/-- What waits in the machine, and the continuation closure with the installed handlers. -/
inductive CtxRel : Option RInfo → List Frame → TVal → List Pend → Prop
  | root : CtxRel none [] (.clo [] [.t 0] idBody) []
  | done (A : Option RInfo) (C : List Frame) (p : Pend) (P : List Pend) (h : PendOk P p)
      (hC : CtxRel A C p.kv P) :
      CtxRel none (p.frame :: C) (.clo [] [.t 0] doneBody) (p :: P)
  | esc (A1 A2 : Option RInfo) (P1 P2 : List Pend) (p : Pend) (C K : List Frame) (kv : TVal)
      (E : TEnv) (hE : E.lookup .own = some (.tag p.tag)) (h0 : PendOk P2 p)
      (h1 : CtxRel A1 C p.kv P2)
      (h2 : CtxRel A2 ((K ++ [p.frame]) ++ C) kv (P1 ++ p :: P2)) :
      CtxRel (some ⟨K ++ [p.frame], kv, p.tag⟩) (.armF (K ++ [p.frame]) :: C)
        (.clo E [.t 0] escBody) (P1 ++ p :: P2)
  | skip (A : Option RInfo) (K C : List Frame) (kv : TVal) (P : List Pend)
      (hC : CtxRel A C kv P) : CtxRel none (.armF K :: C) kv P
  | letF (A : Option RInfo) (P : List Pend) (x : Var) (b : Exp) (ρ : SEnv) (C : List Frame)
      (E : TEnv) (k : Nat) (own : Bool) (rk : Option Var) (kv : TVal)
      (ok : okE ⟨x :: keys ρ, own, 3, rk⟩ b = true) (hx : some x ≠ rk)
      (hb : Base A own rk ρ (mentions b) E) (hk : E.lookup (.k k) = some kv)
      (hC : CtxRel A C kv P) :
      CtxRel none (.letF x b ρ :: C)
        (.clo E [.v x] ((low b).cps (x :: keys ρ) own true k 0)) P

/-- An expression in continuation-passing position, and the frame its code runs in. -/
structure CodeOk (P : List Pend) (A : Option RInfo) (own : Bool) (rk : Option Var)
    (ρ : SEnv) (e : Exp) (E : TEnv) (k v : Nat) (kv : TVal) : Prop where
  ok : okE ⟨keys ρ, own, 3, rk⟩ e = true
  base : Base A own rk ρ (mentions e) E
  k : E.lookup (.k k) = some kv
  ev : ∃ ms, E.lookup (.ev v) = some (.ev ms) ∧ EvRel P ms
  ev0 : ∃ ms, E.lookup (.ev 0) = some (.ev ms) ∧ EvRel P ms

/-- Passing an answer through the frames that wait for it. -/
def Unw (M : Mach W) (G : List (Fn × (List Reg × T))) :
    List Pend → TVal → W → Nat → TVal → W → Nat → Prop
  | [], R, w, c, R', w', c' => R = R' ∧ w = w' ∧ c = c'
  | p :: P, R, w, c, R', w', c' => ∃ R1 w1 c1,
      Runs M G ((.t 7, R) :: p.E) (answer (keys p.ρ) p.own true p.k p.v p.dx (low p.d)) w c
        R1 w1 c1 ∧ Unw M G P R1 w1 c1 R' w' c'

end Verif.Effects
