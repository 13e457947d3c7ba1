import Verif.EffectTrack.RunSpec
import Verif.EffectTrack.Proofs

/-! # Operations performed by the machine escape -/

namespace Verif.EffectTrack
open Effects (Exp Arm Frame SVal SEnv Var)

section
variable (P : Prog) (G₀ : Ab → Prop)

/-- `a` is handled in the context, or allowed to reach the top. -/
def G (a : Ab) (C : List Frame) : Prop := Handled a C ∨ G₀ a

/-- Everything that may leave the expression is handled. -/
def Safe (x : X) (C : List Frame) : Prop := ∀ a, Escapes P a x → G G₀ a C

/-- The value is not a continuation. -/
def NoCont (v : SVal) : Prop := ∀ K, v ≠ .cont K

inductive Ok : List Frame → Prop
  | nil : Ok []
  | letF {x : Var} {b : Exp} {ρ : SEnv} {C : List Frame} {R : List Var} : FirstOrder R b →
      Safe P G₀ (skel b) C → (∀ y, y ∉ R → ∀ v, ρ.lookup y = some v → NoCont v) →
      (∀ y K, ρ.lookup y = some (.cont K) → Ok (K ++ C)) → Ok C → Ok (.letF x b ρ :: C)
  | hdl {hs : List Arm} {dx : Var} {d : Exp} {ρ : SEnv} {C : List Frame} {R : List Var} :
      FirstOrderArms R hs → FirstOrder R d → (∀ h ∈ skelArms hs, Safe P G₀ h.2 C) →
      Safe P G₀ (skel d) C → (∀ y, y ∉ R → ∀ v, ρ.lookup y = some v → NoCont v) →
      (∀ y K, ρ.lookup y = some (.cont K) → Ok (K ++ C)) → Ok C → Ok (.hdl hs dx d ρ :: C)
  | fnF {K C : List Frame} : Ok (K ++ C) → Ok C → Ok (.fnF K :: C)
  | armF {K C : List Frame} : Ok C → Ok (.armF K :: C)

/-- The environment's continuations fit the context, and only names in `R` are continuations. -/
def EnvOk (R : List Var) (ρ : SEnv) (C : List Frame) : Prop :=
  (∀ y, y ∉ R → ∀ v, ρ.lookup y = some v → NoCont v) ∧
  (∀ y K, ρ.lookup y = some (.cont K) → Ok P G₀ (K ++ C))
end

variable {P : Prog} {G₀ : Ab → Prop}

theorem G.mono {a : Ab} {C C' : List Frame} (h : ∀ f ∈ C, f ∈ C') (hg : G G₀ a C) : G G₀ a C' := by
  rcases hg with ⟨hs, dx, d, ρ, hm, hh⟩ | h0
  · exact .inl ⟨hs, dx, d, ρ, h _ hm, hh⟩
  · exact .inr h0

theorem Safe.mono {x : X} {C C' : List Frame} (h : ∀ f ∈ C, f ∈ C') (hs : Safe P G₀ x C) :
    Safe P G₀ x C' := fun a ha => (hs a ha).mono h

theorem mid {A D C : List Frame} : ∀ f ∈ A ++ C, f ∈ A ++ (D ++ C) := by
  intro f hf
  rcases List.mem_append.mp hf with h | h
  · exact List.mem_append_left _ h
  · exact List.mem_append_right _ (List.mem_append_right _ h)

theorem Ok.insert {D C : List Frame} (hD : Ok P G₀ (D ++ C)) {L : List Frame} (h : Ok P G₀ L) :
    ∀ A, L = A ++ C → Ok P G₀ (A ++ (D ++ C)) := by
  induction h with
  | nil =>
    intro A hA
    obtain ⟨rfl, rfl⟩ := List.append_eq_nil_iff.mp hA.symm
    exact hD
  | @letF x b ρ C₁ R h1 h2 h3 h4 h5 ih4 ih5 =>
    intro A hA
    cases A with
    | nil => exact hD
    | cons f A =>
      obtain ⟨rfl, rfl⟩ := List.cons.inj hA
      exact .letF h1 (h2.mono mid) h3
        (fun y K hy => List.append_assoc K A (D ++ C) ▸ ih4 y K hy (K ++ A) (List.append_assoc K A C).symm) (ih5 A rfl)
  | @hdl hs dx d ρ C₁ R h1 h2 h3 h4 h5 h6 h7 ih6 ih7 =>
    intro A hA
    cases A with
    | nil => exact hD
    | cons f A =>
      obtain ⟨rfl, rfl⟩ := List.cons.inj hA
      exact .hdl h1 h2 (fun h hm => (h3 h hm).mono mid) (h4.mono mid) h5
        (fun y K hy => List.append_assoc K A (D ++ C) ▸ ih6 y K hy (K ++ A) (List.append_assoc K A C).symm) (ih7 A rfl)
  | @fnF K C₁ h1 h2 ih1 ih2 =>
    intro A hA
    cases A with
    | nil => exact hD
    | cons f A =>
      obtain ⟨rfl, rfl⟩ := List.cons.inj hA
      exact .fnF (List.append_assoc K A (D ++ C) ▸ ih1 (K ++ A) (List.append_assoc K A C).symm) (ih2 A rfl)
  | @armF K C₁ h1 ih1 =>
    intro A hA
    cases A with
    | nil => exact hD
    | cons f A =>
      obtain ⟨rfl, rfl⟩ := List.cons.inj hA
      exact .armF (ih1 A rfl)

theorem EnvOk.extend {R : List Var} {ρ : SEnv} {C : List Frame} (h : EnvOk P G₀ R ρ C)
    (D : List Frame) (hD : Ok P G₀ (D ++ C)) : EnvOk P G₀ R ρ (D ++ C) :=
  ⟨h.1, fun y K hy => Ok.insert hD (h.2 y K hy) K rfl⟩

theorem Ok.tail {f : Frame} {C : List Frame} (h : Ok P G₀ (f :: C)) : Ok P G₀ C := by
  cases h <;> assumption

theorem Ok.suffix {A C : List Frame} (h : Ok P G₀ (A ++ C)) : Ok P G₀ C := by
  induction A with
  | nil => exact h
  | cons f A ih => exact ih h.tail

theorem slookups_zip {ρ : SEnv} {xs : List Var} {vs : List SVal}
    (hv : Effects.slookups ρ xs = some vs) {q : SVal → Prop}
    (hq : ∀ x ∈ xs, ∀ v, ρ.lookup x = some v → q v) : ∀ v ∈ vs, q v := by
  induction xs generalizing vs with
  | nil => simp [Effects.slookups] at hv; subst hv; simp
  | cons x xs ih =>
    simp only [Effects.slookups] at hv
    split at hv
    · next v vs' h1 h2 =>
      cases hv
      intro w hw
      rcases List.mem_cons.mp hw with rfl | hw
      · exact hq x List.mem_cons_self _ h1
      · exact ih h2 (fun y hy => hq y (List.mem_cons_of_mem _ hy)) w hw
    · cases hv

theorem lookup_zip_mem {ps : List Var} {vs : List SVal} {y : Var} {v : SVal}
    (h : (ps.zip vs).lookup y = some v) : v ∈ vs := by
  induction ps generalizing vs with
  | nil => simp at h
  | cons p ps ih =>
    cases vs with
    | nil => simp at h
    | cons w vs =>
      rw [List.zip_cons_cons, List.lookup_cons] at h
      split at h
      · cases h; exact List.mem_cons_self
      · exact List.mem_cons_of_mem _ (ih h)

theorem lookup_append {α β : Type} [BEq α] (l l' : List (α × β)) (a : α) :
    (l ++ l').lookup a = (l.lookup a).or (l'.lookup a) := by
  induction l with
  | nil => simp
  | cons p l ih =>
    obtain ⟨k, v⟩ := p
    rw [List.cons_append, List.lookup_cons, List.lookup_cons]
    split
    · rfl
    · exact ih

/-- Parameters bound to values that are no continuations. -/
theorem EnvOk.params {R : List Var} {ρ : SEnv} {C : List Frame} (h : EnvOk P G₀ R ρ C)
    {ps : List Var} {vs : List SVal} (hv : ∀ v ∈ vs, NoCont v) :
    EnvOk P G₀ R (ps.zip vs ++ ρ) C := by
  constructor
  · intro y hy v hl
    rw [lookup_append] at hl
    cases hz : (ps.zip vs).lookup y with
    | some w => rw [hz] at hl; cases hl; exact hv _ (lookup_zip_mem hz)
    | none => rw [hz] at hl; exact h.1 y hy v hl
  · intro y K hl
    rw [lookup_append] at hl
    cases hz : (ps.zip vs).lookup y with
    | some w => rw [hz] at hl; cases hl; exact absurd rfl (hv _ (lookup_zip_mem hz) K)
    | none => rw [hz] at hl; exact h.2 y K hl

theorem EnvOk.cons {R : List Var} {ρ : SEnv} {C : List Frame} (h : EnvOk P G₀ R ρ C) {x : Var}
    {v : SVal} (hv : NoCont v) : EnvOk P G₀ R ((x, v) :: ρ) C := by
  have := h.params (ps := [x]) (vs := [v]) (by simpa using hv)
  exact this

theorem EnvOk.nil (C : List Frame) : EnvOk P G₀ [] [] C :=
  ⟨fun y _ v h => by simp at h, fun y K h => by simp at h⟩

theorem EnvOk.cont {R : List Var} {ρ : SEnv} {C : List Frame} (h : EnvOk P G₀ R ρ C) {k : Var}
    {K : List Frame} (hK : Ok P G₀ (K ++ C)) : EnvOk P G₀ (k :: R) ((k, .cont K) :: ρ) C := by
  constructor
  · intro y hy v hl
    rw [List.mem_cons, not_or] at hy
    rw [List.lookup_cons] at hl
    split at hl
    · next e => exact absurd (by simpa using e) hy.1
    · exact h.1 y hy.2 v hl
  · intro y K' hl
    rw [List.lookup_cons] at hl
    split at hl
    · cases hl; exact hK
    · exact h.2 y K' hl

theorem EnvOk.more {R : List Var} {ρ : SEnv} {C : List Frame} (h : EnvOk P G₀ R ρ C) (k : Var) :
    EnvOk P G₀ (k :: R) ρ C :=
  ⟨fun y hy v hl => h.1 y (fun hm => hy (List.mem_cons_of_mem _ hm)) v hl, h.2⟩

theorem Safe.bindL {x y : X} {C : List Frame} (h : Safe P G₀ (.bind x y) C) : Safe P G₀ x C :=
  fun a ha => h a (.bindL ha)
theorem Safe.bindR {x y : X} {C : List Frame} (h : Safe P G₀ (.bind x y) C) : Safe P G₀ y C :=
  fun a ha => h a (.bindR ha)

theorem skelArms_ab {hs : List Arm} {p : Ab × X} (h : p ∈ skelArms hs) : ∃ q ∈ hs, q.ab = p.1 := by
  induction hs with
  | nil => cases h
  | cons q hs ih =>
    obtain ⟨kd, a, o, ps, rk, b⟩ := q
    rw [skelArms] at h
    rcases List.mem_cons.mp h with rfl | h
    · exact ⟨_, List.mem_cons_self, rfl⟩
    · obtain ⟨q, hq, e⟩ := ih h
      exact ⟨q, List.mem_cons_of_mem _ hq, e⟩

theorem skelArms_mem {hs : List Arm} {kd : Effects.Kind} {a o : Nat} {ps : List Var} {rk : Var}
    {b : Exp} (h : Arm.mk kd a o ps rk b ∈ hs) : (a, skel b) ∈ skelArms hs := by
  induction hs with
  | nil => cases h
  | cons q hs ih =>
    rcases List.mem_cons.mp h with rfl | hm
    · rw [skelArms]; exact List.mem_cons_self
    · obtain ⟨kd', a', o', ps', rk', b'⟩ := q
      rw [skelArms]; exact List.mem_cons_of_mem _ (ih hm)

theorem firstOrderArms_mem {R : List Var} {hs : List Arm} {kd : Effects.Kind} {a o : Nat}
    {ps : List Var} {rk : Var} {b : Exp} (hf : FirstOrderArms R hs) (h : Arm.mk kd a o ps rk b ∈ hs) :
    FirstOrder (rk :: R) b := by
  induction hs with
  | nil => cases h
  | cons q hs ih =>
    rcases List.mem_cons.mp h with rfl | hm
    · exact hf.1
    · obtain ⟨kd', a', o', ps', rk', b'⟩ := q
      exact ih hf.2 hm

theorem Safe.handle {b d : X} {hs : List Arm} {dx : Var} {dE : Exp} {ρ : SEnv} {C : List Frame}
    (h : Safe P G₀ (.handle b (skelArms hs) d) C) : Safe P G₀ b (.hdl hs dx dE ρ :: C) := by
  intro a ha
  by_cases hh : ∃ p ∈ skelArms hs, p.1 = a
  · obtain ⟨p, hp, rfl⟩ := hh
    obtain ⟨q, hq, e⟩ := skelArms_ab hp
    exact .inl ⟨hs, dx, dE, ρ, List.mem_cons_self, q, hq, e⟩
  · exact (h a (.body ha (fun p hp e => hh ⟨p, hp, e⟩))).mono (fun f hf => List.mem_cons_of_mem _ hf)

/-- What `findH` finds. -/
theorem findH_split {a o : Nat} {C K C' : List Frame} {f : Frame} {h : Arm} {ρ' : SEnv}
    (hf : Effects.findH a o C = some (K, f, h, ρ', C')) :
    C = K ++ f :: C' ∧ ∃ hs dx d, f = .hdl hs dx d ρ' ∧ h ∈ hs := by
  induction C generalizing K with
  | nil => simp [Effects.findH] at hf
  | cons g C ih =>
    have step : ∀ g, (Effects.findH a o C).map (fun r => (g :: r.1, r.2)) = some (K, f, h, ρ', C') →
        g :: C = K ++ f :: C' ∧ ∃ hs dx d, f = .hdl hs dx d ρ' ∧ h ∈ hs := by
      intro g hg
      obtain ⟨⟨K', r⟩, hr, he⟩ := Option.map_eq_some_iff.mp hg
      obtain ⟨rfl, rfl⟩ := Prod.mk.inj he
      obtain ⟨h1, h2⟩ := ih hr
      exact ⟨by rw [h1]; rfl, h2⟩
    cases g with
    | letF x b ρ => exact step _ hf
    | fnF K₂ => exact step _ hf
    | armF K₂ => exact step _ hf
    | hdl hs dx d ρ =>
      rw [Effects.findH] at hf
      split at hf
      · next h' hh =>
        cases hf
        exact ⟨rfl, hs, dx, d, rfl, List.mem_of_find?_eq_some hh⟩
      · exact step _ hf

/-- The invariant of a state. -/
def StOk (P : Prog) (G₀ : Ab → Prop) {W : Type} : Effects.SState W → Prop
  | (.ev ρ e, C, _) => ∃ R, FirstOrder R e ∧ EnvOk P G₀ R ρ C ∧ Safe P G₀ (skel e) C ∧ Ok P G₀ C
  | (.rt v, C, _) => NoCont v ∧ Ok P G₀ C

theorem base_noCont (b : Int) : NoCont (.base b) := fun K h => by cases h

variable {W : Type} {M : Effects.Mach W} {Q : Effects.Prog}

theorem step_ok (hP : Sees P Q) {s s' : Effects.SState W} (hs : Effects.step M Q.funs s = some s')
    (h : StOk P G₀ s) : StOk P G₀ s' := by
  obtain ⟨ctl, C, w⟩ := s
  cases ctl with
  | rt v =>
    obtain ⟨hv, hC⟩ := h
    cases C with
    | nil => simp [Effects.step] at hs
    | cons f C =>
      cases hC with
      | @letF x b ρ _ R h1 h2 h3 h4 h5 =>
        cases hs
        exact ⟨R, h1, EnvOk.cons ⟨h3, h4⟩ hv, h2, h5⟩
      | @hdl hs' dx d ρ _ R h1 h2 h3 h4 h5 h6 h7 =>
        cases hs
        exact ⟨R, h2, EnvOk.cons ⟨h5, h6⟩ hv, h4, h7⟩
      | fnF h1 h2 => cases hs; exact ⟨hv, h1⟩
      | armF h1 => cases hs; exact ⟨hv, h1⟩
  | ev ρ e =>
    obtain ⟨R, hfo, henv, hsafe, hC⟩ := h
    cases e with
    | var x =>
      obtain ⟨v, hv, rfl⟩ := Option.map_eq_some_iff.mp hs
      exact ⟨henv.1 x hfo v hv, hC⟩
    | prim p xs =>
      simp only [Effects.step] at hs
      split at hs
      · obtain ⟨r, -, rfl⟩ := Option.map_eq_some_iff.mp hs
        exact ⟨base_noCont _, hC⟩
      · cases hs
    | lam ps b => exact hfo.elim
    | lamD ps b => exact hfo.elim
    | app c xs => exact hfo.elim
    | appD c xs => exact hfo.elim
    | call f xs =>
      simp only [Effects.step] at hs
      split at hs
      · next ps b vs h1 h2 =>
        split at hs
        · cases hs
          obtain ⟨fn, hfn, hbody⟩ := hP.funs f ps b h1
          have hv := slookups_zip h2 (q := NoCont) (fun x hx v hl => henv.1 x (hfo x hx) v hl)
          refine ⟨[], hP.first.2 f ps b h1, ?_, ?_, hC⟩
          · have := (EnvOk.nil (P := P) (G₀ := G₀) C).params (ps := ps) hv
            rwa [List.append_nil] at this
          · intro a ha
            exact hsafe a (.call hfn (by rw [hbody]; exact ha))
        · cases hs
      · cases hs
    | op a o xs =>
      simp only [Effects.step] at hs
      split at hs
      · next vs K f a' o' ps rk b ρ' C' h1 h2 =>
        split at hs
        · cases hs
          obtain ⟨rfl, hs', dx, d, rfl, hm⟩ := findH_split h2
          have hv := slookups_zip h1 (q := NoCont) (fun x hx v hl => henv.1 x (hfo x hx) v hl)
          have hKC : Ok P G₀ ((K ++ [.hdl hs' dx d ρ']) ++ C') := by simpa using hC
          cases hC.suffix with
          | @hdl _ _ _ _ _ R' g1 g2 g3 g4 g5 g6 g7 =>
            have hok : Ok P G₀ ([.armF (K ++ [.hdl hs' dx d ρ'])] ++ C') := .armF g7
            have he : EnvOk P G₀ (rk :: R') ((rk, .cont (K ++ [.hdl hs' dx d ρ'])) :: ρ') C' :=
              EnvOk.cont ⟨g5, g6⟩ hKC
            refine ⟨rk :: R', firstOrderArms_mem g1 hm, (he.params hv).extend _ hok, ?_, hok⟩
            exact (g3 _ (skelArms_mem hm)).mono (fun f hf => List.mem_cons_of_mem _ hf)
        · cases hs
      · cases hs
    | fnop a o xs =>
      simp only [Effects.step] at hs
      split at hs
      · next vs K f a' o' ps rk b ρ' C' h1 h2 =>
        split at hs
        · cases hs
          obtain ⟨rfl, hs', dx, d, rfl, hm⟩ := findH_split h2
          have hv := slookups_zip h1 (q := NoCont) (fun x hx v hl => henv.1 x (hfo x hx) v hl)
          have hKC : Ok P G₀ ((K ++ [.hdl hs' dx d ρ']) ++ C') := by simpa using hC
          cases hC.suffix with
          | @hdl _ _ _ _ _ R' g1 g2 g3 g4 g5 g6 g7 =>
            have hok : Ok P G₀ ([.fnF (K ++ [.hdl hs' dx d ρ'])] ++ C') := .fnF hKC g7
            have he : EnvOk P G₀ (rk :: R') ρ' C' := EnvOk.more ⟨g5, g6⟩ rk
            refine ⟨rk :: R', firstOrderArms_mem g1 hm, (he.params hv).extend _ hok, ?_, hok⟩
            exact (g3 _ (skelArms_mem hm)).mono (fun f hf => List.mem_cons_of_mem _ hf)
        · cases hs
      · cases hs
    | resume k x =>
      simp only [Effects.step] at hs
      split at hs
      · next K v h1 h2 =>
        cases hs
        exact ⟨henv.1 x hfo v h2, henv.2 k K h1⟩
      · cases hs
    | letE x a b =>
      cases hs
      have hok : Ok P G₀ ([.letF x b ρ] ++ C) :=
        .letF hfo.2 hsafe.bindR henv.1 henv.2 hC
      exact ⟨R, hfo.1, henv.extend _ hok, hsafe.bindL.mono (fun f hf => List.mem_cons_of_mem _ hf), hok⟩
    | ite x a b =>
      simp only [Effects.step] at hs
      split at hs
      · next n hn =>
        cases hs
        split
        · exact ⟨R, hfo.1, henv, fun a ha => hsafe a (.seqL ha), hC⟩
        · exact ⟨R, hfo.2, henv, fun a ha => hsafe a (.seqR ha), hC⟩
      · cases hs
    | handle b hs' dx d =>
      cases hs
      have hok : Ok P G₀ ([.hdl hs' dx d ρ] ++ C) :=
        .hdl hfo.2.1 hfo.2.2 (fun h hm a ha => hsafe a (.arm hm ha)) (fun a ha => hsafe a (.done ha))
          henv.1 henv.2 hC
      exact ⟨R, hfo.1, henv.extend _ hok, Safe.handle hsafe, hok⟩

theorem steps_ok (hP : Sees P Q) (n : Nat) {s s' : Effects.SState W}
    (hs : Effects.steps M Q.funs n s = some s') (h : StOk P G₀ s) : StOk P G₀ s' := by
  induction n generalizing s with
  | zero => cases hs; exact h
  | succ n ih =>
    obtain ⟨t, h1, h2⟩ := Option.bind_eq_some_iff.mp hs
    exact ih h2 (step_ok hP h1 h)

/-- An operation the machine performs is handled, or escapes from `main`. -/
theorem performed (hP : Sees P Q) {n : Nat} {w w' : W} {a : Ab} {c : Effects.Ctl} {C : List Frame}
    (hs : Effects.steps M Q.funs n (.ev [] Q.main, [], w) = some (c, C, w'))
    (hp : Performs a (c, C, w')) : Handled a C ∨ Escapes P a (skel Q.main) := by
  have h0 : StOk P (fun a => Escapes P a (skel Q.main)) (W := W) (.ev [] Q.main, [], w) :=
    ⟨[], hP.first.1, EnvOk.nil [], fun a ha => .inr ha, .nil⟩
  have h := steps_ok hP n hs h0
  cases c with
  | rt v => exact hp.elim
  | ev ρ e =>
    obtain ⟨R, -, -, hsafe, -⟩ := h
    cases e with
    | op b o xs => cases hp; exact hsafe a .op
    | fnop b o xs => cases hp; exact hsafe a .op
    | _ => exact hp.elim

end Verif.EffectTrack
