import Verif.EffectTrack.Spec
import Verif.Solver.Exists

/-! # Proofs about effect tracking -/

namespace Verif.EffectTrack
open Verif.Types

/-- The abilities a row lists. -/
abbrev abs (r : Row) (a : Ab) : Prop := a ∈ r.effects.map Eff.ability

/-! ## Merging -/

theorem mergeEffs_base {a : Ab} {base : List Eff} (es : List Eff) (h : a ∈ base.map Eff.ability) :
    a ∈ (mergeEffs base es).map Eff.ability := by
  induction es generalizing base with
  | nil => exact h
  | cons e es ih =>
    rw [mergeEffs]
    split
    · exact ih h
    · exact ih (by rw [List.map_append]; exact List.mem_append_left _ h)

theorem mergeEffs_inc {a : Ab} (base : List Eff) {es : List Eff} (h : a ∈ es.map Eff.ability) :
    a ∈ (mergeEffs base es).map Eff.ability := by
  induction es generalizing base with
  | nil => simp at h
  | cons e es ih =>
    rw [mergeEffs]
    rw [List.map_cons, List.mem_cons] at h
    split
    · next hb =>
      rcases h with rfl | h
      · obtain ⟨r, hr, he⟩ := List.any_eq_true.mp hb
        exact mergeEffs_base _ (List.mem_map.mpr ⟨r, hr, by simpa using he⟩)
      · exact ih _ h
    · rcases h with rfl | h
      · exact mergeEffs_base _ (by simp)
      · exact ih _ h

theorem pure_abs {r : Row} (h : r.isPure = true) (a : Ab) : ¬ abs r a := by
  simp only [Row.isPure, Bool.and_eq_true, List.isEmpty_iff] at h
  simp [abs, h.1]

theorem merge_cur {c : Ctx} {r : Row} {a : Ab} (h : abs c.cur a ∨ abs r a) :
    abs (c.merge r).cur a := by
  unfold Ctx.merge
  split
  · next hp => exact h.resolve_right (pure_abs hp a)
  · split
    · next hp => exact h.resolve_left (pure_abs hp a)
    · have key : a ∈ (mergeEffs c.cur.effects r.effects).map Eff.ability :=
        h.elim (mergeEffs_base _) (mergeEffs_inc _)
      split
      · exact key
      · exact key
      · exact key
      · split <;> exact key

theorem merge_cs (c : Ctx) (r : Row) : (c.merge r).cs = c.cs := by
  unfold Ctx.merge
  split
  · rfl
  · split
    · rfl
    · split
      · rfl
      · rfl
      · rfl
      · split <;> rfl

theorem merge_closed {c : Ctx} {r : Row} (h : c.cur.rest = none) (h' : r.rest = none) :
    (c.merge r).cur.rest = none := by
  unfold Ctx.merge
  split
  · exact h
  · split
    · exact h'
    · simp [h, h']

theorem inst_cur (c : Ctx) (r : Row) : (c.inst r).2.cur = c.cur := by
  unfold Ctx.inst; split <;> rfl

theorem inst_cs (c : Ctx) (r : Row) : (c.inst r).2.cs = c.cs := by
  unfold Ctx.inst; split <;> rfl

theorem inst_effects (c : Ctx) (r : Row) : (c.inst r).1.effects = r.effects := by
  unfold Ctx.inst; split <;> rfl

theorem inst_closed {c : Ctx} {r : Row} (h : r.rest = none) : (c.inst r).1 = r := by
  unfold Ctx.inst; simp [h]

theorem callRow_cur {c : Ctx} {r : Row} {a : Ab} (h : abs c.cur a ∨ abs r a) :
    abs (c.callRow r).cur a := merge_cur h

theorem callRow_cs {c : Ctx} {r : Row} {k : Solver.Con} (h : k ∈ c.cs) : k ∈ (c.callRow r).cs := by
  unfold Ctx.callRow
  simp only [merge_cs]
  exact List.mem_append_left _ h

/-! ## The walks only add -/

theorem infer_call (env : Env) (f : Nat) (c : Ctx) : infer env (.call f) c =
    (c.inst (schemeRow env f)).2.callRow (c.inst (schemeRow env f)).1 := rfl

theorem infer_mono (env : Env) (x : X) (c : Ctx) :
    (∀ a, abs c.cur a → abs (infer env x c).cur a) ∧ (∀ k ∈ c.cs, k ∈ (infer env x c).cs) := by
  match x with
  | .nop => exact ⟨fun _ h => h, fun _ h => h⟩
  | .op b => exact ⟨fun _ h => callRow_cur (.inl h), fun _ h => callRow_cs h⟩
  | .call f =>
    rw [infer_call]
    refine ⟨fun _ h => callRow_cur (.inl ?_), fun _ h => callRow_cs ?_⟩
    · rw [inst_cur]; exact h
    · rw [inst_cs]; exact h
  | .meth f => simp only [infer, inst_cur, inst_cs]; exact ⟨fun _ h => h, fun _ h => h⟩
  | .seq x y =>
    exact ⟨fun a h => (infer_mono env y _).1 a ((infer_mono env x _).1 a h), fun k h => (infer_mono env y _).2 k ((infer_mono env x _).2 k h)⟩
  | .bind x y =>
    refine ⟨fun a h => (infer_mono env y _).1 a (merge_cur (.inl h)), fun k h => (infer_mono env y _).2 k ?_⟩
    rw [merge_cs]
    exact (infer_mono env x { c with cur := pureRow }).2 k h
  | .blind x => exact ⟨fun _ h => h, fun _ h => h⟩
  | .handle b hs d => exact ⟨fun _ h => h, fun _ h => h⟩

theorem handleRow_cur (env : Env) (io : Ab) (b : X) (hs : List (Ab × X)) (d : X) (c : Ctx) :
    (handleRow env io b hs d c).cur = c.cur := rfl

theorem handleRow_cs {env : Env} {io : Ab} {b : X} {hs : List (Ab × X)} {d : X} {c : Ctx}
    {k : Solver.Con} (h : k ∈ c.cs) : k ∈ (handleRow env io b hs d c).cs :=
  List.mem_append_left _ ((infer_mono env d _).2 k ((infer_mono env b _).2 k h))

mutual
theorem check_mono (env : Env) (io : Ab) (x : X) (c : Ctx) :
    (∀ a, abs c.cur a → abs (check env io x c).cur a) ∧ (∀ k ∈ c.cs, k ∈ (check env io x c).cs) := by
  match x with
  | .nop => exact ⟨fun _ h => h, fun _ h => h⟩
  | .op b => exact infer_mono env (.op b) c
  | .call f =>
    rw [check, inst_cur, inst_cs]
    exact infer_mono env (.call f) c
  | .meth f => exact infer_mono env (.meth f) c
  | .seq x y =>
    rw [check]
    obtain ⟨i1, i2⟩ := infer_mono env (.seq x y) c
    obtain ⟨x1, x2⟩ := check_mono env io x (infer env (.seq x y) c)
    obtain ⟨y1, y2⟩ := check_mono env io y (check env io x (infer env (.seq x y) c))
    exact ⟨fun a h => y1 a (x1 a (i1 a h)), fun k h => y2 k (x2 k (i2 k h))⟩
  | .bind x y =>
    rw [check]
    obtain ⟨i1, i2⟩ := infer_mono env (.bind x y) c
    obtain ⟨_, x2⟩ := check_mono env io x { infer env (.bind x y) c with cur := pureRow }
    obtain ⟨y1, y2⟩ := check_mono env io y (Ctx.merge
      { check env io x { infer env (.bind x y) c with cur := pureRow } with
        cur := (infer env (.bind x y) c).cur }
      (check env io x { infer env (.bind x y) c with cur := pureRow }).cur)
    refine ⟨fun a h => y1 a (merge_cur (.inl (i1 a h))), fun k h => y2 k ?_⟩
    rw [merge_cs]
    exact x2 k (i2 k h)
  | .blind x =>
    rw [check]
    obtain ⟨i1, i2⟩ := infer_mono env x c
    obtain ⟨x1, x2⟩ := check_mono env io x (infer env x c)
    exact ⟨fun a h => x1 a (i1 a h), fun k h => x2 k (i2 k h)⟩
  | .handle b hs d =>
    rw [check]
    generalize hc0 : handleRow env io b hs d c = c0
    have e0 : c0.cur = c.cur := by rw [← hc0]; rfl
    have k0 : ∀ k ∈ c.cs, k ∈ c0.cs := fun k h => hc0 ▸ handleRow_cs h
    obtain ⟨_, b2⟩ := check_mono env io b { c0 with cur := ⟨[], some c0.next⟩, next := c0.next + 1 }
    generalize hc1 : check env io b { c0 with cur := ⟨[], some c0.next⟩, next := c0.next + 1 } = c1 at b2
    obtain ⟨a1, a2⟩ := checkArms_mono env io hs { c1 with cur := c0.cur }
    obtain ⟨d1, d2⟩ := check_mono env io d (checkArms env io hs { c1 with cur := c0.cur })
    exact ⟨fun a h => d1 a (a1 a (by simpa [e0] using h)), fun k h => d2 k (a2 k (b2 k (k0 k h)))⟩
theorem checkArms_mono (env : Env) (io : Ab) (hs : List (Ab × X)) (c : Ctx) :
    (∀ a, abs c.cur a → abs (checkArms env io hs c).cur a) ∧
      (∀ k ∈ c.cs, k ∈ (checkArms env io hs c).cs) := by
  match hs with
  | [] => exact ⟨fun _ h => h, fun _ h => h⟩
  | (_, x) :: hs =>
    rw [checkArms]
    obtain ⟨x1, x2⟩ := check_mono env io x c
    obtain ⟨y1, y2⟩ := checkArms_mono env io hs (check env io x c)
    exact ⟨fun a h => y1 a (x1 a h), fun k h => y2 k (x2 k h)⟩
end

/-! ## Closed rows stay closed -/

mutual
theorem Calls.imp {p q : Nat → Prop} (h : ∀ f, p f → q f) (x : X) (hx : Calls p x) : Calls q x := by
  match x with
  | .nop | .op _ | .meth _ => trivial
  | .call f => exact h f hx
  | .seq x y | .bind x y => exact ⟨Calls.imp h x hx.1, Calls.imp h y hx.2⟩
  | .blind x => exact Calls.imp h x hx
  | .handle b hs d => exact ⟨Calls.imp h b hx.1, CallsArms.imp h hs hx.2.1, Calls.imp h d hx.2.2⟩
theorem CallsArms.imp {p q : Nat → Prop} (h : ∀ f, p f → q f) (hs : List (Ab × X))
    (hx : CallsArms p hs) : CallsArms q hs := by
  match hs with
  | [] => trivial
  | (_, x) :: hs => exact ⟨Calls.imp h x hx.1, CallsArms.imp h hs hx.2⟩
end

theorem infer_closed (env : Env) (x : X) (c : Ctx)
    (hx : Calls (fun f => (schemeRow env f).rest = none) x) (h : c.cur.rest = none) :
    (infer env x c).cur.rest = none := by
  match x with
  | .nop => exact h
  | .op b => exact merge_closed h rfl
  | .call f =>
    rw [infer_call]
    have hx : (schemeRow env f).rest = none := hx
    rw [inst_closed hx]
    exact merge_closed (by simp only [inst_cur]; exact h) hx
  | .meth f => rw [infer, inst_cur]; exact h
  | .seq x y => exact infer_closed env y _ hx.2 (infer_closed env x _ hx.1 h)
  | .bind x y => exact infer_closed env y _ hx.2 (merge_closed h (infer_closed env x _ hx.1 rfl))
  | .blind x => exact h
  | .handle b hs d => exact h

mutual
theorem check_closed (env : Env) (io : Ab) (x : X) (c : Ctx)
    (hx : Calls (fun f => (schemeRow env f).rest = none) x) (h : c.cur.rest = none) :
    (check env io x c).cur.rest = none := by
  match x with
  | .nop => exact h
  | .op b => exact infer_closed env (.op b) c hx h
  | .call f => rw [check, inst_cur]; exact infer_closed env (.call f) c hx h
  | .meth f => exact infer_closed env (.meth f) c hx h
  | .seq x y =>
    rw [check]
    exact check_closed env io y _ hx.2 (check_closed env io x _ hx.1 (infer_closed env _ c hx h))
  | .bind x y =>
    rw [check]
    exact check_closed env io y _ hx.2 (merge_closed (infer_closed env (.bind x y) c hx h)
      (check_closed env io x _ hx.1 rfl))
  | .blind x =>
    rw [check]
    exact check_closed env io x _ hx (infer_closed env x c hx h)
  | .handle b hs d =>
    rw [check]
    exact check_closed env io d _ hx.2.2 (checkArms_closed env io hs _ hx.2.1 h)
theorem checkArms_closed (env : Env) (io : Ab) (hs : List (Ab × X)) (c : Ctx)
    (hx : CallsArms (fun f => (schemeRow env f).rest = none) hs) (h : c.cur.rest = none) :
    (checkArms env io hs c).cur.rest = none := by
  match hs with
  | [] => exact h
  | (_, x) :: hs =>
    rw [checkArms]
    exact checkArms_closed env io hs _ hx.2 (check_closed env io x c hx.1 h)
end

/-! ## What the rows have to contain -/

mutual
/-- `F` contains everything that may leave the expression, if `E f` does for the body of `f`. -/
def Cover (P : Prog) (E : Nat → Ab → Prop) (F : Ab → Prop) : X → Prop
  | .nop => True
  | .op a => F a
  | .call f => ∀ a, E f a → F a
  | .meth f => ∀ a, ¬ Escapes P a (.meth f)
  | .seq x y | .bind x y => Cover P E F x ∧ Cover P E F y
  | .blind x => Cover P E F x
  | .handle b hs d => (Complete P b hs ∨ Cover P E (fun a => F a ∨ ∃ h ∈ hs, h.1 = a) b) ∧
      CoverArms P E F hs ∧ Cover P E F d
def CoverArms (P : Prog) (E : Nat → Ab → Prop) (F : Ab → Prop) : List (Ab × X) → Prop
  | [] => True
  | (_, x) :: hs => Cover P E F x ∧ CoverArms P E F hs
end

theorem coverArms_mem {P : Prog} {E : Nat → Ab → Prop} {F : Ab → Prop} {hs : List (Ab × X)}
    (h : CoverArms P E F hs) {p : Ab × X} (hp : p ∈ hs) : Cover P E F p.2 := by
  induction hs with
  | nil => cases hp
  | cons q hs ih =>
    rcases List.mem_cons.mp hp with rfl | hp
    · exact h.1
    · exact ih h.2 hp

theorem escapes_cover {P : Prog} {E : Nat → Ab → Prop}
    (hE : ∀ f fn, P.fns[f]? = some fn → Cover P E (E f) fn.body) {a : Ab} {x : X}
    (h : Escapes P a x) : ∀ F, Cover P E F x → F a := by
  induction h with
  | op => exact fun F hc => hc
  | call hf _ ih => exact fun F hc => hc a (ih _ (hE _ _ hf))
  | meth hf he _ => exact fun F hc => absurd (.meth hf he) (hc a)
  | seqL _ ih => exact fun F hc => ih F hc.1
  | seqR _ ih => exact fun F hc => ih F hc.2
  | bindL _ ih => exact fun F hc => ih F hc.1
  | bindR _ ih => exact fun F hc => ih F hc.2
  | blind _ ih => exact fun F hc => ih F hc
  | body hb hn ih =>
    intro F hc
    rcases hc.1 with hcomp | hcov
    · obtain ⟨h, hm, e⟩ := hcomp a hb
      exact absurd e (hn h hm)
    · rcases ih _ hcov with h | ⟨h, hm, e⟩
      · exact h
      · exact absurd e (hn h hm)
  | arm hm _ ih => exact fun F hc => ih F (coverArms_mem hc.2.1 hm)
  | done _ ih => exact fun F hc => ih F hc.2.2

/-! ## The walks cover -/

/-- The row of the scheme of `f` is known, or `F` has the effects of `f` anyway. -/
def Known (env : Env) (E : Nat → Ab → Prop) (F : Ab → Prop) (f : Nat) : Prop :=
  (∀ a, E f a → abs (schemeRow env f) a) ∨ ∀ a, E f a → F a

theorem infer_cover {P : Prog} {env : Env} {E : Nat → Ab → Prop} {F : Ab → Prop} (x : X) (c : Ctx)
    (hp : Plain x) (hx : Calls (Known env E F) x) (hF : ∀ a, abs (infer env x c).cur a → F a) :
    Cover P E F x := by
  match x with
  | .nop => trivial
  | .op b => exact hF b (callRow_cur (.inr (by simp [abs, opRow, Eff.ability])))
  | .call f =>
    intro a ha
    rcases hx with h | h
    · refine hF a ?_
      rw [infer_call]
      refine callRow_cur (.inr ?_)
      simp only [abs, inst_effects]
      exact h a ha
    · exact h a ha
  | .meth f => exact hp.elim
  | .seq x y =>
    exact ⟨infer_cover x c hp.1 hx.1 (fun a h => hF a ((infer_mono env y _).1 a h)), infer_cover y _ hp.2 hx.2 hF⟩
  | .bind x y =>
    exact ⟨infer_cover x { c with cur := pureRow } hp.1 hx.1
      (fun a h => hF a ((infer_mono env y _).1 a (merge_cur (.inr h)))), infer_cover y _ hp.2 hx.2 hF⟩
  | .blind x => exact hp.elim
  | .handle b hs d => exact hp.elim

/-- What the solver has to guarantee: a closed row with an effect on the left has all effects
listed on the right. -/
def Boundaries (cs : List Solver.Con) : Prop :=
  ∀ r r', .req r r' ∈ cs → r.rest = none → r.effects ≠ [] → ∀ a, abs r' a → abs r a

theorem Boundaries.mono {cs cs' : List Solver.Con} (h : Boundaries cs') (hs : ∀ k ∈ cs, k ∈ cs') :
    Boundaries cs := fun r r' hm => h r r' (hs _ hm)

/-- The row is closed and lists an effect. -/
def Shut (r : Row) : Prop := r.rest = none ∧ ∃ a, abs r a

theorem Shut.ne {r : Row} (h : Shut r) : r.effects ≠ [] := by
  obtain ⟨-, a, ha⟩ := h
  intro e
  simp [abs, e] at ha

theorem shut_infer {env : Env} {x : X} {c : Ctx}
    (hx : Calls (fun f => (schemeRow env f).rest = none) x) (h : Shut c.cur) :
    Shut (infer env x c).cur :=
  ⟨infer_closed env x c hx h.1, h.2.imp fun a ha => (infer_mono env x c).1 a ha⟩

theorem shut_check {env : Env} {io : Ab} {x : X} {c : Ctx}
    (hx : Calls (fun f => (schemeRow env f).rest = none) x) (h : Shut c.cur) :
    Shut (check env io x c).cur :=
  ⟨check_closed env io x c hx h.1, h.2.imp fun a ha => (check_mono env io x c).1 a ha⟩

theorem shut_checkArms {env : Env} {io : Ab} {hs : List (Ab × X)} {c : Ctx}
    (hx : CallsArms (fun f => (schemeRow env f).rest = none) hs) (h : Shut c.cur) :
    Shut (checkArms env io hs c).cur :=
  ⟨checkArms_closed env io hs c hx h.1, h.2.imp fun a ha => (checkArms_mono env io hs c).1 a ha⟩

theorem removeHandled_abs {r : Row} {ids : List Ab} {a : Ab} (h : abs r a) (hn : a ∉ ids) :
    abs (removeHandled r ids) a := by
  obtain ⟨e, he, rfl⟩ := List.mem_map.mp h
  exact List.mem_map.mpr ⟨e, List.mem_filter.mpr ⟨he, by simpa using hn⟩, rfl⟩

mutual
theorem check_cover {P : Prog} {env : Env} {E : Nat → Ab → Prop} {F : Ab → Prop} {io : Ab}
    {strict : Bool} (x : X) (c : Ctx) (ht : Tracked P strict x) (hx : Calls (Known env E F) x)
    (hst : strict = true → Shut c.cur ∧ Calls (fun f => (schemeRow env f).rest = none) x)
    (hk : Boundaries (check env io x c).cs) (hF : ∀ a, abs (check env io x c).cur a → F a) :
    Cover P E F x := by
  match x with
  | .nop => trivial
  | .op b => exact infer_cover (.op b) c trivial hx hF
  | .call f =>
    refine infer_cover (.call f) c trivial hx (fun a h => hF a ?_)
    rw [check, inst_cur]; exact h
  | .meth f => exact ht
  | .seq x y =>
    rw [check] at hk hF
    refine ⟨check_cover (io := io) x (infer env (.seq x y) c) ht.1 hx.1
        (fun s => ⟨shut_infer (hst s).2 (hst s).1, (hst s).2.1⟩)
        (hk.mono (check_mono env io y _).2) (fun a h => hF a ((check_mono env io y _).1 a h)),
      check_cover (io := io) y _ ht.2 hx.2
        (fun s => ⟨shut_check (hst s).2.1 (shut_infer (hst s).2 (hst s).1), (hst s).2.2⟩) hk hF⟩
  | .bind x y =>
    rw [check] at hk hF
    refine ⟨check_cover (io := io) (strict := false) x { infer env (.bind x y) c with cur := pureRow }
        ht.1 hx.1 (fun s => by cases s) (hk.mono ?_)
        (fun a h => hF a ((check_mono env io y _).1 a (merge_cur (.inr h)))),
      check_cover (io := io) y _ ht.2 hx.2 (fun s => ⟨?_, (hst s).2.2⟩) hk hF⟩
    · intro k hm
      refine (check_mono env io y _).2 k ?_
      rw [merge_cs]
      exact hm
    · have hs := shut_infer (x := .bind x y) (hst s).2 (hst s).1
      exact ⟨merge_closed hs.1 (check_closed env io x _ (hst s).2.1 rfl),
        hs.2.imp fun a ha => merge_cur (.inl ha)⟩
  | .blind x =>
    rw [check] at hk hF
    exact check_cover (io := io) x (infer env x c) ht hx
      (fun s => ⟨shut_infer (x := x) (hst s).2 (hst s).1, (hst s).2⟩) hk hF
  | .handle b hs d =>
    rw [check] at hk hF
    have hcur := handleRow_cur env io b hs d c
    have hcon : Solver.Con.req c.cur
        (if handledIds io hs = [] then
          (infer env b { c with cur := ⟨[], some c.next⟩, next := c.next + 1 }).cur
         else removeHandled (infer env b { c with cur := ⟨[], some c.next⟩, next := c.next + 1 }).cur
          (handledIds io hs)) ∈ (handleRow env io b hs d c).cs :=
      List.mem_append_right _ (by simp)
    generalize handleRow env io b hs d c = c0 at *
    have m1 := check_mono env io b { c0 with cur := ⟨[], some c0.next⟩, next := c0.next + 1 }
    generalize check env io b { c0 with cur := ⟨[], some c0.next⟩, next := c0.next + 1 } = c1 at *
    have m2 := checkArms_mono env io hs { c1 with cur := c0.cur }
    have m3 := check_mono env io d (checkArms env io hs { c1 with cur := c0.cur })
    refine ⟨?_, ?_, ?_⟩
    · rcases ht.1 with h | ⟨s, hp⟩
      · exact .inl h
      · refine .inr (infer_cover (env := env) b { c with cur := ⟨[], some c.next⟩, next := c.next + 1 } hp
          (Calls.imp (fun f hf => ?_) b hx.1) ?_)
        · exact hf.imp id (fun h a ha => Or.inl (h a ha))
        · intro a ha
          by_cases hh : ∃ h ∈ hs, h.1 = a
          · exact .inr hh
          · refine .inl (hF a (m3.1 a (m2.1 a ?_)))
            simp only [hcur]
            refine hk _ _ (m3.2 _ (m2.2 _ (m1.2 _ hcon))) (hst s).1.1 (hst s).1.ne a ?_
            split
            · exact ha
            · refine removeHandled_abs ha (fun hm => hh ?_)
              obtain ⟨h, hm, e⟩ := List.mem_map.mp (List.mem_of_mem_filter hm)
              exact ⟨h, hm, e⟩
    · exact checkArms_cover (io := io) hs { c1 with cur := c0.cur } ht.2.1 hx.2.1
        (fun s => ⟨by simpa only [hcur] using (hst s).1, (hst s).2.2.1⟩) (hk.mono m3.2)
        (fun a h => hF a (m3.1 a h))
    · exact check_cover (io := io) d _ ht.2.2 hx.2.2
        (fun s => ⟨shut_checkArms (hst s).2.2.1 (by simpa only [hcur] using (hst s).1),
          (hst s).2.2.2⟩) hk hF
theorem checkArms_cover {P : Prog} {env : Env} {E : Nat → Ab → Prop} {F : Ab → Prop} {io : Ab}
    {strict : Bool} (hs : List (Ab × X)) (c : Ctx) (ht : TrackedArms P strict hs)
    (hx : CallsArms (Known env E F) hs)
    (hst : strict = true → Shut c.cur ∧ CallsArms (fun f => (schemeRow env f).rest = none) hs)
    (hk : Boundaries (checkArms env io hs c).cs)
    (hF : ∀ a, abs (checkArms env io hs c).cur a → F a) : CoverArms P E F hs := by
  match hs with
  | [] => trivial
  | (_, x) :: hs =>
    rw [checkArms] at hk hF
    have m := checkArms_mono env io hs (check env io x c)
    exact ⟨check_cover (io := io) x c ht.1 hx.1 (fun s => ⟨(hst s).1, (hst s).2.1⟩) (hk.mono m.2)
        (fun a h => hF a (m.1 a h)),
      checkArms_cover (io := io) hs _ ht.2 hx.2
        (fun s => ⟨shut_check (hst s).2.1 (hst s).1, (hst s).2.2⟩) hk hF⟩
end

/-! ## The solver keeps the boundaries -/

theorem onEffL_ability (θ : Solver.Sub) (es : List Eff) :
    (θ.onEffL es).map Eff.ability = es.map Eff.ability := by
  induction es with
  | nil => rfl
  | cons e es ih =>
    obtain ⟨a, as⟩ := e
    rw [Solver.Sub.onEffL, Solver.Sub.onEff, List.map_cons, ih]
    rfl

theorem boundaries_of_solve {n : Nat} {cs : List Solver.Con} {bs : List Bool} {st : Solver.St}
    (hc : ∀ c ∈ cs, c.Simple) (hs : Solver.solve n cs Solver.St.init = some (bs, st))
    (hb : ∀ b ∈ bs, b = true) : Boundaries cs := by
  have hi := Solver.reserved_inv (Solver.reach_inv .init) (cs.flatMap Solver.Con.rowVars)
  have hbl := Solver.conBelow_reserved Solver.St.init.next hc
  obtain ⟨i1, -⟩ := Solver.solveLoop_inv hi hbl hs
  obtain ⟨s1, s2⟩ := Solver.solveLoop_sound (E := false) (Or.inr ⟨hi, hbl⟩) hs
    (Solver.solution_solves i1)
  intro r r' hm hr hne a ha
  obtain ⟨j, hj, e⟩ := List.getElem_of_mem hm
  have hz : (Solver.Con.req r r', bs[j]'(by omega)) ∈ cs.zip bs := by
    rw [← e]
    exact List.mem_iff_getElem.mpr ⟨j, by simp; omega, by simp⟩
  have hsat := s2 _ _ hz (hb _ (List.getElem_mem _)) 0
  rcases hsat with ⟨h, -, -⟩ | ⟨h, -⟩ | ⟨h, -⟩ | ⟨-, -, h⟩
  · exfalso
    apply hne
    have := congrArg (List.map Eff.ability) h
    rw [Solver.Sub.onRow, List.map_append, onEffL_ability] at this
    simpa using (List.append_eq_nil_iff.mp this).1
  · cases h
  · cases h
  · have ha' : a ∈ ((Solver.solution st.σ st.ρ).onRow r').effects.map Eff.ability := by
      rw [Solver.Sub.onRow, List.map_append, onEffL_ability]
      exact List.mem_append_left _ ha
    obtain ⟨e', he', rfl⟩ := List.mem_map.mp ha'
    obtain ⟨e, he, heq, -⟩ := h e' he'
    rw [← heq]
    have := List.mem_map_of_mem (f := Eff.ability) he
    rw [Solver.Sub.onRow, List.map_append, onEffL_ability, hr] at this
    simpa [Solver.Sub.tail] using this

end Verif.EffectTrack
