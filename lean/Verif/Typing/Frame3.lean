import Verif.Typing.Frame2

/-!
# What the steps of the checker leave unchanged: the second walk
-/

namespace Verif.Typing
open Verif.Types Verif.Solver Verif.Scheme

/-- Nothing was forgotten. -/
def Grow (k k' : K) : Prop := ∃ ns, Go ns k k'

theorem Grow.good {k k' : K} (h : Grow k k') : Good k' := h.choose_spec.good
theorem Grow.trans {a b c : K} (h1 : Grow a b) (h2 : Grow b c) : Grow a c :=
  ⟨_, h1.choose_spec.trans h2.choose_spec⟩
theorem Grow.refl {k : K} (g : Good k) : Grow k k := ⟨_, Go.refl g⟩
theorem Go.grow {ns : List Nat} {k k' : K} (h : Go ns k k') : Grow k k' := ⟨ns, h⟩
theorem Fr.grow {ns : List Nat} {k k' : K} (h : Fr ns k k') : Grow k k' := ⟨ns, h.toGo⟩
theorem Grow.pop {old k k0 : K} (g : Good old) (h : Grow k0 k) : Grow k0 (K.pop old k) :=
  ⟨_, pop_go g h.choose_spec⟩

/-- The type checked against is in the fragment. -/
def OkMode : Mode → Prop
  | .infer => True
  | .check t => Ok 0 t

theorem argMode_ok {t : Ty} (h : Ok 0 t) (i : Nat) : OkMode (argMode t i) := by
  rw [argMode]
  cases hf : funParts t with
  | none => trivial
  | some q =>
    obtain ⟨ps, r, row⟩ := q
    obtain ⟨hp, _, _⟩ := funParts_ok h hf
    simp only
    cases hi : ps[i]? with
    | none => trivial
    | some u =>
      simp only
      split
      · trivial
      · exact hp u (List.mem_of_getElem? hi)

theorem modeRow_ok {mode : Mode} (h : OkMode mode) {r : Row} (hr : mode.row = some r) : OkRow r := by
  cases mode with
  | infer => simp [Mode.row] at hr
  | check t =>
    simp only [Mode.row, Option.map_eq_some_iff] at hr
    obtain ⟨⟨ps, u, row⟩, hf, rfl⟩ := hr
    exact (funParts_ok h hf).2.2

theorem lamCons_ok {mode : Mode} (h : OkMode mode) {t : Ty} (ht : Ok 0 t) : ∀ c ∈ mode.lamCons t, OkCon c := by
  cases mode with
  | infer => simp [Mode.lamCons]
  | check u =>
    simp only [Mode.lamCons]
    cases hu : funParts u with
    | none => simp
    | some q =>
      cases hv : funParts t with
      | none => simp
      | some q' =>
        obtain ⟨us, ur, _⟩ := q
        obtain ⟨ts, tr, _⟩ := q'
        obtain ⟨a1, a2, _⟩ := funParts_ok h hu
        obtain ⟨b1, b2, _⟩ := funParts_ok ht hv
        intro c hc
        rcases List.mem_append.1 hc with hc | hc
        · exact zipWith_teq_ok b1 a1 c hc
        · simp at hc; subst hc; exact ⟨b2, a2⟩

theorem modeCons_grow {mode : Mode} (hm : OkMode mode) (e : E) {t : Ty} (ht : Ok 0 t) {k : K} (g : Good k) :
    Grow k (modeCons mode e t k) := by
  have h2 : ∀ c ∈ mode.cons t, OkCon c := by
    cases mode with
    | infer => simp [Mode.cons]
    | check u => simpa [Mode.cons, OkCon] using ⟨ht, hm⟩
  cases e <;> try exact (add_fr g h2).grow
  rename_i node ps b
  simp only [modeCons]
  cases hl : k.lams.lookup node with
  | none => exact (add_fr g (lamCons_ok hm ht)).grow
  | some u =>
    refine (add_fr g ?_).grow
    intro c hc
    rcases List.mem_append.1 hc with hc | hc
    · exact lamCons_ok hm ht c hc
    · simp at hc; subst hc; exact ⟨ht, g.lams _ (lookup_mem hl)⟩

theorem opCons_ok {t : Ty} (h : Ok 0 t) {ts : List Ty} (hs : ∀ u ∈ ts, Ok 0 u) : ∀ c ∈ opCons t ts, OkCon c := by
  cases ts with
  | nil => simp [opCons]
  | cons u ts => simpa [opCons, OkCon] using ⟨h, hs u (.head _)⟩

theorem deferResult_fr {G : Env} {m : Nat} {t : Ty} {ts : List Ty} {k : K} (g : Good k) (h : Ok 0 t)
    (hs : ∀ u ∈ ts, Ok 0 u) : Fr [] k (deferResult G m t ts k).2 ∧ Ok 0 (deferResult G m t ts k).1 := by
  rw [deferResult]
  split
  · exact ⟨add_fr g (opCons_ok h hs), h⟩
  · split
    · exact ⟨add_fr g (opCons_ok h hs), tBool_ok⟩
    · exact ⟨(same_fresh k).fr g, fresh_ok k⟩

theorem methArgs_grow {G : Env} (hG : EnvOk G) {n : Nat} : ∀ (es : List E) {us : List Ty} {k k' : K}, Good k →
    (∀ a ∈ annsL es, Ok 0 a) → (∀ u ∈ us, Ok 0 u) → methArgs G n es us k = some k' → Grow k k'
  | [], us, k, k', g, ha, hu, h => by
    simp only [methArgs, Option.some.injEq] at h
    subst h
    exact .refl g
  | e :: es, [], k, k', g, ha, hu, h => by
    simp only [methArgs, Option.some.injEq] at h
    subst h
    exact .refl g
  | e :: es, u :: us, k, k', g, ha, hu, h => by
    simp only [methArgs, Option.bind_eq_bind, Option.bind_eq_some_iff] at h
    obtain ⟨⟨t, k1⟩, h1, h⟩ := h
    simp only [annsL, List.mem_append] at ha
    obtain ⟨f1, o1⟩ := infer_fr hG e g (fun a h => ha a (.inl h)) h1
    have f2 := add_fr f1.good (cs := [.teq t u]) (by simpa [OkCon] using ⟨o1, hu u (.head _)⟩)
    exact (f1.then f2).grow.trans (methArgs_grow hG es f2.good (fun a h => ha a (.inr h))
      (fun v hv => hu v (.tail _ hv)) h)

theorem synthMeth_grow {G : Env} (hG : EnvOk G) {n : Nat} {r : E} {m : Nat} {as : List E} {k k' : K} {t : Ty}
    (g : Good k) (ha : ∀ a ∈ (E.meth r m as).anns, Ok 0 a) (h : synthMeth G n r m as k = some (t, k')) :
    Grow k k' ∧ Ok 0 t := by
  simp only [synthMeth, Option.bind_eq_bind, Option.bind_eq_some_iff] at h
  obtain ⟨⟨rt, k1⟩, h1, h⟩ := h
  simp only [E.anns, List.mem_append] at ha
  obtain ⟨f1, o1⟩ := infer_fr hG r g (fun a h => ha a (.inl h)) h1
  dsimp only at h
  cases hm : G.method m rt with
  | some e =>
    simp only [hm, Option.bind_eq_some_iff] at h
    obtain ⟨⟨ct, k2⟩, h2, h⟩ := h
    obtain ⟨s2, o2, _⟩ := instAt_same hG.fns h2
    have f2 := f1.then (s2.fr f1.good)
    dsimp only at h
    cases hf : funParts ct with
    | none =>
      simp only [hf, Option.some.injEq] at h
      have f3 := (same_fresh k2).fr f2.good
      have o3 := fresh_ok k2
      rw [h] at f3 o3
      exact ⟨(f2.then f3).grow, o3⟩
    | some q =>
      obtain ⟨ps, u, row⟩ := q
      obtain ⟨a1, a2, _⟩ := funParts_ok o2 hf
      cases ps with
      | nil =>
        simp only [hf, Option.some.injEq, Prod.mk.injEq] at h
        obtain ⟨rfl, rfl⟩ := h
        exact ⟨f2.grow, a2⟩
      | cons p ps =>
        simp only [hf, Option.bind_eq_some_iff] at h
        obtain ⟨k3, h3, h⟩ := h
        simp only [Option.some.injEq, Prod.mk.injEq] at h
        obtain ⟨rfl, rfl⟩ := h
        have f3 := add_fr f2.good (cs := [.teq rt p]) (by simpa [OkCon] using ⟨o1, a1 p (.head _)⟩)
        exact ⟨(f2.then f3).grow.trans (methArgs_grow hG as f3.good (fun a h => ha a (.inr h))
          (fun v hv => a1 v (.tail _ hv)) h3), a2⟩
  | none =>
    simp only [hm, Option.bind_eq_some_iff] at h
    obtain ⟨⟨ts, k2⟩, h2, h⟩ := h
    simp only [Option.some.injEq, Prod.mk.injEq] at h
    obtain ⟨rfl, rfl⟩ := h
    obtain ⟨f2, o2⟩ := inferL_fr hG as f1.good (fun a h => ha a (.inr h)) h2
    obtain ⟨f3, o3⟩ := deferResult_fr (G := G) (m := m) f2.good o1 o2
    have f4 := defer_fr f3.good (d := ⟨rt, m, (deferResult G m rt ts k2).1, rt :: ts⟩) ⟨o1, o3, by
      intro u hu
      rcases List.mem_cons.1 hu with rfl | hu
      · exact o1
      · exact o2 u hu⟩
    exact ⟨(((f1.trans f2).then f3).then f4).grow, o3⟩

theorem lamRow_fr {mode : Mode} (hm : OkMode mode) {k : K} (g : Good k) :
    Fr [] k (lamRow mode k).2 ∧ OkRow (lamRow mode k).1 := by
  rw [lamRow]
  cases hr : mode.row with
  | none => exact ⟨Fr.refl g, g.cur⟩
  | some r =>
    have := modeRow_ok hm hr
    exact ⟨add_fr g (by simpa [OkCon] using ⟨g.cur, this⟩), this⟩

theorem synthLam_grow {G : Env} (hG : EnvOk G) {n : Nat} {mode : Mode} (hm : OkMode mode) {node : Nat}
    {ps : List (Nat × Option Ty)} {b : E} {k k' : K} {t : Ty} (g : Good k)
    (ha : ∀ a ∈ (E.lam node ps b).anns, Ok 0 a) (h : synthLam G n mode ps b k = some (t, k')) :
    Grow k k' ∧ Ok 0 t := by
  simp only [synthLam, Option.bind_eq_bind, Option.bind_eq_some_iff] at h
  obtain ⟨⟨bt, k2⟩, h1, h⟩ := h
  simp only [Option.some.injEq, Prod.mk.injEq] at h
  obtain ⟨rfl, rfl⟩ := h
  simp only [E.anns, List.mem_append] at ha
  have hp := paramTys_ok ps k (fun a h => ha a (.inl h))
  have f1 := (paramTys_same ps k).fr g
  have f2 := (same_freshRow (paramTys ps k).2).fr f1.good
  have f3 := cur_fr f2.good (freshRow_ok (paramTys ps k).2)
  have f4 := bindAll_go f3.good (ps.map Prod.fst) _ hp
  obtain ⟨f5, o5⟩ := infer_fr hG b f4.good (fun a h => ha a (.inr h)) h1
  obtain ⟨f6, o6⟩ := lamRow_fr hm f5.good
  have f7 := cur_fr f6.good g.cur
  have f8 := ((((((f1.then f2).then f3).toGo.then f4).trans f5.toGo).then f6.toGo).then f7.toGo).grow.pop g
  have f9 := (same_fresh _).fr f8.good
  have f10 := add_fr f9.good (cs := [.teq (K.pop k { (lamRow mode k2).2 with cur := k.cur }).fresh.1 bt])
    (by simpa [OkCon] using ⟨fresh_ok _, o5⟩)
  exact ⟨f8.trans (f9.then f10).grow, tFunc_ok hp (fresh_ok _) o6⟩

theorem synth_grow {G : Env} (hG : EnvOk G) {n : Nat} {mode : Mode} (hm : OkMode mode) (e : E) {k k' : K} {t : Ty}
    (g : Good k) (ha : ∀ a ∈ e.anns, Ok 0 a) (h : synth G n mode e k = some (t, k')) : Grow k k' ∧ Ok 0 t := by
  cases e
  case meth r m as => exact synthMeth_grow hG g ha h
  case lam node ps b => exact synthLam_grow hG hm g ha h
  case bin b l r =>
    simp only [synth, Option.bind_eq_bind, Option.bind_eq_some_iff] at h
    obtain ⟨⟨lt, k1⟩, h1, ⟨rt, k2⟩, h2, h⟩ := h
    simp only [Option.some.injEq, Prod.mk.injEq] at h
    obtain ⟨rfl, rfl⟩ := h
    simp only [E.anns, List.mem_append] at ha
    obtain ⟨f1, o1⟩ := infer_fr hG l g (fun a h => ha a (.inl h)) h1
    obtain ⟨f2, o2⟩ := infer_fr hG r f1.good (fun a h => ha a (.inr h)) h2
    have f3 := add_fr f2.good (cs := [.teq lt tBool, .teq rt tBool])
      (by simpa [OkCon] using ⟨⟨o1, tBool_ok⟩, o2, tBool_ok⟩)
    exact ⟨((f1.trans f2).then f3).grow, tBool_ok⟩
  all_goals
    simp only [synth] at h
    obtain ⟨f, o⟩ := infer_fr hG _ g ha h
    exact ⟨f.grow, o⟩

theorem start_grow {G : Env} (hG : EnvOk G) {n : Nat} {mode : Mode} (hm : OkMode mode) (e : E) {k k' : K} {t : Ty}
    (g : Good k) (ha : ∀ a ∈ e.anns, Ok 0 a) (h : start G n mode e k = some (t, k')) : Grow k k' ∧ Ok 0 t := by
  simp only [start, Option.bind_eq_bind, Option.bind_eq_some_iff] at h
  obtain ⟨⟨u, k1⟩, h1, h⟩ := h
  simp only [Option.some.injEq, Prod.mk.injEq] at h
  obtain ⟨rfl, rfl⟩ := h
  obtain ⟨f, o⟩ := synth_grow hG hm e g ha h1
  exact ⟨f.trans (modeCons_grow hm e o f.good), o⟩

theorem lamParams_ok {t : Ty} (h : Ok 0 t) : ∀ u ∈ lamParams t, Ok 0 u := by
  rw [lamParams]
  cases hf : funParts t with
  | none => simp
  | some q => exact (funParts_ok h hf).1

mutual
theorem conv_grow {G : Env} (hG : EnvOk G) {n : Nat} : ∀ (e : E) {t : Ty} {k k' : K}, Good k → Ok 0 t →
    (∀ a ∈ e.anns, Ok 0 a) → conv G n t e k = some k' → Grow k k'
  | .lit _, t, k, k', g, ht, ha, h => by
    simp only [conv, Option.some.injEq] at h
    subst h
    exact .refl g
  | .fn _, t, k, k', g, ht, ha, h => by
    simp only [conv, Option.some.injEq] at h
    subst h
    exact .refl g
  | .loc node x, t, k, k', g, ht, ha, h => by
    simp only [conv, Option.bind_eq_bind, Option.bind_eq_some_iff] at h
    obtain ⟨⟨u, k1⟩, h1, h⟩ := h
    simp only [Option.some.injEq] at h
    subst h
    exact (ref_fr g h1).1.grow
  | .call c as, t, k, k', g, ht, ha, h => by
    simp only [conv, Option.bind_eq_bind, Option.bind_eq_some_iff] at h
    obtain ⟨⟨ct, k1⟩, h1, k2, h2, h3⟩ := h
    simp only [E.anns, List.mem_append] at ha
    obtain ⟨f1, o1⟩ := start_grow hG (mode := .infer) trivial c g (fun a h => ha a (.inl h)) h1
    have f2 := conv_grow hG c f1.good o1 (fun a h => ha a (.inl h)) h2
    have f3 := convArgs_grow hG o1 as f2.good (fun a h => ha a (.inr h)) h3
    exact (f1.trans f2).trans f3
  | .cons c as, t, k, k', g, ht, ha, h => by
    simp only [conv, Option.bind_eq_bind, Option.bind_eq_some_iff] at h
    obtain ⟨⟨ct, k1⟩, h1, h3⟩ := h
    have f1 := (instAt_same hG.ctors h1).1.fr g
    exact f1.grow.trans (convL_grow hG as f1.good ha h3)
  | .meth r m as, t, k, k', g, ht, ha, h => by
    simp only [conv, Option.bind_eq_bind, Option.bind_eq_some_iff] at h
    obtain ⟨⟨ct, k1⟩, h1, k2, h2, h3⟩ := h
    simp only [E.anns, List.mem_append] at ha
    obtain ⟨f1, o1⟩ := start_grow hG (mode := .infer) trivial r g (fun a h => ha a (.inl h)) h1
    have f2 := conv_grow hG r f1.good o1 (fun a h => ha a (.inl h)) h2
    have f3 := convL_grow hG as f2.good (fun a h => ha a (.inr h)) h3
    exact (f1.trans f2).trans f3
  | .bin b l r, t, k, k', g, ht, ha, h => by
    simp only [conv, Option.bind_eq_bind, Option.bind_eq_some_iff] at h
    obtain ⟨⟨lt, k1⟩, h1, k2, h2, ⟨rt, k3⟩, h3, h4⟩ := h
    simp only [E.anns, List.mem_append] at ha
    obtain ⟨f1, o1⟩ := start_grow hG (mode := .infer) trivial l g (fun a h => ha a (.inl h)) h1
    have f2 := conv_grow hG l f1.good o1 (fun a h => ha a (.inl h)) h2
    obtain ⟨f3, o3⟩ := start_grow hG (mode := .infer) trivial r f2.good (fun a h => ha a (.inr h)) h3
    have f4 := conv_grow hG r f3.good o3 (fun a h => ha a (.inr h)) h4
    exact ((f1.trans f2).trans f3).trans f4
  | .block ss v, t, k, k', g, ht, ha, h => by
    simp only [conv, Option.bind_eq_bind, Option.bind_eq_some_iff] at h
    obtain ⟨k1, h1, ⟨vt, k2⟩, h2, k3, h3, h⟩ := h
    simp only [Option.some.injEq] at h
    subst h
    simp only [E.anns, List.mem_append] at ha
    have f1 := convSS_grow hG ss g (fun a h => ha a (.inl h)) h1
    obtain ⟨f2, o2⟩ := start_grow hG (mode := .infer) trivial v f1.good (fun a h => ha a (.inr h)) h2
    have f3 := conv_grow hG v f2.good o2 (fun a h => ha a (.inr h)) h3
    exact ((f1.trans f2).trans f3).pop g
  | .case s arms, t, k, k', g, ht, ha, h => by
    simp only [conv, Option.bind_eq_bind, Option.bind_eq_some_iff] at h
    obtain ⟨⟨st, k1⟩, h1, k2, h2, h3⟩ := h
    simp only [E.anns, List.mem_append] at ha
    obtain ⟨f1, o1⟩ := start_grow hG (mode := .infer) trivial s g (fun a h => ha a (.inl h)) h1
    have f2 := conv_grow hG s f1.good o1 (fun a h => ha a (.inl h)) h2
    have f3 := convArms_grow hG o1 arms f2.good (fun a h => ha a (.inr h)) h3
    exact (f1.trans f2).trans f3
  | .lam node ps b, t, k, k', g, ht, ha, h => by
    simp only [conv, Option.bind_eq_bind, Option.bind_eq_some_iff] at h
    obtain ⟨⟨bt, k2⟩, h1, k3, h2, h⟩ := h
    simp only [Option.some.injEq] at h
    subst h
    simp only [E.anns, List.mem_append] at ha
    have f1 := (same_freshRow k).fr g
    have f2 := cur_fr f1.good (freshRow_ok k)
    have f3 := bindAll_go f2.good (ps.map Prod.fst) _ (lamParams_ok ht)
    obtain ⟨f4, o4⟩ := start_grow hG (mode := .infer) trivial b f3.good (fun a h => ha a (.inr h)) h1
    have f5 := conv_grow hG b f4.good o4 (fun a h => ha a (.inr h)) h2
    have f6 := cur_fr f5.good g.cur
    exact (((((f1.then f2).toGo.then f3).grow.trans f4).trans f5).trans f6.grow).pop g
  | .tuple es, t, k, k', g, ht, ha, h => by
    simp only [conv] at h
    exact convL_grow hG es g ha h
  | .list es, t, k, k', g, ht, ha, h => by
    simp only [conv] at h
    exact convL_grow hG es g ha h
theorem convL_grow {G : Env} (hG : EnvOk G) {n : Nat} : ∀ (es : List E) {k k' : K}, Good k →
    (∀ a ∈ annsL es, Ok 0 a) → convL G n es k = some k' → Grow k k'
  | [], k, k', g, ha, h => by
    simp only [convL, Option.some.injEq] at h
    subst h
    exact .refl g
  | e :: es, k, k', g, ha, h => by
    simp only [convL, Option.bind_eq_bind, Option.bind_eq_some_iff] at h
    obtain ⟨⟨t, k1⟩, h1, k2, h2, h3⟩ := h
    simp only [annsL, List.mem_append] at ha
    obtain ⟨f1, o1⟩ := start_grow hG (mode := .infer) trivial e g (fun a h => ha a (.inl h)) h1
    have f2 := conv_grow hG e f1.good o1 (fun a h => ha a (.inl h)) h2
    exact (f1.trans f2).trans (convL_grow hG es f2.good (fun a h => ha a (.inr h)) h3)
theorem convArgs_grow {G : Env} (hG : EnvOk G) {n : Nat} {c : Ty} (hc : Ok 0 c) : ∀ (es : List E) {i : Nat}
    {k k' : K}, Good k → (∀ a ∈ annsL es, Ok 0 a) → convArgs G n c i es k = some k' → Grow k k'
  | [], i, k, k', g, ha, h => by
    simp only [convArgs, Option.some.injEq] at h
    subst h
    exact .refl g
  | e :: es, i, k, k', g, ha, h => by
    simp only [convArgs, Option.bind_eq_bind, Option.bind_eq_some_iff] at h
    obtain ⟨⟨t, k1⟩, h1, k2, h2, h3⟩ := h
    simp only [annsL, List.mem_append] at ha
    obtain ⟨f1, o1⟩ := start_grow hG (argMode_ok hc i) e g (fun a h => ha a (.inl h)) h1
    have f2 := conv_grow hG e f1.good o1 (fun a h => ha a (.inl h)) h2
    exact (f1.trans f2).trans (convArgs_grow hG hc es f2.good (fun a h => ha a (.inr h)) h3)
theorem convSS_grow {G : Env} (hG : EnvOk G) {n : Nat} : ∀ (ss : List Stmt) {k k' : K}, Good k →
    (∀ a ∈ annsSS ss, Ok 0 a) → convSS G n ss k = some k' → Grow k k'
  | [], k, k', g, ha, h => by
    simp only [convSS, Option.some.injEq] at h
    subst h
    exact .refl g
  | .expr e :: ss, k, k', g, ha, h => by
    simp only [convSS, Option.bind_eq_bind, Option.bind_eq_some_iff] at h
    obtain ⟨⟨t, k1⟩, h1, k2, h2, h3⟩ := h
    simp only [annsSS, List.mem_append] at ha
    obtain ⟨f1, o1⟩ := start_grow hG (mode := .infer) trivial e g (fun a h => ha a (.inl h)) h1
    have f2 := conv_grow hG e f1.good o1 (fun a h => ha a (.inl h)) h2
    exact (f1.trans f2).trans (convSS_grow hG ss f2.good (fun a h => ha a (.inr h)) h3)
  | .bind x (some t) e :: ss, k, k', g, ha, h => by
    simp only [convSS, Option.bind_eq_bind, Option.bind_eq_some_iff] at h
    obtain ⟨⟨u, k1⟩, h1, k2, h2, k3, h3, h4⟩ := h
    simp only [annsSS, List.mem_append, Option.toList_some, List.mem_singleton] at ha
    have f0 := cur_fr g (okRow_nil none)
    obtain ⟨f1, o1⟩ := start_grow hG (mode := .check t) (ha t (.inl (.inl rfl))) e f0.good
      (fun a h => ha a (.inl (.inr h))) h1
    have f2 := conv_grow hG e f1.good o1 (fun a h => ha a (.inl (.inr h))) h2
    have f3 := letEnd_go f2.good g.cur o1 h3
    exact (((f0.grow.trans f1).trans f2).trans f3.grow).trans
      (convSS_grow hG ss f3.good (fun a h => ha a (.inr h)) h4)
  | .bind x none e :: ss, k, k', g, ha, h => by
    simp only [convSS, Option.bind_eq_bind, Option.bind_eq_some_iff] at h
    obtain ⟨⟨u, k1⟩, h1, k2, h2, k3, h3, h4⟩ := h
    simp only [annsSS, List.mem_append] at ha
    have f0 := cur_fr g (okRow_nil none)
    obtain ⟨f1, o1⟩ := start_grow hG (mode := .infer) trivial e f0.good (fun a h => ha a (.inl (.inr h))) h1
    have f2 := conv_grow hG e f1.good o1 (fun a h => ha a (.inl (.inr h))) h2
    have f3 := letEnd_go f2.good g.cur o1 h3
    exact (((f0.grow.trans f1).trans f2).trans f3.grow).trans
      (convSS_grow hG ss f3.good (fun a h => ha a (.inr h)) h4)
theorem convArms_grow {G : Env} (hG : EnvOk G) {n : Nat} {st : Ty} (hs : Ok 0 st) : ∀ (arms : List Arm) {k k' : K},
    Good k → (∀ a ∈ annsArms arms, Ok 0 a) → convArms G n st arms k = some k' → Grow k k'
  | [], k, k', g, ha, h => by
    simp only [convArms, Option.some.injEq] at h
    subst h
    exact .refl g
  | .mk p b :: arms, k, k', g, ha, h => by
    simp only [convArms, Option.bind_eq_bind, Option.bind_eq_some_iff] at h
    obtain ⟨⟨pt, ap, k1⟩, h1, ⟨t, k2⟩, h2, k3, h3, h4⟩ := h
    simp only [annsArms, List.mem_append] at ha
    obtain ⟨f1, o1, a1⟩ := inferPat_fr hG p g h1
    have f2 := add_fr f1.good (cs := [.teq pt st]) (by simpa [OkCon] using ⟨o1, hs⟩)
    have f3 := bindPat_go ap f2.good a1 hs (G := G)
    have f4 := convPat_go ap f3.good a1 hs (G := G)
    obtain ⟨f5, o5⟩ := start_grow hG (mode := .infer) trivial b f4.good (fun a h => ha a (.inl h)) h2
    have f6 := conv_grow hG b f5.good o5 (fun a h => ha a (.inl h)) h3
    have f7 := (((((f1.then f2).toGo.then f3).then f4).grow.trans f5).trans f6).pop g
    exact f7.trans (convArms_grow hG hs arms f7.good (fun a h => ha a (.inr h)) h4)
end

end Verif.Typing
