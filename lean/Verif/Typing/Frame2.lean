import Verif.Typing.Frame

/-!
# What the steps of the checker leave unchanged: expressions
-/

namespace Verif.Typing
open Verif.Types Verif.Solver Verif.Scheme

theorem paramTys_same (ps : List (Nat × Option Ty)) (k : K) : Same k (paramTys ps k).2 := by
  induction ps generalizing k with
  | nil => exact Same.refl k
  | cons p ps ih =>
    obtain ⟨x, _ | t⟩ := p
    · exact (same_fresh k).trans (ih k.fresh.2)
    · exact ih k

theorem paramTys_ok (ps : List (Nat × Option Ty)) (k : K) (h : ∀ t ∈ ps.filterMap Prod.snd, Ok 0 t) :
    ∀ t ∈ (paramTys ps k).1, Ok 0 t := by
  induction ps generalizing k with
  | nil => intro t ht; simp [paramTys] at ht
  | cons p ps ih =>
    obtain ⟨x, _ | u⟩ := p
    · intro t ht
      rcases List.mem_cons.1 ht with rfl | ht
      · exact fresh_ok k
      · exact ih k.fresh.2 (by simpa using h) t ht
    · intro t ht
      rcases List.mem_cons.1 ht with rfl | ht
      · exact h _ (by simp)
      · exact ih k (fun t ht => h t (by simp at ht ⊢; exact .inr ht)) t ht

theorem paramTys_ann (δ : UVar → S) (ps : List (Nat × Option Ty)) (k : K) :
    List.Forall₂ AnnOk (ps.map Prod.snd) ((paramTys ps k).1.map (ev δ [])) := by
  induction ps generalizing k with
  | nil => exact .nil
  | cons p ps ih =>
    obtain ⟨x, _ | u⟩ := p
    · exact .cons trivial (ih _)
    · exact .cons ⟨δ, rfl⟩ (ih _)

theorem paramTys_length (ps : List (Nat × Option Ty)) (k : K) : (paramTys ps k).1.length = ps.length := by
  induction ps generalizing k with
  | nil => rfl
  | cons p ps ih =>
    obtain ⟨x, _ | u⟩ := p <;> simp [paramTys, ih]

/-! ## `let` -/

theorem letEnd_none {n : Nat} {outer : Row} {t : Ty} {k k' : K} (g : Good k) (ho : OkRow outer) (ht : Ok 0 t)
    (h : letEnd n none outer t k = some k') : Fr [] k k' := by
  simp only [letEnd, Option.some.injEq] at h
  subst h
  have f1 := cur_fr g ho
  have f2 := merge_fr f1.good g.cur
  have f3 := (same_fresh _).fr f2.good
  have f4 := add_fr f3.good (cs := [.teq (K.merge k.cur { k with cur := outer }).fresh.1 t])
    (by simpa [OkCon] using ⟨fresh_ok _, ht⟩)
  exact ((f1.then f2).then f3).then f4

theorem letEnd_some {n x : Nat} {outer : Row} {t : Ty} {k k' : K} (g : Good k) (ho : OkRow outer) (ht : Ok 0 t)
    (h : letEnd n (some x) outer t k = some k') :
    ∃ s, OkS s ∧ Go [] k k' ∧ k'.names = x :: k.names ∧ k'.c.schemes = s :: k.c.schemes ∧
      k'.defer = k.defer ∧ (k'.lost = false → k.defer = [] ∨ s.params = 0) ∧
      ∀ δ, (∀ c ∈ k'.c.cons, conEv δ c) → ∀ τ, InstOf δ s τ →
        ∃ δ', (∀ c ∈ k.c.cons, conEv δ' c) ∧ ev δ' [] t = τ ∧
          (∀ s' ∈ k.c.schemes, ∀ β, ev δ' β s'.body = ev δ β s'.body) ∧ (s.params = 0 → δ' = δ) := by
  simp only [letEnd] at h
  have f1 := cur_fr g ho
  have f2 := merge_fr f1.good g.cur
  have f3 := (same_fresh _).fr f2.good
  have f4 := add_fr f3.good (cs := [.teq (K.merge k.cur { k with cur := outer }).fresh.1 t])
    (by simpa [OkCon] using ⟨fresh_ok _, ht⟩)
  have f := ((f1.then f2).then f3).then f4
  have hd : ((K.merge k.cur { k with cur := outer }).fresh.2.add
    [.teq (K.merge k.cur { k with cur := outer }).fresh.1 t]).defer = k.defer := rfl
  generalize (K.merge k.cur { k with cur := outer }).fresh.2.add
    [.teq (K.merge k.cur { k with cur := outer }).fresh.1 t] = k1 at *
  cases hl : k1.c.letBind n t k.cur with
  | none => simp [hl] at h
  | some c =>
    simp only [hl, Option.some.injEq] at h
    subst h
    obtain ⟨s, rfl, hs, hi⟩ := letBind_ev f.good.cons ht hl
    refine ⟨s, hs, ⟨⟨f.good.cons, ?_, f.good.cur, f.good.refs, f.good.lams, f.good.defer⟩, f.cons, f.defer, ?_,
      f.refs⟩, ?_, ?_, hd, ?_, ?_⟩
    · intro q hq
      rcases List.mem_cons.1 hq with rfl | hq
      · exact hs
      · exact f.good.schemes q hq
    · intro h
      simp only [K.lose, Bool.or_eq_false_iff] at h
      exact f.lost h.1
    · simp only [K.lose]; rw [f.names]
    · simp only [K.lose]; rw [f.schemes]
    · intro h
      simp only [K.lose, quantified, Bool.or_eq_false_iff, Bool.and_eq_false_iff] at h
      rcases h.2 with h | h
      · left; rw [← hd]; simpa using h
      · right; simpa using h
    · intro δ hδ τ hτ
      obtain ⟨δ', h1, h2, h3, h4⟩ := hi δ hδ τ hτ
      exact ⟨δ', fun c hc => h1 c (f.cons c hc), h2, fun s' hs' => h3 s' (by rw [f.schemes]; exact hs'), h4⟩

theorem letEnd_go {n : Nat} {x : Option Nat} {outer : Row} {t : Ty} {k k' : K} (g : Good k) (ho : OkRow outer)
    (ht : Ok 0 t) (h : letEnd n x outer t k = some k') : Go [] k k' := by
  cases x with
  | none => exact (letEnd_none g ho ht h).toGo
  | some x => obtain ⟨_, _, h, _⟩ := letEnd_some g ho ht h; exact h

/-! ## Methods that resolve at once -/

theorem methResult_fr {G : Env} (hG : EnvOk G) {f : Nat} {recv t : Ty} {args : List E} {k k' : K} (g : Good k)
    (h : methResult G f recv args k = some (t, k')) : Fr [] k k' ∧ Ok 0 t := by
  simp only [methResult, Option.bind_eq_bind, Option.bind_eq_some_iff] at h
  obtain ⟨⟨ct, k1⟩, h1, h⟩ := h
  obtain ⟨s1, o1, _⟩ := instAt_same hG.fns h1
  have f1 := s1.fr g
  dsimp only at h
  cases hf : funParts ct with
  | none =>
    simp only [hf, Option.some.injEq, Prod.mk.injEq] at h
    obtain ⟨rfl, rfl⟩ := h
    have f2 := (same_fresh k1).fr f1.good
    exact ⟨(f1.then f2).then (lose_fr f2.good true), fresh_ok k1⟩
  | some q =>
    obtain ⟨ps, r, row⟩ := q
    simp only [hf, Option.some.injEq, Prod.mk.injEq] at h
    obtain ⟨rfl, rfl⟩ := h
    exact ⟨f1.then (lose_fr f1.good _), (funParts_ok o1 hf).2.1⟩

theorem lams_fr {k : K} (g : Good k) {node : Nat} {t : Ty} (h : Ok 0 t) :
    Fr [] k { k with lams := if (k.lams.lookup node).isSome then k.lams else (node, t) :: k.lams } := by
  refine ⟨⟨⟨g.cons, g.schemes, g.cur, g.refs, ?_, g.defer⟩, fun _ h => h, fun _ h => h, fun h => h,
    fun _ _ => rfl⟩, rfl, rfl⟩
  intro p hp
  dsimp only at hp
  split at hp
  · exact g.lams p hp
  · rcases List.mem_cons.1 hp with rfl | hp
    · exact h
    · exact g.lams p hp

mutual
theorem infer_fr {G : Env} (hG : EnvOk G) {n : Nat} : ∀ (e : E) {k k' : K} {t : Ty}, Good k →
    (∀ a ∈ e.anns, Ok 0 a) → infer G n e k = some (t, k') → Fr e.nodes k k' ∧ Ok 0 t
  | .lit l, k, k', t, g, ha, h => by
    simp only [infer, Option.some.injEq, Prod.mk.injEq] at h
    obtain ⟨rfl, rfl⟩ := h
    exact ⟨Fr.refl g, litTy_ok G l⟩
  | .loc node x, k, k', t, g, ha, h => by
    simp only [infer] at h
    exact ref_fr g h
  | .fn f, k, k', t, g, ha, h => by
    simp only [infer] at h
    obtain ⟨h1, h2, _⟩ := instAt_same hG.fns h
    exact ⟨h1.fr g, h2⟩
  | .call c as, k, k', t, g, ha, h => by
    simp only [infer, Option.bind_eq_bind, Option.bind_eq_some_iff] at h
    obtain ⟨⟨ct, k1⟩, h1, ⟨ts, k2⟩, h2, h⟩ := h
    simp only [Option.some.injEq] at h
    simp only [E.anns, List.mem_append] at ha
    obtain ⟨f1, o1⟩ := infer_fr hG c g (fun a h => ha a (.inl h)) h1
    obtain ⟨f2, o2⟩ := inferL_fr hG as f1.good (fun a h => ha a (.inr h)) h2
    obtain ⟨f3, o3⟩ := inferCall_fr f2.good o1 o2
    rw [h] at f3 o3
    exact ⟨(f1.trans f2).then f3, o3⟩
  | .cons c as, k, k', t, g, ha, h => by
    simp only [infer, Option.bind_eq_bind, Option.bind_eq_some_iff] at h
    obtain ⟨⟨ct, k1⟩, h1, ⟨ts, k2⟩, h2, h⟩ := h
    obtain ⟨s1, o1, _⟩ := instAt_same hG.ctors h1
    have f1 := s1.fr g
    obtain ⟨f2, o2⟩ := inferL_fr hG as f1.good ha h2
    have f12 := f1.trans f2
    dsimp only at h
    split at h
    · simp only [Option.some.injEq, Prod.mk.injEq] at h
      obtain ⟨rfl, rfl⟩ := h
      exact ⟨f12, o1⟩
    · simp only [Option.some.injEq] at h
      obtain ⟨f3, o3⟩ := inferCall_fr f2.good o1 o2
      rw [h] at f3 o3
      exact ⟨f12.then f3, o3⟩
  | .meth r m as, k, k', t, g, ha, h => by
    simp only [infer, Option.bind_eq_bind, Option.bind_eq_some_iff] at h
    obtain ⟨⟨rt, k1⟩, h1, h⟩ := h
    simp only [E.anns, List.mem_append] at ha
    obtain ⟨f1, o1⟩ := infer_fr hG r g (fun a h => ha a (.inl h)) h1
    dsimp only at h
    cases hm : G.method m rt with
    | some e =>
      simp only [hm] at h
      obtain ⟨f2, o2⟩ := methResult_fr hG f1.good h
      exact ⟨(f1.then f2).sub (by simp [E.nodes]; exact fun _ h => .inl h), o2⟩
    | none =>
      simp only [hm, Option.bind_eq_some_iff] at h
      obtain ⟨⟨ts, k2⟩, h2, h⟩ := h
      simp only [Option.some.injEq, Prod.mk.injEq] at h
      obtain ⟨rfl, rfl⟩ := h
      have f2 := (same_fresh k1).fr f1.good
      obtain ⟨f3, o3⟩ := inferL_fr hG as f2.good (fun a h => ha a (.inr h)) h2
      have f4 := defer_fr f3.good (d := ⟨rt, m, k1.fresh.1, rt :: ts⟩) ⟨o1, fresh_ok k1, by
        intro u hu
        rcases List.mem_cons.1 hu with rfl | hu
        · exact o1
        · exact o3 u hu⟩
      exact ⟨((f1.then f2).trans f3).then f4, fresh_ok k1⟩
  | .bin b l r, k, k', t, g, ha, h => by
    simp only [infer, Option.some.injEq, Prod.mk.injEq] at h
    obtain ⟨rfl, rfl⟩ := h
    have f1 := (same_fresh k).fr g
    exact ⟨(f1.then (lose_fr f1.good true)).sub (by simp), fresh_ok k⟩
  | .block ss v, k, k', t, g, ha, h => by
    simp only [infer, Option.bind_eq_bind, Option.bind_eq_some_iff] at h
    obtain ⟨k1, h1, ⟨u, k2⟩, h2, h⟩ := h
    simp only [Option.some.injEq, Prod.mk.injEq] at h
    obtain ⟨rfl, rfl⟩ := h
    simp only [E.anns, List.mem_append] at ha
    have f1 := inferSS_go hG ss g (fun a h => ha a (.inl h)) h1
    obtain ⟨f2, o2⟩ := infer_fr hG v f1.good (fun a h => ha a (.inr h)) h2
    exact ⟨pop_fr g (f1.trans f2.toGo), o2⟩
  | .case s arms, k, k', t, g, ha, h => by
    simp only [infer, Option.bind_eq_bind, Option.bind_eq_some_iff] at h
    obtain ⟨⟨st, k1⟩, h1, k2, h2, h⟩ := h
    simp only [Option.some.injEq, Prod.mk.injEq] at h
    obtain ⟨rfl, rfl⟩ := h
    simp only [E.anns, List.mem_append] at ha
    obtain ⟨f1, o1⟩ := infer_fr hG s g (fun a h => ha a (.inl h)) h1
    have f2 := (same_fresh k1).fr f1.good
    have f3 := inferArms_fr hG o1 (fresh_ok k1) arms f2.good (fun a h => ha a (.inr h)) h2
    exact ⟨(f1.then f2).trans f3, fresh_ok k1⟩
  | .lam node ps b, k, k', t, g, ha, h => by
    simp only [infer, Option.bind_eq_bind, Option.bind_eq_some_iff] at h
    obtain ⟨⟨bt, k2⟩, h1, h⟩ := h
    simp only [Option.some.injEq, Prod.mk.injEq] at h
    obtain ⟨rfl, rfl⟩ := h
    simp only [E.anns, List.mem_append] at ha
    have hp := paramTys_ok ps k (fun a h => ha a (.inl h))
    have f1 := (paramTys_same ps k).fr g
    have f2 := (same_freshRow (paramTys ps k).2).fr f1.good
    have f3 := cur_fr f2.good (freshRow_ok (paramTys ps k).2)
    have f4 := bindAll_go f3.good (ps.map Prod.fst) _ hp
    obtain ⟨f5, o5⟩ := infer_fr hG b f4.good (fun a h => ha a (.inr h)) h1
    have f6 := cur_fr f5.good g.cur
    have f7 := ((((f1.then f2).then f3).toGo.then f4).trans f5.toGo).then f6.toGo
    have f8 := pop_fr g f7
    have o := tFunc_ok hp o5 f5.good.cur
    exact ⟨f8.then (lams_fr f8.good o), o⟩
  | .tuple es, k, k', t, g, ha, h => by
    simp only [infer, Option.bind_eq_bind, Option.bind_eq_some_iff] at h
    obtain ⟨⟨ts, k1⟩, h1, h⟩ := h
    simp only [Option.some.injEq, Prod.mk.injEq] at h
    obtain ⟨rfl, rfl⟩ := h
    obtain ⟨f, o⟩ := inferL_fr hG es g ha h1
    exact ⟨f, tTuple_ok o⟩
  | .list es, k, k', t, g, ha, h => by
    simp only [infer, Option.bind_eq_bind, Option.bind_eq_some_iff] at h
    obtain ⟨k1, h1, h⟩ := h
    simp only [Option.some.injEq, Prod.mk.injEq] at h
    obtain ⟨rfl, rfl⟩ := h
    have f0 := (same_fresh k).fr g
    have f := inferElems_fr hG (fresh_ok k) es f0.good ha h1
    exact ⟨f0.trans f, listTy_ok (fresh_ok k)⟩
theorem inferL_fr {G : Env} (hG : EnvOk G) {n : Nat} : ∀ (es : List E) {k k' : K} {ts : List Ty}, Good k →
    (∀ a ∈ annsL es, Ok 0 a) → inferL G n es k = some (ts, k') → Fr (nodesL es) k k' ∧ ∀ t ∈ ts, Ok 0 t
  | [], k, k', ts, g, ha, h => by
    simp only [inferL, Option.some.injEq, Prod.mk.injEq] at h
    obtain ⟨rfl, rfl⟩ := h
    exact ⟨Fr.refl g, by simp⟩
  | e :: es, k, k', ts, g, ha, h => by
    simp only [inferL, Option.bind_eq_bind, Option.bind_eq_some_iff] at h
    obtain ⟨⟨t, k1⟩, h1, ⟨ts', k2⟩, h2, h⟩ := h
    simp only [Option.some.injEq, Prod.mk.injEq] at h
    obtain ⟨rfl, rfl⟩ := h
    simp only [annsL, List.mem_append] at ha
    obtain ⟨f1, o1⟩ := infer_fr hG e g (fun a h => ha a (.inl h)) h1
    obtain ⟨f2, o2⟩ := inferL_fr hG es f1.good (fun a h => ha a (.inr h)) h2
    refine ⟨f1.trans f2, ?_⟩
    intro u hu
    rcases List.mem_cons.1 hu with rfl | hu
    · exact o1
    · exact o2 u hu
theorem inferElems_fr {G : Env} (hG : EnvOk G) {n : Nat} {el : Ty} (he : Ok 0 el) : ∀ (es : List E) {k k' : K},
    Good k → (∀ a ∈ annsL es, Ok 0 a) → inferElems G n el es k = some k' → Fr (nodesL es) k k'
  | [], k, k', g, ha, h => by
    simp only [inferElems, Option.some.injEq] at h
    subst h
    exact Fr.refl g
  | e :: es, k, k', g, ha, h => by
    simp only [inferElems, Option.bind_eq_bind, Option.bind_eq_some_iff] at h
    obtain ⟨⟨t, k1⟩, h1, h2⟩ := h
    simp only [annsL, List.mem_append] at ha
    obtain ⟨f1, o1⟩ := infer_fr hG e g (fun a h => ha a (.inl h)) h1
    have f2 := add_fr f1.good (cs := [.teq t el]) (by simpa [OkCon] using ⟨o1, he⟩)
    have f3 := inferElems_fr hG he es f2.good (fun a h => ha a (.inr h)) h2
    exact (f1.then f2).trans f3
theorem inferSS_go {G : Env} (hG : EnvOk G) {n : Nat} : ∀ (ss : List Stmt) {k k' : K}, Good k →
    (∀ a ∈ annsSS ss, Ok 0 a) → inferSS G n ss k = some k' → Go (nodesSS ss) k k'
  | [], k, k', g, ha, h => by
    simp only [inferSS, Option.some.injEq] at h
    subst h
    exact Go.refl g
  | .expr e :: ss, k, k', g, ha, h => by
    simp only [inferSS, Option.bind_eq_bind, Option.bind_eq_some_iff] at h
    obtain ⟨⟨t, k1⟩, h1, h2⟩ := h
    simp only [annsSS, List.mem_append] at ha
    obtain ⟨f1, o1⟩ := infer_fr hG e g (fun a h => ha a (.inl h)) h1
    exact f1.toGo.trans (inferSS_go hG ss f1.good (fun a h => ha a (.inr h)) h2)
  | .bind x (some t) e :: ss, k, k', g, ha, h => by
    simp only [inferSS, Option.bind_eq_bind, Option.bind_eq_some_iff] at h
    obtain ⟨⟨u, k1⟩, h1, k2, h2, h3⟩ := h
    simp only [annsSS, List.mem_append, Option.toList_some, List.mem_singleton] at ha
    have f0 := cur_fr g (okRow_nil none)
    obtain ⟨f1, o1⟩ := infer_fr hG e f0.good (fun a h => ha a (.inl (.inr h))) h1
    have ot := ha t (.inl (.inl rfl))
    have f2 := add_fr f1.good (cs := [.teq u t]) (by simpa [OkCon] using ⟨o1, ot⟩)
    have f3 := letEnd_go f2.good g.cur ot h2
    have f4 := inferSS_go hG ss f3.good (fun a h => ha a (.inr h)) h3
    exact (((f0.trans f1).then f2).toGo.then f3).trans f4
  | .bind x none e :: ss, k, k', g, ha, h => by
    simp only [inferSS, Option.bind_eq_bind, Option.bind_eq_some_iff] at h
    obtain ⟨⟨u, k1⟩, h1, k2, h2, h3⟩ := h
    simp only [annsSS, List.mem_append] at ha
    have f0 := cur_fr g (okRow_nil none)
    obtain ⟨f1, o1⟩ := infer_fr hG e f0.good (fun a h => ha a (.inl (.inr h))) h1
    have f3 := letEnd_go f1.good g.cur o1 h2
    have f4 := inferSS_go hG ss f3.good (fun a h => ha a (.inr h)) h3
    exact ((f0.trans f1).toGo.then f3).trans f4
theorem inferArms_fr {G : Env} (hG : EnvOk G) {n : Nat} {st res : Ty} (hs : Ok 0 st) (hr : Ok 0 res) :
    ∀ (arms : List Arm) {k k' : K}, Good k → (∀ a ∈ annsArms arms, Ok 0 a) →
    inferArms G n st res arms k = some k' → Fr (nodesArms arms) k k'
  | [], k, k', g, ha, h => by
    simp only [inferArms, Option.some.injEq] at h
    subst h
    exact Fr.refl g
  | .mk p b :: arms, k, k', g, ha, h => by
    simp only [inferArms, Option.bind_eq_bind, Option.bind_eq_some_iff] at h
    obtain ⟨⟨pt, ap, k1⟩, h1, ⟨t, k2⟩, h2, h3⟩ := h
    simp only [annsArms, List.mem_append] at ha
    obtain ⟨f1, o1, a1⟩ := inferPat_fr hG p g h1
    have f2 := add_fr f1.good (cs := [.teq pt st]) (by simpa [OkCon] using ⟨o1, hs⟩)
    have f3 := bindPat_go ap f2.good a1 hs (G := G)
    obtain ⟨f4, o4⟩ := infer_fr hG b f3.good (fun a h => ha a (.inl h)) h2
    have f5 := add_fr f4.good (cs := [.teq t res]) (by simpa [OkCon] using ⟨o4, hr⟩)
    have f6 := pop_fr g ((((f1.then f2).toGo.then f3).trans f4.toGo).then f5.toGo)
    have f7 := inferArms_fr hG hs hr arms f6.good (fun a h => ha a (.inr h)) h3
    exact f6.trans f7
end

end Verif.Typing
