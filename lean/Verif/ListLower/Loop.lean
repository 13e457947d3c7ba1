import Verif.ListLower.Pass

/-! Lowering one observation leaves the others to be lowered. -/

namespace Verif.ListLower

open Verif.ScfToCf

variable {I : Interp}

/-! ## The other observations -/

/-- The site of another observation after the first was lowered. -/
def Site.next (S : Site) (o : Obs) : Site := ⟨S.N, o, S.nextLabel + 3, S.nextValue + 3⟩

def Site.other (S : Site) (o : Obs) : Site := ⟨S.N, o, S.nextLabel, S.nextValue⟩

theorem lt3 {a b : Nat} (h : a < b) : a < b + 3 := by omega

theorem ren_bound (S : Site) {v : Value} (h : v < S.nextValue) : S.ren v < S.nextValue + 3 := by
  unfold Site.ren Site.arg
  split
  · exact (by omega : ∀ n : Nat, n < n + 3) _
  · exact lt3 h

theorem map_ren_bound (S : Site) {as : List Value} (h : ∀ v ∈ as, v < S.nextValue) :
    ∀ v ∈ as.map S.ren, v < S.nextValue + 3 := by
  intro v hv
  obtain ⟨w, hw, rfl⟩ := List.mem_map.1 hv
  exact ren_bound S (h w hw)

theorem cntO_low (S : Site) (r : Value) : ∀ os, cntO r (lowO S os) = cntO r os
  | [] => by rw [lowO]
  | o :: os => by
    have h := cntO_low S r os
    rw [lowO]
    simp only [cntO] at h ⊢
    rw [List.countP_cons, List.countP_cons, isAt_low, h]

theorem cntB_append (r : Value) : ∀ xs ys : List Block, cntB r (xs ++ ys) = cntB r xs + cntB r ys
  | [], ys => by simp [cntB]
  | .mk _ _ os :: xs, ys => by rw [List.cons_append, cntB, cntB, cntB_append r xs ys]; omega

/-- The number of times another value is defined in a region does not change. -/
theorem cntB_low {S : Site} {o : Obs} (hne : o.res ≠ S.obs.res) (hlt : o.res < S.nextValue) :
    ∀ {bs : List Block}, fineB S bs → cntB o.res (lowB S bs) = cntB o.res bs
  | [], _ => by rw [lowB]
  | .mk l ps os :: bs, hf => by
    rw [fineB] at hf
    rw [lowB_cons, cntB_append, cntB_low hne hlt hf.2.2.2]
    rw [cntB]
    congr 1
    rw [lowBlock]
    cases hs : splitObs S.obs.res os with
    | none => simp [cntB, cntO_low]
    | some p =>
      obtain ⟨x, y⟩ := p
      obtain ⟨op, h1, h2, h3⟩ := splitObs_some hs
      subst h1
      rw [fineO_append, fineO] at hf
      cases op <;> simp only [Op.isAt, Bool.false_eq_true] at h2
      rename_i n as rs
      have hm : S.obs.res ∈ rs := by simpa using h2
      have hp := hf.2.2.1.2.1
      rw [Op.fine] at hp
      obtain ⟨ha, hr, hk⟩ := hp.2.2 hm
      subst ha hr
      have n0 : o.res ≠ S.cond := lt_ne hlt
      have n1 : o.res ≠ S.proj := lt_ne hlt
      have hx : (lowO S x).countP (Op.isAt o.res) = x.countP (Op.isAt o.res) := cntO_low S o.res x
      have hy : (lowO S y).countP (Op.isAt o.res) = y.countP (Op.isAt o.res) := cntO_low S o.res y
      simp only [Site.blocks, cntB, cntO, List.countP_append, List.countP_cons, List.countP_nil, Op.isAt, hx, hy,
        List.contains_eq_mem, List.mem_singleton, n0, n1, hne, decide_false, Bool.false_eq_true, if_false]
      omega

mutual
theorem next_op {S : Site} {o : Obs} (hne : o.res ≠ S.obs.res) (hlt : o.res < S.nextValue) (hl : o.list ≠ S.obs.res) :
    ∀ x : Op, Op.fine S x → Op.fine (S.other o) x → Op.fine (S.next o) (Op.low S x)
  | .plain n as rs, h1, h2 => by
    rw [Op.fine] at h1 h2
    rw [Op.low, Op.fine]
    refine ⟨map_ren_bound S h1.1, fun v hv => lt3 (h1.2.1 v hv), fun hr => ?_⟩
    obtain ⟨h3, h4, h5⟩ := h2.2.2 hr
    refine ⟨?_, h4, h5⟩
    rw [h3]
    show [S.ren o.list] = [o.list]
    rw [ren_lt hl]
  | .const a v, h1, h2 => by
    rw [Op.fine] at h1 h2
    rw [Op.low, Op.fine]
    exact ⟨lt3 h1.1, h2.2⟩
  | .cmpEq x y v, h1, h2 => by
    rw [Op.fine] at h1 h2
    rw [Op.low, Op.fine]
    exact ⟨⟨ren_bound S h1.1.1, ren_bound S h1.1.2⟩, lt3 h1.2.1, h2.2.2⟩
  | .ite c rs t e, h1, h2 => by
    rw [Op.fine] at h1 h2
    rw [Op.low, Op.fine]
    refine ⟨ren_bound S h1.1, ⟨fun v hv => lt3 (h1.2.1.1 v hv), h2.2.1.2⟩, ⟨?_, next_blocks hne hlt hl t h1.2.2.1.2 h2.2.2.1.2⟩,
      ?_, next_blocks hne hlt hl e h1.2.2.2.2 h2.2.2.2.2⟩
    · show cntB o.res _ ≤ 1
      rw [cntB_low hne hlt h1.2.2.1.2]; exact h2.2.2.1.1
    · show cntB o.res _ ≤ 1
      rw [cntB_low hne hlt h1.2.2.2.2]; exact h2.2.2.2.1
  | .loop i rs b, h1, h2 => by
    rw [Op.fine] at h1 h2
    rw [Op.low, Op.fine]
    refine ⟨map_ren_bound S h1.1, ⟨fun v hv => lt3 (h1.2.1.1 v hv), h2.2.1.2⟩, ?_, next_blocks hne hlt hl b h1.2.2.2 h2.2.2.2⟩
    show cntB o.res _ ≤ 1
    rw [cntB_low hne hlt h1.2.2.2]; exact h2.2.2.1
  | .switch d rs cs, h1, h2 => by
    rw [Op.fine] at h1 h2
    rw [Op.low, Op.fine]
    exact ⟨ren_bound S h1.1, ⟨fun v hv => lt3 (h1.2.1.1 v hv), h2.2.1.2⟩, next_cases hne hlt hl cs h1.2.2 h2.2.2⟩
  | .yield vs, h1, h2 => by rw [Op.fine] at h1; rw [Op.low, Op.fine]; exact map_ren_bound S h1
  | .cont vs, h1, h2 => by rw [Op.fine] at h1; rw [Op.low, Op.fine]; exact map_ren_bound S h1
  | .brk v, h1, h2 => by rw [Op.fine] at h1; rw [Op.low, Op.fine]; exact ren_bound S h1
  | .br as l, h1, h2 => by rw [Op.fine] at h1; rw [Op.low, Op.fine]; exact ⟨map_ren_bound S h1.1, lt3 h1.2⟩
  | .condBr c t e, h1, h2 => by
    rw [Op.fine] at h1; rw [Op.low, Op.fine]; exact ⟨ren_bound S h1.1, lt3 h1.2.1, lt3 h1.2.2⟩
  | .exit n as, h1, h2 => by rw [Op.fine] at h1; rw [Op.low, Op.fine]; exact map_ren_bound S h1
theorem next_ops {S : Site} {o : Obs} (hne : o.res ≠ S.obs.res) (hlt : o.res < S.nextValue) (hl : o.list ≠ S.obs.res) :
    ∀ xs : List Op, fineO S xs → fineO (S.other o) xs → fineO (S.next o) (lowO S xs)
  | [], _, _ => by rw [lowO, fineO]; trivial
  | x :: xs, h1, h2 => by
    rw [fineO] at h1 h2
    rw [lowO, fineO]
    exact ⟨next_op hne hlt hl x h1.1 h2.1, next_ops hne hlt hl xs h1.2 h2.2⟩
theorem next_blocks {S : Site} {o : Obs} (hne : o.res ≠ S.obs.res) (hlt : o.res < S.nextValue) (hl : o.list ≠ S.obs.res) :
    ∀ xs : List Block, fineB S xs → fineB (S.other o) xs → fineB (S.next o) (lowB S xs)
  | [], _, _ => by rw [lowB, fineB]; trivial
  | .mk l ps os :: bs, h1, h2 => by
    rw [fineB] at h1 h2
    have ih := next_blocks hne hlt hl bs h1.2.2.2 h2.2.2.2
    have io := next_ops hne hlt hl os h1.2.2.1 h2.2.2.1
    have hps : (∀ v ∈ ps, v < S.nextValue + 3) ∧ o.res ∉ ps := ⟨fun v hv => lt3 (h1.2.1.1 v hv), h2.2.1.2⟩
    rw [lowB]
    cases hs : splitObs S.obs.res (lowO S os) with
    | none =>
      simp only [List.cons_append, List.nil_append]
      rw [fineB]
      exact ⟨lt3 h1.1, hps, io, ih⟩
    | some p =>
      obtain ⟨x, y⟩ := p
      rw [splitObs_low, Option.map_eq_some_iff] at hs
      obtain ⟨⟨x', y'⟩, hs, hxy⟩ := hs
      simp only [Prod.mk.injEq] at hxy
      obtain ⟨rfl, rfl⟩ := hxy
      obtain ⟨op, e1, e2, e3⟩ := splitObs_some hs
      have hop := h1.2.2.1
      rw [e1, fineO_append, fineO] at hop
      have hop2 := hop.2.1
      cases op <;> simp only [Op.isAt, Bool.false_eq_true] at e2
      rename_i n as rs
      rw [Op.fine] at hop2
      obtain ⟨ha, hr, hk⟩ := hop2.2.2 (by simpa using e2)
      have hlist : S.obs.list < S.nextValue + 3 := lt3 (hop2.1 _ (by rw [ha]; simp))
      have hxy : fineO (S.next o) (lowO S x') ∧ fineO (S.next o) (lowO S y') := by
        have hlow : ∀ a b : List Op, lowO S (a ++ b) = lowO S a ++ lowO S b := by
          intro a b
          induction a with
          | nil => rw [List.nil_append]; rw [lowO.eq_def S []]; rfl
          | cons z a ih => rw [List.cons_append, lowO, ih, lowO]; rfl
        rw [e1, hlow, fineO_append, lowO, fineO] at io
        exact ⟨io.1, io.2.2⟩
      have n0 : o.res ≠ S.nextValue := lt_ne (k := 0) hlt
      have n1 : o.res ≠ S.nextValue + 1 := lt_ne hlt
      have n2 : o.res ≠ S.nextValue + 2 := lt_ne hlt
      have b0 : S.nextValue < S.nextValue + 3 := (by omega : ∀ n : Nat, n < n + 3) _
      have b1 : S.nextValue + 1 < S.nextValue + 3 := (by omega : ∀ n : Nat, n + 1 < n + 3) _
      have b2 : S.nextValue + 2 < S.nextValue + 3 := (by omega : ∀ n : Nat, n + 2 < n + 3) _
      have c0 : S.nextLabel < S.nextLabel + 3 := (by omega : ∀ n : Nat, n < n + 3) _
      have c1 : S.nextLabel + 1 < S.nextLabel + 3 := (by omega : ∀ n : Nat, n + 1 < n + 3) _
      have c2 : S.nextLabel + 2 < S.nextLabel + 3 := (by omega : ∀ n : Nat, n + 2 < n + 3) _
      have hl3 : l < S.nextLabel + 3 := lt3 h1.1
      simp only [Site.blocks, List.cons_append, List.nil_append, fineB, fineO_append, fineO, Op.fine, List.mem_singleton,
        forall_eq, List.not_mem_nil, Site.cond, Site.proj, Site.arg, Site.trapL, Site.projL, Site.contL]
      simp only [Site.next]
      refine ⟨hl3, hps, ⟨hxy.1, ⟨hlist, b1, fun h => absurd h n1⟩, ⟨b1, c1, c2⟩, trivial⟩, c1, ⟨by simp, by simp⟩,
        ⟨by simp, trivial⟩, c2, ⟨by simp, by simp⟩, ⟨⟨hlist, b2, fun h => absurd h n2⟩, ⟨b2, c0⟩, trivial⟩, c0, ⟨b0, n0⟩,
        hxy.2, ih⟩
theorem next_cases {S : Site} {o : Obs} (hne : o.res ≠ S.obs.res) (hlt : o.res < S.nextValue) (hl : o.list ≠ S.obs.res) :
    ∀ xs : List Case, fineC S xs → fineC (S.other o) xs → fineC (S.next o) (lowC S xs)
  | [], _, _ => by rw [lowC, fineC]; trivial
  | .mk v b :: cs, h1, h2 => by
    rw [fineC] at h1 h2
    rw [lowC, fineC]
    refine ⟨⟨?_, next_blocks hne hlt hl b h1.1.2 h2.1.2⟩, next_cases hne hlt hl cs h1.2 h2.2⟩
    show cntB o.res _ ≤ 1
    rw [cntB_low hne hlt h1.1.2]; exact h2.1.1
end

/-! ## Observations that are left -/

mutual
/-- Every observation defines one of the given values. -/
def Op.left (N : Names) (A : Value → Prop) : Op → Prop
  | .plain n _ rs => ∀ ty f, N.kind n = some (.observe ty f) → ∃ r, rs = [r] ∧ A r
  | .ite _ _ t e => leftB N A t ∧ leftB N A e
  | .loop _ _ b => leftB N A b
  | .switch _ _ cs => leftC N A cs
  | _ => True
def leftO (N : Names) (A : Value → Prop) : List Op → Prop
  | [] => True
  | o :: os => Op.left N A o ∧ leftO N A os
def leftB (N : Names) (A : Value → Prop) : List Block → Prop
  | [] => True
  | .mk _ _ os :: bs => leftO N A os ∧ leftB N A bs
def leftC (N : Names) (A : Value → Prop) : List Case → Prop
  | [] => True
  | .mk _ b :: cs => leftB N A b ∧ leftC N A cs
end

theorem leftO_append {N : Names} {A : Value → Prop} {xs ys : List Op} : leftO N A (xs ++ ys) ↔ leftO N A xs ∧ leftO N A ys := by
  induction xs with
  | nil => simp [leftO]
  | cons x xs ih => simp only [List.cons_append, leftO, ih, and_assoc]

mutual
theorem left_op {S : Site} (hD : Distinct S.N) {A : Value → Prop} : ∀ x : Op, Op.fine S x → Op.isAt S.obs.res x = false →
    Op.left S.N A x → Op.left S.N (fun v => A v ∧ v ≠ S.obs.res) (Op.low S x)
  | .plain n as rs, hf, ha, h => by
    rw [Op.low, Op.left]
    rw [Op.left] at h
    intro ty f hk
    obtain ⟨r, hr, hA⟩ := h ty f hk
    refine ⟨r, hr, hA, ?_⟩
    rintro rfl
    subst hr
    simp [Op.isAt] at ha
  | .ite c rs t e, hf, ha, h => by
    rw [Op.left] at h
    rw [Op.fine] at hf
    rw [Op.low, Op.left]
    exact ⟨left_blocks hD t hf.2.2.1.1 hf.2.2.1.2 h.1, left_blocks hD e hf.2.2.2.1 hf.2.2.2.2 h.2⟩
  | .loop i rs b, hf, ha, h => by
    rw [Op.left] at h
    rw [Op.fine] at hf
    rw [Op.low, Op.left]
    exact left_blocks hD b hf.2.2.1 hf.2.2.2 h
  | .switch d rs cs, hf, ha, h => by
    rw [Op.left] at h
    rw [Op.fine] at hf
    rw [Op.low, Op.left]
    exact left_cases hD cs hf.2.2 h
  | .const _ _, _, _, _ => by rw [Op.low, Op.left] <;> simp
  | .cmpEq _ _ _, _, _, _ => by rw [Op.low, Op.left] <;> simp
  | .yield _, _, _, _ => by rw [Op.low, Op.left] <;> simp
  | .cont _, _, _, _ => by rw [Op.low, Op.left] <;> simp
  | .brk _, _, _, _ => by rw [Op.low, Op.left] <;> simp
  | .br _ _, _, _, _ => by rw [Op.low, Op.left] <;> simp
  | .condBr _ _ _, _, _, _ => by rw [Op.low, Op.left] <;> simp
  | .exit _ _, _, _, _ => by rw [Op.low, Op.left] <;> simp
theorem left_ops {S : Site} (hD : Distinct S.N) {A : Value → Prop} : ∀ xs : List Op, fineO S xs →
    (∀ a b, splitObs S.obs.res xs = some (a, b) → cntO S.obs.res b = 0) → leftO S.N A xs →
    match splitObs S.obs.res xs with
    | none => leftO S.N (fun v => A v ∧ v ≠ S.obs.res) (lowO S xs)
    | some (a, b) => leftO S.N (fun v => A v ∧ v ≠ S.obs.res) (lowO S a) ∧ leftO S.N (fun v => A v ∧ v ≠ S.obs.res) (lowO S b)
  | [], _, _, _ => by rw [splitObs]; simp only; rw [lowO, leftO]; trivial
  | x :: xs, hf, hc, h => by
    rw [fineO] at hf
    rw [leftO] at h
    rw [splitObs] at hc ⊢
    by_cases hx : Op.isAt S.obs.res x = true
    · simp only [hx, if_true] at hc ⊢
      have h0 := hc [] xs rfl
      have ih := left_ops hD xs hf.2 (fun a b hab => by rw [cnt_none h0] at hab; cases hab) h.2
      rw [cnt_none h0] at ih
      refine ⟨?_, ih⟩
      rw [lowO, leftO]; trivial
    · simp only [hx, Bool.false_eq_true, if_false] at hc ⊢
      have hx' : Op.isAt S.obs.res x = false := by simpa using hx
      have i1 := left_op hD x hf.1 hx' h.1
      have ih := left_ops hD xs hf.2 (fun a b hab => hc (x :: a) b (by rw [hab]; rfl)) h.2
      cases hs : splitObs S.obs.res xs with
      | none =>
        rw [hs] at ih
        simp only [Option.map_none]
        rw [lowO, leftO]; exact ⟨i1, ih⟩
      | some p =>
        rw [hs] at ih
        simp only [Option.map_some]
        rw [lowO, leftO]; exact ⟨⟨i1, ih.1⟩, ih.2⟩
theorem left_blocks {S : Site} (hD : Distinct S.N) {A : Value → Prop} : ∀ xs : List Block, cntB S.obs.res xs ≤ 1 → fineB S xs →
    leftB S.N A xs → leftB S.N (fun v => A v ∧ v ≠ S.obs.res) (lowB S xs)
  | [], _, _, _ => by rw [lowB, leftB]; trivial
  | .mk l ps os :: bs, hc, hf, h => by
    rw [fineB] at hf
    rw [leftB] at h
    rw [cntB] at hc
    have ih := left_blocks hD bs (by omega) hf.2.2.2 h.2
    have io := left_ops hD os hf.2.2.1 (fun a b hab => by have := cnt_split hab; omega) h.1
    rw [lowB, splitObs_low]
    cases hs : splitObs S.obs.res os with
    | none =>
      rw [hs] at io
      simp only [Option.map_none, List.cons_append, List.nil_append]
      rw [leftB]; exact ⟨io, ih⟩
    | some p =>
      rw [hs] at io
      simp only [Option.map_some, Site.blocks, List.cons_append, List.nil_append, leftB, leftO_append, leftO, Op.left, hD.isNull,
        hD.field, and_true, true_and]
      simp only [reduceCtorEq, false_implies, implies_true, and_true, true_and]
      exact ⟨io.1, io.2, ih⟩
theorem left_cases {S : Site} (hD : Distinct S.N) {A : Value → Prop} : ∀ xs : List Case, fineC S xs → leftC S.N A xs →
    leftC S.N (fun v => A v ∧ v ≠ S.obs.res) (lowC S xs)
  | [], _, _ => by rw [lowC, leftC]; trivial
  | .mk v b :: cs, hf, h => by
    rw [fineC] at hf
    rw [leftC] at h
    rw [lowC, leftC]
    exact ⟨left_blocks hD b hf.1.1 hf.1.2 h.1, left_cases hD cs hf.2 h.2⟩
end

end Verif.ListLower
