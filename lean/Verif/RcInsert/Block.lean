import Verif.RcInsert.Proofs

namespace Verif.RcInsert

open Verif.Live

section
variable {c : Config} {l : Live}

/-! ## Runs of retains, releases and moves -/

theorem execAll_append (b : Nat) (st : St) (xs ys : List Instr) :
    execAll c b st (xs ++ ys) = (execAll c b st xs).bind (fun s => execAll c b s ys) := by
  induction xs generalizing st with
  | nil => rfl
  | cons x xs ih =>
    simp only [List.cons_append, execAll]
    cases exec c b st x with
    | none => rfl
    | some s => exact ih s

theorem held_mono {own own' : Ledger} (h : ∀ v, own v ≤ own' v) {v : Nat} (hv : held c own v = true) :
    held c own' v = true := by
  simp only [held, Bool.or_eq_true, decide_eq_true_eq] at hv ⊢
  have := h v
  rcases hv with (((hv | hv) | hv) | hv) | hv
  · exact Or.inl (Or.inl (Or.inl (Or.inl (by omega))))
  · exact Or.inl (Or.inl (Or.inl (Or.inr hv)))
  · exact Or.inl (Or.inl (Or.inr hv))
  · exact Or.inl (Or.inr hv)
  · exact Or.inr hv

theorem usable_mono {own own' : Ledger} (h : ∀ v, own v ≤ own' v) {vs : List Nat} (hv : usable c own vs = true) :
    usable c own' vs = true := by
  simp only [usable, List.all_eq_true] at hv ⊢
  exact fun v hm => held_mono h (hv v hm)

theorem usable_sub {own : Ledger} {vs ws : List Nat} (h : ∀ v ∈ ws, v ∈ vs) (hv : usable c own vs = true) :
    usable c own ws = true := by
  simp only [usable, List.all_eq_true, List.mem_flatMap] at hv ⊢
  rintro v ⟨w, hw, ht⟩
  exact hv v ⟨w, h w hw, ht⟩

theorem passed_cons (inp : Input) (r a : Nat) (as : List Nat) :
    passed inp r (a :: as) = (if rootOf inp a = r then 1 else 0) + passed inp r as := by
  simp only [passed, List.filter_cons, beq_iff_eq]
  split
  · simp only [List.length_cons]; omega
  · omega

theorem passed_append (inp : Input) (r : Nat) (as bs : List Nat) :
    passed inp r (as ++ bs) = passed inp r as + passed inp r bs := by
  simp [passed]

theorem run_retains (b : Nat) (rs : List Nat) (st : St)
    (h : ∀ v ∈ rs, callerHolds c v = true ∨ usable c st.own [v] = true) :
    ∃ st', execAll c b st (rs.map .retain) = some st' ∧ ∀ v, st'.own v = st.own v + passed c.inp v rs := by
  induction rs generalizing st with
  | nil => exact ⟨st, rfl, fun v => rfl⟩
  | cons r rs ih =>
    have hg : (st.fresh == some r || callerHolds c r || usable c st.own [r]) = true := by
      rcases h r (by simp) with h | h <;> simp [h]
    simp only [List.map_cons, execAll, exec, hg, if_true]
    obtain ⟨st', h1, h2⟩ := ih ⟨set st.own (rootOf c.inp r) (st.own (rootOf c.inp r) + 1), none⟩ (by
      intro v hv
      rcases h v (by simp [hv]) with h | h
      · exact Or.inl h
      · refine Or.inr (usable_mono (fun w => ?_) h)
        show st.own w ≤ set st.own _ _ w
        simp only [set]
        split
        · rename_i e; subst e; omega
        · omega)
    refine ⟨st', h1, fun v => ?_⟩
    rw [h2, passed_cons]
    simp only [set]
    by_cases e : v = rootOf c.inp r
    · subst e; simp only [if_true]; omega
    · rw [if_neg e, if_neg (Ne.symm e)]; omega

theorem run_releases (F : Facts c l) (b : Nat) (rs : List Nat) (st : St) (hn : rs.Nodup) (hp : ∀ v ∈ rs, v ∈ c.inp.ptrs)
    (h : ∀ v ∈ rs, 1 ≤ st.own v) :
    ∃ st', execAll c b st (rs.map .release) = some st' ∧ ∀ v, st'.own v = st.own v - (if v ∈ rs then 1 else 0) := by
  induction rs generalizing st with
  | nil => exact ⟨st, rfl, fun v => by simp⟩
  | cons r rs ih =>
    have hr := F.root_self (hp r (by simp))
    rw [List.nodup_cons] at hn
    have hg : 1 ≤ st.own (rootOf c.inp r) := by rw [hr]; exact h r (by simp)
    simp only [List.map_cons, execAll, exec, if_pos hg]
    obtain ⟨st', h1, h2⟩ := ih ⟨set st.own (rootOf c.inp r) (st.own (rootOf c.inp r) - 1), none⟩ hn.2
      (fun v hv => hp v (by simp [hv])) (by
        intro v hv
        show 1 ≤ set st.own _ _ v
        rw [hr, set, if_neg (by rintro rfl; exact hn.1 hv)]
        exact h v (by simp [hv]))
    refine ⟨st', h1, fun v => ?_⟩
    rw [h2]
    simp only [set, hr, List.mem_cons]
    by_cases e : v = r
    · subst e; simp [hn.1]
    · simp [e]

theorem run_give (rs : List Nat) (own : Ledger) (h : ∀ v ∈ c.inp.ptrs, passed c.inp v rs ≤ own v) :
    ∃ own', give c rs own = some own' ∧ (∀ v ∈ c.inp.ptrs, own' v = own v - passed c.inp v rs) ∧
      ∀ v, v ∉ c.inp.ptrs → own' v = own v := by
  induction rs generalizing own with
  | nil => exact ⟨own, rfl, fun v _ => rfl, fun v _ => rfl⟩
  | cons r rs ih =>
    simp only [give]
    by_cases hc : rootOf c.inp r ∈ c.inp.ptrs
    · have h0 := h _ hc
      rw [passed_cons, if_pos rfl] at h0
      rw [if_pos (by simpa using hc), if_pos (by omega)]
      obtain ⟨own', h1, h2, h3⟩ := ih (set own (rootOf c.inp r) (own (rootOf c.inp r) - 1)) (by
        intro v hv
        have := h v hv
        rw [passed_cons] at this
        simp only [set]
        by_cases e : v = rootOf c.inp r
        · subst e; simp only [if_true] at this ⊢; omega
        · rw [if_neg (Ne.symm e)] at this; rw [if_neg e]; omega)
      refine ⟨own', h1, fun v hv => ?_, fun v hv => ?_⟩
      · rw [h2 v hv, passed_cons]
        simp only [set]
        by_cases e : v = rootOf c.inp r
        · subst e; simp only [if_true]; omega
        · rw [if_neg (Ne.symm e), if_neg e]; omega
      · rw [h3 v hv]
        simp only [set]
        rw [if_neg (by rintro rfl; exact hv hc)]
    · rw [if_neg (by simpa using hc)]
      obtain ⟨own', h1, h2, h3⟩ := ih own (by
        intro v hv
        have := h v hv
        rw [passed_cons] at this
        omega)
      refine ⟨own', h1, fun v hv => ?_, h3⟩
      rw [h2 v hv, passed_cons, if_neg (by rintro rfl; exact hc hv)]
      omega

/-! ## One operation -/

/-- The retains before an operation. -/
def before (c : Config) (b i : Nat) (op : Op) : List Nat := contractRetains c b i op ++ storeRetains c op

theorem chunk_eq (b : Nat) (blk : Block) (i : Nat) (op : Op) : chunk c l b blk i op =
    (before c b i op).map .retain ++ ((releasesAt c l b blk (.before i)).map .release ++ (.op i op ::
      ((loadRetains c op).map .retain ++ (releasesAt c l b blk (.after i)).map .release))) := by
  simp [chunk, before]

/-- What the operation and the retain after it leave for a value. -/
def given (c : Config) (op : Op) (v : Nat) : Nat :=
  (if op.kind = .load || c.interm v then 0 else 1) + passed c.inp v (loadRetains c op)

theorem loadRetains_cases (hr : Regular c) {b i : Nat} {op : Op} (hat : At c b i op) :
    loadRetains c op = [] ∨ ∃ v, op.kind = .load ∧ op.results = [v] ∧ c.inp.info.anyref v = true ∧ v ∉ c.temps ∧ loadRetains c op = [v] := by
  simp only [loadRetains]
  split
  · rename_i hk
    cases hh : op.results.head? with
    | none => exact Or.inl rfl
    | some v =>
      simp only
      split
      · rename_i hc
        simp only [Bool.and_eq_true, Bool.not_eq_true', List.contains_eq_mem, decide_eq_false_iff_not] at hc
        exact Or.inr ⟨v, hk, (hr.loads b i op hat hk v (List.mem_of_mem_head? hh)).1, hc.1, hc.2, rfl⟩
      · exact Or.inl rfl
  · exact Or.inl rfl

theorem releasesAt_ptrs (F : Facts c l) {b : Nat} {blk : Block} (hb : c.inp.body[b]? = some blk) {p : Place} :
    ∀ v ∈ releasesAt c l b blk p, v ∈ c.inp.ptrs :=
  fun _ hv => dying_ptrs F hb (mem_releasesAt.1 hv).1

theorem chunk_run (F : Facts c l) (hr : Regular c) {b : Nat} {blk : Block} (hb : c.inp.body[b]? = some blk) {i : Nat} {op : Op}
    (ho : blk.ops[i]? = some op) (st : St)
    (hR : ∀ v ∈ before c b i op, usable c st.own [v] = true)
    (hB : ∀ v ∈ releasesAt c l b blk (.before i), 1 ≤ st.own v)
    (hU : ∀ own' : Ledger, (∀ v, own' v = st.own v + passed c.inp v (before c b i op) -
      (if v ∈ releasesAt c l b blk (.before i) then 1 else 0)) → usable c own' (lent c b i op) = true)
    (hM : ∀ v ∈ c.inp.ptrs, passed c.inp v (moved c b i op) ≤ st.own v + passed c.inp v (before c b i op) -
      (if v ∈ releasesAt c l b blk (.before i) then 1 else 0))
    (hA : ∀ v ∈ releasesAt c l b blk (.after i), v ∉ op.results → 1 ≤ st.own v + passed c.inp v (before c b i op) -
      (if v ∈ releasesAt c l b blk (.before i) then 1 else 0) - passed c.inp v (moved c b i op)) :
    ∃ st', execAll c b st (chunk c l b blk i op) = some st' ∧ ∀ v ∈ c.inp.ptrs,
      st'.own v = (if v ∈ op.results then given c op v else st.own v + passed c.inp v (before c b i op) -
        (if v ∈ releasesAt c l b blk (.before i) then 1 else 0) - passed c.inp v (moved c b i op)) -
        (if v ∈ releasesAt c l b blk (.after i) then 1 else 0) := by
  have hat : At c b i op := ⟨blk, hb, ho⟩
  obtain ⟨s1, e1, q1⟩ := run_retains b (before c b i op) st (fun v hv => Or.inr (hR v hv))
  obtain ⟨s2, e2, q2⟩ := run_releases F b (releasesAt c l b blk (.before i)) s1 (nodup_releasesAt b blk _)
    (releasesAt_ptrs F hb) (fun v hv => by rw [q1]; have := hB v hv; omega)
  have q12 : ∀ v, s2.own v = st.own v + passed c.inp v (before c b i op) -
      (if v ∈ releasesAt c l b blk (.before i) then 1 else 0) := by
    intro v; rw [q2, q1]
  obtain ⟨o3, e3, q3, q3'⟩ := run_give (moved c b i op) s2.own (fun v hv => by rw [q12]; exact hM v hv)
  rw [chunk_eq, execAll_append, e1, Option.bind_some, execAll_append, e2, Option.bind_some, execAll]
  simp only [exec, if_pos (hU s2.own q12), e3]
  set f := (if op.kind = .load then op.results.head? else none) with hf
  have hdef : ∀ v ∈ c.inp.ptrs, define c op o3 v = if v ∈ op.results then (if op.kind = .load || c.interm v then 0 else 1)
      else o3 v := by
    intro v hv
    simp only [define]
    by_cases hm : v ∈ op.results
    · rw [if_pos (by simpa using (mem_defined F.good hv).2 hm), if_pos hm]
    · rw [if_neg (by simpa using fun h => hm ((mem_defined F.good hv).1 h)), if_neg hm]
  -- the retain after a load
  have hL : ∃ s4, execAll c b ⟨define c op o3, f⟩ ((loadRetains c op).map .retain) = some s4 ∧
      ∀ v ∈ c.inp.ptrs, s4.own v = if v ∈ op.results then given c op v else o3 v := by
    rcases loadRetains_cases hr hat with h | ⟨v, hk, hres, hany, htmp, h⟩
    · rw [h]
      refine ⟨_, rfl, fun v hv => ?_⟩
      show define c op o3 v = _
      rw [hdef v hv]
      split
      · simp [given, h, passed]
      · rfl
    · rw [h]
      have hvp := F.loadPtrs b i op hat hk v (by simp [hres]) hany
      have hf' : f = some v := by rw [hf, if_pos hk, hres]; rfl
      simp only [List.map_cons, List.map_nil, execAll, exec, hf', beq_self_eq_true, Bool.true_or, if_true]
      refine ⟨_, rfl, fun w hw => ?_⟩
      show set _ _ _ w = _
      rw [F.root_self hvp]
      simp only [set, hres, List.mem_singleton]
      by_cases e : w = v
      · subst e
        rw [if_pos rfl, if_pos rfl, hdef w hw, if_pos (by simp [hres]), given, h, passed_cons, if_pos (F.root_self hw)]
        simp [passed]
      · rw [if_neg e, if_neg e, hdef w hw, if_neg (by simp [hres, e])]
  obtain ⟨s4, e4, q4⟩ := hL
  obtain ⟨s5, e5, q5⟩ := run_releases F b (releasesAt c l b blk (.after i)) s4 (nodup_releasesAt b blk _)
    (releasesAt_ptrs F hb) (by
      intro v hv
      have hvp := releasesAt_ptrs F hb v hv
      have hown := dying_owned F hb (mem_releasesAt.1 hv).1
      rw [q4 v hvp]
      split
      · rename_i hm
        rw [given]
        by_cases hk : op.kind = .load
        · rcases loadRetains_cases hr hat with h | ⟨w, -, hres, -, -, h⟩
          · exfalso
            have hres := (hr.loads b i op hat hk v hm).1
            have hg := F.good v hvp
            simp [loadRetains, hk, hres, hg.1, hown.2.2.1] at h
          · rw [hres, List.mem_singleton] at hm
            subst hm
            rw [h, passed_cons, if_pos (F.root_self hvp)]
            omega
        · simp [hk, hown.2.2.2]
      · rename_i hm
        rw [q3 v hvp, q12]
        exact hA v hv hm)
  refine ⟨s5, ?_, fun v hv => ?_⟩
  · rw [execAll_append, e4, Option.bind_some, e5]
  · rw [q5, q4 v hv, q3 v hv, q12]

/-- A result that the function owns comes with one reference. -/
theorem given_owned (F : Facts c l) (hr : Regular c) {b i : Nat} {op : Op} (hat : At c b i op) {v : Nat} (hv : Owned c v)
    (hm : v ∈ op.results) : given c op v = 1 := by
  rw [given]
  by_cases hk : op.kind = .load
  · rcases loadRetains_cases hr hat with h | ⟨w, -, hres, -, -, h⟩
    · exfalso
      have hres := (hr.loads b i op hat hk v hm).1
      have hg := F.good v hv.1
      simp [loadRetains, hk, hres, hg.1, hv.2.2.1] at h
    · rw [hres, List.mem_singleton] at hm
      subst hm
      rw [h, passed_cons, if_pos (F.root_self hv.1)]
      simp [hk, passed]
  · simp [hk, hv.2.2.2, loadRetains, passed]

/-! ## Values at hand -/

/-- Released by the instructions before operation `i`. -/
def Gone (c : Config) (l : Live) (b : Nat) (blk : Block) (i : Nat) (v : Nat) : Prop :=
  v ∈ dying c l b blk ∧ (placeOf c l b blk v = .start ∨ ∃ j < i, placeOf c l b blk v = .before j ∨ placeOf c l b blk v = .after j)

/-- Defined before operation `i`, or from before the block. -/
def Here (l : Live) (b : Nat) (blk : Block) (i : Nat) (v : Nat) : Prop :=
  v ∈ l.liveIn b ∨ v ∈ blk.args ∨ ∃ j < i, ∃ op : Op, blk.ops[j]? = some op ∧ v ∈ op.results

theorem use_here (F : Facts c l) {b : Nat} {blk : Block} (hb : c.inp.body[b]? = some blk) {i : Nat} {op : Op}
    (ho : blk.ops[i]? = some op) {v : Nat} (hv : v ∈ c.inp.ptrs) (hu : v ∈ op.operands.flatMap (touched c.inp)) :
    Here l b blk i v ∧ ¬ Gone c l b blk i v := by
  constructor
  · by_contra hn
    simp only [Here, not_or, not_exists, not_and] at hn
    apply hn.1
    rw [F.in_iff hb]
    left
    rw [mem_uses F.good hv]
    exact ⟨hn.2.1, i, op, ho, (mem_touched hv).1 hu, fun j hj o hjo => hn.2.2 j hj o hjo⟩
  · rintro ⟨-, h⟩
    rcases place_cases (c := c) (l := l) (b := b) (blk := blk) (v := v) with ⟨j, o, h1, -, h3, h4⟩ | ⟨h1, -⟩
    · have hj : ¬ j < i := fun hlt => h3 i op hlt ho hu
      rcases h4 with ⟨-, h4⟩ | ⟨-, -, -, h4⟩ | ⟨-, h4⟩ <;> rw [h4] at h <;> simp at h <;> omega
    · exact h1 i op ho hu

theorem touched_ptrs (F : Facts c l) (hr : Regular c) {v w : Nat} (h : w ∈ touched c.inp v) : w ∈ c.inp.ptrs := by
  simp only [touched, List.mem_append, Option.mem_toList, Option.mem_def] at h
  rcases h with (h | h) | h
  · split at h
    · simp only [List.mem_singleton] at h
      subst h
      rename_i h
      simpa using h
    · cases h
  · exact F.rootp _ _ h
  · rw [mem_owners] at h
    rcases Relation.TransGen.tail'_iff.1 h with ⟨x, -, hx⟩
    exact hr.owners_tracked _ _ hx

/-- Before operation `i`: a reference is held for every value at hand. -/
def Stocked (c : Config) (l : Live) (b : Nat) (blk : Block) (i : Nat) (own : Ledger) : Prop :=
  ∀ v, Owned c v → Here l b blk i v → ¬ Gone c l b blk i v → 1 ≤ own v

theorem stocked_usable (F : Facts c l) (hr : Regular c) {b : Nat} {blk : Block} (hb : c.inp.body[b]? = some blk) {i : Nat} {op : Op}
    (ho : blk.ops[i]? = some op) {own : Ledger} (hs : Stocked c l b blk i own) : usable c own op.operands = true := by
  simp only [usable, List.all_eq_true]
  intro w hw
  simp only [held, Bool.or_eq_true, decide_eq_true_eq]
  obtain ⟨x, -, hx⟩ := List.mem_flatMap.1 hw
  have hp := touched_ptrs F hr hx
  by_cases h1 : w ∈ c.params
  · exact Or.inl (Or.inl (Or.inl (Or.inr (by simpa using h1))))
  by_cases h2 : w ∈ c.temps
  · exact Or.inl (Or.inl (Or.inr (by simpa using h2)))
  by_cases h3 : c.interm w = true
  · exact Or.inl (Or.inr h3)
  · have := use_here F hb ho hp hw
    exact Or.inl (Or.inl (Or.inl (Or.inl (hs w ⟨hp, h1, h2, by simpa using h3⟩ this.1 this.2))))

/-! ## Ordinary operations -/

theorem acting_sub {a : Action} {ct : Contract} {op : Op} {v : Nat} (h : v ∈ acting a ct op) : v ∈ op.operands := by
  simp only [acting, List.mem_filterMap] at h
  obtain ⟨⟨x, y⟩, h1, h2⟩ := h
  split at h2
  · cases h2
    exact List.drop_subset _ _ (List.of_mem_zip h1).1
  · cases h2

theorem withAction_eq (a : Action) (ct : Contract) (op : Op) : withAction a ct op = acting a ct op := by
  have key : ∀ (f : Nat → Option Action) (vs : List Nat) (as : List Action) (k : Nat), (∀ n, f (k + n) = as[n]?) →
      (vs.zipIdx k).filterMap (fun x => if f x.2 = some a then some x.1 else none) =
      (vs.zip as).filterMap (fun x => if x.2 = a then some x.1 else none) := by
    intro f vs
    induction vs with
    | nil => intro as k _; rfl
    | cons v vs ih =>
      intro as k h
      cases as with
      | nil =>
        have h0 : ∀ n, f (k + n) = none := fun n => by rw [h]; simp
        have : ∀ (vs : List Nat) (k : Nat), (∀ n, f (k + n) = none) →
            (vs.zipIdx k).filterMap (fun x => if f x.2 = some a then some x.1 else none) = [] := by
          intro vs
          induction vs with
          | nil => intro k _; rfl
          | cons v vs ih =>
            intro k h
            have := h 0
            rw [Nat.add_zero] at this
            simp only [List.zipIdx_cons, List.filterMap_cons, this]
            simpa using ih (k + 1) (fun n => by rw [show k + 1 + n = k + (n + 1) by omega]; exact h _)
        simpa using this (v :: vs) k h0
      | cons x as =>
        have hk := h 0
        rw [Nat.add_zero] at hk
        have hi := ih as (k + 1) (fun n => by rw [show k + 1 + n = k + (n + 1) by omega, h]; simp)
        simp only [List.zipIdx_cons, List.filterMap_cons, List.zip_cons_cons, hi, hk, List.getElem?_cons_zero, Option.some.injEq]
  simp only [withAction, acting, callArgs]
  cases hi : ct.isIndirect with
  | false =>
    simp only [Bool.false_eq_true, if_false, List.drop_zero]
    exact key (actionAt ct) op.operands ct.actions 0 (fun n => by simp [actionAt, hi])
  | true =>
    simp only [if_true]
    cases hops : op.operands with
    | nil => rfl
    | cons v vs =>
      simp only [List.zipIdx_cons, List.filterMap_cons, List.drop_succ_cons, List.drop_zero]
      rw [show actionAt ct 0 = none by simp [actionAt, hi]]
      simpa using key (actionAt ct) vs ct.actions (0 + 1) (fun n => by simp [actionAt, hi, Nat.add_comm])

theorem takenOver_eq (c : Config) (b i : Nat) (op : Op) : takenOver c b i op = transfers c b i op := by
  simp only [takenOver, transfers, withAction_eq]
  cases c.contract b i <;> rfl

theorem movedCall_eq (c : Config) (b i : Nat) (op : Op) : movedCall c b i op = (match c.contract b i with
    | some ct => if ct.isTail then acting .transfer ct op else acting .acquire ct op
    | none => []) := by
  simp only [movedCall, withAction_eq]
  cases c.contract b i <;> rfl

theorem before_sub {b i : Nat} {op : Op} {v : Nat} (h : v ∈ before c b i op) : v ∈ op.operands := by
  simp only [before, List.mem_append] at h
  rcases h with h | h
  · simp only [contractRetains] at h
    cases hc : c.contract b i with
    | none => rw [hc] at h; cases h
    | some ct =>
      rw [hc] at h
      simp only at h
      split at h
      · rename_i ht
        obtain ⟨a, ha, hv⟩ := List.mem_flatMap.1 h
        rw [List.mem_replicate] at hv
        rw [hv.2]
        have : ∀ (as seen : List Nat), a ∈ firsts c.inp seen as → a ∈ as := by
          intro as
          induction as with
          | nil => intro seen h; simp [firsts] at h
          | cons x as ih =>
            intro seen h
            simp only [firsts] at h
            split at h
            · exact List.mem_cons_of_mem _ (ih _ h)
            · rcases List.mem_cons.1 h with rfl | h
              · exact List.mem_cons_self
              · exact List.mem_cons_of_mem _ (ih _ h)
        have h2 := this _ _ ha
        simp only [transfers, hc, if_pos ht] at h2
        exact acting_sub h2
      · exact acting_sub h
  · simp only [storeRetains] at h
    split at h
    · cases hh : op.operands.head? with
      | none => rw [hh] at h; cases h
      | some w =>
        rw [hh] at h
        simp only at h
        split at h
        · simp only [List.mem_singleton] at h
          subst h
          exact List.mem_of_mem_head? hh
        · cases h
    · cases h

theorem lent_sub {b i : Nat} {op : Op} {v : Nat} (h : v ∈ lent c b i op) : v ∈ op.operands := by
  simp only [lent] at h
  split at h
  · split at h
    · simp only [List.mem_filterMap] at h
      obtain ⟨⟨x, y⟩, h1, h2⟩ := h
      split at h2
      · cases h2
      · cases h2
        exact List.mem_of_getElem? (List.mk_mem_zipIdx_iff_getElem?.1 h1)
    · exact h
  · exact h

/-- An ordinary operation takes a reference for each one that moves away. -/
theorem moved_before (hr : Regular c) {b i : Nat} {op : Op} (hat : At c b i op) (ht : isTerminator op = false) (v : Nat) :
    passed c.inp v (moved c b i op) = passed c.inp v (before c b i op) := by
  have h1 : op.kind ≠ .ret := by rintro h; simp [isTerminator, h] at ht
  have h2 : op.kind ≠ .jump := by rintro h; simp [isTerminator, h] at ht
  have h3 : op.kind ≠ .returnCall := by rintro h; simp [isTerminator, h] at ht
  have h4 : op.kind ≠ .returnCallIndirect := by rintro h; simp [isTerminator, h] at ht
  have hs : movedPlain c op = storeRetains c op := by
    simp only [storeRetains, movedPlain]
    cases hk : op.kind <;> simp_all
    cases op.operands.head? with
    | none => rfl
    | some w =>
      simp only [Option.toList_some, List.filter_cons, List.filter_nil]
      split <;> simp_all
  have hc : movedCall c b i op = contractRetains c b i op := by
    simp only [contractRetains, movedCall_eq]
    cases hcc : c.contract b i with
    | none => rfl
    | some ct =>
      rcases hr.contracts b i op ct hat hcc with ⟨-, h | h⟩ | ⟨h, -⟩
      · exact absurd h h3
      · exact absurd h h4
      · simp [h]
  rw [moved, hs, hc, before, passed_append, passed_append, Nat.add_comm]

theorem no_before {b : Nat} {blk : Block} {i : Nat} {op : Op}
    (ho : blk.ops[i]? = some op) (ht : isTerminator op = false ∨ op.kind = .ret ∨ op.kind = .jump ∨ ∀ v ∈ op.operands, touched c.inp v = []) :
    releasesAt c l b blk (.before i) = [] := by
  rw [List.eq_nil_iff_forall_not_mem]
  intro v hv
  obtain ⟨-, hpl⟩ := mem_releasesAt.1 hv
  rcases place_cases (c := c) (l := l) (b := b) (blk := blk) (v := v) with ⟨j, o, h1, hu, h3, h4⟩ | ⟨h1, h4⟩
  · rcases h4 with ⟨-, h4⟩ | ⟨e1, e2, e3, h4⟩ | ⟨-, h4⟩
    · rw [h4] at hpl; cases hpl
    · rw [h4] at hpl
      cases hpl
      rw [h1] at ho
      cases ho
      rcases ht with ht | ht | ht | ht
      · rw [ht] at e3; cases e3
      · exact e1 ht
      · exact e2 ht
      · obtain ⟨x, hx, hxt⟩ := List.mem_flatMap.1 hu
        rw [ht x hx] at hxt
        cases hxt
    · rw [h4] at hpl; cases hpl
  · rcases h4 with ⟨-, h4⟩ | ⟨-, k, o, -, -, -, h4⟩ | ⟨-, -, h4⟩ <;> rw [h4] at hpl <;> cases hpl

theorem after_cases {b : Nat} {blk : Block} {i : Nat} {op : Op}
    (ho : blk.ops[i]? = some op) {v : Nat} (hv : v ∈ releasesAt c l b blk (.after i)) :
    v ∈ op.results ∨ (isTerminator op = false ∧ v ∈ op.operands.flatMap (touched c.inp)) := by
  obtain ⟨-, hpl⟩ := mem_releasesAt.1 hv
  rcases place_cases (c := c) (l := l) (b := b) (blk := blk) (v := v) with ⟨j, o, h1, hu, h3, h4⟩ | ⟨h1, h4⟩
  · rcases h4 with ⟨-, h4⟩ | ⟨e1, e2, e3, h4⟩ | ⟨e, h4⟩
    · rw [h4] at hpl; cases hpl
    · rw [h4] at hpl; cases hpl
    · rw [h4] at hpl
      cases hpl
      rw [h1] at ho
      cases ho
      exact Or.inr ⟨e, hu⟩
  · rcases h4 with ⟨-, h4⟩ | ⟨-, k, o, e1, e2, -, h4⟩ | ⟨-, -, h4⟩
    · rw [h4] at hpl; cases hpl
    · rw [h4] at hpl
      cases hpl
      rw [e1] at ho
      cases ho
      exact Or.inl e2
    · rw [h4] at hpl; cases hpl

theorem step_ordinary (F : Facts c l) (hr : Regular c) {b : Nat} {blk : Block} (hb : c.inp.body[b]? = some blk) {i : Nat} {op : Op}
    (ho : blk.ops[i]? = some op) (ht : isTerminator op = false) {st : St} (hs : Stocked c l b blk i st.own) :
    ∃ st', execAll c b st (chunk c l b blk i op) = some st' ∧ (∀ v ∈ c.inp.ptrs, st'.own v =
      (if v ∈ op.results then given c op v else st.own v) - (if v ∈ releasesAt c l b blk (.after i) then 1 else 0)) ∧
      Stocked c l b blk (i + 1) st'.own := by
  have hat : At c b i op := ⟨blk, hb, ho⟩
  have hu := stocked_usable F hr hb ho hs
  have hB : releasesAt c l b blk (.before i) = [] := no_before ho (Or.inl ht)
  have hM := moved_before hr hat ht
  obtain ⟨st', e, q⟩ := chunk_run F hr hb ho st
    (fun v hv => usable_sub (by intro w hw; simp only [List.mem_singleton] at hw; subst hw; exact before_sub hv) hu)
    (by rw [hB]; intro v hv; cases hv)
    (fun own' h => usable_sub (fun v hv => lent_sub hv) (usable_mono (fun v => by rw [h, hB]; simp) hu))
    (fun v hv => by rw [hM, hB]; simp)
    (fun v hv hn => by
      rw [hM, hB]
      simp only [List.not_mem_nil, if_false]
      rcases after_cases ho hv with h | ⟨-, h⟩
      · exact absurd h hn
      · have hown := dying_owned F hb (mem_releasesAt.1 hv).1
        have := use_here F hb ho hown.1 h
        have := hs v hown this.1 this.2
        omega)
  have q' : ∀ v ∈ c.inp.ptrs, st'.own v =
      (if v ∈ op.results then given c op v else st.own v) - (if v ∈ releasesAt c l b blk (.after i) then 1 else 0) := by
    intro v hv
    rw [q v hv, hM, hB]
    congr 1
    split
    · rfl
    · simp only [List.not_mem_nil, if_false]; omega
  refine ⟨st', e, q', ?_⟩
  intro v hv hh hg
  have hA : v ∉ releasesAt c l b blk (.after i) := by
    intro hm
    obtain ⟨h1, h2⟩ := mem_releasesAt.1 hm
    exact hg ⟨h1, Or.inr ⟨i, by omega, Or.inr h2⟩⟩
  rw [q' v hv.1, if_neg hA]
  split
  · rename_i hm
    rw [given_owned F hr hat hv hm]
    omega
  · rename_i hm
    have := hs v hv (by
      rcases hh with h | h | ⟨j, hj, o, h1, h2⟩
      · exact Or.inl h
      · exact Or.inr (Or.inl h)
      · refine Or.inr (Or.inr ⟨j, ?_, o, h1, h2⟩)
        rcases Nat.lt_succ_iff_lt_or_eq.1 hj with h | rfl
        · exact h
        · rw [h1] at ho
          cases ho
          exact absurd h2 hm) (by
      rintro ⟨h1, h2 | ⟨j, hj, h2⟩⟩
      · exact hg ⟨h1, Or.inl h2⟩
      · exact hg ⟨h1, Or.inr ⟨j, by omega, h2⟩⟩)
    omega

/-! ## Terminators -/

theorem term_no_load {op : Op} (ht : isTerminator op = true) : op.kind ≠ .load ∧ op.kind ≠ .store := by
  constructor <;> (intro h; simp [isTerminator, h] at ht)

theorem mem_transferredFrom {b : Nat} {a : Nat} (ops : List Op) (k : Nat) {i : Nat} {op : Op} (ho : ops[i]? = some op)
    (ha : a ∈ transfers c b (k + i) op) : rootOf c.inp a ∈ transferredFrom c b k ops ∧ a ∈ transferredFrom c b k ops := by
  induction ops generalizing k i with
  | nil => simp at ho
  | cons x ops ih =>
    simp only [transferredFrom, List.mem_append, List.mem_flatMap, List.mem_cons, List.not_mem_nil, or_false]
    cases i with
    | zero =>
      simp only [List.getElem?_cons_zero, Option.some.injEq] at ho
      subst ho
      exact ⟨Or.inl ⟨a, ha, Or.inr rfl⟩, Or.inl ⟨a, ha, Or.inl rfl⟩⟩
    | succ i =>
      have := ih (k + 1) (i := i) (by simpa using ho) (by rw [show k + 1 + i = k + (i + 1) by omega]; exact ha)
      exact ⟨Or.inr this.1, Or.inr this.2⟩

/-- The retains of a tail call cover all but one of the references it takes over, or all of them. -/
theorem firsts_passed (F : Nat → Nat) (inp : Input) (r : Nat) (seen as : List Nat) :
    passed inp r ((firsts inp seen as).flatMap (fun a => List.replicate (F a) a)) =
      match (firsts inp seen as).find? (fun a => rootOf inp a == r) with
      | some a => F a
      | none => 0 := by
  have hrep : ∀ n a, passed inp r (List.replicate n a) = if rootOf inp a = r then n else 0 := by
    intro n a
    induction n with
    | zero => simp [passed]
    | succ n ih =>
      rw [List.replicate_succ, passed_cons, ih]
      split <;> omega
  have hseen : ∀ (as seen : List Nat), r ∈ seen → ∀ a ∈ firsts inp seen as, rootOf inp a ≠ r := by
    intro as
    induction as with
    | nil => intro seen _ a ha; simp [firsts] at ha
    | cons x as ih =>
      intro seen hs a ha
      simp only [firsts] at ha
      split at ha
      · exact ih seen hs a ha
      · rename_i hx
        rcases List.mem_cons.1 ha with rfl | ha
        · rintro rfl
          exact hx (by simpa using hs)
        · exact ih _ (List.mem_cons_of_mem _ hs) a ha
  induction as generalizing seen with
  | nil => simp [firsts, passed]
  | cons x as ih =>
    simp only [firsts]
    split
    · exact ih seen
    · simp only [List.flatMap_cons, passed_append, hrep, List.find?_cons]
      by_cases hx : rootOf inp x = r
      · have h0 : passed inp r ((firsts inp (rootOf inp x :: seen) as).flatMap (fun a => List.replicate (F a) a)) = 0 := by
          simp only [passed, List.length_eq_zero_iff, List.filter_eq_nil_iff, List.mem_flatMap, List.mem_replicate, beq_iff_eq]
          rintro a ⟨y, hy, -, rfl⟩
          exact hseen as _ (by rw [hx]; exact List.mem_cons_self) a hy
        rw [h0, if_pos hx, hx]
        simp
      · have hx' : (rootOf inp x == r) = false := by simpa using hx
        rw [if_neg hx, ih, hx']
        simp

theorem find_firsts (inp : Input) (r : Nat) (seen as : List Nat) (hs : r ∉ seen) (hr : 0 < passed inp r as) :
    ∃ a, (firsts inp seen as).find? (fun a => rootOf inp a == r) = some a ∧ rootOf inp a = r ∧ a ∈ as := by
  induction as generalizing seen with
  | nil => simp [passed] at hr
  | cons x as ih =>
    rw [passed_cons] at hr
    simp only [firsts]
    by_cases hx : rootOf inp x = r
    · subst hx
      rw [if_neg (by simpa using hs)]
      exact ⟨x, by simp, rfl, List.mem_cons_self⟩
    · rw [if_neg hx] at hr
      split
      · obtain ⟨a, h1, h2, h3⟩ := ih seen hs (by omega)
        exact ⟨a, h1, h2, List.mem_cons_of_mem _ h3⟩
      · obtain ⟨a, h1, h2, h3⟩ := ih (rootOf inp x :: seen) (by simp [hs, Ne.symm hx]) (by omega)
        exact ⟨a, by simp [hx, h1], h2, List.mem_cons_of_mem _ h3⟩

end

end Verif.RcInsert
