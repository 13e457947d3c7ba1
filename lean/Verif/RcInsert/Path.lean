import Verif.RcInsert.Block

namespace Verif.RcInsert

open Verif.Live

section
variable {c : Config} {l : Live}

theorem passed_pos {inp : Input} {v : Nat} {M : List Nat} (h : 0 < passed inp v M) : ∃ a ∈ M, rootOf inp a = v := by
  rw [passed, List.length_pos_iff_exists_mem] at h
  obtain ⟨a, ha⟩ := h
  rw [List.mem_filter] at ha
  exact ⟨a, ha.1, by simpa using ha.2⟩

theorem passed_le_one {inp : Input} {M : List Nat} (h : ((M.map (rootOf inp)).filter (inp.ptrs.contains ·)).Nodup) {v : Nat}
    (hv : v ∈ inp.ptrs) : passed inp v M ≤ 1 := by
  induction M with
  | nil => simp [passed]
  | cons a M ih =>
    rw [passed_cons]
    simp only [List.map_cons, List.filter_cons] at h
    by_cases e : rootOf inp a = v
    · rw [if_pos e]
      rw [e, if_pos (by simpa using hv), List.nodup_cons] at h
      have : passed inp v M = 0 := by
        by_contra hne
        obtain ⟨x, hx, hxe⟩ := passed_pos (Nat.pos_of_ne_zero hne)
        exact h.1 (List.mem_filter.2 ⟨List.mem_map.2 ⟨x, hx, hxe⟩, by simpa using hv⟩)
      omega
    · rw [if_neg e]
      split at h
      · have := ih (List.nodup_cons.1 h).2
        omega
      · have := ih h
        omega

theorem no_contract (hr : Regular c) {b i : Nat} {op : Op} (hat : At c b i op) (ht : isTerminator op = true)
    (h1 : op.kind ≠ .returnCall) (h2 : op.kind ≠ .returnCallIndirect) : c.contract b i = none := by
  cases hc : c.contract b i with
  | none => rfl
  | some ct =>
    rcases hr.contracts b i op ct hat hc with ⟨-, h | h⟩ | ⟨-, h | h⟩
    · exact absurd h h1
    · exact absurd h h2
    · simp [isTerminator, h] at ht
    · simp [isTerminator, h] at ht

theorem liveOut_nil (F : Facts c l) (hr : Regular c) {b : Nat} {blk : Block} (hb : c.inp.body[b]? = some blk) {i : Nat} {op : Op}
    (ho : blk.ops[i]? = some op) (hi : i + 1 = blk.ops.length)
    (hk : op.kind ≠ .jump ∧ op.kind ≠ .brif ∧ op.kind ≠ .brTable) (v : Nat) : v ∉ l.liveOut b := by
  intro hv
  obtain ⟨s, hs, -⟩ := (F.out_iff hb).1 hv
  have hl : blk.ops.getLast? = some op := by
    rw [List.getLast?_eq_getElem?, ← hi, Nat.add_sub_cancel, ho]
  simp only [succsOf, hl] at hs
  have := hr.succs b i op ⟨blk, hb, ho⟩ (List.ne_nil_of_mem hs)
  tauto

theorem out_here (F : Facts c l) {b : Nat} {blk : Block} (hb : c.inp.body[b]? = some blk) {v : Nat} (hv : v ∈ l.liveOut b)
    : Here l b blk blk.ops.length v := by
  have hp := F.outPtrs hb hv
  by_cases hd : v ∈ (useDef c.inp blk).defs
  · rw [mem_defs F.good hp] at hd
    rcases hd with h | ⟨op, h1, h2⟩
    · exact Or.inr (Or.inl h)
    · obtain ⟨j, hj, rfl⟩ := List.mem_iff_getElem.1 h1
      exact Or.inr (Or.inr ⟨j, hj, _, List.getElem?_eq_getElem hj, h2⟩)
  · exact Or.inl ((F.in_iff hb).2 (Or.inr ⟨hv, hd⟩))

theorem out_not_dying {b : Nat} {blk : Block} {v : Nat} (hv : v ∈ l.liveOut b) : v ∉ dying c l b blk := by
  intro h
  exact (diesIn_iff.1 (mem_dying.1 h).1).1 hv

/-- Everything that is needed later is at hand at the end of the block. -/
def Ready (c : Config) (l : Live) (b : Nat) (own : Ledger) : Prop := ∀ v, Owned c v → v ∈ l.liveOut b → 1 ≤ own v

theorem step_terminator (F : Facts c l) (hr : Regular c) {b : Nat} {blk : Block} (hb : c.inp.body[b]? = some blk) {i : Nat} {op : Op}
    (ho : blk.ops[i]? = some op) (ht : isTerminator op = true) {st : St} (hs : Stocked c l b blk i st.own) :
    ∃ st', execAll c b st (chunk c l b blk i op) = some st' ∧ (∀ v ∈ c.inp.ptrs,
      st'.own v = (if v ∈ op.results then given c op v else st.own v + passed c.inp v (before c b i op) -
        (if v ∈ releasesAt c l b blk (.before i) then 1 else 0) - passed c.inp v (moved c b i op)) -
        (if v ∈ releasesAt c l b blk (.after i) then 1 else 0)) ∧
      Ready c l b st'.own := by
  have hat : At c b i op := ⟨blk, hb, ho⟩
  have hi := hr.last b blk i op hb ho ht
  have hu := stocked_usable F hr hb ho hs
  have hst := term_no_load ht
  have hR : ∀ v ∈ before c b i op, usable c st.own [v] = true :=
    fun v hv => usable_sub (by intro w hw; simp only [List.mem_singleton] at hw; subst hw; exact before_sub hv) hu
  have hA : ∀ v ∈ releasesAt c l b blk (.after i), v ∈ op.results := by
    intro v hv
    rcases after_cases ho hv with h | ⟨h, -⟩
    · exact h
    · rw [ht] at h; cases h
  -- what is live out and not a result was at hand before
  have hout : ∀ v, Owned c v → v ∈ l.liveOut b → v ∉ op.results → 1 ≤ st.own v := by
    intro v hv hvo hn
    apply hs v hv
    · rcases out_here F hb hvo with h | h | ⟨j, hj, o, h1, h2⟩
      · exact Or.inl h
      · exact Or.inr (Or.inl h)
      · refine Or.inr (Or.inr ⟨j, ?_, o, h1, h2⟩)
        rw [← hi] at hj
        rcases Nat.lt_succ_iff_lt_or_eq.1 hj with h | rfl
        · exact h
        · rw [h1] at ho; cases ho; exact absurd h2 hn
    · exact fun h => out_not_dying hvo h.1
  -- enough that the operation can be done, and moves nothing that is live out
  suffices H : (∀ v ∈ releasesAt c l b blk (.before i), 1 ≤ st.own v) ∧
      (∀ own' : Ledger, (∀ v, own' v = st.own v + passed c.inp v (before c b i op) -
        (if v ∈ releasesAt c l b blk (.before i) then 1 else 0)) → usable c own' (lent c b i op) = true) ∧
      (∀ v ∈ c.inp.ptrs, passed c.inp v (moved c b i op) ≤ st.own v + passed c.inp v (before c b i op) -
        (if v ∈ releasesAt c l b blk (.before i) then 1 else 0)) ∧
      (∀ v, Owned c v → v ∈ l.liveOut b → passed c.inp v (moved c b i op) = 0) by
    obtain ⟨H1, H2, H3, H4⟩ := H
    obtain ⟨st', e, q⟩ := chunk_run F hr hb ho st hR H1 H2 H3 (fun v hv hn => absurd (hA v hv) hn)
    refine ⟨st', e, q, ?_⟩
    intro v hv hvo
    have hnd := out_not_dying (c := c) (blk := blk) hvo
    rw [q v hv.1, if_neg (fun h => hnd (mem_releasesAt.1 h).1), if_neg (fun h => hnd (mem_releasesAt.1 h).1)]
    split
    · rename_i hm
      rw [given_owned F hr hat hv hm]
      omega
    · rename_i hm
      have := hout v hv hvo hm
      rw [H4 v hv hvo]
      omega
  have plain : op.kind ≠ .returnCall → op.kind ≠ .returnCallIndirect →
      before c b i op = [] ∧ movedCall c b i op = [] := by
    intro h1 h2
    have := no_contract hr hat ht h1 h2
    simp [before, contractRetains, movedCall_eq, this, storeRetains, hst.2]
  by_cases htail : op.kind = .returnCall ∨ op.kind = .returnCallIndirect
  · -- tail calls
    obtain ⟨T1, T2⟩ := hr.tail b i op hat htail
    rw [takenOver_eq] at T2
    have hno : ∀ v, v ∉ l.liveOut b := liveOut_nil F hr hb ho hi (by rcases htail with h | h <;> simp [h])
    have hmp : movedPlain c op = [] := by rcases htail with h | h <;> simp [movedPlain, h]
    have hBs : ∀ v ∈ releasesAt c l b blk (.before i), 1 ≤ st.own v := by
      intro v hv
      obtain ⟨h1, h2⟩ := mem_releasesAt.1 hv
      have hown := dying_owned F hb h1
      rcases place_cases (c := c) (l := l) (b := b) (blk := blk) (v := v) with ⟨j, o, e1, hju, -, h4⟩ | ⟨-, h4⟩
      · rcases h4 with ⟨-, h4⟩ | ⟨-, -, -, h4⟩ | ⟨-, h4⟩
        · rw [h4] at h2; cases h2
        · rw [h4] at h2
          cases h2
          have := use_here F hb e1 hown.1 hju
          exact hs v hown this.1 this.2
        · rw [h4] at h2; cases h2
      · rcases h4 with ⟨-, h4⟩ | ⟨-, k, o, -, -, -, h4⟩ | ⟨-, -, h4⟩ <;> rw [h4] at h2 <;> cases h2
    refine ⟨hBs, ?_, ?_, fun v _ h => absurd h (hno v)⟩
    · intro own' _
      simp only [usable, List.all_eq_true, List.mem_flatMap]
      rintro w ⟨x, hx, hxt⟩
      rw [T1 x hx] at hxt
      cases hxt
    · intro v hv
      cases hc : c.contract b i with
      | none =>
        simp [moved, hmp, movedCall_eq, hc, passed]
      | some ct =>
        have htl : ct.isTail = true := by
          rcases hr.contracts b i op ct hat hc with ⟨h, -⟩ | ⟨-, h⟩
          · exact h
          · rcases htail with h' | h' <;> simp [h'] at h
        have hm : moved c b i op = transfers c b i op := by
          simp [moved, hmp, movedCall_eq, transfers, hc, htl]
        rw [hm]
        by_cases h0 : passed c.inp v (transfers c b i op) = 0
        · omega
        have hpos := Nat.pos_of_ne_zero h0
        obtain ⟨a, ha1, ha2, ha3⟩ := find_firsts c.inp v [] (transfers c b i op) (by simp) hpos
        have hRp : passed c.inp v (before c b i op) =
            passed c.inp (rootOf c.inp a) (transfers c b i op) - (if isBorrowed c a then 0 else 1) := by
          rw [before, passed_append]
          have : storeRetains c op = [] := by simp [storeRetains, hst.2]
          rw [this]
          simp only [contractRetains, hc, htl, if_true]
          rw [firsts_passed (fun a => passed c.inp (rootOf c.inp a) (transfers c b i op) - (if isBorrowed c a then 0 else 1)), ha1]
          simp [passed]
        have hnb : v ∉ releasesAt c l b blk (.before i) := by
          intro h
          have := (diesIn_iff.1 (mem_dying.1 (mem_releasesAt.1 h).1).1).2.2.1
          have ht' := (mem_transferredFrom (c := c) (b := b) blk.ops 0 ho (a := a) (by rw [Nat.zero_add]; exact ha3)).1
          rw [ha2] at ht'
          exact this ht'
        rw [hRp, ha2, if_neg hnb]
        by_cases hbor : isBorrowed c a = true
        · rw [if_pos hbor]; omega
        · rw [if_neg hbor]
          simp only [isBorrowed, ha2, Bool.or_eq_true, List.contains_eq_mem, decide_eq_true_eq, not_or] at hbor
          have hown : Owned c v := ⟨hv, hbor.1.1.1, hbor.1.2, by
            have := T2 a ha3 (by rw [ha2]; exact hv)
            rwa [ha2] at this⟩
          have hused : v ∈ op.operands.flatMap (touched c.inp) := by
            rw [List.mem_flatMap]
            refine ⟨a, ?_, ?_⟩
            · simp only [transfers, hc, htl, if_true] at ha3
              exact acting_sub ha3
            · rw [← ha2]
              exact F.root_touched (by rw [ha2]; exact hv)
          have h1 := use_here F hb ho hv hused
          have := hs v hown h1.1 h1.2
          omega
  rw [not_or] at htail
  obtain ⟨hbf, hmc⟩ := plain htail.1 htail.2
  have hlent : lent c b i op = op.operands := by
    simp [lent, no_contract hr hat ht htail.1 htail.2]
  by_cases hrj : op.kind = .ret ∨ op.kind = .jump
  · -- returns and jumps
    have hB : releasesAt c l b blk (.before i) = [] := no_before ho (by tauto)
    have hsub : ∀ v ∈ moved c b i op, v ∈ op.operands := by
      intro v hv
      rw [moved, hmc, List.append_nil] at hv
      rcases hrj with h | h
      · simpa [movedPlain, h] using hv
      · simp only [movedPlain, h] at hv
        split at hv
        · obtain ⟨⟨x, y⟩, hx, rfl⟩ := List.mem_map.1 hv
          exact (List.of_mem_zip (List.mem_filter.1 hx).1).1
        · cases hv
    have hmv : moved c b i op = op.operands ∨ op.kind = .jump := by
      rcases hrj with h | h
      · left; simp [moved, hmc, movedPlain, h]
      · exact Or.inr h
    have hfacts : (((moved c b i op).map (rootOf c.inp)).filter (c.inp.ptrs.contains ·)).Nodup ∧
        (∀ v ∈ moved c b i op, rootOf c.inp v ∈ c.inp.ptrs → Owned c (rootOf c.inp v) ∧ rootOf c.inp v ∉ l.liveOut b) := by
      rcases hrj with h | h
      · obtain ⟨h1, h2⟩ := hr.ret b i op hat h
        have hno := liveOut_nil F hr hb ho hi (by simp [h])
        have he : moved c b i op = op.operands := by rw [moved, hmc]; simp [movedPlain, h]
        rw [he]
        exact ⟨h1, fun v hv hp => ⟨h2 v hv hp, hno _⟩⟩
      · obtain ⟨-, h1, h2⟩ := hr.jump b i op hat h
        exact ⟨h1, fun v hv hp => ⟨(h2 v hv hp).1, F.jumpOut b _ hp (h2 v hv hp).2⟩⟩
    refine ⟨(by rw [hB]; intro v hv; cases hv), ?_, ?_, ?_⟩
    · intro own' h
      rw [hlent]
      exact usable_mono (fun v => by rw [h, hB]; simp) hu
    · intro v hv
      rw [hB, hbf]
      by_cases h0 : passed c.inp v (moved c b i op) = 0
      · omega
      have h1 := passed_le_one hfacts.1 hv
      obtain ⟨a, ha, hae⟩ := passed_pos (Nat.pos_of_ne_zero h0)
      have hown := (hfacts.2 a ha (by rw [hae]; exact hv)).1
      rw [hae] at hown
      have hused : v ∈ op.operands.flatMap (touched c.inp) := by
        rw [List.mem_flatMap]
        refine ⟨a, hsub a ha, ?_⟩
        rw [← hae]
        exact F.root_touched (by rw [hae]; exact hv)
      have h2 := use_here F hb ho hv hused
      have := hs v hown h2.1 h2.2
      simp only [List.not_mem_nil, if_false, passed, List.filter_nil, List.length_nil] at *
      omega
    · intro v hv hvo
      by_contra hne
      obtain ⟨a, ha, hae⟩ := passed_pos (Nat.pos_of_ne_zero hne)
      have := (hfacts.2 a ha (by rw [hae]; exact hv.1)).2
      rw [hae] at this
      exact this hvo
  · -- branches and traps
    have hbr : op.kind = .brif ∨ op.kind = .brTable ∨ op.kind = .trap := by
      cases hk : op.kind <;> simp_all [isTerminator]
    obtain ⟨B1, -⟩ := hr.branch b i op hat hbr
    have hB : releasesAt c l b blk (.before i) = [] := no_before ho (Or.inr (Or.inr (Or.inr B1)))
    have hmv : moved c b i op = [] := by
      rw [moved, hmc]
      rcases hbr with h | h | h <;> simp [movedPlain, h]
    refine ⟨(by rw [hB]; intro v hv; cases hv), ?_, ?_, ?_⟩
    · intro own' h
      rw [hlent]
      exact usable_mono (fun v => by rw [h, hB]; simp) hu
    · intro v _
      rw [hmv]
      simp [passed]
    · intro v _ _
      rw [hmv]
      simp [passed]

/-! ## Blocks -/

theorem run_chunks (F : Facts c l) (hr : Regular c) {b : Nat} {blk : Block} (hb : c.inp.body[b]? = some blk)
    (pre ops : List Op) (hops : blk.ops = pre ++ ops) {st : St} (hs : Stocked c l b blk pre.length st.own) :
    ∃ st', execAll c b st (chunks c l b blk pre.length ops) = some st' ∧ Ready c l b st'.own := by
  induction ops generalizing pre st with
  | nil =>
    refine ⟨st, rfl, ?_⟩
    rw [List.append_nil] at hops
    intro v hv hvo
    apply hs v hv
    · rw [← hops]; exact out_here F hb hvo
    · exact fun h => out_not_dying hvo h.1
  | cons op ops ih =>
    have ho : blk.ops[pre.length]? = some op := by rw [hops]; simp
    simp only [chunks, execAll_append]
    cases ht : isTerminator op with
    | false =>
      obtain ⟨st1, e1, -, hs1⟩ := step_ordinary F hr hb ho ht hs
      rw [e1, Option.bind_some]
      have := ih (pre ++ [op]) (by rw [hops]; simp) (st := st1) (by rw [List.length_append]; exact hs1)
      rw [List.length_append] at this
      exact this
    | true =>
      obtain ⟨st1, e1, -, hs1⟩ := step_terminator F hr hb ho ht hs
      rw [e1, Option.bind_some]
      have hn : ops = [] := by
        have := hr.last b blk _ op hb ho ht
        rw [hops] at this
        simp only [List.length_append, List.length_cons] at this
        exact List.length_eq_zero_iff.1 (by omega)
      subst hn
      exact ⟨st1, rfl, hs1⟩

/-- What a block needs when it is entered. -/
def Entered (c : Config) (l : Live) (b : Nat) (blk : Block) (own : Ledger) : Prop :=
  ∀ v, Owned c v → v ∈ l.liveIn b ∨ (v ∈ blk.args ∧ (b ≠ 0 ∨ v ∈ c.consumed)) → 1 ≤ own v

theorem run_start (F : Facts c l) {b : Nat} {blk : Block} (hb : c.inp.body[b]? = some blk) {own : Ledger}
    (hs : Entered c l b blk own) :
    ∃ st', execAll c b ⟨own, none⟩ ((entryRetains c b blk).map .retain ++ (releasesAt c l b blk .start).map .release) = some st' ∧
      (∀ v, st'.own v = own v + passed c.inp v (entryRetains c b blk) - (if v ∈ releasesAt c l b blk .start then 1 else 0)) ∧
      Stocked c l b blk 0 st'.own := by
  obtain ⟨s1, e1, q1⟩ := run_retains (c := c) b (entryRetains c b blk) ⟨own, none⟩ (by
    intro v hv
    left
    simp only [entryRetains] at hv
    split at hv
    · rename_i h
      subst h
      rw [List.mem_filter] at hv
      simp only [callerHolds, hb]
      simp only [Bool.and_eq_true] at hv ⊢
      exact ⟨by simpa using hv.1, hv.2.2⟩
    · cases hv)
  have hall : ∀ v, Owned c v → v ∈ l.liveIn b ∨ v ∈ blk.args → 1 ≤ s1.own v := by
    intro v hv h
    rw [q1]
    by_cases hc : v ∈ l.liveIn b ∨ (v ∈ blk.args ∧ (b ≠ 0 ∨ v ∈ c.consumed))
    · have := hs v hv hc
      show 1 ≤ own v + _
      omega
    · have hargs : v ∈ blk.args ∧ b = 0 ∧ v ∉ c.consumed := by
        by_cases hb0 : b = 0 <;> tauto
      have hm : v ∈ entryRetains c b blk := by
        simp only [entryRetains, if_pos hargs.2.1, List.mem_filter, Bool.and_eq_true, Bool.not_eq_true']
        refine ⟨hargs.1, ⟨(F.good v hv.1).1, ?_⟩, ?_⟩
        · simpa using hv.2.1
        · simpa using hargs.2.2
      have : 0 < passed c.inp v (entryRetains c b blk) := by
        rw [passed, List.length_pos_iff_exists_mem]
        exact ⟨v, List.mem_filter.2 ⟨hm, by simpa using F.root_self hv.1⟩⟩
      omega
  obtain ⟨s2, e2, q2⟩ := run_releases F b (releasesAt c l b blk .start) s1 (nodup_releasesAt b blk _)
    (releasesAt_ptrs F hb) (by
      intro v hv
      obtain ⟨h1, h2⟩ := mem_releasesAt.1 hv
      have hown := dying_owned F hb h1
      apply hall v hown
      rcases place_cases (c := c) (l := l) (b := b) (blk := blk) (v := v) with ⟨j, o, -, -, -, h4⟩ | ⟨-, h4⟩
      · rcases h4 with ⟨-, h4⟩ | ⟨-, -, -, h4⟩ | ⟨-, h4⟩ <;> rw [h4] at h2 <;> cases h2
      · rcases h4 with ⟨h, -⟩ | ⟨-, k, o, -, -, -, h4⟩ | ⟨hn, hnr, -⟩
        · exact Or.inl h
        · rw [h4] at h2; cases h2
        · rcases (mem_dying.1 h1).2 with h | ⟨h, -⟩
          · exact Or.inl h
          · rw [mem_defs F.good hown.1] at h
            rcases h with h | ⟨op, h3, h4⟩
            · exact Or.inr h
            · exact absurd h4 (hnr op h3))
  refine ⟨s2, ?_, ?_, ?_⟩
  · rw [execAll_append, e1, Option.bind_some, e2]
  · intro v; rw [q2, q1]
  · intro v hv hh hg
    have hn : v ∉ releasesAt c l b blk .start := by
      intro h
      obtain ⟨h1, h2⟩ := mem_releasesAt.1 h
      exact hg ⟨h1, Or.inl h2⟩
    rw [q2, if_neg hn]
    have := hall v hv (by
      rcases hh with h | h | ⟨j, hj, -⟩
      · exact Or.inl h
      · exact Or.inr h
      · omega)
    omega

theorem run_block (F : Facts c l) (hr : Regular c) {b : Nat} {blk : Block} (hb : c.inp.body[b]? = some blk) {own : Ledger}
    (hs : Entered c l b blk own) : ∃ own', runBlock c l b own = some own' ∧ Ready c l b own' := by
  obtain ⟨s1, e1, -, h1⟩ := run_start F hb hs
  obtain ⟨s2, e2, h2⟩ := run_chunks F hr hb [] blk.ops rfl h1
  refine ⟨s2.own, ?_, h2⟩
  simp only [runBlock, hb, insertBlock]
  rw [execAll_append, e1, Option.bind_some]
  rw [show (0 : Nat) = ([] : List Op).length from rfl, e2]
  rfl

/-! ## Paths -/

theorem runPath_snoc (p : List Nat) (b s : Nat) (own : Ledger) :
    runPath c l (p ++ [b, s]) own = (runPath c l (p ++ [b]) own).bind (fun o => runBlock c l s (enter c b s o)) := by
  induction p generalizing own with
  | nil =>
    simp only [List.nil_append, runPath]
    cases runBlock c l b own with
    | none => rfl
    | some o =>
      simp only [Option.bind_some]
      cases runBlock c l s (enter c b s o) <;> rfl
  | cons x p ih =>
    simp only [List.cons_append, runPath]
    cases runBlock c l x own with
    | none => rfl
    | some o =>
      cases p with
      | nil =>
        simp only [List.nil_append] at ih ⊢
        exact ih _
      | cons y p =>
        simp only [List.cons_append] at ih ⊢
        exact ih _

theorem enter_entered (F : Facts c l) (hr : Regular c) {b s : Nat} {bb sb : Block} (hb : c.inp.body[b]? = some bb)
    (hsb : c.inp.body[s]? = some sb) (hs : s ∈ succsOf bb) {own : Ledger} (h : Ready c l b own) :
    Entered c l s sb (enter c b s own) := by
  intro v hv hh
  have hsb' := hs
  simp only [succsOf] at hs
  cases hl : bb.ops.getLast? with
  | none => rw [hl] at hs; cases hs
  | some op =>
    rw [hl] at hs
    simp only at hs
    have hi : bb.ops[bb.ops.length - 1]? = some op := by rw [← List.getLast?_eq_getElem?, hl]
    have hat : At c b (bb.ops.length - 1) op := ⟨bb, hb, hi⟩
    simp only [enter, hb, hsb, hl]
    split
    · omega
    · rename_i hn
      rcases hh with hin | ⟨ha, -⟩
      · exact h v hv ((F.out_iff hb).2 ⟨s, hsb', hin⟩)
      · exfalso
        have hany := (F.good v hv.1).1
        rcases hr.succs b _ op hat (List.ne_nil_of_mem hs) with hk | hk
        · obtain ⟨⟨s', blk', h1, h2, h3⟩, -⟩ := hr.jump b _ op hat hk
          rw [h1, List.mem_singleton] at hs
          subst hs
          rw [hsb] at h2
          cases h2
          exact hn ⟨hk, by rw [h3, List.take_length]; exact List.mem_filter.2 ⟨ha, hany⟩⟩
        · have := (hr.branch b _ op hat (by tauto)).2 s hs sb hsb v ha
          rw [hany] at this
          cases this

theorem initial_entered {blk : Block} (F : Facts c l) (hb : c.inp.body[0]? = some blk) : Entered c l 0 blk (initial c) := by
  intro v hv h
  rcases h with h | ⟨h1, h2 | h2⟩
  · exact absurd h (F.liveIn0 v)
  · exact absurd rfl h2
  · have := (F.good v hv.1).1
    simp only [initial, hb]
    rw [if_pos (by simp [h1, h2, this])]
    omega

theorem path_last {body : Body} {p : List Nat} (hp : IsPath body p) : ∃ q b, p = q ++ [b] := by
  cases hp with
  | entry => exact ⟨[], 0, rfl⟩
  | @step q b s blk _ _ _ => exact ⟨q ++ [b], s, by simp⟩

theorem run_path (F : Facts c l) (hr : Regular c) {p : List Nat} (hp : IsPath c.inp.body p) :
    ∀ q b, p = q ++ [b] → ∃ own, runPath c l p (initial c) = some own ∧ ∀ blk, c.inp.body[b]? = some blk → Ready c l b own := by
  induction hp with
  | entry =>
    intro q b he
    have hb0 : b = 0 := by
      have := congrArg List.getLast? he
      simp at this
      exact this.symm
    subst hb0
    cases h0 : c.inp.body[0]? with
    | none => exact ⟨initial c, by simp [runPath, runBlock, h0], fun blk h => by cases h⟩
    | some blk =>
      obtain ⟨own, e, h⟩ := run_block F hr h0 (initial_entered F h0)
      exact ⟨own, by simp [runPath, e], fun _ _ => h⟩
  | @step q b s blk hq hb hs ih =>
    intro q' b' he
    have hb' : b' = s := by
      have := congrArg List.getLast? he
      simp at this
      exact this.symm
    subst hb'
    obtain ⟨own, e, h⟩ := ih q b rfl
    rw [runPath_snoc, e, Option.bind_some]
    cases hsb : c.inp.body[b']? with
    | none => exact ⟨_, by simp only [runBlock, hsb]; rfl, fun blk h => by cases h⟩
    | some sb =>
      obtain ⟨own', e', h'⟩ := run_block F hr hsb (enter_entered F hr hb hsb hs (h blk hb))
      exact ⟨own', e', fun _ _ => h'⟩

end

end Verif.RcInsert
