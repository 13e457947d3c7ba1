import Verif.RcInsert.Path

namespace Verif.RcInsert

open Verif.Live

theorem flatMap_index {α : Type} {f : α → List Nat} {xs : List α} (h : (xs.flatMap f).Nodup) {i j : Nat} {x y : α}
    (hi : xs[i]? = some x) (hj : xs[j]? = some y) {v : Nat} (hx : v ∈ f x) (hy : v ∈ f y) : i = j := by
  rw [List.nodup_flatMap] at h
  have h2 := List.pairwise_iff_getElem.1 h.2
  obtain ⟨hi', rfl⟩ := List.getElem?_eq_some_iff.1 hi
  obtain ⟨hj', rfl⟩ := List.getElem?_eq_some_iff.1 hj
  rcases Nat.lt_trichotomy i j with hlt | rfl | hlt
  · exact absurd hy (h2 i j hi' hj' hlt hx)
  · rfl
  · exact absurd hx (h2 j i hj' hi' hlt hy)

theorem flatMap_nodup {α : Type} {f : α → List Nat} {xs : List α} (h : (xs.flatMap f).Nodup) {x : α} (hx : x ∈ xs) :
    (f x).Nodup := by
  rw [List.nodup_flatMap] at h
  exact h.1 x hx

section
variable {c : Config} {l : Live}

theorem Tidy.block (ht : Tidy c) {b b' : Nat} {blk blk' : Block} (hb : c.inp.body[b]? = some blk) (hb' : c.inp.body[b']? = some blk')
    {v : Nat} (h : v ∈ blk.args ∨ ∃ op ∈ blk.ops, v ∈ op.results) (h' : v ∈ blk'.args ∨ ∃ op ∈ blk'.ops, v ∈ op.results) : b = b' := by
  refine flatMap_index ht.ssa hb hb' (v := v) ?_ ?_
  · simpa using h
  · simpa using h'

theorem Tidy.inBlock (ht : Tidy c) {b : Nat} {blk : Block} (hb : c.inp.body[b]? = some blk) :
    (blk.args ++ blk.ops.flatMap (·.results)).Nodup := flatMap_nodup ht.ssa (List.mem_of_getElem? hb)

theorem Tidy.op (ht : Tidy c) {b : Nat} {blk : Block} (hb : c.inp.body[b]? = some blk) {i j : Nat} {op op' : Op}
    (ho : blk.ops[i]? = some op) (ho' : blk.ops[j]? = some op') {v : Nat} (h : v ∈ op.results) (h' : v ∈ op'.results) : i = j :=
  flatMap_index (List.nodup_append.1 (ht.inBlock hb)).2.1 ho ho' h h'

theorem Tidy.at (ht : Tidy c) {b i b' i' : Nat} {op op' : Op} (h : At c b i op) (h' : At c b' i' op') {v : Nat}
    (hv : v ∈ op.results) (hv' : v ∈ op'.results) : op = op' := by
  obtain ⟨blk, hb, ho⟩ := h
  obtain ⟨blk', hb', ho'⟩ := h'
  have e := ht.block hb hb' (v := v) (Or.inr ⟨op, List.mem_of_getElem? ho, hv⟩) (Or.inr ⟨op', List.mem_of_getElem? ho', hv'⟩)
  subst e
  rw [hb] at hb'
  cases hb'
  have e := ht.op hb ho ho' hv hv'
  subst e
  rw [ho] at ho'
  exact Option.some.inj ho'

theorem Tidy.args (hr : Regular c) {b b' i : Nat} {blk : Block} {op : Op} (hb : c.inp.body[b]? = some blk) (hat : At c b' i op) {v : Nat}
    (h : v ∈ blk.args) (h' : v ∈ op.results) : False := by
  obtain ⟨blk', hb', ho'⟩ := hat
  exact (hr.args blk (List.mem_of_getElem? hb) v h).2 blk' (List.mem_of_getElem? hb') op (List.mem_of_getElem? ho') h'

/-- A tracked block argument that is not a borrowed parameter is owned. -/
theorem arg_owned (hr : Regular c) (ht : Tidy c) {b : Nat} {blk : Block} (hb : c.inp.body[b]? = some blk) {v : Nat}
    (hp : v ∈ c.inp.ptrs) (h : v ∈ blk.args) (hn : v ∉ c.params) : Owned c v := by
  refine ⟨hp, hn, ?_, ?_⟩
  · intro hv
    obtain ⟨-, b', i, op, hat, -, hres⟩ := ht.temps v hv
    exact Tidy.args hr hb hat h hres
  · cases hi : c.interm v with
    | false => rfl
    | true =>
      obtain ⟨b', i, op, hat, -, hres⟩ := ht.interm v hi
      exact (Tidy.args hr hb hat h hres).elim

/-- A result that comes with a reference is owned. -/
theorem result_owned (F : Facts c l) (hr : Regular c) (ht : Tidy c) {b i : Nat} {op : Op} (hat : At c b i op) {v : Nat}
    (hp : v ∈ c.inp.ptrs) (hm : v ∈ op.results) (hg : 1 ≤ given c op v) : Owned c v := by
  refine ⟨hp, ?_, ?_, ?_⟩
  · intro h
    obtain ⟨-, -, blk, hb, ha⟩ := ht.params v h
    exact Tidy.args hr hb hat ha hm
  · intro h
    obtain ⟨-, b', i', op', hat', hk, hres⟩ := ht.temps v h
    have e := ht.at hat hat' hm hres
    subst e
    rcases loadRetains_cases hr hat with h' | ⟨w, -, hres', -, hnt, -⟩
    · rw [given, h'] at hg
      simp [hk, passed] at hg
    · rw [hres', List.mem_singleton] at hm
      subst hm
      exact hnt h
  · cases hi : c.interm v with
    | false => rfl
    | true =>
      obtain ⟨b', i', op', hat', hk, hres⟩ := ht.interm v hi
      have e := ht.at hat hat' hm hres
      subst e
      rw [given] at hg
      simp [hi, loadRetains, hk, passed] at hg

theorem given_le (F : Facts c l) (hr : Regular c) {b i : Nat} {op : Op} (hat : At c b i op) (v : Nat)
    : given c op v ≤ 1 := by
  rw [given]
  rcases loadRetains_cases hr hat with h | ⟨w, hk, -, -, -, h⟩
  · rw [h]
    simp only [passed, List.filter_nil, List.length_nil]
    split <;> omega
  · rw [h, passed_cons]
    simp only [hk, passed, List.filter_nil, List.length_nil, decide_true, Bool.true_or, if_true]
    split <;> omega

/-! ## Live-in values are not defined in the block -/

theorem live_defined (F : Facts c l) {v : Nat} {p : List Nat} (hp : IsPath c.inp.body p) :
    ∀ q b, p = q ++ [b] → v ∈ l.liveIn b → ∃ y ∈ q, ∃ blk, c.inp.body[y]? = some blk ∧ v ∈ (useDef c.inp blk).defs := by
  induction hp with
  | entry =>
    intro q b he hv
    have hb0 : b = 0 := by
      have := congrArg List.getLast? he
      simp at this
      exact this.symm
    subst hb0
    exact absurd hv (F.liveIn0 v)
  | @step q b s blk hq hb hs ih =>
    intro q' b' he hv
    have e : q ++ [b] = q' ∧ s = b' := by
      have : (q ++ [b]) ++ [s] = q' ++ [b'] := by simpa using he
      exact List.append_inj' this rfl |>.imp id (by simp)
    obtain ⟨rfl, rfl⟩ := e
    have hout := (F.out_iff hb).2 ⟨s, hs, hv⟩
    by_cases hd : v ∈ (useDef c.inp blk).defs
    · exact ⟨b, by simp, blk, hb, hd⟩
    · obtain ⟨y, hy, h⟩ := ih q b rfl ((F.in_iff hb).2 (Or.inr ⟨hout, hd⟩))
      exact ⟨y, by simp [hy], h⟩

theorem path_prefix {body : Body} {p : List Nat} (hp : IsPath body p) : ∀ q b r, p = q ++ b :: r → IsPath body (q ++ [b]) := by
  induction hp with
  | entry =>
    intro q b r he
    cases q with
    | nil =>
      simp only [List.nil_append, List.cons.injEq] at he
      rw [← he.1]
      exact .entry
    | cons x q =>
      simp at he
  | @step q b s blk hq hb hs ih =>
    intro q' b' r he
    rcases List.eq_nil_or_concat r with rfl | ⟨r', x, rfl⟩
    · rw [← he]
      exact .step hq hb hs
    · apply ih q' b' r'
      have : (q ++ [b]) ++ [s] = (q' ++ b' :: r') ++ [x] := by simpa using he
      exact (List.append_inj' this rfl).1

theorem live_not_defined (F : Facts c l) (ht : Tidy c) {v : Nat} : ∀ (n : Nat) (q : List Nat) (b : Nat) (blk : Block), q.length ≤ n →
    IsPath c.inp.body (q ++ [b]) → c.inp.body[b]? = some blk → v ∈ l.liveIn b → v ∉ (useDef c.inp blk).defs := by
  intro n
  induction n with
  | zero =>
    intro q b blk hq hp hb hv hd
    obtain ⟨y, hy, -⟩ := live_defined F hp q b rfl hv
    rw [List.length_eq_zero_iff.1 (Nat.le_zero.1 hq)] at hy
    cases hy
  | succ n ih =>
    intro q b blk hq hp hb hv hd
    obtain ⟨y, hy, blk', hb', hd'⟩ := live_defined F hp q b rfl hv
    have hvp := F.inPtrs b v hv
    have e := ht.block hb' hb ((mem_defs F.good hvp _).1 hd') ((mem_defs F.good hvp _).1 hd)
    subst e
    obtain ⟨q1, q2, rfl⟩ := List.append_of_mem hy
    have hp' := path_prefix hp q1 y (q2 ++ [y]) (by simp)
    exact ih q1 y blk (by simp at hq; omega) hp' hb hv hd

/-- The block is on a path. -/
def Reached (c : Config) (b : Nat) : Prop := ∃ q, IsPath c.inp.body (q ++ [b])

theorem fresh_def (F : Facts c l) (ht : Tidy c) {b : Nat} {blk : Block} (hreach : Reached c b) (hb : c.inp.body[b]? = some blk)
    {v : Nat} (hv : v ∈ l.liveIn b) : v ∉ blk.args ∧ ∀ op ∈ blk.ops, v ∉ op.results := by
  obtain ⟨q, hq⟩ := hreach
  have := live_not_defined F ht q.length q b blk (Nat.le_refl _) hq hb hv
  rw [mem_defs F.good (F.inPtrs b v hv)] at this
  simpa using this

/-! ## No reference too many -/

/-- Before operation `i`: the only references held are one for each value at hand. -/
def Tight (c : Config) (l : Live) (b : Nat) (blk : Block) (i : Nat) (own : Ledger) : Prop :=
  ∀ v ∈ c.inp.ptrs, own v ≤ 1 ∧ (1 ≤ own v → Owned c v ∧ Here l b blk i v ∧ ¬ Gone c l b blk i v)

theorem new_not_gone (F : Facts c l) (hr : Regular c) (ht : Tidy c) {b : Nat} {blk : Block} (hreach : Reached c b)
    (hb : c.inp.body[b]? = some blk) {i : Nat} {op : Op} (ho : blk.ops[i]? = some op)
    {v : Nat} (hp : v ∈ c.inp.ptrs) (hm : v ∈ op.results) :
    ¬ Here l b blk i v ∧ (∀ p, placeOf c l b blk v = p → p ≠ .start ∧ ∀ j, (p = .before j → i < j) ∧ (p = .after j → i ≤ j)) := by
  have hnh : ¬ Here l b blk i v := by
    rintro (h | h | ⟨j, hj, o, h1, h2⟩)
    · exact (fresh_def F ht hreach hb h).2 op (List.mem_of_getElem? ho) hm
    · exact Tidy.args hr hb ⟨blk, hb, ho⟩ h hm
    · have := ht.op hb ho h1 hm h2
      omega
  refine ⟨hnh, ?_⟩
  rintro p rfl
  have hlt : ∀ (j : Nat) (o : Op), blk.ops[j]? = some o → v ∈ o.operands.flatMap (touched c.inp) → i < j := by
    intro j o h1 h2
    by_contra hle
    apply hnh
    rcases (use_here F hb h1 hp h2).1 with h | h | ⟨k, hk, o, h3, h4⟩
    · exact Or.inl h
    · exact Or.inr (Or.inl h)
    · exact Or.inr (Or.inr ⟨k, by omega, o, h3, h4⟩)
  rcases place_cases (c := c) (l := l) (b := b) (blk := blk) (v := v) with ⟨j, o, h1, h2, -, h4⟩ | ⟨-, h4⟩
  · have := hlt j o h1 h2
    rcases h4 with ⟨-, h4⟩ | ⟨-, -, -, h4⟩ | ⟨-, h4⟩ <;> rw [h4] <;> simp <;> omega
  · rcases h4 with ⟨h, -⟩ | ⟨-, k, o, h1, h2, -, h4⟩ | ⟨-, h, -⟩
    · exact absurd hm ((fresh_def F ht hreach hb h).2 op (List.mem_of_getElem? ho))
    · have := ht.op hb ho h1 hm h2
      subst this
      rw [h4]
      simp
    · exact absurd hm (h op (List.mem_of_getElem? ho))

theorem step_tight (F : Facts c l) (hr : Regular c) (ht : Tidy c) {b : Nat} {blk : Block} (hreach : Reached c b)
    (hb : c.inp.body[b]? = some blk) {i : Nat} {op : Op} (ho : blk.ops[i]? = some op) (hterm : isTerminator op = false)
    {own own' : Ledger} (hs : Tight c l b blk i own)
    (q : ∀ v ∈ c.inp.ptrs, own' v =
      (if v ∈ op.results then given c op v else own v) - (if v ∈ releasesAt c l b blk (.after i) then 1 else 0)) :
    Tight c l b blk (i + 1) own' := by
  have hat : At c b i op := ⟨blk, hb, ho⟩
  have hB : releasesAt c l b blk (.before i) = [] := no_before ho (Or.inl hterm)
  intro v hv
  rw [q v hv]
  by_cases hm : v ∈ op.results
  · rw [if_pos hm]
    have hle := given_le F hr hat v
    refine ⟨by omega, fun h1 => ?_⟩
    refine ⟨result_owned F hr ht hat hv hm (by omega), Or.inr (Or.inr ⟨i, by omega, op, ho, hm⟩), ?_⟩
    rintro ⟨hd, hpl⟩
    have hn := (new_not_gone F hr ht hreach hb ho hv hm).2 _ rfl
    rcases hpl with h | ⟨j, hj, h | h⟩
    · exact hn.1 h
    · have := (hn.2 j).1 h
      omega
    · have := (hn.2 j).2 h
      have : j = i := by omega
      subst this
      rw [if_pos (mem_releasesAt.2 ⟨hd, h⟩)] at h1
      omega
  · rw [if_neg hm]
    obtain ⟨h1, h2⟩ := hs v hv
    refine ⟨by omega, fun h => ?_⟩
    obtain ⟨ho1, ho2, ho3⟩ := h2 (by omega)
    have hA : v ∉ releasesAt c l b blk (.after i) := by
      intro hA
      rw [if_pos hA] at h
      omega
    refine ⟨ho1, ?_, ?_⟩
    · rcases ho2 with h | h | ⟨j, hj, o, h1, h2⟩
      · exact Or.inl h
      · exact Or.inr (Or.inl h)
      · exact Or.inr (Or.inr ⟨j, by omega, o, h1, h2⟩)
    · rintro ⟨hd, hpl⟩
      rcases hpl with hpj | ⟨j, hj, hpj⟩
      · exact ho3 ⟨hd, Or.inl hpj⟩
      · rcases Nat.lt_succ_iff_lt_or_eq.1 hj with hj | rfl
        · exact ho3 ⟨hd, Or.inr ⟨j, hj, hpj⟩⟩
        · rcases hpj with hpj | hpj
          · have hmem := mem_releasesAt.2 ⟨hd, hpj⟩
            rw [hB] at hmem
            exact absurd hmem (List.not_mem_nil)
          · exact hA (mem_releasesAt.2 ⟨hd, hpj⟩)

/-- At the end of the block: the only references held are for values that are needed later. -/
def Spent (c : Config) (l : Live) (b : Nat) (own : Ledger) : Prop :=
  ∀ v ∈ c.inp.ptrs, own v ≤ 1 ∧ (1 ≤ own v → Owned c v ∧ v ∈ l.liveOut b)

theorem here_dying (F : Facts c l) {b : Nat} {blk : Block} (hb : c.inp.body[b]? = some blk) {i : Nat} {v : Nat} (hown : Owned c v)
    (hh : Here l b blk i v) (h1 : v ∉ l.liveOut b) (h2 : v ∉ returned c.inp blk) (h3 : v ∉ transferredFrom c b 0 blk.ops) :
    v ∈ dying c l b blk := by
  rw [mem_dying, diesIn_iff]
  refine ⟨⟨h1, h2, h3, hown.2.1, hown.2.2.1⟩, ?_⟩
  rcases hh with h | h
  · exact Or.inl h
  · refine Or.inr ⟨(mem_defs F.good hown.1 _).2 ?_, hown.2.2.2⟩
    rcases h with h | ⟨j, -, op, h, h'⟩
    · exact Or.inl h
    · exact Or.inr ⟨op, List.mem_of_getElem? h, h'⟩

theorem transferred_inv {b : Nat} {v : Nat} (ops : List Op) (k : Nat) (h : v ∈ transferredFrom c b k ops) :
    ∃ i op a, ops[i]? = some op ∧ a ∈ transfers c b (k + i) op ∧ (v = a ∨ v = rootOf c.inp a) := by
  induction ops generalizing k with
  | nil => simp [transferredFrom] at h
  | cons x ops ih =>
    simp only [transferredFrom, List.mem_append, List.mem_flatMap, List.mem_cons, List.not_mem_nil, or_false] at h
    rcases h with ⟨a, ha, h⟩ | h
    · exact ⟨0, x, a, rfl, ha, h⟩
    · obtain ⟨i, op, a, h1, h2, h3⟩ := ih (k + 1) h
      exact ⟨i + 1, op, a, by simpa using h1, by rw [show k + (i + 1) = k + 1 + i by omega]; exact h2, h3⟩

/-- Only a tail call at the end takes over references. -/
theorem transferred_last (F : Facts c l) (hr : Regular c) {b : Nat} {blk : Block} (hb : c.inp.body[b]? = some blk) {v : Nat}
    (hp : v ∈ c.inp.ptrs) (h : v ∈ transferredFrom c b 0 blk.ops) :
    ∃ i op, blk.ops[i]? = some op ∧ i + 1 = blk.ops.length ∧ (op.kind = .returnCall ∨ op.kind = .returnCallIndirect) ∧
      0 < passed c.inp v (transfers c b i op) := by
  obtain ⟨i, op, a, h1, h2, h3⟩ := transferred_inv blk.ops 0 h
  rw [Nat.zero_add] at h2
  have hk : op.kind = .returnCall ∨ op.kind = .returnCallIndirect := by
    simp only [transfers] at h2
    cases hc : c.contract b i with
    | none => rw [hc] at h2; cases h2
    | some ct =>
      rw [hc] at h2
      simp only at h2
      split at h2
      · rename_i htl
        rcases hr.contracts b i op ct ⟨blk, hb, h1⟩ hc with ⟨-, h⟩ | ⟨h, -⟩
        · exact h
        · rw [htl] at h; cases h
      · cases h2
  refine ⟨i, op, h1, hr.last b blk i op hb h1 (by rcases hk with h | h <;> simp [isTerminator, h]), hk, ?_⟩
  rw [passed, List.length_pos_iff_exists_mem]
  refine ⟨a, List.mem_filter.2 ⟨h2, ?_⟩⟩
  rw [beq_iff_eq]
  rcases h3 with rfl | rfl
  · exact F.root_self hp
  · rfl

theorem returned_last {b : Nat} {blk : Block} (F : Facts c l) {v : Nat} (hp : v ∈ c.inp.ptrs)
    (h : v ∈ returned c.inp blk) : ∃ op, blk.ops.getLast? = some op ∧ op.kind = .ret ∧ 0 < passed c.inp v op.operands := by
  simp only [returned] at h
  cases hl : blk.ops.getLast? with
  | none => rw [hl] at h; cases h
  | some op =>
    rw [hl] at h
    simp only at h
    split at h
    · rename_i hk
      refine ⟨op, rfl, hk, ?_⟩
      obtain ⟨a, ha, hd⟩ := List.mem_flatMap.1 h
      rw [passed, List.length_pos_iff_exists_mem]
      refine ⟨a, List.mem_filter.2 ⟨ha, ?_⟩⟩
      rw [beq_iff_eq]
      simp only [direct, List.mem_append, Option.mem_toList, Option.mem_def] at hd
      rcases hd with hd | hd
      · split at hd
        · rw [List.mem_singleton] at hd
          subst hd
          exact F.root_self hp
        · cases hd
      · simp [rootOf, hd]
    · cases h

theorem getLast_of {blk : Block} {i : Nat} {op : Op} (ho : blk.ops[i]? = some op) (hi : i + 1 = blk.ops.length) :
    blk.ops.getLast? = some op := by
  rw [List.getLast?_eq_getElem?, ← hi, Nat.add_sub_cancel, ho]

/-- A value that is at hand before the terminator is needed later, or moves away with it, or is released just
before. -/
theorem last_cases (F : Facts c l) (hr : Regular c) (ht : Tidy c) {b : Nat} {blk : Block}
    (hb : c.inp.body[b]? = some blk) {i : Nat} {op : Op} (ho : blk.ops[i]? = some op) (hterm : isTerminator op = true)
    {v : Nat} (hown : Owned c v) (hh : Here l b blk i v) (hg : ¬ Gone c l b blk i v) :
    v ∈ l.liveOut b ∨ 0 < passed c.inp v (moved c b i op) ∨ v ∈ releasesAt c l b blk (.before i) := by
  have hat : At c b i op := ⟨blk, hb, ho⟩
  have hi := hr.last b blk i op hb ho hterm
  by_contra hcon
  simp only [not_or, Nat.not_lt, Nat.le_zero] at hcon
  obtain ⟨h1, h2, h3⟩ := hcon
  have hd : v ∈ dying c l b blk := by
    refine here_dying F hb hown hh h1 ?_ ?_
    · intro h
      obtain ⟨op', e1, e2, e3⟩ := returned_last (b := b) F hown.1 h
      rw [getLast_of ho hi] at e1
      cases e1
      rw [moved, passed_append] at h2
      have : movedPlain c op = op.operands := by simp [movedPlain, e2]
      rw [this] at h2
      omega
    · intro h
      obtain ⟨i', op', e1, e2, e3, e4⟩ := transferred_last F hr hb hown.1 h
      have : i' = i := by omega
      subst this
      rw [ho] at e1
      cases e1
      rw [moved, passed_append] at h2
      have : movedCall c b i' op = transfers c b i' op := by
        simp only [movedCall_eq, transfers] at e4 ⊢
        cases hc : c.contract b i' with
        | none => rfl
        | some ct =>
          rw [hc] at e4
          simp only at e4 ⊢
          by_cases htl : ct.isTail = true
          · rw [if_pos htl, if_pos htl]
          · rw [if_neg htl] at e4
            simp [passed] at e4
      rw [this] at h2
      omega
  rcases place_cases (c := c) (l := l) (b := b) (blk := blk) (v := v) with ⟨j, o, e1, e2, -, h4⟩ | ⟨-, h4⟩
  · have hj : j < blk.ops.length := (List.getElem?_eq_some_iff.1 e1).1
    rcases h4 with ⟨hk, -⟩ | ⟨-, -, hk, h4⟩ | ⟨hk, h4⟩
    · -- a return or a jump that uses the value moves it
      have hjl := hr.last b blk j o hb e1 (by rcases hk with h | h <;> simp [isTerminator, h])
      have : j = i := by omega
      subst this
      rw [ho] at e1
      cases e1
      obtain ⟨a, ha, hta⟩ := List.mem_flatMap.1 e2
      have hnb := ht.noBorrow b j op hat hk a ha
      have hroot : rootOf c.inp a = v := by
        simp only [touched, List.mem_append, Option.mem_toList, Option.mem_def] at hta
        rcases hta with (hta | hta) | hta
        · split at hta
          · rw [List.mem_singleton] at hta
            subst hta
            exact F.root_self hown.1
          · cases hta
        · simp [rootOf, hta]
        · rw [mem_owners] at hta
          obtain ⟨x, hx, -⟩ := Relation.TransGen.head'_iff.1 hta
          simp [BorrowsFrom, hnb] at hx
      have hmem : a ∈ movedPlain c op := by
        rcases hk with hk | hk
        · simpa [movedPlain, hk] using ha
        · obtain ⟨⟨s, sb, hs1, hs2, hs3⟩, -⟩ := hr.jump b j op hat hk
          have htg : target c op = some sb := by simp [target, hs1, hs2]
          simp only [movedPlain, hk, htg]
          obtain ⟨n, hn, rfl⟩ := List.mem_iff_getElem.1 ha
          have hz : (op.operands[n], sb.args[n]'(by omega)) ∈ op.operands.zip sb.args := by
            rw [List.mem_iff_getElem?]
            exact ⟨n, by simp [List.getElem?_zip_eq_some, List.getElem?_eq_getElem hn, List.getElem?_eq_getElem (show n < sb.args.length by omega)]⟩
          refine List.mem_map.2 ⟨_, List.mem_filter.2 ⟨hz, ?_⟩, rfl⟩
          exact ht.jumpTypes b j op sb hat hk htg _ hz (by rw [hroot]; exact hown.1)
      have : 0 < passed c.inp v (movedPlain c op) := by
        rw [passed, List.length_pos_iff_exists_mem]
        exact ⟨a, List.mem_filter.2 ⟨hmem, by simpa using hroot⟩⟩
      rw [moved, passed_append] at h2
      omega
    · have hjl := hr.last b blk j o hb e1 hk
      have : j = i := by omega
      subst this
      exact h3 (mem_releasesAt.2 ⟨hd, h4⟩)
    · refine hg ⟨hd, Or.inr ⟨j, ?_, Or.inr h4⟩⟩
      have : j ≠ i := by
        rintro rfl
        rw [ho] at e1
        cases e1
        rw [hterm] at hk
        cases hk
      omega
  · rcases h4 with ⟨-, h4⟩ | ⟨-, k, o, e1, e2, -, h4⟩ | ⟨-, -, h4⟩
    · exact hg ⟨hd, Or.inl h4⟩
    · refine hg ⟨hd, Or.inr ⟨k, ?_, Or.inr h4⟩⟩
      have hk : k < blk.ops.length := (List.getElem?_eq_some_iff.1 e1).1
      have : k ≠ i := by
        rintro rfl
        rw [ho] at e1
        cases e1
        rw [ht.noResults b k op hat hterm] at e2
        cases e2
      omega
    · exact hg ⟨hd, Or.inl h4⟩

theorem passed_before_zero (hr : Regular c) {b i : Nat} {op : Op} (hat : At c b i op) (hterm : isTerminator op = true) {v : Nat}
    (h : passed c.inp v (moved c b i op) = 0) : passed c.inp v (before c b i op) = 0 := by
  have hst := term_no_load hterm
  have hsr : storeRetains c op = [] := by simp [storeRetains, hst.2]
  rw [before, hsr, List.append_nil]
  simp only [contractRetains]
  cases hc : c.contract b i with
  | none => rfl
  | some ct =>
    have htl : ct.isTail = true := by
      rcases hr.contracts b i op ct hat hc with ⟨h, -⟩ | ⟨-, h | h⟩
      · exact h
      · simp [isTerminator, h] at hterm
      · simp [isTerminator, h] at hterm
    simp only [htl, if_true]
    rw [firsts_passed (fun a => passed c.inp (rootOf c.inp a) (transfers c b i op) - (if isBorrowed c a then 0 else 1))]
    cases hf : (firsts c.inp [] (transfers c b i op)).find? (fun a => rootOf c.inp a == v) with
    | none => rfl
    | some a =>
      have ha := List.find?_some hf
      rw [beq_iff_eq] at ha
      rw [moved, passed_append] at h
      have : movedCall c b i op = transfers c b i op := by simp [movedCall_eq, transfers, hc, htl]
      rw [this] at h
      simp only [ha]
      omega

theorem terminator_tight (F : Facts c l) (hr : Regular c) (ht : Tidy c) {b : Nat} {blk : Block}
    (hb : c.inp.body[b]? = some blk) {i : Nat} {op : Op} (ho : blk.ops[i]? = some op) (hterm : isTerminator op = true)
    {own own' : Ledger} (hs : Tight c l b blk i own)
    (q : ∀ v ∈ c.inp.ptrs,
      own' v = (if v ∈ op.results then given c op v else own v + passed c.inp v (before c b i op) -
        (if v ∈ releasesAt c l b blk (.before i) then 1 else 0) - passed c.inp v (moved c b i op)) -
        (if v ∈ releasesAt c l b blk (.after i) then 1 else 0)) :
    Spent c l b own' := by
  have hat : At c b i op := ⟨blk, hb, ho⟩
  have hi := hr.last b blk i op hb ho hterm
  have hst := term_no_load hterm
  intro v hv
  rw [q v hv, if_neg (by rw [ht.noResults b i op hat hterm]; simp)]
  obtain ⟨h1, h2⟩ := hs v hv
  -- the value is needed later, or nothing is left
  suffices H : (own v + passed c.inp v (before c b i op) - (if v ∈ releasesAt c l b blk (.before i) then 1 else 0) -
      passed c.inp v (moved c b i op) ≤ own v) ∧ (v ∈ l.liveOut b ∨ own v + passed c.inp v (before c b i op) -
      (if v ∈ releasesAt c l b blk (.before i) then 1 else 0) - passed c.inp v (moved c b i op) = 0) by
    refine ⟨by omega, fun h => ?_⟩
    have hown := (h2 (by omega)).1
    rcases H.2 with hl | h0
    · exact ⟨hown, hl⟩
    · omega
  by_cases hm : passed c.inp v (moved c b i op) = 0
  · rw [passed_before_zero hr hat hterm hm, hm]
    refine ⟨by omega, ?_⟩
    by_cases h0 : own v = 0
    · right; omega
    · obtain ⟨e1, e2, e3⟩ := h2 (by omega)
      rcases last_cases F hr ht hb ho hterm e1 e2 e3 with h | h | h
      · exact Or.inl h
      · omega
      · right; rw [if_pos h]; omega
  · -- something moves away
    have hpos := Nat.pos_of_ne_zero hm
    cases hc : c.contract b i with
    | none =>
      have hbf : before c b i op = [] := by simp [before, contractRetains, hc, storeRetains, hst.2]
      rw [hbf]
      simp only [passed, List.filter_nil, List.length_nil] at hpos ⊢
      refine ⟨by omega, ?_⟩
      right; omega
    | some ct =>
      have hk : ct.isTail = true ∧ (op.kind = .returnCall ∨ op.kind = .returnCallIndirect) := by
        rcases hr.contracts b i op ct hat hc with h | ⟨-, h | h⟩
        · exact h
        · simp [isTerminator, h] at hterm
        · simp [isTerminator, h] at hterm
      have hmp : movedPlain c op = [] := by rcases hk.2 with h | h <;> simp [movedPlain, h]
      have hmt : moved c b i op = transfers c b i op := by
        simp [moved, hmp, movedCall_eq, transfers, hc, hk.1]
      rw [hmt] at hpos ⊢
      obtain ⟨a, ha1, ha2, ha3⟩ := find_firsts c.inp v [] (transfers c b i op) (by simp) hpos
      have hRp : passed c.inp v (before c b i op) =
          passed c.inp v (transfers c b i op) - (if isBorrowed c a then 0 else 1) := by
        rw [before, passed_append]
        have : storeRetains c op = [] := by simp [storeRetains, hst.2]
        rw [this]
        simp only [contractRetains, hc, hk.1, if_true]
        rw [firsts_passed (fun a => passed c.inp (rootOf c.inp a) (transfers c b i op) - (if isBorrowed c a then 0 else 1)), ha1]
        simp [passed, ha2]
      rw [hRp]
      by_cases hbor : isBorrowed c a = true
      · rw [if_pos hbor]
        refine ⟨by omega, ?_⟩
        right
        have hva : v ∈ c.params ∨ v ∈ c.temps := by
          simp only [isBorrowed, ha2, Bool.or_eq_true, List.contains_eq_mem, decide_eq_true_eq] at hbor
          rcases hbor with ((h | h) | h) | h
          · exact Or.inl h
          · have := F.root_self (ht.params a h).2.1
            rw [ha2] at this
            rw [this]
            exact Or.inl h
          · exact Or.inr h
          · obtain ⟨hany, b', i', op', hat', hk', hres'⟩ := ht.temps a h
            have := F.root_self (F.loadPtrs b' i' op' hat' hk' a hres' hany)
            rw [ha2] at this
            rw [this]
            exact Or.inr h
        have h0 : own v = 0 := by
          by_contra hne
          have hown := (h2 (by omega)).1
          rcases hva with h | h
          · exact hown.2.1 h
          · exact hown.2.2.1 h
        omega
      · rw [if_neg hbor]
        refine ⟨by omega, ?_⟩
        right
        omega

theorem run_chunks_tight (F : Facts c l) (hr : Regular c) (ht : Tidy c) {b : Nat} {blk : Block} (hreach : Reached c b)
    (hb : c.inp.body[b]? = some blk)
    (pre ops : List Op) (hops : blk.ops = pre ++ ops) (hpre : ∀ op ∈ pre, isTerminator op = false) {st st' : St}
    (hs : Stocked c l b blk pre.length st.own)
    (htt : Tight c l b blk pre.length st.own)
    (he : execAll c b st (chunks c l b blk pre.length ops) = some st') : Spent c l b st'.own := by
  induction ops generalizing pre st with
  | nil =>
    exfalso
    obtain ⟨op, h1, h2⟩ := ht.ends blk (List.mem_of_getElem? hb)
    rw [hops, List.append_nil] at h1
    rw [hpre op (List.mem_of_getLast? h1)] at h2
    cases h2
  | cons op ops ih =>
    have ho : blk.ops[pre.length]? = some op := by rw [hops]; simp
    simp only [chunks, execAll_append] at he
    cases hterm : isTerminator op with
    | false =>
      obtain ⟨st1, e1, q1, hs1⟩ := step_ordinary F hr hb ho hterm hs
      rw [e1, Option.bind_some] at he
      have htt1 := step_tight F hr ht hreach hb ho hterm htt q1
      refine ih (pre ++ [op]) (by rw [hops]; simp) ?_ (st := st1) (by rw [List.length_append]; exact hs1)
        (by rw [List.length_append]; exact htt1) (by rw [List.length_append]; exact he)
      intro o ho'
      rcases List.mem_append.1 ho' with h | h
      · exact hpre o h
      · rw [List.mem_singleton] at h
        rw [h]
        exact hterm
    | true =>
      obtain ⟨st1, e1, q1, hs1⟩ := step_terminator F hr hb ho hterm hs
      rw [e1, Option.bind_some] at he
      have hn : ops = [] := by
        have := hr.last b blk _ op hb ho hterm
        rw [hops] at this
        simp only [List.length_append, List.length_cons] at this
        exact List.length_eq_zero_iff.1 (by omega)
      subst hn
      simp only [chunks, execAll, Option.some.injEq] at he
      subst he
      exact terminator_tight F hr ht hb ho hterm htt q1

/-- On entry: one reference for each value that is live in or passed with ownership. -/
def Exact (c : Config) (l : Live) (b : Nat) (blk : Block) (own : Ledger) : Prop :=
  ∀ v ∈ c.inp.ptrs, own v ≤ 1 ∧ (1 ≤ own v → Owned c v ∧ (v ∈ l.liveIn b ∨ (v ∈ blk.args ∧ (b ≠ 0 ∨ v ∈ c.consumed))))

theorem passed_nodup (F : Facts c l) {vs : List Nat} (hn : vs.Nodup) (hp : ∀ v ∈ vs, v ∈ c.inp.ptrs) (v : Nat) :
    passed c.inp v vs = if v ∈ vs then 1 else 0 := by
  induction vs with
  | nil => simp [passed]
  | cons w vs ih =>
    rw [List.nodup_cons] at hn
    rw [passed_cons, F.root_self (hp w (by simp)), ih hn.2 (fun v hv => hp v (by simp [hv]))]
    by_cases e : w = v
    · subst e
      simp [hn.1]
    · simp [e, Ne.symm e]

theorem start_tight (F : Facts c l) (hr : Regular c) (ht : Tidy c) {b : Nat} {blk : Block}
    (hb : c.inp.body[b]? = some blk) {own own' : Ledger} (hs : Exact c l b blk own)
    (q : ∀ v, own' v = own v + passed c.inp v (entryRetains c b blk) - (if v ∈ releasesAt c l b blk .start then 1 else 0)) :
    Tight c l b blk 0 own' := by
  have hnd : (entryRetains c b blk).Nodup := by
    simp only [entryRetains]
    split
    · exact (List.nodup_append.1 (ht.inBlock hb)).1.filter _
    · exact List.nodup_nil
  have hmem : ∀ v ∈ entryRetains c b blk, b = 0 ∧ v ∈ blk.args ∧ v ∈ c.inp.ptrs ∧ v ∉ c.params ∧ v ∉ c.consumed := by
    intro v hv
    simp only [entryRetains] at hv
    split at hv
    · rename_i h0
      simp only [List.mem_filter, Bool.and_eq_true, Bool.not_eq_true', List.contains_eq_mem, decide_eq_false_iff_not] at hv
      exact ⟨h0, hv.1, F.argPtrs blk (List.mem_of_getElem? hb) v hv.1 hv.2.1.1, hv.2.1.2, hv.2.2⟩
    · cases hv
  intro v hv
  rw [q, passed_nodup F hnd (fun w hw => (hmem w hw).2.2.1)]
  obtain ⟨h1, h2⟩ := hs v hv
  by_cases hm : v ∈ entryRetains c b blk
  · obtain ⟨e1, e2, -, e4, e5⟩ := hmem v hm
    have h0 : own v = 0 := by
      by_contra hne
      rcases (h2 (by omega)).2 with h | ⟨-, h | h⟩
      · rw [e1] at h; exact F.liveIn0 v h
      · exact h e1
      · exact e5 h
    rw [if_pos hm, h0]
    refine ⟨by omega, fun h => ?_⟩
    refine ⟨arg_owned hr ht hb hv e2 e4, Or.inr (Or.inl e2), ?_⟩
    rintro ⟨hd, hpl | ⟨j, hj, -⟩⟩
    · rw [if_pos (mem_releasesAt.2 ⟨hd, hpl⟩)] at h
      omega
    · omega
  · rw [if_neg hm, Nat.add_zero]
    refine ⟨by omega, fun h => ?_⟩
    obtain ⟨e1, e2⟩ := h2 (by omega)
    refine ⟨e1, ?_, ?_⟩
    · rcases e2 with h | ⟨h, -⟩
      · exact Or.inl h
      · exact Or.inr (Or.inl h)
    · rintro ⟨hd, hpl | ⟨j, hj, -⟩⟩
      · rw [if_pos (mem_releasesAt.2 ⟨hd, hpl⟩)] at h
        omega
      · omega

theorem block_exact (F : Facts c l) (hr : Regular c) (ht : Tidy c) {b : Nat} {blk : Block} (hreach : Reached c b)
    (hb : c.inp.body[b]? = some blk) {own : Ledger} (he : Entered c l b blk own) (hx : Exact c l b blk own) :
    ∃ own', runBlock c l b own = some own' ∧ Ready c l b own' ∧ Spent c l b own' := by
  obtain ⟨s1, e1, q1, h1⟩ := run_start F hb he
  obtain ⟨s2, e2, h2⟩ := run_chunks F hr hb [] blk.ops rfl h1
  refine ⟨s2.own, ?_, h2, ?_⟩
  · simp only [runBlock, hb, insertBlock]
    rw [execAll_append, e1, Option.bind_some]
    rw [show (0 : Nat) = ([] : List Op).length from rfl, e2]
    rfl
  · exact run_chunks_tight F hr ht hreach hb [] blk.ops rfl (by simp) h1 (start_tight F hr ht hb hx q1) e2

theorem enter_exact (F : Facts c l) (hr : Regular c) (ht : Tidy c) {b s : Nat} {bb sb : Block} (hb : c.inp.body[b]? = some bb)
    (hsb : c.inp.body[s]? = some sb) (hs : s ∈ succsOf bb) {own : Ledger} (h : Spent c l b own)
    (hlive : ∀ v ∈ l.liveOut b, v ∈ l.liveIn s) : Exact c l s sb (enter c b s own) := by
  have hs0 : s ≠ 0 := by
    rintro rfl
    exact ht.first bb (List.mem_of_getElem? hb) hs
  intro v hv
  simp only [succsOf] at hs
  cases hl : bb.ops.getLast? with
  | none => rw [hl] at hs; cases hs
  | some op =>
    simp only [enter, hb, hsb, hl]
    split
    · rename_i hc
      have ha : v ∈ sb.args := List.take_subset _ _ (List.mem_filter.1 hc.2).1
      refine ⟨by omega, fun _ => ⟨arg_owned hr ht hsb hv ha ?_, Or.inr ⟨ha, Or.inl hs0⟩⟩⟩
      intro hp
      obtain ⟨-, -, blk0, hb0, ha0⟩ := ht.params v hp
      exact hs0 (ht.block hsb hb0 (Or.inl ha) (Or.inl ha0))
    · obtain ⟨h1, h2⟩ := h v hv
      exact ⟨h1, fun h' => ⟨(h2 h').1, Or.inl (hlive v (h2 h').2)⟩⟩

theorem initial_exact (F : Facts c l) (hr : Regular c) (ht : Tidy c) {blk : Block} (hb : c.inp.body[0]? = some blk) :
    Exact c l 0 blk (initial c) := by
  intro v hv
  simp only [initial, hb]
  split
  · rename_i h
    simp only [Bool.and_eq_true, List.contains_eq_mem, decide_eq_true_eq] at h
    refine ⟨by omega, fun _ => ⟨arg_owned hr ht hb hv h.1.1 ?_, Or.inr ⟨h.1.1, Or.inr h.2⟩⟩⟩
    intro hp
    exact (ht.params v hp).1 h.2
  · exact ⟨by omega, fun h => by omega⟩

theorem path_exact (F : Facts c l) (hr : Regular c) (ht : Tidy c)
    (sound : ∀ v ∈ c.inp.ptrs, ∀ b, (LiveIn c.inp v b → v ∈ l.liveIn b) ∧ (v ∈ l.liveOut b → LiveOut c.inp v b))
    {p : List Nat} (hp : IsPath c.inp.body p) :
    StaysLive c p → ∀ q b blk, p = q ++ [b] → c.inp.body[b]? = some blk →
      ∃ own, runPath c l p (initial c) = some own ∧ Ready c l b own ∧ Spent c l b own := by
  induction hp with
  | entry =>
    intro _ q b blk he hb
    have hb0 : b = 0 := by
      have := congrArg List.getLast? he
      simp at this
      exact this.symm
    subst hb0
    obtain ⟨own, e, h⟩ := block_exact F hr ht ⟨[], .entry⟩ hb (initial_entered F hb) (initial_exact F hr ht hb)
    exact ⟨own, by simp [runPath, e], h⟩
  | @step q b s blk hq hb hs ih =>
    intro hst q' b' sb he hsb
    have hb' : b' = s := by
      have := congrArg List.getLast? he
      simp at this
      exact this.symm
    subst hb'
    obtain ⟨own, e, h1, h2⟩ := ih (by
      intro pre x y post hxy
      exact hst pre x y (post ++ [b']) (by
        have : q ++ [b, b'] = (q ++ [b]) ++ [b'] := by simp
        rw [this, hxy]
        simp)) q b blk rfl hb
    rw [runPath_snoc, e, Option.bind_some]
    have hlive : ∀ v ∈ l.liveOut b, v ∈ l.liveIn b' := by
      intro v hv
      have hvp := F.outPtrs hb hv
      exact (sound v hvp b').1 (hst q b b' [] (by simp) v hvp ((sound v hvp b).2 hv))
    obtain ⟨own', e', h'⟩ := block_exact F hr ht ⟨q ++ [b], by simpa using IsPath.step hq hb hs⟩ hsb (enter_entered F hr hb hsb hs h1)
      (enter_exact F hr ht hb hsb hs h2 hlive)
    exact ⟨own', e', h'⟩

end

end Verif.RcInsert
