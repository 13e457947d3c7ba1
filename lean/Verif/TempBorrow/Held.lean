import Verif.TempBorrow.Proofs

/-!
# Owners are held while what they lend is in use
-/

namespace Verif.TempBorrow

open Verif.Live Verif.RcInsert

section
variable {c : Config} {l : Live}

/-! ## The ledger at a point -/

theorem run_upto (F : Facts c l) (hr : Regular c) {b : Nat} {blk : Block} (hb : c.inp.body[b]? = some blk)
    (pre : List Op) : ∀ (mid post : List Op), blk.ops = pre ++ mid ++ post → post ≠ [] → ∀ {st : St},
    Stocked c l b blk pre.length st.own →
    ∃ st', execAll c b st (chunks c l b blk pre.length mid) = some st' ∧ Stocked c l b blk (pre.length + mid.length) st'.own := by
  intro mid
  induction mid generalizing pre with
  | nil =>
    intro post _ _ st hs
    exact ⟨st, rfl, hs⟩
  | cons op mid ih =>
    intro post he hne st hs
    have ho : blk.ops[pre.length]? = some op := by rw [he]; simp
    have ht : isTerminator op = false := by
      cases h : isTerminator op with
      | false => rfl
      | true =>
        have h1 := hr.last b blk _ op hb ho h
        have h2 : 0 < post.length := List.length_pos_iff.2 hne
        rw [he] at h1
        simp only [List.length_append, List.length_cons] at h1
        omega
    obtain ⟨st1, e1, -, hs1⟩ := step_ordinary F hr hb ho ht hs
    obtain ⟨st2, e2, hs2⟩ := ih (pre ++ [op]) post (by rw [he]; simp) hne (st := st1) (by rw [List.length_append]; exact hs1)
    refine ⟨st2, ?_, ?_⟩
    · simp only [chunks, execAll_append]
      rw [e1, Option.bind_some]
      rw [List.length_append] at e2
      exact e2
    · rw [List.length_append] at hs2
      simp only [List.length_cons, List.length_nil] at hs2 ⊢
      rw [show pre.length + (mid.length + 1) = pre.length + (0 + 1) + mid.length by omega]
      exact hs2

theorem entered_at (F : Facts c l) (hr : Regular c) {p : List Nat} (hp : IsPath c.inp.body p) : ∀ {k b : Nat} {blk : Block},
    p[k]? = some b → c.inp.body[b]? = some blk → ∃ own, ledgerEntering c l p k = some own ∧ Entered c l b blk own := by
  intro k b blk hk hb
  obtain ⟨h0, he⟩ := isPath_edges hp
  cases k with
  | zero =>
    rw [hk] at h0
    cases h0
    exact ⟨initial c, rfl, initial_entered F hb⟩
  | succ k =>
    have hlt := (List.getElem?_eq_some_iff.1 hk).1
    have hx : p[k]? = some p[k] := List.getElem?_eq_getElem (by omega)
    obtain ⟨xb, hxb, hs⟩ := he k _ _ hx hk
    have htake : p.take (k + 1) = p.take k ++ [p[k]] := by rw [List.take_succ, hx]; rfl
    have hq : IsPath c.inp.body (p.take k ++ [p[k]]) := by
      apply path_prefix hp _ _ (p.drop (k + 1))
      rw [← List.drop_eq_getElem_cons, List.take_append_drop]
    obtain ⟨own, e, hrd⟩ := run_path F hr hq _ _ rfl
    refine ⟨enter c p[k] b own, ?_, enter_entered F hr hxb hb hs (hrd xb hxb)⟩
    simp only [ledgerEntering]
    rw [htake, e, hx, hk]

theorem stocked_at (F : Facts c l) (hr : Regular c) {p : List Nat} (hp : IsPath c.inp.body p) {k b i : Nat} {blk : Block}
    (hk : p[k]? = some b) (hb : c.inp.body[b]? = some blk) (hi : i < blk.ops.length) :
    ∃ own, ledgerAt c l p k i = some own ∧ Stocked c l b blk i own := by
  obtain ⟨own, e, hE⟩ := entered_at F hr hp hk hb
  obtain ⟨s1, e1, -, h1⟩ := run_start F hb hE
  obtain ⟨s2, e2, h2⟩ := run_upto F hr hb [] (blk.ops.take i) (blk.ops.drop i) (by simp)
    (by rw [ne_eq, List.drop_eq_nil_iff]; omega) (st := s1) h1
  refine ⟨s2.own, ?_, ?_⟩
  · simp only [ledgerAt, e, hk, hb]
    rw [execAll_append, e1, Option.bind_some, show (0 : Nat) = ([] : List Op).length from rfl, e2]
    rfl
  · simp only [List.length_nil, Nat.zero_add, List.length_take] at h2
    rw [show min i blk.ops.length = i by omega] at h2
    exact h2

/-! ## Live until the use -/

theorem here_back {b i i' : Nat} {blk : Block} {v : Nat} (h : Here l b blk i v) (hle : i' ≤ i)
    (hn : ∀ (j : Nat) (op : Op), i' ≤ j → j < i → blk.ops[j]? = some op → v ∉ op.results) : Here l b blk i' v := by
  rcases h with h | h | ⟨j, hj, op, ho, hv⟩
  · exact Or.inl h
  · exact Or.inr (Or.inl h)
  · refine Or.inr (Or.inr ⟨j, ?_, op, ho, hv⟩)
    by_contra hge
    exact hn j op (by omega) hj ho hv

theorem gone_mono {b i i' : Nat} {blk : Block} {v : Nat} (h : Gone c l b blk i' v) (hle : i' ≤ i) : Gone c l b blk i v := by
  obtain ⟨h1, h2⟩ := h
  refine ⟨h1, h2.imp id ?_⟩
  rintro ⟨j, hj, h⟩
  exact ⟨j, by omega, h⟩

/-- Along a path to a use, without a definition on the way, the value is live at the starts of the blocks. -/
theorem live_on (F : Facts c l) {v : Nat} (hv : v ∈ c.inp.ptrs) {f : Nat → Nat} {n : Nat} (hf : FPath c.inp.body f n)
    {blk : Block} {i : Nat} {op : Op} (hb : c.inp.body[f n]? = some blk) (ho : blk.ops[i]? = some op) (hu : Uses c.inp op v)
    {m : Nat} (hargs : ∀ k, m < k → k ≤ n → ∀ blk, c.inp.body[f k]? = some blk → v ∉ blk.args)
    (hres : ∀ k j op, m < k → (k < n ∨ (k = n ∧ j < i)) → IsAt c.inp.body (f k) j op → v ∉ op.results) :
    ∀ d k, k + d = n → m < k → v ∈ l.liveIn (f k) := by
  intro d
  induction d with
  | zero =>
    intro k hk hm
    have : k = n := by omega
    subst this
    have := (use_here F hb ho hv ((mem_touched hv).2 hu)).1
    rcases here_back this (Nat.zero_le _) (fun j op' _ hj ho' => hres k j op' hm (Or.inr ⟨rfl, hj⟩) ⟨blk, hb, ho'⟩) with h | h | ⟨j, hj, -⟩
    · exact h
    · exact absurd h (hargs k hm (Nat.le_refl _) blk hb)
    · omega
  | succ d ih =>
    intro k hk hm
    have h1 := ih (k + 1) (by omega) (by omega)
    obtain ⟨kb, hkb, hs⟩ := hf.2 k (by omega)
    rw [F.in_iff hkb]
    refine Or.inr ⟨(F.out_iff hkb).2 ⟨_, hs, h1⟩, ?_⟩
    rw [mem_defs F.good hv]
    rintro (h | ⟨op', h, h'⟩)
    · exact hargs k hm (by omega) kb hkb h
    · obtain ⟨j, hj⟩ := List.mem_iff_getElem?.1 h
      exact hres k j op' hm (Or.inl (by omega)) ⟨kb, hkb, hj⟩ h'

/-- At every point from which a use is reached without a definition on the way, the value is at hand. -/
theorem here_on (F : Facts c l) {v : Nat} (hv : v ∈ c.inp.ptrs) {f : Nat → Nat} {n : Nat} (hf : FPath c.inp.body f n)
    {blk : Block} {i : Nat} {op : Op} (hb : c.inp.body[f n]? = some blk) (ho : blk.ops[i]? = some op) (hu : Uses c.inp op v)
    {k i' : Nat} {kb : Block} (hkb : c.inp.body[f k]? = some kb) (hk : k < n ∨ (k = n ∧ i' ≤ i)) (hi' : i' ≤ kb.ops.length)
    (hargs : ∀ m, k < m → m ≤ n → ∀ blk, c.inp.body[f m]? = some blk → v ∉ blk.args)
    (hres : ∀ m j op, ¬ Earlier m j k i' → Earlier m j n i → IsAt c.inp.body (f m) j op → v ∉ op.results) :
    Here l (f k) kb i' v ∧ ¬ Gone c l (f k) kb i' v := by
  rcases hk with hk | ⟨rfl, hle⟩
  · have hin := live_on F hv hf hb ho hu (m := k) hargs (fun m j op' hm hmn hat => hres m j op'
      (fun h => by rcases h with h | ⟨h, -⟩ <;> omega) hmn hat) (n - (k + 1)) (k + 1) (by omega) (by omega)
    obtain ⟨kb', hkb', hs⟩ := hf.2 k hk
    rw [hkb] at hkb'
    cases hkb'
    have hout := (F.out_iff hkb).2 ⟨_, hs, hin⟩
    refine ⟨here_back (out_here F hkb hout) hi' (fun j op' h1 h2 ho' => ?_), fun h => out_not_dying hout h.1⟩
    exact hres k j op' (fun h => by rcases h with h | ⟨h, h'⟩ <;> omega) (Or.inl hk) ⟨kb, hkb, ho'⟩
  · rw [hb] at hkb
    cases hkb
    obtain ⟨h1, h2⟩ := use_here F hb ho hv ((mem_touched hv).2 hu)
    refine ⟨here_back h1 hle (fun j op' h3 h4 ho' => ?_), fun h => h2 (gone_mono h hle)⟩
    exact hres k j op' (fun h => by rcases h with h | ⟨h, h'⟩ <;> omega) (Or.inr ⟨rfl, h4⟩) ⟨blk, hb, ho'⟩

end

/-! ## Temporaries -/

section
variable {c : Config} {I : Info} {body : Body} {t : Dominance.Tree body.length} {l : Live}

/-- How the configuration comes about, as far as temporaries go. -/
structure Elided (c : Config) (I : Info) (body : Body) (t : Dominance.Tree body.length) : Prop where
  inp : c.inp = analyse I body (infoOf I body c.contract t).deps
  temps : c.temps = (infoOf I body c.contract t).borrowed
  dom : ∀ a b, t.dominates a b = true → Dominance.Dominates (cfgOf body) a b

theorem Elided.code (E : Elided c I body t) : c.inp.body = body := by rw [E.inp]; rfl
theorem Elided.deps (E : Elided c I body t) : c.inp.deps = (infoOf I body c.contract t).deps := by rw [E.inp]; rfl
theorem Elided.alias (E : Elided c I body t) : c.inp.alias_ = (aliases I body).map := by rw [E.inp]; rfl
theorem Elided.ptrs (E : Elided c I body t) : c.inp.ptrs = (aliases I body).ptrs := by rw [E.inp]; rfl

theorem temp_step {n : Nat} {t : Dominance.Tree n} {contract : Nat → Nat → Option Contract} {inp : Input} {b i : Nat} {op : Op} {temp owner : Nat}
    {as V : List Nat} (h : TempOf inp contract t b i op temp owner as V)
    (hct : ∀ b i op, IsAt inp.body b i op → op.kind = .cast → contract b i = none) {x y : Nat} (hx : x ∈ V) {b' i' : Nat} {o : Op}
    (hat : IsAt inp.body b' i' o) (hk : o.kind = .cast) (h1 : o.operands.head? = some x) (h2 : y ∈ o.results) : y ∈ V := by
  obtain ⟨-, -, hg⟩ := h.proven.good x hx ⟨b', i', 0, o⟩ (mem_usesOf.2 ⟨hat, by rw [← List.head?_eq_getElem?]; exact h1⟩)
  rcases hg with ⟨a, ea, ha⟩ | ⟨-, hok⟩
  · have := (castAlias_spec ea).2.2.1
    simp only at this
    rw [this, List.mem_singleton] at h2
    rw [h2]
    exact ha
  · simp [useOk, hk, hct b' i' o hat hk] at hok

/-- A use of a temporary comes after the load on every path, and counts as a use of the owner. -/
theorem used_after_load (E : Elided c I body t) (hs : Ssa body) (hcasts : CastsInOrder (body.flatMap (·.ops)))
    (hct : ∀ b i op, IsAt body b i op → op.kind = .cast → c.contract b i = none)
    {v : Nat} (hv : v ∈ c.temps) {b i : Nat} {op : Op} (hat : IsAt body b i op)
    (hu : Uses c.inp op v ∨ ∃ w ∈ op.operands, SameAs body v w) :
    ∃ lb li ld o as V, Temp I body c.contract t lb li ld v o as V ∧ DomPt body lb li b i ∧ c.inp.deps.lookup v = some o ∧
      Uses c.inp op o := by
  rw [E.temps] at hv
  obtain ⟨lb, li, ld, o, as, V, hT⟩ := mem_borrowed hv
  have hdep : ∀ w ∈ V, c.inp.deps.lookup w = some o := fun w hw => by
    rw [E.deps]
    exact deps_iff hs hT hv hw
  have direct : ∀ w ∈ op.operands, w ∈ V → DomPt body lb li b i ∧ Uses c.inp op o := by
    intro w hw hwV
    obtain ⟨j, hj⟩ := List.mem_iff_getElem?.1 hw
    exact ⟨opDom_sound E.dom (hT.proven.good w hwV ⟨b, i, j, op⟩ (mem_usesOf.2 ⟨hat, hj⟩)).2.1,
      w, hw, Or.inr (Or.inr (.single (hdep w hwV)))⟩
  refine ⟨lb, li, ld, o, as, V, hT, ?_⟩
  have key : DomPt body lb li b i ∧ Uses c.inp op o := by
    obtain ⟨w, hw, rfl | ha | htr⟩ | ⟨w, hw, hsame⟩ := hu
    · exact direct w hw hT.proven.self
    · rw [E.alias] at ha
      exact direct w hw (alias_named hT hct ((C21_casts hcasts w v).1 ha).2)
    · refine ⟨?_, w, hw, Or.inr (Or.inr (htr.tail (hdep v hT.proven.self)))⟩
      exact (trans_before E.dom hs E.deps hat hw htr).at hs hT.at_ (by simp [hT.results])
    · refine direct w hw ?_
      clear hw
      induction hsame with
      | refl => exact hT.proven.self
      | tail _ h ih =>
        obtain ⟨blk, hb, o', ho', h1, h2, h3⟩ := h
        obtain ⟨b', hb'⟩ := List.mem_iff_getElem?.1 hb
        obtain ⟨i', hi'⟩ := List.mem_iff_getElem?.1 ho'
        exact temp_step hT hct ih ⟨blk, hb', hi'⟩ h1 h2 h3
  exact ⟨key.1, hdep v hT.proven.self, key.2⟩

theorem backed (E : Elided c I body t) (F : Facts c l) (hr : Regular c) (hs : Ssa body) (hfirst : ∀ blk ∈ body, 0 ∉ succsOf blk)
    {p : List Nat} (hp : IsPath body p) {k i : Nat} {op : Op} (hon : OnPath body p k i op) {v : Nat} (hv : v ∈ c.temps)
    (hu : Uses c.inp op v ∨ ∃ w ∈ op.operands, SameAs body v w) :
    ∃ o k0 i0, o ∈ c.inp.ptrs ∧ Uses c.inp op o ∧ BackedSince c l p k i v o k0 i0 := by
  obtain ⟨b, blk, hk, hb, ho⟩ := hon
  have hbody := E.code
  have hcasts := hr.casts
  rw [hbody] at hcasts
  have hct : ∀ b i op, IsAt body b i op → op.kind = .cast → c.contract b i = none := by
    intro b i op hat hkind
    cases h : c.contract b i with
    | none => rfl
    | some ct =>
      rcases hr.contracts b i op ct (by rw [At, hbody]; exact hat) h with ⟨-, h | h⟩ | ⟨-, h | h⟩ <;>
        (rw [hkind] at h; cases h)
  have hat : IsAt body b i op := ⟨blk, hb, ho⟩
  obtain ⟨lb, li, ld, o, as, V, hT, hdom, hdep, huo⟩ := used_after_load E hs hcasts hct hv hat hu
  have hkl := (List.getElem?_eq_some_iff.1 hk).1
  have hf := isPath_fpath hp hkl
  have hfk : blocksOf p k = b := blocksOf_eq hk
  have hdom' : DomPt body lb li (blocksOf p k) i := by rw [hfk]; exact hdom
  obtain ⟨m, hm, ⟨em, hE⟩, hlast⟩ := exists_last (P := fun m => blocksOf p m = lb ∧ Earlier m li k i) k (by
    obtain ⟨m, h1, h2, h3⟩ := hdom' _ k hf rfl
    exact ⟨m, h1, h2, h3⟩)
  obtain ⟨a, ha, hres⟩ := hT.address
  have hal : ∀ v p, (analyse I body []).alias_.lookup v = some p → Inside (analyse I body []).body v p := by
    intro v p h
    exact inside_of_cast ((C21_casts hcasts v p).1 h).2
  obtain ⟨hop, hin⟩ := resolve_spec hal _ _ _ _ hres
  have hop' : o ∈ c.inp.ptrs := by rw [E.ptrs]; exact hop
  have hT' : IsAt body lb li ld := hT.at_
  -- where the owner is defined
  have hown := valueDom_sound E.dom hT.proven.owner
  -- entering a block later on does not define anything of interest
  have hentry : ∀ k', 0 < k' → k' ≤ k → blocksOf p k' ≠ 0 := by
    intro k' h1 h2 h0
    obtain ⟨kb, hkb, hsucc⟩ := hf.2 (k' - 1) (by omega)
    rw [show k' - 1 + 1 = k' by omega, h0] at hsucc
    exact hfirst kb (List.mem_of_getElem? hkb) hsucc
  have hargs : ∀ k', m < k' → k' ≤ k → ∀ kb, body[blocksOf p k']? = some kb → v ∉ kb.args ∧ o ∉ kb.args := by
    intro k' h1 h2 kb hkb
    constructor
    · intro h
      exact hs.argRes hkb hT' h (by simp [hT.results])
    · intro h
      rcases hown with ⟨eb, heb, ho'⟩ | ⟨bo, io, opo, h3, h4, -⟩
      · exact hentry k' (by omega) h2 (hs.arg hkb heb h ho')
      · exact hs.argRes hkb h3 h h4
  have hresults : ∀ k' i' op', IsAt body (blocksOf p k') i' op' → Earlier m li k' i' → Earlier k' i' k i →
      v ∉ op'.results ∧ o ∉ op'.results := by
    intro k' i' op' hat' h1 h2
    have hk' : k' ≤ k := by rcases h2 with h | ⟨h, -⟩ <;> omega
    constructor
    · intro h
      obtain ⟨e1, rfl, -⟩ := hs.at hat' hT' h (by simp [hT.results])
      have := hlast k' hk' ⟨e1, h2⟩
      rcases h1 with h | ⟨h, h'⟩ <;> omega
    · intro h
      rcases hown with ⟨eb, heb, ho'⟩ | ⟨bo, io, opo, h3, h4, h5⟩
      · exact hs.argRes heb hat' ho' h
      · obtain ⟨e1, rfl, -⟩ := hs.at hat' h3 h h4
        exact no_redefinition hf hdom' h5 hlast e1 h1 h2
  -- the load itself does not define the owner
  have hml : m < p.length := by omega
  have hne : v ≠ o := by
    rintro rfl
    rcases hown with ⟨eb, heb, ho'⟩ | ⟨bo, io, opo, h3, h4, h5⟩
    · exact hs.argRes heb hT' ho' (by simp [hT.results])
    · obtain ⟨rfl, rfl, -⟩ := hs.at h3 hT' h4 (by simp [hT.results])
      obtain ⟨m', hm', em', hmin⟩ := exists_first (P := fun x => blocksOf p x = bo) em
      obtain ⟨m2, -, e2, hE2⟩ := h5 (blocksOf p) m' ⟨hf.1, fun x hx => hf.2 x (by omega)⟩ em'
      rcases hE2 with h | ⟨-, h⟩
      · exact hmin m2 h e2
      · omega
  refine ⟨o, m, li, hop', huo, ld, a, ?_, hT.load, hT.results, ha, ?_, hne, hE, ?_, ?_, ?_⟩
  · obtain ⟨lblk, h1, h2⟩ := hT'
    rw [hbody]
    exact ⟨lb, lblk, by rw [blocksOf_get hml, em], h1, h2⟩
  · rw [hbody]; exact hin
  · rintro k' i' op' ⟨b', blk', h1, h2, h3⟩ h4 h5
    rw [hbody] at h2
    exact hresults k' i' op' ⟨blk', by rw [blocksOf_eq h1]; exact h2, h3⟩ h4 h5
  · intro k' h1 h2
    constructor
    · rintro ⟨b', blk', h3, h4, h5⟩
      rw [hbody] at h4
      exact (hargs k' h1 h2 blk' (by rw [blocksOf_eq h3]; exact h4)).1 h5
    · rintro ⟨b', blk', h3, h4, h5⟩
      rw [hbody] at h4
      exact (hargs k' h1 h2 blk' (by rw [blocksOf_eq h3]; exact h4)).2 h5
  · rintro hO k' i' op' ⟨b', blk', h1, h2, h3⟩ h4 h5
    have hi' := (List.getElem?_eq_some_iff.1 h3).1
    obtain ⟨own, e, hst⟩ := stocked_at F hr (by rw [hbody]; exact hp) h1 h2 hi'
    refine ⟨own, e, ?_⟩
    have hb' : blocksOf p k' = b' := blocksOf_eq h1
    have hpos : k' < k ∨ (k' = k ∧ i' ≤ i) := by
      have : ¬ (k < k' ∨ (k = k' ∧ i < i')) := h5
      omega
    have hfc : FPath c.inp.body (blocksOf p) k := by rw [hbody]; exact hf
    obtain ⟨hh, hg⟩ := here_on F hop' hfc (blk := blk) (i := i) (op := op) (by rw [hbody, hfk]; exact hb) ho huo
      (k := k') (i' := i') (kb := blk') (by rw [hb']; exact h2) hpos (by omega)
      (by
        intro m' h6 h7 mb hmb
        rw [hbody] at hmb
        exact (hargs m' (by rcases h4 with h | ⟨h, -⟩ <;> omega) h7 mb hmb).2)
      (by
        intro m' j op'' h6 h7 hat'
        rw [hbody] at hat'
        refine (hresults m' j op'' hat' ?_ h7).2
        have h6' : ¬ (m' < k' ∨ (m' = k' ∧ j < i')) := h6
        have h4' : m < k' ∨ (m = k' ∧ li < i') := h4
        show m < m' ∨ (m = m' ∧ li < j)
        omega)
    rw [hb'] at hh hg
    exact hst o hO hh hg

end

end Verif.TempBorrow
