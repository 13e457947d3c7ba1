import Verif.IrStore.CloneMain

/-
In a consistent store nothing is defined twice in an operation.
-/
namespace Verif.IrStore

/-- `o` is directly in a region of `p`. -/
def Inside (c : Store) (p o : OpRef) : Prop :=
  ∃ r ∈ c.regionsOf p, ∃ b ∈ c.blocksOf r, o ∈ c.opsOf b

theorem Inside.unique {c : Store} (L : LinksOk c) {p q o : OpRef} (h : Inside c p o) (h' : Inside c q o) :
    p = q := by
  obtain ⟨r, hr, b, hb, ho⟩ := h
  obtain ⟨r', hr', b', hb', ho'⟩ := h'
  have e1 := ((L.op.iff o b).2 ho).symm.trans ((L.op.iff o b').2 ho')
  cases e1
  have e2 := ((L.block.iff b r).2 hb).symm.trans ((L.block.iff b r').2 hb')
  cases e2
  have e3 := ((L.region.iff r p).2 hr).symm.trans ((L.region.iff r q).2 hr')
  cases e3
  rfl

theorem Within.last {c : Store} {a x : OpRef} (h : Within c a x) : a = x ∨ ∃ q, Within c a q ∧ Inside c q x := by
  cases h with
  | self => exact .inl rfl
  | nested h1 h2 h3 h4 => exact .inr ⟨_, h1, _, h2, _, h3, h4⟩

theorem Within.step {c : Store} {a q x : OpRef} (h : Within c a q) (h' : Inside c q x) : Within c a x := by
  obtain ⟨r, hr, b, hb, ho⟩ := h'
  exact .nested h hr hb ho

theorem Nested.mono {c : Store} : ∀ {n : Nat} {o : OpRef}, Nested c n o → Nested c (n + 1) o := by
  intro n
  induction n with
  | zero => intro o h; exact h.elim
  | succ n ih =>
    rintro o ⟨h1, h2⟩
    exact ⟨h1, fun r hr => ⟨(h2 r hr).1, fun b hb => ⟨((h2 r hr).2 b hb).1, fun x hx =>
      ih (((h2 r hr).2 b hb).2 x hx)⟩⟩⟩

theorem Nested.inside {c : Store} {n : Nat} {p o : OpRef} (h : Nested c (n + 1) p) (h' : Inside c p o) :
    Nested c n o := by
  obtain ⟨r, hr, b, hb, ho⟩ := h'
  exact ((h.2 r hr).2 b hb).2 o ho

theorem Nested.within {c : Store} {n : Nat} {p o : OpRef} (h : Nested c n p) (h' : Within c p o) :
    Nested c n o := by
  induction h' with
  | self => exact h
  | nested _ h1 h2 h3 ih =>
    cases n with
    | zero => exact ih.elim
    | succ n => exact (ih.inside ⟨_, h1, _, h2, h3⟩).mono

/-- Nothing is nested in itself. -/
theorem acyclic {c : Store} : ∀ {n : Nat} {p x : OpRef}, Nested c n p → Inside c p x → Within c x p → False := by
  intro n
  induction n with
  | zero => intro p x h; exact h.elim
  | succ n ih =>
    intro p x h hi hw
    exact ih ((h.inside hi).within hw) hi hw

theorem comparable {c : Store} (L : LinksOk c) {a b x : OpRef} (ha : Within c a x) (hb : Within c b x) :
    Within c a b ∨ Within c b a := by
  induction ha with
  | self => exact .inr hb
  | nested h1 h2 h3 h4 ih =>
    rcases hb.last with rfl | ⟨q, hq, hi⟩
    · exact .inl (.nested h1 h2 h3 h4)
    · have : q = _ := hi.unique L ⟨_, h2, _, h3, h4⟩
      subst this
      exact ih hq

/-- Two operations directly in the same one have nothing in common. -/
theorem apart {c : Store} (L : LinksOk c) {n : Nat} {p o o' x : OpRef} (hn : Nested c n p)
    (h : Inside c p o) (h' : Inside c p o') (hx : Within c o x) (hx' : Within c o' x) : o = o' := by
  by_contra hne
  rcases comparable L hx hx' with hw | hw
  · rcases hw.last with e | ⟨q, hq, hi⟩
    · exact hne e
    · have := hi.unique L h'; subst this; exact acyclic hn h hq
  · rcases hw.last with e | ⟨q, hq, hi⟩
    · exact hne e.symm
    · have := hi.unique L h; subst this; exact acyclic hn h' hq

/-! ## Where what is read was defined -/

theorem read_val {c : Store} {v : Value} : ∀ {n : Nat} {o : OpRef}, .val v ∈ readOp c n o → Defines c o v := by
  intro n
  induction n with
  | zero => intro o h; cases h
  | succ n ih =>
    intro o h
    simp only [readOp, List.mem_append, List.mem_map, List.mem_flatMap, reduceCtorEq, and_false, exists_false,
      false_or, or_false, Ev.val.injEq, exists_eq_right] at h
    rcases h with ⟨r, hr, h⟩ | h
    · simp only [readRegion, List.mem_append, List.mem_flatMap, List.mem_cons, reduceCtorEq, false_or,
        List.mem_map, Ev.val.injEq, exists_eq_right] at h
      rcases h with ⟨b, hb, h⟩ | ⟨b, hb, o', ho', h⟩
      · exact ⟨o, .self, .inr ⟨r, hr, b, hb, h⟩⟩
      · obtain ⟨x, hx, hv⟩ := ih h
        exact ⟨x, (Within.nested .self hr hb ho').trans hx, hv⟩
    · exact ⟨o, .self, .inl h⟩

theorem read_block {c : Store} {l : BlockRef} : ∀ {n : Nat} {o : OpRef}, .block l ∈ readOp c n o →
    HasBlock c o l := by
  intro n
  induction n with
  | zero => intro o h; cases h
  | succ n ih =>
    intro o h
    simp only [readOp, List.mem_append, List.mem_map, List.mem_flatMap, reduceCtorEq, and_false, exists_false,
      false_or, or_false] at h
    obtain ⟨r, hr, h⟩ := h
    simp only [readRegion, List.mem_append, List.mem_flatMap, List.mem_cons, Ev.block.injEq,
        List.mem_map, reduceCtorEq, and_false, exists_false, or_false] at h
    rcases h with ⟨b, hb, rfl⟩ | ⟨b, hb, o', ho', h⟩
    · exact ⟨o, .self, r, hr, hb⟩
    · obtain ⟨x, hx, hv⟩ := ih h
      exact ⟨x, (Within.nested .self hr hb ho').trans hx, hv⟩

/-- The operation a value is defined in, by its results or by the arguments of its blocks, is unique. -/
def DefAt (c : Store) (x : OpRef) (v : Value) : Prop :=
  v ∈ c.results x ∨ ∃ r ∈ c.regionsOf x, ∃ b ∈ c.blocksOf r, v ∈ c.args b

theorem arg_unique {c : Store} (D : DefsOk c) {b b' : BlockRef} {v : Value} (h : v ∈ c.args b)
    (h' : v ∈ c.args b') : b = b' := by
  obtain ⟨i, hi⟩ := List.mem_iff_getElem?.1 h
  obtain ⟨j, hj⟩ := List.mem_iff_getElem?.1 h'
  have := ((D.arg v b i).2 hi).symm.trans ((D.arg v b' j).2 hj)
  cases this; rfl

theorem res_unique {c : Store} (D : DefsOk c) {o o' : OpRef} {v : Value} (h : v ∈ c.results o)
    (h' : v ∈ c.results o') : o = o' := by
  obtain ⟨i, hi⟩ := List.mem_iff_getElem?.1 h
  obtain ⟨j, hj⟩ := List.mem_iff_getElem?.1 h'
  have := ((D.res v o i).2 hi).symm.trans ((D.res v o' j).2 hj)
  cases this; rfl

theorem res_arg {c : Store} (D : DefsOk c) {o : OpRef} {b : BlockRef} {v : Value} (h : v ∈ c.results o)
    (h' : v ∈ c.args b) : False := by
  obtain ⟨i, hi⟩ := List.mem_iff_getElem?.1 h
  obtain ⟨j, hj⟩ := List.mem_iff_getElem?.1 h'
  have := ((D.res v o i).2 hi).symm.trans ((D.arg v b j).2 hj)
  cases this

theorem block_owner {c : Store} (L : LinksOk c) {x y : OpRef} {r r' : RegionRef} {b : BlockRef}
    (hr : r ∈ c.regionsOf x) (hb : b ∈ c.blocksOf r) (hr' : r' ∈ c.regionsOf y) (hb' : b ∈ c.blocksOf r') :
    r = r' ∧ x = y := by
  have e2 := ((L.block.iff b r).2 hb).symm.trans ((L.block.iff b r').2 hb')
  cases e2
  have e3 := ((L.region.iff r x).2 hr).symm.trans ((L.region.iff r y).2 hr')
  cases e3
  exact ⟨rfl, rfl⟩

theorem defAt_unique {c : Store} (D : DefsOk c) (L : LinksOk c) {x y : OpRef} {v : Value}
    (h : DefAt c x v) (h' : DefAt c y v) : x = y := by
  rcases h with h | ⟨r, hr, b, hb, h⟩
  · rcases h' with h' | ⟨r', hr', b', hb', h'⟩
    · exact res_unique D h h'
    · exact (res_arg D h h').elim
  · rcases h' with h' | ⟨r', hr', b', hb', h'⟩
    · exact (res_arg D h' h).elim
    · have := arg_unique D h h'; subst this
      exact (block_owner L hr hb hr' hb').2

theorem DefsOk.results_nodup {c : Store} (H : DefsOk c) (o : OpRef) : (c.results o).Nodup := by
  rw [List.nodup_iff_getElem?_ne_getElem?]
  intro i j hij hj e
  rw [List.getElem?_eq_getElem hj] at e
  have h1 := (H.res _ o i).2 e
  have h2 := (H.res _ o j).2 (List.getElem?_eq_getElem hj)
  rw [h1] at h2
  simp only [Option.some.injEq, Def.opResult.injEq, true_and] at h2
  omega

/-! ## Nothing is read twice -/

def Once (a b : Ev) : Prop := (∀ v, b = .val v → a ≠ .val v) ∧ ∀ l, b = .block l → a ≠ .block l

section
variable {c : Store} (D : DefsOk c) (L : LinksOk c)
include D L

/-- Events of two operations directly in the same one. -/
theorem once_ops {n k : Nat} {p o o' : OpRef} (hn : Nested c k p) (h : Inside c p o) (h' : Inside c p o')
    (hne : o ≠ o') : ∀ x ∈ readOp c n o, ∀ y ∈ readOp c n o', Once x y := by
  intro x hx y hy
  refine ⟨fun v e e' => ?_, fun l e e' => ?_⟩
  · subst e e'
    obtain ⟨z, hz, h1⟩ := read_val hx
    obtain ⟨z', hz', h1'⟩ := read_val hy
    have := defAt_unique D L h1 h1'; subst this
    exact hne (apart L hn h h' hz hz')
  · subst e e'
    obtain ⟨z, hz, r, hr, hb⟩ := read_block hx
    obtain ⟨z', hz', r', hr', hb'⟩ := read_block hy
    have := (block_owner L hr hb hr' hb').2; subst this
    exact hne (apart L hn h h' hz hz')

/-- Header of a block against an operation. -/
theorem once_header {n k : Nat} {p o : OpRef} {r : RegionRef} {b : BlockRef} (hn : Nested c k p)
    (hr : r ∈ c.regionsOf p) (hb : b ∈ c.blocksOf r) (h : Inside c p o) :
    ∀ x ∈ Ev.block b :: (c.args b).map Ev.val, ∀ y ∈ readOp c n o, Once x y ∧ Once y x := by
  have key : ∀ x ∈ Ev.block b :: (c.args b).map Ev.val, ∀ y ∈ readOp c n o,
      (∀ v, x = .val v → y = .val v → False) ∧ (∀ l, x = .block l → y = .block l → False) := by
    intro x hx y hy
    refine ⟨fun v e e' => ?_, fun l e e' => ?_⟩
    · subst e e'
      simp only [List.mem_cons, reduceCtorEq, false_or, List.mem_map, Ev.val.injEq, exists_eq_right] at hx
      obtain ⟨z, hz, h1⟩ := read_val hy
      have : z = p := defAt_unique D L h1 (.inr ⟨r, hr, b, hb, hx⟩)
      subst this
      exact acyclic hn h hz
    · subst e e'
      simp only [List.mem_cons, Ev.block.injEq, List.mem_map, reduceCtorEq, and_false, exists_false,
        or_false] at hx
      subst hx
      obtain ⟨z, hz, r', hr', hb'⟩ := read_block hy
      have := (block_owner L hr hb hr' hb').2; subst this
      exact acyclic hn h hz
  intro x hx y hy
  obtain ⟨k1, k2⟩ := key x hx y hy
  exact ⟨⟨fun v e e' => k1 v e' e, fun l e e' => k2 l e' e⟩, ⟨fun v e e' => k1 v e e', fun l e e' => k2 l e e'⟩⟩

/-- Headers of two blocks. -/
theorem once_headers {b b' : BlockRef} (hne : b ≠ b') : ∀ x ∈ Ev.block b :: (c.args b).map Ev.val,
    ∀ y ∈ Ev.block b' :: (c.args b').map Ev.val, Once x y := by
  intro x hx y hy
  refine ⟨fun v e e' => ?_, fun l e e' => ?_⟩
  · subst e e'
    simp only [List.mem_cons, reduceCtorEq, false_or, List.mem_map, Ev.val.injEq, exists_eq_right] at hx hy
    exact hne (arg_unique D hx hy)
  · subst e e'
    simp only [List.mem_cons, Ev.block.injEq, List.mem_map, reduceCtorEq, and_false, exists_false,
      or_false] at hx hy
    subst hx; exact hne hy

theorem vals_once {vs : List Value} (h : vs.Nodup) : (vs.map Ev.val).Pairwise Once := by
  rw [List.pairwise_map]
  refine h.imp fun hab => ⟨fun v e e' => ?_, fun l e _ => by cases e⟩
  cases e; cases e'; exact hab rfl

theorem header_once (b : BlockRef) : (Ev.block b :: (c.args b).map Ev.val).Pairwise Once := by
  refine List.pairwise_cons.2 ⟨fun y hy => ?_, vals_once D L (D.args_nodup b)⟩
  obtain ⟨v, -, rfl⟩ := List.mem_map.1 hy
  exact ⟨fun w _ e => (by cases e), fun l e => (by cases e)⟩

/-- An event of a region comes from a header or from an operation directly in it. -/
theorem mem_region {f : OpRef → List Ev} {r : RegionRef} {x : Ev} (h : x ∈ readRegion c f r) :
    ∃ b ∈ c.blocksOf r, x ∈ (Ev.block b :: (c.args b).map Ev.val) ∨ ∃ o ∈ c.opsOf b, x ∈ f o := by
  unfold readRegion at h
  rcases List.mem_append.1 h with h | h
  · obtain ⟨b, hb, h⟩ := List.mem_flatMap.1 h
    exact ⟨b, hb, .inl h⟩
  · obtain ⟨b, hb, h⟩ := List.mem_flatMap.1 h
    obtain ⟨o, ho, h⟩ := List.mem_flatMap.1 h
    exact ⟨b, hb, .inr ⟨o, ho, h⟩⟩

theorem op_block {b b' : BlockRef} {o : OpRef} (h : o ∈ c.opsOf b) (h' : o ∈ c.opsOf b') : b = b' := by
  have := ((L.op.iff o b).2 h).symm.trans ((L.op.iff o b').2 h')
  cases this; rfl

theorem region_once {n k : Nat} {p : OpRef} (hn : Nested c k p)
    (ih : ∀ o, Inside c p o → (readOp c n o).Pairwise Once) {r : RegionRef} (hr : r ∈ c.regionsOf p) :
    (readRegion c (readOp c n) r).Pairwise Once := by
  unfold readRegion
  rw [List.pairwise_append]
  refine ⟨?_, ?_, ?_⟩
  · rw [List.pairwise_flatMap]
    exact ⟨fun b _ => header_once D L b, (L.block.nodup r).imp fun hne => once_headers D L hne⟩
  · rw [List.pairwise_flatMap]
    refine ⟨fun b hb => ?_, ?_⟩
    · rw [List.pairwise_flatMap]
      refine ⟨fun o ho => ih o ⟨r, hr, b, hb, ho⟩, ?_⟩
      refine List.Pairwise.imp_of_mem (fun {o o'} ho ho' hne => ?_) (L.op.nodup b)
      exact once_ops D L hn ⟨r, hr, b, hb, ho⟩ ⟨r, hr, b, hb, ho'⟩ hne
    · refine List.Pairwise.imp_of_mem (fun {b b'} hb hb' hne => ?_) (L.block.nodup r)
      intro x hx y hy
      obtain ⟨o, ho, hx⟩ := List.mem_flatMap.1 hx
      obtain ⟨o', ho', hy⟩ := List.mem_flatMap.1 hy
      exact once_ops D L hn ⟨r, hr, b, hb, ho⟩ ⟨r, hr, b', hb', ho'⟩
        (fun e => hne (by subst e; exact op_block D L ho ho')) x hx y hy
  · intro x hx y hy
    obtain ⟨b, hb, hx⟩ := List.mem_flatMap.1 hx
    obtain ⟨b', hb', hy⟩ := List.mem_flatMap.1 hy
    obtain ⟨o', ho', hy⟩ := List.mem_flatMap.1 hy
    exact (once_header D L hn hr hb ⟨r, hr, b', hb', ho'⟩ x hx y hy).1

theorem op_once : ∀ {n : Nat} {p : OpRef}, Nested c n p → (readOp c n p).Pairwise Once := by
  intro n
  induction n with
  | zero => intro p h; exact h.elim
  | succ n ih =>
    intro p hn
    have hin : ∀ o, Inside c p o → (readOp c n o).Pairwise Once := fun o h => ih (hn.inside h)
    unfold readOp
    rw [List.pairwise_append, List.pairwise_append, List.pairwise_append]
    have huse : ∀ (vs : List Value) (y : Ev), ∀ x ∈ vs.map Ev.use, Once x y := by
      intro vs y x hx
      obtain ⟨v, -, rfl⟩ := List.mem_map.1 hx
      exact ⟨fun w _ e => (by cases e), fun l _ e => (by cases e)⟩
    have hjump : ∀ (vs : List BlockRef) (y : Ev), ∀ x ∈ vs.map Ev.jump, Once x y ∧ Once y x := by
      intro vs y x hx
      obtain ⟨v, -, rfl⟩ := List.mem_map.1 hx
      exact ⟨⟨fun w _ e => (by cases e), fun l _ e => (by cases e)⟩,
        ⟨fun w e => (by cases e), fun l e => (by cases e)⟩⟩
    refine ⟨⟨⟨?_, ?_, fun x hx y _ => huse _ y x hx⟩, ?_, fun x _ y hy => (hjump _ x y hy).2⟩,
      vals_once D L (D.results_nodup p), ?_⟩
    · refine List.Pairwise.imp_of_mem (fun {x y} hx _ _ => huse _ y x hx)
        (List.pairwise_of_forall (R := fun _ _ => True) (fun _ _ => trivial))
    · rw [List.pairwise_flatMap]
      refine ⟨fun r hr => region_once D L hn hin hr, ?_⟩
      refine List.Pairwise.imp_of_mem (fun {r r'} hr hr' hne => ?_) (L.region.nodup p)
      intro x hx y hy
      obtain ⟨b, hb, hx⟩ := mem_region D L hx
      obtain ⟨b', hb', hy⟩ := mem_region D L hy
      have hbb : b ≠ b' := fun e => hne (by subst e; exact (block_owner L hr hb hr' hb').1)
      rcases hx with hx | ⟨o, ho, hx⟩
      · rcases hy with hy | ⟨o', ho', hy⟩
        · exact once_headers D L hbb x hx y hy
        · exact (once_header D L hn hr hb ⟨r', hr', b', hb', ho'⟩ x hx y hy).1
      · rcases hy with hy | ⟨o', ho', hy⟩
        · exact (once_header D L hn hr' hb' ⟨r, hr, b, hb, ho⟩ y hy x hx).2
        · exact once_ops D L hn ⟨r, hr, b, hb, ho⟩ ⟨r', hr', b', hb', ho'⟩
            (fun e => hbb (by subst e; exact op_block D L ho ho')) x hx y hy
    · refine List.Pairwise.imp_of_mem (fun {x y} hx _ _ => (hjump _ y x hx).1)
        (List.pairwise_of_forall (R := fun _ _ => True) (fun _ _ => trivial))
    · intro x hx y hy
      obtain ⟨v, hv, rfl⟩ := List.mem_map.1 hy
      refine ⟨fun w e e' => ?_, fun l e => by cases e⟩
      cases e
      subst e'
      simp only [List.mem_append, List.mem_map, List.mem_flatMap, reduceCtorEq, and_false, exists_false,
        false_or, or_false] at hx
      obtain ⟨r, hr, hx⟩ := hx
      obtain ⟨b, hb, hx⟩ := mem_region D L hx
      rcases hx with hx | ⟨o, ho, hx⟩
      · simp only [List.mem_cons, reduceCtorEq, false_or, List.mem_map, Ev.val.injEq, exists_eq_right] at hx
        exact res_arg D hv hx
      · obtain ⟨z, hz, h1⟩ := read_val hx
        have : z = p := defAt_unique D L h1 (.inl hv)
        subst this
        exact acyclic hn ⟨r, hr, b, hb, ho⟩ hz

end

theorem strict_of {evs : List Ev} (h : InOrder evs) (h' : evs.Pairwise Once) : Strict evs :=
  (List.Pairwise.and h h').imp fun ⟨h1, h2⟩ =>
    ⟨fun v e => ⟨h1.1 v e, h2.1 v e⟩, fun l e => ⟨h1.2 l e, h2.2 l e⟩⟩

end Verif.IrStore
