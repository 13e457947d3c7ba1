import Verif.ListLower.Spec
import Verif.ScfToCf.Basics

/-! The lowering of one `list.head` or `list.tail`, run beside the function it was lowered in. -/

namespace Verif.ListLower

open Verif.ScfToCf

variable {I : Interp} {S : Site}

/-- How many operations of the list, not counting those within them, have the result. -/
def cntO (r : Value) (os : List Op) : Nat := os.countP (Op.isAt r)

def cntB (r : Value) : List Block → Nat
  | [] => 0
  | .mk _ _ os :: bs => cntO r os + cntB r bs

mutual
/-- What an operation must satisfy for the observation to be lowered. -/
def Op.fine (S : Site) : Op → Prop
  | .plain n as rs => (∀ v ∈ as, v < S.nextValue) ∧ (∀ v ∈ rs, v < S.nextValue) ∧
      (S.obs.res ∈ rs → as = [S.obs.list] ∧ rs = [S.obs.res] ∧ S.N.kind n = some (.observe S.obs.ty S.obs.tail))
  | .const _ v => v < S.nextValue ∧ v ≠ S.obs.res
  | .cmpEq x y v => (x < S.nextValue ∧ y < S.nextValue) ∧ v < S.nextValue ∧ v ≠ S.obs.res
  | .ite c rs t e => c < S.nextValue ∧ ((∀ v ∈ rs, v < S.nextValue) ∧ S.obs.res ∉ rs) ∧
      (cntB S.obs.res t ≤ 1 ∧ fineB S t) ∧ (cntB S.obs.res e ≤ 1 ∧ fineB S e)
  | .loop i rs b => (∀ v ∈ i, v < S.nextValue) ∧ ((∀ v ∈ rs, v < S.nextValue) ∧ S.obs.res ∉ rs) ∧
      (cntB S.obs.res b ≤ 1 ∧ fineB S b)
  | .switch d rs cs => d < S.nextValue ∧ ((∀ v ∈ rs, v < S.nextValue) ∧ S.obs.res ∉ rs) ∧ fineC S cs
  | .yield vs => ∀ v ∈ vs, v < S.nextValue
  | .cont vs => ∀ v ∈ vs, v < S.nextValue
  | .brk v => v < S.nextValue
  | .br as l => (∀ v ∈ as, v < S.nextValue) ∧ l < S.nextLabel
  | .condBr c t e => c < S.nextValue ∧ t < S.nextLabel ∧ e < S.nextLabel
  | .exit _ as => ∀ v ∈ as, v < S.nextValue
def fineO (S : Site) : List Op → Prop
  | [] => True
  | o :: os => Op.fine S o ∧ fineO S os
def fineB (S : Site) : List Block → Prop
  | [] => True
  | .mk l ps os :: bs => l < S.nextLabel ∧ ((∀ v ∈ ps, v < S.nextValue) ∧ S.obs.res ∉ ps) ∧ fineO S os ∧ fineB S bs
def fineC (S : Site) : List Case → Prop
  | [] => True
  | .mk _ b :: cs => (cntB S.obs.res b ≤ 1 ∧ fineB S b) ∧ fineC S cs
end

/-- A region in which the observation can be lowered. -/
def Fine (S : Site) (bs : List Block) : Prop := cntB S.obs.res bs ≤ 1 ∧ fineB S bs

/-! ## Environments -/

def Agree (S : Site) (e e' : Env I) : Prop := ∀ v, v < S.nextValue → e' (S.ren v) = e v

theorem Agree.map {e e' : Env I} (h : Agree S e e') : ∀ {as : List Value}, (∀ v ∈ as, v < S.nextValue) →
    (as.map S.ren).map e' = as.map e
  | [], _ => rfl
  | a :: as, ha => by
    simp only [List.map_cons]
    rw [h a (ha a (by simp)), h.map (fun v hv => ha v (by simp [hv]))]

theorem Agree.set {e e' : Env I} (h : Agree S e e') {p : Value} (hp : p < S.nextValue) (hr : p ≠ S.obs.res) (a : I.V) :
    Agree S (fun v => if v = p then a else e v) (fun v => if v = p then a else e' v) := by
  intro v hv
  show (if S.ren v = p then a else e' (S.ren v)) = _
  rw [h v hv]
  by_cases hvr : v = S.obs.res
  · have h1 : S.ren v = S.nextValue := by simp [Site.ren, hvr, Site.arg]
    have h2 : S.ren v ≠ p := by rw [h1]; exact fun h => by rw [← h] at hp; exact Nat.lt_irrefl _ hp
    have h3 : v ≠ p := fun h => hr (h ▸ hvr)
    simp [h2, h3]
  · have h1 : S.ren v = v := by simp [Site.ren, hvr]
    rw [h1]

theorem Agree.bind {e e' : Env I} (h : Agree S e e') : ∀ {ps : List Value} (as : List I.V),
    (∀ v ∈ ps, v < S.nextValue) → S.obs.res ∉ ps → Agree S (bind e ps as) (ScfToCf.bind e' ps as)
  | [], _, _, _ => by simpa [ScfToCf.bind] using h
  | p :: ps, [], hp, hr => by
    rw [ScfToCf.bind, ScfToCf.bind]
    exact (h.set (hp p (by simp)) (fun h => hr (by simp [h])) _).bind [] (fun v hv => hp v (by simp [hv]))
      (fun h => hr (by simp [h]))
  | p :: ps, a :: as, hp, hr => by
    rw [ScfToCf.bind, ScfToCf.bind]
    exact (h.set (hp p (by simp)) (fun h => hr (by simp [h])) _).bind as (fun v hv => hp v (by simp [hv]))
      (fun h => hr (by simp [h]))

/-! ## Results -/

/-- The results of the function and of the lowered function. -/
def RR (S : Site) (x y : Res I) : Prop :=
  SameEnd S.N x.1 y.1 ∧ (∀ l vs, x.1 = .jump l vs → l < S.nextLabel) ∧ Agree S x.2.1 y.2.1 ∧ x.2.2 = y.2.2

/-- Two directions: what one finishes, the other finishes too. -/
structure Dir (S : Site) (P : Option (Res I) → Option (Res I) → Prop) : Prop where
  ret : ∀ {x y}, RR S x y → P (some x) (some y)
  none : P none none
  bind : ∀ {a b f g}, P a b → (∀ x y, RR S x y → P (f x) (g y)) → P (a.bind f) (b.bind g)

def Fwd (S : Site) (a b : Option (Res I)) : Prop := ∀ x, a = some x → ∃ y, b = some y ∧ RR S x y
def Bwd (S : Site) (a b : Option (Res I)) : Prop := ∀ y, b = some y → ∃ x, a = some x ∧ RR S x y

theorem fwd_dir : Dir (I := I) S (Fwd S) where
  ret := fun h x hx => by cases hx; exact ⟨_, rfl, h⟩
  none := fun x hx => by cases hx
  bind := by
    intro a b f g h1 h2 z hz
    obtain ⟨x, hx, hz⟩ := Option.bind_eq_some_iff.1 hz
    obtain ⟨y, hy, hr⟩ := h1 x hx
    obtain ⟨w, hw, hr⟩ := h2 x y hr z hz
    exact ⟨w, by rw [hy]; exact hw, hr⟩

theorem bwd_dir : Dir (I := I) S (Bwd S) where
  ret := fun h x hx => by cases hx; exact ⟨_, rfl, h⟩
  none := fun x hx => by cases hx
  bind := by
    intro a b f g h1 h2 z hz
    obtain ⟨y, hy, hz⟩ := Option.bind_eq_some_iff.1 hz
    obtain ⟨x, hx, hr⟩ := h1 y hy
    obtain ⟨w, hw, hr⟩ := h2 x y hr z hz
    exact ⟨w, by rw [hx]; exact hw, hr⟩

theorem sameEnd_cases {V : Type} {N : Names} {o o' : Out V} (h : SameEnd N o o') :
    o = o' ∨ ((o = .trap ∨ ∃ n vs, o = .exit n vs) ∧ (o' = .trap ∨ ∃ n vs, o' = .exit n vs)) := by
  rcases h with h | ⟨h, h'⟩
  · exact .inl h
  · refine .inr ⟨h.imp id (fun h => ⟨_, _, h⟩), h'.imp id (fun h => ⟨_, _, h⟩)⟩

/-- A function of results that leaves traps and exits alone keeps results alike if it does so for equal ends. -/
theorem same_step {P : Option (Res I) → Option (Res I) → Prop} (hP : Dir S P) {f g : Option (Res I) → Option (Res I)}
    (hf : f none = none) (hg : g none = none) (hft : ∀ e s, f (some (.trap, e, s)) = some (.trap, e, s))
    (hfe : ∀ n vs e s, f (some (.exit n vs, e, s)) = some (.exit n vs, e, s))
    (hgt : ∀ e s, g (some (.trap, e, s)) = some (.trap, e, s))
    (hge : ∀ n vs e s, g (some (.exit n vs, e, s)) = some (.exit n vs, e, s))
    (h : ∀ o e e' s, RR S (o, e, s) (o, e', s) → P (f (some (o, e, s))) (g (some (o, e', s))))
    {a b : Option (Res I)} (hab : P a b) : P (f a) (g b) := by
  have ea : f a = a.bind (fun x => f (some x)) := by cases a; exact hf; rfl
  have eb : g b = b.bind (fun x => g (some x)) := by cases b; exact hg; rfl
  rw [ea, eb]
  refine hP.bind hab ?_
  rintro ⟨o, e, s⟩ ⟨o', e', s'⟩ hr
  obtain ⟨h1, h2, h3, h4⟩ := hr
  simp only at h1 h2 h3 h4
  subst h4
  rcases sameEnd_cases h1 with h5 | ⟨h5, h6⟩
  · subst h5
    exact h o e e' s ⟨h1, h2, h3, rfl⟩
  · have hx : f (some (o, e, s)) = some (o, e, s) := by
      rcases h5 with h5 | ⟨n, vs, h5⟩ <;> subst h5
      · exact hft _ _
      · exact hfe _ _ _ _
    have hy : g (some (o', e', s)) = some (o', e', s) := by
      rcases h6 with h5 | ⟨n, vs, h5⟩ <;> subst h5
      · exact hgt _ _
      · exact hge _ _ _ _
    rw [hx, hy]
    exact hP.ret ⟨h1, h2, h3, rfl⟩

/-! ## Looking at the lowered blocks -/

theorem isAt_low (S : Site) (r : Value) (o : Op) : Op.isAt r (Op.low S o) = Op.isAt r o := by
  cases o <;> simp [Op.low, Op.isAt]

theorem splitObs_low (S : Site) : ∀ os, splitObs S.obs.res (lowO S os) =
    (splitObs S.obs.res os).map (fun x => (lowO S x.1, lowO S x.2))
  | [] => by rw [lowO, splitObs]; rfl
  | o :: os => by
    rw [lowO, splitObs, splitObs, isAt_low]
    by_cases h : Op.isAt S.obs.res o = true
    · simp [h, lowO]
    · simp only [h, if_false]
      rw [splitObs_low S os]
      cases splitObs S.obs.res os with
      | none => rfl
      | some x => simp [lowO]

theorem splitObs_none {r : Value} : ∀ {os : List Op}, splitObs r os = none → cntO r os = 0
  | [], _ => rfl
  | o :: os, h => by
    rw [splitObs] at h
    by_cases ho : Op.isAt r o = true
    · simp [ho] at h
    · simp only [ho, Bool.false_eq_true, if_false, Option.map_eq_none_iff] at h
      have := splitObs_none h
      simp only [cntO] at this ⊢
      rw [List.countP_cons_of_neg ho]; exact this

theorem splitObs_some {r : Value} : ∀ {os b a : List Op}, splitObs r os = some (b, a) →
    ∃ o, os = b ++ o :: a ∧ Op.isAt r o = true ∧ cntO r b = 0
  | [], _, _, h => by cases h
  | o :: os, b, a, h => by
    rw [splitObs] at h
    by_cases ho : Op.isAt r o = true
    · simp only [ho, if_true, Option.some.injEq, Prod.mk.injEq] at h
      obtain ⟨rfl, rfl⟩ := h
      exact ⟨o, rfl, ho, rfl⟩
    · simp only [ho, Bool.false_eq_true, if_false, Option.map_eq_some_iff] at h
      obtain ⟨⟨b', a'⟩, h1, h2⟩ := h
      simp only [Prod.mk.injEq] at h2
      obtain ⟨rfl, rfl⟩ := h2
      obtain ⟨o', h3, h4, h5⟩ := splitObs_some h1
      refine ⟨o', by rw [h3]; rfl, h4, ?_⟩
      simp only [cntO] at h5 ⊢
      rw [List.countP_cons_of_neg ho]; exact h5

theorem fineO_append {xs ys : List Op} : fineO S (xs ++ ys) ↔ fineO S xs ∧ fineO S ys := by
  induction xs with
  | nil => simp [fineO]
  | cons x xs ih => simp only [List.cons_append, fineO, ih, and_assoc]

/-- What a block becomes. -/
def lowBlock (S : Site) (l : Label) (ps : List Value) (os : List Op) : List Block :=
  match splitObs S.obs.res os with
  | some (b, a) => S.blocks l ps (lowO S b) (lowO S a)
  | none => [.mk l ps (lowO S os)]

theorem lowB_cons (l : Label) (ps : List Value) (os : List Op) (bs : List Block) :
    lowB S (.mk l ps os :: bs) = lowBlock S l ps os ++ lowB S bs := by
  rw [lowB, splitObs_low, lowBlock]
  cases splitObs S.obs.res os with
  | none => rfl
  | some x => rfl

theorem firstLabel_low : ∀ bs, firstLabel (lowB S bs) = firstLabel bs
  | [] => by rw [lowB]
  | .mk l ps os :: bs => by
    rw [lowB_cons, lowBlock]
    cases splitObs S.obs.res os with
    | none => rfl
    | some x => rfl

theorem lt_ne {a b k : Nat} (h : a < b) : a ≠ b + k := by omega

theorem mem_labels_low {l : Label} (hl : l < S.nextLabel) : ∀ bs,
    l ∈ (lowB S bs).map Block.label ↔ l ∈ bs.map Block.label
  | [] => by rw [lowB]
  | .mk b ps os :: bs => by
    rw [lowB_cons, List.map_append, List.mem_append, mem_labels_low hl bs, List.map_cons, List.mem_cons]
    refine or_congr ?_ Iff.rfl
    rw [lowBlock]
    cases splitObs S.obs.res os with
    | none => simp [Block.label]
    | some x =>
      simp only [Site.blocks, List.map_cons, List.map_nil, Block.label, List.mem_cons, List.not_mem_nil, or_false,
        Site.trapL, Site.projL, Site.contL]
      have h0 := lt_ne (k := 0) hl
      have h1 := lt_ne (k := 1) hl
      have h2 := lt_ne (k := 2) hl
      constructor
      · rintro (h | h | h | h)
        · exact h
        · exact absurd h h1
        · exact absurd h h2
        · exact absurd h h0
      · exact .inl

theorem findBlock_cons (l b : Label) (ps : List Value) (os : List Op) (bs : List Block) :
    findBlock l (.mk b ps os :: bs) = if b = l then some (.mk b ps os) else findBlock l bs := rfl

theorem findBlock_nil (l : Label) : findBlock l [] = none := rfl

theorem findBlock_append_none {l : Label} {ys : List Block} : ∀ {xs : List Block}, findBlock l xs = none →
    findBlock l (xs ++ ys) = findBlock l ys
  | [], _ => rfl
  | x :: xs, h => by
    rw [findBlock] at h
    split at h
    · cases h
    · rename_i hx
      rw [List.cons_append, findBlock, if_neg hx]
      exact findBlock_append_none h

theorem findBlock_append_some {l : Label} {ys : List Block} {b : Block} : ∀ {xs : List Block}, findBlock l xs = some b →
    findBlock l (xs ++ ys) = some b
  | [], h => by cases h
  | x :: xs, h => by
    rw [findBlock] at h
    rw [List.cons_append, findBlock]
    split at h
    · rename_i hx; rw [if_pos hx]; exact h
    · rename_i hx; rw [if_neg hx]; exact findBlock_append_some h

theorem findBlock_block_old {l b : Label} {ps : List Value} {os : List Op} (hl : l < S.nextLabel) :
    findBlock l (lowBlock S b ps os) = if b = l then (lowBlock S b ps os).head? else none := by
  rw [lowBlock]
  cases splitObs S.obs.res os with
  | none => rw [findBlock_cons, findBlock_nil]; rfl
  | some x =>
    have h0 := (lt_ne (k := 0) hl).symm
    have h1 := (lt_ne (k := 1) hl).symm
    have h2 := (lt_ne (k := 2) hl).symm
    have h0' : S.nextLabel ≠ l := h0
    simp only [Site.blocks, findBlock_cons, findBlock_nil, Site.trapL, Site.projL, Site.contL, List.head?_cons]
    rw [if_neg h1, if_neg h2, if_neg h0']

theorem findBlock_low {l : Label} (hl : l < S.nextLabel) : ∀ bs,
    findBlock l (lowB S bs) = (findBlock l bs).bind (fun b => match b with | .mk l ps os => (lowBlock S l ps os).head?)
  | [] => by rw [lowB]; rfl
  | .mk b ps os :: bs => by
    rw [lowB_cons, findBlock]
    by_cases hb : b = l
    · subst hb
      have h1 := findBlock_block_old (S := S) (b := b) (ps := ps) (os := os) hl
      rw [if_pos rfl] at h1
      simp only [Block.label, if_true, Option.bind_some]
      cases hh : (lowBlock S b ps os).head? with
      | none =>
        exfalso
        rw [lowBlock] at hh
        cases hsp : splitObs S.obs.res os <;> rw [hsp] at hh <;> simp [Site.blocks] at hh
      | some x => rw [hh] at h1; exact findBlock_append_some h1
    · have h1 := findBlock_block_old (S := S) (b := b) (ps := ps) (os := os) hl
      rw [if_neg hb] at h1
      rw [findBlock_append_none h1, findBlock_low hl bs]
      simp [Block.label, hb]

/-- A block with no observation is found rewritten. -/
theorem find_plain {l : Label} (hl : l < S.nextLabel) {bs : List Block} {b : Label} {ps : List Value} {os : List Op}
    (hf : findBlock l bs = some (.mk b ps os)) (hs : splitObs S.obs.res os = none) :
    findBlock l (lowB S bs) = some (.mk b ps (lowO S os)) := by
  rw [findBlock_low hl, hf]; simp [lowBlock, hs]

theorem find_split {l : Label} (hl : l < S.nextLabel) {bs : List Block} {b : Label} {ps : List Value} {os x y : List Op}
    (hf : findBlock l bs = some (.mk b ps os)) (hs : splitObs S.obs.res os = some (x, y)) :
    findBlock l (lowB S bs) = some (.mk b ps (lowO S x ++ [.plain S.N.isNull [S.obs.list] [S.cond],
      .condBr S.cond S.trapL S.projL])) := by
  rw [findBlock_low hl, hf]; simp [lowBlock, hs, Site.blocks]

theorem findBlock_block_new {k : Nat} {b : Label} {ps : List Value} {os : List Op} (hb : b < S.nextLabel)
    (hs : splitObs S.obs.res os = none) : findBlock (S.nextLabel + k) (lowBlock S b ps os) = none := by
  have h : b ≠ S.nextLabel + k := lt_ne hb
  simp [lowBlock, hs, findBlock, Block.label, h]

theorem cnt_split {r : Value} {os b a : List Op} (h : splitObs r os = some (b, a)) : cntO r os = 1 + cntO r a := by
  obtain ⟨o, h1, h2, h3⟩ := splitObs_some h
  subst h1
  simp only [cntO] at h3 ⊢
  rw [List.countP_append, h3, List.countP_cons_of_pos h2]; omega

theorem cnt_none {r : Value} : ∀ {os : List Op}, cntO r os = 0 → splitObs r os = none
  | [], _ => rfl
  | o :: os, h => by
    simp only [cntO] at h
    by_cases ho : Op.isAt r o = true
    · rw [List.countP_cons_of_pos ho] at h; omega
    · rw [List.countP_cons_of_neg ho] at h
      rw [splitObs, if_neg ho, cnt_none h]; rfl

theorem new_none {k : Nat} : ∀ {bs : List Block}, fineB S bs → cntB S.obs.res bs = 0 →
    findBlock (S.nextLabel + k) (lowB S bs) = none
  | [], _, _ => by rw [lowB]; rfl
  | .mk b ps os :: bs, hf, hc => by
    rw [fineB] at hf
    rw [cntB] at hc
    rw [lowB_cons, findBlock_append_none (findBlock_block_new hf.1 (cnt_none (by omega)))]
    exact new_none hf.2.2.2 (by omega)

/-- The three new blocks are found in the region. -/
theorem find_new {l : Label} : ∀ {bs : List Block} {b : Label} {ps : List Value} {os x y : List Op}, Fine S bs →
    findBlock l bs = some (.mk b ps os) → splitObs S.obs.res os = some (x, y) →
    findBlock S.trapL (lowB S bs) = some (.mk S.trapL [] [.exit S.N.unreachable []]) ∧
    findBlock S.projL (lowB S bs) = some (.mk S.projL []
      [.plain (S.N.field S.obs.ty S.obs.tail) [S.obs.list] [S.proj], .br [S.proj] S.contL]) ∧
    findBlock S.contL (lowB S bs) = some (.mk S.contL [S.arg] (lowO S y))
  | [], _, _, _, _, _, _, h, _ => by cases h
  | .mk b' ps' os' :: bs, b, ps, os, x, y, hF, hf, hs => by
    obtain ⟨hc, hF⟩ := hF
    rw [fineB] at hF
    rw [cntB] at hc
    rw [findBlock] at hf
    rw [lowB_cons]
    by_cases hb : b' = l
    · simp only [Block.label, hb, if_true, Option.some.injEq, Block.mk.injEq] at hf
      obtain ⟨rfl, rfl, rfl⟩ := hf
      subst hb
      have h0 := lt_ne (k := 0) hF.1
      have h0' : b' ≠ S.nextLabel := h0
      have h1 := lt_ne (k := 1) hF.1
      have h2 := lt_ne (k := 2) hF.1
      have e1 : S.nextLabel + 1 ≠ S.nextLabel + 2 := by simp
      have e2 : S.nextLabel + 1 ≠ S.nextLabel := by simp
      have e3 : S.nextLabel + 2 ≠ S.nextLabel := by simp
      refine ⟨findBlock_append_some ?_, findBlock_append_some ?_, findBlock_append_some ?_⟩
      · simp only [lowBlock, hs, Site.blocks, findBlock_cons, Site.trapL, Site.projL, Site.contL]
        rw [if_neg h1, if_pos trivial]
      · simp only [lowBlock, hs, Site.blocks, findBlock_cons, Site.trapL, Site.projL, Site.contL]
        rw [if_neg h2, if_neg e1, if_pos trivial]
      · simp only [lowBlock, hs, Site.blocks, findBlock_cons, Site.trapL, Site.projL, Site.contL]
        rw [if_neg h0', if_neg e2, if_neg e3, if_pos trivial]
    · simp only [Block.label, hb, if_false] at hf
      have h1 : 1 ≤ cntB S.obs.res bs := by
        clear hc hF
        induction bs with
        | nil => cases hf
        | cons blk bs ih =>
          obtain ⟨b2, ps2, os2⟩ := blk
          rw [findBlock] at hf
          rw [cntB]
          by_cases hb2 : b2 = l
          · simp only [Block.label, hb2, if_true, Option.some.injEq, Block.mk.injEq] at hf
            obtain ⟨_, _, rfl⟩ := hf
            have := cnt_split hs
            omega
          · simp only [Block.label, hb2, if_false] at hf
            have := ih hf
            omega
      have hn : splitObs S.obs.res os' = none := cnt_none (by omega)
      obtain ⟨i1, i2, i3⟩ := find_new (bs := bs) ⟨by omega, hF.2.2.2⟩ hf hs
      refine ⟨?_, ?_, ?_⟩
      · refine (findBlock_append_none (findBlock_block_new (k := 1) hF.1 hn)).trans ?_; exact i1
      · refine (findBlock_append_none (findBlock_block_new (k := 2) hF.1 hn)).trans ?_; exact i2
      · refine (findBlock_append_none (findBlock_block_new (k := 0) hF.1 hn)).trans ?_; exact i3

/-! ## Operations that are not the observation -/

section
variable {P : Option (Res I) → Option (Res I) → Prop}

/-- The meanings of regions before and after the lowering go together. -/
def RunRel (S : Site) (P : Option (Res I) → Option (Res I) → Prop) (R R' : Runner I) : Prop :=
  ∀ bs l as e e' s, Fine S bs → l < S.nextLabel → Agree S e e' → P (R bs l as e s) (R' (lowB S bs) l as e' s)

theorem firstLabel_lt {bs : List Block} (h : fineB S bs) {l : Label} (hl : firstLabel bs = some l) : l < S.nextLabel := by
  cases bs with
  | nil => cases hl
  | cons b bs =>
    obtain ⟨l', ps, os⟩ := b
    rw [fineB] at h
    simp only [firstLabel, Block.label, Option.some.injEq] at hl
    subst hl; exact h.1

theorem rr_same {o : Out I.V} {e e' : Env I} {s : I.S} (ho : ∀ l vs, o = .jump l vs → l < S.nextLabel) (h : Agree S e e') :
    RR S (o, e, s) (o, e', s) := ⟨.inl rfl, ho, h, rfl⟩

theorem afterBranch_sim (hP : Dir S P) {res : List Value} (hr : ∀ v ∈ res, v < S.nextValue) (hn : S.obs.res ∉ res)
    {a b : Option (Res I)} (h : P a b) : P (afterBranch res a) (afterBranch res b) := by
  refine same_step hP (f := afterBranch res) (g := afterBranch res) rfl rfl (fun _ _ => rfl) (fun _ _ _ _ => rfl)
    (fun _ _ => rfl) (fun _ _ _ _ => rfl) ?_ h
  intro o e e' s hrr
  cases o <;> first | exact hP.ret hrr | skip
  exact hP.ret (rr_same (by simp) (hrr.2.2.1.bind _ hr hn))

theorem enter_sim (hP : Dir S P) {R R' : Runner I} (hR : RunRel S P R R') {bs : List Block} (hb : Fine S bs)
    (vs : List I.V) {e e' : Env I} (he : Agree S e e') (s : I.S) :
    P (enter R bs vs e s) (enter R' (lowB S bs) vs e' s) := by
  unfold enter
  rw [firstLabel_low]
  cases hf : firstLabel bs with
  | none => exact hP.ret (rr_same (by simp) he)
  | some l => exact hR _ _ _ _ _ _ hb (firstLabel_lt hb.2 hf) he

theorem iterate_sim (hP : Dir S P) {R R' : Runner I} (hR : RunRel S P R R') {body : List Block} (hb : Fine S body)
    {h : Label} (hh : h < S.nextLabel) {res : List Value} (hr : ∀ v ∈ res, v < S.nextValue) (hn : S.obs.res ∉ res) :
    ∀ (k : Nat) (vs : List I.V) {e e' : Env I}, Agree S e e' → ∀ s,
      P (iterate R body h res k vs e s) (iterate R' (lowB S body) h res k vs e' s)
  | 0, _, _, _, _, _ => hP.none
  | k + 1, vs, e, e', he, s => by
    rw [iterate_succ, iterate_succ]
    refine same_step hP (f := nextRound _ res) (g := nextRound _ res) rfl rfl (fun _ _ => rfl) (fun _ _ _ _ => rfl)
      (fun _ _ => rfl) (fun _ _ _ _ => rfl) ?_ (hR _ _ _ _ _ _ hb hh he)
    intro o e e' s hrr
    cases o <;> first | exact hP.ret hrr | skip
    · exact hP.ret (rr_same (by simp) hrr.2.2.1)
    · exact iterate_sim hP hR hb hh hr hn k _ hrr.2.2.1 s
    · exact hP.ret (rr_same (by simp) (hrr.2.2.1.bind _ hr hn))

theorem find_lowC (p : Case → Bool) (hp : ∀ v b, p (.mk v (lowB S b)) = p (.mk v b)) : ∀ cs,
    (lowC S cs).find? p = (cs.find? p).map (fun c => match c with | .mk v b => Case.mk v (lowB S b))
  | [] => by rw [lowC]; rfl
  | .mk v b :: cs => by
    rw [lowC, List.find?_cons, List.find?_cons, hp]
    cases p (.mk v b) with
    | true => rfl
    | false => exact find_lowC p hp cs

theorem reverse_lowC : ∀ cs, (lowC S cs).reverse.map id = (cs.map (fun c => match c with | .mk v b => Case.mk v (lowB S b))).reverse
  | [] => by rw [lowC]; rfl
  | .mk v b :: cs => by
    have := reverse_lowC cs
    simp only [List.map_id] at this
    rw [lowC]; simp [this]

theorem lowC_eq : ∀ cs, lowC S cs = cs.map (fun c => match c with | .mk v b => Case.mk v (lowB S b))
  | [] => by rw [lowC]; rfl
  | .mk v b :: cs => by rw [lowC, lowC_eq cs]; rfl

theorem choose_low (a : I.V) (cs : List Case) : choose a (lowC S cs) = (choose a cs).map (lowB S) := by
  unfold choose
  rw [lowC_eq, ← List.map_reverse]
  rw [List.find?_map, List.find?_map]
  have h1 : (Case.is a ∘ fun c => match c with | .mk v b => Case.mk v (lowB S b)) = Case.is (I := I) a := by
    funext c; obtain ⟨v, b⟩ := c; cases v <;> rfl
  have h2 : (Case.isDefault ∘ fun c => match c with | .mk v b => Case.mk v (lowB S b)) = Case.isDefault := by
    funext c; obtain ⟨v, b⟩ := c; cases v <;> rfl
  rw [h1, h2]
  rw [← Option.map_or]
  rw [Option.map_map, Option.map_map]
  congr 1
  funext c; obtain ⟨v, b⟩ := c; rfl

theorem choose_fine {a : I.V} {cs : List Case} (h : fineC S cs) {b : List Block} (hb : choose a cs = some b) : Fine S b := by
  unfold choose at hb
  rw [Option.map_eq_some_iff] at hb
  obtain ⟨c, hc, rfl⟩ := hb
  have hm : c ∈ cs := by
    rcases Option.or_eq_some_iff.1 hc with h | ⟨_, h⟩
    · exact List.mem_of_find?_eq_some h
    · exact List.mem_reverse.1 (List.mem_of_find?_eq_some h)
  clear hc
  induction cs with
  | nil => cases hm
  | cons x cs ih =>
    obtain ⟨v, b⟩ := x
    rw [fineC] at h
    rcases List.mem_cons.1 hm with rfl | hm
    · exact h.1
    · exact ih h.2 hm

theorem execOp_sim (hP : Dir S P) {R R' : Runner I} (hR : RunRel S P R R') (n : Nat) {o : Op} (ho : Op.fine S o)
    (hn : Op.isAt S.obs.res o = false) {e e' : Env I} (he : Agree S e e') (s : I.S) :
    P (execOp R n e s o) (execOp R' n e' s (Op.low S o)) := by
  cases o <;> simp only [Op.fine] at ho <;> simp only [Op.low, execOp]
  case plain name as rs =>
    rw [he.map ho.1]
    cases I.plain name (as.map e) s with
    | none => exact hP.ret (rr_same (by simp) he)
    | some x =>
      have : S.obs.res ∉ rs := by simpa [Op.isAt] using hn
      exact hP.ret (rr_same (by simp) (he.bind _ ho.2.1 this))
  case const a v => exact hP.ret (rr_same (by simp) (he.bind _ (by simpa using ho.1) (by simpa using Ne.symm ho.2)))
  case cmpEq x y v =>
    rw [he x ho.1.1, he y ho.1.2]
    exact hP.ret (rr_same (by simp) (he.bind _ (by simpa using ho.2.1) (by simpa using Ne.symm ho.2.2)))
  case ite c rs t el =>
    rw [he c ho.1]
    refine afterBranch_sim hP ho.2.1.1 ho.2.1.2 ?_
    cases I.truth (e c) with
    | true => exact enter_sim hP hR ho.2.2.1 _ he s
    | false => exact enter_sim hP hR ho.2.2.2 _ he s
  case loop i rs b =>
    rw [firstLabel_low, he.map ho.1]
    cases hf : firstLabel b with
    | none => exact hP.ret (rr_same (by simp) he)
    | some h => exact iterate_sim hP hR ho.2.2 (firstLabel_lt ho.2.2.2 hf) ho.2.1.1 ho.2.1.2 _ _ he s
  case switch d rs cs =>
    rw [he d ho.1, choose_low]
    cases hc : choose (e d) cs with
    | none => exact hP.ret (rr_same (by simp) (he.bind _ ho.2.1.1 ho.2.1.2))
    | some b => exact afterBranch_sim hP ho.2.1.1 ho.2.1.2 (enter_sim hP hR (choose_fine ho.2.2 hc) _ he s)
  case yield vs => rw [he.map ho]; exact hP.ret (rr_same (by simp) he)
  case cont vs => rw [he.map ho]; exact hP.ret (rr_same (by simp) he)
  case brk v => rw [he v ho]; exact hP.ret (rr_same (by simp) he)
  case br as l =>
    rw [he.map ho.1]
    exact hP.ret (rr_same (by rintro l' vs h; cases h; exact ho.2) he)
  case condBr c t el =>
    rw [he c ho.1]
    refine hP.ret (rr_same ?_ he)
    intro l' vs h
    simp only [Out.jump.injEq] at h
    rw [← h.1]
    split
    · exact ho.2.1
    · exact ho.2.2
  case exit n as => rw [he.map ho]; exact hP.ret (rr_same (by simp) he)

theorem exec_sim (hP : Dir S P) {R R' : Runner I} (hR : RunRel S P R R') (n : Nat) : ∀ {os : List Op}, fineO S os →
    cntO S.obs.res os = 0 → ∀ {e e' : Env I}, Agree S e e' → ∀ s, P (exec R n os e s) (exec R' n (lowO S os) e' s)
  | [], _, _, _, _, he, s => by rw [lowO]; exact hP.ret (rr_same (by simp) he)
  | o :: os, hf, hc, e, e', he, s => by
    rw [fineO] at hf
    have ho : Op.isAt S.obs.res o = false := by
      cases h : Op.isAt S.obs.res o with
      | false => rfl
      | true => simp only [cntO] at hc; rw [List.countP_cons_of_pos h] at hc; omega
    have hc' : cntO S.obs.res os = 0 := by
      simp only [cntO] at hc ⊢
      rw [List.countP_cons_of_neg (by simp [ho])] at hc; exact hc
    rw [lowO, exec_cons, exec_cons]
    refine same_step hP (f := fun r => seq r _) (g := fun r => seq r _) rfl rfl (fun _ _ => rfl) (fun _ _ _ _ => rfl)
      (fun _ _ => rfl) (fun _ _ _ _ => rfl) ?_ (execOp_sim hP hR n hf.1 ho he s)
    intro o e e' s hrr
    cases o <;> first | exact hP.ret hrr | skip
    exact exec_sim hP hR n hf.2 hc' hrr.2.2.1 s

theorem settle_sim (hP : Dir S P) {n m : Nat} (hR : RunRel S P (run n) (run m)) {bs : List Block} (hb : Fine S bs)
    {a b : Option (Res I)} (h : P a b) : P (settle n bs a) (settle m (lowB S bs) b) := by
  refine same_step hP (f := settle n bs) (g := settle m (lowB S bs)) rfl rfl (fun _ _ => rfl) (fun _ _ _ _ => rfl)
    (fun _ _ => rfl) (fun _ _ _ _ => rfl) ?_ h
  intro o e e' s hrr
  cases o <;> first | exact hP.ret hrr | skip
  · exact hP.ret (rr_same (by simp) hrr.2.2.1)
  · rename_i l vs
    have hl := hrr.2.1 l vs rfl
    simp only [settle, mem_labels_low hl]
    split
    · exact hR _ _ _ _ _ _ hb hl hrr.2.2.1
    · exact hP.ret hrr

end

/-! ## The observation itself -/

/-- What `list.head` and `list.tail` do, in terms of nodes. -/
theorem observe_eq {N : Names} {D : Nodes N I} (L : Lists D) {n ty : Nat} {f : Bool} (h : N.kind n = some (.observe ty f))
    (v : I.V) (s : I.S) : I.plain n [v] s = if v = D.null then none else some ([D.field v f], s) := by
  by_cases hv : ∃ xs, v = D.list xs
  · obtain ⟨xs, rfl⟩ := hv
    cases xs with
    | nil => rw [L.trap n ty f s h]; simp [Nodes.list]
    | cons x xs =>
      rw [if_neg (by rw [Nodes.list]; exact D.node_ne _ _)]
      cases f with
      | false => rw [L.head n ty x xs s h, Nodes.list, D.fieldElement]
      | true => rw [L.tail n ty x xs s h, Nodes.list, D.fieldRest]
  · rw [L.observeOther n ty f v s h (fun xs hx => hv ⟨xs, hx⟩), if_neg]
    exact fun hx => hv ⟨[], hx⟩

theorem ren_lt {v : Value} (hr : v ≠ S.obs.res) : S.ren v = v := by simp [Site.ren, hr]

theorem settle_mono {n n' : Nat} (h : n ≤ n') {bs : List Block} {a : Option (Res I)} {x : Res I}
    (hx : settle n bs a = some x) : settle n' bs a = some x := by
  rcases a with _ | ⟨o, e, s⟩
  · cases hx
  · cases o <;> first | exact hx | skip
    simp only [settle] at hx ⊢
    split
    · rename_i hm; rw [if_pos hm] at hx; exact run_mono h _ _ _ _ _ _ hx
    · rename_i hm; rw [if_neg hm] at hx; exact hx

/-- Running the two new operations and the new blocks. -/
theorem obs_step (D : Nodes S.N I) {bs : List Block} {l b : Label} {ps : List Value} {os x y : List Op} (hb : Fine S bs)
    (hf : findBlock l bs = some (.mk b ps os)) (hs : splitObs S.obs.res os = some (x, y)) (hlv : S.obs.list < S.nextValue)
    (hlr : S.obs.list ≠ S.obs.res) (k : Nat) {e e' : Env I} (he : Agree S e e') (s : I.S) :
    (e S.obs.list = D.null ∧ ∃ e1, Agree S e e1 ∧ settle (k + 2) (lowB S bs) (exec (run (k + 2)) (k + 2)
        [.plain S.N.isNull [S.obs.list] [S.cond], .condBr S.cond S.trapL S.projL] e' s) =
          some (.exit S.N.unreachable [], e1, s)) ∨
    (e S.obs.list ≠ D.null ∧ ∃ e3, Agree S (bind e [S.obs.res] [D.field (e S.obs.list) S.obs.tail]) e3 ∧
      settle (k + 2) (lowB S bs) (exec (run (k + 2)) (k + 2)
        [.plain S.N.isNull [S.obs.list] [S.cond], .condBr S.cond S.trapL S.projL] e' s) =
          settle k (lowB S bs) (exec (run k) k (lowO S y) e3 s)) := by
  obtain ⟨n1, n2, n3⟩ := find_new hb hf hs
  have hv : e' S.obs.list = e S.obs.list := by
    have := he S.obs.list hlv; rwa [ren_lt hlr] at this
  have hval : ∀ (v : Value), v < S.nextValue → S.ren v ≠ S.cond ∧ S.ren v ≠ S.proj := by
    intro v hv
    have hv' : (v : Nat) < S.nextValue := hv
    have a1 : v ≠ S.nextValue + 1 := lt_ne hv
    have a2 : v ≠ S.nextValue + 2 := lt_ne hv
    unfold Site.ren Site.cond Site.proj Site.arg
    split <;> simp [a1, a2]
  have m1 : ∀ (l : Label) (B : Block), findBlock l (lowB S bs) = some B → B.label = l → l ∈ (lowB S bs).map Block.label := by
    intro l B
    generalize lowB S bs = Bs
    induction Bs with
    | nil => intro h; cases h
    | cons B' Bs ih =>
      intro h hB
      rw [findBlock] at h
      split at h
      · rename_i hx; simp [hx]
      · simp only [List.map_cons, List.mem_cons]; exact .inr (ih h hB)
  have hc1 : Agree S e (fun v => if v = S.cond then D.bool (decide (e S.obs.list = D.null)) else e' v) := by
    intro v hv
    show (if S.ren v = S.cond then _ else _) = _
    rw [if_neg (hval v hv).1]; exact he v hv
  have hstep : settle (k + 2) (lowB S bs) (exec (run (k + 2)) (k + 2)
        [.plain S.N.isNull [S.obs.list] [S.cond], .condBr S.cond S.trapL S.projL] e' s) =
      run (k + 2) (lowB S bs) (if e S.obs.list = D.null then S.trapL else S.projL) []
        (fun v => if v = S.cond then D.bool (decide (e S.obs.list = D.null)) else e' v) s := by
    rw [exec_cons]
    simp only [execOp, List.map_cons, List.map_nil, D.opIsNull, hv, seq, ScfToCf.bind, exec, if_true, D.truth, settle]
    by_cases hnull : e S.obs.list = D.null
    · simp only [hnull, decide_true, if_true]
      rw [if_pos (m1 _ _ n1 rfl)]
    · simp only [hnull, decide_false, if_false, Bool.false_eq_true]
      rw [if_pos (m1 _ _ n2 rfl)]
  rw [hstep]
  by_cases hnull : e S.obs.list = D.null
  · refine .inl ⟨hnull, _, hc1, ?_⟩
    rw [if_pos hnull, run_succ _ _ _ _ _ _ n1]
    simp [ScfToCf.bind, exec, execOp, settle]
  · refine .inr ⟨hnull, bind (fun v => if v = S.proj then D.field (e S.obs.list) S.obs.tail else
        if v = S.cond then D.bool (decide (e S.obs.list = D.null)) else e' v) [S.arg]
          [D.field (e S.obs.list) S.obs.tail], ?_, ?_⟩
    · intro v hv
      simp only [ScfToCf.bind]
      by_cases hvr : v = S.obs.res
      · have h1 : S.ren v = S.arg := by simp [Site.ren, hvr]
        rw [h1]; simp [hvr]
      · have h1 : S.ren v = v := ren_lt hvr
        have h2 : v ≠ S.arg := fun h => by rw [h] at hv; exact Nat.lt_irrefl _ hv
        have h3 := hval v hv
        rw [h1] at h3 ⊢
        rw [if_neg h2, if_neg h3.2, if_neg h3.1, if_neg hvr]
        have := he v hv
        rwa [h1] at this
    · have hlc : S.obs.list ≠ S.cond := by
        have := (hval _ hlv).1
        rwa [ren_lt hlr] at this
      rw [if_neg hnull, run_succ _ _ _ _ _ _ n2]
      simp only [List.length_nil, Nat.lt_irrefl, if_false, ScfToCf.bind]
      rw [exec_cons]
      simp only [execOp, List.map_cons, List.map_nil, D.opField, if_neg hlc, hv, seq, ScfToCf.bind, exec, if_true, settle]
      rw [if_pos (m1 _ _ n3 rfl), run_succ _ _ _ _ _ _ n3]
      rfl

/-- The observation in the list of operations of its block. -/
theorem split_fine {os x y : List Op} (hf : fineO S os) (hc : cntO S.obs.res os ≤ 1)
    (hs : splitObs S.obs.res os = some (x, y)) : ∃ n, os = x ++ .plain n [S.obs.list] [S.obs.res] :: y ∧
      S.N.kind n = some (.observe S.obs.ty S.obs.tail) ∧ fineO S x ∧ fineO S y ∧ cntO S.obs.res x = 0 ∧
      cntO S.obs.res y = 0 ∧ S.obs.list < S.nextValue ∧ S.obs.res < S.nextValue := by
  obtain ⟨o, h1, h2, h3⟩ := splitObs_some hs
  have h4 := cnt_split hs
  subst h1
  rw [fineO_append, fineO] at hf
  cases o <;> simp only [Op.isAt, Bool.false_eq_true] at h2
  rename_i n as rs
  have hm : S.obs.res ∈ rs := by simpa using h2
  have hp := hf.2.1
  rw [Op.fine] at hp
  obtain ⟨ha, hr, hk⟩ := hp.2.2 hm
  subst ha hr
  exact ⟨n, rfl, hk, hf.1, hf.2.2, h3, by omega, hp.1 _ (by simp), hp.2.1 _ (by simp)⟩

theorem fine_find {bs : List Block} (hb : Fine S bs) {l b : Label} {ps : List Value} {os : List Op}
    (hf : findBlock l bs = some (.mk b ps os)) :
    ((∀ v ∈ ps, v < S.nextValue) ∧ S.obs.res ∉ ps) ∧ fineO S os ∧ cntO S.obs.res os ≤ 1 := by
  obtain ⟨hc, hb⟩ := hb
  induction bs with
  | nil => cases hf
  | cons B bs ih =>
    obtain ⟨b', ps', os'⟩ := B
    rw [fineB] at hb
    rw [cntB] at hc
    rw [findBlock] at hf
    split at hf
    · simp only [Option.some.injEq, Block.mk.injEq] at hf
      obtain ⟨_, rfl, rfl⟩ := hf
      exact ⟨hb.2.1, hb.2.2.1, by omega⟩
    · exact ih hf (by omega) hb.2.2.2

theorem seq_inv {a : Option (Res I)} {k : Env I → I.S → Option (Res I)} : (∃ e s, a = some (.fell, e, s)) ∨ seq a k = a := by
  rcases a with _ | ⟨o, e, s⟩
  · exact .inr rfl
  · cases o <;> first | exact .inr rfl | exact .inl ⟨_, _, rfl⟩

theorem rr_fell {e : Env I} {s : I.S} {y : Res I} (h : RR S (.fell, e, s) y) : ∃ e', y = (.fell, e', s) ∧ Agree S e e' := by
  obtain ⟨o, e', s'⟩ := y
  obtain ⟨h1, _, h3, h4⟩ := h
  simp only at h1 h3 h4
  subst h4
  rcases h1 with h1 | ⟨h1, _⟩
  · subst h1; exact ⟨e', rfl, h3⟩
  · rcases h1 with h1 | h1 <;> cases h1

theorem rr_fell' {e' : Env I} {s : I.S} {x : Res I} (h : RR S x (.fell, e', s)) : ∃ e, x = (.fell, e, s) ∧ Agree S e e' := by
  obtain ⟨o, e, s'⟩ := x
  obtain ⟨h1, _, h3, h4⟩ := h
  simp only at h1 h3 h4
  subst h4
  rcases h1 with h1 | ⟨_, h1⟩
  · subst h1; exact ⟨e, rfl, h3⟩
  · rcases h1 with h1 | h1 <;> cases h1

theorem execObs {N : Names} {D : Nodes N I} (L : Lists D) {n ty : Nat} {f : Bool} (h : N.kind n = some (.observe ty f))
    (R : Runner I) (m : Nat) (l r : Value) (e : Env I) (s : I.S) : execOp R m e s (.plain n [l] [r]) =
      if e l = D.null then some (.trap, e, s) else some (.fell, bind e [r] [D.field (e l) f], s) := by
  simp only [execOp, List.map_cons, List.map_nil]
  rw [observe_eq L h]
  by_cases hn : e l = D.null <;> simp [hn]

theorem sim_fwd (D : Nodes S.N I) (L : Lists D) (hlr : S.obs.list ≠ S.obs.res) : ∀ n,
    RunRel (I := I) S (Fwd S) (run n) (run (3 * n))
  | 0 => by intro bs l as e e' s _ _ _ x hx; cases hx
  | n + 1 => by
    intro bs l as e e' s hb hl he x hx
    have IH := sim_fwd D L hlr n
    show ∃ y, run (3 * n + 2 + 1) (lowB S bs) l as e' s = some y ∧ _
    cases hf : findBlock l bs with
    | none =>
      rw [run_none _ _ _ _ _ _ hf] at hx
      have hf' : findBlock l (lowB S bs) = none := by rw [findBlock_low hl, hf]; rfl
      rw [run_none _ _ _ _ _ _ hf']
      cases hx
      exact ⟨_, rfl, rr_same (by simp) he⟩
    | some B =>
      obtain ⟨b, ps, os⟩ := B
      obtain ⟨hps, hos, hcnt⟩ := fine_find hb hf
      rw [run_succ _ _ _ _ _ _ hf] at hx
      cases hs : splitObs S.obs.res os with
      | none =>
        rw [run_succ _ _ _ _ _ _ (find_plain hl hf hs)]
        by_cases hlen : ps.length < as.length
        · simp only [hlen, if_true] at hx ⊢
          cases hx
          exact ⟨_, rfl, rr_same (by simp) he⟩
        · simp only [hlen, if_false] at hx ⊢
          have h1 := exec_sim fwd_dir IH n hos (splitObs_none hs) (he.bind as hps.1 hps.2) s
          obtain ⟨y, hy, hr⟩ := settle_sim fwd_dir IH hb h1 x hx
          refine ⟨y, ?_, hr⟩
          have h2 := settle_mono (n' := 3 * n + 2) (by omega) hy
          cases h3 : exec (run (3 * n)) n (lowO S os) (bind e' ps as) s with
          | none => rw [h3] at h2; cases h2
          | some z =>
            rw [exec_mono (run_mono (by omega)) (by omega) _ _ _ _ h3, ← h3]; exact h2
      | some p =>
        obtain ⟨X, Y⟩ := p
        obtain ⟨nm, hose, hk, hX, hY, hcX, hcY, hlv, hrv⟩ := split_fine hos hcnt hs
        rw [run_succ _ _ _ _ _ _ (find_split hl hf hs)]
        by_cases hlen : ps.length < as.length
        · simp only [hlen, if_true] at hx ⊢
          cases hx
          exact ⟨_, rfl, rr_same (by simp) he⟩
        · simp only [hlen, if_false] at hx ⊢
          rw [hose, exec_append] at hx
          rw [exec_append]
          have h1 := exec_sim fwd_dir IH n hX hcX (he.bind as hps.1 hps.2) s
          cases h2 : exec (run n) n X (bind e ps as) s with
          | none => rw [h2] at hx; cases hx
          | some z =>
            obtain ⟨y, hy, hr⟩ := h1 z h2
            rw [exec_mono (run_mono (show 3 * n ≤ 3 * n + 2 by omega)) (show n ≤ 3 * n + 2 by omega) _ _ _ _ hy]
            rw [h2] at hx
            by_cases hz : z.1 = .fell
            · obtain ⟨zo, e1, s1⟩ := z
              simp only at hz
              subst hz
              obtain ⟨e1', rfl, ha⟩ := rr_fell hr
              simp only [seq] at hx ⊢
              rw [exec_cons, execObs L hk] at hx
              rcases obs_step D hb hf hs hlv hlr (3 * n) ha s1 with ⟨hn, e2, ha2, heq⟩ | ⟨hn, e3, ha3, heq⟩
              · rw [if_pos hn] at hx
                cases hx
                exact ⟨_, heq, .inr ⟨.inl rfl, .inr rfl⟩, by simp, ha2, rfl⟩
              · rw [if_neg hn] at hx
                simp only [seq] at hx
                rw [heq]
                have h4 := exec_sim fwd_dir IH n hY hcY ha3 s1
                obtain ⟨w, hw, hr⟩ := settle_sim fwd_dir IH hb h4 x hx
                refine ⟨w, ?_, hr⟩
                cases h5 : exec (run (3 * n)) n (lowO S Y) e3 s1 with
                | none => rw [h5] at hw; cases hw
                | some q =>
                  rw [exec_mono (fun _ _ _ _ _ _ h => h) (show n ≤ 3 * n by omega) _ _ _ _ h5, ← h5]; exact hw
            · have h6 : ∀ k, seq (some z) k = some z := by
                intro k
                rcases seq_inv (a := some z) (k := k) with ⟨e, s, h⟩ | h
                · rw [Option.some.injEq] at h; rw [h] at hz; exact absurd rfl hz
                · exact h
              have h7 : y.1 ≠ .fell := by
                intro h
                obtain ⟨yo, ye, ys⟩ := y
                simp only at h
                subst h
                obtain ⟨_, h8, _⟩ := rr_fell' hr
                rw [h8] at hz; exact hz rfl
              have h9 : ∀ k, seq (some y) k = some y := by
                intro k
                rcases seq_inv (a := some y) (k := k) with ⟨e, s, h⟩ | h
                · rw [Option.some.injEq] at h; rw [h] at h7; exact absurd rfl h7
                · exact h
              rw [h6] at hx
              rw [h9]
              obtain ⟨w, hw, hr⟩ := settle_sim fwd_dir IH hb (fwd_dir.ret hr) x hx
              exact ⟨w, settle_mono (by omega) hw, hr⟩

theorem sim_bwd (D : Nodes S.N I) (L : Lists D) (hlr : S.obs.list ≠ S.obs.res) : ∀ n,
    RunRel (I := I) S (Bwd S) (run n) (run n)
  | 0 => by intro bs l as e e' s _ _ _ x hx; cases hx
  | n + 1 => by
    intro bs l as e e' s hb hl he x hx
    have IH := sim_bwd D L hlr n
    cases hf : findBlock l bs with
    | none =>
      have hf' : findBlock l (lowB S bs) = none := by rw [findBlock_low hl, hf]; rfl
      rw [run_none _ _ _ _ _ _ hf'] at hx
      rw [run_none _ _ _ _ _ _ hf]
      cases hx
      exact ⟨_, rfl, rr_same (by simp) he⟩
    | some B =>
      obtain ⟨b, ps, os⟩ := B
      obtain ⟨hps, hos, hcnt⟩ := fine_find hb hf
      rw [run_succ _ _ _ _ _ _ hf]
      cases hs : splitObs S.obs.res os with
      | none =>
        rw [run_succ _ _ _ _ _ _ (find_plain hl hf hs)] at hx
        by_cases hlen : ps.length < as.length
        · simp only [hlen, if_true] at hx ⊢
          cases hx
          exact ⟨_, rfl, rr_same (by simp) he⟩
        · simp only [hlen, if_false] at hx ⊢
          have h1 := exec_sim bwd_dir IH n hos (splitObs_none hs) (he.bind as hps.1 hps.2) s
          exact settle_sim bwd_dir IH hb h1 x hx
      | some p =>
        obtain ⟨X, Y⟩ := p
        obtain ⟨nm, hose, hk, hX, hY, hcX, hcY, hlv, hrv⟩ := split_fine hos hcnt hs
        rw [run_succ _ _ _ _ _ _ (find_split hl hf hs)] at hx
        by_cases hlen : ps.length < as.length
        · simp only [hlen, if_true] at hx ⊢
          cases hx
          exact ⟨_, rfl, rr_same (by simp) he⟩
        · simp only [hlen, if_false] at hx ⊢
          rw [exec_append] at hx
          rw [hose, exec_append]
          have h1 := exec_sim bwd_dir IH n hX hcX (he.bind as hps.1 hps.2) s
          cases h2 : exec (run n) n (lowO S X) (bind e' ps as) s with
          | none => rw [h2] at hx; cases hx
          | some z =>
            obtain ⟨y, hy, hr⟩ := h1 z h2
            rw [hy]
            rw [h2] at hx
            by_cases hz : z.1 = .fell
            · obtain ⟨zo, e1', s1⟩ := z
              simp only at hz
              subst hz
              obtain ⟨e1, rfl, ha⟩ := rr_fell' hr
              simp only [seq] at hx ⊢
              rw [exec_cons, execObs L hk]
              have hx2 : settle (n + 2) (lowB S bs) (exec (run (n + 2)) (n + 2)
                  [.plain S.N.isNull [S.obs.list] [S.cond], .condBr S.cond S.trapL S.projL] e1' s1) = some x := by
                have hx1 := settle_mono (n' := n + 2) (by omega) hx
                cases h5 : exec (run n) n [.plain S.N.isNull [S.obs.list] [S.cond], .condBr S.cond S.trapL S.projL] e1' s1 with
                | none => rw [h5] at hx1; cases hx1
                | some q =>
                  rw [exec_mono (run_mono (by omega)) (show n ≤ n + 2 by omega) _ _ _ _ h5, ← h5]; exact hx1
              rcases obs_step D hb hf hs hlv hlr n ha s1 with ⟨hn, e2, ha2, heq⟩ | ⟨hn, e3, ha3, heq⟩
              · rw [if_pos hn]
                rw [heq] at hx2
                cases hx2
                exact ⟨_, rfl, .inr ⟨.inl rfl, .inr rfl⟩, by simp, ha2, rfl⟩
              · rw [if_neg hn]
                simp only [seq]
                rw [heq] at hx2
                have h4 := exec_sim bwd_dir IH n hY hcY ha3 s1
                exact settle_sim bwd_dir IH hb h4 x hx2
            · have h6 : ∀ k, seq (some z) k = some z := by
                intro k
                rcases seq_inv (a := some z) (k := k) with ⟨e, s, h⟩ | h
                · rw [Option.some.injEq] at h; rw [h] at hz; exact absurd rfl hz
                · exact h
              have h7 : y.1 ≠ .fell := by
                intro h
                obtain ⟨yo, ye, ys⟩ := y
                simp only at h
                subst h
                obtain ⟨_, h8, _⟩ := rr_fell hr
                rw [h8] at hz; exact hz rfl
              have h9 : ∀ k, seq (some y) k = some y := by
                intro k
                rcases seq_inv (a := some y) (k := k) with ⟨e, s, h⟩ | h
                · rw [Option.some.injEq] at h; rw [h] at h7; exact absurd rfl h7
                · exact h
              rw [h6] at hx
              rw [h9]
              exact settle_sim bwd_dir IH hb (bwd_dir.ret hr) x hx

end Verif.ListLower
