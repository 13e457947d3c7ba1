import Verif.ScfToCf.Names

/-
Yields, continues and breaks replaced by branches: the region ends with the branch where it ended with
the other.
-/
namespace Verif.ScfToCf

variable {I : Interp}

/-- An end with the way of ending mapped. -/
def Res.out (g : Out I.V → Out I.V) (x : Res I) : Res I := (g x.1, x.2.1, x.2.2)

/-! ## Yields -/

/-- A yield becomes a branch, in place. -/
def redirY (m : Label) (k : Nat) : Op → Op
  | .yield vs => .br (vs.take k) m
  | .plain n as rs => .plain n as rs
  | .const a v => .const a v
  | .cmpEq a b v => .cmpEq a b v
  | .ite c rs t e => .ite c rs t e
  | .loop i rs b => .loop i rs b
  | .switch d rs cs => .switch d rs cs
  | .cont vs => .cont vs
  | .brk v => .brk v
  | .br as l => .br as l
  | .condBr c t e => .condBr c t e
  | .exit n as => .exit n as

def redirYBlk (m : Label) (k : Nat) : Block → Block
  | .mk l ps os => .mk l ps (os.map (redirY m k))

theorem replaceYieldO_eq (m : Label) (k : Nat) (os : List Op) (h : tidyO os) :
    os.filter (fun o => !o.isYield) ++ os.filterMap (yieldBr m k) = os.map (redirY m k) := by
  induction os with
  | nil => rfl
  | cons o os ih =>
    obtain ⟨h1, h2, h3⟩ := h
    cases o
    case yield vs =>
      rw [h2 rfl]
      simp [Op.isYield, yieldBr, redirY]
    all_goals
      rw [List.filter_cons_of_pos rfl, List.filterMap_cons_none rfl, List.map_cons,
        List.cons_append, ih h3]
      rfl

theorem replaceYield_eq (m : Label) (k : Nat) (bs : List Block) (h : tidyB bs) :
    replaceYield m k bs = bs.map (redirYBlk m k) := by
  induction bs with
  | nil => rfl
  | cons b bs ih =>
    obtain ⟨l, ps, os⟩ := b
    obtain ⟨h1, h2⟩ := h
    have := ih h2
    unfold replaceYield at this ⊢
    simp only [List.map_cons, redirYBlk, this, replaceYieldO_eq m k os h1]

/-- What a yield becomes. -/
def outY (m : Label) (k : Nat) : Out I.V → Out I.V
  | .yield vs => .jump m (vs.take k)
  | .fell => .fell
  | .exit n vs => .exit n vs
  | .cont vs => .cont vs
  | .brk v => .brk v
  | .jump l vs => .jump l vs
  | .trap => .trap
  | .stuck => .stuck

theorem execOp_redirY (r : Runner I) (n : Nat) (m : Label) (k : Nat) (e : Env I) (s : I.S) (o : Op) :
    execOp r n e s (redirY m k o) = (execOp r n e s o).map (Res.out (outY m k)) := by
  by_cases hy : ∃ vs, o = .yield vs
  · obtain ⟨vs, rfl⟩ := hy
    simp [redirY, execOp, Res.out, outY, List.map_take]
  · have h1 : redirY m k o = o := by
      cases o <;> first | rfl | exact absurd ⟨_, rfl⟩ hy
    rw [h1]
    cases hx : execOp r n e s o with
    | none => rfl
    | some y =>
      obtain ⟨o1, e1, s1⟩ := y
      cases o1 <;> first | rfl | exact absurd (execOp_yield hx) hy

theorem exec_redirY (r : Runner I) (n : Nat) (m : Label) (k : Nat) (os : List Op) :
    ∀ (e : Env I) (s : I.S), exec r n (os.map (redirY m k)) e s =
      (exec r n os e s).map (Res.out (outY m k)) := by
  induction os with
  | nil => intro e s; rfl
  | cons o os ih =>
    intro e s
    rw [List.map_cons, exec_cons, exec_cons, execOp_redirY]
    rcases execOp r n e s o with _ | ⟨o, e, s⟩
    · rfl
    · cases o <;> simp only [Option.map_some, Res.out, outY, seq]
      exact ih e s

theorem redirY_labels (m : Label) (k : Nat) (bs : List Block) :
    (bs.map (redirYBlk m k)).map Block.label = bs.map Block.label := by
  induction bs with
  | nil => rfl
  | cons b bs ih =>
    obtain ⟨l, ps, os⟩ := b
    simp only [List.map_cons, redirYBlk, Block.label]
    rw [ih]

theorem redirY_find (m : Label) (k : Nat) (l : Label) (bs : List Block) :
    findBlock l (bs.map (redirYBlk m k)) = (findBlock l bs).map (redirYBlk m k) := by
  induction bs with
  | nil => rfl
  | cons b bs ih =>
    obtain ⟨l', ps, os⟩ := b
    simp only [List.map_cons, redirYBlk, findBlock, Block.label]
    by_cases h : l' = l
    · simp [h, redirYBlk]
    · simp [h, ih]

/-! ## Continues and breaks -/

mutual
/-- A continue or break becomes a branch, in place. -/
def Op.redirC (h x : Label) (k : Nat) : Op → Op
  | .cont vs => .br vs h
  | .brk v => .br (if k ≠ 0 then [v] else []) x
  | .ite c rs t e => .ite c rs (redirCB h x k t) (redirCB h x k e)
  | .switch d rs cs => .switch d rs (redirCC h x k cs)
  | .yield vs => .yield vs
  | .plain n as rs => .plain n as rs
  | .const a v => .const a v
  | .cmpEq a b v => .cmpEq a b v
  | .loop i rs b => .loop i rs b
  | .br as l => .br as l
  | .condBr c t e => .condBr c t e
  | .exit n as => .exit n as
def redirCO (h x : Label) (k : Nat) : List Op → List Op
  | [] => []
  | o :: os => o.redirC h x k :: redirCO h x k os
def redirCB (h x : Label) (k : Nat) : List Block → List Block
  | [] => []
  | .mk l ps os :: bs => .mk l ps (redirCO h x k os) :: redirCB h x k bs
def redirCC (h x : Label) (k : Nat) : List Case → List Case
  | [] => []
  | .mk v b :: cs => .mk v (redirCB h x k b) :: redirCC h x k cs
end

mutual
theorem replaceCB_op (h x : Label) (k : Nat) : ∀ (o : Op), o.tidy → o.isTerm = false →
    o.replaceCB h x k = o.redirC h x k
  | .ite c rs t e, ht, _ => by
    obtain ⟨_, _, _, h1, h2⟩ := ht
    simp only [Op.replaceCB, Op.redirC, replaceCB_blocks h x k t h1, replaceCB_blocks h x k e h2]
  | .switch d rs cs, ht, _ => by
    simp only [Op.replaceCB, Op.redirC, replaceCB_cases h x k cs ht.2]
  | .loop .., _, _ => rfl
  | .plain .., _, _ => rfl
  | .const .., _, _ => rfl
  | .cmpEq .., _, _ => rfl
  | .yield .., _, h => by cases h
  | .cont .., _, h => by cases h
  | .brk .., _, h => by cases h
  | .br .., _, h => by cases h
  | .condBr .., _, h => by cases h
  | .exit .., _, h => by cases h
theorem replaceCB_ops (h x : Label) (k : Nat) : ∀ (os : List Op), tidyO os →
    (replaceCBO h x k os).1 ++ (replaceCBO h x k os).2 = redirCO h x k os
  | [], _ => rfl
  | o :: os, ht => by
    obtain ⟨h1, h2, h3⟩ := ht
    have ih := replaceCB_ops h x k os h3
    cases ho : o.isTerm with
    | true =>
      cases h2 ho
      cases o <;> first | cases ho; done | rfl
    | false =>
      have := replaceCB_op h x k o h1 ho
      cases o <;> first | cases ho; done | skip
      all_goals
        simp only [replaceCBO, redirCO, List.cons_append] at ih ⊢
        rw [ih, this]
theorem replaceCB_blocks (h x : Label) (k : Nat) : ∀ (bs : List Block), tidyB bs →
    replaceCBB h x k bs = redirCB h x k bs
  | [], _ => rfl
  | .mk l ps os :: bs, ht => by
    simp only [replaceCBB, redirCB, replaceCB_ops h x k os ht.1, replaceCB_blocks h x k bs ht.2]
theorem replaceCB_cases (h x : Label) (k : Nat) : ∀ (cs : List Case), tidyC cs →
    replaceCBC h x k cs = redirCC h x k cs
  | [], _ => rfl
  | .mk v b :: cs, ht => by
    simp only [replaceCBC, redirCC, replaceCB_blocks h x k b ht.2.1, replaceCB_cases h x k cs ht.2.2]
end

/-- What a continue or break becomes. -/
def outC (h x : Label) (k : Nat) : Out I.V → Out I.V
  | .cont vs => .jump h vs
  | .brk v => .jump x (if k ≠ 0 then [v] else [])
  | .yield vs => .yield vs
  | .fell => .fell
  | .exit n vs => .exit n vs
  | .jump l vs => .jump l vs
  | .trap => .trap
  | .stuck => .stuck

theorem redirCB_labels (h x : Label) (k : Nat) (bs : List Block) :
    (redirCB h x k bs).map Block.label = bs.map Block.label := by
  induction bs with
  | nil => rfl
  | cons b bs ih => obtain ⟨l, ps, os⟩ := b; simp [redirCB, Block.label, ih]

theorem redirCB_first (h x : Label) (k : Nat) (bs : List Block) :
    firstLabel (redirCB h x k bs) = firstLabel bs := by
  cases bs with
  | nil => rfl
  | cons b bs => obtain ⟨l, ps, os⟩ := b; rfl

theorem redirCB_find (h x : Label) (k : Nat) (l : Label) (bs : List Block) :
    findBlock l (redirCB h x k bs) =
      (findBlock l bs).map fun | .mk l ps os => .mk l ps (redirCO h x k os) := by
  induction bs with
  | nil => rfl
  | cons b bs ih =>
    obtain ⟨l', ps, os⟩ := b
    simp only [redirCB, findBlock, Block.label]
    by_cases h : l' = l
    · simp [h]
    · simp [h, ih]

theorem redirCC_cases (h x : Label) (k : Nat) (cs : List Case) :
    casesOf (redirCC h x k cs) = (casesOf cs).map fun p => (p.1, redirCB h x k p.2) := by
  induction cs with
  | nil => rfl
  | cons c cs ih => obtain ⟨v, b⟩ := c; cases v <;> simp [redirCC, casesOf, ih]

theorem redirCC_default (h x : Label) (k : Nat) (cs : List Case) :
    defaultOf (redirCC h x k cs) = (defaultOf cs).map (redirCB h x k) := by
  induction cs with
  | nil => rfl
  | cons c cs ih => obtain ⟨v, b⟩ := c; cases v <;> simp [redirCC, defaultOf, ih, Option.map_or]

theorem redirCC_choose (h x : Label) (k : Nat) (a : I.V) (cs : List Case) :
    choose a (redirCC h x k cs) = (choose a cs).map (redirCB h x k) := by
  rw [choose_eq, choose_eq, redirCC_cases, redirCC_default, Option.map_or]
  congr 1
  rw [List.find?_map]
  simp [Function.comp_def]

/-- A runner ends with the branch where it ended with the continue or break. -/
def CbR (h x : Label) (k : Nat) (r : Runner I) : Prop :=
  ∀ bs l as e s, h ∉ labelsB bs → x ∉ labelsB bs →
    r (redirCB h x k bs) l as e s = (r bs l as e s).map (Res.out (outC h x k))

variable {h x : Label} {k : Nat}

theorem afterBranch_redirC (res : List Value) (a : Option (Res I)) :
    afterBranch res (a.map (Res.out (outC h x k))) =
      (afterBranch res a).map (Res.out (outC h x k)) := by
  rcases a with _ | ⟨o, e, s⟩
  · rfl
  · cases o <;> rfl

theorem enter_redirC {r : Runner I} (hr : CbR h x k r) (bs : List Block) (h1 : h ∉ labelsB bs)
    (h2 : x ∉ labelsB bs) (vs : List I.V) (e : Env I) (s : I.S) :
    enter r (redirCB h x k bs) vs e s = (enter r bs vs e s).map (Res.out (outC h x k)) := by
  unfold enter
  rw [redirCB_first]
  cases firstLabel bs with
  | none => rfl
  | some l => exact hr _ _ _ _ _ h1 h2

theorem iterate_noCB {r : Runner I} {body : List Block} (hd : Label) (res : List Value) :
    ∀ (k' : Nat) (vs : List I.V) (e : Env I) (s : I.S),
      (iterate r body hd res k' vs e s).map (Res.out (outC h x k)) = iterate r body hd res k' vs e s
  | 0, _, _, _ => rfl
  | k' + 1, vs, e, s => by
    rw [iterate_succ]
    rcases r body hd vs e s with _ | ⟨o, e1, s1⟩
    · rfl
    · cases o <;> simp only [nextRound] <;> first | rfl | exact iterate_noCB hd res k' _ _ _

theorem labelsC_mem {cs : List Case} {c : Case} (h : c ∈ cs) {l : Label} (hl : l ∈ labelsB c.body) :
    l ∈ labelsC cs := by
  induction cs with
  | nil => cases h
  | cons c' cs ih =>
    obtain ⟨v', b⟩ := c'
    simp only [labelsC, List.mem_append]
    rcases List.mem_cons.mp h with rfl | h
    · exact .inl hl
    · exact .inr (ih h)

theorem execOp_redirC {r : Runner I} (hr : CbR h x k r) (n : Nat) (e : Env I) (s : I.S) (o : Op)
    (h1 : h ∉ o.labels) (h2 : x ∉ o.labels) :
    execOp r n e s (o.redirC h x k) = (execOp r n e s o).map (Res.out (outC h x k)) := by
  cases o <;> simp only [Op.labels, List.mem_append, not_or] at h1 h2 <;>
    simp only [Op.redirC, execOp] <;> try rfl
  case ite c res t el =>
    rw [← afterBranch_redirC]
    split
    · rw [enter_redirC hr t h1.1 h2.1]
    · rw [enter_redirC hr el h1.2 h2.2]
  case loop init res body =>
    cases firstLabel body with
    | none => rfl
    | some l => exact (iterate_noCB _ _ _ _ _ _).symm
  case switch d res cases =>
    rw [redirCC_choose]
    cases hc : choose (e d) cases with
    | none => rfl
    | some b =>
      obtain ⟨c, hm, rfl⟩ := choose_mem hc
      simp only [Option.map_some]
      rw [← afterBranch_redirC,
        enter_redirC hr _ (fun hh => h1 (labelsC_mem hm hh)) fun hh => h2 (labelsC_mem hm hh)]
  case plain name as rs =>
    rcases I.plain name (as.map e) s with _ | ⟨o, s⟩ <;> rfl
  case brk v =>
    simp only [Option.map_some, Res.out, outC]
    split <;> rfl

theorem exec_redirC {r : Runner I} (hr : CbR h x k r) (n : Nat) (os : List Op) :
    ∀ (e : Env I) (s : I.S), h ∉ labelsO os → x ∉ labelsO os →
      exec r n (redirCO h x k os) e s = (exec r n os e s).map (Res.out (outC h x k)) := by
  induction os with
  | nil => intro e s _ _; rfl
  | cons o os ih =>
    intro e s h1 h2
    simp only [labelsO, List.mem_append, not_or] at h1 h2
    rw [redirCO, exec_cons, exec_cons, execOp_redirC hr n e s o h1.1 h2.1]
    rcases execOp r n e s o with _ | ⟨o, e, s⟩
    · rfl
    · cases o <;> simp only [Option.map_some, Res.out, outC, seq]
      exact ih e s h1.2 h2.2

theorem labelsB_mem {bs : List Block} {blk : Block} (h : blk ∈ bs) {l : Label}
    (hl : l ∈ labelsO blk.ops) : l ∈ labelsB bs := by
  induction bs with
  | nil => cases h
  | cons b bs ih =>
    obtain ⟨l', ps, os⟩ := b
    simp only [labelsB, List.mem_cons, List.mem_append]
    rcases List.mem_cons.mp h with rfl | h
    · exact .inr (.inl hl)
    · exact .inr (.inr (ih h))

theorem labelsB_shallow {bs : List Block} {l : Label} (h : l ∈ bs.map Block.label) :
    l ∈ labelsB bs := by
  induction bs with
  | nil => cases h
  | cons b bs ih =>
    obtain ⟨l', ps, os⟩ := b
    simp only [List.map_cons, List.mem_cons, Block.label] at h
    simp only [labelsB, List.mem_cons, List.mem_append]
    rcases h with rfl | h
    · exact .inl rfl
    · exact .inr (.inr (ih h))

theorem run_redirC : ∀ n, CbR h x k (run (I := I) n)
  | 0 => fun _ _ _ _ _ _ _ => rfl
  | n + 1 => by
    intro bs l as e s h1 h2
    cases hfb : findBlock l bs with
    | none =>
      rw [run_none _ _ _ _ _ _ hfb, run_none _ _ _ _ _ _ (by rw [redirCB_find, hfb]; rfl)]
      rfl
    | some blk =>
      obtain ⟨l', ps, os⟩ := blk
      rw [run_succ _ _ _ _ _ _ hfb, run_succ (l' := l') (ps := ps) (ops := redirCO h x k os)
        _ _ _ _ _ _ (by rw [redirCB_find, hfb]; rfl)]
      split
      · rfl
      · have hmem := (find_mem hfb).1
        rw [exec_redirC (run_redirC n) n os _ _ (fun hh => h1 (labelsB_mem hmem hh))
          fun hh => h2 (labelsB_mem hmem hh)]
        rcases exec (run n) n os (bind e ps as) s with _ | ⟨o, e, s⟩
        · rfl
        · cases o <;> simp only [Option.map_some, Res.out, outC, settle, redirCB_labels] <;> try rfl
          · rw [if_neg fun hh => h1 (labelsB_shallow hh)]
          · rw [if_neg fun hh => h2 (labelsB_shallow hh)]
          · split
            · exact run_redirC n _ _ _ _ _ h1 h2
            · rfl

end Verif.ScfToCf
