import Verif.ScfToCf.Basics

/-
Renaming of values, environments that differ on unused names, and where jumps can go.
-/
namespace Verif.ScfToCf

variable {I : Interp}

/-! ## Renaming -/

mutual
/-- All names of an operation, operands and results, under a renaming. -/
def Op.ren (f : Value → Value) : Op → Op
  | .plain n as rs => .plain n (as.map f) (rs.map f)
  | .const a v => .const a (f v)
  | .cmpEq a b v => .cmpEq (f a) (f b) (f v)
  | .ite c rs t e => .ite (f c) (rs.map f) (renB f t) (renB f e)
  | .loop i rs b => .loop (i.map f) (rs.map f) (renB f b)
  | .switch d rs cs => .switch (f d) (rs.map f) (renC f cs)
  | .yield vs => .yield (vs.map f)
  | .cont vs => .cont (vs.map f)
  | .brk v => .brk (f v)
  | .br as l => .br (as.map f) l
  | .condBr c t e => .condBr (f c) t e
  | .exit n as => .exit n (as.map f)
def renO (f : Value → Value) : List Op → List Op
  | [] => []
  | o :: os => o.ren f :: renO f os
def renB (f : Value → Value) : List Block → List Block
  | [] => []
  | .mk l ps os :: bs => .mk l (ps.map f) (renO f os) :: renB f bs
def renC (f : Value → Value) : List Case → List Case
  | [] => []
  | .mk v b :: cs => .mk v (renB f b) :: renC f cs
end

theorem renB_labels (f : Value → Value) (bs : List Block) :
    (renB f bs).map Block.label = bs.map Block.label := by
  induction bs with
  | nil => rfl
  | cons b bs ih => obtain ⟨l, ps, os⟩ := b; simp [renB, Block.label, ih]

theorem renB_first (f : Value → Value) (bs : List Block) : firstLabel (renB f bs) = firstLabel bs := by
  cases bs with
  | nil => rfl
  | cons b bs => obtain ⟨l, ps, os⟩ := b; rfl

theorem renB_find (f : Value → Value) (l : Label) (bs : List Block) :
    findBlock l (renB f bs) =
      (findBlock l bs).map fun | .mk l ps os => .mk l (ps.map f) (renO f os) := by
  induction bs with
  | nil => rfl
  | cons b bs ih =>
    obtain ⟨l', ps, os⟩ := b
    simp only [renB, findBlock, Block.label]
    by_cases h : l' = l
    · simp [h]
    · simp [h, ih]

theorem renC_cases (f : Value → Value) (cs : List Case) :
    casesOf (renC f cs) = (casesOf cs).map fun p => (p.1, renB f p.2) := by
  induction cs with
  | nil => rfl
  | cons c cs ih => obtain ⟨v, b⟩ := c; cases v <;> simp [renC, casesOf, ih]

theorem renC_default (f : Value → Value) (cs : List Case) :
    defaultOf (renC f cs) = (defaultOf cs).map (renB f) := by
  induction cs with
  | nil => rfl
  | cons c cs ih => obtain ⟨v, b⟩ := c; cases v <;> simp [renC, defaultOf, ih, Option.map_or]

theorem renC_choose (f : Value → Value) (a : I.V) (cs : List Case) :
    choose a (renC f cs) = (choose a cs).map (renB f) := by
  rw [choose_eq, choose_eq, renC_cases, renC_default, Option.map_or]
  congr 1
  rw [List.find?_map]
  simp [Function.comp_def]

/-- An end with the environment seen through a renaming. -/
def Res.ren (f : Value → Value) (x : Res I) : Res I := (x.1, fun v => x.2.1 (f v), x.2.2)

theorem bind_ren (f : Value → Value) (hf : ∀ v, f (f v) = v) (ps : List Value) :
    ∀ (as : List I.V) (e : Env I),
      bind e (ps.map f) as = fun v => bind (fun v => e (f v)) ps as (f v) := by
  induction ps with
  | nil => intro as e; funext v; simp [bind, hf]
  | cons p ps ih =>
    have key : ∀ (e : Env I) (a : I.V), (fun v => (fun w => if w = f p then a else e w) (f v)) =
        fun v => if v = p then a else e (f v) := by
      intro e a
      funext v
      have : f v = f p ↔ v = p := ⟨fun h => by rw [← hf v, h, hf], fun h => by rw [h]⟩
      simp [this]
    intro as e
    cases as with
    | nil =>
      simp only [List.map_cons, bind]
      rw [ih, key]
    | cons a as =>
      simp only [List.map_cons, bind]
      rw [ih, key]

/-- A runner commutes with a renaming. -/
def RenR (f : Value → Value) (r : Runner I) : Prop :=
  ∀ bs l as e s, r (renB f bs) l as e s = (r bs l as (fun v => e (f v)) s).map (Res.ren f)

variable {f : Value → Value}

theorem iterate_ren (hf : ∀ v, f (f v) = v) {r : Runner I} (hr : RenR f r) (body : List Block)
    (h : Label) (res : List Value) : ∀ (k : Nat) (vs : List I.V) (e : Env I) (s : I.S),
      iterate r (renB f body) h (res.map f) k vs e s =
        (iterate r body h res k vs (fun v => e (f v)) s).map (Res.ren f)
  | 0, _, _, _ => rfl
  | k + 1, vs, e, s => by
    rw [iterate_succ, iterate_succ, hr]
    rcases r body h vs (fun v => e (f v)) s with _ | ⟨o, e, s⟩
    · rfl
    · cases o <;> simp only [Option.map_some, Res.ren, nextRound]
      · rw [iterate_ren hf hr]; simp [hf]
      · rw [bind_ren f hf]; simp [hf, Res.ren]

theorem afterBranch_ren (hf : ∀ v, f (f v) = v) (res : List Value) (a : Option (Res I)) :
    afterBranch (res.map f) (a.map (Res.ren f)) = (afterBranch res a).map (Res.ren f) := by
  rcases a with _ | ⟨o, e, s⟩
  · rfl
  · cases o <;> simp only [Option.map_some, Res.ren, afterBranch]
    rw [bind_ren f hf]; simp [hf, Res.ren]

theorem enter_ren {r : Runner I} (hr : RenR f r) (hf : ∀ v, f (f v) = v) (bs : List Block)
    (vs : List I.V) (e : Env I) (s : I.S) :
    enter r (renB f bs) vs e s = (enter r bs vs (fun v => e (f v)) s).map (Res.ren f) := by
  unfold enter
  rw [renB_first]
  cases firstLabel bs with
  | none => simp [Res.ren, hf]
  | some l => exact hr _ _ _ _ _

theorem execOp_ren (hf : ∀ v, f (f v) = v) {r : Runner I} (hr : RenR f r) (n : Nat) (e : Env I)
    (s : I.S) (o : Op) :
    execOp r n e s (o.ren f) = (execOp r n (fun v => e (f v)) s o).map (Res.ren f) := by
  have hb : ∀ ps as, bind e (List.map f ps) as = fun v => bind (fun v => e (f v)) ps as (f v) :=
    fun ps as => bind_ren f hf ps as e
  have hm : ∀ vs : List Value, List.map e (vs.map f) = vs.map fun v => e (f v) := by
    intro vs; simp [Function.comp_def]
  cases o
  case ite c res t el =>
    simp only [Op.ren, execOp]
    rw [← afterBranch_ren hf, ← enter_ren hr hf]
    congr 2
    split <;> rfl
  case loop init res body =>
    simp only [Op.ren, execOp, renB_first, hm]
    cases firstLabel body with
    | none => simp [Res.ren, hf]
    | some l => exact iterate_ren hf hr _ _ _ _ _ _ _
  case switch d res cases =>
    simp only [Op.ren, execOp, renC_choose]
    cases choose (e (f d)) cases with
    | none => simp [Res.ren, hb]
    | some b =>
      simp only [Option.map_some]
      rw [← afterBranch_ren hf, ← enter_ren hr hf]
  case plain name as rs =>
    simp only [Op.ren, execOp, hm]
    rcases I.plain name (as.map fun v => e (f v)) s with _ | ⟨o, s⟩
    · simp [Res.ren, hf]
    · simp [Res.ren, hb]
  case const a v =>
    simp only [Op.ren, execOp, Option.map_some, Res.ren]
    rw [← hb]; rfl
  case cmpEq a b v =>
    simp only [Op.ren, execOp, Option.map_some, Res.ren]
    rw [← hb]; rfl
  all_goals simp [Op.ren, execOp, Res.ren, hf, Function.comp_def]

theorem exec_ren (hf : ∀ v, f (f v) = v) {r : Runner I} (hr : RenR f r) (n : Nat) (os : List Op) :
    ∀ (e : Env I) (s : I.S),
      exec r n (renO f os) e s = (exec r n os (fun v => e (f v)) s).map (Res.ren f) := by
  induction os with
  | nil => intro e s; simp [renO, exec, Res.ren, hf]
  | cons o os ih =>
    intro e s
    rw [renO, exec_cons, exec_cons, execOp_ren hf hr]
    rcases execOp r n (fun v => e (f v)) s o with _ | ⟨o, e, s⟩
    · rfl
    · cases o <;> simp only [Option.map_some, Res.ren, seq]
      rw [ih]; simp [hf]

theorem run_ren (hf : ∀ v, f (f v) = v) : ∀ n, RenR f (run (I := I) n)
  | 0 => fun _ _ _ _ _ => rfl
  | n + 1 => by
    intro bs l as e s
    cases hfb : findBlock l bs with
    | none =>
      rw [run_none _ _ _ _ _ _ hfb, run_none _ _ _ _ _ _ (by rw [renB_find, hfb]; rfl)]
      simp [Res.ren, hf]
    | some blk =>
      obtain ⟨l', ps, os⟩ := blk
      rw [run_succ _ _ _ _ _ _ hfb,
        run_succ (l' := l') (ps := ps.map f) (ops := renO f os) _ _ _ _ _ _
          (by rw [renB_find, hfb]; rfl), List.length_map]
      split
      · simp [Res.ren, hf]
      · rw [exec_ren hf (run_ren hf n), bind_ren f hf]
        simp only [hf]
        rcases exec (run n) n os (bind (fun v => e (f v)) ps as) s with _ | ⟨o, e, s⟩
        · rfl
        · cases o <;> simp only [Option.map_some, Res.ren, settle, renB_labels]
          split
          · rw [run_ren hf n]; simp [hf]
          · rfl

/-- Exchange two names. -/
def swap (r x : Value) (v : Value) : Value := if v = r then x else if v = x then r else v

theorem swap_swap (r x v : Value) : swap r x (swap r x v) = v := by
  unfold swap
  repeat' split
  all_goals simp_all

theorem behaves_ren (hf : ∀ v, f (f v) = v) (bs : List Block) (as : List I.V) (s : I.S)
    (o : Out I.V) (s' : I.S) : Behaves I (renB f bs) as s o s' ↔ Behaves I bs as s o s' := by
  unfold Behaves
  rw [renB_first]
  constructor
  · rintro ⟨l, n, e, hl, h⟩
    rw [run_ren hf n] at h
    cases hr : run n bs l as (fun _ => I.undef) s with
    | none => rw [hr] at h; cases h
    | some y =>
      rw [hr] at h
      simp only [Option.map_some, Res.ren, Option.some.injEq, Prod.mk.injEq] at h
      exact ⟨l, n, y.2.1, hl, by rw [hr, ← h.1, ← h.2.2]⟩
  · rintro ⟨l, n, e, hl, h⟩
    exact ⟨l, n, _, hl, by rw [run_ren hf n, h]; rfl⟩

/-! ## Environments that differ on unused names -/

/-- The environments agree outside `F`. -/
def Agree (F : Value → Prop) (e e' : Env I) : Prop := ∀ v, ¬ F v → e v = e' v

/-- Both not finished, or the same end and state and environments that agree outside `F`. -/
def Sim (F : Value → Prop) (a b : Option (Res I)) : Prop :=
  (a = none ∧ b = none) ∨
    ∃ o e e' s, a = some (o, e, s) ∧ b = some (o, e', s) ∧ Agree F e e'

theorem Sim.some {F : Value → Prop} {o : Out I.V} {e e' : Env I} {s : I.S} (h : Agree F e e') :
    Sim F (some (o, e, s)) (some (o, e', s)) := .inr ⟨o, e, e', s, rfl, rfl, h⟩

theorem Agree.bind {F : Value → Prop} (ps : List Value) : ∀ (as : List I.V) {e e' : Env I},
    Agree F e e' → Agree F (bind e ps as) (bind e' ps as) := by
  induction ps with
  | nil => exact fun _ _ _ h => h
  | cons p ps ih =>
    intro as e e' h
    cases as with
    | nil =>
      refine ih [] fun v hv => ?_
      by_cases hp : v = p
      · simp [hp]
      · simp [hp, h v hv]
    | cons a as =>
      refine ih as fun v hv => ?_
      by_cases hp : v = p
      · simp [hp]
      · simp [hp, h v hv]

theorem Agree.map {F : Value → Prop} {e e' : Env I} (h : Agree F e e') {vs : List Value}
    (hv : ∀ v ∈ vs, ¬ F v) : vs.map e = vs.map e' :=
  List.map_congr_left fun v m => h v (hv v m)

/-- A runner treats environments that agree on the names used alike. -/
def AgR (F : Value → Prop) (r : Runner I) : Prop :=
  ∀ bs l as e e' s, (∀ v ∈ usesB bs, ¬ F v) → Agree F e e' → Sim F (r bs l as e s) (r bs l as e' s)

variable {F : Value → Prop}

theorem iterate_agree {r : Runner I} (hr : AgR F r) (body : List Block) (h : Label)
    (res : List Value) (hb : ∀ v ∈ usesB body, ¬ F v) :
    ∀ (k : Nat) (vs : List I.V) (e e' : Env I) (s : I.S), Agree F e e' →
      Sim F (iterate r body h res k vs e s) (iterate r body h res k vs e' s)
  | 0, _, _, _, _, _ => .inl ⟨rfl, rfl⟩
  | k + 1, vs, e, e', s, he => by
    rw [iterate_succ, iterate_succ]
    rcases hr body h vs e e' s hb he with ⟨h1, h2⟩ | ⟨o, e1, e2, s1, h1, h2, h3⟩
    · rw [h1, h2]; exact .inl ⟨rfl, rfl⟩
    · rw [h1, h2]
      cases o <;> simp only [nextRound] <;> first | exact .some h3 | skip
      · exact iterate_agree hr body h res hb k _ _ _ _ h3
      · exact .some (h3.bind _ _)

theorem afterBranch_agree (res : List Value) {a b : Option (Res I)} (h : Sim F a b) :
    Sim F (afterBranch res a) (afterBranch res b) := by
  rcases h with ⟨rfl, rfl⟩ | ⟨o, e1, e2, s1, rfl, rfl, h3⟩
  · exact .inl ⟨rfl, rfl⟩
  · cases o <;> simp only [afterBranch] <;> first | exact .some h3 | exact .some (h3.bind _ _)

theorem enter_agree {r : Runner I} (hr : AgR F r) (bs : List Block) (hb : ∀ v ∈ usesB bs, ¬ F v)
    (vs : List I.V) {e e' : Env I} (s : I.S) (he : Agree F e e') :
    Sim F (enter r bs vs e s) (enter r bs vs e' s) := by
  unfold enter
  cases firstLabel bs with
  | none => exact .some he
  | some l => exact hr _ _ _ _ _ _ hb he

theorem usesC_mem {cs : List Case} {c : Case} (h : c ∈ cs) {v : Value} (hv : v ∈ usesB c.body) :
    v ∈ usesC cs := by
  induction cs with
  | nil => cases h
  | cons c' cs ih =>
    obtain ⟨v', b⟩ := c'
    simp only [usesC, List.mem_append]
    rcases List.mem_cons.mp h with rfl | h
    · exact .inl hv
    · exact .inr (ih h)

theorem choose_mem {a : I.V} {cs : List Case} {b : List Block} (h : choose a cs = some b) :
    ∃ c ∈ cs, c.body = b := by
  unfold choose at h
  rw [Option.map_eq_some_iff] at h
  obtain ⟨c, hc, rfl⟩ := h
  refine ⟨c, ?_, rfl⟩
  rcases Option.or_eq_some_iff.mp hc with h | ⟨_, h⟩
  · exact List.mem_of_find?_eq_some h
  · exact List.mem_reverse.mp (List.mem_of_find?_eq_some h)

theorem execOp_agree {r : Runner I} (hr : AgR F r) (n : Nat) {e e' : Env I} (s : I.S) (o : Op)
    (ho : ∀ v ∈ o.uses, ¬ F v) (he : Agree F e e') :
    Sim F (execOp r n e s o) (execOp r n e' s o) := by
  cases o <;> simp only [Op.uses] at ho <;> simp only [execOp]
  case ite c res t el =>
    simp only [List.mem_cons, List.mem_append] at ho
    rw [he c (ho c (.inl rfl))]
    refine afterBranch_agree _ (enter_agree hr _ ?_ _ _ he)
    split
    · exact fun v hv => ho v (.inr (.inl hv))
    · exact fun v hv => ho v (.inr (.inr hv))
  case loop init res body =>
    simp only [List.mem_append] at ho
    rw [he.map (vs := init) fun v hv => ho v (.inl hv)]
    cases firstLabel body with
    | none => exact .some he
    | some l => exact iterate_agree hr _ _ _ (fun v hv => ho v (.inr hv)) _ _ _ _ _ he
  case switch d res cases =>
    simp only [List.mem_cons] at ho
    rw [he d (ho d (.inl rfl))]
    cases hc : choose (e' d) cases with
    | none => exact .some (he.bind _ _)
    | some b =>
      obtain ⟨c, hm, rfl⟩ := choose_mem hc
      exact afterBranch_agree _ (enter_agree hr _ (fun v hv => ho v (.inr (usesC_mem hm hv))) _ _ he)
  case plain name as rs =>
    rw [he.map ho]
    rcases I.plain name (as.map e') s with _ | ⟨o, s⟩
    · exact .some he
    · exact .some (he.bind _ _)
  case const a v => exact .some (he.bind _ _)
  case cmpEq a b v =>
    simp only [List.mem_cons, List.not_mem_nil, or_false] at ho
    rw [he a (ho a (.inl rfl)), he b (ho b (.inr rfl))]
    exact .some (he.bind _ _)
  case brk v => rw [he v (ho v (by simp))]; exact .some he
  case condBr c t el => rw [he c (ho c (by simp))]; exact .some he
  all_goals
    rw [he.map ho]
    exact .some he

theorem exec_agree {r : Runner I} (hr : AgR F r) (n : Nat) (os : List Op) :
    ∀ (e e' : Env I) (s : I.S), (∀ v ∈ usesO os, ¬ F v) → Agree F e e' →
      Sim F (exec r n os e s) (exec r n os e' s) := by
  induction os with
  | nil => exact fun _ _ _ _ he => .some he
  | cons o os ih =>
    intro e e' s ho he
    simp only [usesO, List.mem_append] at ho
    rw [exec_cons, exec_cons]
    rcases execOp_agree hr n s o (fun v hv => ho v (.inl hv)) he with
      ⟨h1, h2⟩ | ⟨o, e1, e2, s1, h1, h2, h3⟩
    · rw [h1, h2]; exact .inl ⟨rfl, rfl⟩
    · rw [h1, h2]
      cases o <;> simp only [seq] <;> first | exact .some h3 | skip
      exact ih _ _ _ (fun v hv => ho v (.inr hv)) h3

theorem find_mem {l : Label} {bs : List Block} {blk : Block} (h : findBlock l bs = some blk) :
    blk ∈ bs ∧ blk.label = l := by
  induction bs with
  | nil => cases h
  | cons b bs ih =>
    rw [findBlock] at h
    split at h
    · rename_i hl; cases h; exact ⟨.head _, hl⟩
    · exact ⟨.tail _ (ih h).1, (ih h).2⟩

theorem usesB_mem {bs : List Block} {blk : Block} (h : blk ∈ bs) {v : Value}
    (hv : v ∈ usesO blk.ops) : v ∈ usesB bs := by
  induction bs with
  | nil => cases h
  | cons b bs ih =>
    obtain ⟨l, ps, os⟩ := b
    simp only [usesB, List.mem_append]
    rcases List.mem_cons.mp h with rfl | h
    · exact .inl hv
    · exact .inr (ih h)

theorem run_agree : ∀ n, AgR F (run (I := I) n)
  | 0 => fun _ _ _ _ _ _ _ _ => .inl ⟨rfl, rfl⟩
  | n + 1 => by
    intro bs l as e e' s hb he
    cases hfb : findBlock l bs with
    | none =>
      rw [run_none _ _ _ _ _ _ hfb, run_none _ _ _ _ _ _ hfb]
      exact .some he
    | some blk =>
      obtain ⟨l', ps, os⟩ := blk
      rw [run_succ _ _ _ _ _ _ hfb, run_succ _ _ _ _ _ _ hfb]
      split
      · exact .some he
      · rcases exec_agree (run_agree n) n os (bind e ps as) (bind e' ps as) s
          (fun v hv => hb v (usesB_mem (find_mem hfb).1 hv)) (he.bind _ _) with
          ⟨h1, h2⟩ | ⟨o, e1, e2, s1, h1, h2, h3⟩
        · rw [h1, h2]; exact .inl ⟨rfl, rfl⟩
        · rw [h1, h2]
          cases o <;> simp only [settle] <;> first | exact .some h3 | skip
          split
          · exact run_agree n _ _ _ _ _ _ hb h3
          · exact .some h3

/-! ## Where jumps can go -/

/-- A region ends with a jump only to a block visible around it. -/
def ScR (r : Runner I) : Prop :=
  ∀ bs L l as e s l' vs e' s', scopesB (bs.map Block.label ++ L) bs →
    r bs l as e s = some (.jump l' vs, e', s') → l' ∈ L

theorem iterate_jump {r : Runner I} (hr : ScR r) {body : List Block} {L : List Label}
    (hb : scopesB (body.map Block.label ++ L) body) (h : Label) (res : List Value) {l' : Label}
    {ws : List I.V} {e' : Env I} {s' : I.S} : ∀ (k : Nat) (vs : List I.V) (e : Env I) (s : I.S),
      iterate r body h res k vs e s = some (.jump l' ws, e', s') → l' ∈ L
  | 0, _, _, _, hx => by cases hx
  | k + 1, vs, e, s, hx => by
    rw [iterate_succ] at hx
    cases hb' : r body h vs e s with
    | none => rw [hb'] at hx; cases hx
    | some y =>
      rw [hb'] at hx
      obtain ⟨o, e1, s1⟩ := y
      cases o <;> simp only [nextRound] at hx <;> first | cases hx; done | skip
      · exact iterate_jump hr hb h res k _ _ _ hx
      · cases hx; exact hr _ _ _ _ _ _ _ _ _ _ hb hb'

theorem branch_jump {r : Runner I} (hr : ScR r) {bs : List Block} {L : List Label}
    (hb : scopesB (bs.map Block.label ++ L) bs) (res : List Value) {l' : Label} {ws : List I.V}
    {e' : Env I} {s' : I.S} {vs : List I.V} {e : Env I} {s : I.S}
    (hx : afterBranch res (enter r bs vs e s) = some (.jump l' ws, e', s')) : l' ∈ L := by
  unfold enter at hx
  cases hf : firstLabel bs with
  | none => rw [hf] at hx; cases hx
  | some l =>
    rw [hf] at hx
    simp only at hx
    cases hb' : r bs l vs e s with
    | none => rw [hb'] at hx; cases hx
    | some y =>
      rw [hb'] at hx
      obtain ⟨o, e1, s1⟩ := y
      cases o <;> simp only [afterBranch] at hx <;> first | cases hx; done | skip
      cases hx; exact hr _ _ _ _ _ _ _ _ _ _ hb hb'

theorem scopesC_mem {L : List Label} {cs : List Case} {c : Case} (hs : scopesC L cs) (h : c ∈ cs) :
    scopesB (c.body.map Block.label ++ L) c.body := by
  induction cs with
  | nil => cases h
  | cons c' cs ih =>
    obtain ⟨v', b⟩ := c'
    simp only [scopesC] at hs
    rcases List.mem_cons.mp h with rfl | h
    · exact hs.1
    · exact ih hs.2 h

theorem execOp_jump {r : Runner I} (hr : ScR r) {n : Nat} {e : Env I} {s : I.S} {o : Op}
    {L : List Label} (ho : o.scopes L) {l' : Label} {ws : List I.V} {e' : Env I} {s' : I.S}
    (hx : execOp r n e s o = some (.jump l' ws, e', s')) : l' ∈ L := by
  cases o <;> simp only [Op.scopes] at ho <;> simp only [execOp] at hx
  case ite c res t el =>
    split at hx
    · exact branch_jump hr ho.1 _ hx
    · exact branch_jump hr ho.2 _ hx
  case loop init res body =>
    cases hf : firstLabel body with
    | none => rw [hf] at hx; cases hx
    | some h => rw [hf] at hx; exact iterate_jump hr ho _ _ _ _ _ _ hx
  case switch d res cases =>
    cases hc : choose (e d) cases with
    | none => rw [hc] at hx; cases hx
    | some b =>
      rw [hc] at hx
      obtain ⟨c, hm, rfl⟩ := choose_mem hc
      exact branch_jump hr (scopesC_mem ho hm) _ hx
  case plain name as rs => split at hx <;> cases hx
  case br as l => cases hx; exact ho
  case condBr c t el =>
    cases hx
    split
    · exact ho.1
    · exact ho.2
  all_goals cases hx

theorem exec_jump {r : Runner I} (hr : ScR r) {n : Nat} {L : List Label} {os : List Op} :
    ∀ {e : Env I} {s : I.S} (_ : scopesO L os) {l' : Label} {ws : List I.V} {e' : Env I} {s' : I.S}
      (_ : exec r n os e s = some (.jump l' ws, e', s')), l' ∈ L := by
  induction os with
  | nil => intro e s _ l' ws e' s' hx; cases hx
  | cons o os ih =>
    intro e s ho l' ws e' s' hx
    rw [exec_cons] at hx
    cases ho' : execOp r n e s o with
    | none => rw [ho'] at hx; cases hx
    | some y =>
      rw [ho'] at hx
      obtain ⟨o1, e1, s1⟩ := y
      cases o1 <;> simp only [seq] at hx <;> first | cases hx; done | skip
      · exact ih ho.2 hx
      · cases hx; exact execOp_jump hr ho.1 ho'

theorem scopesB_mem {L : List Label} {bs : List Block} (hs : scopesB L bs) {blk : Block}
    (h : blk ∈ bs) : scopesO L blk.ops := by
  induction bs with
  | nil => cases h
  | cons b bs ih =>
    obtain ⟨l, ps, os⟩ := b
    simp only [scopesB] at hs
    rcases List.mem_cons.mp h with rfl | h
    · exact hs.1
    · exact ih hs.2 h

theorem run_jump : ∀ n, ScR (run (I := I) n)
  | 0 => by intro _ _ _ _ _ _ _ _ _ _ _ h; cases h
  | n + 1 => by
    intro bs L l as e s l' vs e' s' hs hx
    cases hfb : findBlock l bs with
    | none => rw [run_none _ _ _ _ _ _ hfb] at hx; cases hx
    | some blk =>
      obtain ⟨l1, ps, os⟩ := blk
      rw [run_succ _ _ _ _ _ _ hfb] at hx
      split at hx
      · cases hx
      · cases hx1 : exec (run n) n os (bind e ps as) s with
        | none => rw [hx1] at hx; cases hx
        | some y =>
          rw [hx1] at hx
          obtain ⟨o1, e1, s1⟩ := y
          cases o1 <;> simp only [settle] at hx <;> first | cases hx; done | skip
          have hm := exec_jump (run_jump n) (scopesB_mem hs (find_mem hfb).1) hx1
          split at hx
          · exact run_jump n _ _ _ _ _ _ _ _ _ _ hs hx
          · rename_i hn
            cases hx
            exact (List.mem_append.mp hm).resolve_left hn

/-! ## Where yields come from -/

theorem iterate_yield {r : Runner I} {body : List Block} (h : Label) (res : List Value)
    {ws : List I.V} {e' : Env I} {s' : I.S} : ∀ (k : Nat) (vs : List I.V) (e : Env I) (s : I.S),
      iterate r body h res k vs e s ≠ some (.yield ws, e', s')
  | 0, _, _, _ => by simp [iterate]
  | k + 1, vs, e, s => by
    rw [iterate_succ]
    rcases r body h vs e s with _ | ⟨o, e1, s1⟩
    · simp [nextRound]
    · cases o <;> simp only [nextRound] <;> first | exact iterate_yield h res k _ _ _ | simp

theorem afterBranch_yield {res : List Value} {a : Option (Res I)} {ws : List I.V} {e' : Env I}
    {s' : I.S} : afterBranch res a ≠ some (.yield ws, e', s') := by
  rcases a with _ | ⟨o, e1, s1⟩
  · simp [afterBranch]
  · cases o <;> simp [afterBranch]

theorem execOp_yield {r : Runner I} {n : Nat} {e : Env I} {s : I.S} {o : Op} {ws : List I.V}
    {e' : Env I} {s' : I.S} (hx : execOp r n e s o = some (.yield ws, e', s')) :
    ∃ vs, o = .yield vs := by
  cases o <;> simp only [execOp] at hx
  case ite c res t el => exact absurd hx afterBranch_yield
  case loop init res body =>
    split at hx
    · exact absurd hx (iterate_yield _ _ _ _ _ _)
    · cases hx
  case switch d res cases =>
    split at hx
    · cases hx
    · exact absurd hx afterBranch_yield
  case plain name as rs => split at hx <;> cases hx
  case yield vs => exact ⟨vs, rfl⟩
  all_goals cases hx

theorem exec_yield {r : Runner I} {n : Nat} {os : List Op} : ∀ {e : Env I} {s : I.S} {ws : List I.V}
    {e' : Env I} {s' : I.S} (_ : exec r n os e s = some (.yield ws, e', s')), ∃ vs, .yield vs ∈ os := by
  induction os with
  | nil => intro e s ws e' s' hx; cases hx
  | cons o os ih =>
    intro e s ws e' s' hx
    rw [exec_cons] at hx
    cases ho' : execOp r n e s o with
    | none => rw [ho'] at hx; cases hx
    | some y =>
      rw [ho'] at hx
      obtain ⟨o1, e1, s1⟩ := y
      cases o1 <;> simp only [seq] at hx <;> first | cases hx; done | skip
      · obtain ⟨vs, h⟩ := ih hx; exact ⟨vs, .tail _ h⟩
      · cases hx; obtain ⟨vs, rfl⟩ := execOp_yield ho'; exact ⟨vs, .head _⟩

theorem run_yield {n : Nat} {bs : List Block} : ∀ {l as} {e : Env I} {s : I.S} {ws : List I.V}
    {e' : Env I} {s' : I.S} (_ : run n bs l as e s = some (.yield ws, e', s')),
    ∃ blk ∈ bs, ∃ vs, .yield vs ∈ blk.ops := by
  induction n with
  | zero => intro _ _ _ _ _ _ _ h; cases h
  | succ n ih =>
    intro l as e s ws e' s' hx
    cases hfb : findBlock l bs with
    | none => rw [run_none _ _ _ _ _ _ hfb] at hx; cases hx
    | some blk =>
      obtain ⟨l1, ps, os⟩ := blk
      rw [run_succ _ _ _ _ _ _ hfb] at hx
      split at hx
      · cases hx
      · cases hx1 : exec (run n) n os (bind e ps as) s with
        | none => rw [hx1] at hx; cases hx
        | some y =>
          rw [hx1] at hx
          obtain ⟨o1, e1, s1⟩ := y
          cases o1 <;> simp only [settle] at hx <;> first | cases hx; done | skip
          · obtain ⟨vs, h⟩ := exec_yield hx1
            exact ⟨_, (find_mem hfb).1, vs, h⟩
          · split at hx
            · exact ih hx
            · cases hx

end Verif.ScfToCf
