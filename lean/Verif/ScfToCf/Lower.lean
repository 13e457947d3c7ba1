import Verif.ScfToCf.Splice

/-
The three lowerings, on a function in which the result already has the name of the argument of the new
block: the rules still hold, and the function behaves the same.
-/
namespace Verif.ScfToCf

theorem bind_take {I : Interp} (ps : List Value) : ∀ (vs : List I.V) (e : Env I),
    bind e ps (vs.take ps.length) = bind e ps vs := by
  induction ps with
  | nil => intro vs e; cases vs <;> rfl
  | cons p ps ih =>
    intro vs e
    cases vs with
    | nil => rfl
    | cons v vs => exact ih vs _

theorem bind_other {I : Interp} {v : Value} (ps : List Value) : ∀ (vs : List I.V) (e : Env I),
    v ∉ ps → bind e ps vs v = e v := by
  induction ps with
  | nil => intro vs e _; cases vs <;> rfl
  | cons p ps ih =>
    intro vs e hv
    simp only [List.mem_cons, not_or] at hv
    cases vs with
    | nil => simp only [bind]; rw [ih _ _ hv.2, if_neg hv.1]
    | cons a vs => simp only [bind]; rw [ih _ _ hv.2, if_neg hv.1]

theorem map_nodup {bs : List Block} (h : (labelsB bs).Nodup) : (bs.map Block.label).Nodup :=
  (labels_sublist bs).nodup h

section
variable {pre post : List Block} {b : Nat} {ps : List Value} {before after : List Op} {nl nv : Nat}

theorem ite_ok {c : Value} {res mps : List Value} {t e : List Block} {te ee : Label}
    (W : WF ⟨source pre post b ps before (.ite c res t e) after, nl, nv⟩)
    (hte : firstLabel t = some te) (hee : firstLabel e = some ee)
    (hmps : mps = res ∨ mps = [] ∧ ∀ r ∈ res, r ∉ usesB (source pre post b ps before (.ite c res t e) after)) :
    WF ⟨target pre post ((t ++ e).map (redirYBlk nl mps.length)) b nl ps mps before [.condBr c te ee]
      after, nl + 1, nv⟩ ∧
    ∀ (I : Interp) as s o s',
      Behaves I (source pre post b ps before (.ite c res t e) after) as s o s' ↔
      Behaves I (target pre post ((t ++ e).map (redirYBlk nl mps.length)) b nl ps mps before
        [.condBr c te ee] after) as s o s' := by
  have hin := scopes_in W.branches
  have htd := W.tidy
  simp only [source, tidyB_append, tidyB] at htd
  obtain ⟨-, -, htop, -⟩ := tidyO_split htd.2.1
  obtain ⟨-, -, -, ht1, ht2⟩ := htop
  have hpl := W.placed
  simp only [source, placedB_append, placedB, placedO_append, placedO] at hpl
  obtain ⟨hp1, hp2⟩ := hpl.2.1.2.1
  have W' : WF ⟨target pre post ((t ++ e).map (redirYBlk nl mps.length)) b nl ps mps before
      [.condBr c te ee] after, nl + 1, nv⟩ := by
    refine splice_wf [] [] W (by simp) (by simp) (by omega) (by simp) (by simp) (by omega) ?_ ?_ ?_ ?_
      ?_ ?_
    · intro a
      rw [redirYB_labels]
      simp [labelsO, Op.labels, labelsB_append]
    · intro a
      rw [redirYB_defs]
      have : mps.count a ≤ res.count a := by
        rcases hmps with rfl | ⟨rfl, _⟩
        · exact Nat.le_refl _
        · simp
      simp only [defsO, Op.defs, defsB_append, List.count_append, List.count_nil, List.append_nil]
      omega
    · intro v hv
      left
      rcases List.mem_append.1 hv with hv | hv
      · simp only [usesO, Op.uses, List.append_nil, List.mem_singleton] at hv ⊢
        simp [hv]
      · have := redirYB_uses nl mps.length _ v hv
        rw [usesB_append] at this
        exact .tail _ this
    · intro hsub
      have hsubL := fun l hl => hsub l (List.mem_append_left _ hl)
      have hsubT : ∀ l ∈ (t ++ e).map Block.label, l ∈ _ := fun l hl =>
        hsub l (List.mem_append_right _ (.tail _ (by rw [redirY_labels]; exact hl)))
      refine ⟨⟨⟨hsubT _ ?_, hsubT _ ?_⟩, trivial⟩, ?_⟩
      · rw [List.map_append]; exact List.mem_append_left _ (first_mem hte)
      · rw [List.map_append]; exact List.mem_append_right _ (first_mem hee)
      · refine redirYB_scopes _ _ (hsub _ (List.mem_append_right _ (.head _))) _ ?_
        rw [scopesB_append]
        obtain ⟨s1, s2⟩ := hin.2.2.1
        refine ⟨scopesB_mono ?_ t s1, scopesB_mono ?_ e s2⟩ <;>
        · intro l hl
          rcases List.mem_append.1 hl with hl | hl
          · exact hsubT l (by simp only [List.map_append, List.mem_append]; tauto)
          · exact hsubL l hl
    · exact ⟨⟨trivial, fun _ => rfl, trivial⟩, redirYB_tidy _ _ _ ((tidyB_append _ _).2 ⟨ht1, ht2⟩)⟩
    · exact ⟨⟨trivial, trivial⟩, redirYB_placed _ _ _ ((placedB_append _ _ _ _).2 ⟨hp1, hp2⟩)⟩
  refine ⟨W', ?_⟩
  intro I as s o s'
  have hn2 := map_nodup W'.labels
  have hm : findBlock nl (target pre post ((t ++ e).map (redirYBlk nl mps.length)) b nl ps mps before
      [.condBr c te ee] after) = some (.mk nl mps after) := find_of_mem hn2 (by simp [target])
  have hwt : Within (I := I) (outY nl mps.length) t (target pre post
      ((t ++ e).map (redirYBlk nl mps.length)) b nl ps mps before [.condBr c te ee] after) :=
    within_redirY hn2 fun blk hb => by
      have : redirYBlk nl mps.length blk ∈ t.map (redirYBlk nl mps.length) := List.mem_map_of_mem hb
      simp only [target, List.map_append, List.mem_append, List.mem_cons]
      tauto
  have hwe : Within (I := I) (outY nl mps.length) e (target pre post
      ((t ++ e).map (redirYBlk nl mps.length)) b nl ps mps before [.condBr c te ee] after) :=
    within_redirY hn2 fun blk hb => by
      have : redirYBlk nl mps.length blk ∈ e.map (redirYBlk nl mps.length) := List.mem_map_of_mem hb
      simp only [target, List.map_append, List.mem_append, List.mem_cons]
      tauto
  have huse : ∀ v ∈ c :: (usesB t ++ usesB e),
      v ∈ usesB (source pre post b ps before (.ite c res t e) after) := by
    intro v hv
    simp only [source, usesB_append, usesB, usesO_append, usesO, Op.uses, List.mem_append]
    exact .inr (.inl (.inr (.inl hv)))
  rcases hmps with rfl | ⟨rfl, hun⟩
  · refine splice_behaves (F := fun _ => False) (map_nodup W.labels) hn2 W.branches (fun _ _ h => h) ?_ as
      s o s'
    refine if_step hm (fun e e' vs h => ?_) (fun h => h) hte hee hwt (fun _ _ h => h) hwe
      (fun _ _ h => h)
    rw [bind_take]
    exact h.bind _ _
  · refine splice_behaves (F := fun v => v ∈ res) (map_nodup W.labels) hn2 W.branches
      (fun v hv h => hun v h hv) ?_ as s o s'
    refine if_step hm (fun e e' vs h => ?_) (fun h => hun _ h (huse _ (.head _))) hte hee hwt
      (fun v hv h => hun v h (huse v (.tail _ (List.mem_append_left _ hv)))) hwe
      (fun v hv h => hun v h (huse v (.tail _ (List.mem_append_right _ hv))))
    intro v hv
    rw [bind_other _ _ _ hv]
    exact h v hv

theorem placed_noYield {p : Bool} {bs : List Block} (h : placedB false p bs) :
    ∀ blk ∈ bs, ∀ vs, Op.yield vs ∉ blk.ops := by
  induction bs with
  | nil => intro blk hb; cases hb
  | cons x bs ih =>
    obtain ⟨l, ps, os⟩ := x
    intro blk hb vs hv
    rcases List.mem_cons.1 hb with rfl | hb
    · replace h := h.1
      simp only [Block.ops] at hv
      clear ih hb
      induction os with
      | nil => cases hv
      | cons o os ih =>
        rcases List.mem_cons.1 hv with rfl | hv
        · cases h.1
        · exact ih hv h.2
    · exact ih h.2 blk hb vs hv

theorem loop_ok {init res : List Value} {body : List Block} {h : Label}
    (W : WF ⟨source pre post b ps before (.loop init res body) after, nl, nv⟩)
    (hh : firstLabel body = some h) :
    WF ⟨target pre post (redirCB h nl res.length body) b nl ps res before [.br init h] after, nl + 1,
      nv⟩ ∧
    ∀ (I : Interp) as s o s',
      Behaves I (source pre post b ps before (.loop init res body) after) as s o s' ↔
      Behaves I (target pre post (redirCB h nl res.length body) b nl ps res before [.br init h] after)
        as s o s' := by
  have hin := scopes_in W.branches
  have htd := W.tidy
  simp only [source, tidyB_append, tidyB] at htd
  obtain ⟨-, -, htop, -⟩ := tidyO_split htd.2.1
  obtain ⟨-, -, ht1⟩ := htop
  have hpl := W.placed
  simp only [source, placedB_append, placedB, placedO_append, placedO] at hpl
  have hp := hpl.2.1.2.1
  have hfirst : ∀ L, ((redirCB h nl res.length body).map Block.label ++ L) =
      body.map Block.label ++ L := fun L => by rw [redirCB_labels]
  have W' : WF ⟨target pre post (redirCB h nl res.length body) b nl ps res before [.br init h] after,
      nl + 1, nv⟩ := by
    refine splice_wf [] [] W (by simp) (by simp) (by omega) (by simp) (by simp) (by omega) ?_ ?_ ?_ ?_
      ?_ ?_
    · intro a
      rw [redirCB_labels_all]
      simp [labelsO, Op.labels]
    · intro a
      rw [redirCB_defs_all]
      simp only [defsO, Op.defs, List.count_append, List.count_nil, List.append_nil]
      omega
    · intro v hv
      left
      rcases List.mem_append.1 hv with hv | hv
      · simp only [usesO, Op.uses, List.append_nil, List.mem_append] at hv ⊢
        exact .inl hv
      · exact List.mem_append_right _ (redirCB_uses _ _ _ _ v hv)
    · intro hsub
      have hsubT : ∀ l ∈ body.map Block.label, l ∈ _ := fun l hl =>
        hsub l (List.mem_append_right _ (.tail _ (by rw [redirCB_labels]; exact hl)))
      refine ⟨⟨hsubT _ (first_mem hh), trivial⟩, ?_⟩
      refine redirCB_scopes _ _ _ (hsubT _ (first_mem hh)) (hsub _ (List.mem_append_right _ (.head _)))
        _ (scopesB_mono ?_ _ hin.2.2.1)
      intro l hl
      rcases List.mem_append.1 hl with hl | hl
      · exact hsubT l hl
      · exact hsub l (List.mem_append_left _ hl)
    · exact ⟨⟨trivial, fun _ => rfl, trivial⟩, redirCB_tidy _ _ _ _ ht1⟩
    · exact ⟨⟨trivial, trivial⟩, redirCB_placed _ _ _ _ _ _ hp⟩
  refine ⟨W', ?_⟩
  intro I as s o s'
  have hn2 := map_nodup W'.labels
  have hbody : (labelsB body).Nodup := by
    have := W.labels
    simp only [source, labelsB_append, labelsB, labelsO_append, labelsO, Op.labels] at this
    have h1 := (List.nodup_cons.1 (List.nodup_append.1 this).2.1).2
    have h2 := (List.nodup_append.1 (List.nodup_append.1 h1).1).2.1
    exact (List.nodup_append.1 h2).1
  have hfresh : ∀ l ∈ labelsB body, l < nl := by
    intro l hl
    refine W.freshLabel l ?_
    simp only [source, labelsB_append, labelsB, labelsO_append, labelsO, Op.labels, List.mem_append,
      List.mem_cons]
    tauto
  have hx : findBlock nl (target pre post (redirCB h nl res.length body) b nl ps res before
      [.br init h] after) = some (.mk nl res after) := find_of_mem hn2 (by simp [target])
  refine splice_behaves (F := fun _ => False) (map_nodup W.labels) hn2 W.branches (fun _ _ h => h) ?_ as
    s o s'
  refine loop_step hx (fun e e' v hag => ?_) (fun _ _ h => h) hh
    (within_redirC hn2 (fun blk hb => ?_) (fun blk hb => label_deep hbody (first_mem hh) hb)
      fun blk hb hm => ?_) (fun _ _ h => h) (placed_noYield hp)
  · cases res with
    | nil => simpa [bind] using hag
    | cons r res =>
      rw [if_pos (by simp)]
      exact hag.bind _ _
  · simp only [target, List.mem_append, List.mem_cons]
    tauto
  · exact Nat.lt_irrefl nl (hfresh nl (labelsB_mem hb hm))

/-! ## `scf.switch` -/

/-- The blocks of the cases, and of the default. -/
def bodies (cs : List Case) : List Block :=
  (casesOf cs).flatMap Prod.snd ++ (defaultOf cs).getD []

theorem bodies_case (v : Int) (bs : List Block) (cs : List Case) :
    bodies (.mk (some v) bs :: cs) = bs ++ bodies cs := by
  simp [bodies, casesOf, defaultOf]

theorem bodies_default (bs : List Block) (cs : List Case) :
    bodies (.mk none bs :: cs) = bodies cs ∨
    defaultOf cs = none ∧ bodies (.mk none bs :: cs) = bodies cs ++ bs := by
  cases h : defaultOf cs with
  | none => right; simp [bodies, casesOf, defaultOf, h]
  | some db => left; simp [bodies, casesOf, defaultOf, h]

theorem bodies_labels (cs : List Case) (a : Nat) :
    (labelsB (bodies cs)).count a ≤ (labelsC cs).count a := by
  induction cs with
  | nil => simp [bodies, casesOf, defaultOf, labelsB]
  | cons c cs ih =>
    obtain ⟨v, bs⟩ := c
    simp only [labelsC, List.count_append]
    cases v with
    | some v =>
      rw [bodies_case, labelsB_append, List.count_append]
      omega
    | none =>
      rcases bodies_default bs cs with h | ⟨_, h⟩
      · rw [h]; omega
      · rw [h, labelsB_append, List.count_append]; omega

theorem bodies_defs (cs : List Case) (a : Nat) :
    (defsB (bodies cs)).count a ≤ (defsC cs).count a := by
  induction cs with
  | nil => simp [bodies, casesOf, defaultOf, defsB]
  | cons c cs ih =>
    obtain ⟨v, bs⟩ := c
    simp only [defsC, List.count_append]
    cases v with
    | some v =>
      rw [bodies_case, defsB_append, List.count_append]
      omega
    | none =>
      rcases bodies_default bs cs with h | ⟨_, h⟩
      · rw [h]; omega
      · rw [h, defsB_append, List.count_append]; omega

theorem bodies_uses (cs : List Case) : ∀ v ∈ usesB (bodies cs), v ∈ usesC cs := by
  induction cs with
  | nil => intro v hv; exact hv
  | cons c cs ih =>
    obtain ⟨w, bs⟩ := c
    intro v hv
    simp only [usesC, List.mem_append]
    cases w with
    | some w =>
      rw [bodies_case, usesB_append, List.mem_append] at hv
      exact hv.imp id (ih v)
    | none =>
      rcases bodies_default bs cs with h | ⟨_, h⟩
      · rw [h] at hv; exact .inr (ih v hv)
      · rw [h, usesB_append, List.mem_append] at hv
        exact (hv.imp (ih v) id).symm

theorem bodies_tidy (cs : List Case) (h : tidyC cs) : tidyB (bodies cs) := by
  induction cs with
  | nil => trivial
  | cons c cs ih =>
    obtain ⟨w, bs⟩ := c
    cases w with
    | some w => rw [bodies_case, tidyB_append]; exact ⟨h.2.1, ih h.2.2⟩
    | none =>
      rcases bodies_default bs cs with hb | ⟨_, hb⟩
      · rw [hb]; exact ih h.2.2
      · rw [hb, tidyB_append]; exact ⟨ih h.2.2, h.2.1⟩

theorem bodies_placed {p : Bool} (cs : List Case) (h : placedC p cs) :
    placedB true p (bodies cs) := by
  induction cs with
  | nil => trivial
  | cons c cs ih =>
    obtain ⟨w, bs⟩ := c
    cases w with
    | some w => rw [bodies_case, placedB_append]; exact ⟨h.1, ih h.2⟩
    | none =>
      rcases bodies_default bs cs with hb | ⟨_, hb⟩
      · rw [hb]; exact ih h.2
      · rw [hb, placedB_append]; exact ⟨ih h.2, h.1⟩

theorem bodies_scopes {L L2 : List Label} (hL : ∀ l ∈ L, l ∈ L2) (cs : List Case) (h : scopesC L cs)
    (hb : ∀ l ∈ (bodies cs).map Block.label, l ∈ L2) : scopesB L2 (bodies cs) := by
  induction cs with
  | nil => trivial
  | cons c cs ih =>
    obtain ⟨w, bs⟩ := c
    have key : (∀ l ∈ bs.map Block.label, l ∈ L2) → scopesB L2 bs := fun hbs =>
      scopesB_mono (fun l hl => (List.mem_append.1 hl).elim (hbs l) (hL l)) _ h.1
    cases w with
    | some w =>
      rw [bodies_case] at hb ⊢
      simp only [List.map_append, List.mem_append] at hb
      rw [scopesB_append]
      exact ⟨key fun l hl => hb l (.inl hl), ih h.2 fun l hl => hb l (.inr hl)⟩
    | none =>
      rcases bodies_default bs cs with he | ⟨_, he⟩
      · rw [he] at hb ⊢
        exact ih h.2 hb
      · rw [he] at hb ⊢
        simp only [List.map_append, List.mem_append] at hb
        rw [scopesB_append]
        exact ⟨ih h.2 fun l hl => hb l (.inl hl), key fun l hl => hb l (.inr hl)⟩

theorem bodies_weight (cs : List Case) :
    weightB (bodies cs) + (casesOf cs).length ≤ weightC cs := by
  induction cs with
  | nil => simp [bodies, casesOf, defaultOf, weightB]
  | cons c cs ih =>
    obtain ⟨w, bs⟩ := c
    cases w with
    | some w =>
      rw [bodies_case, weightB_append]
      simp only [weightC, casesOf, List.length_cons]
      omega
    | none =>
      rcases bodies_default bs cs with he | ⟨_, he⟩
      · rw [he]; simp only [weightC, casesOf]; omega
      · rw [he, weightB_append]; simp only [weightC, casesOf]; omega

/-! ### The chain of comparisons -/

theorem range'_two (v n : Nat) : List.range' v (2 * (n + 1)) = v :: (v + 1) :: List.range' (v + 2) (2 * n) := by
  rw [show 2 * (n + 1) = 2 * n + 1 + 1 by omega, List.range'_succ, List.range'_succ]

theorem chain_labels (d dflt : Nat) : ∀ (es : List (Int × Label)) (l v : Nat),
    labelsO (chainTail d dflt l v es) = [] ∧
    labelsB (chainRest d dflt l v es) = List.range' l (es.length - 1) ∧
    (chainRest d dflt l v es).map Block.label = List.range' l (es.length - 1)
  | [], _, _ => ⟨rfl, rfl, rfl⟩
  | [(_, _)], _, _ => ⟨rfl, rfl, rfl⟩
  | (_, _) :: p :: es, l, v => by
    obtain ⟨h1, h2, h3⟩ := chain_labels d dflt (p :: es) (l + 1) (v + 2)
    refine ⟨rfl, ?_, ?_⟩
    · rw [chainRest, chain_eq]
      simp only [labelsB, List.nil_append, h1, h2]
      simp [List.range'_succ]
    · rw [chainRest, chain_eq]
      simp only [List.map_cons, Block.label, h3]
      simp [List.range'_succ]

theorem chain_defs (d dflt : Nat) : ∀ (es : List (Int × Label)) (l v : Nat),
    defsO (chainTail d dflt l v es) ++ defsB (chainRest d dflt l v es) = List.range' v (2 * es.length)
  | [], _, _ => rfl
  | [(_, _)], _, _ => rfl
  | (_, _) :: p :: es, l, v => by
    have h1 := chain_defs d dflt (p :: es) (l + 1) (v + 2)
    rw [chainRest, chain_eq]
    rw [List.length_cons (as := p :: es), range'_two, ← h1]
    rfl

theorem chain_uses (d dflt : Nat) : ∀ (es : List (Int × Label)) (l v : Nat),
    ∀ w ∈ usesO (chainTail d dflt l v es) ++ usesB (chainRest d dflt l v es),
      w = d ∨ w ∈ List.range' v (2 * es.length)
  | [], _, _, w, hw => by cases hw
  | [(_, _)], _, v, w, hw => by
    simp only [chainTail, chainRest, usesO, usesB, Op.uses, List.nil_append, List.append_nil,
      List.mem_cons, List.mem_append, List.not_mem_nil, or_false] at hw
    rw [List.length_cons, range'_two]
    simp only [List.mem_cons]
    tauto
  | (_, _) :: p :: es, l, v, w, hw => by
    have h1 := chain_uses d dflt (p :: es) (l + 1) (v + 2) w
    rw [chainRest, chain_eq] at hw
    simp only [chainTail, usesB, usesO, Op.uses, List.nil_append, List.mem_append, List.mem_cons,
      List.not_mem_nil, or_false] at hw h1
    rw [List.length_cons (as := p :: es), range'_two]
    simp only [List.mem_cons]
    tauto

theorem chain_scopes {L : List Label} {d dflt : Nat} (hd : dflt ∈ L) :
    ∀ (es : List (Int × Label)) (l v : Nat), (∀ p ∈ es, p.2 ∈ L) →
      (∀ a ∈ List.range' l (es.length - 1), a ∈ L) →
      scopesO L (chainTail d dflt l v es) ∧ scopesB L (chainRest d dflt l v es)
  | [], _, _, _, _ => ⟨⟨hd, trivial⟩, trivial⟩
  | [(_, _)], _, _, he, _ => ⟨⟨trivial, trivial, ⟨he _ (.head _), hd⟩, trivial⟩, trivial⟩
  | (_, _) :: p :: es, l, v, he, hl => by
    have hr : List.range' l (es.length + 1) = l :: List.range' (l + 1) es.length := List.range'_succ
    simp only [List.length_cons, Nat.add_sub_cancel] at hl
    rw [hr] at hl
    obtain ⟨h1, h2⟩ := chain_scopes hd (p :: es) (l + 1) (v + 2) (fun q hq => he q (.tail _ hq))
      (fun a ha => hl a (List.mem_cons_of_mem _ (by simpa using ha)))
    refine ⟨⟨trivial, trivial, ⟨he _ (.head _), hl _ (.head _)⟩, trivial⟩, ?_⟩
    rw [chainRest, chain_eq]
    exact ⟨h1, h2⟩

theorem chain_tidy (d dflt : Nat) : ∀ (es : List (Int × Label)) (l v : Nat),
    tidyO (chainTail d dflt l v es) ∧ tidyB (chainRest d dflt l v es)
  | [], _, _ => ⟨by simp [chainTail, tidyO, Op.tidy], trivial⟩
  | [(_, _)], _, _ => ⟨by simp [chainTail, tidyO, Op.tidy, Op.isTerm], trivial⟩
  | (_, _) :: p :: es, l, v => by
    obtain ⟨h1, h2⟩ := chain_tidy d dflt (p :: es) (l + 1) (v + 2)
    refine ⟨by simp [chainTail, tidyO, Op.tidy, Op.isTerm], ?_⟩
    rw [chainRest, chain_eq]
    exact ⟨h1, h2⟩

theorem chain_placed (d dflt : Nat) : ∀ (es : List (Int × Label)) (l v : Nat),
    placedO false false (chainTail d dflt l v es) ∧ placedB false false (chainRest d dflt l v es)
  | [], _, _ => ⟨by simp [chainTail, placedO, Op.placed], trivial⟩
  | [(_, _)], _, _ => ⟨by simp [chainTail, placedO, Op.placed], trivial⟩
  | (_, _) :: p :: es, l, v => by
    obtain ⟨h1, h2⟩ := chain_placed d dflt (p :: es) (l + 1) (v + 2)
    refine ⟨by simp [chainTail, placedO, Op.placed], ?_⟩
    rw [chainRest, chain_eq]
    exact ⟨h1, h2⟩

theorem chain_weight (d dflt : Nat) : ∀ (es : List (Int × Label)) (l v : Nat),
    weightO (chainTail d dflt l v es) = 0 ∧ weightB (chainRest d dflt l v es) = es.length - 1
  | [], _, _ => ⟨rfl, rfl⟩
  | [(_, _)], _, _ => ⟨rfl, rfl⟩
  | (_, _) :: p :: es, l, v => by
    obtain ⟨h1, h2⟩ := chain_weight d dflt (p :: es) (l + 1) (v + 2)
    refine ⟨rfl, ?_⟩
    rw [chainRest, chain_eq]
    simp only [weightB, List.nil_append, h1, h2, List.length_cons]
    omega

theorem case_mem_bodies {cs : List Case} {p : Int × List Block} (hp : p ∈ casesOf cs) :
    ∀ blk ∈ p.2, blk ∈ bodies cs := fun blk hb =>
  List.mem_append_left _ (List.mem_flatMap.2 ⟨p, hp, hb⟩)

/-- The block of a missing default, where the default leads, and the first number for the chain. -/
inductive DefaultBlock (nl : Nat) (cs : List Case) : List Block → Nat → Nat → Prop where
  | given {db : List Block} {dflt : Nat} : defaultOf cs = some db → firstLabel db = some dflt →
      DefaultBlock nl cs [] dflt (nl + 1)
  | missing : defaultOf cs = none →
      DefaultBlock nl cs [.mk (nl + 1) [] [.br [] nl]] (nl + 1) (nl + 2)

theorem switch_ok {d : Value} {cs : List Case} {es : List (Int × Label)} {extra : List Block}
    {dflt l : Nat}
    (W : WF ⟨source pre post b ps before (.switch d [] cs) after, nl, nv⟩)
    (hes : entries (casesOf cs) = some es) (hd : DefaultBlock nl cs extra dflt l) :
    WF ⟨target pre post ((bodies cs).map (redirYBlk nl 0) ++ extra ++ chainRest d dflt l nv es) b nl ps
      [] before (chainTail d dflt l nv es) after, l + (es.length - 1), nv + 2 * es.length⟩ ∧
    ∀ (I : Interp) as s o s',
      Behaves I (source pre post b ps before (.switch d [] cs) after) as s o s' ↔
      Behaves I (target pre post ((bodies cs).map (redirYBlk nl 0) ++ extra ++
        chainRest d dflt l nv es) b nl ps [] before (chainTail d dflt l nv es) after) as s o s' := by
  have hin := scopes_in W.branches
  have htd := W.tidy
  simp only [source, tidyB_append, tidyB] at htd
  obtain ⟨-, -, htop, -⟩ := tidyO_split htd.2.1
  have hpl := W.placed
  simp only [source, placedB_append, placedB, placedO_append, placedO] at hpl
  have hp := hpl.2.1.2.1
  have huse : ∀ v ∈ d :: usesC cs, v < nv := by
    intro v hv
    refine W.freshValue v (List.mem_append_right _ ?_)
    simp only [source, usesB_append, usesB, usesO_append, usesO, Op.uses, List.mem_append]
    exact .inr (.inl (.inr (.inl hv)))
  have hx1 : ∀ a : Nat, (labelsB extra).count a = (extra.map Block.label).count a ∧
      (defsB extra).count a = 0 ∧ usesB extra = [] := by
    intro a; cases hd <;> simp [labelsB, labelsO, Op.labels, defsB, defsO, Op.defs, usesB, usesO,
      Op.uses, Block.label]
  obtain ⟨c1, c2, c3⟩ := chain_labels d dflt es l nv
  have c4 := chain_defs d dflt es l nv
  have W' : WF ⟨target pre post ((bodies cs).map (redirYBlk nl 0) ++ extra ++
      chainRest d dflt l nv es) b nl ps [] before (chainTail d dflt l nv es) after,
      l + (es.length - 1), nv + 2 * es.length⟩ := by
    refine splice_wf (extra.map Block.label ++ List.range' l (es.length - 1))
      (List.range' nv (2 * es.length)) W ?_ ?_ ?_ (List.nodup_range' ..) ?_ (by omega) ?_ ?_ ?_ ?_ ?_ ?_
    · have hr := List.nodup_range' (s := l) (n := es.length - 1) (step := 1)
      have hm : ∀ a, a < l → a ∉ List.range' l (es.length - 1) := by
        intro a ha; simp only [List.mem_range'_1]; omega
      cases hd with
      | given => simp only [List.map_nil, List.nil_append, List.nodup_cons]; exact ⟨hm _ (by omega), hr⟩
      | missing =>
        simp only [List.map_cons, List.map_nil, Block.label, List.cons_append, List.nil_append,
          List.nodup_cons, List.mem_cons, not_or]
        exact ⟨⟨by omega, hm _ (by omega)⟩, hm _ (by omega), hr⟩
    · intro a ha
      cases hd with
      | given => simp [List.mem_range'_1] at ha; omega
      | missing => simp [List.mem_range'_1, Block.label] at ha; omega
    · cases hd <;> omega
    · intro v hv; simp only [List.mem_range'_1] at hv; omega
    · intro a
      simp only [labelsB_append, redirYB_labels, List.count_append, c1, c2, List.count_nil, Op.labels,
        (hx1 a).1]
      have := bodies_labels cs a
      omega
    · intro a
      have h1 : (defsO (chainTail d dflt l nv es)).count a + (defsB (chainRest d dflt l nv es)).count a
          = (List.range' nv (2 * es.length)).count a := by rw [← c4, List.count_append]
      have := bodies_defs cs a
      have := (hx1 a).2.1
      simp only [defsB_append, redirYB_defs, List.count_append, List.count_nil, Op.defs,
        List.nil_append]
      omega
    · intro v hv
      have h1 := chain_uses d dflt es l nv v
      simp only [usesB_append, List.mem_append, (hx1 0).2.2, List.not_mem_nil, or_false] at hv h1
      simp only [Op.uses, List.mem_cons]
      rcases hv with hv | hv | hv
      · rcases h1 (.inl hv) with h | h
        · exact .inl (.inl h)
        · exact .inr h
      · exact .inl (.inr (bodies_uses cs v (redirYB_uses _ _ _ v hv)))
      · rcases h1 (.inr hv) with h | h
        · exact .inl (.inl h)
        · exact .inr h
    · intro hsub
      have hsubL := fun a ha => hsub a (List.mem_append_left _ ha)
      have hnl := hsub nl (List.mem_append_right _ (.head _))
      have hsubM : ∀ a, (a ∈ (bodies cs).map Block.label ∨ a ∈ extra.map Block.label) ∨
          a ∈ List.range' l (es.length - 1) → a ∈ (target pre post ((bodies cs).map (redirYBlk nl 0) ++
          extra ++ chainRest d dflt l nv es) b nl ps [] before (chainTail d dflt l nv es) after).map
          Block.label := fun a ha => hsub a (List.mem_append_right _ (List.mem_cons_of_mem _ (by
            rw [List.map_append, List.map_append, redirY_labels, c3, List.mem_append,
              List.mem_append]
            exact ha)))
      have hdm : dflt ∈ (target pre post ((bodies cs).map (redirYBlk nl 0) ++ extra ++
          chainRest d dflt l nv es) b nl ps [] before (chainTail d dflt l nv es) after).map
          Block.label := by
        refine hsubM dflt ?_
        cases hd with
        | given h1 h2 =>
          left; left
          rw [bodies, h1, List.map_append]
          exact List.mem_append_right _ (first_mem h2)
        | missing => left; right; exact .head _
      have hch := chain_scopes (d := d) hdm es l nv (fun q hq => by
        obtain ⟨p, hp, h1⟩ := entries_mem hes q hq
        refine hsubM _ (.inl (.inl ?_))
        obtain ⟨blk, hb, h2⟩ := List.mem_map.1 (first_mem h1)
        exact List.mem_map.2 ⟨blk, case_mem_bodies hp blk hb, h2⟩) (fun a ha => hsubM a (.inr ha))
      refine ⟨hch.1, ?_⟩
      rw [scopesB_append, scopesB_append]
      refine ⟨⟨redirYB_scopes _ _ hnl _ (bodies_scopes hsubL cs hin.2.2.1 fun a ha =>
        hsubM a (.inl (.inl ha))), ?_⟩, hch.2⟩
      cases hd with
      | given => trivial
      | missing => exact ⟨⟨hnl, trivial⟩, trivial⟩
    · refine ⟨(chain_tidy ..).1, ?_⟩
      rw [tidyB_append, tidyB_append]
      refine ⟨⟨redirYB_tidy _ _ _ (bodies_tidy cs htop.2), ?_⟩, (chain_tidy ..).2⟩
      cases hd with
      | given => trivial
      | missing => exact ⟨⟨trivial, fun _ => rfl, trivial⟩, trivial⟩
    · refine ⟨(chain_placed ..).1, ?_⟩
      rw [placedB_append, placedB_append]
      refine ⟨⟨redirYB_placed _ _ _ (bodies_placed cs hp), ?_⟩, (chain_placed ..).2⟩
      cases hd with
      | given => trivial
      | missing => exact ⟨⟨trivial, trivial⟩, trivial⟩
  refine ⟨W', ?_⟩
  intro I as s o s'
  have hn2 := map_nodup W'.labels
  have hbody : ∀ T : List Block, (∀ blk ∈ T, blk ∈ bodies cs) → Within (I := I) (outY nl 0) T
      (target pre post ((bodies cs).map (redirYBlk nl 0) ++ extra ++ chainRest d dflt l nv es) b nl ps
        [] before (chainTail d dflt l nv es) after) := fun T hT =>
    within_redirY hn2 fun blk hb => by
      have : redirYBlk nl 0 blk ∈ (bodies cs).map (redirYBlk nl 0) := List.mem_map_of_mem (hT blk hb)
      simp only [target, List.mem_append, List.mem_cons]
      tauto
  have hub : ∀ T : List Block, (∀ blk ∈ T, blk ∈ bodies cs) → ∀ v ∈ usesB T, v < nv := by
    intro T hT v hv
    refine huse v (.tail _ (bodies_uses cs v ?_))
    clear hbody
    induction T with
    | nil => cases hv
    | cons x T ih =>
      obtain ⟨l', ps', os⟩ := x
      simp only [usesB, List.mem_append] at hv
      rcases hv with hv | hv
      · exact usesB_mem (hT _ (.head _)) hv
      · exact ih (fun blk hb => hT blk (.tail _ hb)) hv
  refine splice_behaves (F := fun v => nv ≤ v) (map_nodup W.labels) hn2 W.branches
    (fun v hv => Nat.not_le.2 (W.freshValue v (List.mem_append_right _ hv))) ?_ as s o s'
  refine switch_step (huse d (.head _)) (find_of_mem hn2 (by simp [target])) hes
    (fun p hp => hbody _ (case_mem_bodies hp)) (fun p hp => hub _ (case_mem_bodies hp)) ?_ ?_
  · cases hd with
    | given h1 h2 =>
      rw [h1]
      have hT : ∀ blk ∈ _, blk ∈ bodies cs := fun blk hb => by
        rw [bodies, h1]; exact List.mem_append_right _ hb
      exact .given h2 (hbody _ hT) (hub _ hT)
    | missing h1 =>
      rw [h1]
      exact .missing (find_of_mem hn2 (by simp [target]))
  · intro blk hb
    obtain ⟨l', ps', os⟩ := blk
    refine find_of_mem hn2 ?_
    simp only [target, List.mem_append, List.mem_cons]
    tauto

end

end Verif.ScfToCf
