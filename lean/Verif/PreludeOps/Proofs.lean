import Verif.PreludeOps.Spec

namespace Verif.PreludeOps

section
variable {act : OpData → Action} {E : OpData → Prop} {R : OpData → OpData → Prop}
  (he : ∀ d, act d = .erase ↔ E d) (hk : ∀ d, act d = .keep → R d d)
  (hr : ∀ d d', act d = .replace d' → R d d' ∧ d' ≠ d)
include he hk hr

mutual
theorem visitOp_lowered : ∀ o : Op, LoweredOp E R o (visitOp act o).1
  | .mk d bs => by
    have ih := visitBlocks_lowered bs
    rw [visitOp]
    cases ha : act d with
    | keep =>
      refine .same _ _ _ ?_ (hk d ha) ih
      rw [← he, ha]; simp
    | erase => exact .dropped _ _ ((he d).1 ha)
    | replace d' =>
      refine .changed _ _ _ ?_ (hr d d' ha).2 (hr d d' ha).1
      rw [← he, ha]; simp
theorem visitBlocks_lowered : ∀ bs : List Block, LoweredBlocks E R bs (visitBlocks act bs).1
  | [] => .nil
  | .mk ops :: bs => .cons _ _ _ _ (visitOps_lowered ops) (visitBlocks_lowered bs)
theorem visitOps_lowered : ∀ os : List Op, LoweredOps E R os (visitOps act os).1
  | [] => .nil
  | o :: os => .cons _ _ _ _ (visitOp_lowered o) (visitOps_lowered os)
end
end

theorem visitOps_append (act : OpData → Action) (l l' : List Op) :
    visitOps act (l ++ l') =
      ((visitOps act l).1 ++ (visitOps act l').1, (visitOps act l).2 + (visitOps act l').2) := by
  induction l with
  | nil => simp [visitOps]
  | cons o l ih => simp [visitOps, ih, Nat.add_assoc]

section
variable {act : OpData → Action} (ha : ∀ d d', act d = .replace d' → act d' = .keep)
include ha

mutual
theorem visitOp_idem : ∀ o : Op, visitOps act (visitOp act o).1 = ((visitOp act o).1, 0)
  | .mk d bs => by
    have ih := visitBlocks_idem bs
    rw [visitOp]
    cases h : act d with
    | keep => simp [visitOps, visitOp, h, ih]
    | erase => simp [visitOps]
    | replace d' => simp [visitOps, visitOp, ha d d' h, visitBlocks]
theorem visitBlocks_idem : ∀ bs : List Block,
    visitBlocks act (visitBlocks act bs).1 = ((visitBlocks act bs).1, 0)
  | [] => rfl
  | .mk ops :: bs => by
    have h1 := visitOps_idem ops
    have h2 := visitBlocks_idem bs
    simp [visitBlocks, visitBlock, h1, h2]
theorem visitOps_idem : ∀ os : List Op, visitOps act (visitOps act os).1 = ((visitOps act os).1, 0)
  | [] => rfl
  | o :: os => by
    have h1 := visitOp_idem o
    have h2 := visitOps_idem os
    simp [visitOps, visitOps_append, h1, h2]
end

theorem loop_eq (n : Nat) (ops : List Op) : loop act (n + 2) ops = ((visitOps act ops).1, true) := by
  rw [loop]
  beta_reduce
  split
  · rfl
  · rw [loop, visitOps_idem ha]; simp
end

section
variable {act : OpData → Action} (hk : ∀ d, act d = .keep)
include hk
mutual
theorem visitOp_keep : ∀ o : Op, visitOp act o = ([o], 0)
  | .mk d bs => by
    have ih := visitBlocks_keep bs
    simp [visitOp, hk, ih]
theorem visitBlocks_keep : ∀ bs : List Block, visitBlocks act bs = (bs, 0)
  | [] => rfl
  | .mk ops :: bs => by
    have h1 := visitOps_keep ops
    have h2 := visitBlocks_keep bs
    simp [visitBlocks, visitBlock, h1, h2]
theorem visitOps_keep : ∀ os : List Op, visitOps act os = (os, 0)
  | [] => rfl
  | o :: os => by
    have h1 := visitOp_keep o
    have h2 := visitOps_keep os
    simp [visitOps, h1, h2]
end
end

/-! ### Names -/

theorem isPrepend_iff (n : String) : isPrepend n = true ↔ PrependLike n := by
  unfold isPrepend PrependLike
  simp only [Bool.or_eq_true, beq_iff_eq, Bool.and_eq_true, List.isPrefixOf_iff_prefix]
  constructor
  · rintro (h | ⟨⟨t, ht⟩, h⟩)
    · exact .inl h
    · right
      rw [← ht, List.drop_left] at h
      cases t with
      | nil => simp at h
      | cons c t =>
        simp only [List.head?_cons, Option.some.injEq] at h
        subst h
        refine ⟨String.ofList t, ?_⟩
        apply String.toList_injective
        rw [← ht]
        simp [prependName]
  · rintro (h | ⟨s, rfl⟩)
    · exact .inl h
    · right
      refine ⟨⟨'$' :: s.toList, ?_⟩, ?_⟩
      · simp [prependName]
      · have : ("List::__tribute_list_prepend_intrinsic" ++ "$" ++ s).toList =
            prependName.toList ++ '$' :: s.toList := by simp [prependName]
        rw [this, List.drop_left]
        rfl

theorem funcName_iff (d : OpData) (n : String) : funcName d = some n ↔ IsFunc d n := by
  unfold funcName IsFunc
  split
  · next h => simp at h; simp [h]
  · next h =>
    simp at h
    constructor
    · intro h'; cases h'
    · rintro ⟨h1, h2, -⟩; exact absurd h2 (h h1)

theorem callee_iff (d : OpData) (n : String) : callee d = some n ↔ IsCall d n := by
  unfold callee IsCall
  split
  · next h => simp at h; simp [h]
  · next h =>
    simp at h
    constructor
    · intro h'; cases h'
    · rintro ⟨h1, h2, -⟩; exact absurd h2 (h h1)

theorem collect_mem (ops : List Op) (acc : Declarations) (n : String) :
    (n ∈ (ops.foldl (fun acc o => collectOne acc o.data) acc).all ↔ n ∈ acc.all ∨ Declared ops n) ∧
    (n ∈ (ops.foldl (fun acc o => collectOne acc o.data) acc).eligible ↔
      n ∈ acc.eligible ∨ IntrinsicDeclared ops n) := by
  induction ops generalizing acc with
  | nil => simp [Declared, IntrinsicDeclared]
  | cons o ops ih =>
    simp only [List.foldl_cons]
    obtain ⟨h1, h2⟩ := ih (collectOne acc o.data)
    rw [h1, h2]
    have hd : Declared (o :: ops) n ↔ IsFunc o.data n ∨ Declared ops n := by simp [Declared]
    have hi : IntrinsicDeclared (o :: ops) n ↔
        (PrependLike n ∧ IsFunc o.data n ∧ o.data.abi = some "intrinsic") ∨
          IntrinsicDeclared ops n := by
      simp only [IntrinsicDeclared, List.mem_cons, exists_eq_or_imp, ← and_or_left]
    rw [hd, hi]
    unfold collectOne
    cases hf : funcName o.data with
    | none =>
      have hn : ¬ IsFunc o.data n := by rw [← funcName_iff, hf]; simp
      simp [hn]
    | some m =>
      have hm : IsFunc o.data n ↔ n = m := by
        rw [← funcName_iff, hf, Option.some.injEq]; exact eq_comm
      rw [hm]
      simp only
      split
      · next h =>
        simp only [Bool.and_eq_true, isPrepend_iff, beq_iff_eq] at h
        obtain ⟨ha, hb⟩ := h
        constructor
        · simp only [List.mem_cons]
          constructor
          · rintro ((h | h) | h)
            · exact .inr (.inl h)
            · exact .inl h
            · exact .inr (.inr h)
          · rintro (h | h | h)
            · exact .inl (.inr h)
            · exact .inl (.inl h)
            · exact .inr h
        · simp only [List.mem_cons]
          constructor
          · rintro ((h | h) | h)
            · subst h; exact .inr (.inl ⟨ha, rfl, hb⟩)
            · exact .inl h
            · exact .inr (.inr h)
          · rintro (h | ⟨-, h, -⟩ | h)
            · exact .inl (.inr h)
            · exact .inl (.inl h)
            · exact .inr h
      · next h =>
        simp only [Bool.and_eq_true, isPrepend_iff, beq_iff_eq] at h
        constructor
        · simp only [List.mem_cons]
          constructor
          · rintro ((h | h) | h)
            · exact .inr (.inl h)
            · exact .inl h
            · exact .inr (.inr h)
          · rintro (h | h | h)
            · exact .inl (.inr h)
            · exact .inl (.inl h)
            · exact .inr h
        · constructor
          · rintro (h' | h')
            · exact .inl h'
            · exact .inr (.inr h')
          · rintro (h' | ⟨h1, rfl, h2⟩ | h')
            · exact .inl h'
            · exact absurd ⟨h1, h2⟩ h
            · exact .inr h'

theorem mem_all (ops : List Op) (n : String) : n ∈ (collect ops).all ↔ Declared ops n := by
  have := (collect_mem ops {} n).1
  simpa [collect] using this

theorem mem_eligible (ops : List Op) (n : String) :
    n ∈ (collect ops).eligible ↔ IntrinsicDeclared ops n := by
  have := (collect_mem ops {} n).2
  simpa [collect] using this

theorem eligibleCall_iff (ops : List Op) (n : String) (hn : PrependLike n) :
    eligibleCall (collect ops) n prependName = true ↔ MeansPrepend ops n := by
  unfold eligibleCall MeansPrepend
  have hd : IntrinsicDeclared ops n → Declared ops n := fun ⟨_, o, ho, hf, _⟩ => ⟨o, ho, hf⟩
  split
  · next h =>
    have h : Declared ops n := (mem_all ops n).1 (by simpa using h)
    rw [List.contains_iff_mem, mem_eligible]
    constructor
    · exact .inl
    · rintro (h' | ⟨-, h', -⟩)
      · exact h'
      · exact absurd h h'
  · next h =>
    have h : ¬ Declared ops n := fun h' => h (by simpa using (mem_all ops n).2 h')
    rw [List.contains_iff_mem, mem_eligible]
    constructor
    · exact fun h' => .inr ⟨hn, h, h'⟩
    · rintro (h' | ⟨-, -, h'⟩)
      · exact absurd (hd h') h
      · exact h'

theorem MeansPrepend.like {ops : List Op} {n : String} (h : MeansPrepend ops n) : PrependLike n := by
  rcases h with h | h
  · exact h.1
  · exact h.1

/-! ### The actions -/

theorem prependCall_keep (ops : List Op) (ty : Nat → Nat) (d : OpData) :
    prependCall (collect ops) ty d = .keep ↔ ¬ ∃ a b r, PrependCall ops d a b r := by
  unfold prependCall
  cases hc : callee d with
  | none =>
    simp only [true_iff]
    rintro ⟨a, b, r, ⟨n, hn, -⟩, -⟩
    rw [← callee_iff, hc] at hn; cases hn
  | some n =>
    have hn := (callee_iff d n).1 hc
    have huniq : ∀ m, IsCall d m → m = n := by
      intro m hm; rw [← callee_iff, hc] at hm; exact (Option.some.inj hm).symm
    simp only [intrinsicDeclaration]
    by_cases hp : PrependLike n
    · rw [if_pos ((isPrepend_iff n).2 hp)]
      simp only
      by_cases hm : MeansPrepend ops n
      · rw [(eligibleCall_iff ops n hp).2 hm]
        simp only [Bool.not_true, Bool.false_eq_true, if_false]
        split
        · next a b r h1 h2 =>
          simp only [reduceCtorEq, false_iff, not_not]
          exact ⟨a, b, r, ⟨n, hn, hm⟩, h1, h2⟩
        · next h =>
          simp only [true_iff]
          rintro ⟨a, b, r, -, h1, h2⟩
          exact h a b r h1 h2
      · have : eligibleCall (collect ops) n prependName = false := by
          rw [← Bool.not_eq_true, eligibleCall_iff ops n hp]; exact hm
        rw [this]
        simp only [Bool.not_false, if_true, true_iff]
        rintro ⟨a, b, r, ⟨m, hm', hm''⟩, -⟩
        rw [huniq m hm'] at hm''; exact hm hm''
    · rw [if_neg (fun h => hp ((isPrepend_iff n).1 h))]
      simp only [true_iff]
      rintro ⟨a, b, r, ⟨m, hm', hm''⟩, -⟩
      rw [huniq m hm'] at hm''; exact hp hm''.like

theorem prependCall_shape (ds : Declarations) (ty : Nat → Nat) (d : OpData) :
    prependCall ds ty d = .keep ∨ ∃ a b r, d.operands = [a, b] ∧ d.results = [r] ∧
      (callee d).isSome ∧
      prependCall ds ty d = .replace { dialect := "list", name := "prepend", types := [("element_type", ty a)], operands := [a, b], results := [r] } := by
  unfold prependCall
  cases callee d with
  | none => exact .inl rfl
  | some n =>
    simp only
    cases intrinsicDeclaration n with
    | none => exact .inl rfl
    | some base =>
      simp only
      split
      · exact .inl rfl
      · split
        · next a b r h1 h2 => exact .inr ⟨a, b, r, h1, h2, rfl, rfl⟩
        · exact .inl rfl

theorem not_both (d : OpData) (h : (callee d).isSome) : funcName d = none := by
  obtain ⟨n, hn⟩ := Option.isSome_iff_exists.1 h
  have := (callee_iff d n).1 hn
  cases hf : funcName d with
  | none => rfl
  | some m =>
    have h2 := (funcName_iff d m).1 hf
    have := this.2.1.symm.trans h2.2.1
    simp at this

theorem prependDecl_iff (ops : List Op) (d : OpData) :
    prependDeclaration (collect ops) d = .erase ↔ PrependDecl ops d := by
  unfold prependDeclaration PrependDecl
  cases hf : funcName d with
  | none =>
    simp only [reduceCtorEq, false_iff]
    rintro ⟨n, hn, -⟩
    rw [← funcName_iff, hf] at hn; cases hn
  | some n =>
    constructor
    · intro h
      simp only at h
      split at h
      · next h' => exact ⟨n, (funcName_iff d n).1 hf, (mem_eligible ops n).1 (by simpa using h')⟩
      · cases h
    · rintro ⟨m, hm, h⟩
      rw [← funcName_iff, hf] at hm
      cases hm
      exact if_pos (by simpa using (mem_eligible ops n).2 h)

theorem prependDeclaration_cases (ds : Declarations) (d : OpData) :
    prependDeclaration ds d = .erase ∨ prependDeclaration ds d = .keep := by
  unfold prependDeclaration
  split
  · exact .inr rfl
  · split
    · exact .inl rfl
    · exact .inr rfl

theorem listAction_erase (ops : List Op) (ty : Nat → Nat) (d : OpData) :
    listAction (collect ops) ty d = .erase ↔ PrependDecl ops d := by
  unfold listAction
  rcases prependCall_shape (collect ops) ty d with h | ⟨a, b, r, -, -, hc, h⟩
  · rw [h]; exact prependDecl_iff ops d
  · rw [h]
    simp only [firstOf, reduceCtorEq, false_iff]
    rintro ⟨n, hn, -⟩
    rw [← funcName_iff, not_both d hc] at hn; cases hn

theorem listAction_keep (ops : List Op) (ty : Nat → Nat) (d : OpData)
    (h : listAction (collect ops) ty d = .keep) : PrependBecomes ops ty d d := by
  unfold listAction at h
  rcases prependCall_shape (collect ops) ty d with h' | ⟨a, b, r, -, -, -, h'⟩
  · exact .inr ⟨(prependCall_keep ops ty d).1 h', rfl⟩
  · rw [h'] at h; cases h

theorem listAction_replace (ops : List Op) (ty : Nat → Nat) (d d' : OpData)
    (h : listAction (collect ops) ty d = .replace d') :
    PrependBecomes ops ty d d' ∧ d' ≠ d ∧ d'.dialect = "list" := by
  unfold listAction at h
  rcases prependCall_shape (collect ops) ty d with h' | ⟨a, b, r, h1, h2, hc, h'⟩
  · rw [h'] at h
    rcases prependDeclaration_cases (collect ops) d with h2 | h2 <;> simp [firstOf, h2] at h
  · rw [h'] at h
    simp only [firstOf, Action.replace.injEq] at h
    have hex : ∃ a b r, PrependCall ops d a b r := by
      by_contra hn
      rw [(prependCall_keep ops ty d).2 hn] at h'
      cases h'
    obtain ⟨a', b', r', hp⟩ := hex
    have e1 := h1.symm.trans hp.2.1
    have e2 := h2.symm.trans hp.2.2
    simp only [List.cons.injEq, and_true] at e1 e2
    obtain ⟨rfl, rfl⟩ := e1
    subst e2
    refine ⟨.inl ⟨a, b, r, hp, h.symm⟩, ?_, by rw [← h]⟩
    intro hd
    obtain ⟨n, hn, -⟩ := hp.1
    rw [← hd, ← h] at hn
    have := hn.1
    simp at this

theorem other_dialect (ds : Declarations) (ty : Nat → Nat) (d : OpData) (h : d.dialect ≠ "func") :
    listAction ds ty d = .keep ∧ ioAction d = .keep := by
  have h1 : callee d = none := by simp [callee, h]
  have h2 : funcName d = none := by simp [funcName, h]
  simp [listAction, ioAction, prependCall, ioCall, prependDeclaration, ioDeclaration, h1, h2, firstOf]

theorem lowerList_eq (ty : Nat → Nat) (ops : List Op) :
    lowerList ty ops = ((visitOps (listAction (collect ops) ty) ops).1, true) := by
  refine loop_eq ?_ 8 ops
  intro d d' h
  refine (other_dialect _ ty d' ?_).1
  rw [(listAction_replace ops ty d d' h).2.2]
  decide

theorem lowerList_lowered (ty : Nat → Nat) (ops : List Op) :
    LoweredOps (PrependDecl ops) (PrependBecomes ops ty) ops (lowerList ty ops).1 := by
  rw [lowerList_eq]
  exact visitOps_lowered (listAction_erase ops ty) (listAction_keep ops ty)
    (fun d d' h => ⟨(listAction_replace ops ty d d' h).1, (listAction_replace ops ty d d' h).2.1⟩) ops

/-! ### Input and output -/

theorem ioCall_cases (d : OpData) :
    (ioCall d = .keep ∧ IoBecomes d d) ∨ ∃ d', ioCall d = .replace d' ∧ IoBecomes d d' ∧
      d'.dialect = "tribute_io" ∧ (callee d).isSome := by
  unfold ioCall
  cases hc : callee d with
  | none =>
    refine .inl ⟨rfl, .same _ ?_ ?_⟩
    · rintro ⟨a, b, r, h, -⟩
      rw [← callee_iff, hc] at h; cases h
    · rintro ⟨r, h, -⟩
      rw [← callee_iff, hc] at h; cases h
  | some n =>
    have hn := (callee_iff d n).1 hc
    have huniq : ∀ m, IsCall d m → m = n := by
      intro m hm; rw [← callee_iff, hc] at hm; exact (Option.some.inj hm).symm
    simp only [beq_iff_eq]
    split
    · next hw =>
      subst hw
      split
      · next r a b h1 h2 => exact .inr ⟨_, rfl, .write d a b r hn h2 h1, rfl, rfl⟩
      · next h =>
        refine .inl ⟨rfl, .same _ ?_ ?_⟩
        · rintro ⟨a, b, r, -, h1, h2⟩; exact h r a b h2 h1
        · rintro ⟨r, h', -⟩
          have := huniq _ h'
          revert this; decide
    · next hw =>
      split
      · next hr =>
        subst hr
        split
        · next r h1 h2 => exact .inr ⟨_, rfl, .readLine d r hn h2 h1, rfl, rfl⟩
        · next h =>
          refine .inl ⟨rfl, .same _ ?_ ?_⟩
          · rintro ⟨a, b, r, h', -⟩; exact hw (huniq _ h').symm
          · rintro ⟨r, -, h1, h2⟩; exact h r h2 h1
      · next hr =>
        refine .inl ⟨rfl, .same _ ?_ ?_⟩
        · rintro ⟨a, b, r, h', -⟩; exact hw (huniq _ h').symm
        · rintro ⟨r, h', -⟩; exact hr (huniq _ h').symm

theorem ioDeclaration_iff (d : OpData) : ioDeclaration d = .erase ↔ IoDecl d := by
  unfold ioDeclaration IoDecl
  cases hf : funcName d with
  | none =>
    simp only [reduceCtorEq, false_iff]
    rintro (h | h) <;> · rw [← funcName_iff, hf] at h; cases h
  | some n =>
    rw [← funcName_iff, ← funcName_iff, hf]
    simp only [Bool.and_eq_true, bne_iff_ne, ne_eq, Option.some.injEq]
    change (if ¬ n = writeName ∧ ¬ n = readLineName then Action.keep else Action.erase) = _ ↔
      n = writeName ∨ n = readLineName
    by_cases h1 : n = writeName
    · simp [h1]
    · by_cases h2 : n = readLineName
      · simp [h2]
      · simp [h1, h2]

theorem ioDeclaration_cases (d : OpData) : ioDeclaration d = .erase ∨ ioDeclaration d = .keep := by
  unfold ioDeclaration
  split
  · exact .inr rfl
  · split
    · exact .inr rfl
    · exact .inl rfl

theorem ioAction_replace (d d' : OpData) (h : ioAction d = .replace d') :
    IoBecomes d d' ∧ d' ≠ d ∧ d'.dialect = "tribute_io" := by
  unfold ioAction at h
  rcases ioCall_cases d with ⟨h', -⟩ | ⟨x, h', hb, hd, hc⟩
  · rw [h'] at h
    rcases ioDeclaration_cases d with h2 | h2 <;> simp [firstOf, h2] at h
  · rw [h'] at h
    simp only [firstOf, Action.replace.injEq] at h
    subst h
    refine ⟨hb, ?_, hd⟩
    rintro rfl
    obtain ⟨n, hn⟩ := Option.isSome_iff_exists.1 hc
    have := ((callee_iff x n).1 hn).1
    rw [hd] at this
    simp at this

theorem ioAction_erase (d : OpData) : ioAction d = .erase ↔ IoDecl d := by
  unfold ioAction
  rcases ioCall_cases d with ⟨h', -⟩ | ⟨x, h', hb, hd, hc⟩
  · rw [h']; exact ioDeclaration_iff d
  · rw [h']
    simp only [firstOf, reduceCtorEq, false_iff]
    rintro (h | h) <;> · rw [← funcName_iff, not_both d hc] at h; cases h

theorem ioAction_keep (d : OpData) (h : ioAction d = .keep) : IoBecomes d d := by
  unfold ioAction at h
  rcases ioCall_cases d with ⟨-, h'⟩ | ⟨x, h', hb, hd, hc⟩
  · exact h'
  · rw [h'] at h; cases h

theorem ioAction_again (d d' : OpData) (h : ioAction d = .replace d') : ioAction d' = .keep := by
  refine (other_dialect {} (fun _ => 0) d' ?_).2
  rw [(ioAction_replace d d' h).2.2]
  decide

theorem lowerIo_eq (ops : List Op) : lowerIo ops = ((visitOps ioAction ops).1, true) :=
  loop_eq ioAction_again 8 ops

theorem lowerIo_lowered (ops : List Op) : LoweredOps IoDecl IoBecomes ops (lowerIo ops).1 := by
  rw [lowerIo_eq]
  exact visitOps_lowered ioAction_erase ioAction_keep
    (fun d d' h => ⟨(ioAction_replace d d' h).1, (ioAction_replace d d' h).2.1⟩) ops

/-! ### What a lowered program contains -/

section
variable {E : OpData → Prop} {R : OpData → OpData → Prop}

theorem opsAll_append (l l' : List Op) : opsAll (l ++ l') = opsAll l ++ opsAll l' := by
  induction l with
  | nil => rfl
  | cons o l ih => simp [opsAll, ih]

mutual
theorem LoweredOp.mem_all : ∀ {o os}, LoweredOp E R o os → ∀ d' ∈ opsAll os,
    ∃ d ∈ o.all, R d d' ∧ ¬ E d
  | _, _, .dropped d bs h, d', hd => by simp [opsAll] at hd
  | _, _, .changed d x bs h1 h2 h3, d', hd => by
    simp [opsAll, Op.all, blocksAll] at hd
    subst hd
    exact ⟨d, by simp [Op.all], h3, h1⟩
  | _, _, .same d bs bs' h1 h2 h3, d', hd => by
    have ih := h3.mem_all d'
    simp only [opsAll, Op.all, List.append_nil, List.mem_cons] at hd
    rcases hd with rfl | hd
    · exact ⟨d', by simp [Op.all], h2, h1⟩
    · obtain ⟨x, hx, h⟩ := ih hd
      exact ⟨x, by simp [Op.all, hx], h⟩
theorem LoweredBlocks.mem_all : ∀ {bs bs'}, LoweredBlocks E R bs bs' → ∀ d' ∈ blocksAll bs',
    ∃ d ∈ blocksAll bs, R d d' ∧ ¬ E d
  | _, _, .nil, d', hd => by simp [blocksAll] at hd
  | _, _, .cons ops ops' bs bs' h1 h2, d', hd => by
    have i1 := h1.mem_all d'
    have i2 := h2.mem_all d'
    simp only [blocksAll, Block.all, List.mem_append] at hd
    rcases hd with hd | hd
    · obtain ⟨x, hx, h⟩ := i1 hd
      exact ⟨x, by simp [blocksAll, Block.all, hx], h⟩
    · obtain ⟨x, hx, h⟩ := i2 hd
      exact ⟨x, by simp [blocksAll, Block.all, hx], h⟩
theorem LoweredOps.mem_all : ∀ {os os'}, LoweredOps E R os os' → ∀ d' ∈ opsAll os',
    ∃ d ∈ opsAll os, R d d' ∧ ¬ E d
  | _, _, .nil, d', hd => by simp [opsAll] at hd
  | _, _, .cons o l ops ops' h1 h2, d', hd => by
    have i1 := h1.mem_all d'
    have i2 := h2.mem_all d'
    rw [opsAll_append, List.mem_append] at hd
    rcases hd with hd | hd
    · obtain ⟨x, hx, h⟩ := i1 hd
      exact ⟨x, by simp [opsAll, hx], h⟩
    · obtain ⟨x, hx, h⟩ := i2 hd
      exact ⟨x, by simp [opsAll, hx], h⟩
end

theorem LoweredOps.top : ∀ {os os'}, LoweredOps E R os os' →
    (∀ o ∈ os, ¬ E o.data → ∃ o' ∈ os', R o.data o'.data) ∧
    (∀ o' ∈ os', ∃ o ∈ os, R o.data o'.data ∧ ¬ E o.data)
  | _, _, .nil => by simp
  | _, _, .cons o l ops ops' h1 h2 => by
    obtain ⟨i1, i2⟩ := h2.top
    constructor
    · intro x hx hE
      rcases List.mem_cons.1 hx with rfl | hx
      · cases h1 with
        | dropped d bs h => exact absurd h hE
        | changed d d' bs h1 h2 h3 => exact ⟨.mk d' [], by simp, h3⟩
        | same d bs bs' h1 h2 h3 => exact ⟨.mk d bs', by simp, h2⟩
      · obtain ⟨y, hy, h⟩ := i1 x hx hE
        exact ⟨y, by simp [hy], h⟩
    · intro x hx
      rcases List.mem_append.1 hx with hx | hx
      · cases h1 with
        | dropped d bs h => simp at hx
        | changed d d' bs h1 h2 h3 =>
          simp at hx; subst hx; exact ⟨_, List.mem_cons_self, h3, h1⟩
        | same d bs bs' h1 h2 h3 =>
          simp at hx; subst hx; exact ⟨_, List.mem_cons_self, h2, h1⟩
      · obtain ⟨y, hy, h⟩ := i2 x hx
        exact ⟨y, by simp [hy], h⟩
end

end Verif.PreludeOps
