import Verif.ScfToCf.Step

/-
The three structured operations: the branches and blocks put in their place lead to the same ends.
-/
namespace Verif.ScfToCf

variable {I : Interp}

theorem run_fell {n : Nat} {bs : List Block} {l : Label} {as : List I.V} {e : Env I} {s : I.S}
    {e' : Env I} {s' : I.S} : run n bs l as e s ≠ some (Out.fell, e', s') := by
  induction n generalizing l as e s with
  | zero => exact fun h => nomatch h
  | succ n ih =>
    cases hf : findBlock l bs with
    | none => rw [run_none _ _ _ _ _ _ hf]; simp
    | some blk =>
      obtain ⟨l', ps, ops⟩ := blk
      rw [run_succ _ _ _ _ _ _ hf]
      split
      · simp
      · rcases exec (run n) n ops (bind e ps as) s with _ | ⟨o, e1, s1⟩
        · simp [settle]
        · cases o <;> simp only [settle] <;> first | simp; done | skip
          split
          · exact ih
          · simp

theorem sim_right {F : Value → Prop} {a b : Option (Res I)} (h : Sim F a b) {o e' s}
    (hb : b = some (o, e', s)) : ∃ e, a = some (o, e, s) ∧ Agree F e e' := by
  rcases h with ⟨_, rfl⟩ | ⟨o1, e1, e2, s1, rfl, rfl, h3⟩
  · cases hb
  · cases hb; exact ⟨e1, rfl, h3⟩

theorem sim_left {F : Value → Prop} {a b : Option (Res I)} (h : Sim F a b) {o e s}
    (ha : a = some (o, e, s)) : ∃ e', b = some (o, e', s) ∧ Agree F e e' := by
  rcases h with ⟨rfl, _⟩ | ⟨o1, e1, e2, s1, rfl, rfl, h3⟩
  · cases ha
  · cases ha; exact ⟨e2, rfl, h3⟩

theorem outY_keeps (m : Label) (k : Nat) : Keeps (outY (I := I) m k) :=
  ⟨fun _ _ => rfl, rfl, rfl⟩

theorem outC_keeps (h x : Label) (k : Nat) : Keeps (outC (I := I) h x k) :=
  ⟨fun _ _ => rfl, rfl, rfl⟩

/-! ## A branch of `if` or `switch` -/

section
variable {F : Value → Prop} {bs2 : List Block} {m : Label} {mps res : List Value} {after : List Op}
  {T : List Block}

theorem jump_block {N : Nat} (hm : findBlock m bs2 = some (.mk m mps after)) {vs : List I.V}
    (hl : ¬ mps.length < vs.length) {e : Env I} {s : I.S} :
    settle (N + 1) bs2 (some (.jump m vs, e, s)) = block N bs2 after (bind e mps vs) s := by
  simp only [settle]
  rw [if_pos (label_of_find hm), run_block hm, if_neg hl]

theorem branch_fwd (hm : findBlock m bs2 = some (.mk m mps after))
    (hW : Within (I := I) (outY m mps.length) T bs2) (hu : ∀ v ∈ usesB T, ¬ F v)
    (hres : ∀ (e e' : Env I) vs, Agree F e e' →
      Agree F (bind e res vs) (bind e' mps (vs.take mps.length)))
    {l : Label} (hl : l ∈ T.map Block.label) {n : Nat} {e e' : Env I} (he : Agree F e e') {s : I.S}
    {o : Out I.V} {e2 : Env I} {s2 : I.S}
    (h : afterBranch res (run n T l [] e s) = some (o, e2, s2)) :
    ∃ e2', Agree F e2 e2' ∧ ∀ r N, kont N bs2 after o e2' s2 = some r →
      ∃ N', run N' bs2 l [] e' s = some r := by
  cases hr : run n T l [] e s with
  | none => rw [hr] at h; cases h
  | some y =>
    obtain ⟨o0, e0, s0⟩ := y
    obtain ⟨e0', h1, h2⟩ := sim_left (run_agree n T l [] e e' s hu he) hr
    by_cases hy : ∃ vs, o0 = .yield vs
    · obtain ⟨vs, rfl⟩ := hy
      rw [hr] at h
      cases h
      refine ⟨_, hres _ _ vs h2, fun r N hk => ?_⟩
      refine within_fwd (outY_keeps m _) hW (N := N + 1) ?_ n l [] e' s hl h1
      simp only [outY]
      rw [jump_block hm (by rw [List.length_take]; omega)]
      exact hk
    · have ho : outY m mps.length o0 = o0 := by
        cases o0 <;> first | rfl | exact absurd ⟨_, rfl⟩ hy
      have hb : afterBranch res (run n T l [] e s) = some (o0, e0, s0) := by
        rw [hr]; cases o0 <;> first | rfl | exact absurd ⟨_, rfl⟩ hy
      rw [hb] at h
      cases h
      refine ⟨e0', h2, fun r N hk => ?_⟩
      refine within_fwd (outY_keeps m _) hW (N := N) ?_ n l [] e' s hl h1
      simp only [ho]
      have hf : o ≠ .fell := fun hh => run_fell (hh ▸ hr)
      unfold kont at hk
      cases o <;> first | exact hk | exact absurd rfl hf

theorem branch_bwd (hm : findBlock m bs2 = some (.mk m mps after))
    (hW : Within (I := I) (outY m mps.length) T bs2) (hu : ∀ v ∈ usesB T, ¬ F v)
    (hres : ∀ (e e' : Env I) vs, Agree F e e' →
      Agree F (bind e res vs) (bind e' mps (vs.take mps.length)))
    {l : Label} (hl : l ∈ T.map Block.label) {N : Nat} {e e' : Env I} (he : Agree F e e') {s : I.S}
    {r : Res I} (h : run N bs2 l [] e' s = some r) :
    ∃ n o e2 s2 e2' N', N' ≤ N ∧ afterBranch res (run n T l [] e s) = some (o, e2, s2) ∧
      Agree F e2 e2' ∧ kont N' bs2 after o e2' s2 = some r := by
  obtain ⟨n, o0, e0', s0, N', hN, hr, h2⟩ := within_bwd (outY_keeps m _) hW N l [] e' s hl h
  obtain ⟨e1, h3, h4⟩ := sim_right (run_agree n T l [] e e' s hu he) hr
  by_cases hy : ∃ vs, o0 = .yield vs
  · obtain ⟨vs, rfl⟩ := hy
    simp only [outY] at h2
    cases N' with
    | zero =>
      simp only [settle] at h2
      rw [if_pos (label_of_find hm)] at h2
      cases h2
    | succ N' =>
      rw [jump_block hm (by rw [List.length_take]; omega)] at h2
      exact ⟨n, .fell, _, s0, _, N', by omega, by rw [h3]; rfl, hres _ _ vs h4, h2⟩
  · have ho : outY m mps.length o0 = o0 := by
      cases o0 <;> first | rfl | exact absurd ⟨_, rfl⟩ hy
    have hb : afterBranch res (run n T l [] e s) = some (o0, e1, s0) := by
      rw [h3]; cases o0 <;> first | rfl | exact absurd ⟨_, rfl⟩ hy
    refine ⟨n, o0, e1, s0, e0', N', by omega, hb, h4, ?_⟩
    have hf : o0 ≠ .fell := fun hh => run_fell (hh ▸ hr)
    unfold kont
    simp only [ho] at h2
    cases o0 <;> first | exact h2 | exact absurd rfl hf

end

/-! ## `scf.if` -/

theorem exec_single (r : Runner I) (n : Nat) (o : Op) (e : Env I) (s : I.S) :
    exec r n [o] e s = execOp r n e s o := by
  rw [exec_cons]
  rcases execOp r n e s o with _ | ⟨o, e, s⟩
  · rfl
  · cases o <;> rfl

theorem first_mem {bs : List Block} {l : Label} (h : firstLabel bs = some l) :
    l ∈ bs.map Block.label := by
  cases bs with
  | nil => cases h
  | cons b bs => cases h; exact .head _

section
variable {F : Value → Prop} {bs2 : List Block} {m : Label} {mps res : List Value} {after : List Op}

theorem if_step {c : Value} {t e : List Block} {te ee : Label}
    (hm : findBlock m bs2 = some (.mk m mps after))
    (hres : ∀ (e e' : Env I) vs, Agree F e e' →
      Agree F (bind e res vs) (bind e' mps (vs.take mps.length)))
    (hc : ¬ F c) (hte : firstLabel t = some te) (hee : firstLabel e = some ee)
    (ht : Within (I := I) (outY m mps.length) t bs2) (hut : ∀ v ∈ usesB t, ¬ F v)
    (hE : Within (I := I) (outY m mps.length) e bs2) (hue : ∀ v ∈ usesB e, ¬ F v) :
    (∀ n (en en' : Env I) s o e2 s2, Agree F en en' →
      execOp (run n) n en s (.ite c res t e) = some (o, e2, s2) →
      ∃ e2', Agree F e2 e2' ∧ ∀ r N, kont N bs2 after o e2' s2 = some r →
        ∃ N', block N' bs2 [.condBr c te ee] en' s = some r) ∧
    (∀ N (en en' : Env I) s r, Agree F en en' → block N bs2 [.condBr c te ee] en' s = some r →
      ∃ n o e2 s2 e2' N', N' ≤ N ∧ execOp (run n) n en s (.ite c res t e) = some (o, e2, s2) ∧
        Agree F e2 e2' ∧ kont N' bs2 after o e2' s2 = some r) := by
  have htm : te ∈ bs2.map Block.label :=
    ht.label (first_mem hte)
  have hem : ee ∈ bs2.map Block.label :=
    hE.label (first_mem hee)
  have htail : ∀ N (en' : Env I) s, block N bs2 [.condBr c te ee] en' s =
      run N bs2 (if I.truth (en' c) then te else ee) [] en' s := by
    intro N en' s
    rw [block, exec_single]
    simp only [execOp, settle]
    rw [if_pos (by split <;> assumption)]
  constructor
  · intro n en en' s o e2 s2 hag h
    have hcv : en c = en' c := hag c hc
    simp only [execOp, enter] at h
    cases htr : I.truth (en c) with
    | true =>
      simp only [htr, if_true, hte] at h
      obtain ⟨e2', h1, h2⟩ := branch_fwd hm ht hut hres (first_mem hte) hag h
      refine ⟨e2', h1, fun r N hk => ?_⟩
      obtain ⟨N', h3⟩ := h2 r N hk
      exact ⟨N', by rw [htail, ← hcv, htr]; exact h3⟩
    | false =>
      simp only [htr, Bool.false_eq_true, if_false, hee] at h
      obtain ⟨e2', h1, h2⟩ := branch_fwd hm hE hue hres (first_mem hee) hag h
      refine ⟨e2', h1, fun r N hk => ?_⟩
      obtain ⟨N', h3⟩ := h2 r N hk
      exact ⟨N', by rw [htail, ← hcv, htr]; exact h3⟩
  · intro N en en' s r hag h
    have hcv : en c = en' c := hag c hc
    rw [htail, ← hcv] at h
    simp only [execOp, enter]
    cases htr : I.truth (en c) with
    | true =>
      simp only [htr, if_true] at h
      simp only [if_true, hte]
      exact branch_bwd hm ht hut hres (first_mem hte) hag h
    | false =>
      simp only [htr, Bool.false_eq_true, if_false] at h
      simp only [Bool.false_eq_true, if_false, hee]
      exact branch_bwd hm hE hue hres (first_mem hee) hag h

/-! ## `scf.loop` -/

variable {x h : Label} {body : List Block}

theorem loop_fwd (hx : findBlock x bs2 = some (.mk x mps after))
    (hres : ∀ (e e' : Env I) v, Agree F e e' →
      Agree F (bind e res [v]) (bind e' mps (if mps.length ≠ 0 then [v] else [])))
    (hh : firstLabel body = some h) (hW : Within (I := I) (outC h x mps.length) body bs2)
    (hu : ∀ v ∈ usesB body, ¬ F v) (hy : ∀ blk ∈ body, ∀ vs, Op.yield vs ∉ blk.ops) {n : Nat}
    {o : Out I.V} {e2 : Env I} {s2 : I.S} :
    ∀ (k : Nat) (vs : List I.V) (e e' : Env I) (s : I.S), Agree F e e' →
      iterate (run n) body h res k vs e s = some (o, e2, s2) →
      ∃ e2', Agree F e2 e2' ∧ ∀ r N, kont N bs2 after o e2' s2 = some r →
        ∃ N', run N' bs2 h vs e' s = some r
  | 0, _, _, _, _, _, hi => by cases hi
  | k + 1, vs, e, e', s, he, hi => by
    rw [iterate_succ] at hi
    cases hr : run n body h vs e s with
    | none => rw [hr] at hi; cases hi
    | some y =>
      obtain ⟨o0, e0, s0⟩ := y
      obtain ⟨e0', h1, h2⟩ := sim_left (run_agree n body h vs e e' s hu he) hr
      have go := fun {N : Nat} {r : Res I} hset =>
        within_fwd (outC_keeps h x mps.length) hW (N := N) (r := r) hset n h vs e' s
          (first_mem hh) h1
      rw [hr] at hi
      have other : outC h x mps.length o0 = o0 → (o0, e0, s0) = (o, e2, s2) →
          ∃ e2', Agree F e2 e2' ∧ ∀ r N, kont N bs2 after o e2' s2 = some r →
            ∃ N', run N' bs2 h vs e' s = some r := by
        intro ho heq
        cases heq
        refine ⟨e0', h2, fun r N hk => go (N := N) ?_⟩
        rw [ho]
        have hf : o ≠ .fell := fun hh => run_fell (hh ▸ hr)
        unfold kont at hk
        cases o <;> first | exact hk | exact absurd rfl hf
      cases o0 <;> simp only [nextRound] at hi <;>
        first | exact other rfl (Option.some.inj hi) | skip
      · obtain ⟨blk, hb, vs', hv⟩ := run_yield hr
        exact absurd hv (hy blk hb vs')
      · obtain ⟨e2', h3, h4⟩ := loop_fwd hx hres hh hW hu hy k _ _ _ _ h2 hi
        refine ⟨e2', h3, fun r N hk => ?_⟩
        obtain ⟨N', h5⟩ := h4 r N hk
        refine go (N := N') ?_
        simp only [outC, settle]
        rw [if_pos (hW.label (first_mem hh))]
        exact h5
      · cases hi
        refine ⟨_, hres _ _ _ h2, fun r N hk => go (N := N + 1) ?_⟩
        simp only [outC]
        rw [jump_block hx (by split <;> simp_all [Nat.pos_iff_ne_zero] <;> omega)]
        exact hk

theorem loop_bwd (hx : findBlock x bs2 = some (.mk x mps after))
    (hres : ∀ (e e' : Env I) v, Agree F e e' →
      Agree F (bind e res [v]) (bind e' mps (if mps.length ≠ 0 then [v] else [])))
    (hh : firstLabel body = some h) (hW : Within (I := I) (outC h x mps.length) body bs2)
    (hu : ∀ v ∈ usesB body, ¬ F v) (hy : ∀ blk ∈ body, ∀ vs, Op.yield vs ∉ blk.ops) {r : Res I} :
    ∀ (N : Nat) (vs : List I.V) (e e' : Env I) (s : I.S), Agree F e e' →
      run N bs2 h vs e' s = some r →
      ∃ n k o e2 s2 e2' N', N' ≤ N ∧ iterate (run n) body h res k vs e s = some (o, e2, s2) ∧
        Agree F e2 e2' ∧ kont N' bs2 after o e2' s2 = some r := by
  intro N
  induction N using Nat.strongRecOn with
  | _ N IH =>
  intro vs e e' s he hrun
  obtain ⟨n, o0, e0', s0, N', hN, hr, h2⟩ :=
    within_bwd (outC_keeps h x mps.length) hW N h vs e' s (first_mem hh) hrun
  obtain ⟨e1, h3, h4⟩ := sim_right (run_agree n body h vs e e' s hu he) hr
  have other : outC h x mps.length o0 = o0 → (∀ k, nextRound k res (some (o0, e1, s0)) =
      some (o0, e1, s0)) → ∃ n k o e2 s2 e2' N', N' ≤ N ∧
        iterate (run n) body h res k vs e s = some (o, e2, s2) ∧
        Agree F e2 e2' ∧ kont N' bs2 after o e2' s2 = some r := by
    intro ho hn
    refine ⟨n, 1, o0, e1, s0, e0', N', by omega, by rw [iterate_succ, h3, hn], h4, ?_⟩
    have hf : o0 ≠ .fell := fun hh => run_fell (hh ▸ hr)
    rw [ho] at h2
    unfold kont
    cases o0 <;> first | exact h2 | exact absurd rfl hf
  cases o0 <;> first | exact other rfl (fun _ => rfl) | skip
  · obtain ⟨blk, hb, vs', hv⟩ := run_yield hr
    exact absurd hv (hy blk hb vs')
  · simp only [outC, settle] at h2
    rw [if_pos (hW.label (first_mem hh))] at h2
    obtain ⟨n', k, o, e2, s2, e2', N'', hN', h5, h6, h7⟩ := IH N' hN _ _ _ _ h4 h2
    refine ⟨max n n', k + 1, o, e2, s2, e2', N'', by omega, ?_, h6, h7⟩
    rw [iterate_succ, run_mono (Nat.le_max_left n n') _ _ _ _ _ _ h3]
    simp only [nextRound]
    exact iterate_mono (run_mono (Nat.le_max_right n n')) _ _ _ (Nat.le_refl k) _ _ _ _ h5
  · simp only [outC] at h2
    cases N' with
    | zero =>
      simp only [settle] at h2
      rw [if_pos (label_of_find hx)] at h2
      cases h2
    | succ N' =>
      rw [jump_block hx (by split <;> simp_all [Nat.pos_iff_ne_zero] <;> omega)] at h2
      exact ⟨n, 1, .fell, _, s0, _, N', by omega, by rw [iterate_succ, h3]; rfl, hres _ _ _ h4, h2⟩

theorem loop_step {init : List Value} (hx : findBlock x bs2 = some (.mk x mps after))
    (hres : ∀ (e e' : Env I) v, Agree F e e' →
      Agree F (bind e res [v]) (bind e' mps (if mps.length ≠ 0 then [v] else [])))
    (hi : ∀ v ∈ init, ¬ F v)
    (hh : firstLabel body = some h) (hW : Within (I := I) (outC h x mps.length) body bs2)
    (hu : ∀ v ∈ usesB body, ¬ F v) (hy : ∀ blk ∈ body, ∀ vs, Op.yield vs ∉ blk.ops) :
    (∀ n (en en' : Env I) s o e2 s2, Agree F en en' →
      execOp (run n) n en s (.loop init res body) = some (o, e2, s2) →
      ∃ e2', Agree F e2 e2' ∧ ∀ r N, kont N bs2 after o e2' s2 = some r →
        ∃ N', block N' bs2 [.br init h] en' s = some r) ∧
    (∀ N (en en' : Env I) s r, Agree F en en' → block N bs2 [.br init h] en' s = some r →
      ∃ n o e2 s2 e2' N', N' ≤ N ∧ execOp (run n) n en s (.loop init res body) = some (o, e2, s2) ∧
        Agree F e2 e2' ∧ kont N' bs2 after o e2' s2 = some r) := by
  have htail : ∀ N (en' : Env I) s, block N bs2 [.br init h] en' s =
      run N bs2 h (init.map en') en' s := by
    intro N en' s
    rw [block, exec_single]
    simp only [execOp, settle]
    rw [if_pos (hW.label (first_mem hh))]
  constructor
  · intro n en en' s o e2 s2 hag hex
    simp only [execOp, hh] at hex
    obtain ⟨e2', h1, h2⟩ := loop_fwd hx hres hh hW hu hy n _ _ _ _ hag hex
    refine ⟨e2', h1, fun r N hk => ?_⟩
    obtain ⟨N', h3⟩ := h2 r N hk
    exact ⟨N', by rw [htail, ← hag.map hi]; exact h3⟩
  · intro N en en' s r hag hb
    rw [htail, ← hag.map hi] at hb
    obtain ⟨n, k, o, e2, s2, e2', N', hN, h1, h2, h3⟩ :=
      loop_bwd hx hres hh hW hu hy N _ _ _ _ hag hb
    refine ⟨max n k, o, e2, s2, e2', N', hN, ?_, h2, h3⟩
    simp only [execOp, hh]
    exact iterate_mono (run_mono (Nat.le_max_left n k)) _ _ _ (Nat.le_max_right n k) _ _ _ _ h1

/-! ## `scf.switch` -/

/-- Where a chain of comparisons leads. -/
def chosen (a : I.V) (es : List (Int × Label)) (dflt : Label) : Label :=
  match es.find? fun p => decide (a = I.const p.1) with
  | some p => p.2
  | none => dflt

/-- The operations the chain puts at the end of its first block. -/
def chainTail (d : Value) (dflt : Label) (l : Label) (v : Value) : List (Int × Label) → List Op
  | [] => [.br [] dflt]
  | [(a, entry)] => [.const a v, .cmpEq d v (v + 1), .condBr (v + 1) entry dflt]
  | (a, entry) :: _ :: _ => [.const a v, .cmpEq d v (v + 1), .condBr (v + 1) entry l]

/-- The other blocks of the chain. -/
def chainRest (d : Value) (dflt : Label) (l : Label) (v : Value) : List (Int × Label) → List Block
  | [] => []
  | [_] => []
  | _ :: p :: es => chain d dflt (p :: es) l [] [] (l + 1) (v + 2)

theorem chain_eq (d : Value) (dflt : Label) (es : List (Int × Label)) (cur : Label)
    (ps : List Value) (os : List Op) (l : Label) (v : Value) :
    chain d dflt es cur ps os l v =
      .mk cur ps (os ++ chainTail d dflt l v es) :: chainRest d dflt l v es := by
  match es with
  | [] => rfl
  | [(a, en)] => rfl
  | (a, en) :: p :: es => rfl

theorem exec_compare (r : Runner I) (n : Nat) (a : Int) (d v : Value) (hd : d ≠ v) (t el : Label)
    (e : Env I) (s : I.S) :
    exec r n [.const a v, .cmpEq d v (v + 1), .condBr (v + 1) t el] e s =
      some (.jump (if e d = I.const a then t else el) [],
        bind (bind e [v] [I.const a]) [v + 1] [I.eq (e d) (I.const a)], s) := by
  simp [exec, execOp, bind, hd, I.eq_truth]

theorem agree_temps {v0 v : Value} (hv : v0 ≤ v) (e : Env I) (a b : I.V) :
    Agree (fun w => v0 ≤ w) e (bind (bind e [v] [a]) [v + 1] [b]) := by
  intro w hw
  have h1 : w ≠ v := fun hh => hw (hh ▸ hv)
  have h2 : w ≠ v + 1 := fun hh => hw (hh ▸ Nat.le_succ_of_le hv)
  simp [bind, h1, h2]

theorem Agree.trans {F : Value → Prop} {e1 e2 e3 : Env I} (h1 : Agree F e1 e2) (h2 : Agree F e2 e3) :
    Agree F e1 e3 := fun v hv => (h1 v hv).trans (h2 v hv)

theorem chain_both {d : Value} {dflt : Label} {v0 : Value} (hd : d < v0)
    (hdl : dflt ∈ bs2.map Block.label) (s : I.S) :
    ∀ (es : List (Int × Label)) (l : Label) (v : Value) (e : Env I), v0 ≤ v →
      (∀ p ∈ es, p.2 ∈ bs2.map Block.label) →
      (∀ blk ∈ chainRest d dflt l v es, findBlock blk.label bs2 = some blk) →
      ∃ e', Agree (fun w => v0 ≤ w) e e' ∧
        (∀ r N, run N bs2 (chosen (e d) es dflt) [] e' s = some r →
          ∃ N', block N' bs2 (chainTail d dflt l v es) e s = some r) ∧
        (∀ r N, block N bs2 (chainTail d dflt l v es) e s = some r →
          ∃ N', N' ≤ N ∧ run N' bs2 (chosen (e d) es dflt) [] e' s = some r)
  | [], l, v, e, _, _, _ => by
    have htail : ∀ N, block N bs2 (chainTail d dflt l v []) e s = run N bs2 dflt [] e s := by
      intro N
      rw [chainTail, block, exec_single]
      simp only [execOp, settle, List.map_nil]
      rw [if_pos hdl]
    exact ⟨e, fun _ _ => rfl, fun r N h => ⟨N, by rw [htail]; exact h⟩,
      fun r N h => ⟨N, Nat.le_refl _, by rw [htail] at h; exact h⟩⟩
  | [(a, en)], l, v, e, hv, hes, _ => by
    have htail : ∀ N, block N bs2 (chainTail d dflt l v [(a, en)]) e s =
        run N bs2 (chosen (e d) [(a, en)] dflt) []
          (bind (bind e [v] [I.const a]) [v + 1] [I.eq (e d) (I.const a)]) s := by
      intro N
      rw [chainTail, block, exec_compare _ _ _ _ _ (Nat.ne_of_lt (Nat.lt_of_lt_of_le hd hv))]
      simp only [settle]
      rw [if_pos (by split <;> first | exact hes _ (.head _) | exact hdl)]
      by_cases hc : e d = I.const a <;> simp [chosen, hc]
    exact ⟨_, agree_temps hv _ _ _, fun r N h => ⟨N, by rw [htail]; exact h⟩,
      fun r N h => ⟨N, Nat.le_refl _, by rw [htail] at h; exact h⟩⟩
  | (a, en) :: p :: es, l, v, e, hv, hes, hrest => by
    have hl : findBlock l bs2 = some (.mk l [] (chainTail d dflt (l + 1) (v + 2) (p :: es))) := by
      have := hrest (.mk l [] ([] ++ chainTail d dflt (l + 1) (v + 2) (p :: es)))
        (by rw [chainRest, chain_eq]; exact .head _)
      exact this
    have hag := agree_temps hv e (I.const a) (I.eq (e d) (I.const a))
    generalize he1 : bind (bind e [v] [I.const a]) [v + 1] [I.eq (e d) (I.const a)] = e1 at hag
    have htail : ∀ N, block N bs2 (chainTail d dflt l v ((a, en) :: p :: es)) e s =
        run N bs2 (if e d = I.const a then en else l) [] e1 s := by
      intro N
      rw [chainTail, block, exec_compare _ _ _ _ _ (Nat.ne_of_lt (Nat.lt_of_lt_of_le hd hv)), he1]
      simp only [settle]
      rw [if_pos (by split <;> first | exact hes _ (.head _) | exact label_of_find hl)]
    by_cases hc : e d = I.const a
    · have hch : chosen (e d) ((a, en) :: p :: es) dflt = en := by simp [chosen, hc]
      exact ⟨e1, hag, fun r N h => ⟨N, by rw [htail, if_pos hc]; rw [hch] at h; exact h⟩,
        fun r N h => ⟨N, Nat.le_refl _, by rw [htail, if_pos hc] at h; rw [hch]; exact h⟩⟩
    · have hch : chosen (e d) ((a, en) :: p :: es) dflt = chosen (e d) (p :: es) dflt := by
        simp [chosen, hc]
      have hed : e d = e1 d := hag d (Nat.not_le.2 hd)
      obtain ⟨e', h1, h2, h3⟩ := chain_both hd hdl s (p :: es) (l + 1) (v + 2) e1 (Nat.le_add_right_of_le hv)
        (fun q hq => hes q (.tail _ hq)) (fun blk hb => hrest blk (by
          rw [chainRest, chain_eq]; exact .tail _ hb))
      have hrl : ∀ N, run (N + 1) bs2 l [] e1 s =
          block N bs2 (chainTail d dflt (l + 1) (v + 2) (p :: es)) e1 s := by
        intro N
        rw [run_block hl]
        simp [bind]
      refine ⟨e', hag.trans h1, fun r N h => ?_, fun r N h => ?_⟩
      · rw [hch, hed] at h
        obtain ⟨N', h4⟩ := h2 r N h
        exact ⟨N' + 1, by rw [htail, if_neg hc, hrl]; exact h4⟩
      · rw [htail, if_neg hc] at h
        cases N with
        | zero => cases h
        | succ N =>
          rw [hrl] at h
          obtain ⟨N', h4, h5⟩ := h3 r N h
          exact ⟨N', by omega, by rw [hch, hed]; exact h5⟩

theorem find_entries {a : I.V} {dflt : Label} : ∀ {cs : List (Int × List Block)}
    {es : List (Int × Label)}, entries cs = some es →
    (∀ p, cs.find? (fun p => decide (a = I.const p.1)) = some p →
      firstLabel p.2 = some (chosen a es dflt)) ∧
    (cs.find? (fun p => decide (a = I.const p.1)) = none → chosen a es dflt = dflt)
  | [], es, h => by
    cases h
    exact ⟨fun p hp => (nomatch hp), fun _ => rfl⟩
  | (v, b) :: cs, es, h => by
    simp only [entries] at h
    split at h
    · rename_i l ls h1 h2
      cases h
      have ih := find_entries (a := a) (dflt := dflt) h2
      by_cases hc : a = I.const v
      · refine ⟨fun p hp => ?_, fun hp => ?_⟩
        · simp only [List.find?_cons, hc, decide_true, Option.some.injEq] at hp
          subst hp
          simpa [chosen, hc] using h1
        · simp [hc] at hp
      · have hch : chosen a ((v, l) :: ls) dflt = chosen a ls dflt := by simp [chosen, hc]
        rw [hch]
        simpa [List.find?_cons, hc] using ih
    · cases h

theorem entries_mem : ∀ {cs : List (Int × List Block)} {es : List (Int × Label)},
    entries cs = some es → ∀ q ∈ es, ∃ p ∈ cs, firstLabel p.2 = some q.2
  | [], es, h, q, hq => by cases h; cases hq
  | (v, b) :: cs, es, h, q, hq => by
    simp only [entries] at h
    split at h
    · rename_i l ls h1 h2
      cases h
      rcases List.mem_cons.1 hq with rfl | hq
      · exact ⟨_, .head _, h1⟩
      · obtain ⟨p, hp, h3⟩ := entries_mem h2 q hq
        exact ⟨p, .tail _ hp, h3⟩
    · cases h

/-- Where a switch goes if no case matches. -/
inductive DefaultAt (I : Interp) (v0 : Value) (m : Label) (bs2 : List Block) (dflt : Label) :
    Option (List Block) → Prop where
  | missing : findBlock dflt bs2 = some (.mk dflt [] [.br [] m]) → DefaultAt I v0 m bs2 dflt none
  | given {db : List Block} : firstLabel db = some dflt →
      Within (I := I) (outY m 0) db bs2 → (∀ v ∈ usesB db, v < v0) →
      DefaultAt I v0 m bs2 dflt (some db)

theorem switch_step {d v0 : Value} {cs : List Case} {es : List (Int × Label)} {dflt l : Label}
    (hd : d < v0) (hm : findBlock m bs2 = some (.mk m [] after))
    (hes : entries (casesOf cs) = some es)
    (hW : ∀ p ∈ casesOf cs, Within (I := I) (outY m 0) p.2 bs2)
    (hu : ∀ p ∈ casesOf cs, ∀ v ∈ usesB p.2, v < v0)
    (hD : DefaultAt I v0 m bs2 dflt (defaultOf cs))
    (hrest : ∀ blk ∈ chainRest d dflt l v0 es, findBlock blk.label bs2 = some blk) :
    (∀ n (en en' : Env I) s o e2 s2, Agree (fun w => v0 ≤ w) en en' →
      execOp (run n) n en s (.switch d [] cs) = some (o, e2, s2) →
      ∃ e2', Agree (fun w => v0 ≤ w) e2 e2' ∧ ∀ r N, kont N bs2 after o e2' s2 = some r →
        ∃ N', block N' bs2 (chainTail d dflt l v0 es) en' s = some r) ∧
    (∀ N (en en' : Env I) s r, Agree (fun w => v0 ≤ w) en en' →
      block N bs2 (chainTail d dflt l v0 es) en' s = some r →
      ∃ n o e2 s2 e2' N', N' ≤ N ∧ execOp (run n) n en s (.switch d [] cs) = some (o, e2, s2) ∧
        Agree (fun w => v0 ≤ w) e2 e2' ∧ kont N' bs2 after o e2' s2 = some r) := by
  have hdl : dflt ∈ bs2.map Block.label := by
    generalize defaultOf cs = od at hD
    cases hD with
    | missing h => exact label_of_find h
    | given h1 h2 _ => exact h2.label (first_mem h1)
  have hel : ∀ q ∈ es, q.2 ∈ bs2.map Block.label := fun q hq => by
    obtain ⟨p, hp, h1⟩ := entries_mem hes q hq
    exact (hW p hp).label (first_mem h1)
  have hres : ∀ (e e' : Env I) (vs : List I.V), Agree (fun w => v0 ≤ w) e e' →
      Agree (fun w => v0 ≤ w) (bind e [] vs) (bind e' [] (vs.take 0)) := fun e e' vs h => by
    simpa [bind] using h
  -- entering the chosen block
  have key : ∀ (en en' : Env I) (s : I.S), Agree (fun w => v0 ≤ w) en en' →
      (∀ n o e2 s2, execOp (run n) n en s (.switch d [] cs) = some (o, e2, s2) →
        ∃ e2', Agree (fun w => v0 ≤ w) e2 e2' ∧ ∀ r N, kont N bs2 after o e2' s2 = some r →
          ∃ N', run N' bs2 (chosen (en d) es dflt) [] en' s = some r) ∧
      (∀ N r, run N bs2 (chosen (en d) es dflt) [] en' s = some r →
        ∃ n o e2 s2 e2' N', N' ≤ N ∧ execOp (run n) n en s (.switch d [] cs) = some (o, e2, s2) ∧
          Agree (fun w => v0 ≤ w) e2 e2' ∧ kont N' bs2 after o e2' s2 = some r) := by
    intro en en' s hag
    have branch : ∀ body, choose (en d) cs = some body →
        firstLabel body = some (chosen (en d) es dflt) → Within (I := I) (outY m 0) body bs2 →
        (∀ v ∈ usesB body, v < v0) →
      (∀ n o e2 s2, execOp (run n) n en s (.switch d [] cs) = some (o, e2, s2) →
        ∃ e2', Agree (fun w => v0 ≤ w) e2 e2' ∧ ∀ r N, kont N bs2 after o e2' s2 = some r →
          ∃ N', run N' bs2 (chosen (en d) es dflt) [] en' s = some r) ∧
      (∀ N r, run N bs2 (chosen (en d) es dflt) [] en' s = some r →
        ∃ n o e2 s2 e2' N', N' ≤ N ∧ execOp (run n) n en s (.switch d [] cs) = some (o, e2, s2) ∧
          Agree (fun w => v0 ≤ w) e2 e2' ∧ kont N' bs2 after o e2' s2 = some r) :=
      fun body hc hf hw hub => And.intro
      (fun n o e2 s2 (hx : execOp (run n) n en s (.switch d [] cs) = some (o, e2, s2)) => by
        simp only [execOp, hc, enter, hf] at hx
        exact branch_fwd (mps := []) hm hw (fun v hv => Nat.not_le.2 (hub v hv)) hres (first_mem hf)
          hag hx)
      (fun N r (hx : run N bs2 (chosen (en d) es dflt) [] en' s = some r) => by
        obtain ⟨n, o, e2, s2, e2', N', h1, h2, h3⟩ := branch_bwd (mps := []) (res := []) hm hw
          (fun v hv => Nat.not_le.2 (hub v hv)) hres (first_mem hf) hag hx
        exact ⟨n, o, e2, s2, e2', N', h1, by simp only [execOp, hc, enter, hf]; exact h2, h3⟩)
    have hfe := find_entries (a := en d) (dflt := dflt) hes
    have hce := choose_eq (en d) cs
    cases hfind : (casesOf cs).find? fun p => decide (en d = I.const p.1) with
    | some p =>
      rw [hfind] at hce
      have hp := List.mem_of_find?_eq_some hfind
      exact branch p.2 hce (hfe.1 p hfind) (hW p hp) (hu p hp)
    | none =>
      rw [hfind] at hce
      have hch := hfe.2 hfind
      generalize hdef : defaultOf cs = od at hD hce
      cases hD with
      | given h1 h2 h3 => exact branch _ hce (by rw [hch]; exact h1) h2 h3
      | missing hb =>
        have hrun : ∀ N, run (N + 2) bs2 dflt [] en' s = block N bs2 after en' s := by
          intro N
          rw [run_block hb, if_neg (by simp), block, exec_single]
          simp only [execOp, List.map_nil]
          rw [jump_block hm (by simp)]
          rfl
        rw [hch]
        refine ⟨fun n o e2 s2 hx => ?_, fun N r hx => ?_⟩
        · simp only [execOp, hce, Option.map_none, Option.or_none] at hx
          cases hx
          exact ⟨en', hag, fun r N hk => ⟨N + 2, by rw [hrun]; exact hk⟩⟩
        · match N with
          | 0 => cases hx
          | 1 =>
            rw [run_block hb, if_neg (by simp), block, exec_single] at hx
            simp only [execOp, settle] at hx
            rw [if_pos (label_of_find hm)] at hx
            cases hx
          | N + 2 =>
            rw [hrun] at hx
            exact ⟨0, .fell, en, s, en', N, by omega, by
              simp only [execOp, hce, Option.map_none, Option.or_none, bind], hag, hx⟩
  constructor
  · intro n en en' s o e2 s2 hag hx
    obtain ⟨en2, h1, h2, _⟩ := chain_both hd hdl s es l v0 en' (Nat.le_refl _) hel hrest
    have hed : en d = en' d := hag d (Nat.not_le.2 hd)
    obtain ⟨e2', h4, h5⟩ := (key en en2 s (hag.trans h1)).1 n o e2 s2 hx
    refine ⟨e2', h4, fun r N hk => ?_⟩
    obtain ⟨N', h6⟩ := h5 r N hk
    exact h2 r N' (by rw [← hed]; exact h6)
  · intro N en en' s r hag hx
    obtain ⟨en2, h1, _, h3⟩ := chain_both hd hdl s es l v0 en' (Nat.le_refl _) hel hrest
    have hed : en d = en' d := hag d (Nat.not_le.2 hd)
    obtain ⟨N', h4, h5⟩ := h3 r N hx
    obtain ⟨n, o, e2, s2, e2', N'', h6, h7⟩ := (key en en2 s (hag.trans h1)).2 N' r
      (by rw [hed]; exact h5)
    exact ⟨n, o, e2, s2, e2', N'', by omega, h7⟩

end

end Verif.ScfToCf
