import Verif.ScfToCf.Redirect

/-
Replacing one structured operation by a tail of branches and some blocks: the abstract simulation, in
both directions.
-/
namespace Verif.ScfToCf

variable {I : Interp}

/-- Run operations at the end of a block of `bs` and go on where they lead. -/
def block (n : Nat) (bs : List Block) (ops : List Op) (e : Env I) (s : I.S) : Option (Res I) :=
  settle n bs (exec (run n) n ops e s)

theorem settle_mono {n n' : Nat} (h : n ≤ n') {bs : List Block} {x : Option (Res I)} {r : Res I}
    (hx : settle n bs x = some r) : settle n' bs x = some r := by
  rcases x with _ | ⟨o, e, s⟩
  · cases hx
  · cases o <;> simp only [settle] at hx ⊢ <;> first | exact hx | skip
    split
    · rename_i hm; rw [if_pos hm] at hx; exact run_mono h _ _ _ _ _ _ hx
    · rename_i hm; rw [if_neg hm] at hx; exact hx

theorem settle_some {n : Nat} {bs : List Block} {x : Option (Res I)} {r : Res I}
    (hx : settle n bs x = some r) : ∃ o e s, x = some (o, e, s) := by
  rcases x with _ | ⟨o, e, s⟩
  · cases hx
  · exact ⟨o, e, s, rfl⟩

theorem block_mono {n n' : Nat} (h : n ≤ n') {bs : List Block} {ops : List Op} {e : Env I} {s : I.S}
    {r : Res I} (hx : block n bs ops e s = some r) : block n' bs ops e s = some r := by
  unfold block at hx ⊢
  obtain ⟨o, e1, s1, h1⟩ := settle_some hx
  rw [exec_run_mono h h1]
  rw [h1] at hx
  exact settle_mono h hx

theorem run_block {n : Nat} {bs : List Block} {l : Label} {as : List I.V} {e : Env I} {s : I.S}
    {l' ps ops} (h : findBlock l bs = some (.mk l' ps ops)) :
    run (n + 1) bs l as e s =
      if ps.length < as.length then some (.stuck, e, s) else block n bs ops (bind e ps as) s :=
  run_succ _ _ _ _ _ _ h

theorem find_of_label {l : Label} {bs : List Block} (h : l ∈ bs.map Block.label) :
    ∃ ps ops, findBlock l bs = some (.mk l ps ops) := by
  induction bs with
  | nil => cases h
  | cons b bs ih =>
    obtain ⟨l', ps, os⟩ := b
    by_cases hl : l' = l
    · subst hl; exact ⟨ps, os, by simp [findBlock, Block.label]⟩
    · obtain ⟨ps', os', h'⟩ := ih ((List.mem_cons.mp h).resolve_left fun hh => hl hh.symm)
      exact ⟨ps', os', by simpa [findBlock, Block.label, hl] using h'⟩

theorem label_of_find {l : Label} {bs : List Block} {blk : Block} (h : findBlock l bs = some blk) :
    l ∈ bs.map Block.label :=
  List.mem_map.mpr ⟨blk, (find_mem h).1, (find_mem h).2⟩

/-! ## A region within a region -/

/-- The blocks of `T` are among those of `bs`, with operations that end with `g o` instead of `o`. -/
def Within (g : Out I.V → Out I.V) (T bs : List Block) : Prop :=
  ∀ l ps ops, findBlock l T = some (.mk l ps ops) →
    ∃ ops', findBlock l bs = some (.mk l ps ops') ∧
      ∀ n e s, exec (run n) n ops' e s = (exec (run n) n ops e s).map (Res.out g)

/-- Jumps, errors and going on are left as they are. -/
structure Keeps (g : Out I.V → Out I.V) : Prop where
  jump : ∀ l vs, g (.jump l vs) = .jump l vs
  fell : g .fell = .fell
  stuck : g .stuck = .stuck

theorem Within.label {g : Out I.V → Out I.V} {T bs : List Block} (h : Within g T bs) {l : Label}
    (hl : l ∈ T.map Block.label) : l ∈ bs.map Block.label := by
  obtain ⟨ps, ops, hf⟩ := find_of_label hl
  obtain ⟨ops', h', _⟩ := h _ _ _ hf
  exact label_of_find h'

theorem within_fwd {g : Out I.V → Out I.V} (hg : Keeps g) {T bs : List Block} (hT : Within g T bs)
    {o : Out I.V} {e2 : Env I} {s2 : I.S} {N : Nat} {r : Res I}
    (hr : settle N bs (some (g o, e2, s2)) = some r) :
    ∀ (n : Nat) (l : Label) (as : List I.V) (e : Env I) (s : I.S), l ∈ T.map Block.label →
      run n T l as e s = some (o, e2, s2) → ∃ N', run N' bs l as e s = some r
  | 0, _, _, _, _, _, h => by cases h
  | n + 1, l, as, e, s, hl, h => by
    obtain ⟨ps, ops, hf⟩ := find_of_label hl
    obtain ⟨ops', hf', hops⟩ := hT _ _ _ hf
    rw [run_block hf] at h
    by_cases hlen : ps.length < as.length
    · rw [if_pos hlen] at h
      cases h
      simp only [hg.stuck, settle, Option.some.injEq] at hr
      exact ⟨1, by rw [run_block hf', if_pos hlen, hr]⟩
    · rw [if_neg hlen] at h
      unfold block at h
      obtain ⟨o1, e1, s1, h1⟩ := settle_some h
      have h1' := hops n (bind e ps as) s
      rw [h1] at h h1'
      simp only [Option.map_some, Res.out] at h1'
      have done : (o1, e1, s1) = (o, e2, s2) → ∃ N', run N' bs l as e s = some r := by
        intro heq
        cases heq
        refine ⟨max n N + 1, ?_⟩
        rw [run_block hf', if_neg hlen, block, exec_run_mono (Nat.le_max_left n N) h1']
        exact settle_mono (Nat.le_max_right n N) hr
      by_cases hfell : o1 = .fell
      · subst hfell
        cases h
        simp only [hg.stuck, settle, Option.some.injEq] at hr
        refine ⟨n + 1, ?_⟩
        rw [run_block hf', if_neg hlen, block, h1', ← hr, hg.fell]
        rfl
      cases o1 <;> simp only [settle] at h <;> first
        | exact done (Option.some.inj h) | exact absurd rfl hfell | skip
      split at h
      · rename_i hm
        obtain ⟨N', h'⟩ := within_fwd hg hT hr n _ _ _ _ hm h
        refine ⟨max n N' + 1, ?_⟩
        rw [run_block hf', if_neg hlen, block, exec_run_mono (Nat.le_max_left n N') h1', hg.jump]
        simp only [settle]
        rw [if_pos (hT.label hm)]
        exact run_mono (Nat.le_max_right n N') _ _ _ _ _ _ h'
      · exact done (Option.some.inj h)

theorem within_bwd {g : Out I.V → Out I.V} (hg : Keeps g) {T bs : List Block} (hT : Within g T bs)
    {r : Res I} :
    ∀ (N : Nat) (l : Label) (as : List I.V) (e : Env I) (s : I.S), l ∈ T.map Block.label →
      run N bs l as e s = some r → ∃ n o e2 s2 N', N' < N ∧ run n T l as e s = some (o, e2, s2) ∧
        settle N' bs (some (g o, e2, s2)) = some r
  | 0, _, _, _, _, _, h => by cases h
  | N + 1, l, as, e, s, hl, h => by
    obtain ⟨ps, ops, hf⟩ := find_of_label hl
    obtain ⟨ops', hf', hops⟩ := hT _ _ _ hf
    rw [run_block hf'] at h
    by_cases hlen : ps.length < as.length
    · rw [if_pos hlen] at h
      exact ⟨1, .stuck, e, s, 0, by omega, by rw [run_block hf, if_pos hlen],
        by rw [hg.stuck]; exact h⟩
    · rw [if_neg hlen] at h
      unfold block at h
      obtain ⟨o1', e1, s1, h1'⟩ := settle_some h
      have h1 := hops N (bind e ps as) s
      rw [h1'] at h h1
      cases h2 : exec (run N) N ops (bind e ps as) s with
      | none => rw [h2] at h1; cases h1
      | some y =>
      obtain ⟨o1, e1', s1'⟩ := y
      rw [h2] at h1
      cases h1
      by_cases hj : ∃ l' vs, o1 = .jump l' vs ∧ l' ∈ T.map Block.label
      · obtain ⟨l', vs, rfl, hm⟩ := hj
        rw [hg.jump] at h
        simp only [settle] at h
        rw [if_pos (hT.label hm)] at h
        obtain ⟨n, o, e2, s2, N', hN, h3, h4⟩ := within_bwd hg hT N _ _ _ _ hm h
        refine ⟨max N n + 1, o, e2, s2, N', by omega, ?_, h4⟩
        rw [run_block hf, if_neg hlen, block, exec_run_mono (Nat.le_max_left N n) h2]
        simp only [settle]
        rw [if_pos hm]
        exact run_mono (Nat.le_max_right N n) _ _ _ _ _ _ h3
      · by_cases hfell : o1 = .fell
        · subst hfell
          rw [hg.fell] at h
          refine ⟨N + 1, .stuck, e1', s1', N, by omega, ?_, by rw [hg.stuck]; exact h⟩
          rw [run_block hf, if_neg hlen, block, h2]
          rfl
        refine ⟨N + 1, o1, e1', s1', N, by omega, ?_, h⟩
        rw [run_block hf, if_neg hlen, block, h2]
        cases o1 <;> first | exact absurd rfl hfell | (simp only [settle]; done) | simp only [settle]
        rename_i l' vs
        rw [if_neg fun hm => hj ⟨l', vs, rfl, hm⟩]

theorem usesO_append (xs ys : List Op) : usesO (xs ++ ys) = usesO xs ++ usesO ys := by
  induction xs with
  | nil => rfl
  | cons o os ih => simp [usesO, ih]

theorem scopesO_append {L : List Label} (xs ys : List Op) :
    scopesO L (xs ++ ys) ↔ scopesO L xs ∧ scopesO L ys := by
  induction xs with
  | nil => simp [scopesO]
  | cons o os ih => simp [scopesO, ih, and_assoc]

/-! ## One step -/

/-- Go on with `after` if the operation went through, else with where it led. -/
def kont (N : Nat) (bs : List Block) (after : List Op) (o : Out I.V) (e : Env I) (s : I.S) :
    Option (Res I) :=
  settle N bs (seq (some (o, e, s)) (exec (run N) N after))

theorem kont_mono {n n' : Nat} (h : n ≤ n') {bs : List Block} {after : List Op} {o : Out I.V}
    {e : Env I} {s : I.S} {r : Res I} (hx : kont n bs after o e s = some r) :
    kont n' bs after o e s = some r := by
  unfold kont at hx ⊢
  cases o <;> simp only [seq] at hx ⊢ <;> first | exact settle_mono h hx | exact block_mono h hx

/-- What has to be shown of a lowering: `bs1` has the operation `op`, between `before` and `after`, in
block `b`; in `bs2` the block ends with `tail` instead, and `tail` leads to the same ends as `op`. -/
structure StepData (I : Interp) (F : Value → Prop) (bs1 bs2 : List Block) (b : Label)
    (ps : List Value) (before : List Op) (op : Op) (after tail : List Op) : Prop where
  source : findBlock b bs1 = some (.mk b ps (before ++ op :: after))
  target : findBlock b bs2 = some (.mk b ps (before ++ tail))
  others : ∀ l, l ≠ b → l ∈ bs1.map Block.label → findBlock l bs2 = findBlock l bs1
  branches : scopesB (bs1.map Block.label) bs1
  unused : ∀ v ∈ usesB bs1, ¬ F v
  fwd : ∀ n (e e' : Env I) s o e2 s2, Agree F e e' → execOp (run n) n e s op = some (o, e2, s2) →
    ∃ e2', Agree F e2 e2' ∧ ∀ r N, kont N bs2 after o e2' s2 = some r →
      ∃ N', block N' bs2 tail e' s = some r
  bwd : ∀ N (e e' : Env I) s r, Agree F e e' → block N bs2 tail e' s = some r →
    ∃ n o e2 s2 e2' N', N' ≤ N ∧ execOp (run n) n e s op = some (o, e2, s2) ∧ Agree F e2 e2' ∧
      kont N' bs2 after o e2' s2 = some r

section
variable {F : Value → Prop} {bs1 bs2 : List Block} {b : Label} {ps : List Value}
  {before : List Op} {op : Op} {after tail : List Op}
  (D : StepData I F bs1 bs2 b ps before op after tail)
include D

theorem StepData.sub {l : Label} (hl : l ∈ bs1.map Block.label) : l ∈ bs2.map Block.label := by
  by_cases h : l = b
  · subst h; exact label_of_find D.target
  · obtain ⟨ps, ops, hf⟩ := find_of_label hl
    exact label_of_find ((D.others l h hl).trans hf)

theorem StepData.scope {l : Label} {blk : Block} (h : findBlock l bs1 = some blk) :
    scopesO (bs1.map Block.label) blk.ops := scopesB_mem D.branches (find_mem h).1

theorem StepData.uses {l : Label} {blk : Block} (h : findBlock l bs1 = some blk) :
    ∀ v ∈ usesO blk.ops, ¬ F v := fun v hv => D.unused v (usesB_mem (find_mem h).1 hv)

omit D in
theorem seq_agree {k k' : Env I → I.S → Option (Res I)}
    (hk : ∀ e e' s, Agree F e e' → Sim F (k e s) (k' e' s)) {a a' : Option (Res I)} (h : Sim F a a') :
    Sim F (seq a k) (seq a' k') := by
  rcases h with ⟨rfl, rfl⟩ | ⟨o, e1, e2, s1, rfl, rfl, h3⟩
  · exact .inl ⟨rfl, rfl⟩
  · cases o <;> simp only [seq] <;> first | exact .some h3 | exact hk _ _ _ h3

theorem StepData.run_fwd : ∀ (n : Nat) (l : Label) (as : List I.V) (e e' : Env I) (s : I.S)
    (o : Out I.V) (e2 : Env I) (s2 : I.S), l ∈ bs1.map Block.label → Agree F e e' →
    run n bs1 l as e s = some (o, e2, s2) →
    ∃ e2' N, Agree F e2 e2' ∧ run N bs2 l as e' s = some (o, e2', s2)
  | 0, _, _, _, _, _, _, _, _, _, _, h => by cases h
  | n + 1, l, as, e, e', s, o, e2, s2, hl, he, h => by
    -- going on after operations of a block
    have settle_fwd : ∀ (a a' : Option (Res I)), Sim F a a' →
        (∀ l' vs e1 s1, a = some (.jump l' vs, e1, s1) → l' ∈ bs1.map Block.label) →
        settle n bs1 a = some (o, e2, s2) →
        ∃ e2' N, Agree F e2 e2' ∧ settle N bs2 a' = some (o, e2', s2) := by
      intro a a' hs hj hx
      rcases hs with ⟨rfl, rfl⟩ | ⟨o1, e1, e1', s1, rfl, rfl, h3⟩
      · cases hx
      · cases o1 <;> simp only [settle] at hx ⊢ <;> try (cases hx; exact ⟨e1', 0, h3, rfl⟩)
        have hm := hj _ _ _ _ rfl
        rw [if_pos hm] at hx
        obtain ⟨e2', N, h4, h5⟩ := StepData.run_fwd n _ _ _ _ _ _ _ _ hm h3 hx
        exact ⟨e2', N, h4, by rw [if_pos (D.sub hm)]; exact h5⟩
    by_cases hb : l = b
    · subst hb
      rw [run_block D.source] at h
      by_cases hlen : ps.length < as.length
      · rw [if_pos hlen] at h
        cases h
        exact ⟨e', 1, he, by rw [run_block D.target, if_pos hlen]⟩
      rw [if_neg hlen] at h
      have hsc := D.scope D.source
      have hus := D.uses D.source
      simp only [Block.ops] at hsc hus
      rw [scopesO_append] at hsc
      rw [usesO_append] at hus
      simp only [List.mem_append] at hus
      -- it is enough to show that the tail of the target gets there
      suffices key : ∃ e2' N, Agree F e2 e2' ∧
          block N bs2 (before ++ tail) (bind e' ps as) s = some (o, e2', s2) by
        obtain ⟨e2', N, h1, h2⟩ := key
        exact ⟨e2', N + 1, h1, by rw [run_block D.target, if_neg hlen, h2]⟩
      simp only [block] at h ⊢
      rw [exec_append] at h
      rcases exec_agree (run_agree n) n before _ _ s (fun v hv => hus v (.inl hv)) (he.bind ps as)
        with ⟨h1, h2⟩ | ⟨o0, e0, e0', s0, h1, h2, h3⟩
      · rw [h1] at h; cases h
      · rw [h1] at h
        by_cases hfell : o0 = .fell
        · subst hfell
          simp only [seq] at h
          rw [exec_cons] at h
          cases hop : execOp (run n) n e0 s0 op with
          | none => rw [hop] at h; cases h
          | some y =>
            obtain ⟨o1, e1, s1⟩ := y
            obtain ⟨e1', h4, h5⟩ := D.fwd n e0 e0' s0 o1 e1 s1 h3 hop
            have hsim : Sim F (seq (some (o1, e1, s1)) (exec (run n) n after))
                (seq (some (o1, e1', s1)) (exec (run n) n after)) :=
              seq_agree (fun ea eb sa hag => exec_agree (run_agree n) n after ea eb sa
                (fun v hv => hus v (.inr (by simp only [usesO, List.mem_append]; exact .inr hv))) hag)
                (.some h4)
            have hjump : ∀ l' vs e3 s3, seq (some (o1, e1, s1)) (exec (run n) n after) =
                some (.jump l' vs, e3, s3) → l' ∈ bs1.map Block.label := by
              intro l' vs e3 s3 hx
              rw [← hop, ← exec_cons] at hx
              exact exec_jump (run_jump n) hsc.2 hx
            rw [hop] at h
            obtain ⟨e2', N, h6, h7⟩ := settle_fwd _ _ hsim hjump h
            have h8 : kont (max n N) bs2 after o1 e1' s1 = some (o, e2', s2) := by
              unfold kont
              obtain ⟨o3, e3, s3, h9⟩ := settle_some h7
              rw [h9] at h7
              have : seq (some (o1, e1', s1)) (exec (run (max n N)) (max n N) after) =
                  some (o3, e3, s3) := by
                cases o1 <;> simp only [seq] at h9 ⊢ <;>
                  first | exact h9 | exact exec_run_mono (Nat.le_max_left n N) h9
              rw [this]
              exact settle_mono (Nat.le_max_right n N) h7
            obtain ⟨N', h9⟩ := h5 _ _ h8
            refine ⟨e2', max n N', h6, ?_⟩
            rw [exec_append, exec_run_mono (Nat.le_max_left n N') h2]
            simp only [seq]
            exact block_mono (Nat.le_max_right n N') h9
        · have hseq : ∀ k, seq (some (o0, e0, s0)) k = some (o0, e0, s0) := by
            intro k; cases o0 <;> first | rfl | exact absurd rfl hfell
          rw [hseq] at h
          obtain ⟨e2', N, h6, h7⟩ := settle_fwd _ _ (.some h3)
            (fun l' vs e1 s1 hx => by
              cases hx
              exact exec_jump (run_jump n) hsc.1 h1) h
          refine ⟨e2', max n N, h6, ?_⟩
          rw [exec_append, exec_run_mono (Nat.le_max_left n N) h2]
          have : seq (some (o0, e0', s0)) (exec (run (max n N)) (max n N) tail) =
              some (o0, e0', s0) := by cases o0 <;> first | rfl | exact absurd rfl hfell
          rw [this]
          exact settle_mono (Nat.le_max_right n N) h7
    · obtain ⟨ps', ops, hf⟩ := find_of_label hl
      have hf2 := (D.others l hb hl).trans hf
      rw [run_block hf] at h
      by_cases hlen : ps'.length < as.length
      · rw [if_pos hlen] at h
        cases h
        exact ⟨e', 1, he, by rw [run_block hf2, if_pos hlen]⟩
      rw [if_neg hlen, block] at h
      have hsim := exec_agree (F := F) (run_agree n) n ops _ _ s (D.uses hf) (he.bind ps' as)
      obtain ⟨e2', N, h6, h7⟩ := settle_fwd _ _ hsim
        (fun l' vs e1 s1 hx => exec_jump (run_jump n) (D.scope hf) hx) h
      refine ⟨e2', max n N + 1, h6, ?_⟩
      rw [run_block hf2, if_neg hlen, block]
      obtain ⟨o3, e3, s3, h9⟩ := settle_some h7
      rw [exec_run_mono (Nat.le_max_left n N) h9]
      rw [h9] at h7
      exact settle_mono (Nat.le_max_right n N) h7

theorem StepData.run_bwd : ∀ (N : Nat) (l : Label) (as : List I.V) (e e' : Env I) (s : I.S)
    (o : Out I.V) (e2' : Env I) (s2 : I.S), l ∈ bs1.map Block.label → Agree F e e' →
    run N bs2 l as e' s = some (o, e2', s2) →
    ∃ e2 n, Agree F e2 e2' ∧ run n bs1 l as e s = some (o, e2, s2) := by
  intro N
  induction N using Nat.strongRecOn with
  | _ N IH =>
  intro l as e e' s o e2' s2 hl he h
  cases N with
  | zero => cases h
  | succ N =>
    have settle_bwd : ∀ (M : Nat) (a a' : Option (Res I)), M ≤ N → Sim F a a' →
        (∀ l' vs e1 s1, a = some (.jump l' vs, e1, s1) → l' ∈ bs1.map Block.label) →
        settle M bs2 a' = some (o, e2', s2) →
        ∃ e2 n, Agree F e2 e2' ∧ settle n bs1 a = some (o, e2, s2) := by
      intro M a a' hM hs hj hx
      rcases hs with ⟨rfl, rfl⟩ | ⟨o1, e1, e1', s1, rfl, rfl, h3⟩
      · cases hx
      · cases o1 <;> simp only [settle] at hx ⊢ <;> try (cases hx; exact ⟨e1, 0, h3, rfl⟩)
        have hm := hj _ _ _ _ rfl
        rw [if_pos (D.sub hm)] at hx
        obtain ⟨e2, n, h4, h5⟩ := IH M (by omega) _ _ _ _ _ _ _ _ hm h3 hx
        exact ⟨e2, n, h4, by rw [if_pos hm]; exact h5⟩
    by_cases hb : l = b
    · subst hb
      rw [run_block D.target] at h
      by_cases hlen : ps.length < as.length
      · rw [if_pos hlen] at h
        cases h
        exact ⟨e, 1, he, by rw [run_block D.source, if_pos hlen]⟩
      rw [if_neg hlen] at h
      have hsc := D.scope D.source
      have hus := D.uses D.source
      simp only [Block.ops] at hsc hus
      rw [scopesO_append] at hsc
      rw [usesO_append] at hus
      simp only [List.mem_append] at hus
      suffices key : ∃ e2 n, Agree F e2 e2' ∧
          block n bs1 (before ++ op :: after) (bind e ps as) s = some (o, e2, s2) by
        obtain ⟨e2, n, h1, h2⟩ := key
        exact ⟨e2, n + 1, h1, by rw [run_block D.source, if_neg hlen, h2]⟩
      simp only [block] at h ⊢
      rw [exec_append] at h
      rcases exec_agree (run_agree N) N before _ _ s (fun v hv => hus v (.inl hv)) (he.bind ps as)
        with ⟨h1, h2⟩ | ⟨o0, e0, e0', s0, h1, h2, h3⟩
      · rw [h2] at h; cases h
      · rw [h2] at h
        by_cases hfell : o0 = .fell
        · subst hfell
          simp only [seq] at h
          obtain ⟨n, o1, e1, s1, e1', N', hN', h4, h5, h6⟩ := D.bwd N e0 e0' s0 _ h3 h
          unfold kont at h6
          have hsim : Sim F (seq (some (o1, e1, s1)) (exec (run N') N' after))
              (seq (some (o1, e1', s1)) (exec (run N') N' after)) :=
            seq_agree (fun ea eb sa hag => exec_agree (run_agree N') N' after ea eb sa
              (fun v hv => hus v (.inr (by simp only [usesO, List.mem_append]; exact .inr hv))) hag)
              (.some h5)
          have hjump : ∀ l' vs e3 s3, seq (some (o1, e1, s1)) (exec (run N') N' after) =
              some (.jump l' vs, e3, s3) → l' ∈ bs1.map Block.label := by
            intro l' vs e3 s3 hx
            have : exec (run (max n N')) (max n N') (op :: after) e0 s0 =
                some (.jump l' vs, e3, s3) := by
              rw [exec_cons, execOp_run_mono (Nat.le_max_left n N') h4]
              cases o1 <;> simp only [seq] at hx ⊢ <;>
                first | exact hx | exact exec_run_mono (Nat.le_max_right n N') hx
            exact exec_jump (run_jump _) hsc.2 this
          obtain ⟨e2, n', h7, h8⟩ := settle_bwd N' _ _ hN' hsim hjump h6
          refine ⟨e2, max (max n N') (max N n'), h7, ?_⟩
          rw [exec_append, exec_run_mono (by omega) h1]
          simp only [seq]
          rw [exec_cons, execOp_run_mono (by omega) h4]
          obtain ⟨o3, e3, s3, h9⟩ := settle_some h8
          rw [h9] at h8
          have : seq (some (o1, e1, s1)) (exec (run (max (max n N') (max N n')))
              (max (max n N') (max N n')) after) = some (o3, e3, s3) := by
            cases o1 <;> simp only [seq] at h9 ⊢ <;>
              first | exact h9 | exact exec_run_mono (by omega) h9
          rw [this]
          exact settle_mono (by omega) h8
        · have hseq : ∀ k, seq (some (o0, e0', s0)) k = some (o0, e0', s0) := by
            intro k; cases o0 <;> first | rfl | exact absurd rfl hfell
          rw [hseq] at h
          obtain ⟨e2, n, h6, h7⟩ := settle_bwd N _ _ (Nat.le_refl _) (.some h3)
            (fun l' vs e1 s1 hx => by
              cases hx
              exact exec_jump (run_jump N) hsc.1 h1) h
          refine ⟨e2, max n N, h6, ?_⟩
          rw [exec_append, exec_run_mono (Nat.le_max_right n N) h1]
          have : seq (some (o0, e0, s0)) (exec (run (max n N)) (max n N) (op :: after)) =
              some (o0, e0, s0) := by cases o0 <;> first | rfl | exact absurd rfl hfell
          rw [this]
          exact settle_mono (Nat.le_max_left n N) h7
    · obtain ⟨ps', ops, hf⟩ := find_of_label hl
      have hf2 := (D.others l hb hl).trans hf
      rw [run_block hf2] at h
      by_cases hlen : ps'.length < as.length
      · rw [if_pos hlen] at h
        cases h
        exact ⟨e, 1, he, by rw [run_block hf, if_pos hlen]⟩
      rw [if_neg hlen, block] at h
      have hsim := exec_agree (F := F) (run_agree N) N ops _ _ s (D.uses hf) (he.bind ps' as)
      obtain ⟨e2, n, h6, h7⟩ := settle_bwd N _ _ (Nat.le_refl _) hsim
        (fun l' vs e1 s1 hx => exec_jump (run_jump N) (D.scope hf) hx) h
      refine ⟨e2, max n N + 1, h6, ?_⟩
      rw [run_block hf, if_neg hlen, block]
      obtain ⟨o3, e3, s3, h9⟩ := settle_some h7
      rw [exec_run_mono (Nat.le_max_right n N) h9]
      rw [h9] at h7
      exact settle_mono (Nat.le_max_left n N) h7

theorem StepData.behaves (hfirst : firstLabel bs2 = firstLabel bs1) (as : List I.V) (s : I.S)
    (o : Out I.V) (s' : I.S) : Behaves I bs1 as s o s' ↔ Behaves I bs2 as s o s' := by
  have hmem : ∀ l, firstLabel bs1 = some l → l ∈ bs1.map Block.label := by
    intro l h
    cases bs1 with
    | nil => cases h
    | cons b bs => cases h; exact .head _
  constructor
  · rintro ⟨l, n, e2, hl, h⟩
    obtain ⟨e2', N, _, h2⟩ := D.run_fwd n l as _ (fun _ => I.undef) s o e2 s' (hmem l hl)
      (fun _ _ => rfl) h
    exact ⟨l, N, e2', hfirst.trans hl, h2⟩
  · rintro ⟨l, n, e2, hl, h⟩
    obtain ⟨e2', N, _, h2⟩ := D.run_bwd n l as (fun _ => I.undef) _ s o e2 s'
      (hmem l (hfirst ▸ hl)) (fun _ _ => rfl) h
    exact ⟨l, N, e2', hfirst ▸ hl, h2⟩

end

end Verif.ScfToCf
