import Verif.Dominance.Spec
import Mathlib.Algebra.BigOperators.Group.Finset.Basic
import Mathlib.Algebra.Order.BigOperators.Group.Finset
namespace Verif.Dominance
variable {n : Nat}

theorem mem_inSuccs {g : Cfg n} {b c : Fin n} : c ∈ g.inSuccs b ↔ some c ∈ g.succs b := by
  simp [Cfg.inSuccs]

theorem mem_preds {g : Cfg n} {b c : Fin n} : c ∈ g.preds b ↔ some b ∈ g.succs c := by
  simp [Cfg.preds, blocks]

/-! ## Depth-first search -/

theorem dfs_sound (g : Cfg n) (pending : List (Fin n)) (r : Finset (Fin n))
    (hp : ∀ x ∈ pending, Reachable g x) (hr : ∀ x ∈ r, Reachable g x) :
    ∀ x ∈ dfs g pending r, Reachable g x := by
  fun_induction dfs g pending r with
  | case1 r => exact hr
  | case2 r b rest h ih => exact ih (fun x hx => hp x (by simp [hx])) hr
  | case3 r b rest h ih =>
    apply ih
    · intro x hx
      rcases List.mem_append.mp hx with hx | hx
      · rw [List.mem_reverse, mem_inSuccs] at hx
        obtain ⟨p, hp'⟩ := hp b (by simp)
        exact ⟨_, hp'.step hx⟩
      · exact hp x (by simp [hx])
    · intro x hx
      rcases Finset.mem_insert.mp hx with rfl | hx
      · exact hp x (by simp)
      · exact hr x hx

theorem dfs_complete (g : Cfg n) (pending : List (Fin n)) (r : Finset (Fin n))
    (hc : ∀ x ∈ r, ∀ y ∈ g.inSuccs x, y ∈ r ∨ y ∈ pending) :
    (∀ x ∈ pending, x ∈ dfs g pending r) ∧ (∀ x ∈ r, x ∈ dfs g pending r) ∧
    ∀ x ∈ dfs g pending r, ∀ y ∈ g.inSuccs x, y ∈ dfs g pending r := by
  fun_induction dfs g pending r with
  | case1 r =>
    refine ⟨by simp, fun x hx => hx, ?_⟩
    intro x hx y hy
    rcases hc x hx y hy with h | h
    · exact h
    · simp at h
  | case2 r b rest h ih =>
    obtain ⟨i1, i2, i3⟩ := ih (by
      intro x hx y hy
      rcases hc x hx y hy with h' | h'
      · exact .inl h'
      · rcases List.mem_cons.mp h' with rfl | h'
        · exact .inl h
        · exact .inr h')
    refine ⟨?_, i2, i3⟩
    intro x hx
    rcases List.mem_cons.mp hx with rfl | hx
    · exact i2 x h
    · exact i1 x hx
  | case3 r b rest h ih =>
    obtain ⟨i1, i2, i3⟩ := ih (by
      intro x hx y hy
      rcases Finset.mem_insert.mp hx with rfl | hx
      · right; simp [hy]
      · rcases hc x hx y hy with h' | h'
        · left; simp [h']
        · rcases List.mem_cons.mp h' with rfl | h'
          · left; simp
          · right; simp [h'])
    refine ⟨?_, fun x hx => i2 x (by simp [hx]), i3⟩
    intro x hx
    rcases List.mem_cons.mp hx with rfl | hx
    · exact i2 x (by simp)
    · exact i1 x (by simp [hx])

theorem entry_some {e : Fin n} (h : entry n = some e) : e.val = 0 := by
  unfold entry at h
  split at h
  · cases h; rfl
  · cases h

theorem entry_eq {b : Fin n} (h : b.val = 0) : entry n = some b := by
  unfold entry
  have : 0 < n := by have := b.isLt; omega
  rw [dif_pos this]
  congr 1
  exact Fin.ext h.symm

theorem mem_reachable (g : Cfg n) (b : Fin n) : b ∈ g.reachable ↔ Reachable g b := by
  unfold Cfg.reachable
  match he : entry n with
  | none =>
    simp only [Finset.notMem_empty, false_iff]
    rintro ⟨p, hp⟩
    have : 0 < n := by have := b.isLt; omega
    unfold entry at he
    rw [dif_pos this] at he
    cases he
  | some e =>
    constructor
    · apply dfs_sound
      · intro x hx
        simp only [List.mem_singleton] at hx
        subst hx
        exact ⟨_, .start x (entry_some he)⟩
      · simp
    · rintro ⟨p, hp⟩
      obtain ⟨c1, _, c3⟩ := dfs_complete g [e] ∅ (by simp)
      induction hp with
      | start b h =>
        have : e = b := by have := entry_eq h; rw [he] at this; cases this; rfl
        exact c1 b (by simp [this])
      | step _ hs ih => exact c3 _ ih _ (mem_inSuccs.mpr hs)

/-! ## The fixpoint -/

/-- A total view of the map. -/
def get (d : DomMap n) (b : Fin n) : Finset (Fin n) := (d b).getD ∅

/-- Reachable predecessors as a set. -/
def rpreds (g : Cfg n) (b : Fin n) : List (Fin n) := (g.preds b).filter (· ∈ g.reachable)

/-- `a` is the block itself or is in the set of every reachable predecessor. -/
def InF (g : Cfg n) (d : DomMap n) (b a : Fin n) : Prop := a = b ∨ ∀ p ∈ rpreds g b, a ∈ get d p

theorem rpreds_ne_nil {g : Cfg n} {e b : Fin n} (he : entry n = some e) (hne : b ≠ e)
    (hb : b ∈ g.reachable) : rpreds g b ≠ [] := by
  rw [mem_reachable] at hb
  obtain ⟨p, hp⟩ := hb
  cases hp with
  | start _ h => have := entry_eq h; rw [he] at this; cases this; exact absurd rfl hne
  | @step c _ q hq hs =>
    have : c ∈ rpreds g b := by
      simp only [rpreds, List.mem_filter, decide_eq_true_eq, mem_preds]
      exact ⟨hs, (mem_reachable g c).mpr ⟨q, hq⟩⟩
    intro h; rw [h] at this; simp at this

/-- Loop invariant. -/
structure Inv (g : Cfg n) (e : Fin n) (d : DomMap n) : Prop where
  dom : ∀ b, (d b).isSome = decide (b ∈ g.reachable)
  entry : e ∈ g.reachable → get d e = {e}
  sub : ∀ b ∈ g.reachable, get d b ⊆ g.reachable
  above : ∀ b ∈ g.reachable, ∀ a, Dominates g a b → a ∈ get d b
  post : ∀ b ∈ g.reachable, b ≠ e → ∀ a ∈ g.reachable, InF g d b a → a ∈ get d b

theorem dominates_refl {g : Cfg n} {b : Fin n} (h : Reachable g b) : Dominates g b b := by
  refine ⟨h, ?_⟩
  intro p hp
  cases hp <;> simp

theorem dominates_reachable {g : Cfg n} {a b : Fin n} (h : Dominates g a b) : Reachable g a := by
  obtain ⟨⟨p, hp⟩, hall⟩ := h
  have : ∀ {c p}, PathTo g c p → ∀ x ∈ p, Reachable g x := by
    intro c p hp
    induction hp with
    | start b h => intro x hx; simp at hx; subst hx; exact ⟨_, .start x h⟩
    | step hp hs ih =>
      intro x hx
      rcases List.mem_cons.mp hx with rfl | hx
      · exact ⟨_, hp.step hs⟩
      · exact ih x hx
  exact this hp a (hall p hp)

theorem dominates_entry {g : Cfg n} {e a : Fin n} (he : entry n = some e) (h : Dominates g a e) :
    a = e := by
  have := h.2 [e] (.start e (entry_some he))
  simpa using this

theorem dominates_pred {g : Cfg n} {a b p : Fin n} (h : Dominates g a b) (hne : a ≠ b)
    (hp : p ∈ rpreds g b) : Dominates g a p := by
  simp only [rpreds, List.mem_filter, decide_eq_true_eq, mem_preds] at hp
  obtain ⟨hs, hr⟩ := hp
  refine ⟨(mem_reachable g p).mp hr, ?_⟩
  intro q hq
  rcases List.mem_cons.mp (h.2 _ (hq.step hs)) with h' | h'
  · exact absurd h' hne
  · exact h'

theorem inv_init {g : Cfg n} {e : Fin n} (he : entry n = some e) : Inv g e (g.initDom e) := by
  have hget : ∀ b ∈ g.reachable, get (g.initDom e) b = if b = e then {e} else g.reachable := by
    intro b hb; simp [get, Cfg.initDom, hb]
  constructor
  · intro b; by_cases h : b ∈ g.reachable <;> simp [Cfg.initDom, h]
  · intro h; rw [hget e h]; simp
  · intro b hb
    rw [hget b hb]
    split
    · rename_i h; subst h; simpa using hb
    · exact fun x hx => hx
  · intro b hb a ha
    rw [hget b hb]
    split
    · rename_i h; subst h; simp [dominates_entry he ha]
    · exact (mem_reachable g a).mpr (dominates_reachable ha)
  · intro b hb hne a ha _
    rw [hget b hb, if_neg hne]; exact ha

/-- Result of `interRest`. -/
theorem interRest_spec (d : DomMap n) (next : Finset (Fin n)) (ps : List (Fin n))
    (h : ∀ p ∈ ps, (d p).isSome) :
    ∃ s, interRest d next ps = some s ∧ ∀ a, a ∈ s ↔ a ∈ next ∧ ∀ p ∈ ps, a ∈ get d p := by
  induction ps generalizing next with
  | nil => exact ⟨next, rfl, by simp⟩
  | cons p ps ih =>
    obtain ⟨dp, hdp⟩ := Option.isSome_iff_exists.mp (h p (by simp))
    obtain ⟨s, h1, h2⟩ := ih (next.filter (· ∈ dp)) (fun q hq => h q (by simp [hq]))
    refine ⟨s, ?_, ?_⟩
    · simp [interRest, hdp, h1]
    · intro a
      rw [h2]
      simp [get, hdp]
      tauto

/-- Sum of the sizes of all sets. -/
def total (d : DomMap n) : Nat := ∑ b, (get d b).card

/-- What one visit does. -/
theorem visit_spec {g : Cfg n} {e b : Fin n} (he : entry n = some e) (s : St n)
    (hi : Inv g e s.dom) :
    ∃ s', g.visit e s b = some s' ∧ Inv g e s'.dom ∧ s'.valid = s.valid ∧
      (s' = s ∧ (b ∈ g.reachable → b ≠ e → ∀ a, a ∈ get s.dom b ↔ InF g s.dom b a) ∨
       s'.changed = true ∧ total s'.dom < total s.dom) := by
  unfold Cfg.visit
  by_cases hskip : b = e ∨ b ∉ g.reachable
  · rw [if_pos hskip]
    exact ⟨s, rfl, hi, rfl, .inl ⟨rfl, fun h1 h2 => by tauto⟩⟩
  · rw [if_neg hskip]
    push Not at hskip
    obtain ⟨hne, hb⟩ := hskip
    have hnil := rpreds_ne_nil he hne hb
    have hmem : ∀ p ∈ rpreds g b, p ∈ g.reachable := by
      intro p hp; simp only [rpreds, List.mem_filter, decide_eq_true_eq] at hp; exact hp.2
    have hsome : ∀ p ∈ rpreds g b, (s.dom p).isSome := by
      intro p hp; rw [hi.dom p]; simpa using hmem p hp
    change ∃ s', (match rpreds g b with
      | [] => some { s with valid := false }
      | first :: rest => _) = some s' ∧ _
    match hrp : rpreds g b, hnil with
    | first :: rest, _ =>
      rw [hrp] at hsome
      obtain ⟨d, hd⟩ := Option.isSome_iff_exists.mp (hsome first (by simp))
      obtain ⟨nx, hnx, hmemnx⟩ := interRest_spec s.dom d rest (fun p hp => hsome p (by simp [hp]))
      obtain ⟨old, hold⟩ := Option.isSome_iff_exists.mp
        (show (s.dom b).isSome by rw [hi.dom b]; simpa using hb)
      have hF : ∀ a, a ∈ insert b nx ↔ InF g s.dom b a := by
        intro a
        rw [Finset.mem_insert, hmemnx, InF, hrp]
        simp [get, hd]
      have hgold : get s.dom b = old := by simp [get, hold]
      simp only [hd, hnx, hold, Option.bind_eq_bind, Option.bind_some]
      -- the new set is inside the reachable blocks
      have hsubR : ∀ a, InF g s.dom b a → a ∈ g.reachable := by
        intro a ha
        rcases ha with rfl | ha
        · exact hb
        · have hf : first ∈ rpreds g b := by rw [hrp]; simp
          exact hi.sub first (hmem first hf) (ha first hf)
      have hsubold : insert b nx ⊆ old := by
        intro a ha
        rw [hF] at ha
        rw [← hgold]
        exact hi.post b hb hne a (hsubR a ha) ha
      by_cases hch : insert b nx ≠ old
      · rw [if_pos hch]
        refine ⟨_, rfl, ?_, rfl, .inr ⟨rfl, ?_⟩⟩
        · -- invariant
          have hg : ∀ c, get (fun c => if c = b then some (insert b nx) else s.dom c) c
              = if c = b then insert b nx else get s.dom c := by
            intro c; simp only [get]; split <;> simp
          have hmono : ∀ c a, InF g (fun c => if c = b then some (insert b nx) else s.dom c) c a →
              InF g s.dom c a := by
            intro c a ha
            rcases ha with rfl | ha
            · exact .inl rfl
            · right
              intro p hp
              have := ha p hp
              rw [hg] at this
              split at this
              · rename_i hpb; subst hpb; rw [hgold]; exact hsubold this
              · exact this
          constructor
          · intro c
            simp only
            split
            · rename_i h; subst h; simpa using hb
            · exact hi.dom c
          · intro h
            rw [hg, if_neg (fun h => hne h.symm)]; exact hi.entry h
          · intro c hc
            rw [hg]
            split
            · intro a ha; rw [hF] at ha; exact hsubR a ha
            · exact hi.sub c hc
          · intro c hc a ha
            rw [hg]
            split
            · rename_i h
              subst h
              rw [hF]
              by_cases hac : a = c
              · exact .inl hac
              · right
                intro p hp
                exact hi.above p (hmem p hp) a (dominates_pred ha hac hp)
            · exact hi.above c hc a ha
          · intro c hc hce a ha hin
            have hin' := hmono c a hin
            rw [hg]
            split
            · rename_i h; subst h; rw [hF]; exact hin'
            · exact hi.post c hc hce a ha hin'
        · -- measure
          apply Finset.sum_lt_sum
          · intro c _
            simp only [get]
            split
            · rename_i h
              subst h
              simp only [Option.getD_some, hold]
              exact Finset.card_le_card hsubold
            · exact Nat.le_refl _
          · refine ⟨b, Finset.mem_univ b, ?_⟩
            simp only [get, if_true, Option.getD_some, hold]
            apply Finset.card_lt_card
            exact Finset.ssubset_iff_subset_ne.mpr ⟨hsubold, hch⟩
      · rw [if_neg hch]
        refine ⟨s, rfl, hi, rfl, .inl ⟨rfl, ?_⟩⟩
        intro _ _ a
        push Not at hch
        rw [hgold, ← hch, hF]

/-- What a sequence of visits does. -/
theorem fold_spec {g : Cfg n} {e : Fin n} (he : entry n = some e) (bs : List (Fin n)) (s : St n)
    (hi : Inv g e s.dom) :
    ∃ s', bs.foldlM (g.visit e) s = some s' ∧ Inv g e s'.dom ∧ s'.valid = s.valid ∧
      (s' = s ∧ (∀ b ∈ bs, b ∈ g.reachable → b ≠ e → ∀ a, a ∈ get s.dom b ↔ InF g s.dom b a) ∨
       s'.changed = true ∧ total s'.dom < total s.dom) := by
  induction bs generalizing s with
  | nil => exact ⟨s, rfl, hi, rfl, .inl ⟨rfl, by simp⟩⟩
  | cons b bs ih =>
    obtain ⟨s1, h1, hi1, hv1, hor1⟩ := visit_spec (b := b) he s hi
    obtain ⟨s2, h2, hi2, hv2, hor2⟩ := ih s1 hi1
    refine ⟨s2, ?_, hi2, by rw [hv2, hv1], ?_⟩
    · rw [List.foldlM_cons, h1]; exact h2
    · rcases hor1 with ⟨rfl, hq1⟩ | ⟨hc1, ht1⟩
      · rcases hor2 with ⟨rfl, hq2⟩ | hor2
        · left
          refine ⟨rfl, ?_⟩
          intro c hc
          rcases List.mem_cons.mp hc with rfl | hc
          · exact hq1
          · exact hq2 c hc
        · exact .inr hor2
      · right
        rcases hor2 with ⟨rfl, _⟩ | ⟨hc2, ht2⟩
        · exact ⟨hc1, ht1⟩
        · exact ⟨hc2, by omega⟩

/-- At a fixpoint the sets are exactly the dominators. -/
theorem exact_of_fixpoint {g : Cfg n} {e : Fin n} (he : entry n = some e) {d : DomMap n}
    (hi : Inv g e d)
    (hfix : ∀ b ∈ g.reachable, b ≠ e → ∀ a, a ∈ get d b ↔ InF g d b a) :
    ∀ b ∈ g.reachable, ∀ a, a ∈ get d b ↔ Dominates g a b := by
  intro b hb a
  refine ⟨fun ha => ⟨(mem_reachable g b).mp hb, ?_⟩, hi.above b hb a⟩
  intro p hp
  induction hp with
  | start b h =>
    have : b = e := by have := entry_eq h; rw [he] at this; cases this; rfl
    subst this
    rw [hi.entry hb] at ha
    simpa using ha
  | @step c b p hp hs ih =>
    by_cases hbe : b = e
    · subst hbe
      rw [hi.entry hb] at ha
      simp only [Finset.mem_singleton] at ha
      simp [ha]
    · rw [hfix b hb hbe] at ha
      rcases ha with rfl | ha
      · simp
      · have hcr : c ∈ g.reachable := (mem_reachable g c).mpr ⟨p, hp⟩
        have hcp : c ∈ rpreds g b := by
          simp only [rpreds, List.mem_filter, decide_eq_true_eq, mem_preds]
          exact ⟨hs, hcr⟩
        exact List.mem_cons_of_mem _ (ih hcr (ha c hcp))

/-- The loop ends, with exact sets, when it is given enough rounds. -/
theorem loop_spec {g : Cfg n} {e : Fin n} (he : entry n = some e) (fuel : Nat) (s : St n)
    (hi : Inv g e s.dom) (hf : total s.dom < fuel) :
    ∃ s', g.loop e fuel s = .done s' ∧ s'.valid = s.valid ∧ Inv g e s'.dom ∧
      ∀ b ∈ g.reachable, ∀ a, a ∈ get s'.dom b ↔ Dominates g a b := by
  induction fuel generalizing s with
  | zero => omega
  | succ fuel ih =>
    obtain ⟨s1, h1, hi1, hv1, hor⟩ := fold_spec he (blocks n) { s with changed := false } hi
    have hsw : g.sweep e s = some s1 := h1
    rw [Cfg.loop, hsw]
    simp only
    rcases hor with ⟨rfl, hq⟩ | ⟨hc, ht⟩
    · simp only [Bool.false_eq_true, if_false]
      exact ⟨_, rfl, rfl, hi1, exact_of_fixpoint he hi1 fun b hb => hq b (by simp [blocks]) hb⟩
    · rw [if_pos hc]
      obtain ⟨s2, j1, j2, j3, j4⟩ := ih s1 hi1 (by simp only at ht; omega)
      exact ⟨s2, j1, by rw [j2, hv1], j3, j4⟩

end Verif.Dominance
