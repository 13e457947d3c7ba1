import Verif.Instances.Levels

/-!
# When the rounds come to an end
-/

namespace Verif.Instances
open Verif.Types Verif.Mono

def Old (t0 tab : Table) : Prop := ∀ id, id.variant = none → tab.lookup id = t0.lookup id

theorem old_step {t0 tab : Table} {ts : List Ty} {v : Nat} {origins : List NodeId} (h : Old t0 tab) :
    Old t0 (cloneTable ts v origins tab) := by
  intro id hv
  rw [cloneTable, lookup_append]
  split
  · rename_i y hy
    obtain ⟨id', _, t, _, hk, _⟩ := lookup_clone hy
    subst hk
    simp [NodeId.withVariant] at hv
  · exact h id hv

theorem toBool_ok {ε α : Type} {x : Except ε α} : x.toBool = true ↔ ∃ y, x = .ok y := by
  cases x <;> simp [Except.toBool]

section
variable {E : Env} {src : List Decl} {nt ct : Table} {L : Set Inst}
  (hsrc : Source E src) (hc : Checked E src ct)
include hsrc hc

theorem generate_succeeds {st : State} (hi : Inv2 E src ct L st) {i : Inst} (hfd : Found E.ss i)
    (hfit : Fits E src nt ct i) : ∃ new, generate E st.decls i = some new ∧
      ∀ id ∈ new.origins, id.variant = none ∧
        ∀ t, nt.lookup id = some t ∨ ct.lookup id = some t → ∃ t', Scheme.substB i.2 t = .ok t' := by
  obtain ⟨n, hn⟩ := hfit.name
  obtain ⟨s, _, hs, _⟩ := hfd
  obtain ⟨t, ht⟩ := hfit.scheme s hs
  have hl := hi.look i.1 (hsrc.schemes _ _ hs)
  simp only [generate, hs, hn, ht]
  cases hl with
  | inl hl =>
    rw [hl.2]
    simp only
    split
    · exact ⟨_, rfl, fun id h => by simp at h⟩
    · exact ⟨_, rfl, fun id h => by simp at h⟩
  | inr hl =>
    obtain ⟨f, g, hf, hg, hsame, hids⟩ := hl
    rw [hg]
    simp only
    have hall : (typesE g.body).all (fun u => (Scheme.substB i.2 u).toBool) = true := by
      refine List.all_eq_true.mpr (fun u hu => toBool_ok.mpr ?_)
      cases (mem_typesE _ _).mp hu with
      | inl h =>
        obtain ⟨v, hv, rfl⟩ := h
        obtain ⟨u0, hu0, h1, h2, _⟩ := forall₂_right hsame.uses hv
        rw [h2]
        exact hfit.uses f hf u0 hu0
      | inr h =>
        obtain ⟨r, hr, rfl⟩ := h
        rw [hsame.tags] at hr
        exact hfit.tags f hf r hr
    rw [if_pos hall]
    refine ⟨_, rfl, fun id hid => ?_⟩
    simp only [hsame.id, hids] at hid
    have := checked_nodes hc (lookup_mem hf)
    refine ⟨?_, hfit.nodes f hf id (mem_nodes.mpr (List.mem_cons.mp hid))⟩
    cases List.mem_cons.mp hid with
    | inl e => rw [e]; exact this.1
    | inr e => exact this.2 id e

omit hsrc hc in
theorem tableOk_of {t0 tab : Table} (h : Old t0 tab) {ts : List Ty} {origins : List NodeId}
    (ho : ∀ id ∈ origins, id.variant = none ∧ ∀ t, t0.lookup id = some t → ∃ t', Scheme.substB ts t = .ok t') :
    tableOk ts origins tab = true := by
  refine List.all_eq_true.mpr (fun id hid => ?_)
  obtain ⟨hv, hok⟩ := ho id hid
  rw [h id hv]
  split
  · rfl
  · rename_i t ht
    exact toBool_ok.mpr (hok t ht)

omit hsrc hc in
theorem generateL_succeeds {ds : List Decl} {is : List Inst}
    (hg : ∀ i ∈ is, ∃ new, generate E ds i = some new ∧ ∀ id ∈ new.origins, id.variant = none ∧
        ∀ t, nt.lookup id = some t ∨ ct.lookup id = some t → ∃ t', Scheme.substB i.2 t = .ok t') :
    ∀ {st : State}, Old nt st.nodeTypes → Old ct st.calleeTypes →
      ∃ st', generateL E ds is st = some st' ∧ Old nt st'.nodeTypes := by
  induction is with
  | nil => intro st h1 h2; exact ⟨st, rfl, h1⟩
  | cons i is ih =>
    intro st h1 h2
    obtain ⟨new, hn, ho⟩ := hg i (.head _)
    have t1 := tableOk_of h1 (fun id hid => ⟨(ho id hid).1, fun t ht => (ho id hid).2 t (.inl ht)⟩)
    have t2 := tableOk_of h2 (fun id hid => ⟨(ho id hid).1, fun t ht => (ho id hid).2 t (.inr ht)⟩)
    simp only [generateL, hn, t1, t2, and_self, if_true]
    exact ih (fun j hj => hg j (.tail _ hj)) (old_step h1) (old_step h2)

theorem rounds_succeeds (hL : NoClash E src) {m : Nat}
    (hneed : ∀ j i, Needed E src j i → Fits E src nt ct i ∧ ∃ j' < m, Needed E src j' i) {n : Nat} :
    ∀ {st : State} {k : Nat}, n + k = m + 1 → 0 < n → Inv2 E src ct (needs E src) st → Lev E src k st →
      Old nt st.nodeTypes → ∃ fin, rounds E n st = some fin := by
  induction n with
  | zero => intro st k _ h; omega
  | succ n ih =>
    intro st k hk _ hi hl ho
    have hsub := lev_sub hl
    have hneed' := fresh_needed hsrc hc hsub hi hl
    have hfnd := fresh_known hc hsub hi
    simp only [rounds]
    cases hf : fresh st.known (visitDs E.ss st.calleeTypes st.decls) with
    | nil => exact ⟨st, rfl⟩
    | cons i is =>
      have hn : n ≠ 0 := by
        intro h0
        subst h0
        have hm : i ∈ fresh st.known (visitDs E.ss st.calleeTypes st.decls) := by rw [hf]; exact .head _
        obtain ⟨j, _, hnd⟩ := hneed' i hm
        obtain ⟨_, j', hj', hnd'⟩ := hneed j i hnd
        exact (fresh_mem hm).2 (hl.all j' (by omega) i hnd')
      obtain ⟨st1, h1, hold⟩ := generateL_succeeds (E := E) (ds := st.decls) (is := i :: is) (nt := nt) (ct := ct)
        (fun x hx => by
          rw [← hf] at hx
          obtain ⟨j, _, hnd⟩ := hneed' x hx
          exact generate_succeeds (nt := nt) hsrc hc hi (hfnd x hx).1 (hneed j x hnd).1) ho hi.table.old
      have hr : round E st (i :: is) =
          some { st1 with known := st.known ++ i :: is, decls := rewDs E.nm E.ss (st.known ++ i :: is) st1.decls } := by
        simp only [round, h1]
      simp only [hr]
      have hr' : round E st (fresh st.known (visitDs E.ss st.calleeTypes st.decls)) = some
          { st1 with known := st.known ++ i :: is, decls := rewDs E.nm E.ss (st.known ++ i :: is) st1.decls } := by
        rw [hf]; exact hr
      have hl' := round_lev hsrc hc hsub hi hl hr'
      exact ih (k := k + 1) (by omega) (by omega) (round_inv2 hsrc hc (noClash_set hL) (lev_sub hl') hi hr') hl' hold

theorem mono_succeeds (hL : NoClash E src)
    (hneed : ∀ j i, Needed E src j i → Fits E src nt ct i ∧ ∃ j' < 63, Needed E src j' i) :
    ∃ fin, monomorphize E src nt ct = some fin :=
  rounds_succeeds hsrc hc hL hneed (k := 0) (by simp [maxRounds]) (by simp [maxRounds]) (inv2_start hsrc hc nt)
    (lev_start nt ct) (fun _ _ => rfl)

end

end Verif.Instances
