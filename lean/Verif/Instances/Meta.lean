import Verif.Instances.Succeeds

/-!
# The types recorded for the nodes of copies
-/

namespace Verif.Instances
open Verif.Types Verif.Mono

/-- The table has an entry for every node of a copy whose original has one. -/
def Has (E : Env) (i : Inst) (ids : List NodeId) (t0 tab : Table) : Prop :=
  ∀ id ∈ ids, ∀ t, t0.lookup id = some t → (∃ t', Scheme.substB i.2 t = .ok t') ∧
    ∃ t', tab.lookup (id.withVariant (E.hash i.2)) = some t'

theorem lookup_more {ts : List Ty} {v : Nat} {origins : List NodeId} {tab : Table} {k : NodeId}
    (h : ∃ t, tab.lookup k = some t) : ∃ t, (cloneTable ts v origins tab).lookup k = some t := by
  rw [cloneTable, lookup_append]
  split
  · exact ⟨_, rfl⟩
  · exact h

theorem has_more {E : Env} {i : Inst} {ids : List NodeId} {t0 tab : Table} {ts : List Ty} {v : Nat}
    {origins : List NodeId} (h : Has E i ids t0 tab) : Has E i ids t0 (cloneTable ts v origins tab) :=
  fun id hid t ht => ⟨(h id hid t ht).1, lookup_more (h id hid t ht).2⟩

theorem has_new {E : Env} {i : Inst} {ids : List NodeId} {t0 tab : Table} (ho : Old t0 tab)
    (hv : ∀ id ∈ ids, id.variant = none) (hok : tableOk i.2 ids tab = true) :
    Has E i ids t0 (cloneTable i.2 (E.hash i.2) ids tab) := by
  intro id hid t ht
  rw [← ho id (hv id hid)] at ht
  have := List.all_eq_true.mp hok id hid
  rw [ht] at this
  refine ⟨toBool_ok.mp this, ?_⟩
  rw [cloneTable, lookup_append]
  split
  · exact ⟨_, rfl⟩
  · rename_i hn
    have hm : (id.withVariant (E.hash i.2), substT i.2 t) ∈
        (ids.filterMap fun id => (tab.lookup id).map fun t => (id.withVariant (E.hash i.2), substT i.2 t)) :=
      List.mem_filterMap.mpr ⟨id, hid, by rw [ht]; rfl⟩
    obtain ⟨y, hy⟩ := lookup_isSome hm
    rw [hy] at hn
    simp at hn

theorem generate_origins' {E : Env} {ds : List Decl} {i : Inst} {new : New} (hfd : Found E.ss i)
    (h : generate E ds i = some new) {f : Fun} (hf : (funsL [] ds).lookup i.1 = some f) :
    new.origins = f.id :: idsE f.body := by
  obtain ⟨s, _, hs, _⟩ := hfd
  simp only [generate, hf, hs] at h
  split at h
  · split at h
    · simp only [Option.some.injEq] at h; subst h; rfl
    · simp at h
  · simp at h

theorem generateL_has {E : Env} {nt ct : Table} {ds : List Decl} {is : List Inst}
    (hf : ∀ i ∈ is, Found E.ss i) (ho : Origins ds is) : ∀ {st st' : State}, generateL E ds is st = some st' →
    Old nt st.nodeTypes → Old ct st.calleeTypes →
    Old nt st'.nodeTypes ∧ Old ct st'.calleeTypes ∧
    (∀ i ids, Has E i ids nt st.nodeTypes → Has E i ids nt st'.nodeTypes) ∧
    (∀ i ids, Has E i ids ct st.calleeTypes → Has E i ids ct st'.calleeTypes) ∧
    ∀ i ∈ is, ∀ f, (funsL [] ds).lookup i.1 = some f →
      Has E i (f.id :: idsE f.body) nt st'.nodeTypes ∧ Has E i (f.id :: idsE f.body) ct st'.calleeTypes := by
  induction is with
  | nil =>
    intro st st' h h1 h2
    simp only [generateL, Option.some.injEq] at h
    subst h
    exact ⟨h1, h2, fun _ _ h => h, fun _ _ h => h, fun i hi => by simp at hi⟩
  | cons j is ih =>
    intro st st' h h1 h2
    simp only [generateL] at h
    split at h
    · simp at h
    · rename_i new hn
      split at h
      · rename_i hok
        obtain ⟨a1, a2, a3, a4, a5⟩ := ih (fun i hi => hf i (.tail _ hi)) (fun i hi => ho i (.tail _ hi)) h
          (old_step h1) (old_step h2)
        refine ⟨a1, a2, fun i ids h => a3 i ids (has_more h), fun i ids h => a4 i ids (has_more h), fun i hi f hl => ?_⟩
        cases List.mem_cons.mp hi with
        | inr hi => exact a5 i hi f hl
        | inl e =>
          subst e
          have hor := generate_origins' (hf i (.head _)) hn hl
          have hv : ∀ id ∈ f.id :: idsE f.body, id.variant = none := fun id hid => by
            have := ho i (.head _) f hl
            cases List.mem_cons.mp hid with
            | inl e => subst e; exact this.1
            | inr e => exact this.2 id e
          rw [hor] at hok
          refine ⟨a3 _ _ ?_, a4 _ _ ?_⟩
          · rw [hor]; exact has_new h1 hv hok.1
          · rw [hor]; exact has_new h2 hv hok.2
      · simp at h

structure Inv3 (E : Env) (src : List Decl) (nt ct : Table) (st : State) : Prop where
  oldN : Old nt st.nodeTypes
  table : Clones E (needs E src) nt st.nodeTypes
  has : ∀ i ∈ st.known, ∀ f, (funsL [] src).lookup i.1 = some f →
    Has E i (f.id :: idsE f.body) nt st.nodeTypes ∧ Has E i (f.id :: idsE f.body) ct st.calleeTypes
  ids : ∀ n g, (n, g) ∈ funsL [] st.decls → '$' ∈ n → ∃ i ∈ st.known, mangle E.nm i.1 i.2 = some n ∧
    ∃ f, (funsL [] src).lookup i.1 = some f ∧
      g.id :: idsE g.body = (f.id :: idsE f.body).map (·.withVariant (E.hash i.2))

section
variable {E : Env} {src : List Decl} {nt ct : Table} (hsrc : Source E src) (hc : Checked E src ct)
  (hL : NoClash E src)
include hsrc hc hL

theorem round_inv3 {st st' : State} {k : Nat} (hi : Inv2 E src ct (needs E src) st) (hk : Lev E src k st)
    (h3 : Inv3 E src nt ct st)
    (h : round E st (fresh st.known (visitDs E.ss st.calleeTypes st.decls)) = some st') : Inv3 E src nt ct st' := by
  have hlev := round_lev hsrc hc (lev_sub hk) hi hk h
  have hknew := fresh_known hc (lev_sub hk) hi
  generalize hnew : fresh st.known (visitDs E.ss st.calleeTypes st.decls) = new at h hknew
  have hfound : ∀ i ∈ new, Found E.ss i := fun i hi => (hknew i hi).1
  obtain ⟨f1, f2, f3⟩ := round_functions hfound h
  obtain ⟨st1, hgen, hct, hnt⟩ := round_generate h
  have hplain : ∀ i ∈ new, '$' ∉ i.1 := fun i hm => by
    obtain ⟨s, _, hl, _⟩ := hfound i hm
    exact hsrc.schemes _ _ hl
  have hsame : ∀ i ∈ new, ∀ g, (funsL [] st.decls).lookup i.1 = some g → ∃ f, (funsL [] src).lookup i.1 = some f ∧
      f.id :: idsE f.body = g.id :: idsE g.body := by
    intro i hm g hg
    cases hi.look i.1 (hplain i hm) with
    | inl h => rw [hg] at h; simp at h
    | inr h =>
      obtain ⟨f, g', hf, hg', hs, hids⟩ := h
      rw [hg] at hg'
      simp only [Option.some.injEq] at hg'
      subst hg'
      exact ⟨f, hf, by rw [hs.id, hids]⟩
  have ho : Origins st.decls new := by
    intro i hm g hg
    obtain ⟨f, hf, he⟩ := hsame i hm g hg
    have := checked_nodes hc (lookup_mem hf)
    simp only [List.cons.injEq] at he
    rw [← he.1, ← he.2]
    exact this
  obtain ⟨a1, a2, a3, a4, a5⟩ := generateL_has (nt := nt) (ct := ct) hfound ho hgen h3.oldN hi.table.old
  have hnl : ∀ i ∈ new, i ∈ needs E src := fun i hm => lev_sub hlev i (by rw [f2]; exact List.mem_append_right _ hm)
  have hcl := (generateL_clones (ct := nt) (noClash_set hL) hnl ho hgen).2 h3.table
  refine ⟨by rw [hnt]; exact a1, by rw [hnt]; exact hcl, fun i hm f hf => ?_, fun n g hg hn => ?_⟩
  · rw [hnt, hct]
    rw [f2] at hm
    cases List.mem_append.mp hm with
    | inl hm =>
      obtain ⟨b1, b2⟩ := h3.has i hm f hf
      exact ⟨a3 _ _ b1, a4 _ _ b2⟩
    | inr hm =>
      cases hi.look i.1 (hplain i hm) with
      | inl h => rw [hf] at h; simp at h
      | inr h =>
        obtain ⟨f0, g, hf0, hg, _⟩ := h
        obtain ⟨f', hf', he⟩ := hsame i hm g hg
        rw [hf] at hf'
        simp only [Option.some.injEq] at hf'
        subst hf'
        rw [he]
        exact a5 i hm g hg
  · rw [f1] at hg
    obtain ⟨⟨n', g'⟩, hm, he⟩ := List.mem_map.mp hg
    simp only [Prod.mk.injEq] at he
    obtain ⟨rfl, rfl⟩ := he
    simp only [Fun.rew, ids_rewE]
    cases List.mem_append.mp hm with
    | inl hm =>
      obtain ⟨i, hik, hin, f, hf, he⟩ := h3.ids n' g' hm hn
      exact ⟨i, by rw [f2]; exact List.mem_append_left _ hik, hin, f, hf, he⟩
    | inr hm =>
      obtain ⟨i, hi', g0, hg0, hin, rfl⟩ := made_mem.mp hm
      obtain ⟨f, hf, he⟩ := hsame i hi' g0 hg0
      refine ⟨i, by rw [f2]; exact List.mem_append_right _ hi', hin, f, hf, ?_⟩
      rw [he]
      simp [copyFun, ids_substE]

theorem rounds_inv3 {n : Nat} : ∀ {st fin : State} {k : Nat}, rounds E n st = some fin →
    Inv2 E src ct (needs E src) st → Lev E src k st → Inv3 E src nt ct st → Inv3 E src nt ct fin := by
  induction n with
  | zero => intro st fin k h; simp [rounds] at h
  | succ n ih =>
    intro st fin k h hi hk h3
    cases rounds_step h with
    | inl h => rw [h.2]; exact h3
    | inr h =>
      obtain ⟨st', h1, h2⟩ := h
      have hl := round_lev hsrc hc (lev_sub hk) hi hk h1
      exact ih h2 (round_inv2 hsrc hc (noClash_set hL) (lev_sub hl) hi h1) hl (round_inv3 hsrc hc hL hi hk h3 h1)

theorem mono_inv3 (hnt : ∀ id t, nt.lookup id = some t → id.variant = none) {fin : State}
    (h : monomorphize E src nt ct = some fin) : Inv3 E src nt ct fin := by
  refine rounds_inv3 hsrc hc hL h (inv2_start hsrc hc nt) (lev_start nt ct) ⟨fun _ _ => rfl, ⟨fun _ _ => rfl,
    fun id t ht i hi hv => ?_⟩, fun i hi => by simp at hi, fun n g hg hd => absurd hd (hsrc.names n g hg)⟩
  have := hnt id t ht
  rw [hv] at this
  simp at this

end

end Verif.Instances
