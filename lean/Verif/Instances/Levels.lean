import Verif.Instances.Copies

/-!
# Which instances are found in which round
-/

namespace Verif.Instances
open Verif.Types Verif.Mono

/-- What holds after `k` rounds. -/
structure Lev (E : Env) (src : List Decl) (k : Nat) (st : State) : Prop where
  only : ∀ i ∈ st.known, ∃ j < k, Needed E src j i
  all : ∀ j < k, ∀ i, Needed E src j i → i ∈ st.known
  made : ∀ i ∈ st.known, ∀ f, (funsL [] src).lookup i.1 = some f → ∃ n g, (n, g) ∈ funsL [] st.decls ∧
    CopyAt E st.known i.2 f g
  kept : ∀ n f, (n, f) ∈ funsL [] src → ∃ g, (n, g) ∈ funsL [] st.decls ∧ SameFun E st.known f g

def needs (E : Env) (src : List Decl) : Set Inst := {i | ∃ j, Needed E src j i}

theorem noClash_set {E : Env} {src : List Decl} (h : NoClash E src) :
    ∀ i ∈ needs E src, ∀ j ∈ needs E src, E.hash i.2 = E.hash j.2 → i.2 = j.2 :=
  fun i ⟨k, hi⟩ j ⟨l, hj⟩ he => h k l i j hi hj he

theorem lev_sub {E : Env} {src : List Decl} {k : Nat} {st : State} (h : Lev E src k st) :
    ∀ i ∈ st.known, i ∈ needs E src := fun i hm => by
  obtain ⟨j, _, h⟩ := h.only i hm
  exact ⟨j, h⟩

section
variable {E : Env} {src : List Decl} {ct : Table} {L : Set Inst}
  (hsrc : Source E src) (hc : Checked E src ct)
include hsrc hc

theorem usedAt_of_record {g : Name} {s : Scheme.PolyTy} {ty : Ty} {ts : List Ty} (hl : E.ss.lookup g = some s)
    (h : record s ty = some ts) : UsedAt E g ty ts := by
  unfold record at h
  split at h
  · simp at h
  · rename_i as has
    split at h
    · rename_i hcon
      simp only [Option.some.injEq] at h
      subst h
      obtain ⟨h1, h2, _⟩ := hc.schemes g s hl
      exact ⟨s, hl, (extract_length has).2, (extract_length has).1, extract_sound2 h1 h2 has,
        List.all_eq_true.mp hcon⟩
    · simp at h

theorem record_of_usedAt {g : Name} {ty : Ty} {ts : List Ty} (h : UsedAt E g ty ts) :
    ∃ s, E.ss.lookup g = some s ∧ extract s ty = some ts ∧ record s ty = some ts := by
  obtain ⟨s, hl, h0, hlen, hin, hcon⟩ := h
  obtain ⟨h1, h2, h3⟩ := hc.schemes g s hl
  have := extract_complete h1 h2 hlen h0 h3 hin
  refine ⟨s, hl, this, ?_⟩
  rw [record, this]
  exact if_pos (List.all_eq_true.mpr hcon)

/-- A new instance is needed, at most one level further. -/
theorem fresh_needed {st : State} {k : Nat} (hsub : ∀ i ∈ st.known, i ∈ L) (hi : Inv2 E src ct L st)
    (hk : Lev E src k st) :
    ∀ i ∈ fresh st.known (visitDs E.ss st.calleeTypes st.decls), ∃ j < k + 1, Needed E src j i := by
  intro i hm
  obtain ⟨⟨n, g⟩, hp, u, hu, h⟩ := (visitDs_iff st.decls []).mp (fresh_mem hm).1
  obtain ⟨hf, ht⟩ := use_facts hc hsub hi hp hu
  have hty : (st.calleeTypes.lookup u.1).getD u.2.ty = u.2.ty := by
    cases hl : st.calleeTypes.lookup u.1 with
    | none => rfl
    | some t => simp [ht t hl]
  unfold tryRecord at h
  split at h
  · rename_i f hr
    split at h
    · simp at h
    · rename_i s hs
      rw [hty] at h
      split at h
      · simp at h
      · rename_i ts hts
        simp only [List.mem_singleton] at h
        subst h
        have hused := usedAt_of_record hsrc hc hs hts
        have orig : ∀ {r0 : Res} {ty : Ty}, Redirected E st.known ty r0 u.2.res → r0 = .func f := by
          intro r0 ty h
          cases h with
          | inl h => rw [← h, hr]
          | inr h =>
            obtain ⟨f', ts', s', n', h1, h2, h3, h4, h5, h6, h7⟩ := h
            rw [hr] at h2
            simp only [Res.func.injEq] at h2
            subst h2
            exact absurd (mangle_dollar h7 (found_args (hi.known _ h3).1)) (hsrc.schemes _ _ hs)
        by_cases hd : '$' ∈ n
        · obtain ⟨i, hik, hin, f0, hf0, hcopy⟩ := hi.copy n g hp hd
          obtain ⟨u0, hu0, h1, h2, h3⟩ := forall₂_right hcopy.uses hu
          obtain ⟨j, hj, hnd⟩ := hk.only i hik
          exact ⟨j + 1, by omega, .copy hnd hf0 hu0 (orig h3) h2 hused⟩
        · obtain ⟨f0, hf0, hsame, _⟩ := hi.plain n g hp hd
          obtain ⟨u0, hu0, h1, h2, h3⟩ := forall₂_right hsame.uses hu
          refine ⟨0, by omega, .source hf0 hu0 (orig h3) ?_⟩
          rw [← h2]; exact hused
  · simp at h

omit hsrc in
/-- A needed use in a program of the rounds is redirected already or found now. -/
theorem use_found {st : State} (hsub : ∀ i ∈ st.known, i ∈ L) (hi : Inv2 E src ct L st)
    {n : Name} {g : Fun} (hg : (n, g) ∈ funsL [] st.decls) {u : NodeId × TRef} (hu : u ∈ usesE g.body)
    {f : Name} {ts : List Ty} (hr : Redirected E st.known u.2.ty (.func f) u.2.res) (h : UsedAt E f u.2.ty ts) :
    (f, ts) ∈ st.known ∨ (f, ts) ∈ fresh st.known (visitDs E.ss st.calleeTypes st.decls) := by
  have h' := h
  obtain ⟨s', hl', h0', hlen', hin', hcon'⟩ := h'
  obtain ⟨hw, hp, hsh⟩ := hc.schemes f s' hl'
  have hex := extract_complete hw hp hlen' h0' hsh hin'
  cases hr with
  | inr hr =>
    obtain ⟨f1, ts1, s1, n1, h1, h2, h3, h4, h5, h6, h7⟩ := hr
    simp only [Res.func.injEq] at h1
    subst h1
    rw [hl'] at h4
    simp only [Option.some.injEq] at h4
    subst h4
    have := extract_complete hw hp h5 h0' hsh h6
    rw [hex] at this
    simp only [Option.some.injEq] at this
    subst this
    exact .inl h3
  | inl hr =>
    obtain ⟨_, ht⟩ := use_facts hc hsub hi hg hu
    have hty : (st.calleeTypes.lookup u.1).getD u.2.ty = u.2.ty := by
      cases hl : st.calleeTypes.lookup u.1 with
      | none => rfl
      | some t => simp [ht t hl]
    refine fresh_all ((visitDs_iff st.decls []).mpr ⟨(n, g), hg, u, hu, ?_⟩)
    have hrec : record s' u.2.ty = some ts := by
      rw [record, hex]; exact if_pos (List.all_eq_true.mpr hcon')
    simp [tryRecord, hr, hl', hty, hrec]

omit hsrc in
/-- What is needed up to one level further is known or found now. -/
theorem needed_found {st : State} {k : Nat} (hsub : ∀ i ∈ st.known, i ∈ L) (hi : Inv2 E src ct L st)
    (hk : Lev E src k st) : ∀ j < k + 1, ∀ i, Needed E src j i →
      i ∈ st.known ∨ i ∈ fresh st.known (visitDs E.ss st.calleeTypes st.decls) := by
  intro j hj i hnd
  cases hnd with
  | source hf hu hr hused =>
    obtain ⟨g, hg, hsame⟩ := hk.kept _ _ hf
    obtain ⟨u', hu', h1, h2, h3⟩ := forall₂_left hsame.uses hu
    rw [hr] at h3
    exact use_found hc hsub hi hg hu' h3 (by rw [h2]; exact hused)
  | copy hnd hf hu hr hs hused =>
    have hin := hk.all _ (by omega) _ hnd
    obtain ⟨n, g, hg, hcopy⟩ := hk.made _ hin _ hf
    obtain ⟨u', hu', h1, h2, h3⟩ := forall₂_left hcopy.uses hu
    simp only at h2
    rw [hs] at h2
    simp only [Except.ok.injEq] at h2
    rw [hr] at h3
    exact use_found hc hsub hi hg hu' h3 (by rw [← h2]; exact hused)

theorem round_lev {st st' : State} {k : Nat} (hsub : ∀ i ∈ st.known, i ∈ L) (hi : Inv2 E src ct L st)
    (hk : Lev E src k st)
    (h : round E st (fresh st.known (visitDs E.ss st.calleeTypes st.decls)) = some st') : Lev E src (k + 1) st' := by
  have hneed := fresh_needed hsrc hc hsub hi hk
  have hfnd := needed_found hc hsub hi hk
  have hknew := fresh_known hc hsub hi
  generalize hnew : fresh st.known (visitDs E.ss st.calleeTypes st.decls) = new at h hneed hfnd hknew
  have hfound : ∀ i ∈ new, Found E.ss i := fun i hi => (hknew i hi).1
  obtain ⟨h1, h2, h3⟩ := round_functions hfound h
  obtain ⟨st1, hgen, _, _⟩ := round_generate h
  have hs := hsrc.schemes
  have hw : ∀ n s, E.ss.lookup n = some s → WF s.body ∧ Plain s.body := fun n s hl =>
    ⟨(hc.schemes n s hl).1, (hc.schemes n s hl).2.1⟩
  have hsubst : ∀ i ∈ st.known, i ∈ st'.known := fun i hm => by rw [h2]; exact List.mem_append_left _ hm
  have hK : ∀ i ∈ st'.known, Found E.ss i ∧ ∀ t ∈ i.2, Formed t ∧ concrete t = true := fun i hm => by
    rw [h2] at hm
    cases List.mem_append.mp hm with
    | inl hm => exact hi.known i hm
    | inr hm => exact hknew i hm
  have hKf : ∀ i ∈ st'.known, Found E.ss i := fun i hm => (hK i hm).1
  rw [← h2] at h1
  have hmem : ∀ n g, ((n, g) ∈ funsL [] st.decls ∨ (n, g) ∈ made E st.decls new) →
      (n, g.rew E.nm E.ss st'.known) ∈ funsL [] st'.decls := by
    intro n g hm
    rw [h1]
    exact List.mem_map.mpr ⟨(n, g), List.mem_append.mpr hm, rfl⟩
  refine ⟨fun i hm => ?_, fun j hj i hnd => ?_, fun i hm f hf => ?_, fun n f hf => ?_⟩
  · rw [h2] at hm
    cases List.mem_append.mp hm with
    | inl hm => obtain ⟨j, hj, h⟩ := hk.only i hm; exact ⟨j, by omega, h⟩
    | inr hm => exact hneed i hm
  · rw [h2]
    cases hfnd j hj i hnd with
    | inl h => exact List.mem_append_left _ h
    | inr h => exact List.mem_append_right _ h
  · rw [h2] at hm
    cases List.mem_append.mp hm with
    | inl hm =>
      obtain ⟨n, g, hg, hcopy⟩ := hk.made i hm f hf
      exact ⟨n, _, hmem n g (.inl hg), copy_step hs hw hKf hsubst hcopy⟩
    | inr hm =>
      obtain ⟨n, hn⟩ := h3 i hm
      have hplain : '$' ∉ i.1 := by
        obtain ⟨s, _, hl, _⟩ := hfound i hm
        exact hs _ _ hl
      cases hi.look i.1 hplain with
      | inl h => rw [hf] at h; simp at h
      | inr h =>
        obtain ⟨f0, g, hf0, hg', hsame⟩ := h
        rw [hf] at hf0
        simp only [Option.some.injEq] at hf0
        subst hf0
        exact ⟨n, _, hmem n _ (.inr (made_mem.mpr ⟨i, hm, g, hg', hn, rfl⟩)),
          copy_new hs hw hK hsubst hsame (generateL_types hfound hgen i hm g hg')⟩
  · obtain ⟨g, hg, hsame⟩ := hk.kept n f hf
    exact ⟨_, hmem n g (.inl hg), by
      have := hsame
      refine ⟨this.id, this.params, ?_, ?_⟩
      · simp only [Fun.rew, uses_rewE]
        rw [List.forall₂_map_right_iff]
        refine forall₂_mono this.uses (fun u _ u' _ hr => ?_)
        obtain ⟨h1, h2, h3⟩ := hr
        refine ⟨h1, by simp only [redirect_ty]; exact h2, ?_⟩
        simp only [redirect_ty]
        exact redirected_step hs hw hKf hsubst (fun _ _ _ _ _ h => h) h3
      · simp only [Fun.rew, tags_rewE]; exact this.tags⟩

theorem rounds_lev (hL : NoClash E src) {n : Nat} :
    ∀ {st fin : State} {k : Nat}, rounds E n st = some fin → Inv2 E src ct (needs E src) st →
      Lev E src k st → ∃ k' < k + n, Lev E src k' fin ∧ Inv2 E src ct (needs E src) fin ∧
        fresh fin.known (visitDs E.ss fin.calleeTypes fin.decls) = [] := by
  induction n with
  | zero => intro st fin k h; simp [rounds] at h
  | succ n ih =>
    intro st fin k h hi hk
    cases rounds_step h with
    | inl h => rw [h.2]; exact ⟨k, by omega, hk, hi, h.1⟩
    | inr h =>
      obtain ⟨st', h1, h2⟩ := h
      have hl := round_lev hsrc hc (lev_sub hk) hi hk h1
      obtain ⟨k', hk', hl⟩ := ih h2 (round_inv2 hsrc hc (noClash_set hL) (lev_sub hl) hi h1) hl
      exact ⟨k', by omega, hl⟩

theorem inv2_start (nt : Table) : Inv2 E src ct L ⟨src, [], E.ss, nt, ct⟩ := by
  have hself : ∀ f : Fun, Same E [] f f := fun f =>
    ⟨⟨rfl, rfl, List.forall₂_same.mpr (fun u _ => ⟨rfl, rfl, .inl rfl⟩), rfl⟩, rfl⟩
  refine ⟨fun i hi => by simp at hi, fun n hn => ?_, fun n g hg _ => ⟨g, hg, hself g⟩,
    fun n g hg hd => absurd hd (hsrc.names n g hg), fun n g hg u hu => redirect_nil _ _ _, fun _ _ => rfl, fun id t ht i hi hv => ?_⟩
  · cases hl : (funsL [] src).lookup n with
    | none => exact .inl ⟨rfl, rfl⟩
    | some f => exact .inr ⟨f, f, rfl, rfl, hself f⟩
  · have := hc.keys id t ht
    rw [hv] at this
    simp at this

omit hsrc hc in
theorem lev_start (nt ct : Table) : Lev E src 0 ⟨src, [], E.ss, nt, ct⟩ :=
  ⟨fun i hi => by simp at hi, fun j hj => by omega, fun i hi => by simp at hi, fun n f hf =>
    ⟨f, hf, ⟨rfl, rfl, List.forall₂_same.mpr (fun u _ => ⟨rfl, rfl, .inl rfl⟩), rfl⟩⟩⟩

/-- At the end, exactly the needed instances are known, and they are needed within 63 levels. -/
theorem mono_lev {nt : Table} {fin : State}
    (hL : NoClash E src) (h : monomorphize E src nt ct = some fin) :
    (∀ i ∈ fin.known, ∃ j < 63, Needed E src j i) ∧ (∀ j i, Needed E src j i → i ∈ fin.known) ∧
    (∃ k, Lev E src k fin) ∧ Inv2 E src ct (needs E src) fin := by
  obtain ⟨k, hk, hl, hi, h0⟩ := rounds_lev hsrc hc hL h (inv2_start hsrc hc nt) (lev_start nt ct)
  have hsub := lev_sub hl
  simp only [maxRounds] at hk
  refine ⟨fun i hm => ?_, ?_, ⟨k, hl⟩, hi⟩
  · obtain ⟨j, hj, h⟩ := hl.only i hm
    exact ⟨j, by omega, h⟩
  · have use : ∀ j, ∀ i, Needed E src j i → i ∈ fin.known := by
      intro j
      induction j with
      | zero =>
        intro i hnd
        cases hnd with
        | source hf hu hr hused =>
          obtain ⟨g, hg, hsame⟩ := hl.kept _ _ hf
          obtain ⟨u', hu', h1, h2, h3⟩ := forall₂_left hsame.uses hu
          rw [hr] at h3
          have := use_found hc hsub hi hg hu' h3 (by rw [h2]; exact hused)
          rw [h0] at this
          simpa using this
      | succ j ih =>
        intro i hnd
        cases hnd with
        | copy hnd hf hu hr hs hused =>
          obtain ⟨n, g, hg, hcopy⟩ := hl.made _ (ih _ hnd) _ hf
          obtain ⟨u', hu', h1, h2, h3⟩ := forall₂_left hcopy.uses hu
          simp only at h2
          rw [hs] at h2
          simp only [Except.ok.injEq] at h2
          rw [hr] at h3
          have := use_found hc hsub hi hg hu' h3 (by rw [← h2]; exact hused)
          rw [h0] at this
          simpa using this
    exact use

end

end Verif.Instances
