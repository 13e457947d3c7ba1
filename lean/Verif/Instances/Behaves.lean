import Verif.Instances.Rounds

/-!
# The functions at the end, with their types forgotten, are those of the source
-/

namespace Verif.Instances
open Verif.Types Verif.Mono

def copyFun (E : Env) (f : Fun) (ts : List Ty) : Fun :=
  ⟨f.id.withVariant (E.hash ts), f.ps, substE ts (E.hash ts) f.body⟩

/-- The functions made for some instances. -/
def made (E : Env) (ds : List Decl) : List Inst → List (Name × Fun)
  | [] => []
  | i :: is => (match (funsL [] ds).lookup i.1, mangle E.nm i.1 i.2 with
    | some f, some n => [(n, copyFun E f i.2)]
    | _, _ => []) ++ made E ds is

theorem generate_made {E : Env} {ds : List Decl} {i : Inst} {new : New} (hf : Found E.ss i)
    (h : generate E ds i = some new) : funsL [] new.decl = made E ds [i] ∧ ∃ n, mangle E.nm i.1 i.2 = some n := by
  obtain ⟨s, _, hs, _⟩ := hf
  simp only [generate, hs] at h
  simp only [made, List.append_nil]
  split at h
  · rename_i f hl
    split at h
    · rename_i n t hn ht
      split at h
      · simp only [Option.some.injEq] at h
        subst h
        simp [specialize, funsL, funs, hl, hn, copyFun, qualify]
      · simp at h
    · simp at h
  · rename_i hl
    simp only [hl]
    split at h
    · split at h
      · rename_i n t hn ht
        simp only [Option.some.injEq] at h
        subst h
        exact ⟨rfl, n, hn⟩
      · simp at h
    · split at h
      · simp at h
      · rename_i n hn
        simp only [Option.some.injEq] at h
        subst h
        exact ⟨rfl, n, hn⟩

theorem generateL_made {E : Env} {ds : List Decl} {is : List Inst} (hf : ∀ i ∈ is, Found E.ss i) :
    ∀ {st st' : State}, generateL E ds is st = some st' →
      funsL [] st'.decls = funsL [] st.decls ++ made E ds is ∧ st'.known = st.known ∧
      ∀ i ∈ is, ∃ n, mangle E.nm i.1 i.2 = some n := by
  induction is with
  | nil =>
    intro st st' h
    simp only [generateL, Option.some.injEq] at h
    subst h
    simp [made]
  | cons i is ih =>
    intro st st' h
    simp only [generateL] at h
    split at h
    · simp at h
    · rename_i new hn
      split at h
      · obtain ⟨h1, h2, h3⟩ := ih (fun j hj => hf j (.tail _ hj)) h
        obtain ⟨g1, g2⟩ := generate_made (hf i (.head _)) hn
        refine ⟨?_, h2, fun j hj => ?_⟩
        · rw [h1]
          simp only [funsL_append, List.append_assoc, g1]
          simp [made]
        · cases hj with
          | head => exact g2
          | tail _ hj => exact h3 j hj
      · simp at h

theorem made_mem {E : Env} {ds : List Decl} {is : List Inst} {n : Name} {g : Fun} :
    (n, g) ∈ made E ds is ↔ ∃ i ∈ is, ∃ f, (funsL [] ds).lookup i.1 = some f ∧
      mangle E.nm i.1 i.2 = some n ∧ g = copyFun E f i.2 := by
  induction is with
  | nil => simp [made]
  | cons i is ih =>
    simp only [made, List.mem_append, ih, List.mem_cons, exists_eq_or_imp]
    refine or_congr ?_ Iff.rfl
    cases (funsL [] ds).lookup i.1 <;> cases mangle E.nm i.1 i.2 <;> simp [eq_comm]

theorem round_functions {E : Env} {st st' : State} {new : List Inst} (hf : ∀ i ∈ new, Found E.ss i)
    (h : round E st new = some st') :
    funsL [] st'.decls = ((funsL [] st.decls ++ made E st.decls new).map
      fun p => (p.1, p.2.rew E.nm E.ss (st.known ++ new))) ∧ st'.known = st.known ++ new ∧
    ∀ i ∈ new, ∃ n, mangle E.nm i.1 i.2 = some n := by
  simp only [round] at h
  split at h
  · simp at h
  · rename_i s1 h1
    simp only [Option.some.injEq] at h
    subst h
    obtain ⟨g1, g2, g3⟩ := generateL_made hf h1
    refine ⟨?_, rfl, g3⟩
    simp only [funsL_rew, g1]

theorem mangle_dollar {nm : Names} {f : Name} {ts : List Ty} {n : Name} (h : mangle nm f ts = some n)
    (ht : ts ≠ []) : '$' ∈ n := by
  cases ts with
  | nil => exact absurd rfl ht
  | cons t ts =>
    simp only [mangle, Option.map_eq_some_iff] at h
    obtain ⟨s, hs, rfl⟩ := h
    simp only [writeT] at hs
    split at hs
    · simp only [Option.some.injEq] at hs
      subst hs
      simp
    · simp at hs

theorem lookup_isSome {α β : Type} [BEq α] [LawfulBEq α] {l : List (α × β)} {x : α} {y : β} (h : (x, y) ∈ l) :
    ∃ z, l.lookup x = some z := by
  induction l with
  | nil => simp at h
  | cons p l ih =>
    obtain ⟨a, b⟩ := p
    simp only [List.lookup_cons]
    cases hx : x == a with
    | true => exact ⟨b, rfl⟩
    | false =>
      cases List.mem_cons.mp h with
      | inl h => simp only [Prod.mk.injEq] at h; simp [h.1] at hx
      | inr h => exact ih h

/-- `σ` undoes the naming of the instances `K`. -/
structure Undoes (E : Env) (K : List Inst) (σ : Name → Name) : Prop where
  inst : ∀ i ∈ K, ∀ n, mangle E.nm i.1 i.2 = some n → σ n = i.1
  plain : ∀ n, '$' ∉ n → σ n = n

theorem redirect_map {E : Env} {K : List Inst} {σ : Name → Name} (hu : Undoes E K σ)
    (hs : ∀ n s, E.ss.lookup n = some s → '$' ∉ n) (r : TRef) :
    mapR σ (redirectR E.nm E.ss K r) = mapR σ r := by
  unfold redirectR
  split
  · rename_i f hr
    split
    · rfl
    · rename_i s hl
      split
      · rfl
      · rename_i ts ht
        split
        · rename_i hm
          split
          · rfl
          · rename_i n hn
            simp only [mapR, mapRes, hr, hu.inst _ hm n hn, hu.plain f (hs f s hl)]
        · rfl
  · rfl

def strip (σ : Name → Name) (f : Fun) : List Nat × Expr := (f.ps, mapE σ f.body)

theorem strip_rew {E : Env} {K : List Inst} {σ : Name → Name} (hu : Undoes E K σ)
    (hs : ∀ n s, E.ss.lookup n = some s → '$' ∉ n) (f : Fun) : strip σ (f.rew E.nm E.ss K) = strip σ f := by
  simp only [strip, Fun.rew, mapE_rew (redirect_map hu hs)]

theorem strip_copy (E : Env) (σ : Name → Name) (f : Fun) (ts : List Ty) :
    strip σ (copyFun E f ts) = strip σ f := by
  simp [strip, copyFun, mapE_subst]

structure Inv (E : Env) (src : List Decl) (σ : Name → Name) (st : State) : Prop where
  plain : ∀ n, '$' ∉ n →
    ((funsL [] st.decls).lookup n).map (strip σ) = ((funsL [] src).lookup n).map (strip σ)
  inst : ∀ n, '$' ∈ n → ∀ g, (funsL [] st.decls).lookup n = some g →
    ∃ i ∈ st.known, mangle E.nm i.1 i.2 = some n ∧ ∃ f, (funsL [] src).lookup i.1 = some f ∧ strip σ g = strip σ f
  known : ∀ i ∈ st.known, Found E.ss i ∧ ∃ n, mangle E.nm i.1 i.2 = some n ∧
    ∀ f, (funsL [] src).lookup i.1 = some f → ∃ g, (funsL [] st.decls).lookup n = some g

theorem round_inv {E : Env} {src : List Decl} {σ : Name → Name} {st st' : State} {new : List Inst}
    (hs : ∀ n s, E.ss.lookup n = some s → '$' ∉ n) (hi : Inv E src σ st) (hf : ∀ i ∈ new, Found E.ss i)
    (hu : Undoes E (st.known ++ new) σ) (h : round E st new = some st') : Inv E src σ st' := by
  obtain ⟨h1, h2, h3⟩ := round_functions hf h
  have hl : ∀ n, (funsL [] st'.decls).lookup n = match (funsL [] st.decls).lookup n with
      | some g => some (g.rew E.nm E.ss (st.known ++ new))
      | none => ((made E st.decls new).lookup n).map (·.rew E.nm E.ss (st.known ++ new)) := by
    intro n
    rw [h1, lookup_map, lookup_append]
    cases (funsL [] st.decls).lookup n <;> rfl
  have hplain : ∀ i ∈ new, '$' ∉ i.1 := fun i hm => by
    obtain ⟨s, _, hl, _⟩ := hf i hm
    exact hs _ _ hl
  refine ⟨fun n hn => ?_, fun n hn g hg => ?_, fun i hm => ?_⟩
  · rw [← hi.plain n hn, hl]
    cases h4 : (funsL [] st.decls).lookup n with
    | some g => simp [strip_rew hu hs]
    | none =>
      cases h5 : (made E st.decls new).lookup n with
      | none => rfl
      | some g =>
        obtain ⟨i, hi', f, _, hm, _⟩ := made_mem.mp (lookup_mem h5)
        exact absurd (mangle_dollar hm (found_args (hf i hi'))) hn
  · rw [hl] at hg
    cases h4 : (funsL [] st.decls).lookup n with
    | some g' =>
      rw [h4] at hg
      simp only [Option.some.injEq] at hg
      obtain ⟨i, hm, hn', f, hf', he⟩ := hi.inst n hn g' h4
      refine ⟨i, by rw [h2]; exact List.mem_append_left _ hm, hn', f, hf', ?_⟩
      rw [← hg, strip_rew hu hs, he]
    | none =>
      rw [h4] at hg
      simp only [Option.map_eq_some_iff] at hg
      obtain ⟨g', hg', rfl⟩ := hg
      obtain ⟨i, hm, f, hf', hn', rfl⟩ := made_mem.mp (lookup_mem hg')
      have hp := hi.plain i.1 (hplain i hm)
      rw [hf'] at hp
      simp only [Option.map_some] at hp
      obtain ⟨f', hf1, hf2⟩ := Option.map_eq_some_iff.mp hp.symm
      refine ⟨i, by rw [h2]; exact List.mem_append_right _ hm, hn', f', hf1, ?_⟩
      rw [strip_rew hu hs, strip_copy, hf2]
  · rw [h2] at hm
    cases List.mem_append.mp hm with
    | inl hm =>
      obtain ⟨h5, n, hn, h6⟩ := hi.known i hm
      refine ⟨h5, n, hn, fun f hf' => ?_⟩
      obtain ⟨g, hg⟩ := h6 f hf'
      exact ⟨_, by rw [hl, hg]⟩
    | inr hm =>
      obtain ⟨n, hn⟩ := h3 i hm
      refine ⟨hf i hm, n, hn, fun f hf' => ?_⟩
      have hp := hi.plain i.1 (hplain i hm)
      rw [hf'] at hp
      obtain ⟨f', hf1, hf2⟩ := Option.map_eq_some_iff.mp hp
      obtain ⟨z, hz⟩ := lookup_isSome (made_mem.mpr ⟨i, hm, f', hf1, hn, rfl⟩)
      rw [hl, hz]
      cases (funsL [] st.decls).lookup n with
      | some g => exact ⟨_, rfl⟩
      | none => exact ⟨_, rfl⟩

theorem rounds_step {E : Env} {n : Nat} {st fin : State} (h : rounds E (n + 1) st = some fin) :
    (fresh st.known (visitDs E.ss st.calleeTypes st.decls) = [] ∧ fin = st) ∨
    ∃ st', round E st (fresh st.known (visitDs E.ss st.calleeTypes st.decls)) = some st' ∧
      rounds E n st' = some fin := by
  simp only [rounds] at h
  split at h
  · rename_i h0
    simp only [Option.some.injEq] at h
    exact .inl ⟨h0, h.symm⟩
  · rename_i i is h0
    split at h
    · simp at h
    · rename_i st' h1
      exact .inr ⟨st', by rw [h0]; exact h1, h⟩

theorem fresh_found {E : Env} {st : State} :
    ∀ i ∈ fresh st.known (visitDs E.ss st.calleeTypes st.decls), Found E.ss i := by
  intro i hi
  obtain ⟨p, _, u, _, h⟩ := (visitDs_iff st.decls []).mp (fresh_mem hi).1
  exact tryRecord_found h

theorem rounds_known {E : Env} {n : Nat} : ∀ {st fin : State}, rounds E n st = some fin →
    ∀ i ∈ st.known, i ∈ fin.known := by
  induction n with
  | zero => intro st fin h; simp [rounds] at h
  | succ n ih =>
    intro st fin h i hi
    cases rounds_step h with
    | inl h => rw [h.2]; exact hi
    | inr h =>
      obtain ⟨st', h1, h2⟩ := h
      have := (round_functions fresh_found h1).2.1
      exact ih h2 i (by rw [this]; exact List.mem_append_left _ hi)

theorem rounds_inv {E : Env} {src : List Decl} {σ : Name → Name}
    (hs : ∀ n s, E.ss.lookup n = some s → '$' ∉ n) {n : Nat} : ∀ {st fin : State},
    rounds E n st = some fin → Undoes E fin.known σ → Inv E src σ st → Inv E src σ fin := by
  induction n with
  | zero => intro st fin h; simp [rounds] at h
  | succ n ih =>
    intro st fin h hu hi
    cases rounds_step h with
    | inl h => rw [h.2]; exact hi
    | inr h =>
      obtain ⟨st', h1, h2⟩ := h
      have hk := (round_functions fresh_found h1).2.1
      refine ih h2 hu (round_inv hs hi fresh_found ⟨fun i hm => hu.inst i (rounds_known h2 i ?_), hu.plain⟩ h1)
      rw [hk]; exact hm

/-- The function an instance name stands for: what comes before the first `$`. -/
def undo (E : Env) (K : List Inst) (n : Name) : Name :=
  if K.any (fun i => mangle E.nm i.1 i.2 == some n) then n.takeWhile (· != '$') else n

theorem takeWhile_plain {a b : Name} (h : '$' ∉ a) : (a ++ '$' :: b).takeWhile (· != '$') = a := by
  induction a with
  | nil => simp
  | cons c a ih =>
    simp only [List.mem_cons, not_or] at h
    simp only [List.cons_append, List.takeWhile_cons, ih h.2]
    have : (c != '$') = true := by simpa using fun e : c = '$' => h.1 e.symm
    simp [this]

theorem undoes (E : Env) (K : List Inst) (hk : ∀ i ∈ K, Found E.ss i)
    (hs : ∀ n s, E.ss.lookup n = some s → '$' ∉ n) : Undoes E K (undo E K) := by
  refine ⟨fun i hi n hn => ?_, fun n hn => ?_⟩
  · have : K.any (fun i => mangle E.nm i.1 i.2 == some n) = true :=
      List.any_eq_true.mpr ⟨i, hi, by simp [hn]⟩
    simp only [undo, this, if_true]
    have ht := found_args (hk i hi)
    obtain ⟨s, _, hl, _⟩ := hk i hi
    have hp := hs _ _ hl
    cases h2 : i.2 with
    | nil => exact absurd h2 ht
    | cons t ts =>
      rw [h2] at hn
      simp only [mangle, Option.map_eq_some_iff] at hn
      obtain ⟨x, hx, rfl⟩ := hn
      simp only [writeT] at hx
      split at hx
      · simp only [Option.some.injEq] at hx
        subst hx
        exact takeWhile_plain hp
      · simp at hx
  · have : K.any (fun i => mangle E.nm i.1 i.2 == some n) = false := by
      rw [Bool.eq_false_iff]
      intro h
      obtain ⟨i, hi, h⟩ := List.any_eq_true.mp h
      simp only [beq_iff_eq] at h
      exact hn (mangle_dollar h (found_args (hk i hi)))
    simp [undo, this]

theorem undo_other {E : Env} {K : List Inst} {n : Name} (h : ∀ i ∈ K, mangle E.nm i.1 i.2 ≠ some n) :
    undo E K n = n := by
  have : K.any (fun i => mangle E.nm i.1 i.2 == some n) = false := by
    rw [Bool.eq_false_iff]
    intro h'
    obtain ⟨i, hi, h'⟩ := List.any_eq_true.mp h'
    simp only [beq_iff_eq] at h'
    exact h i hi h'
  simp [undo, this]

theorem rounds_found {E : Env} {n : Nat} : ∀ {st fin : State}, rounds E n st = some fin →
    (∀ i ∈ st.known, Found E.ss i) → ∀ i ∈ fin.known, Found E.ss i := by
  induction n with
  | zero => intro st fin h; simp [rounds] at h
  | succ n ih =>
    intro st fin h hk
    cases rounds_step h with
    | inl h => rw [h.2]; exact hk
    | inr h =>
      obtain ⟨st', h1, h2⟩ := h
      refine ih h2 (fun i hi => ?_)
      rw [(round_functions fresh_found h1).2.1] at hi
      cases List.mem_append.mp hi with
      | inl hi => exact hk i hi
      | inr hi => exact fresh_found i hi

theorem mono_inv {E : Env} {src : List Decl} {nt ct : Table} {fin : State} (hsrc : Source E src)
    (h : monomorphize E src nt ct = some fin) : Inv E src (undo E fin.known) fin ∧ Undoes E fin.known (undo E fin.known) := by
  have hf := rounds_found h (fun i hi => by simp at hi)
  have hu := undoes E fin.known hf hsrc.schemes
  refine ⟨rounds_inv hsrc.schemes h hu ⟨fun n _ => rfl, fun n hn g hg => ?_, fun i hi => by simp at hi⟩, hu⟩
  exact absurd hn (hsrc.names _ _ (lookup_mem hg))

/-- The source and the final program are the same once types are forgotten and names undone. -/
theorem mono_renames {E : Env} {src : List Decl} {nt ct : Table} {fin : State} (hsrc : Source E src)
    (h : monomorphize E src nt ct = some fin) {X : Outside}
    (hx : ∀ i ∈ fin.known, progOf src i.1 = none → ∀ n, mangle E.nm i.1 i.2 = some n → X.link n = X.link i.1) :
    Renames (undo E fin.known) (progOf fin.decls) (fun n => (progOf src n).map fun x => (x.1, mapE id x.2)) X ∧
    Renames id (progOf src) (fun n => (progOf src n).map fun x => (x.1, mapE id x.2)) X := by
  obtain ⟨hi, hu⟩ := mono_inv hsrc h
  refine ⟨?_, fun n => rfl, fun _ _ => rfl⟩
  have src_id : ∀ n f, (funsL [] src).lookup n = some f → mapE (undo E fin.known) f.body = mapE id f.body := by
    intro n f hl
    refine mapE_congr _ (fun u hu' => ?_)
    cases hr : u.2.res <;> simp only [mapR, mapRes, hr, id_eq]
    rw [hu.plain _ (hsrc.uses n f (lookup_mem hl) u hu' _ hr)]
  have shape : ∀ n f g, (funsL [] src).lookup n = some f →
      strip (undo E fin.known) g = strip (undo E fin.known) f →
      ((f.ps, mapE id f.body) : List Nat × Expr) = (g.ps, mapE (undo E fin.known) g.body) := by
    intro n f g hl he
    simp only [strip, Prod.mk.injEq] at he
    rw [he.1, he.2, src_id n f hl]
  refine ⟨fun n => ?_, fun n hn => ?_⟩
  · simp only [progOf, Option.map_map]
    by_cases hd : '$' ∈ n
    · cases hg : (funsL [] fin.decls).lookup n with
      | some g =>
        obtain ⟨i, hik, hin, f, hf, he⟩ := hi.inst n hd g hg
        rw [hu.inst i hik n hin, hf]
        simp only [Option.map_some, Function.comp, shape _ f g hf he]
      | none =>
        simp only [Option.map_none, Option.map_eq_none_iff]
        by_cases hk : ∃ i ∈ fin.known, mangle E.nm i.1 i.2 = some n
        · obtain ⟨i, hik, hin⟩ := hk
          rw [hu.inst i hik n hin]
          obtain ⟨_, m, hm, hdecl⟩ := hi.known i hik
          rw [hin] at hm
          simp only [Option.some.injEq] at hm
          subst hm
          cases hs : (funsL [] src).lookup i.1 with
          | none => rfl
          | some f =>
            obtain ⟨g, hg'⟩ := hdecl f hs
            rw [hg] at hg'
            simp at hg'
        · rw [undo_other (fun i hik hin => hk ⟨i, hik, hin⟩)]
          cases hs : (funsL [] src).lookup n with
          | none => rfl
          | some f => exact absurd hd (hsrc.names _ _ (lookup_mem hs))
    · rw [hu.plain n hd]
      have hp := hi.plain n hd
      cases hg : (funsL [] fin.decls).lookup n with
      | none =>
        rw [hg] at hp
        simp only [Option.map_none] at hp
        have := Option.map_eq_none_iff.mp hp.symm
        simp [this]
      | some g =>
        rw [hg] at hp
        obtain ⟨f, hf, he⟩ := Option.map_eq_some_iff.mp hp.symm
        rw [hf]
        simp only [Option.map_some, Function.comp, shape n f g hf he.symm]
  · by_cases hk : ∃ i ∈ fin.known, mangle E.nm i.1 i.2 = some n
    · obtain ⟨i, hik, hin⟩ := hk
      rw [hu.inst i hik n hin]
      refine (hx i hik ?_ n hin).symm
      obtain ⟨_, m, hm, hdecl⟩ := hi.known i hik
      rw [hin] at hm
      simp only [Option.some.injEq] at hm
      subst hm
      simp only [progOf, Option.map_eq_none_iff]
      cases hs : (funsL [] src).lookup i.1 with
      | none => rfl
      | some f =>
        obtain ⟨g, hg⟩ := hdecl f hs
        simp [progOf, hg] at hn
    · rw [undo_other (fun i hik hin => hk ⟨i, hik, hin⟩)]

end Verif.Instances
