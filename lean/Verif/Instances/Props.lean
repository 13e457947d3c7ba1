import Verif.Instances.Chain
import Verif.Instances.Meta

/-!
# Generic functions are copied for the types they are used at: C84, C85, C86, C87
-/

namespace Verif.Instances
open Verif.Types Verif.Mono

/-! ## C84: the program behaves as before -/

/-- C84: whatever is asked of the outside, in which order, with which arguments, whether the program
goes on, ends, and with which value, is the same before and after, for every number of steps.  Missing
from the full statement: external functions used at concrete types are called under another name
afterwards, which has to be linked to the same thing. -/
theorem C84_same_behaviour_partial {E : Env} {src : List Decl} {nt ct : Table} {fin : State}
    (hsrc : Source E src) (h : monomorphize E src nt ct = some fin) {X : Outside}
    (hx : ∀ i ∈ fin.known, progOf src i.1 = none → ∀ n, mangle E.nm i.1 i.2 = some n → X.link n = X.link i.1)
    {main : Name} (hm : '$' ∉ main) (args : List Shape) (n : Nat) :
    observe (progOf fin.decls) X main args n = observe (progOf src) X main args n := by
  obtain ⟨h1, h2⟩ := mono_renames hsrc h hx
  have hu := (mono_inv hsrc h).2
  have e1 := observe_map h1 main args n
  have e2 := observe_map h2 main args n
  rw [hu.plain main hm] at e1
  rw [id_eq] at e2
  rw [← e1, ← e2]

/-- C84, for programs whose generic functions all have a body: no assumption on the outside. -/
theorem C84_same_behaviour {E : Env} {src : List Decl} {nt ct : Table} {fin : State}
    (hsrc : Source E src) (hb : ∀ g s, E.ss.lookup g = some s → s.params ≠ 0 → ∃ f, (functions src).lookup g = some f)
    (h : monomorphize E src nt ct = some fin) (X : Outside) {main : Name} (hm : '$' ∉ main) (args : List Shape)
    (n : Nat) : observe (progOf fin.decls) X main args n = observe (progOf src) X main args n := by
  refine C84_same_behaviour_partial hsrc h (fun i hi hp => ?_) hm args n
  obtain ⟨hfd, _⟩ := (mono_inv hsrc h).1.known i hi
  obtain ⟨s, c, hs, hr⟩ := hfd
  have h0 : s.params ≠ 0 := by
    unfold record at hr
    split at hr
    · simp at hr
    · rename_i as has
      exact (extract_length has).2
  obtain ⟨f, hf⟩ := hb _ s hs h0
  simp [progOf, hf] at hp

/-! ## C85: exactly the instances needed, each with its own types -/

/-- C85: the instances made are exactly those the program needs. -/
theorem C85_exactly_needed {E : Env} {src : List Decl} {nt ct : Table} {fin : State} (hsrc : Source E src)
    (hc : Checked E src ct) (hn : NoClash E src) (h : monomorphize E src nt ct = some fin) (i : Inst) :
    i ∈ fin.known ↔ ∃ k, Needed E src k i := by
  obtain ⟨h1, h2, _⟩ := mono_lev hsrc hc hn h
  exact ⟨fun hi => by obtain ⟨j, _, hj⟩ := h1 i hi; exact ⟨j, hj⟩, fun ⟨k, hk⟩ => h2 k i hk⟩

/-- C85: at the end no function names a generic function at concrete types any more. -/
theorem C85_none_left {E : Env} {src : List Decl} {nt ct : Table} {fin : State} (hsrc : Source E src)
    (hc : Checked E src ct) (hn : NoClash E src) (h : monomorphize E src nt ct = some fin) {n : Name} {f : Fun}
    (hf : (n, f) ∈ functions fin.decls) {u : NodeId × TRef} (hu : u ∈ usesE f.body) {g : Name} {ts : List Ty}
    (hg : u.2.res = .func g) : ¬ UsedAt E g u.2.ty ts := by
  intro hused
  obtain ⟨k, hk, hl, hi, h0⟩ := rounds_lev hsrc hc hn h (inv2_start hsrc hc nt) (lev_start nt ct)
  have hin := use_found hc (lev_sub hl) hi hf hu (f := g) (.inl hg) hused
  rw [h0] at hin
  simp only [List.not_mem_nil, or_false] at hin
  obtain ⟨s, hs, hex, _⟩ := record_of_usedAt hsrc hc hused
  obtain ⟨hfd, m, hm, _⟩ := (mono_inv hsrc h).1.known _ hin
  have hnorm := hi.normal n f hf u hu
  simp only [redirectR, hg, hs, hex, hin, if_true, hm] at hnorm
  have : u.2.res = .func m := by rw [← hnorm]
  rw [hg] at this
  simp only [Res.func.injEq] at this
  subst this
  exact hsrc.schemes _ _ hs (mangle_dollar hm (found_args hfd))

/-- C85: every function of the source is still there, under its name, with the same nodes, the same
parameters, the same types; only its references to generic functions at concrete types have changed,
and those name the copy for these types now. -/
theorem C85_sources_kept {E : Env} {src : List Decl} {nt ct : Table} {fin : State} (hsrc : Source E src)
    (hc : Checked E src ct) (hn : NoClash E src) (h : monomorphize E src nt ct = some fin) {n : Name} {f : Fun}
    (hf : (functions src).lookup n = some f) : ∃ f', (functions fin.decls).lookup n = some f' ∧
      SameFun E fin.known f f' ∧
      List.Forall₂ (fun u u' : NodeId × TRef => ∀ g ts, u.2.res = .func g → UsedAt E g u.2.ty ts →
        ∃ m, mangle E.nm g ts = some m ∧ u'.2.res = .func m) (usesE f.body) (usesE f'.body) := by
  obtain ⟨_, _, _, hi⟩ := mono_lev hsrc hc hn h
  have hp := hsrc.names _ _ (lookup_mem hf)
  cases hi.look n hp with
  | inl hl => rw [hf] at hl; simp at hl
  | inr hl =>
    obtain ⟨f0, f', hf0, hf', hsame, _⟩ := hl
    rw [hf] at hf0
    simp only [Option.some.injEq] at hf0
    subst hf0
    refine ⟨f', hf', hsame, forall₂_mono hsame.uses (fun u _ u' hu' hr g ts hg hused => ?_)⟩
    obtain ⟨_, h2, h3⟩ := hr
    rw [hg] at h3
    cases h3 with
    | inl h3 => exact absurd (h2 ▸ hused) (C85_none_left hsrc hc hn h (lookup_mem hf') hu' h3)
    | inr h3 =>
      obtain ⟨f1, ts1, s1, m, he, hm, _, hs1, hl1, hin1, hmm⟩ := h3
      simp only [Res.func.injEq] at he
      subst he
      obtain ⟨s, hs, hex, _⟩ := record_of_usedAt hsrc hc hused
      rw [hs] at hs1
      simp only [Option.some.injEq] at hs1
      subst hs1
      obtain ⟨hw, hpl, hsh⟩ := hc.schemes _ _ hs
      have := extract_complete hw hpl hl1 (extract_length hex).2 hsh hin1
      rw [h2, hex] at this
      simp only [Option.some.injEq] at this
      subst this
      exact ⟨m, hmm, hm⟩

/-- C85: the copy of a function for the types it is needed at has its own name and is the function
with these types for the type parameters, throughout.  Missing from the full statement: the names of
the instances needed have to be different. -/
theorem C85_copies_partial {E : Env} {src : List Decl} {nt ct : Table} {fin : State} (hsrc : Source E src)
    (hc : Checked E src ct) (hn : NoClash E src) (h : monomorphize E src nt ct = some fin)
    (hd : ∀ j k a b, Needed E src j a → Needed E src k b → mangle E.nm a.1 a.2 = mangle E.nm b.1 b.2 → a = b)
    {k : Nat} {g : Name} {ts : List Ty} (hk : Needed E src k (g, ts)) {f : Fun}
    (hf : (functions src).lookup g = some f) : ∃ m f', mangle E.nm g ts = some m ∧
      (functions fin.decls).lookup m = some f' ∧ CopyAt E fin.known ts f f' := by
  obtain ⟨h1, h2, _, hi⟩ := mono_lev hsrc hc hn h
  have hin := h2 k _ hk
  obtain ⟨hfd, m, hm, hex⟩ := (mono_inv hsrc h).1.known _ hin
  obtain ⟨f', hf'⟩ := hex f hf
  refine ⟨m, f', hm, hf', ?_⟩
  obtain ⟨i, hik, him, f0, hf0, hcopy⟩ := hi.copy m f' (lookup_mem hf') (mangle_dollar hm (found_args hfd))
  obtain ⟨j, _, hj⟩ := h1 i hik
  have he := hd j k i (g, ts) hj hk (by rw [him, hm])
  subst he
  simp only at hf0
  rw [hf] at hf0
  simp only [Option.some.injEq] at hf0
  subst hf0
  exact hcopy

/-! ## C86: when copying ends -/

/-- C86: copying succeeds exactly if every instance needed is reached within 63 steps from the
functions as they are written.  Missing from the full statement: finitely many instances should be
enough. -/
theorem C86_limit_partial {E : Env} {src : List Decl} {nt ct : Table} (hsrc : Source E src)
    (hc : Checked E src ct) (hn : NoClash E src) (hfit : ∀ k i, Needed E src k i → Fits E src nt ct i) :
    (∃ fin, monomorphize E src nt ct = some fin) ↔ ∀ k i, Needed E src k i → ∃ j < 63, Needed E src j i := by
  refine ⟨fun ⟨fin, h⟩ k i hk => ?_, fun h => mono_succeeds hsrc hc hn (fun j i hj => ⟨hfit j i hj, h j i hj⟩)⟩
  obtain ⟨h1, h2, _⟩ := mono_lev hsrc hc hn h
  exact h1 i (h2 k i hk)

/-- C86: a chain of generic functions, each calling the next, used at one type only, is copied if and
only if it has at most 63 functions. -/
theorem C86_chain (m : Nat) : (∃ fin, monomorphize (chainEnv m) (chain m) [] [] = some fin) ↔ m ≤ 63 := by
  rw [C86_limit_partial (chain_source m) (chain_checked m [] rfl) (chain_noClash m) (fun _ _ h => chain_fits h)]
  refine ⟨fun h => ?_, fun h k i hk => ?_⟩
  · by_contra hm
    obtain ⟨j, hj, hj'⟩ := h 63 _ (chain_needs (m := m) (k := 63) (by omega))
    have := (chain_needed hj').2
    simp only [Prod.mk.injEq] at this
    have := link_inj _ _ this.1
    omega
  · obtain ⟨h1, rfl⟩ := chain_needed hk
    exact ⟨k, by omega, hk⟩

/-- C86 is violated: this program needs 64 instances, all of which could be made, and the compiler
panics. -/
theorem C86_violated : monomorphize (chainEnv 64) (chain 64) [] [] = none ∧
    (∀ k i, Needed (chainEnv 64) (chain 64) k i → Fits (chainEnv 64) (chain 64) [] [] i) ∧
    (∀ k i, Needed (chainEnv 64) (chain 64) k i ↔ k < 64 ∧ i = (link k, [tInt])) := by
  refine ⟨?_, fun _ _ h => chain_fits h, fun k i => ⟨chain_needed, fun h => by
    obtain ⟨h1, rfl⟩ := h; exact chain_needs h1⟩⟩
  cases h : monomorphize (chainEnv 64) (chain 64) [] [] with
  | none => rfl
  | some fin => exact absurd ((C86_chain 64).mp ⟨fin, h⟩) (by omega)

/-- C86 is violated: a generic function that calls itself at a larger type is accepted by the type
checker, works when it is run as it is written, and makes the compiler panic. -/
theorem C86_growing_violated : monomorphize growEnv grow [] [] = none ∧ Source growEnv grow ∧
    Checked growEnv grow [] ∧ NoClash growEnv grow := by
  refine ⟨?_, grow_source, grow_checked, grow_noClash⟩
  cases h : monomorphize growEnv grow [] [] with
  | none => rfl
  | some fin =>
    obtain ⟨h1, h2, _⟩ := mono_lev grow_source grow_checked grow_noClash h
    obtain ⟨j, hj, hj'⟩ := h1 _ (h2 63 _ (grow_needs 63))
    have := grow_needed hj'
    simp only [Prod.mk.injEq, List.cons.injEq, and_true, true_and] at this
    have := congrArg depth this
    rw [depth_lists, depth_lists] at this
    omega

/-! ## C87: the types recorded for copies -/

/-- C87: the nodes of a copy are those of the function it is made from, marked with the instance, and
the types recorded for them are those of the originals with the types of the instance for the type
parameters; nothing recorded for the source is changed.  Missing from the full statement: the names of
the instances needed have to be different, and so do their marks. -/
theorem C87_recorded_types_partial {E : Env} {src : List Decl} {nt ct : Table} {fin : State} (hsrc : Source E src)
    (hc : Checked E src ct) (hn : NoClash E src) (hnt : ∀ id t, nt.lookup id = some t → id.variant = none)
    (h : monomorphize E src nt ct = some fin)
    (hd : ∀ j k a b, Needed E src j a → Needed E src k b → mangle E.nm a.1 a.2 = mangle E.nm b.1 b.2 → a = b) :
    (∀ id, id.variant = none → fin.nodeTypes.lookup id = nt.lookup id ∧ fin.calleeTypes.lookup id = ct.lookup id) ∧
    ∀ k g ts f, Needed E src k (g, ts) → (functions src).lookup g = some f → ∃ m f', mangle E.nm g ts = some m ∧
      (functions fin.decls).lookup m = some f' ∧
      nodes f' = (nodes f).map (fun id => ⟨id.raw, some (E.hash ts)⟩) ∧
      ∀ id ∈ nodes f,
        (∀ t, nt.lookup id = some t → ∃ t', Scheme.substB ts t = .ok t' ∧
          fin.nodeTypes.lookup ⟨id.raw, some (E.hash ts)⟩ = some t') ∧
        (∀ t, ct.lookup id = some t → ∃ t', Scheme.substB ts t = .ok t' ∧
          fin.calleeTypes.lookup ⟨id.raw, some (E.hash ts)⟩ = some t') := by
  obtain ⟨h1, h2, _, hi⟩ := mono_lev hsrc hc hn h
  have h3 := mono_inv3 hsrc hc hn hnt h
  refine ⟨fun id hv => ⟨h3.oldN id hv, hi.table.old id hv⟩, fun k g ts f hk hf => ?_⟩
  have hin := h2 k _ hk
  obtain ⟨hfd, m, hm, hex⟩ := (mono_inv hsrc h).1.known _ hin
  obtain ⟨f', hf'⟩ := hex f hf
  obtain ⟨i, hik, him, f0, hf0, hids⟩ := h3.ids m f' (lookup_mem hf') (mangle_dollar hm (found_args hfd))
  obtain ⟨j, _, hj⟩ := h1 i hik
  have he := hd j k i (g, ts) hj hk (by rw [him, hm])
  subst he
  simp only at hf0
  rw [hf] at hf0
  simp only [Option.some.injEq] at hf0
  subst hf0
  obtain ⟨hasN, hasC⟩ := h3.has _ hin f hf
  have entry : ∀ (t0 tab : Table), Clones E (needs E src) t0 tab → Has E (g, ts) (f.id :: idsE f.body) t0 tab →
      ∀ id ∈ nodes f, ∀ t, t0.lookup id = some t → ∃ t', Scheme.substB ts t = .ok t' ∧
        tab.lookup ⟨id.raw, some (E.hash ts)⟩ = some t' := by
    intro t0 tab hcl hhas id hid t ht
    obtain ⟨⟨t', ht'⟩, t'', ht''⟩ := hhas id (List.mem_cons.mpr (mem_nodes.mp hid)) t ht
    simp only [NodeId.withVariant] at ht''
    obtain ⟨t1, ht1, he⟩ := hcl.new _ _ ht'' (g, ts) ⟨k, hk⟩ rfl
    simp only at ht1
    rw [← nodeId_eta (hc.nodes _ _ (lookup_mem hf) id hid), ht] at ht1
    simp only [Option.some.injEq] at ht1
    subst ht1
    refine ⟨t', ht', ?_⟩
    rw [ht'', he, substT_ok ht']
  refine ⟨m, f', hm, hf', ?_, fun id hid => ⟨entry nt _ h3.table hasN id hid, entry ct _ hi.table hasC id hid⟩⟩
  simp only [nodes, nodes_idsE]
  exact hids

/-! ## Examples -/

-- The chain of two functions is copied, and the program runs through the copies.
example : ∃ fin, monomorphize (chainEnv 2) (chain 2) [] [] = some fin := (C86_chain 2).mpr (by omega)
example : (monomorphize (chainEnv 2) (chain 2) [] []).map (fun fin => (functions fin.decls).map (·.1)) =
    some ["m".toList, "f".toList, "ff".toList, "f$Int".toList, "ff$Int".toList] := by decide +kernel
example : Needed (chainEnv 2) (chain 2) 1 ("ff".toList, [tInt]) := chain_needs (by omega)

-- The chains meet all hypotheses.
example (m : Nat) : Source (chainEnv m) (chain m) ∧ Checked (chainEnv m) (chain m) [] ∧ NoClash (chainEnv m) (chain m) :=
  ⟨chain_source m, chain_checked m [] rfl, chain_noClash m⟩
theorem chain_names (m : Nat) : ∀ j k a b, Needed (chainEnv m) (chain m) j a → Needed (chainEnv m) (chain m) k b →
    mangle (chainEnv m).nm a.1 a.2 = mangle (chainEnv m).nm b.1 b.2 → a = b := by
  intro j k a b ha hb h
  obtain ⟨_, rfl⟩ := chain_needed ha
  obtain ⟨_, rfl⟩ := chain_needed hb
  have e : ∀ x, mangle letters (link x) [tInt] = some (link x ++ "$Int".toList) := fun x => rfl
  simp only [chainEnv, e, Option.some.injEq, List.append_cancel_right_eq] at h
  rw [h]
-- In the chain of 63 functions, the last copy is there and has the right types.
example : ∃ fin, monomorphize (chainEnv 63) (chain 63) [] [] = some fin ∧ ∃ m f', mangle letters (link 62) [tInt] = some m ∧
    (functions fin.decls).lookup m = some f' ∧ CopyAt (chainEnv 63) fin.known [tInt] ⟨node 0, [0], linkBody 63 62⟩ f' := by
  obtain ⟨fin, h⟩ := (C86_chain 63).mpr (by omega)
  exact ⟨fin, h, C85_copies_partial (chain_source 63) (chain_checked 63 [] rfl) (chain_noClash 63) h (chain_names 63)
    (chain_needs (by omega)) (chain_lookup (by omega))⟩
-- Its generic functions all have a body.
example (m : Nat) : ∀ g s, (chainEnv m).ss.lookup g = some s → s.params ≠ 0 → ∃ f, (functions (chain m)).lookup g = some f := by
  intro g s h _
  obtain ⟨_, k, hk, rfl⟩ := chain_scheme h
  exact ⟨_, chain_lookup hk⟩
-- Recorded types: the variable `x` of `f` has type `a`, that of `f$Int` has type `Int`.
example : (monomorphize (chainEnv 1) (chain 1) [(node 4, tVar)] []).map (fun fin => (fin.nodeTypes.lookup (node 4),
    fin.nodeTypes.lookup ⟨4, some 0⟩)) = some (some tVar, some tInt) := by decide +kernel

def quiet : Outside := ⟨fun _ => none, fun _ => none⟩

/-- The value a program ends with, if it is a literal. -/
def result (s : Seen) : Option Nat :=
  match s with
  | .finished (.data (.lit v) []) _ => some v
  | _ => none

example : result (observe (progOf (chain 2)) quiet ['m'] [] 20) = some 7 := by decide +kernel
example : (monomorphize (chainEnv 2) (chain 2) [] []).map
    (fun fin => result (observe (progOf fin.decls) quiet ['m'] [] 20)) = some (some 7) := by decide +kernel

/-! ## Where C84 and C85 fail -/

/-- `extern fn e(x: a) -> a` and `fn m() -> Int { e(7) }`. -/
def withExt : List Decl :=
  [.ext ['e'], .func (node 0) ['m'] [] (.call (node 1) (.var (node 3) ⟨.func ['e'], fn1 tInt tInt⟩) [.lit (node 4) 7])]
def extEnv : Env := ⟨letters, [(['e'], sId)], fun _ => 0⟩
/-- Only the declared name is linked; the answer is 9. -/
def linked : Outside := ⟨fun n => if n = ['e'] then some ['e'] else none, fun _ => some (.data (.lit 9) [])⟩

/-- C84 is violated: a generic external function used at integers is called under the name `e$Int`
afterwards, which nothing is linked to. -/
theorem C84_extern_violated : Source extEnv withExt ∧ ∃ fin, monomorphize extEnv withExt [] [] = some fin ∧
    result (observe (progOf withExt) linked ['m'] [] 20) = some 9 ∧
    observe (progOf fin.decls) linked ['m'] [] 20 = .wrong := by
  refine ⟨⟨fun n s h => ?_, fun n f h => ?_, fun n f h u hu g hg => ?_⟩, ?_⟩
  · have := lookup_mem h
    simp only [extEnv, List.mem_singleton, Prod.mk.injEq] at this
    rw [this.1]; decide
  · simp only [functions, withExt, funsL, funs, qualify, if_true, List.nil_append, List.append_nil,
      List.mem_singleton, Prod.mk.injEq] at h
    rw [h.1]; decide
  · simp only [functions, withExt, funsL, funs, qualify, if_true, List.nil_append, List.append_nil,
      List.mem_singleton, Prod.mk.injEq] at h
    rw [h.2] at hu
    simp only [usesE, usesEs, List.append_nil, List.mem_singleton] at hu
    subst hu
    simp only [Res.func.injEq] at hg
    subst hg
    decide
  · cases h : monomorphize extEnv withExt [] [] with
    | none =>
      exact absurd h (by
        have : (monomorphize extEnv withExt [] []).isSome = true := by decide +kernel
        intro e; rw [e] at this; simp at this)
    | some fin =>
      have hw : (monomorphize extEnv withExt [] []).map (fun fin => match observe (progOf fin.decls) linked ['m'] [] 20 with
        | .wrong => true
        | _ => false) = some true := by decide +kernel
      rw [h] at hw
      simp only [Option.map_some, Option.some.injEq] at hw
      refine ⟨fin, rfl, by decide +kernel, ?_⟩
      split at hw
      · rename_i htr
        exact htr
      · simp at hw

def pureFn : Ty := fn1 tInt tInt
/-- The same function type with an effect. -/
def effFn : Ty := .node (.func 0) [tInt, tInt] [.mk 0 []] none

/-- `fn i(x: a) -> a { x }`, used at `fn(Int) -> Int` and at `fn(Int) ->{A} Int`. -/
def twoFns : List Decl :=
  [.func (node 0) ['i'] [0] (.var (node 1) ⟨.loc 0, tVar⟩),
   .func (node 2) ['m'] [0, 1] (.tuple (node 3)
      [.call (node 4) (.var (node 5) ⟨.func ['i'], fn1 pureFn pureFn⟩) [.var (node 6) ⟨.loc 0, pureFn⟩],
       .call (node 7) (.var (node 8) ⟨.func ['i'], fn1 effFn effFn⟩) [.var (node 9) ⟨.loc 1, effFn⟩]])]
def fnsEnv : Env := ⟨letters, [(['i'], sId)], fun ts => match ts with
  | [.node _ _ es _] => es.length
  | _ => 0⟩

/-- C85 is violated: the copies of `i` for the two types are both needed and get the same name; the
function found under this name is the first one, of which no node has the type of the second. -/
theorem C85_effects_violated : ∃ fin m f', monomorphize fnsEnv twoFns [] [] = some fin ∧
    Needed fnsEnv twoFns 0 (['i'], [pureFn]) ∧ Needed fnsEnv twoFns 0 (['i'], [effFn]) ∧
    mangle fnsEnv.nm ['i'] [pureFn] = some m ∧ mangle fnsEnv.nm ['i'] [effFn] = some m ∧
    (functions fin.decls).lookup m = some f' ∧ (∀ u ∈ usesE f'.body, u.2.ty = pureFn) ∧ usesE f'.body ≠ [] ∧
    pureFn ≠ effFn := by
  have hsome : (monomorphize fnsEnv twoFns [] []).isSome = true := by decide +kernel
  obtain ⟨fin, hfin⟩ := Option.isSome_iff_exists.mp hsome
  have hl : (monomorphize fnsEnv twoFns [] []).map (fun fin =>
      ((functions fin.decls).lookup "i$Fn$0$Int$1$Int".toList).map (fun f => (usesE f.body).map (·.2.ty))) =
      some (some [pureFn]) := by decide +kernel
  rw [hfin] at hl
  simp only [Option.map_some, Option.some.injEq] at hl
  obtain ⟨f', hf', hu⟩ := Option.map_eq_some_iff.mp hl
  refine ⟨fin, _, f', hfin, ?_, ?_, by decide +kernel, by decide +kernel, hf', fun u hm => ?_, fun h => ?_, by decide⟩
  · refine .source (n := ['m']) (u := (node 5, ⟨.func ['i'], fn1 pureFn pureFn⟩)) (.tail _ (.head _)) ?_ rfl
      ⟨sId, rfl, by simp [sId], rfl, ?_, by simp; decide⟩
    · simp [usesE, usesEs]
    · simp [sId, fn1, tVar, InstOf, InstOfL]
  · refine .source (n := ['m']) (u := (node 8, ⟨.func ['i'], fn1 effFn effFn⟩)) (.tail _ (.head _)) ?_ rfl
      ⟨sId, rfl, by simp [sId], rfl, ?_, by simp; decide⟩
    · simp [usesE, usesEs]
    · simp [sId, fn1, tVar, InstOf, InstOfL]
  · have := List.mem_map_of_mem (f := fun x : NodeId × TRef => x.2.ty) hm
    rw [hu] at this
    simpa using this
  · rw [h] at hu
    simp at hu

end Verif.Instances
