import Verif.NameEnv.Spec
import Mathlib.Tactic.Tauto
import Mathlib.Logic.Basic
/-!
# Lemmas for C34 and C44
-/
namespace Verif.NameEnv

/-! ## Traversals -/

theorem addImportIfAbsent_eq (e : Env) (n : Symbol) (b : Binding) :
    (e.addImportIfAbsent n b).definitions = e.definitions ∧
    (e.addImportIfAbsent n b).namespaces = e.namespaces ∧
    (e.addImportIfAbsent n b).usePaths = e.usePaths ∧
    ∀ x, (e.addImportIfAbsent n b).imports x =
      if x = n ∧ e.definitions x = none ∧ e.imports x = none then some b else e.imports x := by
  unfold Env.addImportIfAbsent
  by_cases h : e.definitions n = none ∧ e.imports n = none
  · rw [if_pos (by simp [h])]
    refine ⟨rfl, rfl, rfl, fun x => ?_⟩
    simp only [Env.addImport, Map.insert]
    by_cases hx : x = n
    · subst hx; simp [h]
    · simp [hx]
  · rw [if_neg (by simpa using h)]
    refine ⟨rfl, rfl, rfl, fun x => ?_⟩
    rw [if_neg]
    rintro ⟨rfl, h1, h2⟩
    exact h ⟨h1, h2⟩

theorem foldImports (l : List (Symbol × Binding)) : ∀ (e : Env), (l.map (·.1)).Nodup →
    let e' := l.foldl (fun e d => e.addImportIfAbsent d.1 d.2) e
    e'.definitions = e.definitions ∧ e'.namespaces = e.namespaces ∧ e'.usePaths = e.usePaths ∧
    (∀ x b, (x, b) ∈ l → e.definitions x = none → e.imports x = none → e'.imports x = some b) ∧
    (∀ x, (∀ b, (x, b) ∉ l) ∨ e.definitions x ≠ none ∨ e.imports x ≠ none →
      e'.imports x = e.imports x) := by
  induction l with
  | nil => intro e _; simp
  | cons d l ih =>
    intro e hn
    simp only [List.map_cons, List.nodup_cons] at hn
    obtain ⟨hd, hn⟩ := hn
    obtain ⟨i1, i2, i3, i4, i5⟩ := ih (e.addImportIfAbsent d.1 d.2) hn
    obtain ⟨a1, a2, a3, a4⟩ := addImportIfAbsent_eq e d.1 d.2
    simp only [List.foldl_cons]
    refine ⟨i1.trans a1, i2.trans a2, i3.trans a3, ?_, ?_⟩
    · intro x b hm h1 h2
      rcases List.mem_cons.mp hm with rfl | hm
      · rw [i5, a4, if_pos ⟨rfl, h1, h2⟩]
        left; intro b' hb'; exact hd (List.mem_map.mpr ⟨_, hb', rfl⟩)
      · have hx : x ≠ d.1 := by
          rintro rfl; exact hd (List.mem_map.mpr ⟨_, hm, rfl⟩)
        refine i4 x b hm (by rw [a1]; exact h1) ?_
        rw [a4, if_neg (by tauto)]; exact h2
    · intro x hx
      by_cases hxd : x = d.1 ∧ e.definitions x = none ∧ e.imports x = none
      · rcases hx with hx | hx | hx
        · exact absurd (by rw [hxd.1]; exact List.mem_cons_self) (hx d.2)
        · exact absurd hxd.2.1 hx
        · exact absurd hxd.2.2 hx
      · have hi : (e.addImportIfAbsent d.1 d.2).imports x = e.imports x := by rw [a4, if_neg hxd]
        rw [i5 x, hi]
        rcases hx with hx | hx | hx
        · left; intro b hb; exact hx b (List.mem_cons_of_mem _ hb)
        · right; left; rw [a1]; exact hx
        · right; right; rw [hi]; exact hx

theorem addToNamespaceIfAbsent_eq (e : Env) (ns n : Symbol) (b : Binding) :
    (e.addToNamespaceIfAbsent ns n b).definitions = e.definitions ∧
    (e.addToNamespaceIfAbsent ns n b).imports = e.imports ∧
    (e.addToNamespaceIfAbsent ns n b).usePaths = e.usePaths ∧
    ∀ x y, (e.addToNamespaceIfAbsent ns n b).namespaces x y =
      if x = ns ∧ y = n ∧ e.namespaces x y = none then some b else e.namespaces x y := by
  unfold Env.addToNamespaceIfAbsent
  cases h : e.namespaces ns n with
  | some b' =>
    refine ⟨rfl, rfl, rfl, fun x y => ?_⟩
    show e.namespaces x y = _
    rw [if_neg]
    rintro ⟨rfl, rfl, h'⟩
    rw [h] at h'; cases h'
  | none =>
    refine ⟨rfl, rfl, rfl, fun x y => ?_⟩
    simp only [Env.addToNamespace]
    by_cases hx : x = ns
    · subst hx
      by_cases hy : y = n
      · subst hy; simp [h, Map.insert]
      · simp [hy, Map.insert]
    · simp [hx]

theorem foldNs (l : List (Symbol × Symbol × Binding)) : ∀ (e : Env),
    (l.map fun d => (d.1, d.2.1)).Nodup →
    let e' := l.foldl (fun e d => e.addToNamespaceIfAbsent d.1 d.2.1 d.2.2) e
    e'.definitions = e.definitions ∧ e'.imports = e.imports ∧ e'.usePaths = e.usePaths ∧
    (∀ ns x b, (ns, x, b) ∈ l → e.namespaces ns x = none → e'.namespaces ns x = some b) ∧
    (∀ ns x, (∀ b, (ns, x, b) ∉ l) ∨ e.namespaces ns x ≠ none →
      e'.namespaces ns x = e.namespaces ns x) := by
  induction l with
  | nil => intro e _; simp
  | cons d l ih =>
    intro e hn
    simp only [List.map_cons, List.nodup_cons] at hn
    obtain ⟨hd, hn⟩ := hn
    obtain ⟨i1, i2, i3, i4, i5⟩ := ih (e.addToNamespaceIfAbsent d.1 d.2.1 d.2.2) hn
    obtain ⟨a1, a2, a3, a4⟩ := addToNamespaceIfAbsent_eq e d.1 d.2.1 d.2.2
    simp only [List.foldl_cons]
    refine ⟨i1.trans a1, i2.trans a2, i3.trans a3, ?_, ?_⟩
    · intro ns x b hm h1
      rcases List.mem_cons.mp hm with rfl | hm
      · rw [i5, a4, if_pos ⟨rfl, rfl, h1⟩]
        left; intro b' hb'; exact hd (List.mem_map.mpr ⟨_, hb', rfl⟩)
      · have hx : ¬ (ns = d.1 ∧ x = d.2.1) := by
          rintro ⟨rfl, rfl⟩; exact hd (List.mem_map.mpr ⟨_, hm, rfl⟩)
        refine i4 ns x b hm ?_
        rw [a4, if_neg (by tauto)]; exact h1
    · intro ns x hx
      by_cases hxd : ns = d.1 ∧ x = d.2.1 ∧ e.namespaces ns x = none
      · rcases hx with hx | hx
        · exact absurd (by rw [hxd.1, hxd.2.1]; exact List.mem_cons_self) (hx d.2.2)
        · exact absurd hxd.2.2 hx
      · have hi : (e.addToNamespaceIfAbsent d.1 d.2.1 d.2.2).namespaces ns x = e.namespaces ns x := by
          rw [a4, if_neg hxd]
        rw [i5 ns x, hi]
        rcases hx with hx | hx
        · left; intro b hb; exact hx b (List.mem_cons_of_mem _ hb)
        · right; rw [hi]; exact hx

/-- What a merge does, in whatever order the other environment is traversed. -/
theorem merge_eq (e : Env) {l l2 d m} (h : Lists l d) (h2 : Lists2 l2 m) :
    (e.merge l l2).definitions = e.definitions ∧ (e.merge l l2).usePaths = e.usePaths ∧
    (∀ x, (e.merge l l2).imports x =
      if e.definitions x = none ∧ e.imports x = none then d x else e.imports x) ∧
    (∀ ns x, (e.merge l l2).namespaces ns x = (e.namespaces ns x).or (m ns x)) := by
  obtain ⟨a1, a2, a3, a4, a5⟩ := foldImports l e h.1
  obtain ⟨b1, b2, b3, b4, b5⟩ := foldNs l2 (l.foldl (fun e d => e.addImportIfAbsent d.1 d.2) e) h2.1
  refine ⟨b1.trans a1, b3.trans a3, fun x => ?_, fun ns x => ?_⟩
  · show Env.imports (l2.foldl _ _) x = _
    rw [b2]
    by_cases hx : e.definitions x = none ∧ e.imports x = none
    · rw [if_pos hx]
      cases hd : d x with
      | some b => exact a4 x b ((h.2 x b).mpr hd) hx.1 hx.2
      | none =>
        rw [a5 x (Or.inl fun b hb => by rw [(h.2 x b).mp hb] at hd; cases hd)]
        exact hx.2
    · rw [if_neg hx]
      exact a5 x (by tauto)
  · show Env.namespaces (l2.foldl _ _) ns x = _
    rw [a2] at b4 b5
    cases hn : e.namespaces ns x with
    | some b => rw [b5 ns x (Or.inr (by rw [hn]; simp)), hn]; rfl
    | none =>
      cases hm : m ns x with
      | some b => rw [b4 ns x b ((h2.2 ns x b).mpr hm) hn]; rfl
      | none =>
        rw [b5 ns x (Or.inl fun b hb => by rw [(h2.2 ns x b).mp hb] at hm; cases hm), hn]; rfl

/-! ## Histories -/

theorem latest_cons (f) (ev : Event) (h : List Event) :
    latest f (ev :: h) = (latest f h).or (f ev) := by
  unfold latest
  cases hf : f ev with
  | none => rw [List.filterMap_cons_none hf]; simp
  | some b =>
    rw [List.filterMap_cons_some hf]
    cases hl : (List.filterMap f h) with
    | nil => simp
    | cons a l => rw [List.getLast?_cons_cons, List.getLast?_eq_some_getLast (by simp)]; simp

theorem first_cons (f) (ev : Event) (h : List Event) :
    first f (ev :: h) = (f ev).or (first f h) := by
  unfold first
  cases hf : f ev with
  | none => rw [List.filterMap_cons_none hf]; simp
  | some b => rw [List.filterMap_cons_some hf]; simp

theorem lookup_eq (e : Env) (n : Symbol) : e.lookup n = (e.definitions n).or (e.imports n) := by
  unfold Env.lookup
  cases e.definitions n <;> rfl

/-- Every event acts as the history says. The explicit imports and the prelude share one map, so the
invariant keeps them apart. -/
theorem steps_lookup {e e' : Env} {h : List Event} (hs : Steps e h e') (n : Symbol) :
    e'.lookup n = ((latest (definitionOf n) h).or (e.definitions n)).or
      ((latest (importOf n) h).or ((e.imports n).or (first (preludeOf n) h))) := by
  induction hs with
  | nil e => rw [lookup_eq]; simp [latest, first]
  | @cons e1 e2 e3 ev evs hst ht ih =>
    rw [ih, latest_cons, latest_cons, first_cons]
    cases hst with
    | define m b =>
      simp only [Env.define, Map.insert, definitionOf, importOf, preludeOf]
      by_cases hm : n = m
      · subst hm; simp
      · simp [hm, Ne.symm hm]
    | import_ m b =>
      simp only [Env.addImport, Map.insert, definitionOf, importOf, preludeOf]
      by_cases hm : n = m
      · subst hm; simp
      · simp [hm, Ne.symm hm]
    | member ns m b => simp [Env.addToNamespace, definitionOf, importOf, preludeOf]
    | merge d m l l2 h1 h2 =>
      obtain ⟨a1, a2, a3, a4⟩ := merge_eq e1 h1 h2
      rw [a1, a3]
      simp only [definitionOf, importOf, preludeOf]
      cases latest (definitionOf n) evs <;> cases e1.definitions n <;> cases e1.imports n <;>
        cases latest (importOf n) evs <;> simp

theorem steps_qualified {e e' : Env} {h : List Event} (hs : Steps e h e') (ns n : Symbol) :
    e'.lookupQualified ns n = (latest (memberOf ns n) h).or
      ((e.namespaces ns n).or (first (preludeMemberOf ns n) h)) := by
  induction hs with
  | nil e => simp [latest, first, Env.lookupQualified]
  | @cons e1 e2 e3 ev evs hst ht ih =>
    rw [ih, latest_cons, first_cons]
    cases hst with
    | define m b => simp [Env.define, memberOf, preludeMemberOf]
    | import_ m b => simp [Env.addImport, memberOf, preludeMemberOf]
    | member ns' m b =>
      simp only [Env.addToNamespace, Map.insert, memberOf, preludeMemberOf]
      by_cases hns : ns = ns'
      · subst hns
        by_cases hm : n = m
        · subst hm; simp [Map.insert]
        · simp [Map.insert, hm, Ne.symm hm]
      · simp [hns, Ne.symm hns]
    | merge d m l l2 h1 h2 =>
      obtain ⟨a1, a2, a3, a4⟩ := merge_eq e1 h1 h2
      rw [a4]
      simp only [memberOf, preludeMemberOf]
      cases latest (memberOf ns n) evs <;> cases e1.namespaces ns n <;> simp

/-! ## Resolving imports -/

theorem foldSub {l : List (Symbol × Binding)} {m : Map Binding} (h : Lists l m) (e : Env)
    (n : Symbol) :
    let e' := l.foldl (fun e d => e.addToNamespaceIfAbsent n d.1 d.2) e
    e'.definitions = e.definitions ∧ e'.imports = e.imports ∧ e'.usePaths = e.usePaths ∧
    ∀ x y, e'.namespaces x y = if x = n then (e.namespaces x y).or (m y) else e.namespaces x y := by
  have hnd : ((l.map fun d => (n, d.1, d.2)).map fun d => (d.1, d.2.1)).Nodup := by
    rw [List.map_map, show ((fun d : Symbol × Symbol × Binding => (d.1, d.2.1)) ∘
      fun d : Symbol × Binding => (n, d.1, d.2)) = (fun k => (n, k)) ∘ (·.1) from rfl, ← List.map_map]
    exact List.Pairwise.map _ (fun a b hab h' => hab (by simpa using h')) h.1
  obtain ⟨a1, a2, a3, a4, a5⟩ := foldNs (l.map fun d => (n, d.1, d.2)) e hnd
  simp only [List.foldl_map] at a1 a2 a3 a4 a5
  refine ⟨a1, a2, a3, fun x y => ?_⟩
  have hmem : ∀ b, (x, y, b) ∈ l.map (fun d => (n, d.1, d.2)) ↔ x = n ∧ m y = some b := by
    intro b
    simp only [List.mem_map, Prod.mk.injEq, Prod.exists]
    constructor
    · rintro ⟨k, c, hk, rfl, rfl, rfl⟩; exact ⟨rfl, (h.2 _ _).mp hk⟩
    · rintro ⟨rfl, hm⟩; exact ⟨y, b, (h.2 _ _).mpr hm, rfl, rfl, rfl⟩
  split
  · rename_i hx
    cases hn : e.namespaces x y with
    | some b => rw [a5 x y (Or.inr (by rw [hn]; simp)), hn]; rfl
    | none =>
      cases hm : m y with
      | some b => rw [a4 x y b ((hmem b).mpr ⟨hx, hm⟩) hn]; rfl
      | none =>
        rw [a5 x y (Or.inl fun b hb => by rw [((hmem b).mp hb).2] at hm; cases hm), hn]; rfl
  · rename_i hx
    exact a5 x y (Or.inl fun b hb => hx ((hmem b).mp hb).1)

/-- The binding an import path leads to. -/
def found (e : Env) (path : List Symbol) : Option Binding :=
  match path.getLast? with
  | none => none
  | some t => e.namespaces (join path.dropLast) t

theorem resolveUse_none {so : Map Binding → List (Symbol × Binding)} {e : Env} {n : Symbol}
    {p : List Symbol} (h : found e p = none) : resolveUse so e n p = e := by
  unfold found at h
  unfold resolveUse Env.lookupQualified
  cases hp : p.getLast? with
  | none => rfl
  | some t => rw [hp] at h; simp only at h ⊢; rw [h]

theorem resolveUse_some {so : Map Binding → List (Symbol × Binding)} {e : Env} {n : Symbol}
    {p : List Symbol} {b : Binding} (h : found e p = some b)
    (hso : Lists (so (e.namespaces (join p))) (e.namespaces (join p))) :
    (resolveUse so e n p).definitions = e.definitions ∧
    (∀ x, (resolveUse so e n p).imports x = if x = n then some b else e.imports x) ∧
    (∀ x, (resolveUse so e n p).usePaths x = if x = n then some p else e.usePaths x) ∧
    (∀ x y, (resolveUse so e n p).namespaces x y =
      if x = n then (e.namespaces x y).or (e.namespaces (join p) y) else e.namespaces x y) := by
  unfold found at h
  unfold resolveUse Env.lookupQualified
  cases hp : p.getLast? with
  | none => rw [hp] at h; cases h
  | some t =>
    rw [hp] at h
    simp only at h ⊢
    rw [h]
    obtain ⟨a1, a2, a3, a4⟩ := foldSub hso e n
    refine ⟨a1, fun x => ?_, fun x => ?_, a4⟩
    · simp only [Env.replaceImport, Map.insert]; rw [a2]
    · simp only [Env.replaceImport, Map.insert]; rw [a3]

/-- If no import adds to a namespace that an import reads, the loop treats every import against the
environment it started from. -/
theorem resolveFold {so : Map Binding → List (Symbol × Binding)} {e0 : Env}
    (hso : ∀ ns, Lists (so (e0.namespaces ns)) (e0.namespaces ns)) :
    ∀ (l : List (Symbol × List Symbol)) (e : Env), (l.map (·.1)).Nodup →
    (∀ d ∈ l, e.namespaces (join d.2) = e0.namespaces (join d.2) ∧
      e.namespaces (join d.2.dropLast) = e0.namespaces (join d.2.dropLast)) →
    (∀ d ∈ l, e.namespaces d.1 = e0.namespaces d.1) →
    (∀ d ∈ l, ∀ d' ∈ l, d.1 ≠ join d'.2 ∧ d.1 ≠ join d'.2.dropLast) →
    let e' := l.foldl (fun e d => resolveUse so e d.1 d.2) e
    e'.definitions = e.definitions ∧
    (∀ x p b, (x, p) ∈ l → found e0 p = some b → e'.imports x = some b ∧ e'.usePaths x = some p ∧
      ∀ y, e'.namespaces x y = (e0.namespaces x y).or (e0.namespaces (join p) y)) ∧
    (∀ x, (∀ p, (x, p) ∈ l → found e0 p = none) → e'.imports x = e.imports x ∧
      e'.usePaths x = e.usePaths x ∧ ∀ y, e'.namespaces x y = e.namespaces x y) := by
  intro l
  induction l with
  | nil => intro e _ _ _ _; simp
  | cons d l ih =>
    obtain ⟨n, p⟩ := d
    intro e hnd hread hown hind
    simp only [List.map_cons, List.nodup_cons] at hnd
    obtain ⟨hd, hnd⟩ := hnd
    have hkey : ∀ q, (n, q) ∉ l := fun q hq => hd (List.mem_map.mpr ⟨_, hq, rfl⟩)
    have hfound : found e p = found e0 p := by
      unfold found
      cases p.getLast? with
      | none => rfl
      | some t => simp only; rw [(hread _ List.mem_cons_self).2]
    have hind' : ∀ d ∈ l, ∀ d' ∈ l, d.1 ≠ join d'.2 ∧ d.1 ≠ join d'.2.dropLast :=
      fun d h d' h' => hind d (List.mem_cons_of_mem _ h) d' (List.mem_cons_of_mem _ h')
    simp only [List.foldl_cons]
    cases hf : found e0 p with
    | none =>
      rw [resolveUse_none (hfound.trans hf)]
      obtain ⟨i1, i2, i3⟩ := ih e hnd (fun d h => hread d (List.mem_cons_of_mem _ h))
        (fun d h => hown d (List.mem_cons_of_mem _ h)) hind'
      refine ⟨i1, ?_, ?_⟩
      · intro x q b hm hb
        rcases List.mem_cons.mp hm with hm | hm
        · cases hm; rw [hf] at hb; cases hb
        · exact i2 x q b hm hb
      · intro x hx
        exact i3 x fun q hq => hx q (List.mem_cons_of_mem _ hq)
    | some b0 =>
      have hj : e.namespaces (join p) = e0.namespaces (join p) := (hread _ List.mem_cons_self).1
      obtain ⟨a1, a2, a3, a4⟩ := resolveUse_some (so := so) (n := n) (hfound.trans hf)
        (by rw [hj]; exact hso _)
      have hsame : ∀ x, x ≠ n → (resolveUse so e n p).namespaces x = e.namespaces x := by
        intro x hx; funext y; rw [a4, if_neg hx]
      obtain ⟨i1, i2, i3⟩ := ih (resolveUse so e n p) hnd
        (fun d h => by
          obtain ⟨h1, h2⟩ := hind (n, p) List.mem_cons_self d (List.mem_cons_of_mem _ h)
          obtain ⟨h3, h4⟩ := hread d (List.mem_cons_of_mem _ h)
          exact ⟨(hsame _ h1.symm).trans h3, (hsame _ h2.symm).trans h4⟩)
        (fun d h => (hsame _ (by
          rintro rfl; exact hkey d.2 h)).trans (hown d (List.mem_cons_of_mem _ h))) hind'
      refine ⟨i1.trans a1, ?_, ?_⟩
      · intro x q b hm hb
        rcases List.mem_cons.mp hm with hm | hm
        · cases hm
          rw [hf] at hb; cases hb
          obtain ⟨j1, j2, j3⟩ := i3 n fun q hq => absurd hq (hkey q)
          refine ⟨by rw [j1, a2, if_pos rfl], by rw [j2, a3, if_pos rfl], fun y => ?_⟩
          rw [j3, a4, if_pos rfl, hj]
          exact congrArg (fun f : Map Binding => (f y).or _) (hown _ List.mem_cons_self)
        · exact i2 x q b hm hb
      · intro x hx
        have hxn : x ≠ n := by
          rintro rfl
          rw [hx p List.mem_cons_self] at hf; cases hf
        obtain ⟨j1, j2, j3⟩ := i3 x fun q hq => hx q (List.mem_cons_of_mem _ hq)
        exact ⟨by rw [j1, a2, if_neg hxn], by rw [j2, a3, if_neg hxn],
          fun y => by rw [j3, a4, if_neg hxn]⟩

/-- The imports the loop looks at. -/
theorem mem_moduleImports {l : List (Symbol × Binding)} {x : Symbol} {p : List Symbol} :
    (x, p) ∈ (l.filterMap fun d => match d.2 with
      | .module path => if 2 ≤ path.length then some (d.1, path) else none
      | _ => none) ↔ (x, Binding.module p) ∈ l ∧ 2 ≤ p.length := by
  simp only [List.mem_filterMap, Prod.exists]
  constructor
  · rintro ⟨a, b, hm, hb⟩
    cases b <;> simp at hb
    obtain ⟨h1, rfl, rfl⟩ := hb
    exact ⟨hm, h1⟩
  · rintro ⟨hm, hp⟩
    exact ⟨x, .module p, hm, by simp [hp]⟩

theorem nodup_moduleImports {l : List (Symbol × Binding)} (h : (l.map (·.1)).Nodup) :
    ((l.filterMap fun d => match d.2 with
      | .module path => if 2 ≤ path.length then some (d.1, path) else none
      | _ => none).map (·.1)).Nodup := by
  induction l with
  | nil => simp
  | cons d l ih =>
    simp only [List.map_cons, List.nodup_cons] at h
    rw [List.filterMap_cons]
    obtain ⟨n, b⟩ := d
    have ih := ih h.2
    split
    · exact ih
    · rename_i v hv
      obtain ⟨x, p⟩ := v
      have hx : x = n := by
        cases b <;> simp at hv
        exact hv.2.1.symm
      subst hx
      rw [List.map_cons, List.nodup_cons]
      refine ⟨?_, ih⟩
      intro hm
      obtain ⟨⟨y, q⟩, hq, rfl⟩ := List.mem_map.mp hm
      exact h.1 (List.mem_map.mpr ⟨_, (mem_moduleImports.mp hq).1, rfl⟩)

end Verif.NameEnv
