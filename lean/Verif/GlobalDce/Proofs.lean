import Verif.GlobalDce.Spec
namespace Verif.GlobalDce

theorem leaves_module (path : List Sym) (name : Option Sym) (inner rest : Items) :
    leaves path (.module name inner rest) =
      leaves (extendModulePath name path) inner ++ leaves path rest := by
  cases name <;> rfl

theorem fullName_iff {f : Func} {path : List Sym} {n : Sym} :
    extractFuncName f path = some n ↔ FullName path f n := by
  unfold extractFuncName FullName
  cases hf : f.symName with
  | none => simp
  | some b =>
    have : (if path.isEmpty then b else "::".intercalate path ++ "::" ++ b) =
        "::".intercalate (path ++ [b]) := by
      cases path with
      | nil => simp
      | cons a as =>
        rw [String.intercalate_append_of_ne_nil (by simp) (by simp)]
        simp
    simp only [Option.some.injEq, this]
    constructor
    · rintro rfl; exact ⟨b, rfl, rfl⟩
    · rintro ⟨b', rfl, rfl⟩; rfl

theorem fullName_unique {f : Func} {path : List Sym} {n m : Sym} (h : FullName path f n)
    (h' : FullName path f m) : n = m := by
  rw [← fullName_iff] at h h'
  rw [h] at h'
  exact Option.some.inj h'

/-! ## Collection -/

theorem addCall_mem {caller : Sym} {g : List (Sym × Sym)} {o : BodyOp} {a b : Sym} :
    (a, b) ∈ addCall caller g o ↔ (a, b) ∈ g ∨ (a = caller ∧
      (o = .call (some b) ∨ o = .tailCall (some b) ∨ o = .constant (some b))) := by
  rcases o with (_ | c) | (_ | c) | (_ | c) | _ <;> simp [addCall, or_comm] <;>
    rw [eq_comm (a := b)]

theorem foldl_addCall {caller a b : Sym} : ∀ (body : List BodyOp) (g : List (Sym × Sym)),
    (a, b) ∈ body.foldl (addCall caller) g ↔ (a, b) ∈ g ∨ (a = caller ∧
      (.call (some b) ∈ body ∨ .tailCall (some b) ∈ body ∨ .constant (some b) ∈ body))
  | [], g => by simp
  | o :: os, g => by
    rw [List.foldl_cons, foldl_addCall os, addCall_mem]
    simp only [List.mem_cons]
    constructor
    · rintro ((h | ⟨h, h1 | h1 | h1⟩) | ⟨h, h1 | h1 | h1⟩) <;> simp_all
    · rintro (h | ⟨h, (h1 | h1) | (h1 | h1) | (h1 | h1)⟩) <;> simp_all

theorem foldl_extra {name base n : Sym} : ∀ (extras rs : List Sym),
    n ∈ extras.foldl (fun rs extra => if name = extra ∨ base = extra then name :: rs else rs) rs ↔
      n ∈ rs ∨ (n = name ∧ (name ∈ extras ∨ base ∈ extras))
  | [], rs => by simp
  | e :: es, rs => by
    rw [List.foldl_cons, foldl_extra es]
    by_cases h : name = e ∨ base = e
    · rw [if_pos h]
      simp only [List.mem_cons]
      constructor
      · rintro ((h1 | h1) | ⟨h1, h2 | h2⟩)
        · right; refine ⟨h1, ?_⟩
          rcases h with h | h <;> simp [h]
        · exact .inl h1
        · exact .inr ⟨h1, .inl (.inr h2)⟩
        · exact .inr ⟨h1, .inr (.inr h2)⟩
      · rintro (h1 | ⟨h1, h2⟩)
        · exact .inl (.inr h1)
        · exact .inl (.inl h1)
    · rw [if_neg h]
      simp only [List.mem_cons]
      constructor
      · rintro (h1 | ⟨h1, h2 | h2⟩)
        · exact .inl h1
        · exact .inr ⟨h1, .inl (.inr h2)⟩
        · exact .inr ⟨h1, .inr (.inr h2)⟩
      · rintro (h1 | ⟨h1, (h2 | h2) | (h2 | h2)⟩)
        · exact .inl h1
        · exact absurd (.inl h2) h
        · exact .inr ⟨h1, .inl h2⟩
        · exact absurd (.inr h2) h
        · exact .inr ⟨h1, .inr h2⟩

/-- An edge that stems from one of the leaves. -/
def Edge (L : List (List Sym × Leaf)) (a b : Sym) : Prop :=
  ∃ path f, (path, .func f) ∈ L ∧ FullName path f a ∧ Refers f b

/-- An entry point that stems from one of the leaves. -/
def EntryL (cfg : Config) (L : List (List Sym × Leaf)) (n : Sym) : Prop :=
  (∃ path f base, (path, .func f) ∈ L ∧ FullName path f n ∧ f.symName = some base ∧
    (base = "main" ∨ base = "_start" ∨ f.abi = true ∨ base ∈ cfg.extraEntryPoints ∨
      n ∈ cfg.extraEntryPoints)) ∨
  (∃ path, (path, .exportFunc (some n)) ∈ L)

theorem edge_append {L M : List (List Sym × Leaf)} {a b : Sym} :
    Edge (L ++ M) a b ↔ Edge L a b ∨ Edge M a b := by
  unfold Edge
  constructor
  · rintro ⟨p, f, h, h1, h2⟩
    rcases List.mem_append.1 h with h | h
    · exact .inl ⟨p, f, h, h1, h2⟩
    · exact .inr ⟨p, f, h, h1, h2⟩
  · rintro (⟨p, f, h, h1, h2⟩ | ⟨p, f, h, h1, h2⟩)
    · exact ⟨p, f, List.mem_append_left _ h, h1, h2⟩
    · exact ⟨p, f, List.mem_append_right _ h, h1, h2⟩

theorem entry_append {cfg : Config} {L M : List (List Sym × Leaf)} {n : Sym} :
    EntryL cfg (L ++ M) n ↔ EntryL cfg L n ∨ EntryL cfg M n := by
  unfold EntryL
  constructor
  · rintro (⟨p, f, b, h, h1⟩ | ⟨p, h⟩)
    · rcases List.mem_append.1 h with h | h
      · exact .inl (.inl ⟨p, f, b, h, h1⟩)
      · exact .inr (.inl ⟨p, f, b, h, h1⟩)
    · rcases List.mem_append.1 h with h | h
      · exact .inl (.inr ⟨p, h⟩)
      · exact .inr (.inr ⟨p, h⟩)
  · rintro ((⟨p, f, b, h, h1⟩ | ⟨p, h⟩) | (⟨p, f, b, h, h1⟩ | ⟨p, h⟩))
    · exact .inl ⟨p, f, b, List.mem_append_left _ h, h1⟩
    · exact .inr ⟨p, List.mem_append_left _ h⟩
    · exact .inl ⟨p, f, b, List.mem_append_right _ h, h1⟩
    · exact .inr ⟨p, List.mem_append_right _ h⟩

theorem analyzeFunc_edges {cfg : Config} {path : List Sym} {p : Pass} {f : Func} {a b : Sym} :
    (a, b) ∈ (analyzeFunc cfg path p f).callGraph ↔
      (a, b) ∈ p.callGraph ∨ Edge [(path, .func f)] a b := by
  unfold analyzeFunc
  cases h : extractFuncName f path with
  | none =>
    simp only []
    constructor
    · exact .inl
    · rintro (h' | ⟨q, g, hm, hn, _⟩)
      · exact h'
      · simp only [List.mem_singleton, Prod.mk.injEq, Leaf.func.injEq] at hm
        obtain ⟨rfl, rfl⟩ := hm
        rw [← fullName_iff, h] at hn
        cases hn
  | some name =>
    simp only []
    rw [foldl_addCall]
    refine or_congr_right ⟨?_, ?_⟩
    · rintro ⟨rfl, hr⟩
      exact ⟨path, f, by simp, fullName_iff.1 h, hr⟩
    · rintro ⟨q, g, hm, hn, hr⟩
      simp only [List.mem_singleton, Prod.mk.injEq, Leaf.func.injEq] at hm
      obtain ⟨rfl, rfl⟩ := hm
      exact ⟨fullName_unique hn (fullName_iff.1 h), hr⟩

theorem analyzeFunc_roots {cfg : Config} {path : List Sym} {p : Pass} {f : Func} {n : Sym} :
    n ∈ (analyzeFunc cfg path p f).roots ↔ n ∈ p.roots ∨ EntryL cfg [(path, .func f)] n := by
  unfold analyzeFunc
  cases h : extractFuncName f path with
  | none =>
    simp only []
    constructor
    · exact .inl
    · rintro (h' | (⟨q, g, b, hm, hn, _⟩ | ⟨q, hm⟩))
      · exact h'
      · simp only [List.mem_singleton, Prod.mk.injEq, Leaf.func.injEq] at hm
        obtain ⟨rfl, rfl⟩ := hm
        rw [← fullName_iff, h] at hn
        cases hn
      · simp at hm
  | some name =>
    have hn := fullName_iff.1 h
    obtain ⟨base, hb, -⟩ := id hn
    simp only [hb, Option.getD_some]
    rw [foldl_extra]
    have e1 : ∀ (c : Prop) [Decidable c] (rs : List Sym),
        n ∈ (if c then name :: rs else rs) ↔ n ∈ rs ∨ (n = name ∧ c) := by
      intro c _ rs
      by_cases hc : c
      · simp [hc, or_comm]
      · simp [hc]
    rw [e1, e1]
    constructor
    · rintro (((h1 | ⟨rfl, h1⟩) | ⟨rfl, h1⟩) | ⟨rfl, h1⟩)
      · exact .inl h1
      · refine .inr (.inl ⟨path, f, base, by simp, hn, hb, ?_⟩)
        rcases h1 with h1 | h1
        · exact .inl h1
        · exact .inr (.inl h1)
      · exact .inr (.inl ⟨path, f, base, by simp, hn, hb, .inr (.inr (.inl h1))⟩)
      · refine .inr (.inl ⟨path, f, base, by simp, hn, hb, .inr (.inr (.inr ?_))⟩)
        rcases h1 with h1 | h1
        · exact .inr h1
        · exact .inl h1
    · rintro (h1 | (⟨q, g, b, hm, hn', hb', h1⟩ | ⟨q, hm⟩))
      · exact .inl (.inl (.inl h1))
      · simp only [List.mem_singleton, Prod.mk.injEq, Leaf.func.injEq] at hm
        obtain ⟨rfl, rfl⟩ := hm
        rw [hb] at hb'
        cases hb'
        have := fullName_unique hn' hn
        subst this
        rcases h1 with h1 | h1 | h1 | h1 | h1
        · exact .inl (.inl (.inr ⟨rfl, .inl h1⟩))
        · exact .inl (.inl (.inr ⟨rfl, .inr h1⟩))
        · exact .inl (.inr ⟨rfl, h1⟩)
        · exact .inr ⟨rfl, .inr h1⟩
        · exact .inr ⟨rfl, .inl h1⟩
      · simp at hm

theorem edge_skip {path : List Sym} {l : Leaf} (hl : ∀ f, l ≠ .func f) {a b : Sym} :
    ¬ Edge [(path, l)] a b := by
  rintro ⟨q, f, hm, -⟩
  simp only [List.mem_singleton, Prod.mk.injEq] at hm
  exact hl f hm.2.symm

theorem edge_cons {x : List Sym × Leaf} {L : List (List Sym × Leaf)} {a b : Sym} :
    Edge (x :: L) a b ↔ Edge [x] a b ∨ Edge L a b := edge_append (L := [x])

theorem entry_cons {cfg : Config} {x : List Sym × Leaf} {L : List (List Sym × Leaf)} {n : Sym} :
    EntryL cfg (x :: L) n ↔ EntryL cfg [x] n ∨ EntryL cfg L n := entry_append (L := [x])


theorem analyze_edges {cfg : Config} (hr : cfg.recursive = true) {a b : Sym} :
    ∀ (m : Items) (path : List Sym) (p : Pass), (a, b) ∈ (analyze cfg path p m).callGraph ↔
      (a, b) ∈ p.callGraph ∨ Edge (leaves path m) a b
  | .nil, path, p => by simp [analyze, leaves, Edge]
  | .func f rest, path, p => by
    rw [analyze, analyze_edges hr rest, analyzeFunc_edges, leaves, edge_cons (L := leaves path rest),
      or_assoc]
  | .exportFunc (some t) rest, path, p => by
    rw [analyze, analyze_edges hr rest, leaves, edge_cons (L := leaves path rest)]
    simp [edge_skip]
  | .exportFunc none rest, path, p => by
    rw [analyze, analyze_edges hr rest, leaves, edge_cons (L := leaves path rest)]
    simp [edge_skip]
  | .other i rest, path, p => by
    rw [analyze, analyze_edges hr rest, leaves, edge_cons (L := leaves path rest)]
    simp [edge_skip]
  | .module name inner rest, path, p => by
    rw [analyze, if_pos hr, analyze_edges hr rest, analyze_edges hr inner, leaves_module,
      edge_append, or_assoc]

theorem analyze_roots {cfg : Config} (hr : cfg.recursive = true) {n : Sym} :
    ∀ (m : Items) (path : List Sym) (p : Pass), n ∈ (analyze cfg path p m).roots ↔
      n ∈ p.roots ∨ EntryL cfg (leaves path m) n
  | .nil, path, p => by simp [analyze, leaves, EntryL]
  | .func f rest, path, p => by
    rw [analyze, analyze_roots hr rest, analyzeFunc_roots, leaves, entry_cons (L := leaves path rest),
      or_assoc]
  | .exportFunc (some t) rest, path, p => by
    rw [analyze, analyze_roots hr rest, leaves, entry_cons (L := leaves path rest), ← or_assoc]
    refine or_congr_left ?_
    simp [EntryL, or_comm]
  | .exportFunc none rest, path, p => by
    rw [analyze, analyze_roots hr rest, leaves, entry_cons (L := leaves path rest)]
    simp [EntryL]
  | .other i rest, path, p => by
    rw [analyze, analyze_roots hr rest, leaves, entry_cons (L := leaves path rest)]
    simp [EntryL]
  | .module name inner rest, path, p => by
    rw [analyze, if_pos hr, analyze_roots hr rest, analyze_roots hr inner, leaves_module,
      entry_append, or_assoc]

/-! ## Worklist -/

theorem mem_callees {g : List (Sym × Sym)} {a b : Sym} : b ∈ callees g a ↔ (a, b) ∈ g := by
  simp [callees]

theorem computeReachable_sound {g : List (Sym × Sym)} {P : Sym → Prop}
    (hstep : ∀ a b, (a, b) ∈ g → P a → P b) (reachable worklist : List Sym)
    (h1 : ∀ n ∈ reachable, P n) (h2 : ∀ n ∈ worklist, P n) :
    ∀ n ∈ computeReachable g reachable worklist, P n := by
  fun_induction computeReachable g reachable worklist with
  | case1 => exact h1
  | case2 reachable f rest hf ih => exact ih h1 fun n hn => h2 n (by simp [hn])
  | case3 reachable f rest hf reachable' ih =>
    have hf' : P f := h2 f (by simp)
    apply ih
    · intro n hn
      rcases List.mem_cons.1 hn with rfl | hn
      · exact hf'
      · exact h1 n hn
    · intro n hn
      rcases List.mem_append.1 hn with hn | hn
      · exact h2 n (by simp [hn])
      · exact hstep f n (mem_callees.1 (List.mem_filter.1 hn).1) hf'

theorem computeReachable_complete {g : List (Sym × Sym)} (reachable worklist : List Sym)
    (hinv : ∀ a b, (a, b) ∈ g → a ∈ reachable → b ∈ reachable ∨ b ∈ worklist) :
    (∀ n ∈ reachable, n ∈ computeReachable g reachable worklist) ∧
    (∀ n ∈ worklist, n ∈ computeReachable g reachable worklist) ∧
    (∀ a b, (a, b) ∈ g → a ∈ computeReachable g reachable worklist →
      b ∈ computeReachable g reachable worklist) := by
  fun_induction computeReachable g reachable worklist with
  | case1 reachable =>
    refine ⟨fun n h => h, fun n h => by simp at h, fun a b hab ha => ?_⟩
    rcases hinv a b hab ha with h | h
    · exact h
    · simp at h
  | case2 reachable f rest hf ih =>
    have := ih (by
      intro a b hab ha
      rcases hinv a b hab ha with h | h
      · exact .inl h
      · rcases List.mem_cons.1 h with rfl | h
        · exact .inl hf
        · exact .inr h)
    refine ⟨this.1, fun n hn => ?_, this.2.2⟩
    rcases List.mem_cons.1 hn with rfl | hn
    · exact this.1 n hf
    · exact this.2.1 n hn
  | case3 reachable f rest hf reachable' ih =>
    have := ih (by
      intro a b hab ha
      by_cases hb : b ∈ reachable'
      · exact .inl hb
      right
      rcases List.mem_cons.1 ha with rfl | ha
      · exact List.mem_append_right _ (List.mem_filter.2 ⟨mem_callees.2 hab, by simpa using hb⟩)
      · rcases hinv a b hab ha with h | h
        · exact absurd (List.mem_cons_of_mem _ h) hb
        · rcases List.mem_cons.1 h with rfl | h
          · exact absurd (List.mem_cons_self) hb
          · exact List.mem_append_left _ h)
    refine ⟨fun n hn => this.1 n (List.mem_cons_of_mem _ hn), fun n hn => ?_, this.2.2⟩
    rcases List.mem_cons.1 hn with rfl | hn
    · exact this.1 n List.mem_cons_self
    · exact this.2.1 n (List.mem_append_left _ hn)

/-- The set computed by a run. -/
def reachSet (cfg : Config) (m : Items) : List Sym :=
  computeReachable (analyze cfg [] ⟨[], []⟩ m).callGraph [] (analyze cfg [] ⟨[], []⟩ m).roots

theorem reachSet_iff {cfg : Config} (hr : cfg.recursive = true) {m : Items} {n : Sym} :
    n ∈ reachSet cfg m ↔ Reachable cfg m n := by
  constructor
  · refine computeReachable_sound (P := Reachable cfg m) ?_ [] _ (by simp) ?_ n
    · intro a b hab ha
      rw [analyze_edges hr] at hab
      rcases hab with h | ⟨q, f, hm, hn, hrf⟩
      · simp at h
      · exact .step ha hm hn hrf
    · intro n hn
      rw [analyze_roots hr] at hn
      rcases hn with h | h
      · simp at h
      · exact .entry h
  · intro h
    have hc := computeReachable_complete (g := (analyze cfg [] ⟨[], []⟩ m).callGraph) []
      (analyze cfg [] ⟨[], []⟩ m).roots (by simp)
    induction h with
    | entry h => exact hc.2.1 _ ((analyze_roots hr m [] _).2 (.inr h))
    | step _ hm hn hrf ih =>
      exact hc.2.2 _ _ ((analyze_edges hr m [] _).2 (.inr ⟨_, _, hm, hn, hrf⟩)) ih

/-! ## Filtering -/

/-- Whether a leaf is kept. -/
def keepLeaf (reachable : List Sym) : List Sym × Leaf → Bool
  | (path, .func f) =>
    match extractFuncName f path with
    | none => true
    | some n => decide (n ∈ reachable)
  | _ => true

theorem filter_leaves {cfg : Config} (hr : cfg.recursive = true) (reachable : List Sym) :
    ∀ (m : Items) (path : List Sym), leaves path (filterRegion cfg reachable path m).1 =
      (leaves path m).filter (keepLeaf reachable)
  | .nil, _ => rfl
  | .func f rest, path => by
    have ih := filter_leaves hr reachable rest path
    cases he : extractFuncName f path with
    | none => simp [filterRegion, leaves, List.filter_cons, keepLeaf, he, ih]
    | some n =>
      by_cases hn : n ∈ reachable <;>
        simp [filterRegion, leaves, List.filter_cons, keepLeaf, he, hn, ih]
  | .exportFunc t rest, path => by
    simp [filterRegion, leaves, List.filter_cons, keepLeaf, filter_leaves hr reachable rest path]
  | .other i rest, path => by
    simp [filterRegion, leaves, List.filter_cons, keepLeaf, filter_leaves hr reachable rest path]
  | .module name inner rest, path => by
    simp only [filterRegion, if_pos hr, leaves_module, List.filter_append,
      filter_leaves hr reachable rest path,
      filter_leaves hr reachable inner (extendModulePath name path)]

/-- The names removed are the names of the leaves removed. -/
def removedName (reachable : List Sym) : List Sym × Leaf → Option Sym
  | (path, .func f) =>
    match extractFuncName f path with
    | none => none
    | some n => if n ∈ reachable then none else some n
  | _ => none

theorem filter_removed {cfg : Config} (hr : cfg.recursive = true) (reachable : List Sym) :
    ∀ (m : Items) (path : List Sym), (filterRegion cfg reachable path m).2 =
      (leaves path m).filterMap (removedName reachable)
  | .nil, _ => rfl
  | .func f rest, path => by
    have ih := filter_removed hr reachable rest path
    cases he : extractFuncName f path with
    | none => simp [filterRegion, leaves, List.filterMap_cons, removedName, he, ih]
    | some n =>
      by_cases hn : n ∈ reachable <;>
        simp [filterRegion, leaves, List.filterMap_cons, removedName, he, hn, ih]
  | .exportFunc t rest, path => by
    simp [filterRegion, leaves, List.filterMap_cons, removedName, filter_removed hr reachable rest path]
  | .other i rest, path => by
    simp [filterRegion, leaves, List.filterMap_cons, removedName, filter_removed hr reachable rest path]
  | .module name inner rest, path => by
    simp only [filterRegion, if_pos hr, leaves_module, List.filterMap_append,
      filter_removed hr reachable rest path,
      filter_removed hr reachable inner (extendModulePath name path)]

theorem keepLeaf_iff {cfg : Config} (hr : cfg.recursive = true) {m : Items}
    {l : List Sym × Leaf} : keepLeaf (reachSet cfg m) l = true ↔ Needed cfg m l := by
  rcases l with ⟨path, f | t | i⟩
  · simp only [keepLeaf, Needed]
    cases h : extractFuncName f path with
    | none =>
      simp only [true_iff]
      intro n hn
      rw [← fullName_iff, h] at hn
      cases hn
    | some n =>
      simp only [decide_eq_true_eq, reachSet_iff hr]
      constructor
      · intro hn k hk
        rw [fullName_unique hk (fullName_iff.1 h)]
        exact hn
      · intro hn
        exact hn n (fullName_iff.1 h)
  · simp [keepLeaf, Needed]
  · simp [keepLeaf, Needed]

theorem run_leaves {cfg : Config} (hr : cfg.recursive = true) (m : Items) :
    leaves [] (run cfg m).1 = (leaves [] m).filter (keepLeaf (reachSet cfg m)) :=
  filter_leaves hr _ m []

theorem reachable_run {cfg : Config} (hr : cfg.recursive = true) {m : Items} {n : Sym} :
    Reachable cfg (run cfg m).1 n ↔ Reachable cfg m n := by
  have hmem : ∀ l, l ∈ leaves [] (run cfg m).1 ↔ l ∈ leaves [] m ∧ Needed cfg m l := by
    intro l
    rw [run_leaves hr, List.mem_filter, keepLeaf_iff hr]
  have hentry : ∀ n, Entry cfg (run cfg m).1 n ↔ Entry cfg m n := by
    intro n
    constructor
    · rintro (⟨p, f, b, h, h1⟩ | ⟨p, h⟩)
      · exact .inl ⟨p, f, b, ((hmem _).1 h).1, h1⟩
      · exact .inr ⟨p, ((hmem _).1 h).1⟩
    · intro he
      rcases id he with ⟨p, f, b, h, h1⟩ | ⟨p, h⟩
      · refine .inl ⟨p, f, b, (hmem _).2 ⟨h, ?_⟩, h1⟩
        intro k hk
        rw [fullName_unique hk h1.1]
        exact .entry he
      · exact .inr ⟨p, (hmem _).2 ⟨h, trivial⟩⟩
  constructor
  · intro h
    induction h with
    | entry h => exact .entry ((hentry _).1 h)
    | step _ hm hn hrf ih => exact .step ih ((hmem _).1 hm).1 hn hrf
  · intro h
    induction h with
    | entry h => exact .entry ((hentry _).2 h)
    | step hc hm hn hrf ih =>
      refine .step ih ((hmem _).2 ⟨hm, ?_⟩) hn hrf
      intro k hk
      rw [fullName_unique hk hn]
      exact hc

end Verif.GlobalDce
