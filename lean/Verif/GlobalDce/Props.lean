import Verif.GlobalDce.Proofs
/-!
# C18: unused-function elimination keeps everything reachable

All theorems are about the recursive mode, which is the default and the one the compiler uses.
-/
namespace Verif.GlobalDce

/-- A module: `main` calls `a`, `a` takes `n::b` as a value, `n::b` calls itself; `c` calls `d` and
is not reachable; `e` is exported. -/
def exModule : Items :=
  .func ⟨some "main", false, [.call (some "a"), .other]⟩
  (.func ⟨some "a", false, [.constant (some "n::b")]⟩
  (.func ⟨some "c", false, [.tailCall (some "d")]⟩
  (.func ⟨some "d", false, []⟩
  (.func ⟨some "e", false, []⟩
  (.exportFunc (some "e")
  (.module (some "n") (.func ⟨some "b", false, [.call (some "n::b")]⟩
    (.func ⟨some "a", false, []⟩ .nil))
  (.other 3 .nil)))))))

def exCfg : Config := ⟨[], true⟩

/-- Exactly the operations that have to stay are left, in their order: everything but the functions
with a name that is not reachable from an entry point. -/
theorem C18_exact (cfg : Config) (hr : cfg.recursive = true) (m : Items) :
    ∃ keep : List Sym × Leaf → Bool, (∀ l, keep l = true ↔ Needed cfg m l) ∧
      leaves [] (run cfg m).1 = (leaves [] m).filter keep :=
  ⟨_, fun _ => keepLeaf_iff hr, run_leaves hr m⟩

/-- A function reachable from an entry point through calls and references is never removed. -/
theorem C18_reachable_kept (cfg : Config) (hr : cfg.recursive = true) (m : Items)
    {path : List Sym} {f : Func} {n : Sym} (hf : (path, .func f) ∈ leaves [] m)
    (hn : FullName path f n) (h : Reachable cfg m n) :
    (path, .func f) ∈ leaves [] (run cfg m).1 := by
  rw [run_leaves hr, List.mem_filter, keepLeaf_iff hr]
  refine ⟨hf, fun k hk => ?_⟩
  rw [fullName_unique hk hn]
  exact h

/-- `n::b` is reachable only through a call and then a reference from a nested module's sibling. -/
example : ([], .func ⟨some "a", false, [.constant (some "n::b")]⟩) ∈ leaves [] exModule ∧
    (["n"], .func ⟨some "b", false, [.call (some "n::b")]⟩) ∈ leaves [] exModule ∧
    FullName ["n"] ⟨some "b", false, [.call (some "n::b")]⟩ "n::b" ∧
    Reachable exCfg exModule "n::b" := by
  have h1 : Reachable exCfg exModule "main" :=
    .entry (.inl ⟨[], ⟨some "main", false, [.call (some "a"), .other]⟩, "main", by decide,
      ⟨"main", rfl, rfl⟩, rfl, .inl rfl⟩)
  have h2 : Reachable exCfg exModule "a" := .step (path := [])
    (f := ⟨some "main", false, [.call (some "a"), .other]⟩) h1 (by decide) ⟨"main", rfl, rfl⟩
    (.inl (by decide))
  refine ⟨by decide, by decide, ⟨"b", rfl, by decide⟩, ?_⟩
  exact .step (path := []) (f := ⟨some "a", false, [.constant (some "n::b")]⟩) h2 (by decide)
    ⟨"a", rfl, rfl⟩ (.inr (.inr (by decide)))

example : (run exCfg exModule).2 = ["c", "d", "n::a"] := by decide +kernel

/-- The names reported as removed are those of the unreachable functions. -/
theorem C18_removed_iff (cfg : Config) (hr : cfg.recursive = true) (m : Items) (n : Sym) :
    n ∈ (run cfg m).2 ↔
      (∃ path f, (path, .func f) ∈ leaves [] m ∧ FullName path f n) ∧ ¬ Reachable cfg m n := by
  have : (run cfg m).2 = (leaves [] m).filterMap (removedName (reachSet cfg m)) :=
    filter_removed hr _ m []
  rw [this, List.mem_filterMap]
  constructor
  · rintro ⟨⟨path, f | t | i⟩, hl, hn⟩
    · simp only [removedName] at hn
      cases he : extractFuncName f path with
      | none => simp [he] at hn
      | some k =>
        simp only [he] at hn
        split at hn
        · cases hn
        · rename_i hk
          cases hn
          exact ⟨⟨path, f, hl, fullName_iff.1 he⟩, fun h => hk ((reachSet_iff hr).2 h)⟩
    · cases hn
    · cases hn
  · rintro ⟨⟨path, f, hl, hn⟩, hnr⟩
    refine ⟨(path, .func f), hl, ?_⟩
    simp only [removedName, fullName_iff.2 hn]
    rw [if_neg fun h => hnr ((reachSet_iff hr).1 h)]

/-- Removal leaves reachability as it was. -/
theorem C18_reachability_kept (cfg : Config) (hr : cfg.recursive = true) (m : Items) (n : Sym) :
    Reachable cfg (run cfg m).1 n ↔ Reachable cfg m n := reachable_run hr

theorem filter_nothing (cfg : Config) (reachable : List Sym) : ∀ (m : Items) (path : List Sym),
    (filterRegion cfg reachable path m).2 = [] → (filterRegion cfg reachable path m).1 = m
  | .nil, _, _ => rfl
  | .func f rest, path, h => by
    have ih := filter_nothing cfg reachable rest path
    cases he : extractFuncName f path with
    | none => simp [filterRegion, he] at h ⊢; exact ih h
    | some n =>
      by_cases hn : n ∈ reachable
      · simp [filterRegion, he, hn] at h ⊢; exact ih h
      · simp [filterRegion, he, hn] at h
  | .exportFunc t rest, path, h => by
    simp only [filterRegion] at h ⊢
    rw [filter_nothing cfg reachable rest path h]
  | .other i rest, path, h => by
    simp only [filterRegion] at h ⊢
    rw [filter_nothing cfg reachable rest path h]
  | .module name inner rest, path, h => by
    simp only [filterRegion] at h ⊢
    split at h
    · rename_i hc
      rw [if_pos hc]
      simp only [List.append_eq_nil_iff] at h
      simp only []
      rw [filter_nothing cfg reachable rest path h.2,
        filter_nothing cfg reachable inner _ h.1]
    · rename_i hc
      rw [if_neg hc]
      simp only [] at h ⊢
      rw [filter_nothing cfg reachable rest path h]

/-- Running the pass again removes nothing. -/
theorem C18_idempotent (cfg : Config) (hr : cfg.recursive = true) (m : Items) :
    run cfg (run cfg m).1 = ((run cfg m).1, []) := by
  have h0 : (run cfg (run cfg m).1).2 = [] := by
    rw [List.eq_nil_iff_forall_not_mem]
    intro n hn
    rw [C18_removed_iff cfg hr] at hn
    obtain ⟨⟨path, f, hl, hf⟩, hnr⟩ := hn
    rw [run_leaves hr, List.mem_filter, keepLeaf_iff hr] at hl
    exact hnr ((reachable_run hr).2 (hl.2 n hf))
  have h1 : (run cfg (run cfg m).1).1 = (run cfg m).1 := filter_nothing cfg _ _ [] h0
  exact Prod.ext h1 h0

/-- In the non-recursive mode (not used by the compiler) functions of nested modules are kept but
their calls are not seen: `helper`, called from an exported function of a nested module, is
removed. -/
theorem C18_nonrecursive_violated :
    ∃ m : Items, Reachable ⟨[], false⟩ m "helper" ∧
      "helper" ∈ (run ⟨[], false⟩ m).2 := by
  refine ⟨.func ⟨some "helper", false, []⟩ (.module (some "n")
    (.func ⟨some "main", false, [.call (some "helper")]⟩ .nil) .nil), ?_, by decide +kernel⟩
  refine .step (caller := "n::main") (path := ["n"])
    (f := ⟨some "main", false, [.call (some "helper")]⟩)
    (.entry (.inl ⟨["n"], ⟨some "main", false, [.call (some "helper")]⟩, "main", by decide,
      ⟨"main", rfl, by decide⟩, rfl, .inl rfl⟩)) (by decide) ⟨"main", rfl, by decide⟩
    (.inl (by decide))

end Verif.GlobalDce
