import Verif.CallGraph.Proofs
/-!
# C19 — recursive functions are found exactly
-/
namespace Verif.CallGraph
open Relation

/-- main ↔ even/odd are mutually recursive, `loop` calls itself, `leaf` calls an external function. -/
def sample : Graph :=
  { funcs := ["main", "even", "odd", "loop", "leaf"]
    edges := fun v => match v with
      | "main" => ["even", "loop"] | "even" => ["odd"] | "odd" => ["even", "leaf"]
      | "loop" => ["loop", "leaf"] | "leaf" => ["ext"] | _ => [] }

/-- **C19.** For every call graph and every iteration order of its hash tables, the component
analysis terminates without panicking, numbers exactly the defined functions, and gives two of them
the same number exactly when each can reach the other. -/
theorem C19_components (g : Graph) : ∃ ids, tarjanScc g = some ids ∧
    (∀ v, (∃ k, ids v = some k) ↔ v ∈ g.funcs) ∧
    (∀ v ∈ g.funcs, ∀ w ∈ g.funcs, ids v = ids w ↔ (Reaches g v w ∧ Reaches g w v)) := by
  obtain ⟨ids, h1, h2, h3⟩ := tarjan_ok g
  exact ⟨ids, h1, fun v => by rw [← h2 v, Option.ne_none_iff_exists'], h3⟩

example : (tarjanScc sample).map (fun f => ["main", "even", "odd", "loop", "leaf", "ext"].map f) =
    some [some 3, some 1, some 1, some 2, some 0, none] := by decide +kernel

theorem onCycle_of_mutual {g : Graph} {v w : Sym} (hne : v ≠ w) (h1 : Reaches g v w)
    (h2 : Reaches g w v) : OnCycle g v := by
  rcases reflTransGen_iff_eq_or_transGen.mp h1 with h | h
  · exact absurd h.symm hne
  · exact h.trans_left h2

/-- **C19.** A function is reported as recursive exactly when it lies on a cycle of calls (its own
calls, or mutual recursion of any length). -/
theorem C19_recursive_exact (g : Graph) (hnd : g.funcs.Nodup) :
    ∃ rs, recursiveFunctions g = some rs ∧ ∀ v, v ∈ rs ↔ OnCycle g v := by
  obtain ⟨ids, h1, h2, h3⟩ := tarjan_ok g
  refine ⟨_, by simp only [recursiveFunctions, h1, Option.bind_eq_bind, Option.bind_some]; rfl, ?_⟩
  intro v
  rw [List.mem_filter]
  simp only [Bool.or_eq_true, decide_eq_true_eq]
  constructor
  · rintro ⟨hv, hc | hself⟩
    · -- another member
      have : ∃ w ∈ g.funcs.filter (fun w => ids w = ids v), w ≠ v := by
        by_contra hall
        push Not at hall
        have hnd' := hnd.filter (fun w => decide (ids w = ids v))
        match hl : g.funcs.filter (fun w => decide (ids w = ids v)) with
        | [] => rw [hl] at hc; simp at hc
        | [a] => rw [hl] at hc; simp at hc
        | a :: b :: l =>
          rw [hl] at hall hnd'
          have ha := hall a (by simp)
          have hb := hall b (by simp)
          subst ha; rw [hb] at hnd'
          simp at hnd'
      obtain ⟨w, hw, hne⟩ := this
      rw [List.mem_filter] at hw
      have hm := (h3 w hw.1 v hv).1 (by simpa using hw.2)
      exact onCycle_of_mutual (Ne.symm hne) hm.2 hm.1
    · exact TransGen.single ⟨hv, hself, hv⟩
  · intro hcyc
    obtain ⟨w, hvw, hwv⟩ := TransGen.head'_iff.mp hcyc
    refine ⟨hvw.1, ?_⟩
    by_cases hne : w = v
    · subst hne; exact Or.inr hvw.2.1
    · left
      have he := (h3 w hvw.2.2 v hvw.1).2 ⟨hwv, ReflTransGen.single hvw⟩
      have hmw : w ∈ g.funcs.filter (fun w => decide (ids w = ids v)) := by
        rw [List.mem_filter]; exact ⟨hvw.2.2, by simpa using he⟩
      have hmv : v ∈ g.funcs.filter (fun w => decide (ids w = ids v)) := by
        rw [List.mem_filter]; exact ⟨hvw.1, by simp⟩
      match hl : g.funcs.filter (fun w => decide (ids w = ids v)) with
      | [] => rw [hl] at hmw; simp at hmw
      | [a] => rw [hl] at hmw hmv; simp at hmw hmv; exact absurd (hmw.trans hmv.symm) hne
      | a :: b :: l => simp

example : recursiveFunctions sample = some ["even", "odd", "loop"] ∧ sample.funcs.Nodup := by decide +kernel

/-- **C19.** The call graph of a module has an edge from `f` to `c` exactly when the body of a
function named `f` calls, tail-calls or takes a reference to `c`, at any nesting depth of modules. -/
theorem C19_edges_exact (m : Items) (f c : Sym) :
    c ∈ (buildCallGraph m).graph.edges f ↔
      ∃ body, Defines [] m f body ∧ ∃ o ∈ body, Mentions c o := by
  have h := (analyzeRegion_spec m [] ⟨[], [], [], []⟩).1 (f, c)
  simp only [List.not_mem_nil, false_or] at h
  rw [← h]
  simp [Built.graph, buildCallGraph]

/-- **C19.** The defined functions, the functions whose reference is taken, and the number of direct
call sites of every function are those of the module. -/
theorem C19_graph_exact (m : Items) :
    (∀ f, f ∈ (buildCallGraph m).graph.funcs ↔ ∃ body, Defines [] m f body) ∧
    (∀ c, c ∈ (buildCallGraph m).constantRefs ↔
      ∃ f body, Defines [] m f body ∧ BodyOp.constant (some c) ∈ body) ∧
    (∀ c, (buildCallGraph m).callSites.count c = callSiteCount c m) := by
  obtain ⟨_, h2, h3, h4⟩ := analyzeRegion_spec m [] ⟨[], [], [], []⟩
  refine ⟨fun f => ?_, fun c => ?_, fun c => ?_⟩
  · have := h2 f; simp only [List.not_mem_nil, false_or] at this
    simpa [Built.graph, buildCallGraph] using this
  · have := h3 c; simpa [buildCallGraph] using this
  · have := h4 c; simpa [buildCallGraph] using this

/-- **C19.** End to end: the functions reported as recursive for a module are those whose bodies
lead back to them through one or more calls or references between functions of the module. -/
theorem C19_module (m : Items) : ∃ rs, recursiveFunctions (buildCallGraph m).graph = some rs ∧
    ∀ v, v ∈ rs ↔ TransGen (fun a b => (∃ body, Defines [] m a body ∧ ∃ o ∈ body, Mentions b o) ∧
      ∃ body, Defines [] m b body) v v := by
  obtain ⟨rs, h1, h2⟩ := C19_recursive_exact (buildCallGraph m).graph (List.nodup_dedup _)
  refine ⟨rs, h1, fun v => ?_⟩
  rw [h2 v, OnCycle]
  have : Calls (buildCallGraph m).graph = (fun a b => (∃ body, Defines [] m a body ∧
      ∃ o ∈ body, Mentions b o) ∧ ∃ body, Defines [] m b body) := by
    funext a b
    apply propext
    unfold Calls
    rw [(C19_graph_exact m).1 a, C19_edges_exact, (C19_graph_exact m).1 b]
    constructor
    · rintro ⟨_, h, h'⟩; exact ⟨h, h'⟩
    · rintro ⟨⟨body, h, h'⟩, h''⟩; exact ⟨⟨body, h⟩, ⟨body, h, h'⟩, h''⟩
  rw [this]

/-- A module with a nested module, mutual recursion through a tail call, recursion through a function
reference, and an external call. -/
def sampleModule : Items :=
  .func (some "main") [.other, .call (some "even"), .call (some "even")] <|
  .func (some "even") [.tailCall (some "odd"), .call (some "print")] <|
  .module (some "M") (.func (some "f") [.constant (some "M::f")] .nil) <|
  .func (some "odd") [.call (some "even")] <| .other .nil

example : recursiveFunctions (buildCallGraph sampleModule).graph = some ["odd", "M::f", "even"] ∧
    (buildCallGraph sampleModule).callSites.count "even" = 3 ∧
    (buildCallGraph sampleModule).constantRefs = ["M::f"] := by decide +kernel

example : Defines [] sampleModule "M::f" [.constant (some "M::f")] :=
  .skipFunc <| .skipFunc <| .inNamed <| .nested (by decide)

end Verif.CallGraph
