import Verif.NameEnv.Proofs
/-!
# Properties C34 and C44: name lookup
-/
namespace Verif.NameEnv

/-- C34: after any history of definitions, imports, members and prelude merges (traversed in any
order), an unqualified name means its latest definition, else its latest explicit import, else the
definition of the first merged prelude that has one. -/
theorem C34_lookup {e : Env} {h : List Event} (hs : Steps .new h e) (n : Symbol) :
    e.lookup n = ((latest (definitionOf n) h).or (latest (importOf n) h)).or
      (first (preludeOf n) h) := by
  rw [steps_lookup hs n]
  simp [Env.new, Map.empty, Option.or_assoc]

/-- C34: a qualified name means the latest member added under it, else the first merged prelude's. -/
theorem C34_lookup_qualified {e : Env} {h : List Event} (hs : Steps .new h e) (ns n : Symbol) :
    e.lookupQualified ns n = (latest (memberOf ns n) h).or (first (preludeMemberOf ns n) h) := by
  rw [steps_qualified hs ns n]
  simp [Env.new, Map.empty]

/-- C34: merging a prelude never changes the meaning of a name that has one, and gives every other
name the prelude's meaning. -/
theorem C34_merge (e : Env) {l l2 d m} (h : Lists l d) (h2 : Lists2 l2 m) (ns n : Symbol) :
    (∀ b, e.lookup n = some b → (e.merge l l2).lookup n = some b) ∧
    (e.lookup n = none → (e.merge l l2).lookup n = d n) ∧
    (∀ b, e.lookupQualified ns n = some b → (e.merge l l2).lookupQualified ns n = some b) ∧
    (e.lookupQualified ns n = none → (e.merge l l2).lookupQualified ns n = m ns n) := by
  obtain ⟨a1, a2, a3, a4⟩ := merge_eq e h h2
  simp only [lookup_eq, a1, a3, Env.lookupQualified, a4]
  refine ⟨?_, ?_, ?_, ?_⟩
  · intro b hb; cases hd : e.definitions n <;> cases hi : e.imports n <;> simp_all
  · intro hb; cases hd : e.definitions n <;> cases hi : e.imports n <;> simp_all
  · intro b hb; rw [hb]; rfl
  · intro hb; rw [hb]; rfl

/-- A user program that defines `map` itself, imports `read` twice, and gets `print` from the
prelude, which also defines `map` and `read`. -/
example : ∃ e : Env, Steps .new
    [.import_ "read" (.function "old::read"), .define "map" (.function "map"),
     .merge (fun n => if n = "map" then some (.function "p::map") else
       if n = "print" then some (.function "p::print") else
       if n = "read" then some (.function "p::read") else none) (fun _ => .empty),
     .import_ "read" (.function "new::read")] e ∧
    e.lookup "map" = some (.function "map") ∧ e.lookup "print" = some (.function "p::print") ∧
    e.lookup "read" = some (.function "new::read") ∧ e.lookup "other" = none := by
  refine ⟨_, .cons (.import_ _ _ _) (.cons (.define _ _ _) (.cons (.merge _ _ _
    [("read", .function "p::read"), ("print", .function "p::print"), ("map", .function "p::map")] []
    ⟨by decide, ?_⟩ ⟨by decide, ?_⟩) (.cons (.import_ _ _ _) (.nil _)))), ?_⟩
  · intro k b
    by_cases h1 : k = "map"
    · subst h1; simp; exact eq_comm
    · by_cases h2 : k = "print"
      · subst h2; simp; exact eq_comm
      · by_cases h3 : k = "read"
        · subst h3; simp; exact eq_comm
        · simp [h1, h2, h3]
  · simp [Map.empty]
  · decide

/-! ## Scopes -/

/-- C34: a simple name means the innermost local variable of that name; without one the member of
the current nested module; without one what the module environment says; without one the operation
injected by the effect annotation. A qualified name means exactly the member. -/
theorem C34_resolve_name (r : Resolver) (n : Symbol) :
    (∀ pre s post id, r.scopes = pre ++ s :: post → (∀ s' ∈ pre, s' n = none) → s n = some id →
      r.resolveName (.simple n) = some (.local_ id)) ∧
    ((∀ s ∈ r.scopes, s n = none) →
      (r.modulePath = [] → ∀ b, r.env.lookup n = some b →
        r.resolveName (.simple n) = some (.binding b)) ∧
      (r.modulePath ≠ [] → ∀ b, r.env.lookupQualified ("::".intercalate r.modulePath) n = some b →
        r.resolveName (.simple n) = some (.binding b)) ∧
      (r.env.lookupQualified ("::".intercalate r.modulePath) n = none → ∀ b, r.env.lookup n = some b →
        r.resolveName (.simple n) = some (.binding b)) ∧
      (r.modulePath = [] ∨ r.env.lookupQualified ("::".intercalate r.modulePath) n = none →
        r.env.lookup n = none → r.resolveName (.simple n) = (r.effectOps n).map .binding)) ∧
    (∀ ns, r.resolveName (.qualified ns n) = (r.env.lookupQualified ns n).map .binding) := by
  have hsome : ∀ (pre : List (Map Nat)) s post id, (∀ s' ∈ pre, s' n = none) → s n = some id →
      lookupLocal (pre ++ s :: post) n = some id := by
    intro pre
    induction pre with
    | nil => intro s post id _ h; simp [lookupLocal, h]
    | cons a pre ih =>
      intro s post id h1 h2
      simp only [List.cons_append, lookupLocal, h1 a List.mem_cons_self]
      exact ih s post id (fun s' h => h1 s' (List.mem_cons_of_mem _ h)) h2
  have hnone : ∀ (ss : List (Map Nat)), (∀ s ∈ ss, s n = none) → lookupLocal ss n = none := by
    intro ss
    induction ss with
    | nil => intro _; rfl
    | cons a ss ih =>
      intro h
      simp only [lookupLocal, h a List.mem_cons_self]
      exact ih fun s hs => h s (List.mem_cons_of_mem _ hs)
  refine ⟨?_, ?_, fun ns => rfl⟩
  · intro pre s post id h1 h2 h3
    simp only [Resolver.resolveName, h1, hsome pre s post id h2 h3]
  · intro h
    have hl := hnone _ h
    have hj : join r.modulePath = "::".intercalate r.modulePath := rfl
    refine ⟨?_, ?_, ?_, ?_⟩
    · intro hm b hb
      simp [Resolver.resolveName, hl, hm, hb]
    · intro hm b hb
      simp [Resolver.resolveName, hl, hm, hj, hb]
    · intro hq b hb
      simp only [Resolver.resolveName, hl, hj, hq, ite_self, hb]
    · intro hq hb
      have : (if r.modulePath.isEmpty then none else r.env.lookupQualified (join r.modulePath) n)
          = none := by
        rcases hq with hq | hq
        · simp [hq]
        · rw [hj, hq, ite_self]
      simp only [Resolver.resolveName, hl, this, hb]

/-- C34: what happens inside a scope, however deeply it nests, is forgotten when it is left: names
mean what they meant before. Inside, a new local variable hides all others of its name and no other
name, and its identity is new. -/
theorem C34_scopes (r : Resolver) (n : Symbol) (hs : r.scopes ≠ []) :
    r.pushScope.popScope = r ∧
    (r.pushScope.bindLocal n).1.popScope.scopes = r.scopes ∧
    (r.bindLocal n).1.popScope.scopes = r.popScope.scopes ∧
    (r.bindLocal n).1.resolveName (.simple n) = some (.local_ (r.bindLocal n).2) ∧
    (∀ m, m ≠ n → (r.bindLocal n).1.resolveName (.simple m) = r.resolveName (.simple m)) ∧
    (∀ x, (r.pushScope).resolveName x = r.resolveName x) ∧
    (r.bindLocal n).2 < (r.bindLocal n).1.nextId ∧ r.nextId ≤ (r.bindLocal n).2 := by
  obtain ⟨s, ss, h⟩ := List.exists_cons_of_ne_nil hs
  refine ⟨rfl, ?_, ?_, ?_, ?_, ?_, ?_, ?_⟩
  · simp [Resolver.pushScope, Resolver.popScope, Resolver.bindLocal]
  · simp [Resolver.popScope, Resolver.bindLocal, h]
  · simp [Resolver.resolveName, Resolver.bindLocal, h, lookupLocal, Map.insert]
  · intro m hm
    simp [Resolver.resolveName, Resolver.bindLocal, h, lookupLocal, Map.insert, hm]
  · intro x
    cases x <;> simp [Resolver.resolveName, Resolver.pushScope, lookupLocal, Map.empty]
  · simp [Resolver.bindLocal]
  · simp [Resolver.bindLocal]

example : ((((Resolver.new .new).bindLocal "x").1.pushScope.bindLocal "x").1.bindLocal "y").1.resolveName
    (.simple "x") = some (.local_ 1) := by decide

/-! ## Imports -/

/-- C44: resolving the `use` declarations gives the same environment whatever order the imports (and
the members of the imported namespaces) are traversed in, provided no import is called like a
namespace that another import's path goes through. -/
theorem C44_use_imports_partial (e : Env) (so so' : Map Binding → List (Symbol × Binding))
    (l l' : List (Symbol × Binding)) (hl : Lists l e.imports) (hl' : Lists l' e.imports)
    (hso : ∀ ns, Lists (so (e.namespaces ns)) (e.namespaces ns))
    (hso' : ∀ ns, Lists (so' (e.namespaces ns)) (e.namespaces ns))
    (hind : ∀ n p n' p', e.imports n = some (.module p) → e.imports n' = some (.module p') →
      n ≠ "::".intercalate p' ∧ n ≠ "::".intercalate p'.dropLast) :
    resolveUseImports so e l = resolveUseImports so' e l' := by
  have go : ∀ (so : Map Binding → List (Symbol × Binding)) (l : List (Symbol × Binding)),
      (∀ ns, Lists (so (e.namespaces ns)) (e.namespaces ns)) → Lists l e.imports →
      (resolveUseImports so e l).definitions = e.definitions ∧
      (∀ x p b, e.imports x = some (.module p) → 2 ≤ p.length → found e p = some b →
        (resolveUseImports so e l).imports x = some b ∧
        (resolveUseImports so e l).usePaths x = some p ∧
        ∀ y, (resolveUseImports so e l).namespaces x y =
          (e.namespaces x y).or (e.namespaces (join p) y)) ∧
      (∀ x, (∀ p, e.imports x = some (.module p) → 2 ≤ p.length → found e p = none) →
        (resolveUseImports so e l).imports x = e.imports x ∧
        (resolveUseImports so e l).usePaths x = e.usePaths x ∧
        ∀ y, (resolveUseImports so e l).namespaces x y = e.namespaces x y) := by
    intro so l hso hl
    obtain ⟨r1, r2, r3⟩ := resolveFold hso _ e (nodup_moduleImports hl.1) (fun _ _ => ⟨rfl, rfl⟩)
      (fun _ _ => rfl) (fun d hd d' hd' => by
        obtain ⟨n, p⟩ := d
        obtain ⟨n', p'⟩ := d'
        exact hind n p n' p' ((hl.2 _ _).mp (mem_moduleImports.mp hd).1)
          ((hl.2 _ _).mp (mem_moduleImports.mp hd').1))
    refine ⟨r1, ?_, ?_⟩
    · intro x p b h1 h2 h3
      exact r2 x p b (mem_moduleImports.mpr ⟨(hl.2 _ _).mpr h1, h2⟩) h3
    · intro x hx
      refine r3 x fun p hp => ?_
      obtain ⟨h1, h2⟩ := mem_moduleImports.mp hp
      exact hx p ((hl.2 _ _).mp h1) h2
  obtain ⟨a1, a2, a3⟩ := go so l hso hl
  obtain ⟨b1, b2, b3⟩ := go so' l' hso' hl'
  have key : ∀ x, (resolveUseImports so e l).imports x = (resolveUseImports so' e l').imports x ∧
      (resolveUseImports so e l).usePaths x = (resolveUseImports so' e l').usePaths x ∧
      ∀ y, (resolveUseImports so e l).namespaces x y = (resolveUseImports so' e l').namespaces x y := by
    intro x
    by_cases h : ∃ p b, e.imports x = some (.module p) ∧ 2 ≤ p.length ∧ found e p = some b
    · obtain ⟨p, b, h1, h2, h3⟩ := h
      obtain ⟨c1, c2, c3⟩ := a2 x p b h1 h2 h3
      obtain ⟨d1, d2, d3⟩ := b2 x p b h1 h2 h3
      exact ⟨c1.trans d1.symm, c2.trans d2.symm, fun y => (c3 y).trans (d3 y).symm⟩
    · have h' : ∀ p, e.imports x = some (.module p) → 2 ≤ p.length → found e p = none := by
        intro p h1 h2
        cases hf : found e p with
        | none => rfl
        | some b => exact absurd ⟨p, b, h1, h2, hf⟩ h
      obtain ⟨c1, c2, c3⟩ := a3 x h'
      obtain ⟨d1, d2, d3⟩ := b3 x h'
      exact ⟨c1.trans d1.symm, c2.trans d2.symm, fun y => (c3 y).trans (d3 y).symm⟩
  have e1 : (resolveUseImports so e l).definitions = (resolveUseImports so' e l').definitions :=
    a1.trans b1.symm
  have e2 : (resolveUseImports so e l).imports = (resolveUseImports so' e l').imports :=
    funext fun x => (key x).1
  have e3 : (resolveUseImports so e l).usePaths = (resolveUseImports so' e l').usePaths :=
    funext fun x => (key x).2.1
  have e4 : (resolveUseImports so e l).namespaces = (resolveUseImports so' e l').namespaces :=
    funext fun x => funext fun y => (key x).2.2 y
  generalize resolveUseImports so e l = u at *
  generalize resolveUseImports so' e l' = v at *
  cases u; cases v
  simp_all

/-- C44: under the same condition, `use a::b::c` makes its name mean what `c` means in `a::b`, and the
name's namespace gains what `a::b::c` contains without losing or replacing anything; a `use` whose
path leads nowhere, and every other name, keeps its meaning. -/
theorem C44_use_meaning_partial (e : Env) (so : Map Binding → List (Symbol × Binding))
    (l : List (Symbol × Binding)) (hl : Lists l e.imports)
    (hso : ∀ ns, Lists (so (e.namespaces ns)) (e.namespaces ns))
    (hind : ∀ n p n' p', e.imports n = some (.module p) → e.imports n' = some (.module p') →
      n ≠ "::".intercalate p' ∧ n ≠ "::".intercalate p'.dropLast) :
    let e' := resolveUseImports so e l
    e'.definitions = e.definitions ∧
    (∀ name init last b, init ≠ [] → e.imports name = some (.module (init ++ [last])) →
      e.namespaces ("::".intercalate init) last = some b →
      e'.imports name = some b ∧ e'.usePaths name = some (init ++ [last]) ∧
      ∀ y, e'.namespaces name y =
        (e.namespaces name y).or (e.namespaces ("::".intercalate (init ++ [last])) y)) ∧
    (∀ name, (∀ init last, init ≠ [] → e.imports name = some (.module (init ++ [last])) →
        e.namespaces ("::".intercalate init) last = none) →
      e'.imports name = e.imports name ∧ e'.usePaths name = e.usePaths name ∧
      ∀ y, e'.namespaces name y = e.namespaces name y) := by
  obtain ⟨r1, r2, r3⟩ := resolveFold hso _ e (nodup_moduleImports hl.1) (fun _ _ => ⟨rfl, rfl⟩)
    (fun _ _ => rfl) (fun d hd d' hd' => by
      obtain ⟨n, p⟩ := d
      obtain ⟨n', p'⟩ := d'
      exact hind n p n' p' ((hl.2 _ _).mp (mem_moduleImports.mp hd).1)
        ((hl.2 _ _).mp (mem_moduleImports.mp hd').1))
  have hf : ∀ (init : List Symbol) (last : Symbol),
      found e (init ++ [last]) = e.namespaces ("::".intercalate init) last := by
    intro init last
    simp [found, join]
  refine ⟨r1, ?_, ?_⟩
  · intro x init last b h0 h1 h2
    refine r2 x _ b (mem_moduleImports.mpr ⟨(hl.2 _ _).mpr h1, ?_⟩) ((hf _ _).trans h2)
    have := List.length_pos_iff.mpr h0
    simp; omega
  · intro x hx
    refine r3 x fun p hp => ?_
    obtain ⟨h1, h2⟩ := mem_moduleImports.mp hp
    rcases List.eq_nil_or_concat p with rfl | ⟨init, last, rfl⟩
    · simp at h2
    · rw [List.concat_eq_append] at *
      rw [hf]
      refine hx init last ?_ ((hl.2 _ _).mp h1)
      rintro rfl; simp at h2

/-- The environment of `use abilities::Abort` and `use Abort::abort`. -/
def chained : Env :=
  { definitions := .empty
    imports := (Map.empty.insert "Abort" (.module ["abilities", "Abort"])).insert "abort"
      (.module ["Abort", "abort"])
    namespaces := fun ns =>
      if ns = "abilities" then Map.empty.insert "Abort" (.ability "abilities::Abort") else
      if ns = "abilities::Abort" then
        Map.empty.insert "abort" (.abilityOp "abilities::Abort" "abort" true) else .empty
    usePaths := .empty }

/-- Entries of the namespaces of `chained`. -/
def chainedOrder (m : Map Binding) : List (Symbol × Binding) :=
  (match m "Abort" with | some b => [("Abort", b)] | none => []) ++
  (match m "abort" with | some b => [("abort", b)] | none => [])

/-- C44 is false in general: with `use abilities::Abort` and `use Abort::abort`, the name `abort`
means the operation or an unresolved module path depending on the order in which the hash map of
imports happens to be traversed. -/
theorem C44_use_imports_violated : ∃ l l' : List (Symbol × Binding),
    Lists l chained.imports ∧ Lists l' chained.imports ∧
    (∀ ns, Lists (chainedOrder (chained.namespaces ns)) (chained.namespaces ns)) ∧
    (resolveUseImports chainedOrder chained l).lookup "abort" =
      some (.abilityOp "abilities::Abort" "abort" true) ∧
    (resolveUseImports chainedOrder chained l').lookup "abort" =
      some (.module ["Abort", "abort"]) := by
  refine ⟨[("Abort", .module ["abilities", "Abort"]), ("abort", .module ["Abort", "abort"])],
    [("abort", .module ["Abort", "abort"]), ("Abort", .module ["abilities", "Abort"])],
    ⟨by decide, ?_⟩, ⟨by decide, ?_⟩, ?_, by decide, by decide⟩
  · intro k b
    by_cases h1 : k = "Abort"
    · subst h1; simp [chained, Map.insert, Map.empty, eq_comm]
    · by_cases h2 : k = "abort"
      · subst h2; simp [chained, Map.insert, Map.empty, eq_comm]
      · simp [chained, Map.insert, Map.empty, h1, h2]
  · intro k b
    by_cases h1 : k = "Abort"
    · subst h1; simp [chained, Map.insert, Map.empty, eq_comm]
    · by_cases h2 : k = "abort"
      · subst h2; simp [chained, Map.insert, Map.empty, eq_comm]
      · simp [chained, Map.insert, Map.empty, h1, h2]
  · intro ns
    by_cases h1 : ns = "abilities"
    · subst h1
      refine ⟨by decide, fun k b => ?_⟩
      by_cases h2 : k = "Abort"
      · subst h2; simp [chained, chainedOrder, Map.insert, Map.empty, eq_comm]
      · simp [chained, chainedOrder, Map.insert, Map.empty, h2]
    · by_cases h2 : ns = "abilities::Abort"
      · subst h2
        refine ⟨by decide, fun k b => ?_⟩
        by_cases h2 : k = "abort"
        · subst h2; simp [chained, chainedOrder, Map.insert, Map.empty, eq_comm]
        · simp [chained, chainedOrder, Map.insert, Map.empty, h2]
      · refine ⟨by simp [chained, chainedOrder, Map.empty, h1, h2], fun k b => ?_⟩
        simp [chained, chainedOrder, Map.empty, h1, h2]

/-- The environment of `use abilities::Abort`. -/
def single : Env :=
  ⟨.empty, Map.empty.insert "Abort" (.module ["abilities", "Abort"]), chained.namespaces, .empty⟩

/-- `use abilities::Abort` alone meets the hypothesis of `C44_use_imports_partial` and brings in the
ability and its operations. -/
example : (∀ n p n' p', single.imports n = some (.module p) →
      single.imports n' = some (.module p') → n ≠ "::".intercalate p' ∧ n ≠ "::".intercalate p'.dropLast) ∧
    (resolveUseImports chainedOrder single [("Abort", .module ["abilities", "Abort"])]).lookup "Abort" =
      some (.ability "abilities::Abort") ∧
    (resolveUseImports chainedOrder single [("Abort", .module ["abilities", "Abort"])]).lookupQualified
      "Abort" "abort" = some (.abilityOp "abilities::Abort" "abort" true) := by
  refine ⟨?_, by decide, by decide⟩
  intro n p n' p' h h'
  simp only [single, Map.insert, Map.empty] at h h'
  split at h <;> split at h' <;> simp at h h'
  subst_vars
  exact ⟨by decide, by decide⟩

end Verif.NameEnv
