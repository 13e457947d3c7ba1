import Verif.ModEnv.Sound
/-!
# C65, C66: qualified names and constructors
-/
namespace Verif.ModEnv

/-! ## C65: qualified names -/

/-- When no body introduces a name twice, every declaration is found: an item of the file and a variant
by its name, everything else by its path and name. (`std::io::Io` is taken by the compiler.) -/
theorem C65_reachable (ds : Items) (hu : ds.AllUnique) (n : Path) (x : Symbol) (b : Binding)
    (h : Declared [] ds n x b) :
    (n = [] → (build ds).lookup x = some b) ∧
    (n ≠ [] → ¬ (n = ["std", "io"] ∧ x = "Io") → (build ds).lookupQualified n x = some b) := by
  obtain ⟨d, hd, h1⟩ := declared_one h
  have hf := items_found [] ds .empty hu.1 hu.2.1 hu.2.2 d hd n x b h1
  refine ⟨fun hn => ?_, fun hn hne => builtins_ns hne (hf.2 hn)⟩
  show ((build ds).defs.lookup x).or _ = some b
  rw [show (build ds).defs = _ from builtins_defs _, hf.1 hn]; rfl

/-- Nothing else is found by path and name, but the names of inner modules and what the compiler adds. -/
theorem C65_only (ds : Items) (n : Path) (x : Symbol) (b : Binding)
    (h : (build ds).lookupQualified n x = some b) :
    Declared [] ds n x b ∨ (∃ p, b = .module p) ∨
    (n, x, b) = (["std", "io"], "Io", .ability ["std", "io", "Io"]) ∨
    (n, x, b) = (["std", "collections"], "List", .typeDef ["std", "collections", "List"]) := by
  rcases builtins_adds h with h | h
  · rcases (items_adds [] ds .empty).2 n x b h with h | ⟨_, h⟩ | h
    · simp [Env.empty] at h
    · exact .inl h
    · exact .inr (.inl h)
  · exact .inr (.inr h)

theorem function_id {pre ds n x id} (h : Declared pre ds n x (.function id)) : id = pre ++ n ++ [x] := by
  generalize hb : Binding.function id = b at h
  induction h with
  | func | field _ _ => cases hb; simp
  | mod _ _ ih => rw [ih hb]; simp
  | _ => cases hb

/-- Functions with the same identity are the same function: they are declared under the same path and
name. -/
theorem C65_function_identity (ds : Items) (n n' : Path) (x x' : Symbol) (id : Path)
    (h : Declared [] ds n x (.function id)) (h' : Declared [] ds n' x' (.function id)) :
    n = n' ∧ x = x' := by
  have := (function_id h).symm.trans (function_id h')
  simp only [List.nil_append] at this
  have h := List.append_inj' this rfl
  exact ⟨h.1, by simpa using h.2⟩

/-- `fn f()  mod m { struct P { x }  enum E { A  B(Int) }  mod k { fn f()  ability L { op } } }`. -/
def sample : Items :=
  .cons (.func "f") (.cons (.mod "m" (.cons (.struct_ "P" ["x"]) (.cons (.enum "E" [("A", 0), ("B", 1)])
    (.cons (.mod "k" (.cons (.func "f") (.cons (.ability "L" ["op"]) .nil))) .nil)))) .nil)

theorem sample_unique : sample.AllUnique := by
  simp [Items.AllUnique, sample, Items.Unique, Item.Unique, Items.toList, bare, spaces]

example : (build sample).lookupQualified ["m", "k"] "f" = some (.function ["m", "k", "f"]) :=
  (C65_reachable sample sample_unique ["m", "k"] "f" _
    (.mod (m := "m") (List.mem_cons_of_mem _ (List.mem_cons_self ..))
      (.mod (m := "k") (List.mem_cons_of_mem _ (List.mem_cons_of_mem _ (List.mem_cons_self ..)))
        (.func (List.mem_cons_self ..))))).2 (by simp) (by simp)

example : (build sample).lookup "f" = some (.function ["f"]) ∧
    (build sample).lookupQualified ["m", "E"] "B" = some (.constructor ["m", "B"] (some "B") 1) ∧
    (build sample).lookupQualified ["m"] "B" = some (.constructor ["m", "B"] (some "B") 1) ∧
    (build sample).lookupQualified ["m", "P"] "x" = some (.function ["m", "P", "x"]) ∧
    (build sample).lookupQualified ["m", "k", "L"] "op" = some (.abilityOp ["m", "k", "L"] "op") ∧
    (build sample).lookupQualified ["m"] "P" = some (.constructor ["m", "P"] none 1) ∧
    (build sample).lookupQualified ["m"] "k" = some (.module ["m", "k"]) ∧
    (build sample).lookupQualified ["m"] "x" = none := by decide +kernel

/-! ## C66: constructors -/

/-- When no body introduces a name twice, the path and name of a constructor are resolved to an identity
under which the type checker has its own type: the type it was declared in, with its number of fields.

What is missing: the same when only the names that can be confused are different, that is when the types
of a body have different names and the variants of one type; `C66_variants_violated` and
`C66_struct_violated` show that it is false. -/
theorem C66_constructor_partial (ds : Items) (hu : ds.AllUnique) (n : Path) (x : Symbol) (t : CtorTy)
    (h : Constructs [] ds n x t) : ∃ id tag,
    (n = [] → (build ds).lookup x = some (.constructor id tag t.fields)) ∧
    (n ≠ [] → ¬ (n = ["std", "io"] ∧ x = "Io") →
      (build ds).lookupQualified n x = some (.constructor id tag t.fields)) ∧
    (ctorTable ds).lookup id = some t := by
  obtain ⟨d, hd, h1⟩ := ctor_one h
  obtain ⟨id, tag, k, h2, _, h4, rfl⟩ := ctors_typed [] ds [] hu.1 hu.2.1 hu.2.2 d hd n x t h1
  have h3 := C65_reachable ds hu n x _ h2
  exact ⟨id, tag, h3.1, h3.2, h4⟩

example : (ctorTable sample).lookup ["m", "B"] = some ⟨["m", "E"], 1⟩ ∧
    (ctorTable sample).lookup ["m", "P"] = some ⟨["m", "P"], 1⟩ := by decide +kernel

example : Constructs [] sample ["m", "E"] "B" ⟨["m", "E"], 1⟩ :=
  .mod (m := "m") (List.mem_cons_of_mem _ (List.mem_cons_self ..))
    (.variant (List.mem_cons_of_mem _ (List.mem_cons_self ..)) (by simp))

/-- In `enum A { X }  enum B { X(Int) }` the name `A::X`, a constructor of `A` without fields, has the
type of `B::X`: the identity of a variant does not have the name of its enum. -/
theorem C66_variants_violated :
    let ds : Items := .cons (.enum "A" [("X", 0)]) (.cons (.enum "B" [("X", 1)]) .nil)
    Constructs [] ds ["A"] "X" ⟨["A"], 0⟩ ∧
    ∃ id tag, (build ds).lookupQualified ["A"] "X" = some (.constructor id tag 0) ∧
      (ctorTable ds).lookup id = some ⟨["B"], 1⟩ := by
  refine ⟨.variant (List.mem_cons_self ..) (by simp), ["X"], some "X", ?_, ?_⟩ <;> decide +kernel

/-- In `enum Shape { Circle(Circle)  Dot }  struct Circle { x, y }` the name `Shape::Circle`, a
constructor of `Shape` with one field, has the type of the struct. -/
theorem C66_struct_violated :
    let ds : Items := .cons (.enum "Shape" [("Circle", 1), ("Dot", 0)]) (.cons (.struct_ "Circle" ["x", "y"]) .nil)
    Constructs [] ds ["Shape"] "Circle" ⟨["Shape"], 1⟩ ∧
    ∃ id tag, (build ds).lookupQualified ["Shape"] "Circle" = some (.constructor id tag 1) ∧
      (ctorTable ds).lookup id = some ⟨["Circle"], 2⟩ := by
  refine ⟨.variant (List.mem_cons_self ..) (by simp), ["Circle"], some "Circle", ?_, ?_⟩ <;> decide +kernel

end Verif.ModEnv
