import Verif.Scope.Index
/-!
# What names mean, and what the editor does with them
-/
namespace Verif.Scope

open NameEnv (Symbol Binding Env Map)

/-! ## C62: names mean the nearest binder -/

/-- Every name in a module is resolved by the rules of lexical scope, `DeclsR`: a name means the nearest
binder of that name in scope, without one the global meaning, and the names reported are exactly those
that have no meaning. -/
theorem C62_lexical (env : Env) (m : Decls Occ) :
    DeclsR env [] m (resolveModule env m).1 (resolveModule env m).2 := (module_ok env m).1

/-- No two binders of a module are given the same identity. -/
theorem C62_distinct (env : Env) (m : Decls Occ) :
    ((bindersDecls (resolveModule env m).1).map (·.id)).Nodup := (module_ok env m).2.1

/-- Every reference to a local name is one to a binder of the module of that name. -/
theorem C62_bound (env : Env) (m : Decls Occ) :
    ∀ l ∈ localsDecls (resolveModule env m).1, ∃ d ∈ bindersDecls (resolveModule env m).1,
      d.name = some l.name ∧ d.id = l.id := (module_ok env m).2.2

/-- The environment of `fn g`. -/
def envG : Env := Env.new.define "g" (.function "g")

/-- `fn main(a) { let b = a  case b { Some(a) -> g(a, c)  b -> b } }`. -/
def sample : Decls Occ :=
  .cons (.func ⟨0, 70⟩ ⟨3, 7⟩ "main" [⟨⟨8, 9⟩, ⟨8, 9⟩, "a", none⟩] []
    (.block (.bind (.bind ⟨17, 18⟩ "b" none) (.var ⟨21, 22⟩ ⟨.simple "a", ⟨21, 22⟩⟩) .nil)
      (.cases (.var ⟨29, 30⟩ ⟨.simple "b", ⟨29, 30⟩⟩)
        (.cons ⟨33, 52⟩ .plain
          (.cons (.con ⟨33, 40⟩ none (.cons (.bind ⟨38, 39⟩ "a" none) .nil)) .nil) .nil
          (.node ⟨44, 52⟩ none (.cons (.var ⟨44, 45⟩ ⟨.simple "g", ⟨44, 45⟩⟩)
            (.cons (.var ⟨46, 47⟩ ⟨.simple "a", ⟨46, 47⟩⟩)
              (.cons (.var ⟨49, 50⟩ ⟨.simple "c", ⟨49, 50⟩⟩) .nil))))
        (.cons ⟨54, 60⟩ .plain (.cons (.bind ⟨54, 55⟩ "b" none) .nil) .nil
          (.var ⟨59, 60⟩ ⟨.simple "b", ⟨59, 60⟩⟩) .nil))))) .nil

example : (resolveModule envG sample).2 = [⟨.simple "c", ⟨49, 50⟩⟩] := by decide
example : mentionsDecls (resolveModule envG sample).1 =
    [⟨⟨21, 22⟩, .loc 0 "a", true⟩, ⟨⟨29, 30⟩, .loc 1 "b", true⟩, ⟨⟨44, 45⟩, .func "g", true⟩,
      ⟨⟨46, 47⟩, .loc 2 "a", true⟩, ⟨⟨49, 50⟩, .unresolved "c", true⟩,
      ⟨⟨59, 60⟩, .loc 3 "b", true⟩] := by decide

/-! ## C63: go to definition -/

/-- Going to the definition from a local name reaches the one binder that the name refers to. The offset
has to be in the node of the name and in no smaller node that refers to something else. -/
theorem C63_local_partial (env : Env) (m : Decls Occ) (short : String → Symbol) (off : Nat) (q : Mention)
    (i : Nat) (x : Symbol) (hq : q ∈ mentionsDecls (resolveModule env m).1) (hr : q.ref = .loc i x)
    (ho : q.span.lo ≤ off ∧ off < q.span.hi)
    (hmin : ∀ q' ∈ mentionsDecls (resolveModule env m).1, q'.span.lo ≤ off ∧ off < q'.span.hi →
      q'.span.size ≤ q.span.size → q'.ref = q.ref) :
    ∃ b ∈ bindersDecls (resolveModule env m).1, b.name = some x ∧ b.id = i ∧
      (∀ b' ∈ bindersDecls (resolveModule env m).1, b'.id = i → b' = b) ∧
      ∃ d, (build short (resolveModule env m).1).defAt off = some d ∧ d.name = x ∧ d.span = b.node := by
  have hh : ∀ sp : Span, sp.has off = true ↔ sp.lo ≤ off ∧ off < sp.hi := by
    intro sp; simp [Span.has]
  obtain ⟨b, hb, h1, h2, h3⟩ := defAt_local (short := short) hq hr ((hh _).mpr ho)
    fun q' hq' h => hmin q' hq' ((hh _).mp h)
  exact ⟨b, hb, h1, h2, fun b' hb' h => binder_unique hb hb' (h.trans h2.symm), h3⟩

example : ((build id (resolveModule envG sample).1).defAt 46).map (·.span) = some ⟨38, 39⟩ := by
  decide +kernel
example : ((build id (resolveModule envG sample).1).defAt 21).map (·.span) = some ⟨8, 9⟩ := by
  decide +kernel

/-- `fn a(g) { g }  fn g() { 1 }  fn main() { g() }`. -/
def sampleG : Decls Occ :=
  .cons (.func ⟨0, 13⟩ ⟨3, 4⟩ "a" [⟨⟨5, 6⟩, ⟨5, 6⟩, "g", none⟩] []
    (.var ⟨10, 11⟩ ⟨.simple "g", ⟨10, 11⟩⟩))
  (.cons (.func ⟨15, 27⟩ ⟨18, 19⟩ "g" [] [] .leaf)
  (.cons (.func ⟨29, 46⟩ ⟨32, 36⟩ "main" [] []
    (.node ⟨41, 44⟩ none (.cons (.var ⟨41, 42⟩ ⟨.simple "g", ⟨41, 42⟩⟩) .nil))) .nil))

/-- Going to the definition of a function can reach something else: here the call `g()` refers to the
function `g`, and the parameter `g` of another function is found. -/
theorem C63_function_violated :
    ⟨⟨41, 42⟩, .func "g", true⟩ ∈ mentionsDecls (resolveModule envG sampleG).1 ∧
    (build id (resolveModule envG sampleG).1).defAt 41 = some ⟨⟨5, 6⟩, "g", .parameter, some 0⟩ := by
  constructor
  · decide
  · decide +kernel

/-- `enum E { A }  fn main() { A }`, where `A` is bound as `collect_definition` does
(resolve/mod.rs 210-228). -/
def sampleE : Decls Occ :=
  .cons (.enum ⟨0, 12⟩ ⟨5, 6⟩ "E" [(⟨9, 10⟩, "A")])
  (.cons (.func ⟨14, 29⟩ ⟨17, 21⟩ "main" [] [] (.var ⟨26, 27⟩ ⟨.simple "A", ⟨26, 27⟩⟩)) .nil)

/-- There is no way to the definition of a variant: the index looks for a variant `A` of an enum `A`. -/
theorem C63_variant_violated :
    mentionsDecls (resolveModule (Env.new.define "A" (.constructor "A" (some "A") 0)) sampleE).1 =
      [⟨⟨26, 27⟩, .ctor "A" "A", true⟩] ∧
    ⟨⟨9, 10⟩, "A", .variant "E", none⟩ ∈
      (build id (resolveModule (Env.new.define "A" (.constructor "A" (some "A") 0)) sampleE).1).defs ∧
    (build id (resolveModule (Env.new.define "A" (.constructor "A" (some "A") 0)) sampleE).1).defAt 26
      = none := by
  refine ⟨?_, ?_, ?_⟩ <;> decide +kernel

/-! ## C64: rename -/

/-- Renaming a local name to one that does not occur keeps the meaning of the program. The edits are
those of the name of the binder and of its references, once each, and the source edited resolves to what
it resolved to, with the binder renamed. The binder has to be one whose pattern or parameter is just its
name, its references have to be variables, and it must not be a field of a record pattern as well. -/
theorem C64_local_partial (env : Env) (m : Decls Occ) (short : String → Symbol) (off : Nat) (x y : Symbol)
    (d : DefEntry) (b : Binder) (edits : List Edit)
    (hd : (build short (resolveModule env m).1).canRename off = some d)
    (hb : b ∈ bindersDecls (resolveModule env m).1) (hid : d.id = some b.id) (hx : b.name = some x)
    (hr : (build short (resolveModule env m).1).rename off y = some edits)
    (htok : b.node = b.tok) (hnd : (tokens (resolveModule env m).1).Nodup)
    (hvar : ∀ q ∈ mentionsDecls (resolveModule env m).1, ∀ z, q.ref = .loc b.id z → q.var = true)
    (hxy : x ≠ y) (hy : ∀ w ∈ wordsDecls m, w.name ≠ .simple y) (hblank : y ≠ "_")
    (hshort : Word.short x ∉ wordsDecls m) :
    (∀ sp, (∃ e ∈ edits, e.span = sp) ↔ sp = b.tok ∨
      ∃ q ∈ mentionsDecls (resolveModule env m).1, q.span = sp ∧ ∃ z, q.ref = .loc b.id z) ∧
    (edits.map (·.span)).Nodup ∧ (∀ e ∈ edits, e.text = y) ∧
    resolveModule env (editDecls (fun sp => edits.any fun e => e.span == sp) y m) =
      (renDecls b.id y (resolveModule env m).1, (resolveModule env m).2) := by
  refine ⟨rename_spans hd hb hid hr htok, rename_nodup hd hb hid hr htok hnd hvar, ?_, ?_⟩
  · obtain ⟨_, he⟩ := rename_edits hd hb hid hr
    intro e hmem
    rw [he] at hmem
    rcases List.mem_cons.mp hmem with rfl | h
    · rfl
    · obtain ⟨r, _, rfl⟩ := List.mem_map.mp h
      rfl
  · let J : Job := ⟨fun sp => edits.any fun e => e.span == sp, b.id, x, y, hxy, hblank⟩
    refine module_sim J env m ?_ (rename_marks hd hb hid hr htok hnd hvar J rfl rfl hx)
    intro w hw
    refine ⟨hy w hw, ?_⟩
    rintro rfl
    exact hshort hw

/-- Renaming `b`, the inner one, in the sample. -/
example : (build id (resolveModule envG sample).1).rename 59 "y" =
    some [⟨⟨54, 55⟩, "y"⟩, ⟨⟨59, 60⟩, "y"⟩] := by decide +kernel
example := C64_local_partial envG sample id 59 "b" "y" ⟨⟨54, 55⟩, "b", .local_, some 3⟩
  ⟨some "b", ⟨54, 55⟩, ⟨54, 55⟩, 3⟩ [⟨⟨54, 55⟩, "y"⟩, ⟨⟨59, 60⟩, "y"⟩] (by decide +kernel) (by decide)
  rfl rfl (by decide +kernel) rfl (by decide) (by
    have h : ∀ q ∈ mentionsDecls (resolveModule envG sample).1, q.var = true := by decide
    exact fun q hq _ _ => h q hq) (by decide)
  (by
    have h : (wordsDecls sample).map Word.name = [.simple "a", .simple "b", .simple "a", .simple "b",
      .simple "a", .simple "g", .simple "a", .simple "c", .simple "b", .simple "b"] := by decide
    intro w hw e
    have := List.mem_map_of_mem (f := Word.name) hw
    rw [h, e] at this
    revert this
    decide)
  (by decide) (by
    simp only [sample, wordsDecls, wordsDecl, wordsExpr, wordsExprs, wordsStmts, wordsArms, wordsPats,
      wordsPat, wordsHead, wordsParams]
    simp)

/-- `fn f(x: Int) { x }` -/
def sampleP : Decls Occ :=
  .cons (.func ⟨0, 18⟩ ⟨3, 4⟩ "f" [⟨⟨5, 11⟩, ⟨5, 6⟩, "x", none⟩] []
    (.var ⟨15, 16⟩ ⟨.simple "x", ⟨15, 16⟩⟩)) .nil

/-- Renaming a parameter with a type replaces its type too. -/
theorem C64_parameter_violated :
    (build id (resolveModule envG sampleP).1).rename 15 "y" =
      some [⟨⟨5, 11⟩, "y"⟩, ⟨⟨15, 16⟩, "y"⟩] ∧
    bindersDecls (resolveModule envG sampleP).1 = [⟨some "x", ⟨5, 6⟩, ⟨5, 11⟩, 0⟩] := by
  constructor <;> decide +kernel

/-- Renaming a function replaces its whole declaration, here `fn g() { 1 }` by `h`. -/
theorem C64_function_violated :
    (build id (resolveModule envG (.cons (.func ⟨15, 27⟩ ⟨18, 19⟩ "g" [] [] .leaf) .nil)).1).rename 18 "h"
      = some [⟨⟨15, 27⟩, "h"⟩] := by decide +kernel

/-- `fn f() { let a = 1  let b = 2  a }` -/
def sampleC : Decls Occ :=
  .cons (.func ⟨0, 35⟩ ⟨3, 4⟩ "f" [] []
    (.block (.bind (.bind ⟨13, 14⟩ "a" none) .leaf (.bind (.bind ⟨24, 25⟩ "b" none) .leaf .nil))
      (.var ⟨31, 32⟩ ⟨.simple "a", ⟨31, 32⟩⟩))) .nil

/-- A rename to a name that is taken is accepted and changes the meaning: `a` referred to the first
`let`, renamed to `b` it refers to the second. -/
theorem C64_capture_violated : ∃ edits,
    (build id (resolveModule envG sampleC).1).rename 31 "b" = some edits ∧
    mentionsDecls (resolveModule envG sampleC).1 = [⟨⟨31, 32⟩, .loc 0 "a", true⟩] ∧
    mentionsDecls (resolveModule envG
      (editDecls (fun sp => edits.any fun e => e.span == sp) "b" sampleC)).1 =
      [⟨⟨31, 32⟩, .loc 1 "b", true⟩] := by
  refine ⟨[⟨⟨13, 14⟩, "b"⟩, ⟨⟨31, 32⟩, "b"⟩], ?_, ?_, ?_⟩ <;> decide +kernel

end Verif.Scope
