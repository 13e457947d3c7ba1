import Verif.Hover.Proofs
/-
C93: hovering shows the type of what is under the cursor.

Full statement: for every file and every offset inside an expression or pattern, the
answer is the type of the innermost expression or pattern there, with its range.  It
is false of the code; proved below for the offsets inside a variable, a literal or a
constructor without arguments, together with what every answer satisfies.
-/
namespace Verif.Hover

open Spec

/-- Inside a variable, a literal or a constructor without arguments (in expressions:
any of these; in patterns: a constructor) the answer is its type and its range. -/
theorem C93_leaf_partial {file : List Decl} {sp : Span} {ty : Ty} {o : Nat}
    (hn : WellNested file) (hl : HasLeaf file sp ty) (ho : sp.Has o) :
    hover file o = some ⟨sp, ty⟩ :=
  hover_leaf hn hl ho

/-- Whatever is shown, the highlighted range contains the cursor and is the range of a
piece of syntax of the file. -/
theorem C93_range {file : List Decl} {o : Nat} {shown : Entry}
    (h : hover file o = some shown) : shown.span.Has o ∧ HasRange file shown.span :=
  hover_range h

/-- `f(Some(x), 1)` inside a block that ends in a statement, followed by a second
function: `{ let y = f(None, 1); }  fn g() { z }` with ranges as in the text. -/
def exFile : List Decl :=
  [.function (.blockNoValue ⟨0, 25⟩
      [.let_ ⟨2, 22⟩ (.bind ⟨6, 7⟩)
        (.call ⟨10, 20⟩ (.var ⟨10, 11⟩ (.func [.named "Option" [], .prim .nat] (.prim .int)))
          [.cons ⟨12, 16⟩ (.named "Option" []) [], .lit ⟨18, 19⟩ .nat])]),
   .module [.function (.block ⟨36, 41⟩ [] (.var ⟨38, 39⟩ (.prim .bool)))]]

/-- What goes wrong at an operator or between the parts of a method call:
`1 + 2` at the `+`. -/
def exPlus : Expr :=
  .method ⟨0, 5⟩ (some (.func [.prim .nat, .prim .nat] (.prim .nat)))
    (.lit ⟨0, 1⟩ .nat) [.lit ⟨4, 5⟩ .nat]

theorem apart_of_le {a b : Span} (h : a.stop ≤ b.start) : a.Apart b := by
  intro o ha hb
  simp only [Span.Has] at ha hb
  omega

theorem exFile_nested : WellNested exFile := by
  constructor
  · intro t ht
    simp only [exFile, fileTrees, declTrees, exprTree, stmtTrees, patTree, exprTrees,
      List.append_nil, List.cons_append, List.nil_append, List.mem_cons, List.not_mem_nil,
      or_false] at ht
    rcases ht with rfl | rfl
    · refine .node ?_ (by simp) ?_
      · simp [Tree.span, Span.Within]
      · simp only [List.mem_cons, List.not_mem_nil, or_false, forall_eq]
        refine .wrap ?_ ?_ ?_
        · simp [Tree.span, Span.Within]
        · simp only [List.pairwise_cons, List.mem_cons, List.not_mem_nil, or_false, forall_eq]
          exact ⟨apart_of_le (by simp [Tree.span]), by simp⟩
        · simp only [List.mem_cons, List.not_mem_nil, or_false, forall_eq_or_imp, forall_eq]
          refine ⟨.node (by simp) (by simp) (by simp), .node ?_ ?_ ?_⟩
          · simp [Tree.span, Span.Within]
          · simp only [List.pairwise_cons, List.mem_cons, List.not_mem_nil, or_false,
              forall_eq_or_imp, forall_eq]
            exact ⟨⟨apart_of_le (by simp [Tree.span]), apart_of_le (by simp [Tree.span])⟩,
              apart_of_le (by simp [Tree.span]), by simp⟩
          · simp only [List.mem_cons, List.not_mem_nil, or_false, forall_eq_or_imp, forall_eq]
            exact ⟨.leaf, .leaf, .leaf⟩
    · refine .node (by simp [Tree.span, Span.Within]) (by simp) ?_
      simp only [List.mem_cons, List.not_mem_nil, or_false, forall_eq]
      exact .leaf
  · simp only [exFile, fileTrees, declTrees, exprTree, List.append_nil, List.cons_append,
      List.nil_append, List.pairwise_cons, List.mem_cons, List.not_mem_nil, or_false, forall_eq]
    exact ⟨apart_of_le (by simp [Tree.span]), by simp⟩

/-- The argument `None`, in the middle of it: although the Nil of the block has a
range around it and the whole call has none. -/
example : hover exFile 14 = some ⟨⟨12, 16⟩, .named "Option" []⟩ := by
  apply C93_leaf_partial exFile_nested
  · refine ⟨_, List.mem_cons_self, ?_⟩
    refine .node List.mem_cons_self (.wrap (List.mem_cons_of_mem _ List.mem_cons_self) ?_)
    exact .node (List.mem_cons_of_mem _ List.mem_cons_self) .here
  · simp [Span.Has]

/-- The variable of the second function, in a module. -/
example : hover exFile 38 = some ⟨⟨38, 39⟩, .prim .bool⟩ := by
  apply C93_leaf_partial exFile_nested
  · refine ⟨_, List.mem_cons_of_mem _ List.mem_cons_self, ?_⟩
    exact .node List.mem_cons_self .here
  · simp [Span.Has]

/-- The hypothesis of `C93_range` is met. -/
example : ∃ shown, hover exFile 3 = some shown ∧ shown.span.Has 3 :=
  have h : hover exFile 3 = some ⟨⟨2, 22⟩, .prim .nil⟩ := by rfl
  ⟨_, h, (C93_range h).1⟩

/-- False: on the operator of `1 + 2` the whole expression is highlighted, and the type
shown is not its type but that of the function the operator stands for.  (The callee
that resolution makes has the id of the whole method call.) -/
theorem C93_operator_violated : ∃ (e : Expr) (o : Nat) (shown : Entry) (ty : Ty),
    WellNested [.function e] ∧ hover [.function e] o = some shown ∧
      shown.span = (exprTree e).span ∧ ValueTy e ty ∧ shown.ty ≠ ty := by
  refine ⟨exPlus, 2, ⟨⟨0, 5⟩, .func [.prim .nat, .prim .nat] (.prim .nat)⟩, .prim .nat,
    ⟨?_, by simp [fileTrees, declTrees]⟩, rfl, rfl, .method, by simp⟩
  intro t ht
  simp only [exPlus, fileTrees, declTrees, exprTree, exprTrees, List.append_nil, List.mem_cons,
    List.not_mem_nil, or_false] at ht
  subst ht
  refine .node (by simp [Tree.span, Span.Within]) ?_ ?_
  · simp only [List.pairwise_cons, List.mem_cons, List.not_mem_nil, or_false, forall_eq]
    exact ⟨apart_of_le (by simp [Tree.span]), by simp⟩
  · simp only [List.mem_cons, List.not_mem_nil, or_false, forall_eq_or_imp, forall_eq]
    exact ⟨.leaf, .leaf⟩

/-- False: on the name bound by a `let` that ends a block the type shown is Nil, whatever
the type of the value bound to it. -/
theorem C93_lastLet_violated : ∃ (sp letSp nameSp : Span) (v : Expr) (ty : Ty) (o : Nat),
    let e := Expr.blockNoValue sp [.let_ letSp (.bind nameSp) v]
    WellNested [.function e] ∧ nameSp.Has o ∧ ValueTy v ty ∧ ty ≠ .prim .nil ∧
      hover [.function e] o = some ⟨letSp, .prim .nil⟩ := by
  refine ⟨⟨0, 13⟩, ⟨2, 11⟩, ⟨6, 7⟩, .lit ⟨10, 11⟩ .nat, .prim .nat, 6, ⟨?_, ?_⟩, ?_, .lit,
    by simp, rfl⟩
  · intro t ht
    simp only [fileTrees, declTrees, exprTree, stmtTrees, patTree, List.append_nil, List.mem_cons,
      List.not_mem_nil, or_false] at ht
    subst ht
    refine .node (by simp [Tree.span, Span.Within]) (by simp) ?_
    simp only [List.mem_cons, List.not_mem_nil, or_false, forall_eq]
    refine .wrap (by simp [Tree.span, Span.Within]) ?_ ?_
    · simp only [List.pairwise_cons, List.mem_cons, List.not_mem_nil, or_false, forall_eq]
      exact ⟨apart_of_le (by simp [Tree.span]), by simp⟩
    · simp only [List.mem_cons, List.not_mem_nil, or_false, forall_eq_or_imp, forall_eq]
      exact ⟨.node (by simp) (by simp) (by simp), .leaf⟩
  · simp [fileTrees, declTrees]
  · simp [Span.Has]

end Verif.Hover
