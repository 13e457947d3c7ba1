import Verif.Hover.Spec
import Mathlib.Tactic.Tauto
import Mathlib.Data.List.Pairwise
/- Lemmas about the sort, the minimum, and the order in which entries are collected. -/
namespace Verif.Hover

open Spec

/-! ### The sort is stable -/

theorem mem_insertEntry {x y : Entry} {l : List Entry} :
    y ∈ insertEntry x l ↔ y = x ∨ y ∈ l := by
  induction l with
  | nil => simp [insertEntry]
  | cons z zs ih =>
    unfold insertEntry
    split
    · simp
    · simp only [List.mem_cons, ih]; tauto

theorem mem_sortEntries {y : Entry} {l : List Entry} : y ∈ sortEntries l ↔ y ∈ l := by
  induction l with
  | nil => simp [sortEntries]
  | cons z zs ih => simp [sortEntries, mem_insertEntry, ih]

theorem filter_insert_ne {s : Span} {x : Entry} (l : List Entry) (h : x.span ≠ s) :
    (insertEntry x l).filter (fun e => decide (e.span = s)) =
      l.filter (fun e => decide (e.span = s)) := by
  induction l with
  | nil => simp [insertEntry, h]
  | cons z zs ih =>
    unfold insertEntry
    split
    · simp [h]
    · simp only [List.filter_cons, ih]

theorem filter_insert_eq {s : Span} {x : Entry} (l : List Entry) (h : x.span = s) :
    (insertEntry x l).filter (fun e => decide (e.span = s)) =
      x :: l.filter (fun e => decide (e.span = s)) := by
  induction l with
  | nil => simp [insertEntry, h]
  | cons z zs ih =>
    unfold insertEntry
    split
    · simp [h]
    · rename_i hk
      have hz : z.span ≠ s := by
        intro hz
        apply hk
        simp [keyLe, h, hz]
      simp [hz, ih]

theorem filter_sort (s : Span) (l : List Entry) :
    (sortEntries l).filter (fun e => decide (e.span = s)) =
      l.filter (fun e => decide (e.span = s)) := by
  induction l with
  | nil => rfl
  | cons x xs ih =>
    by_cases h : x.span = s
    · simp [sortEntries, filter_insert_eq _ h, ih, h]
    · simp [sortEntries, filter_insert_ne _ h, ih, h]

/-! ### The minimum -/

theorem minByLen_none {l : List Entry} (h : minByLen l = none) : l = [] := by
  cases l with
  | nil => rfl
  | cons x xs =>
    simp only [minByLen] at h
    split at h
    · cases h
    · split at h <;> cases h

/-- The result is the first element of minimal length. -/
theorem minByLen_some {l : List Entry} {r : Entry} (h : minByLen l = some r) :
    ∃ pre post, l = pre ++ r :: post ∧ (∀ x ∈ pre, entryLen r < entryLen x) ∧
      (∀ x ∈ l, entryLen r ≤ entryLen x) := by
  induction l generalizing r with
  | nil => cases h
  | cons x xs ih =>
    simp only [minByLen] at h
    split at h
    · rename_i hn
      cases h
      cases minByLen_none hn
      exact ⟨[], [], rfl, by simp, by simp⟩
    · rename_i y hy
      obtain ⟨pre, post, he, h1, h2⟩ := ih hy
      split at h
      · rename_i hle
        cases h
        refine ⟨[], xs, rfl, by simp, ?_⟩
        intro z hz
        rcases List.mem_cons.mp hz with rfl | hz
        · exact Nat.le_refl _
        · exact Nat.le_trans hle (h2 z hz)
      · rename_i hle
        cases h
        refine ⟨x :: pre, post, by simp [he], ?_, ?_⟩
        · intro z hz
          rcases List.mem_cons.mp hz with rfl | hz
          · omega
          · exact h1 z hz
        · intro z hz
          rcases List.mem_cons.mp hz with rfl | hz
          · omega
          · exact h2 z hz

theorem typeAt_mem {l : List Entry} {o : Nat} {r : Entry}
    (h : typeAt (sortEntries l) o = some r) : r ∈ l ∧ r.span.Has o := by
  obtain ⟨pre, post, he, -, -⟩ := minByLen_some h
  have hm : r ∈ (sortEntries l).filter (containsOffset o) := by rw [he]; simp
  rw [List.mem_filter] at hm
  refine ⟨mem_sortEntries.mp hm.1, ?_⟩
  simpa [containsOffset, Span.Has] using hm.2

/-- When the entry `x` contains the offset, every entry that contains the offset
contains `x`, and no other entry with its range was collected before it, it is the
answer. -/
theorem typeAt_eq {pre post : List Entry} {x : Entry} {o : Nat} (hx : x.span.Has o)
    (hall : ∀ e ∈ pre ++ x :: post, e.span.Has o → x.span.Within e.span)
    (hpre : ∀ e ∈ pre, e.span ≠ x.span) :
    typeAt (sortEntries (pre ++ x :: post)) o = some x := by
  have hin : x ∈ (sortEntries (pre ++ x :: post)).filter (containsOffset o) := by
    rw [List.mem_filter]
    refine ⟨mem_sortEntries.mpr (by simp), ?_⟩
    simpa [containsOffset, Span.Has] using hx
  unfold typeAt
  cases hr : minByLen ((sortEntries (pre ++ x :: post)).filter (containsOffset o)) with
  | none => rw [minByLen_none hr] at hin; cases hin
  | some r =>
    obtain ⟨p, q, he, h1, h2⟩ := minByLen_some hr
    have hrm : r ∈ (sortEntries (pre ++ x :: post)).filter (containsOffset o) := by
      rw [he]; simp
    rw [List.mem_filter] at hrm
    have hro : r.span.Has o := by simpa [containsOffset, Span.Has] using hrm.2
    have hw := hall r (mem_sortEntries.mp hrm.1) hro
    have hlen := h2 x hin
    have hspan : r.span = x.span := by
      cases hrs : r.span; cases hxs : x.span
      simp only [entryLen, Span.Within, Span.Has, hrs, hxs] at *
      simp only [Span.mk.injEq]
      omega
    -- the entries with this range, in the order of collection
    have hf : ((sortEntries (pre ++ x :: post)).filter (containsOffset o)).filter
        (fun e => decide (e.span = x.span)) = x :: post.filter (fun e => decide (e.span = x.span)) := by
      rw [List.filter_filter]
      have hb : ∀ e ∈ sortEntries (pre ++ x :: post),
          (decide (e.span = x.span) && containsOffset o e) = decide (e.span = x.span) := by
        intro e _
        by_cases hs : e.span = x.span
        · have : containsOffset o e = true := by
            simpa [containsOffset, Span.Has, hs] using hx
          simp [hs, this]
        · simp [hs]
      rw [List.filter_congr hb, filter_sort, List.filter_append]
      have : pre.filter (fun e => decide (e.span = x.span)) = [] := by
        rw [List.filter_eq_nil_iff]
        intro e he'; simpa using hpre e he'
      simp [this]
    rw [he, List.filter_append] at hf
    have hp : p.filter (fun e => decide (e.span = x.span)) = [] := by
      rw [List.filter_eq_nil_iff]
      intro e he' hs
      have := h1 e he'
      have hs' : e.span = x.span := by simpa using hs
      simp only [entryLen, hs', hspan] at this
      omega
    simp only [hp, List.nil_append, List.filter_cons, hspan, decide_true, if_true] at hf
    rw [(List.cons.inj hf).1]

/-! ### Collected entries and the source tree -/

mutual

/-- The entries `l` are those of the tree `t`, in the order of the text: those of the
node itself, those of the parts, and possibly one for a value that is not written. -/
inductive Collects : Tree → List Entry → Prop
  | leaf {sp ty} : Collects (.leaf sp ty) [⟨sp, ty⟩]
  | node {sp kids own l post} : (∀ e ∈ own, e.span = sp) → CollectsAll kids l →
      (∀ e ∈ post, e.span = sp ∨ ∃ k ∈ kids, e.span = k.span) →
      Collects (.node sp kids) (own ++ (l ++ post))
  | wrap {sp kids l} : CollectsAll kids l → Collects (.wrap sp kids) l

inductive CollectsAll : List Tree → List Entry → Prop
  | nil : CollectsAll [] []
  | cons {t ts l l'} : Collects t l → CollectsAll ts l' → CollectsAll (t :: ts) (l ++ l')

end

theorem CollectsAll.append {ts us : List Tree} {l l' : List Entry} (h : CollectsAll ts l)
    (h' : CollectsAll us l') : CollectsAll (ts ++ us) (l ++ l') := by
  induction ts generalizing l with
  | nil => cases h; exact h'
  | cons t ts ih =>
    cases h with
    | cons h1 h2 =>
      rw [List.append_assoc]
      exact .cons h1 (ih h2)

theorem CollectsAll.one {t : Tree} {l : List Entry} (h : Collects t l) : CollectsAll [t] l := by
  simpa using CollectsAll.cons h .nil

/-- A node with neither an entry of its own nor an unwritten value. -/
theorem Collects.plain {sp : Span} {kids : List Tree} {l : List Entry} (h : CollectsAll kids l) :
    Collects (.node sp kids) l := by
  simpa using Collects.node (sp := sp) (own := []) (post := []) (by simp) h (by simp)

/-- A node with an entry of its own. -/
theorem Collects.owned {sp : Span} {ty : Ty} {kids : List Tree} {l : List Entry}
    (h : CollectsAll kids l) : Collects (.node sp kids) (⟨sp, ty⟩ :: l) := by
  simpa using Collects.node (sp := sp) (own := [⟨sp, ty⟩]) (post := []) (by simp) h (by simp)

mutual

theorem collects_pat : (p : Pat) → Collects (patTree p) (collectPat p)
  | .wildcard _ => .plain .nil
  | .bind _ => .plain .nil
  | .lit _ => .plain .nil
  | .variant _ _ [] => .leaf
  | .variant _ _ (f :: fs) => .owned (.cons (collects_pat f) (collects_pats fs))
  | .record _ (some _) fields => .owned (collects_pats fields)
  | .record _ none fields => .plain (collects_pats fields)
  | .tuple _ elems => .plain (collects_pats elems)
  | .list _ elems => .plain (collects_pats elems)
  | .listRest _ head => .plain (collects_pats head)
  | .as_ _ inner => .plain (.one (collects_pat inner))
  | .error _ => .plain .nil

theorem collects_pats : (ps : List Pat) → CollectsAll (patTrees ps) (collectPats ps)
  | [] => .nil
  | p :: ps => .cons (collects_pat p) (collects_pats ps)

end

theorem nilSpan_spec (sp : Span) (ss : List Stmt) :
    nilSpan sp ss = sp ∨ ∃ k ∈ stmtTrees ss, nilSpan sp ss = k.span := by
  induction ss with
  | nil => exact .inl rfl
  | cons s rest ih =>
    cases rest with
    | nil =>
      right
      cases s <;> simp [nilSpan, stmtSpan, stmtTrees, Tree.span]
    | cons s' rest' =>
      rcases ih with ih | ⟨k, hk, ih⟩
      · exact .inl ih
      · refine .inr ⟨k, ?_, ih⟩
        cases s <;> exact List.mem_cons_of_mem _ hk

mutual

theorem collects_expr : (e : Expr) → Collects (exprTree e) (collectExpr (lowerExpr e))
  | .var _ _ => .leaf
  | .lit _ .nat => .leaf
  | .lit _ .int => .leaf
  | .lit _ .float => .leaf
  | .lit _ .string => .leaf
  | .lit _ .bytes => .leaf
  | .lit _ .bool => .leaf
  | .lit _ .nil => .leaf
  | .lit _ .rune => .leaf
  | .call _ callee args => .plain (.cons (collects_expr callee) (collects_exprs args))
  | .cons _ _ [] => .leaf
  | .cons _ _ (a :: as) => .owned (.cons (collects_expr a) (collects_exprs as))
  | .record _ _ fields spread => .owned ((collects_exprs fields).append (collects_opt spread))
  | .method sp (some ty) receiver args => by
      have h := Collects.owned (sp := sp) (ty := ty)
        (.cons (collects_expr receiver) (collects_exprs args))
      simpa [exprTree, lowerExpr, collectExpr, collectExprs] using h
  | .method _ none receiver args =>
      .plain (.cons (collects_expr receiver) (collects_exprs args))
  | .block _ stmts value => .plain ((collects_stmts stmts).append (.one (collects_expr value)))
  | .blockNoValue sp stmts => by
      have h := Collects.node (sp := sp) (own := [])
        (post := [⟨nilSpan sp stmts, litTy .nil⟩]) (by simp) (collects_stmts stmts)
        (by simpa using nilSpan_spec sp stmts)
      exact h
  | .case _ scrutinee arms => .plain (.cons (collects_expr scrutinee) (collects_arms arms))
  | .lambda _ body => .plain (.one (collects_expr body))
  | .handle _ body handlers => .plain (.cons (collects_expr body) (collects_handlers handlers))
  | .resume _ arg => .plain (.one (collects_expr arg))
  | .tuple _ elems => .plain (collects_exprs elems)
  | .list _ elems => .plain (collects_exprs elems)
  | .binop _ lhs rhs => .plain (.cons (collects_expr lhs) (.one (collects_expr rhs)))
  | .error _ => .plain .nil

theorem collects_exprs : (es : List Expr) → CollectsAll (exprTrees es) (collectExprs (lowerExprs es))
  | [] => .nil
  | e :: es => .cons (collects_expr e) (collects_exprs es)

theorem collects_opt : (o : Option Expr) → CollectsAll (optTrees o) (collectOpt (lowerOpt o))
  | none => .nil
  | some e => .one (collects_expr e)

theorem collects_stmts : (ss : List Stmt) → CollectsAll (stmtTrees ss) (collectStmts (lowerStmts ss))
  | [] => .nil
  | .let_ sp p v :: ss => by
      have h := CollectsAll.cons
        (Collects.wrap (sp := sp) (.cons (collects_pat p) (.one (collects_expr v)))) (collects_stmts ss)
      simpa [stmtTrees, lowerStmts, collectStmts] using h
  | .expr _ e :: ss => .cons (.wrap (.one (collects_expr e))) (collects_stmts ss)

theorem collects_arms : (as : List Arm) → CollectsAll (armTrees as) (collectArms (lowerArms as))
  | [] => .nil
  | .mk sp p g b :: as => by
      have h := CollectsAll.cons (Collects.plain (sp := sp)
        (.cons (collects_pat p) ((collects_opt g).append (.one (collects_expr b)))))
        (collects_arms as)
      simpa [armTrees, lowerArms, collectArms] using h

theorem collects_handlers : (hs : List Handler) →
    CollectsAll (handlerTrees hs) (collectHandlers (lowerHandlers hs))
  | [] => .nil
  | .do_ sp p b :: hs => by
      have h := CollectsAll.cons (Collects.plain (sp := sp)
        (.cons (collects_pat p) (.one (collects_expr b)))) (collects_handlers hs)
      simpa [handlerTrees, lowerHandlers, collectHandlers] using h
  | .op sp a ps b :: hs => by
      have h := CollectsAll.cons (Collects.owned (sp := sp) (ty := a)
        ((collects_pats ps).append (.one (collects_expr b)))) (collects_handlers hs)
      simpa [handlerTrees, lowerHandlers, collectHandlers] using h

end

mutual

theorem collects_decl : (d : Decl) → CollectsAll (declTrees d) (collectDecl (lowerDecl d))
  | .function body => .one (collects_expr body)
  | .other => .nil
  | .module body => collects_decls body

theorem collects_decls : (ds : List Decl) → CollectsAll (fileTrees ds) (collectDecls (lowerDecls ds))
  | [] => .nil
  | d :: ds => (collects_decl d).append (collects_decls ds)

end

/-! ### Where entries are -/

theorem Span.Within.refl (s : Span) : s.Within s := ⟨Nat.le_refl _, Nat.le_refl _⟩

theorem Span.Within.trans {a b c : Span} (h : a.Within b) (h' : b.Within c) : a.Within c :=
  ⟨Nat.le_trans h'.1 h.1, Nat.le_trans h.2 h'.2⟩

theorem Span.Has.mono {a b : Span} {o : Nat} (h : a.Has o) (hw : a.Within b) : b.Has o :=
  ⟨Nat.le_trans hw.1 h.1, Nat.lt_of_lt_of_le h.2 hw.2⟩

theorem Span.Apart.symm {a b : Span} (h : a.Apart b) : b.Apart a := fun o hb ha => h o ha hb

theorem Span.Within.antisymm {a b : Span} (h : a.Within b) (h' : b.Within a) : a = b := by
  cases a; cases b
  simp only [Span.Within, Span.mk.injEq] at *
  omega

mutual

/-- Every entry has the range of a piece of syntax of the tree. -/
theorem collects_range {t : Tree} {l : List Entry} : Collects t l → ∀ e ∈ l,
    ∃ u, Contains t u ∧ u.span = e.span
  | .leaf, e, he => by
      cases List.mem_singleton.mp he
      exact ⟨_, .here, rfl⟩
  | .node (sp := sp) (kids := kids) (own := own) (l := l) (post := post) h1 h2 h3, e, he => by
      simp only [List.mem_append] at he
      rcases he with he | he | he
      · exact ⟨_, .here, (h1 e he).symm⟩
      · obtain ⟨k, hk, u, hu, hs⟩ := collectsAll_range h2 e he
        exact ⟨u, .node hk hu, hs⟩
      · rcases h3 e he with h | ⟨k, hk, h⟩
        · exact ⟨_, .here, h.symm⟩
        · exact ⟨k, .node hk .here, h.symm⟩
  | .wrap h, e, he => by
      obtain ⟨k, hk, u, hu, hs⟩ := collectsAll_range h e he
      exact ⟨u, .wrap hk hu, hs⟩

theorem collectsAll_range {ts : List Tree} {l : List Entry} : CollectsAll ts l → ∀ e ∈ l,
    ∃ t ∈ ts, ∃ u, Contains t u ∧ u.span = e.span
  | .nil, e, he => by cases he
  | .cons h hs, e, he => by
      rcases List.mem_append.mp he with he | he
      · obtain ⟨u, hu, h'⟩ := collects_range h e he
        exact ⟨_, List.mem_cons_self, u, hu, h'⟩
      · obtain ⟨t, ht, h'⟩ := collectsAll_range hs e he
        exact ⟨t, List.mem_cons_of_mem _ ht, h'⟩

end

/-- Everything in a tree lies inside it. -/
theorem contains_within {t u : Tree} (hn : Nested t) (h : Contains t u) : u.span.Within t.span := by
  induction h with
  | here => exact .refl _
  | node hk _ ih =>
    cases hn with
    | node h1 h2 h3 => exact (ih (h3 _ hk)).trans (h1 _ hk).1
  | wrap hk _ ih =>
    cases hn with
    | wrap h1 h2 h3 => exact (ih (h3 _ hk)).trans (h1 _ hk)

theorem entry_within {t : Tree} {l : List Entry} (hn : Nested t) (h : Collects t l) {e : Entry}
    (he : e ∈ l) : e.span.Within t.span := by
  obtain ⟨u, hu, hs⟩ := collects_range h e he
  rw [← hs]; exact contains_within hn hu

/-- The entries around a leaf: those that contain the offset contain the leaf, and
those before it are larger. -/
def Around (sp : Span) (o : Nat) (pre post : List Entry) : Prop :=
  (∀ e ∈ pre, e.span.Has o → sp.Within e.span ∧ e.span ≠ sp) ∧
    (∀ e ∈ post, e.span.Has o → sp.Within e.span)

theorem nested_node {sp : Span} {kids : List Tree} (h : Nested (.node sp kids)) :
    (∀ k ∈ kids, k.span.Within sp ∧ k.span ≠ sp) ∧
      kids.Pairwise (fun a b => a.span.Apart b.span) ∧ ∀ k ∈ kids, Nested k := by
  cases h with
  | node h1 h2 h3 => exact ⟨h1, h2, h3⟩

theorem nested_wrap {sp : Span} {kids : List Tree} (h : Nested (.wrap sp kids)) :
    kids.Pairwise (fun a b => a.span.Apart b.span) ∧ ∀ k ∈ kids, Nested k := by
  cases h with
  | wrap h1 h2 h3 => exact ⟨h2, h3⟩

theorem contains_node {sp s : Span} {ty : Ty} {kids : List Tree}
    (h : Contains (.node sp kids) (.leaf s ty)) : ∃ k ∈ kids, Contains k (.leaf s ty) := by
  cases h with
  | node hk h => exact ⟨_, hk, h⟩

theorem contains_wrap {sp s : Span} {ty : Ty} {kids : List Tree}
    (h : Contains (.wrap sp kids) (.leaf s ty)) : ∃ k ∈ kids, Contains k (.leaf s ty) := by
  cases h with
  | wrap hk h => exact ⟨_, hk, h⟩

theorem apart_of_mem {ts : List Tree} (h : ts.Pairwise (fun a b => a.span.Apart b.span))
    {a b : Tree} (ha : a ∈ ts) (hb : b ∈ ts) (hne : a ≠ b) : a.span.Apart b.span := by
  have : Std.Symm (fun a b : Tree => a.span.Apart b.span) := ⟨fun _ _ h => Span.Apart.symm h⟩
  exact h.forall ha hb hne

mutual

theorem around {t : Tree} {l : List Entry} {sp : Span} {ty : Ty} {o : Nat} (ho : sp.Has o) :
    Collects t l → Nested t → Contains t (.leaf sp ty) →
    ∃ pre post, l = pre ++ ⟨sp, ty⟩ :: post ∧ Around sp o pre post
  | .leaf, _, hc => by
      cases hc
      exact ⟨[], [], rfl, by simp, by simp⟩
  | .node (sp := s) (kids := kids) (own := own) (l := l) (post := tail) h1 h2 h3, hn, hc => by
      obtain ⟨n1, n2, n3⟩ := nested_node hn
      obtain ⟨k, hk, hc'⟩ := contains_node hc
      obtain ⟨pre, post, he, ha, hb⟩ := around_all ho h2 n2 n3 k hk hc'
      have hin : sp.Within k.span := contains_within (n3 k hk) hc'
      refine ⟨own ++ pre, post ++ tail, by simp [he], ?_, ?_⟩
      · intro e he' heo
        rcases List.mem_append.mp he' with he' | he'
        · rw [h1 e he']
          refine ⟨hin.trans (n1 k hk).1, ?_⟩
          intro hs
          apply (n1 k hk).2
          have h' : k.span.Within sp := hs ▸ (n1 k hk).1
          exact (Span.Within.antisymm h' hin).trans hs.symm
        · exact ha e he' heo
      · intro e he' heo
        rcases List.mem_append.mp he' with he' | he'
        · exact hb e he' heo
        · rcases h3 e he' with h | ⟨k', hk', h⟩
          · rw [h]; exact hin.trans (n1 k hk).1
          · rw [h]
            by_cases hkk : k = k'
            · exact hkk ▸ hin
            · exact absurd (h ▸ heo) (apart_of_mem n2 hk hk' hkk o (ho.mono hin))
  | .wrap h2, hn, hc => by
      obtain ⟨n2, n3⟩ := nested_wrap hn
      obtain ⟨k, hk, hc'⟩ := contains_wrap hc
      exact around_all ho h2 n2 n3 k hk hc'

theorem around_all {ts : List Tree} {l : List Entry} {sp : Span} {ty : Ty} {o : Nat}
    (ho : sp.Has o) : CollectsAll ts l →
    ts.Pairwise (fun a b => a.span.Apart b.span) → (∀ t ∈ ts, Nested t) →
    ∀ k, k ∈ ts → Contains k (.leaf sp ty) →
    ∃ pre post, l = pre ++ ⟨sp, ty⟩ :: post ∧ Around sp o pre post
  | .nil, _, _, k, hk, _ => by cases hk
  | .cons (t := t) (ts := ts) (l := l) (l' := l') h hs, hp, hn, k, hk, hc => by
      have hp' := List.pairwise_cons.mp hp
      rcases List.mem_cons.mp hk with hkt | hk'
      · have hnk := hn t List.mem_cons_self
        have hct : Contains t (.leaf sp ty) := hkt ▸ hc
        obtain ⟨pre, post, he, ha, hb⟩ := around ho h hnk hct
        refine ⟨pre, post ++ l', by simp [he], ha, ?_⟩
        intro e he' heo
        rcases List.mem_append.mp he' with he' | he'
        · exact hb e he' heo
        · exfalso
          obtain ⟨t', ht', u, hu, hsu⟩ := collectsAll_range hs e he'
          have h1 := contains_within (hn t' (List.mem_cons_of_mem _ ht')) hu
          exact hp'.1 t' ht' o (ho.mono (contains_within hnk hct))
            ((hsu ▸ heo : u.span.Has o).mono h1)
      · obtain ⟨pre, post, he, ha, hb⟩ :=
          around_all ho hs hp'.2 (fun t ht => hn t (List.mem_cons_of_mem _ ht)) k hk' hc
        refine ⟨l ++ pre, post, by simp [he], ?_, hb⟩
        intro e he' heo
        rcases List.mem_append.mp he' with he' | he'
        · exfalso
          have h1 := entry_within (hn t List.mem_cons_self) h he'
          have h2 := contains_within (hn k (List.mem_cons_of_mem _ hk')) hc
          exact hp'.1 k hk' o (heo.mono h1) (ho.mono h2)
        · exact ha e he' heo

end

theorem hover_leaf {file : List Decl} {sp : Span} {ty : Ty} {o : Nat}
    (hn : WellNested file) (hl : HasLeaf file sp ty) (ho : sp.Has o) :
    hover file o = some ⟨sp, ty⟩ := by
  obtain ⟨t, ht, hc⟩ := hl
  obtain ⟨pre, post, he, ha, hb⟩ := around_all ho (collects_decls file) hn.2 hn.1 t ht hc
  unfold hover buildIndex
  rw [he]
  apply typeAt_eq ho
  · intro e he' heo
    rcases List.mem_append.mp he' with he' | he'
    · exact (ha e he' heo).1
    · rcases List.mem_cons.mp he' with rfl | he'
      · exact .refl _
      · exact hb e he' heo
  · intro e he' hs
    exact (ha e he' (hs ▸ ho)).2 hs

theorem hover_range {file : List Decl} {o : Nat} {e : Entry} (h : hover file o = some e) :
    e.span.Has o ∧ HasRange file e.span := by
  obtain ⟨hm, ho⟩ := typeAt_mem h
  exact ⟨ho, collectsAll_range (collects_decls file) e hm⟩

end Verif.Hover
