import Verif.Scope.Rename
/-!
# What the definition index holds
-/
namespace Verif.Scope

open NameEnv (Symbol Binding Env Map)

/-- A definition entry of a local name. -/
def entryOf (d : DefEntry) : Option (Symbol × Span × Nat × Bool) :=
  d.id.map fun i => (d.name, d.span, i, d.kind == .local_ || d.kind == .parameter)

def Binder.entry (b : Binder) : Option (Symbol × Span × Nat × Bool) :=
  b.name.map fun x => (x, b.node, b.id, true)

theorem defs_append (a b : Index) : (a ++ b).defs = a.defs ++ b.defs := rfl
theorem refs_append (a b : Index) : (a ++ b).refs = a.refs ++ b.refs := rfl

def entries (i : Index) : List (Symbol × Span × Nat × Bool) := i.defs.filterMap entryOf

theorem entries_append (a b : Index) : entries (a ++ b) = entries a ++ entries b := by
  simp only [entries, defs_append, List.filterMap_append]

def bentries (bs : List Binder) : List (Symbol × Span × Nat × Bool) := bs.filterMap Binder.entry

theorem bentries_append (a b : List Binder) : bentries (a ++ b) = bentries a ++ bentries b := by
  simp only [bentries, List.filterMap_append]

theorem entries_head (short : String → Symbol) (sp : Span) (h : Option Ref) :
    entries (referHead short sp h) = [] := by cases h <;> rfl

theorem entries_params : ∀ ps : List Param, entries (collectParams ps) = bentries (bindersParams ps)
  | [] => rfl
  | p :: ps => by
    simp only [collectParams, bindersParams, entries_append, bentries_append, entries_params ps]
    congr 1
    cases h : p.id <;> simp [entries, define, entryOf, bentries, Binder.entry, h]

mutual
theorem entries_pat (short : String → Symbol) :
    ∀ p : Pat Ref, entries (collectPat short p) = bentries (bindersPat p)
  | .leaf => rfl
  | .bind sp x id => by cases id <;> rfl
  | .con sp h ps => by
    simp only [collectPat, bindersPat, entries_append, entries_head, entries_pats short ps,
      List.nil_append]
  | .short sp x => rfl
  | .field x p => by simp only [collectPat, bindersPat, entries_pat short p]
  | .listRest sp ps rest id => by
    simp only [collectPat, bindersPat, entries_append, bentries_append, entries_pats short ps]
    congr 1
    rcases rest with _ | ⟨x, tok⟩ <;> cases id <;> rfl
  | .asP sp p x tok id => by
    simp only [collectPat, bindersPat, entries_append, bentries_append, entries_pat short p]
    congr 1
    cases id <;> rfl
theorem entries_pats (short : String → Symbol) :
    ∀ ps : Pats Ref, entries (collectPats short ps) = bentries (bindersPats ps)
  | .nil => rfl
  | .cons p ps => by
    simp only [collectPats, bindersPats, entries_append, bentries_append, entries_pat short p,
      entries_pats short ps]
end

mutual
theorem entries_expr (short : String → Symbol) :
    ∀ e : Expr Ref, entries (collectExpr short e) = bentries (bindersExpr e)
  | .var sp r => rfl
  | .leaf => rfl
  | .node sp h kids => by
    simp only [collectExpr, bindersExpr, entries_append, entries_head, entries_exprs short kids,
      List.nil_append]
  | .block ss v => by
    simp only [collectExpr, bindersExpr, entries_append, bentries_append, entries_stmts short ss,
      entries_expr short v]
  | .cases e arms => by
    simp only [collectExpr, bindersExpr, entries_append, bentries_append, entries_expr short e,
      entries_arms short arms]
  | .lam ps b => by
    simp only [collectExpr, bindersExpr, entries_append, bentries_append, entries_params,
      entries_expr short b]
  | .resume e _ => by simp only [collectExpr, bindersExpr, entries_expr short e]
theorem entries_exprs (short : String → Symbol) :
    ∀ es : Exprs Ref, entries (collectExprs short es) = bentries (bindersExprs es)
  | .nil => rfl
  | .cons e es => by
    simp only [collectExprs, bindersExprs, entries_append, bentries_append, entries_expr short e,
      entries_exprs short es]
theorem entries_stmts (short : String → Symbol) :
    ∀ ss : Stmts Ref, entries (collectStmts short ss) = bentries (bindersStmts ss)
  | .nil => rfl
  | .bind p v ss => by
    simp only [collectStmts, bindersStmts, entries_append, bentries_append, entries_pat,
      entries_expr short v, entries_stmts short ss]
  | .expr e ss => by
    simp only [collectStmts, bindersStmts, entries_append, bentries_append, entries_expr short e,
      entries_stmts short ss]
theorem entries_arms (short : String → Symbol) :
    ∀ as : Arms Ref, entries (collectArms short as) = bentries (bindersArms as)
  | .nil => rfl
  | .cons sp k ps g b rest => by
    simp only [collectArms, bindersArms, entries_append, bentries_append, entries_pats,
      entries_exprs short g, entries_expr short b, entries_arms short rest]
    congr 1
    rcases k with _ | a | ⟨a, id⟩
    · rfl
    · rfl
    · cases id <;> rfl
end

theorem entries_members (k : DefKind) : ∀ ms : List (Span × Symbol), entries (collectMembers k ms) = []
  | [] => rfl
  | (sp, x) :: ms => by
    simp only [collectMembers, entries_append, entries_members k ms, List.append_nil]
    rfl

theorem entries_define (sp : Span) (x : Symbol) (k : DefKind) : entries (define sp x k none) = [] := rfl

mutual
theorem entries_decl (short : String → Symbol) :
    ∀ d : Decl Ref, entries (collectDecl short d) = bentries (bindersDecl d)
  | .func sp tok x ps eff b => by
    simp only [collectDecl, bindersDecl, entries_append, bentries_append, entries_params, entries_expr,
      entries_define, List.nil_append]
  | .extern sp tok x ps => by
    simp only [collectDecl, bindersDecl, entries_append, entries_define, entries_members, List.nil_append]
    rfl
  | .struct_ sp tok x ps => by
    simp only [collectDecl, bindersDecl, entries_append, entries_define, entries_members, List.nil_append]
    rfl
  | .enum sp tok x ps => by
    simp only [collectDecl, bindersDecl, entries_append, entries_define, entries_members, List.nil_append]
    rfl
  | .ability sp tok x ps => by
    simp only [collectDecl, bindersDecl, entries_append, entries_define, entries_members, List.nil_append]
    rfl
  | .use => rfl
  | .mod x ds => by simp only [collectDecl, bindersDecl, entries_decls short ds]
theorem entries_decls (short : String → Symbol) :
    ∀ ds : Decls Ref, entries (collectDecls short ds) = bentries (bindersDecls ds)
  | .nil => rfl
  | .cons d ds => by
    simp only [collectDecls, bindersDecls, entries_append, bentries_append, entries_decl short d,
      entries_decls short ds]
end

/-! ## References -/

def Mention.entry (short : String → Symbol) (q : Mention) : RefEntry := ⟨q.span, target short q.ref⟩

theorem refs_head (short : String → Symbol) (sp : Span) (h : Option Ref) :
    (referHead short sp h).refs = (mentionHead sp h).map (Mention.entry short) := by cases h <;> rfl

theorem refs_params : ∀ ps : List Param, (collectParams ps).refs = []
  | [] => rfl
  | p :: ps => by simp only [collectParams, refs_append, refs_params ps]; rfl

mutual
theorem refs_pat (short : String → Symbol) :
    ∀ p : Pat Ref, (collectPat short p).refs = (mentionsPat p).map (Mention.entry short)
  | .leaf => rfl
  | .bind sp x id => rfl
  | .con sp h ps => by
    simp only [collectPat, mentionsPat, refs_append, refs_head, refs_pats short ps, List.map_append]
  | .short sp x => rfl
  | .field x p => by simp only [collectPat, mentionsPat, refs_pat short p]
  | .listRest sp ps rest id => by
    simp only [collectPat, mentionsPat, refs_append, refs_pats short ps]
    rcases rest with _ | ⟨x, tok⟩ <;> exact List.append_nil _
  | .asP sp p x tok id => by
    simp only [collectPat, mentionsPat, refs_append, refs_pat short p]
    exact List.append_nil _
theorem refs_pats (short : String → Symbol) :
    ∀ ps : Pats Ref, (collectPats short ps).refs = (mentionsPats ps).map (Mention.entry short)
  | .nil => rfl
  | .cons p ps => by
    simp only [collectPats, mentionsPats, refs_append, List.map_append, refs_pat short p,
      refs_pats short ps]
end

mutual
theorem refs_expr (short : String → Symbol) :
    ∀ e : Expr Ref, (collectExpr short e).refs = (mentionsExpr e).map (Mention.entry short)
  | .var sp r => rfl
  | .leaf => rfl
  | .node sp h kids => by
    simp only [collectExpr, mentionsExpr, refs_append, refs_head, refs_exprs short kids,
      List.map_append]
  | .block ss v => by
    simp only [collectExpr, mentionsExpr, refs_append, List.map_append, refs_stmts short ss,
      refs_expr short v]
  | .cases e arms => by
    simp only [collectExpr, mentionsExpr, refs_append, List.map_append, refs_expr short e,
      refs_arms short arms]
  | .lam ps b => by
    simp only [collectExpr, mentionsExpr, refs_append, refs_params, refs_expr short b, List.nil_append]
  | .resume e _ => by simp only [collectExpr, mentionsExpr, refs_expr short e]
theorem refs_exprs (short : String → Symbol) :
    ∀ es : Exprs Ref, (collectExprs short es).refs = (mentionsExprs es).map (Mention.entry short)
  | .nil => rfl
  | .cons e es => by
    simp only [collectExprs, mentionsExprs, refs_append, List.map_append, refs_expr short e,
      refs_exprs short es]
theorem refs_stmts (short : String → Symbol) :
    ∀ ss : Stmts Ref, (collectStmts short ss).refs = (mentionsStmts ss).map (Mention.entry short)
  | .nil => rfl
  | .bind p v ss => by
    simp only [collectStmts, mentionsStmts, refs_append, List.map_append, refs_pat,
      refs_expr short v, refs_stmts short ss]
  | .expr e ss => by
    simp only [collectStmts, mentionsStmts, refs_append, List.map_append, refs_expr short e,
      refs_stmts short ss]
theorem refs_arms (short : String → Symbol) :
    ∀ as : Arms Ref, (collectArms short as).refs = (mentionsArms as).map (Mention.entry short)
  | .nil => rfl
  | .cons sp k ps g b rest => by
    simp only [collectArms, mentionsArms, refs_append, List.map_append, refs_pats,
      refs_exprs short g, refs_expr short b, refs_arms short rest]
    congr 1
    rcases k with _ | a | ⟨a, id⟩ <;> rfl
end

theorem refs_members (k : DefKind) : ∀ ms : List (Span × Symbol), (collectMembers k ms).refs = []
  | [] => rfl
  | (sp, x) :: ms => by simp only [collectMembers, refs_append, refs_members k ms]; rfl

theorem refs_define (sp : Span) (x : Symbol) (k : DefKind) (id : Option Nat) :
    (define sp x k id).refs = [] := rfl

mutual
theorem refs_decl (short : String → Symbol) :
    ∀ d : Decl Ref, (collectDecl short d).refs = (mentionsDecl d).map (Mention.entry short)
  | .func sp tok x ps eff b => by
    simp only [collectDecl, mentionsDecl, refs_append, refs_params, refs_expr, refs_define,
      List.nil_append]
  | .extern sp tok x ps => by
    simp only [collectDecl, mentionsDecl, refs_append, refs_define, refs_members]; rfl
  | .struct_ sp tok x ps => by
    simp only [collectDecl, mentionsDecl, refs_append, refs_define, refs_members]; rfl
  | .enum sp tok x ps => by
    simp only [collectDecl, mentionsDecl, refs_append, refs_define, refs_members]; rfl
  | .ability sp tok x ps => by
    simp only [collectDecl, mentionsDecl, refs_append, refs_define, refs_members]; rfl
  | .use => rfl
  | .mod x ds => by simp only [collectDecl, mentionsDecl, refs_decls short ds]
theorem refs_decls (short : String → Symbol) :
    ∀ ds : Decls Ref, (collectDecls short ds).refs = (mentionsDecls ds).map (Mention.entry short)
  | .nil => rfl
  | .cons d ds => by
    simp only [collectDecls, mentionsDecls, refs_append, List.map_append, refs_decl short d,
      refs_decls short ds]
end

/-! ## References to local names are mentions -/

def locals (ms : List Mention) : List LocalRef := ms.flatMap fun q => localRef q.span q.ref

theorem locals_append (a b : List Mention) : locals (a ++ b) = locals a ++ locals b := by
  simp [locals]

theorem locals_head (sp : Span) (h : Option Ref) : locals (mentionHead sp h) = localHead sp h := by
  cases h <;> simp [locals, mentionHead, localHead]

theorem locals_one (sp : Span) (r : Ref) (v : Bool) : locals [⟨sp, r, v⟩] = localRef sp r := by
  simp [locals]

mutual
theorem locals_pat : ∀ p : Pat Ref, localsPat p = locals (mentionsPat p)
  | .leaf => rfl
  | .bind _ _ _ => rfl
  | .con sp h ps => by simp only [localsPat, mentionsPat, locals_append, locals_head, locals_pats ps]
  | .short _ _ => rfl
  | .field _ p => by simp only [localsPat, mentionsPat, locals_pat p]
  | .listRest _ ps _ _ => by simp only [localsPat, mentionsPat, locals_pats ps]
  | .asP _ p _ _ _ => by simp only [localsPat, mentionsPat, locals_pat p]
theorem locals_pats : ∀ ps : Pats Ref, localsPats ps = locals (mentionsPats ps)
  | .nil => rfl
  | .cons p ps => by simp only [localsPats, mentionsPats, locals_append, locals_pat p, locals_pats ps]
end

mutual
theorem locals_expr : ∀ e : Expr Ref, localsExpr e = locals (mentionsExpr e)
  | .var sp r => (locals_one sp r true).symm
  | .leaf => rfl
  | .node sp h kids => by
    simp only [localsExpr, mentionsExpr, locals_append, locals_head, locals_exprs kids]
  | .block ss v => by
    simp only [localsExpr, mentionsExpr, locals_append, locals_stmts ss, locals_expr v]
  | .cases e arms => by
    simp only [localsExpr, mentionsExpr, locals_append, locals_expr e, locals_arms arms]
  | .lam _ b => by simp only [localsExpr, mentionsExpr, locals_expr b]
  | .resume e _ => by simp only [localsExpr, mentionsExpr, locals_expr e]
theorem locals_exprs : ∀ es : Exprs Ref, localsExprs es = locals (mentionsExprs es)
  | .nil => rfl
  | .cons e es => by
    simp only [localsExprs, mentionsExprs, locals_append, locals_expr e, locals_exprs es]
theorem locals_stmts : ∀ ss : Stmts Ref, localsStmts ss = locals (mentionsStmts ss)
  | .nil => rfl
  | .bind p v ss => by
    simp only [localsStmts, mentionsStmts, locals_append, locals_pat p, locals_expr v, locals_stmts ss]
  | .expr e ss => by
    simp only [localsStmts, mentionsStmts, locals_append, locals_expr e, locals_stmts ss]
theorem locals_arms : ∀ as : Arms Ref, localsArms as = locals (mentionsArms as)
  | .nil => rfl
  | .cons sp k ps g b rest => by
    simp only [localsArms, mentionsArms, locals_append, locals_pats ps, locals_exprs g, locals_expr b,
      locals_arms rest]
    congr 1
    rcases k with _ | a | ⟨a, id⟩
    · rfl
    · exact (locals_one _ _ _).symm
    · exact (locals_one _ _ _).symm
end

mutual
theorem locals_decl : ∀ d : Decl Ref, localsDecl d = locals (mentionsDecl d)
  | .func _ _ _ _ _ b => by simp only [localsDecl, mentionsDecl, locals_expr b]
  | .mod _ ds => by simp only [localsDecl, mentionsDecl, locals_decls ds]
  | .extern _ _ _ _ => rfl
  | .struct_ _ _ _ _ => rfl
  | .enum _ _ _ _ => rfl
  | .ability _ _ _ _ => rfl
  | .use => rfl
theorem locals_decls : ∀ ds : Decls Ref, localsDecls ds = locals (mentionsDecls ds)
  | .nil => rfl
  | .cons d ds => by
    simp only [localsDecls, mentionsDecls, locals_append, locals_decl d, locals_decls ds]
end

/-! ## Queries -/

theorem minBy_mem {α : Type} (key : α → Nat) : ∀ {l : List α} {a : α}, minBy key l = some a →
    a ∈ l ∧ ∀ b ∈ l, key a ≤ key b
  | [], _, h => by cases h
  | c :: cs, a, h => by
    simp only [minBy] at h
    cases hm : minBy key cs with
    | none =>
      rw [hm] at h
      cases h
      have : cs = [] := by
        cases cs with
        | nil => rfl
        | cons d ds =>
          simp only [minBy] at hm
          split at hm
          · cases hm
          · split at hm <;> cases hm
      subst this
      simp
    | some b =>
      obtain ⟨h1, h2⟩ := minBy_mem key hm
      rw [hm] at h
      simp only at h
      split at h
      · rename_i hle
        cases h
        refine ⟨List.mem_cons_self, fun d hd => ?_⟩
        rcases List.mem_cons.mp hd with rfl | hd
        · exact Nat.le_refl _
        · exact Nat.le_trans hle (h2 d hd)
      · rename_i hle
        cases h
        refine ⟨List.mem_cons_of_mem _ h1, fun d hd => ?_⟩
        rcases List.mem_cons.mp hd with rfl | hd
        · omega
        · exact h2 d hd

theorem minBy_some {α : Type} (key : α → Nat) {l : List α} (h : l ≠ []) : ∃ a, minBy key l = some a := by
  cases l with
  | nil => exact absurd rfl h
  | cons c cs =>
    simp only [minBy]
    split
    · exact ⟨_, rfl⟩
    · split <;> exact ⟨_, rfl⟩

theorem insertBy_perm {α : Type} (le : α → α → Bool) (a : α) : ∀ l : List α,
    (insertBy le a l).Perm (a :: l)
  | [] => List.Perm.refl _
  | b :: bs => by
    simp only [insertBy]
    split
    · exact List.Perm.refl _
    · exact ((insertBy_perm le a bs).cons b).trans (List.Perm.swap a b bs)

theorem sortBy_perm {α : Type} (le : α → α → Bool) : ∀ l : List α, (sortBy le l).Perm l
  | [] => List.Perm.refl _
  | a :: as => (insertBy_perm le a _).trans ((sortBy_perm le as).cons a)

theorem mem_build_defs {short m} {d : DefEntry} :
    d ∈ (build short m).defs ↔ d ∈ (collectDecls short m).defs := (sortBy_perm _ _).mem_iff

theorem mem_build_refs {short m} {r : RefEntry} :
    r ∈ (build short m).refs ↔ ∃ q ∈ mentionsDecls m, Mention.entry short q = r := by
  rw [show (r ∈ (build short m).refs ↔ r ∈ (collectDecls short m).refs) from (sortBy_perm _ _).mem_iff,
    refs_decls, List.mem_map]

theorem def_binder {short m} {d : DefEntry} {i : Nat} (hd : d ∈ (build short m).defs)
    (hi : d.id = some i) : ∃ b ∈ bindersDecls m, b.name = some d.name ∧ b.node = d.span ∧ b.id = i ∧
      (d.kind = .local_ ∨ d.kind = .parameter) := by
  have h : (d.name, d.span, i, (d.kind == .local_ || d.kind == .parameter)) ∈
      entries (collectDecls short m) := by
    simp only [entries, List.mem_filterMap]
    exact ⟨d, mem_build_defs.mp hd, by simp [entryOf, hi]⟩
  rw [entries_decls] at h
  simp only [bentries, List.mem_filterMap] at h
  obtain ⟨b, hb, he⟩ := h
  refine ⟨b, hb, ?_⟩
  cases hn : b.name with
  | none => simp [Binder.entry, hn] at he
  | some x =>
    simp only [Binder.entry, hn, Option.map_some, Option.some.injEq, Prod.mk.injEq] at he
    obtain ⟨h1, h2, h3, h4⟩ := he
    refine ⟨by rw [h1], h2, h3, ?_⟩
    simpa using h4.symm

theorem binder_def {short m} {b : Binder} {x : Symbol} (hb : b ∈ bindersDecls m)
    (hx : b.name = some x) : ∃ d ∈ (build short m).defs, d.name = x ∧ d.id = some b.id := by
  have h : (x, b.node, b.id, true) ∈ bentries (bindersDecls m) := by
    simp only [bentries, List.mem_filterMap]
    exact ⟨b, hb, by simp [Binder.entry, hx]⟩
  rw [← entries_decls short] at h
  simp only [entries, List.mem_filterMap] at h
  obtain ⟨d, hd, he⟩ := h
  refine ⟨d, mem_build_defs.mpr hd, ?_⟩
  cases hi : d.id with
  | none => simp [entryOf, hi] at he
  | some i =>
    simp only [entryOf, hi, Option.map_some, Option.some.injEq, Prod.mk.injEq] at he
    exact ⟨he.1, by rw [he.2.2.1]⟩

/-- Where the words are that a rename may have to change: the named binders and the variables. -/
theorem binder_unique {env : Env} {m : Decls Occ} {b b' : Binder}
    (hb : b ∈ bindersDecls (resolveModule env m).1) (hb' : b' ∈ bindersDecls (resolveModule env m).1)
    (h : b'.id = b.id) : b' = b :=
  List.inj_on_of_nodup_map (module_ok env m).2.1 hb' hb h

theorem loc_binder {env : Env} {m : Decls Occ} {q : Mention} {i : Nat} {x : Symbol}
    (hq : q ∈ mentionsDecls (resolveModule env m).1) (hr : q.ref = .loc i x) :
    ∃ b ∈ bindersDecls (resolveModule env m).1, b.name = some x ∧ b.id = i := by
  have h : (⟨x, q.span, i⟩ : LocalRef) ∈ localsDecls (resolveModule env m).1 := by
    rw [locals_decls]
    simp only [locals, List.mem_flatMap]
    exact ⟨q, hq, by simp [localRef, hr]⟩
  exact (module_ok env m).2.2 _ h

theorem target_loc {short : String → Symbol} {r : Ref} {i : Nat} {x : Symbol} :
    target short r = .loc (some i) x ↔ r = .loc i x := by
  cases r <;> simp [target]

theorem defAt_local {env : Env} {m : Decls Occ} {short : String → Symbol} {off : Nat} {q : Mention}
    {i : Nat} {x : Symbol} (hq : q ∈ mentionsDecls (resolveModule env m).1) (hr : q.ref = .loc i x)
    (ho : q.span.has off = true)
    (hmin : ∀ q' ∈ mentionsDecls (resolveModule env m).1, q'.span.has off = true →
      q'.span.size ≤ q.span.size → q'.ref = q.ref) :
    ∃ b ∈ bindersDecls (resolveModule env m).1, b.name = some x ∧ b.id = i ∧
      ∃ d, (build short (resolveModule env m).1).defAt off = some d ∧ d.name = x ∧ d.span = b.node := by
  obtain ⟨b, hb, hbn, hbi⟩ := loc_binder hq hr
  refine ⟨b, hb, hbn, hbi, ?_⟩
  have hne : ((build short (resolveModule env m).1).refs.filter fun e => e.span.has off) ≠ [] := by
    apply List.ne_nil_of_mem (a := Mention.entry short q)
    rw [List.mem_filter]
    exact ⟨mem_build_refs.mpr ⟨q, hq, rfl⟩, ho⟩
  obtain ⟨r, hmr⟩ := minBy_some (fun e : RefEntry => e.span.hi - e.span.lo) hne
  obtain ⟨h1, h2⟩ := minBy_mem _ hmr
  rw [List.mem_filter] at h1
  obtain ⟨q', hq', rfl⟩ := mem_build_refs.mp h1.1
  have hle := h2 (Mention.entry short q) (by
    rw [List.mem_filter]; exact ⟨mem_build_refs.mpr ⟨q, hq, rfl⟩, ho⟩)
  have href := hmin q' hq' h1.2 hle
  have ht : target short q'.ref = .loc (some i) x := by rw [href, hr]; rfl
  obtain ⟨d0, hd0, hn0, hi0⟩ := binder_def (short := short) hb hbn
  have hf : ((build short (resolveModule env m).1).defs.find? fun d =>
      d.name == x && (some i).isSome && d.id == some i).isSome := by
    rw [List.find?_isSome]
    exact ⟨d0, hd0, by simp [hn0, hi0, hbi]⟩
  obtain ⟨d, hd⟩ := Option.isSome_iff_exists.mp hf
  refine ⟨d, ?_, ?_⟩
  · simp only [Index.defAt, Index.refAt, hmr]
    rw [show (Mention.entry short q').target = .loc (some i) x from ht]
    exact hd
  · have hp := List.find?_some hd
    have hmem := List.mem_of_find?_eq_some hd
    simp only [Option.isSome_some, Bool.and_true, Bool.and_eq_true, beq_iff_eq] at hp
    obtain ⟨b', hb', h3, h4, h5, _⟩ := def_binder hmem hp.2
    have : b' = b := binder_unique hb hb' (by rw [h5, hbi])
    subst this
    exact ⟨hp.1, h4.symm⟩

theorem defOf_mem {i : Index} {t : Target} {d : DefEntry} (h : i.defOf t = some d) : d ∈ i.defs := by
  unfold Index.defOf at h
  split at h <;> exact List.mem_of_find?_eq_some h

theorem canRename_mem {i : Index} {off : Nat} {d : DefEntry} (h : i.canRename off = some d) :
    d ∈ i.defs := by
  unfold Index.canRename at h
  split at h
  · rename_i d' hd
    cases h
    unfold Index.defAt at hd
    split at hd
    · cases hd
    · exact defOf_mem hd
  · exact (List.mem_filter.mp (minBy_mem _ h).1).1

/-- What a rename request about a local name edits. -/
theorem rename_edits {env : Env} {m : Decls Occ} {short : String → Symbol} {off : Nat} {y : Symbol}
    {d : DefEntry} {b : Binder} {edits : List Edit}
    (hd : (build short (resolveModule env m).1).canRename off = some d)
    (hb : b ∈ bindersDecls (resolveModule env m).1) (hid : d.id = some b.id)
    (hr : (build short (resolveModule env m).1).rename off y = some edits) :
    b.name = some d.name ∧ edits = ⟨b.node, y⟩ :: (((build short (resolveModule env m).1).refs.filter
      fun r => r.target.name == d.name && r.target.id? == some (some b.id)).map fun r => ⟨r.span, y⟩) := by
  obtain ⟨b', hb', h1, h2, h3, h4⟩ := def_binder (canRename_mem hd) hid
  have : b' = b := binder_unique hb hb' h3
  subst this
  refine ⟨h1, ?_⟩
  simp only [Index.rename, hd] at hr
  split at hr
  · cases hr
    rw [h2]
    have : targetOf d = .loc (some b'.id) d.name := by
      unfold targetOf
      rcases h4 with h4 | h4 <;> simp [h4, hid]
    rw [this]
    rfl
  · cases hr

theorem ref_local {env : Env} {m : Decls Occ} {short : String → Symbol} {b : Binder} {x : Symbol}
    (hb : b ∈ bindersDecls (resolveModule env m).1) (hx : b.name = some x) (q : Mention)
    (hq : q ∈ mentionsDecls (resolveModule env m).1) :
    ((Mention.entry short q).target.name == x && (Mention.entry short q).target.id? == some (some b.id))
      = true ↔ ∃ z, q.ref = .loc b.id z := by
  constructor
  · intro h
    simp only [Bool.and_eq_true, beq_iff_eq] at h
    have h2 := h.2
    simp only [Mention.entry] at h2
    cases hr : q.ref <;> rw [hr] at h2 <;> simp [target, Target.id?] at h2
    exact ⟨_, by rw [h2]⟩
  · rintro ⟨z, hz⟩
    obtain ⟨b', hb', h1, h2⟩ := loc_binder hq hz
    have : b' = b := binder_unique hb hb' h2
    subst this
    rw [hx] at h1
    cases h1
    simp [Mention.entry, hz, target, Target.name, Target.id?]

theorem filterMap_filter_sub {α β : Type} (f : α → Option β) (p : α → Bool) (l : List α) :
    ((l.filter p).filterMap f).Sublist (l.filterMap f) := List.filter_sublist.filterMap f

theorem nodup_filterMap_inj {α β : Type} {f : α → Option β} : ∀ {l : List α}, (l.filterMap f).Nodup →
    ∀ {a b : α} {c : β}, a ∈ l → b ∈ l → f a = some c → f b = some c → a = b
  | [], _, _, _, _, ha, _, _, _ => nomatch ha
  | d :: l, hn, a, b, c, ha, hb, hfa, hfb => by
    have hmem : ∀ e ∈ l, f e = some c → c ∈ l.filterMap f := fun e he hf =>
      List.mem_filterMap.mpr ⟨e, he, hf⟩
    rw [List.filterMap_cons] at hn
    rcases List.mem_cons.mp ha with rfl | ha'
    · rcases List.mem_cons.mp hb with rfl | hb'
      · rfl
      · rw [hfa] at hn
        exact absurd (hmem b hb' hfb) (List.nodup_cons.mp hn).1
    · rcases List.mem_cons.mp hb with rfl | hb'
      · rw [hfb] at hn
        exact absurd (hmem a ha' hfa) (List.nodup_cons.mp hn).1
      · refine nodup_filterMap_inj ?_ ha' hb' hfa hfb
        cases hd : f d with
        | none => rw [hd] at hn; exact hn
        | some _ => rw [hd] at hn; exact (List.nodup_cons.mp hn).2

section
variable {env : Env} {m : Decls Occ} {short : String → Symbol} {off : Nat} {y : Symbol}
    {d : DefEntry} {b : Binder} {edits : List Edit}
    (hd : (build short (resolveModule env m).1).canRename off = some d)
    (hb : b ∈ bindersDecls (resolveModule env m).1) (hid : d.id = some b.id)
    (hr : (build short (resolveModule env m).1).rename off y = some edits)
    (htok : b.node = b.tok)
include hd hb hid hr htok

theorem rename_spans (sp : Span) : (∃ e ∈ edits, e.span = sp) ↔
    sp = b.tok ∨ ∃ q ∈ mentionsDecls (resolveModule env m).1, q.span = sp ∧ ∃ z, q.ref = .loc b.id z := by
  obtain ⟨hx, he⟩ := rename_edits hd hb hid hr
  rw [he]
  simp only [List.mem_cons, List.mem_map, List.mem_filter, exists_eq_or_imp]
  rw [htok]
  refine or_congr eq_comm ?_
  constructor
  · rintro ⟨e, ⟨r, ⟨hrm, hp⟩, rfl⟩, rfl⟩
    obtain ⟨q, hq, rfl⟩ := mem_build_refs.mp hrm
    exact ⟨q, hq, rfl, (ref_local hb hx q hq).mp hp⟩
  · rintro ⟨q, hq, rfl, hz⟩
    exact ⟨_, ⟨Mention.entry short q, ⟨mem_build_refs.mpr ⟨q, hq, rfl⟩, (ref_local hb hx q hq).mpr hz⟩,
      rfl⟩, rfl⟩

theorem rename_marks (hnd : (tokens (resolveModule env m).1).Nodup)
    (hvar : ∀ q ∈ mentionsDecls (resolveModule env m).1, ∀ z, q.ref = .loc b.id z → q.var = true)
    (J : Job) (hT : J.T = fun sp => edits.any fun e => e.span == sp) (hi : J.i = b.id)
    (hx : b.name = some J.x) :
    Marks J (bindersDecls (resolveModule env m).1) (mentionsDecls (resolveModule env m).1) := by
  have hsp := rename_spans hd hb hid hr htok
  have hTsp : ∀ sp, J.T sp = true ↔ sp = b.tok ∨ ∃ q ∈ mentionsDecls (resolveModule env m).1,
      q.span = sp ∧ ∃ z, q.ref = .loc b.id z := by
    intro sp
    rw [← hsp sp, hT]
    simp [List.any_eq_true]
  rw [tokens, List.nodup_append] at hnd
  obtain ⟨hn1, hn2, hn3⟩ := hnd
  have hmb : ∀ b' ∈ bindersDecls (resolveModule env m).1, ∀ z, b'.name = some z →
      b'.tok ∈ (bindersDecls (resolveModule env m).1).filterMap (fun b => b.name.map fun _ => b.tok) :=
    fun b' hb' z hz => List.mem_filterMap.mpr ⟨b', hb', by rw [hz]; rfl⟩
  have hmq : ∀ q ∈ mentionsDecls (resolveModule env m).1, q.var = true → q.span ∈
      (mentionsDecls (resolveModule env m).1).filterMap (fun q => if q.var then some q.span else none) :=
    fun q hq hv => List.mem_filterMap.mpr ⟨q, hq, by rw [hv]; rfl⟩
  refine ⟨?_, ?_, ?_⟩
  · intro b' hb' z hz
    refine ⟨?_, ?_⟩
    · rw [Bool.eq_iff_iff, hTsp, decide_eq_true_eq, hi]
      constructor
      · rintro (h | ⟨q, hq, hqs, z', hz'⟩)
        · have := nodup_filterMap_inj hn1 (c := b.tok) hb' hb (by rw [hz]; simp [h]) (by rw [hx]; rfl)
          rw [this]
        · exact absurd hqs.symm (hn3 _ (hmb b' hb' z hz) _ (hmq q hq (hvar q hq z' hz')))
      · intro h
        left
        rw [binder_unique hb hb' h]
    · intro h
      have := binder_unique hb hb' (h.trans hi)
      rw [this, hx] at hz
      cases hz; rfl
  · intro q hq hv
    rw [hTsp, hi]
    constructor
    · rintro (h | ⟨q', hq', hqs, z', hz'⟩)
      · exact absurd h.symm (hn3 _ (hmb b hb _ hx) _ (hmq q hq hv))
      · have := nodup_filterMap_inj hn2 (c := q.span) hq hq' (by rw [hv]; rfl)
          (by rw [hvar q' hq' z' hz', ← hqs]; rfl)
        rw [this]
        exact ⟨z', hz'⟩
    · rintro ⟨z, hz⟩
      exact .inr ⟨q, hq, rfl, z, hz⟩
  · intro q hq hv z hz
    rw [hi] at hz
    rw [hvar q hq z hz] at hv
    cases hv

theorem rename_nodup (hnd : (tokens (resolveModule env m).1).Nodup)
    (hvar : ∀ q ∈ mentionsDecls (resolveModule env m).1, ∀ z, q.ref = .loc b.id z → q.var = true) :
    (edits.map (·.span)).Nodup := by
  obtain ⟨hx, he⟩ := rename_edits hd hb hid hr
  rw [tokens, List.nodup_append] at hnd
  obtain ⟨hn1, hn2, hn3⟩ := hnd
  have hp : ((build short (resolveModule env m).1).refs.filter
      fun r => r.target.name == d.name && r.target.id? == some (some b.id)).Perm
      (((mentionsDecls (resolveModule env m).1).map (Mention.entry short)).filter
      fun r => r.target.name == d.name && r.target.id? == some (some b.id)) := by
    refine List.Perm.filter _ ?_
    rw [← refs_decls short]
    exact sortBy_perm _ _
  have hp2 := (hp.map (·.span)).nodup_iff
  rw [he, List.map_cons, List.nodup_cons, List.map_map]
  have hcomp : ((fun e : Edit => e.span) ∘ fun r : RefEntry => (⟨r.span, y⟩ : Edit)) = fun r => r.span := rfl
  rw [hcomp]
  refine ⟨?_, hp2.mpr ?_⟩
  · intro hc
    rw [List.mem_map] at hc
    obtain ⟨r, hrm, hrs⟩ := hc
    rw [List.mem_filter] at hrm
    obtain ⟨q, hq, rfl⟩ := mem_build_refs.mp hrm.1
    obtain ⟨z, hz⟩ := (ref_local hb hx q hq).mp hrm.2
    refine hn3 b.tok (List.mem_filterMap.mpr ⟨b, hb, by rw [hx]; rfl⟩) q.span
      (List.mem_filterMap.mpr ⟨q, hq, by rw [hvar q hq z hz]; rfl⟩) ?_
    rw [← htok]; exact hrs.symm
  · rw [List.filter_map, List.map_map]
    refine List.Nodup.sublist ?_ hn2
    have hsub : ((mentionsDecls (resolveModule env m).1).filter
        ((fun r : RefEntry => r.target.name == d.name && r.target.id? == some (some b.id)) ∘
          Mention.entry short)).map ((fun r : RefEntry => r.span) ∘ Mention.entry short) =
        ((mentionsDecls (resolveModule env m).1).filter
        ((fun r : RefEntry => r.target.name == d.name && r.target.id? == some (some b.id)) ∘
          Mention.entry short)).filterMap (fun q => if q.var then some q.span else none) := by
      rw [← List.filterMap_eq_map]
      apply List.filterMap_congr
      intro q hq
      rw [List.mem_filter] at hq
      obtain ⟨z, hz⟩ := (ref_local (short := short) hb hx q hq.1).mp hq.2
      rw [hvar q hq.1 z hz]
      rfl
    rw [hsub]
    exact filterMap_filter_sub _ _ _
end

end Verif.Scope
