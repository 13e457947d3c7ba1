import Verif.Normalize.Proofs
/-!
# Normal forms
-/
namespace Verif.Normalize

theorem normalStmts_append : ∀ s t : Stmts, NormalStmts s → NormalStmts t → NormalStmts (s.append t)
  | .nil, _, _, h => h
  | .bind p e s, t, h1, h2 => by
    simp only [NormalStmts] at h1
    simp only [Stmts.append, NormalStmts]
    exact ⟨h1.1, normalStmts_append s t h1.2 h2⟩
  | .run e s, t, h1, h2 => by
    simp only [NormalStmts] at h1
    simp only [Stmts.append, NormalStmts]
    exact ⟨h1.1, normalStmts_append s t h1.2 h2⟩

def Shape (s : Stmts) (v : Expr) : Prop := NormalStmts s ∧ NotBlock v ∧ Normal v

theorem atom_notBlock {e : Expr} (h : isAtom e = true) : NotBlock e := by
  cases e <;> simp_all [isAtom, NotBlock]

theorem shape_atomize {r : Expr × Nat} (h : Shape (peel r.1).1 (peel r.1).2) :
    NormalStmts (atomize r).1 ∧ isAtom (atomize r).2.1 = true ∧ Normal (atomize r).2.1 := by
  unfold atomize
  split
  · rename_i ha; exact ⟨h.1, ha, h.2.2⟩
  · exact ⟨normalStmts_append _ _ h.1 (by simp only [NormalStmts]; exact ⟨h.2, trivial⟩), rfl,
      by simp [Normal]⟩

theorem shape_prefix {s : Stmts} {e : Expr} (hs : NormalStmts s) (hb : NotBlock e) (he : Normal e) :
    Shape (peel (withPrefix s e)).1 (peel (withPrefix s e)).2 := by
  rw [peel_prefix _ _ hb]; exact ⟨hs, hb, he⟩

theorem shape_leaf {e : Expr} (hb : NotBlock e) (he : Normal e) : Shape (peel e).1 (peel e).2 := by
  have hp : peel e = (.nil, e) := by cases e <;> simp_all [peel, NotBlock]
  rw [hp]; exact ⟨by simp [NormalStmts], hb, he⟩

theorem Shape.root {e : Expr} (h : Shape (peel e).1 (peel e).2) : Normal e := by
  cases e with
  | block ss v => simp only [Normal]; exact h
  | _ => exact h.2.2

mutual
theorem norm_shape (e : Expr) (c : Nat) : Shape (peel (norm e c).1).1 (peel (norm e c).1).2 := by
  match e with
  | .var i => exact shape_leaf trivial (by simp [norm, Normal])
  | .global _ => exact shape_leaf trivial (by simp [norm, Normal])
  | .lit _ => exact shape_leaf trivial (by simp [norm, Normal])
  | .lambda ps b =>
    simp only [norm]
    exact shape_leaf trivial (by simp only [Normal]; exact (norm_shape b c).root)
  | .call f as =>
    have h1 := shape_atomize (norm_shape f c)
    have h2 := atoms_shape as (atomize (norm f c)).2.2
    simp only [norm]
    exact shape_prefix (normalStmts_append _ _ h1.1 h2.1) trivial (by simp only [Normal]; exact ⟨h1.2.1, h1.2.2, h2.2⟩)
  | .method f m as =>
    have h1 := shape_atomize (norm_shape f c)
    have h2 := atoms_shape as (atomize (norm f c)).2.2
    simp only [norm]
    exact shape_prefix (normalStmts_append _ _ h1.1 h2.1) trivial (by simp only [Normal]; exact ⟨h1.2.1, h1.2.2, h2.2⟩)
  | .recordWith t f ns as =>
    have h1 := shape_atomize (norm_shape f c)
    have h2 := atoms_shape as (atomize (norm f c)).2.2
    simp only [norm]
    exact shape_prefix (normalStmts_append _ _ h1.1 h2.1) trivial (by simp only [Normal]; exact ⟨h1.2.1, h1.2.2, h2.2⟩)
  | .cons k as =>
    have h2 := atoms_shape as c
    simp only [norm]; exact shape_prefix h2.1 trivial (by simp only [Normal]; exact h2.2)
  | .tuple as =>
    have h2 := atoms_shape as c
    simp only [norm]; exact shape_prefix h2.1 trivial (by simp only [Normal]; exact h2.2)
  | .list as =>
    have h2 := atoms_shape as c
    simp only [norm]; exact shape_prefix h2.1 trivial (by simp only [Normal]; exact h2.2)
  | .record _ _ as =>
    have h2 := atoms_shape as c
    simp only [norm]; exact shape_prefix h2.1 trivial (by simp only [Normal]; exact h2.2)
  | .and l r =>
    have h1 := shape_atomize (norm_shape l c)
    have h2 := (norm_shape r (atomize (norm l c)).2.2).root
    simp only [norm]
    exact shape_prefix h1.1 trivial (by simp only [Normal]; exact ⟨h1.2.1, h1.2.2, h2⟩)
  | .or l r =>
    have h1 := shape_atomize (norm_shape l c)
    have h2 := (norm_shape r (atomize (norm l c)).2.2).root
    simp only [norm]
    exact shape_prefix h1.1 trivial (by simp only [Normal]; exact ⟨h1.2.1, h1.2.2, h2⟩)
  | .cases s as =>
    have h1 := shape_atomize (norm_shape s c)
    have h2 := arms_shape as (atomize (norm s c)).2.2
    simp only [norm]
    exact shape_prefix h1.1 trivial (by simp only [Normal]; exact ⟨h1.2.1, h1.2.2, h2⟩)
  | .resume k a =>
    have h1 := shape_atomize (norm_shape a c)
    simp only [norm]
    exact shape_prefix h1.1 trivial (by simp only [Normal]; exact h1.2)
  | .handle b hs =>
    have h1 := (norm_shape b c).root
    have h2 := handlers_shape hs (norm b c).2
    simp only [norm]
    exact shape_leaf trivial (by simp only [Normal]; exact ⟨h1, h2⟩)
  | .block ss e =>
    have h1 := stmts_shape ss c
    have h2 := norm_shape e (normStmts ss c).2
    simp only [norm, peel_block]
    exact ⟨normalStmts_append _ _ h1 h2.1, h2.2⟩
theorem atoms_shape (es : Exprs) (c : Nat) :
    NormalStmts (normAtoms es c).1 ∧ NormalAtoms (normAtoms es c).2.1 := by
  match es with
  | .nil => simp [normAtoms, NormalStmts, NormalAtoms]
  | .cons e es =>
    have h1 := shape_atomize (norm_shape e c)
    have h2 := atoms_shape es (atomize (norm e c)).2.2
    simp only [normAtoms]
    exact ⟨normalStmts_append _ _ h1.1 h2.1, by simp only [NormalAtoms]; exact ⟨h1.2.1, h1.2.2, h2.2⟩⟩
theorem stmts_shape (ss : Stmts) (c : Nat) : NormalStmts (normStmts ss c).1 := by
  match ss with
  | .nil => simp [normStmts, NormalStmts]
  | .bind p e ss =>
    have h1 := norm_shape e c
    have h2 := stmts_shape ss (norm e c).2
    simp only [normStmts]
    exact normalStmts_append _ _ h1.1 (by simp only [NormalStmts]; exact ⟨h1.2, h2⟩)
  | .run e ss =>
    have h1 := norm_shape e c
    have h2 := stmts_shape ss (norm e c).2
    simp only [normStmts]
    exact normalStmts_append _ _ h1.1 (by simp only [NormalStmts]; exact ⟨h1.2, h2⟩)
theorem arms_shape (as : Arms) (c : Nat) : NormalArms (normArms as c).1 := by
  match as with
  | .nil => simp [normArms, NormalArms]
  | .arm p b as =>
    simp only [normArms, NormalArms]
    exact ⟨(norm_shape b c).root, arms_shape as _⟩
  | .guarded p g b as =>
    simp only [normArms, NormalArms]
    exact ⟨(norm_shape g c).root, (norm_shape b _).root, arms_shape as _⟩
theorem handlers_shape (hs : Handlers) (c : Nat) : NormalHandlers (normHandlers hs c).1 := by
  match hs with
  | .nil => simp [normHandlers, NormalHandlers]
  | .on op ids b rest =>
    simp only [normHandlers, NormalHandlers]
    exact ⟨(norm_shape b c).root, handlers_shape rest _⟩
end

/-! ## Normal forms stay -/

theorem atomize_atom {e : Expr} {c : Nat} (h : isAtom e = true) : atomize (e, c) = (.nil, e, c) := by
  unfold atomize
  have hp : peel e = (.nil, e) := by cases e <;> simp_all [peel, isAtom]
  simp [hp, h]

theorem withPrefix_nil (e : Expr) : withPrefix .nil e = e := rfl
theorem nil_append (s : Stmts) : Stmts.nil.append s = s := rfl

theorem peel_notBlock {e : Expr} (h : NotBlock e) : peel e = (.nil, e) := by
  cases e <;> simp_all [peel, NotBlock]

mutual
theorem norm_fix (e : Expr) (c : Nat) (h : Normal e) : norm e c = (e, c) := by
  match e with
  | .var i => rfl
  | .global _ => rfl
  | .lit _ => rfl
  | .lambda ps b => simp only [Normal] at h; simp only [norm, norm_fix b c h]
  | .call f as =>
    simp only [Normal] at h
    simp only [norm, norm_fix f c h.2.1, atomize_atom h.1, atoms_fix as c h.2.2, nil_append, withPrefix_nil]
  | .method f m as =>
    simp only [Normal] at h
    simp only [norm, norm_fix f c h.2.1, atomize_atom h.1, atoms_fix as c h.2.2, nil_append, withPrefix_nil]
  | .recordWith t f ns as =>
    simp only [Normal] at h
    simp only [norm, norm_fix f c h.2.1, atomize_atom h.1, atoms_fix as c h.2.2, nil_append, withPrefix_nil]
  | .cons k as => simp only [Normal] at h; simp only [norm, atoms_fix as c h, withPrefix_nil]
  | .tuple as => simp only [Normal] at h; simp only [norm, atoms_fix as c h, withPrefix_nil]
  | .list as => simp only [Normal] at h; simp only [norm, atoms_fix as c h, withPrefix_nil]
  | .record _ _ as => simp only [Normal] at h; simp only [norm, atoms_fix as c h, withPrefix_nil]
  | .and l r =>
    simp only [Normal] at h
    simp only [norm, norm_fix l c h.2.1, atomize_atom h.1, norm_fix r c h.2.2, withPrefix_nil]
  | .or l r =>
    simp only [Normal] at h
    simp only [norm, norm_fix l c h.2.1, atomize_atom h.1, norm_fix r c h.2.2, withPrefix_nil]
  | .cases s as =>
    simp only [Normal] at h
    simp only [norm, norm_fix s c h.2.1, atomize_atom h.1, arms_fix as c h.2.2, withPrefix_nil]
  | .resume k a =>
    simp only [Normal] at h
    simp only [norm, norm_fix a c h.2, atomize_atom h.1, withPrefix_nil]
  | .handle b hs =>
    simp only [Normal] at h
    simp only [norm, norm_fix b c h.1, handlers_fix hs c h.2]
  | .block ss e =>
    simp only [Normal] at h
    simp only [norm, stmts_fix ss c h.1, norm_fix e c h.2.2, peel_notBlock h.2.1, append_nil]
theorem atoms_fix (es : Exprs) (c : Nat) (h : NormalAtoms es) : normAtoms es c = (.nil, es, c) := by
  match es with
  | .nil => rfl
  | .cons e es =>
    simp only [NormalAtoms] at h
    simp only [normAtoms, norm_fix e c h.2.1, atomize_atom h.1, atoms_fix es c h.2.2, nil_append]
theorem stmts_fix (ss : Stmts) (c : Nat) (h : NormalStmts ss) : normStmts ss c = (ss, c) := by
  match ss with
  | .nil => rfl
  | .bind p e ss =>
    simp only [NormalStmts] at h
    simp only [normStmts, norm_fix e c h.1.2, peel_notBlock h.1.1, stmts_fix ss c h.2, nil_append]
  | .run e ss =>
    simp only [NormalStmts] at h
    simp only [normStmts, norm_fix e c h.1.2, peel_notBlock h.1.1, stmts_fix ss c h.2, nil_append]
theorem arms_fix (as : Arms) (c : Nat) (h : NormalArms as) : normArms as c = (as, c) := by
  match as with
  | .nil => rfl
  | .arm p b as =>
    simp only [NormalArms] at h
    simp only [normArms, norm_fix b c h.1, arms_fix as c h.2]
  | .guarded p g b as =>
    simp only [NormalArms] at h
    simp only [normArms, norm_fix g c h.1, norm_fix b c h.2.1, arms_fix as c h.2.2]
theorem handlers_fix (hs : Handlers) (c : Nat) (h : NormalHandlers hs) : normHandlers hs c = (hs, c) := by
  match hs with
  | .nil => rfl
  | .on op ids b rest =>
    simp only [NormalHandlers] at h
    simp only [normHandlers, norm_fix b c h.1, handlers_fix rest c h.2]
end

/-! ## The check of the code -/

theorem atoms_valid : ∀ es : Exprs, NormalAtoms es → allAtoms es = true
  | .nil, _ => rfl
  | .cons e es, h => by
    simp only [NormalAtoms] at h
    simp [allAtoms, h.1, atoms_valid es h.2.2]

mutual
theorem root_valid (e : Expr) (h : Normal e) : validRoot e = true := by
  match e with
  | .var _ => rfl
  | .global _ => rfl
  | .lit _ => rfl
  | .lambda _ b => simp only [Normal] at h; simp only [validRoot]; exact root_valid b h
  | .call _ as => simp only [Normal] at h; simp [validRoot, h.1, atoms_valid as h.2.2]
  | .method _ _ as => simp only [Normal] at h; simp [validRoot, h.1, atoms_valid as h.2.2]
  | .recordWith _ _ _ as => simp only [Normal] at h; simp [validRoot, h.1, atoms_valid as h.2.2]
  | .cons _ as => simp only [Normal] at h; simp [validRoot, atoms_valid as h]
  | .tuple as => simp only [Normal] at h; simp [validRoot, atoms_valid as h]
  | .list as => simp only [Normal] at h; simp [validRoot, atoms_valid as h]
  | .record _ _ as => simp only [Normal] at h; simp [validRoot, atoms_valid as h]
  | .and _ r => simp only [Normal] at h; simp [validRoot, h.1, root_valid r h.2.2]
  | .or _ r => simp only [Normal] at h; simp [validRoot, h.1, root_valid r h.2.2]
  | .cases _ as => simp only [Normal] at h; simp [validRoot, h.1, arms_valid as h.2.2]
  | .resume _ _ => simp only [Normal] at h; simp [validRoot, h.1]
  | .handle b hs => simp only [Normal] at h; simp [validRoot, root_valid b h.1, handlers_valid hs h.2]
  | .block ss e =>
    simp only [Normal] at h
    simp [validRoot, stmts_valid ss h.1, expr_valid e h.2.1 h.2.2]
theorem expr_valid (e : Expr) (hb : NotBlock e) (h : Normal e) : validExpr e = true := by
  match e with
  | .var _ => rfl
  | .global _ => rfl
  | .lit _ => rfl
  | .lambda _ b => simp only [Normal] at h; simp only [validExpr]; exact root_valid b h
  | .call _ as => simp only [Normal] at h; simp [validExpr, h.1, atoms_valid as h.2.2]
  | .method _ _ as => simp only [Normal] at h; simp [validExpr, h.1, atoms_valid as h.2.2]
  | .recordWith _ _ _ as => simp only [Normal] at h; simp [validExpr, h.1, atoms_valid as h.2.2]
  | .cons _ as => simp only [Normal] at h; simp [validExpr, atoms_valid as h]
  | .tuple as => simp only [Normal] at h; simp [validExpr, atoms_valid as h]
  | .list as => simp only [Normal] at h; simp [validExpr, atoms_valid as h]
  | .record _ _ as => simp only [Normal] at h; simp [validExpr, atoms_valid as h]
  | .and _ r => simp only [Normal] at h; simp [validExpr, h.1, root_valid r h.2.2]
  | .or _ r => simp only [Normal] at h; simp [validExpr, h.1, root_valid r h.2.2]
  | .cases _ as => simp only [Normal] at h; simp [validExpr, h.1, arms_valid as h.2.2]
  | .resume _ _ => simp only [Normal] at h; simp [validExpr, h.1]
  | .handle b hs => simp only [Normal] at h; simp [validExpr, root_valid b h.1, handlers_valid hs h.2]
  | .block _ _ => exact absurd hb (by simp [NotBlock])
theorem stmts_valid (ss : Stmts) (h : NormalStmts ss) : validStmts ss = true := by
  match ss with
  | .nil => rfl
  | .bind _ e ss =>
    simp only [NormalStmts] at h; simp [validStmts, expr_valid e h.1.1 h.1.2, stmts_valid ss h.2]
  | .run e ss =>
    simp only [NormalStmts] at h; simp [validStmts, expr_valid e h.1.1 h.1.2, stmts_valid ss h.2]
theorem arms_valid (as : Arms) (h : NormalArms as) : validArms as = true := by
  match as with
  | .nil => rfl
  | .arm _ b as => simp only [NormalArms] at h; simp [validArms, root_valid b h.1, arms_valid as h.2]
  | .guarded _ g b as =>
    simp only [NormalArms] at h
    simp [validArms, root_valid g h.1, root_valid b h.2.1, arms_valid as h.2.2]
theorem handlers_valid (hs : Handlers) (h : NormalHandlers hs) : validHandlers hs = true := by
  match hs with
  | .nil => rfl
  | .on _ _ b rest =>
    simp only [NormalHandlers] at h; simp [validHandlers, root_valid b h.1, handlers_valid rest h.2]
end

end Verif.Normalize
