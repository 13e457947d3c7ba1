import Verif.Instances.Behaves
import Mathlib.Tactic.Tauto

/-!
# References and nodes of copied and redirected expressions
-/

namespace Verif.Instances
open Verif.Types Verif.Mono

theorem redirect_ty (nm : Names) (ss : Schemes) (K : List Inst) (r : TRef) : (redirectR nm ss K r).ty = r.ty := by
  unfold redirectR
  split
  · split
    · rfl
    · split
      · rfl
      · split
        · split <;> rfl
        · rfl
  · rfl

section
variable (nm : Names) (ss : Schemes) (K : List Inst)
mutual
theorem uses_rewE : ∀ x : Expr, usesE (rewE nm ss K x) = (usesE x).map fun u => (u.1, redirectR nm ss K u.2)
  | .var _ _ => by simp [rewE, usesE]
  | .lit _ _ => by simp [rewE, usesE]
  | .call _ f as => by simp [rewE, usesE, uses_rewE f, uses_rewEs as]
  | .cons _ _ as => by simp [rewE, usesE, uses_rewEs as]
  | .record _ _ _ vs sp => by simp [rewE, usesE, uses_rewEs vs, uses_rewO sp]
  | .method _ r _ as => by simp [rewE, usesE, uses_rewE r, uses_rewEs as]
  | .block _ ss e => by simp [rewE, usesE, uses_rewSs ss, uses_rewE e]
  | .case _ s as => by simp [rewE, usesE, uses_rewE s, uses_rewAs as]
  | .lam _ _ b => by simp [rewE, usesE, uses_rewE b]
  | .handle _ b hs => by simp [rewE, usesE, uses_rewE b, uses_rewHs hs]
  | .resume _ _ a => by simp [rewE, usesE, uses_rewE a]
  | .tuple _ as => by simp [rewE, usesE, uses_rewEs as]
  | .list _ as => by simp [rewE, usesE, uses_rewEs as]
  | .binop _ _ l r => by simp [rewE, usesE, uses_rewE l, uses_rewE r]
  | .err _ => by simp [rewE, usesE]
theorem uses_rewEs : ∀ x : List Expr, usesEs (rewEs nm ss K x) = (usesEs x).map fun u => (u.1, redirectR nm ss K u.2)
  | [] => by simp [rewEs, usesEs]
  | e :: es => by simp [rewEs, usesEs, uses_rewE e, uses_rewEs es]
theorem uses_rewO : ∀ x : Option Expr, usesO (rewO nm ss K x) = (usesO x).map fun u => (u.1, redirectR nm ss K u.2)
  | none => by simp [rewO, usesO]
  | some e => by simp [rewO, usesO, uses_rewE e]
theorem uses_rewS : ∀ x : Stmt, usesS (rewS nm ss K x) = (usesS x).map fun u => (u.1, redirectR nm ss K u.2)
  | .bind _ p e => by simp [rewS, usesS, uses_rewE e]
  | .expr _ e => by simp [rewS, usesS, uses_rewE e]
theorem uses_rewSs : ∀ x : List Stmt, usesSs (rewSs nm ss K x) = (usesSs x).map fun u => (u.1, redirectR nm ss K u.2)
  | [] => by simp [rewSs, usesSs]
  | s :: ss => by simp [rewSs, usesSs, uses_rewS s, uses_rewSs ss]
theorem uses_rewA : ∀ x : Arm, usesA (rewA nm ss K x) = (usesA x).map fun u => (u.1, redirectR nm ss K u.2)
  | .mk _ p g b => by simp [rewA, usesA, uses_rewO g, uses_rewE b]
theorem uses_rewAs : ∀ x : List Arm, usesAs (rewAs nm ss K x) = (usesAs x).map fun u => (u.1, redirectR nm ss K u.2)
  | [] => by simp [rewAs, usesAs]
  | a :: as => by simp [rewAs, usesAs, uses_rewA a, uses_rewAs as]
theorem uses_rewH : ∀ x : HArm, usesH (rewH nm ss K x) = (usesH x).map fun u => (u.1, redirectR nm ss K u.2)
  | .mk _ k b => by simp [rewH, usesH, uses_rewE b]
theorem uses_rewHs : ∀ x : List HArm, usesHs (rewHs nm ss K x) = (usesHs x).map fun u => (u.1, redirectR nm ss K u.2)
  | [] => by simp [rewHs, usesHs]
  | h :: hs => by simp [rewHs, usesHs, uses_rewH h, uses_rewHs hs]
end

mutual
theorem tags_rewE : ∀ x : Expr, tagsE (rewE nm ss K x) = tagsE x
  | .var _ _ => by simp [rewE, tagsE]
  | .lit _ _ => by simp [rewE, tagsE]
  | .call _ f as => by simp [rewE, tagsE, tags_rewE f, tags_rewEs as]
  | .cons _ _ as => by simp [rewE, tagsE, tags_rewEs as]
  | .record _ _ _ vs sp => by simp [rewE, tagsE, tags_rewEs vs, tags_rewO sp]
  | .method _ r _ as => by simp [rewE, tagsE, tags_rewE r, tags_rewEs as]
  | .block _ ss e => by simp [rewE, tagsE, tags_rewSs ss, tags_rewE e]
  | .case _ s as => by simp [rewE, tagsE, tags_rewE s, tags_rewAs as]
  | .lam _ _ b => by simp [rewE, tagsE, tags_rewE b]
  | .handle _ b hs => by simp [rewE, tagsE, tags_rewE b, tags_rewHs hs]
  | .resume _ _ a => by simp [rewE, tagsE, tags_rewE a]
  | .tuple _ as => by simp [rewE, tagsE, tags_rewEs as]
  | .list _ as => by simp [rewE, tagsE, tags_rewEs as]
  | .binop _ _ l r => by simp [rewE, tagsE, tags_rewE l, tags_rewE r]
  | .err _ => by simp [rewE, tagsE]
theorem tags_rewEs : ∀ x : List Expr, tagsEs (rewEs nm ss K x) = tagsEs x
  | [] => by simp [rewEs, tagsEs]
  | e :: es => by simp [rewEs, tagsEs, tags_rewE e, tags_rewEs es]
theorem tags_rewO : ∀ x : Option Expr, tagsO (rewO nm ss K x) = tagsO x
  | none => by simp [rewO, tagsO]
  | some e => by simp [rewO, tagsO, tags_rewE e]
theorem tags_rewS : ∀ x : Stmt, tagsS (rewS nm ss K x) = tagsS x
  | .bind _ p e => by simp [rewS, tagsS, tags_rewE e]
  | .expr _ e => by simp [rewS, tagsS, tags_rewE e]
theorem tags_rewSs : ∀ x : List Stmt, tagsSs (rewSs nm ss K x) = tagsSs x
  | [] => by simp [rewSs, tagsSs]
  | s :: ss => by simp [rewSs, tagsSs, tags_rewS s, tags_rewSs ss]
theorem tags_rewA : ∀ x : Arm, tagsA (rewA nm ss K x) = tagsA x
  | .mk _ p g b => by simp [rewA, tagsA, tags_rewO g, tags_rewE b]
theorem tags_rewAs : ∀ x : List Arm, tagsAs (rewAs nm ss K x) = tagsAs x
  | [] => by simp [rewAs, tagsAs]
  | a :: as => by simp [rewAs, tagsAs, tags_rewA a, tags_rewAs as]
theorem tags_rewH : ∀ x : HArm, tagsH (rewH nm ss K x) = tagsH x
  | .mk _ k b => by simp [rewH, tagsH, tags_rewE b]
theorem tags_rewHs : ∀ x : List HArm, tagsHs (rewHs nm ss K x) = tagsHs x
  | [] => by simp [rewHs, tagsHs]
  | h :: hs => by simp [rewHs, tagsHs, tags_rewH h, tags_rewHs hs]
end

mutual
theorem ids_rewE : ∀ x : Expr, idsE (rewE nm ss K x) = idsE x
  | .var _ _ => by simp [rewE, idsE]
  | .lit _ _ => by simp [rewE, idsE]
  | .call _ f as => by simp [rewE, idsE, ids_rewE f, ids_rewEs as]
  | .cons _ _ as => by simp [rewE, idsE, ids_rewEs as]
  | .record _ _ _ vs sp => by simp [rewE, idsE, ids_rewEs vs, ids_rewO sp]
  | .method _ r _ as => by simp [rewE, idsE, ids_rewE r, ids_rewEs as]
  | .block _ ss e => by simp [rewE, idsE, ids_rewSs ss, ids_rewE e]
  | .case _ s as => by simp [rewE, idsE, ids_rewE s, ids_rewAs as]
  | .lam _ _ b => by simp [rewE, idsE, ids_rewE b]
  | .handle _ b hs => by simp [rewE, idsE, ids_rewE b, ids_rewHs hs]
  | .resume _ _ a => by simp [rewE, idsE, ids_rewE a]
  | .tuple _ as => by simp [rewE, idsE, ids_rewEs as]
  | .list _ as => by simp [rewE, idsE, ids_rewEs as]
  | .binop _ _ l r => by simp [rewE, idsE, ids_rewE l, ids_rewE r]
  | .err _ => by simp [rewE, idsE]
theorem ids_rewEs : ∀ x : List Expr, idsEs (rewEs nm ss K x) = idsEs x
  | [] => by simp [rewEs, idsEs]
  | e :: es => by simp [rewEs, idsEs, ids_rewE e, ids_rewEs es]
theorem ids_rewO : ∀ x : Option Expr, idsO (rewO nm ss K x) = idsO x
  | none => by simp [rewO, idsO]
  | some e => by simp [rewO, idsO, ids_rewE e]
theorem ids_rewS : ∀ x : Stmt, idsS (rewS nm ss K x) = idsS x
  | .bind _ p e => by simp [rewS, idsS, ids_rewE e]
  | .expr _ e => by simp [rewS, idsS, ids_rewE e]
theorem ids_rewSs : ∀ x : List Stmt, idsSs (rewSs nm ss K x) = idsSs x
  | [] => by simp [rewSs, idsSs]
  | s :: ss => by simp [rewSs, idsSs, ids_rewS s, ids_rewSs ss]
theorem ids_rewA : ∀ x : Arm, idsA (rewA nm ss K x) = idsA x
  | .mk _ p g b => by simp [rewA, idsA, ids_rewO g, ids_rewE b]
theorem ids_rewAs : ∀ x : List Arm, idsAs (rewAs nm ss K x) = idsAs x
  | [] => by simp [rewAs, idsAs]
  | a :: as => by simp [rewAs, idsAs, ids_rewA a, ids_rewAs as]
theorem ids_rewH : ∀ x : HArm, idsH (rewH nm ss K x) = idsH x
  | .mk _ k b => by simp [rewH, idsH, ids_rewE b]
theorem ids_rewHs : ∀ x : List HArm, idsHs (rewHs nm ss K x) = idsHs x
  | [] => by simp [rewHs, idsHs]
  | h :: hs => by simp [rewHs, idsHs, ids_rewH h, ids_rewHs hs]
end

mutual
theorem types_rewE : ∀ x : Expr, typesE (rewE nm ss K x) = typesE x
  | .var _ _ => by simp [rewE, typesE, redirect_ty]
  | .lit _ _ => by simp [rewE, typesE]
  | .call _ f as => by simp [rewE, typesE, types_rewE f, types_rewEs as]
  | .cons _ _ as => by simp [rewE, typesE, types_rewEs as]
  | .record _ _ _ vs sp => by simp [rewE, typesE, types_rewEs vs, types_rewO sp]
  | .method _ r _ as => by simp [rewE, typesE, types_rewE r, types_rewEs as]
  | .block _ ss e => by simp [rewE, typesE, types_rewSs ss, types_rewE e]
  | .case _ s as => by simp [rewE, typesE, types_rewE s, types_rewAs as]
  | .lam _ _ b => by simp [rewE, typesE, types_rewE b]
  | .handle _ b hs => by simp [rewE, typesE, types_rewE b, types_rewHs hs]
  | .resume _ _ a => by simp [rewE, typesE, types_rewE a]
  | .tuple _ as => by simp [rewE, typesE, types_rewEs as]
  | .list _ as => by simp [rewE, typesE, types_rewEs as]
  | .binop _ _ l r => by simp [rewE, typesE, types_rewE l, types_rewE r]
  | .err _ => by simp [rewE, typesE]
theorem types_rewEs : ∀ x : List Expr, typesEs (rewEs nm ss K x) = typesEs x
  | [] => by simp [rewEs, typesEs]
  | e :: es => by simp [rewEs, typesEs, types_rewE e, types_rewEs es]
theorem types_rewO : ∀ x : Option Expr, typesO (rewO nm ss K x) = typesO x
  | none => by simp [rewO, typesO]
  | some e => by simp [rewO, typesO, types_rewE e]
theorem types_rewS : ∀ x : Stmt, typesS (rewS nm ss K x) = typesS x
  | .bind _ p e => by simp [rewS, typesS, types_rewE e]
  | .expr _ e => by simp [rewS, typesS, types_rewE e]
theorem types_rewSs : ∀ x : List Stmt, typesSs (rewSs nm ss K x) = typesSs x
  | [] => by simp [rewSs, typesSs]
  | s :: ss => by simp [rewSs, typesSs, types_rewS s, types_rewSs ss]
theorem types_rewA : ∀ x : Arm, typesA (rewA nm ss K x) = typesA x
  | .mk _ p g b => by simp [rewA, typesA, types_rewO g, types_rewE b]
theorem types_rewAs : ∀ x : List Arm, typesAs (rewAs nm ss K x) = typesAs x
  | [] => by simp [rewAs, typesAs]
  | a :: as => by simp [rewAs, typesAs, types_rewA a, types_rewAs as]
theorem types_rewH : ∀ x : HArm, typesH (rewH nm ss K x) = typesH x
  | .mk _ k b => by simp [rewH, typesH, types_rewE b]
theorem types_rewHs : ∀ x : List HArm, typesHs (rewHs nm ss K x) = typesHs x
  | [] => by simp [rewHs, typesHs]
  | h :: hs => by simp [rewHs, typesHs, types_rewH h, types_rewHs hs]
end

end

section
variable (ts : List Ty) (v : Nat)
mutual
theorem uses_substE : ∀ x : Expr, usesE (substE ts v x) = (usesE x).map fun u => (u.1.withVariant v, substR ts u.2)
  | .var _ _ => by simp [substE, usesE]
  | .lit _ _ => by simp [substE, usesE]
  | .call _ f as => by simp [substE, usesE, uses_substE f, uses_substEs as]
  | .cons _ _ as => by simp [substE, usesE, uses_substEs as]
  | .record _ _ _ vs sp => by simp [substE, usesE, uses_substEs vs, uses_substO sp]
  | .method _ r _ as => by simp [substE, usesE, uses_substE r, uses_substEs as]
  | .block _ ss e => by simp [substE, usesE, uses_substSs ss, uses_substE e]
  | .case _ s as => by simp [substE, usesE, uses_substE s, uses_substAs as]
  | .lam _ _ b => by simp [substE, usesE, uses_substE b]
  | .handle _ b hs => by simp [substE, usesE, uses_substE b, uses_substHs hs]
  | .resume _ _ a => by simp [substE, usesE, uses_substE a]
  | .tuple _ as => by simp [substE, usesE, uses_substEs as]
  | .list _ as => by simp [substE, usesE, uses_substEs as]
  | .binop _ _ l r => by simp [substE, usesE, uses_substE l, uses_substE r]
  | .err _ => by simp [substE, usesE]
theorem uses_substEs : ∀ x : List Expr, usesEs (substEs ts v x) = (usesEs x).map fun u => (u.1.withVariant v, substR ts u.2)
  | [] => by simp [substEs, usesEs]
  | e :: es => by simp [substEs, usesEs, uses_substE e, uses_substEs es]
theorem uses_substO : ∀ x : Option Expr, usesO (substO ts v x) = (usesO x).map fun u => (u.1.withVariant v, substR ts u.2)
  | none => by simp [substO, usesO]
  | some e => by simp [substO, usesO, uses_substE e]
theorem uses_substS : ∀ x : Stmt, usesS (substS ts v x) = (usesS x).map fun u => (u.1.withVariant v, substR ts u.2)
  | .bind _ p e => by simp [substS, usesS, uses_substE e]
  | .expr _ e => by simp [substS, usesS, uses_substE e]
theorem uses_substSs : ∀ x : List Stmt, usesSs (substSs ts v x) = (usesSs x).map fun u => (u.1.withVariant v, substR ts u.2)
  | [] => by simp [substSs, usesSs]
  | s :: ss => by simp [substSs, usesSs, uses_substS s, uses_substSs ss]
theorem uses_substA : ∀ x : Arm, usesA (substA ts v x) = (usesA x).map fun u => (u.1.withVariant v, substR ts u.2)
  | .mk _ p g b => by simp [substA, usesA, uses_substO g, uses_substE b]
theorem uses_substAs : ∀ x : List Arm, usesAs (substAs ts v x) = (usesAs x).map fun u => (u.1.withVariant v, substR ts u.2)
  | [] => by simp [substAs, usesAs]
  | a :: as => by simp [substAs, usesAs, uses_substA a, uses_substAs as]
theorem uses_substH : ∀ x : HArm, usesH (substH ts v x) = (usesH x).map fun u => (u.1.withVariant v, substR ts u.2)
  | .mk _ k b => by simp [substH, usesH, uses_substE b]
theorem uses_substHs : ∀ x : List HArm, usesHs (substHs ts v x) = (usesHs x).map fun u => (u.1.withVariant v, substR ts u.2)
  | [] => by simp [substHs, usesHs]
  | h :: hs => by simp [substHs, usesHs, uses_substH h, uses_substHs hs]
end

mutual
theorem tags_substP : ∀ x : Pat, tagsP (substP ts v x) = (tagsP x).map (substR ts)
  | .wild _ => by simp [substP, tagsP]
  | .bind _ _ => by simp [substP, tagsP]
  | .lit _ _ => by simp [substP, tagsP]
  | .variant _ r ps => by simp [substP, tagsP, tags_substPs ps]
  | .record _ r fs => by cases r <;> simp [substP, tagsP, tags_substFs fs]
  | .tuple _ ps => by simp [substP, tagsP, tags_substPs ps]
  | .list _ ps => by simp [substP, tagsP, tags_substPs ps]
  | .listRest _ ps _ => by simp [substP, tagsP, tags_substPs ps]
  | .as _ p _ => by simp [substP, tagsP, tags_substP p]
  | .err _ => by simp [substP, tagsP]
theorem tags_substPs : ∀ x : List Pat, tagsPs (substPs ts v x) = (tagsPs x).map (substR ts)
  | [] => by simp [substPs, tagsPs]
  | p :: ps => by simp [substPs, tagsPs, tags_substP p, tags_substPs ps]
theorem tags_substF : ∀ x : FPat, tagsF (substF ts v x) = (tagsF x).map (substR ts)
  | .short .. => by simp [substF, tagsF]
  | .full _ _ p => by simp [substF, tagsF, tags_substP p]
theorem tags_substFs : ∀ x : List FPat, tagsFs (substFs ts v x) = (tagsFs x).map (substR ts)
  | [] => by simp [substFs, tagsFs]
  | f :: fs => by simp [substFs, tagsFs, tags_substF f, tags_substFs fs]
end

theorem tags_substK (k : HKind) : tagsK (substK ts v k) = (tagsK k).map (substR ts) := by
  cases k <;> simp [substK, tagsK, tags_substP, tags_substPs]

mutual
theorem tags_substE : ∀ x : Expr, tagsE (substE ts v x) = (tagsE x).map (substR ts)
  | .var _ _ => by simp [substE, tagsE]
  | .lit _ _ => by simp [substE, tagsE]
  | .call _ f as => by simp [substE, tagsE, tags_substE f, tags_substEs as]
  | .cons _ _ as => by simp [substE, tagsE, tags_substEs as]
  | .record _ _ _ vs sp => by simp [substE, tagsE, tags_substEs vs, tags_substO sp]
  | .method _ r _ as => by simp [substE, tagsE, tags_substE r, tags_substEs as]
  | .block _ ss e => by simp [substE, tagsE, tags_substSs ss, tags_substE e]
  | .case _ s as => by simp [substE, tagsE, tags_substE s, tags_substAs as]
  | .lam _ _ b => by simp [substE, tagsE, tags_substE b]
  | .handle _ b hs => by simp [substE, tagsE, tags_substE b, tags_substHs hs]
  | .resume _ _ a => by simp [substE, tagsE, tags_substE a]
  | .tuple _ as => by simp [substE, tagsE, tags_substEs as]
  | .list _ as => by simp [substE, tagsE, tags_substEs as]
  | .binop _ _ l r => by simp [substE, tagsE, tags_substE l, tags_substE r]
  | .err _ => by simp [substE, tagsE]
theorem tags_substEs : ∀ x : List Expr, tagsEs (substEs ts v x) = (tagsEs x).map (substR ts)
  | [] => by simp [substEs, tagsEs]
  | e :: es => by simp [substEs, tagsEs, tags_substE e, tags_substEs es]
theorem tags_substO : ∀ x : Option Expr, tagsO (substO ts v x) = (tagsO x).map (substR ts)
  | none => by simp [substO, tagsO]
  | some e => by simp [substO, tagsO, tags_substE e]
theorem tags_substS : ∀ x : Stmt, tagsS (substS ts v x) = (tagsS x).map (substR ts)
  | .bind _ p e => by simp [substS, tagsS, tags_substE e, tags_substP]
  | .expr _ e => by simp [substS, tagsS, tags_substE e]
theorem tags_substSs : ∀ x : List Stmt, tagsSs (substSs ts v x) = (tagsSs x).map (substR ts)
  | [] => by simp [substSs, tagsSs]
  | s :: ss => by simp [substSs, tagsSs, tags_substS s, tags_substSs ss]
theorem tags_substA : ∀ x : Arm, tagsA (substA ts v x) = (tagsA x).map (substR ts)
  | .mk _ p g b => by simp [substA, tagsA, tags_substO g, tags_substE b, tags_substP]
theorem tags_substAs : ∀ x : List Arm, tagsAs (substAs ts v x) = (tagsAs x).map (substR ts)
  | [] => by simp [substAs, tagsAs]
  | a :: as => by simp [substAs, tagsAs, tags_substA a, tags_substAs as]
theorem tags_substH : ∀ x : HArm, tagsH (substH ts v x) = (tagsH x).map (substR ts)
  | .mk _ k b => by simp [substH, tagsH, tags_substE b, tags_substK]
theorem tags_substHs : ∀ x : List HArm, tagsHs (substHs ts v x) = (tagsHs x).map (substR ts)
  | [] => by simp [substHs, tagsHs]
  | h :: hs => by simp [substHs, tagsHs, tags_substH h, tags_substHs hs]
end

end

mutual
theorem types_tagsP : ∀ x : Pat, typesP x = (tagsP x).map TRef.ty
  | .wild _ => by simp [typesP, tagsP]
  | .bind _ _ => by simp [typesP, tagsP]
  | .lit _ _ => by simp [typesP, tagsP]
  | .variant _ r ps => by simp [typesP, tagsP, types_tagsPs ps]
  | .record _ r fs => by cases r <;> simp [typesP, tagsP, types_tagsFs fs]
  | .tuple _ ps => by simp [typesP, tagsP, types_tagsPs ps]
  | .list _ ps => by simp [typesP, tagsP, types_tagsPs ps]
  | .listRest _ ps _ => by simp [typesP, tagsP, types_tagsPs ps]
  | .as _ p _ => by simp [typesP, tagsP, types_tagsP p]
  | .err _ => by simp [typesP, tagsP]
theorem types_tagsPs : ∀ x : List Pat, typesPs x = (tagsPs x).map TRef.ty
  | [] => by simp [typesPs, tagsPs]
  | p :: ps => by simp [typesPs, tagsPs, types_tagsP p, types_tagsPs ps]
theorem types_tagsF : ∀ x : FPat, typesF x = (tagsF x).map TRef.ty
  | .short .. => by simp [typesF, tagsF]
  | .full _ _ p => by simp [typesF, tagsF, types_tagsP p]
theorem types_tagsFs : ∀ x : List FPat, typesFs x = (tagsFs x).map TRef.ty
  | [] => by simp [typesFs, tagsFs]
  | f :: fs => by simp [typesFs, tagsFs, types_tagsF f, types_tagsFs fs]
end

theorem types_tagsK (k : HKind) : typesK k = (tagsK k).map TRef.ty := by
  cases k <;> simp [typesK, tagsK, types_tagsP, types_tagsPs]

theorem mem_map_ty {l : List TRef} {t : Ty} : (∃ a, a ∈ l ∧ a.ty = t) ↔ ∃ a, a ∈ l ∧ t = a.ty := by
  simp only [eq_comm]

set_option maxHeartbeats 1000000 in
mutual
theorem mem_typesE : ∀ x : Expr, ∀ t, t ∈ typesE x ↔ (∃ u ∈ usesE x, t = u.2.ty) ∨ ∃ r ∈ tagsE x, t = r.ty
  | .var _ _ => by
    intro t
    simp only [List.mem_append, List.mem_map, List.mem_cons, List.not_mem_nil, typesE, tagsE, usesE, or_and_right, exists_or, false_and, exists_false, or_false, exists_eq_left, exists_eq_or_imp, mem_map_ty]
    try first
      | exact or_or_or_comm
      | simp only [or_assoc, or_left_comm]
  | .lit _ _ => by
    intro t
    simp only [List.mem_append, List.mem_map, List.mem_cons, List.not_mem_nil, typesE, tagsE, usesE, or_and_right, exists_or, false_and, exists_false, or_false, exists_eq_left, exists_eq_or_imp, mem_map_ty]
    try first
      | exact or_or_or_comm
      | simp only [or_assoc, or_left_comm]
  | .call _ f as => by
    intro t
    simp only [List.mem_append, List.mem_map, List.mem_cons, List.not_mem_nil, typesE, tagsE, usesE, or_and_right, exists_or, mem_typesE f, mem_typesEs as, false_and, exists_false, or_false, exists_eq_left, exists_eq_or_imp, mem_map_ty]
    try first
      | exact or_or_or_comm
      | simp only [or_assoc, or_left_comm]
  | .cons _ _ as => by
    intro t
    simp only [List.mem_append, List.mem_map, List.mem_cons, List.not_mem_nil, typesE, tagsE, usesE, or_and_right, exists_or, mem_typesEs as, false_and, exists_false, or_false, exists_eq_left, exists_eq_or_imp, mem_map_ty]
    try first
      | exact or_or_or_comm
      | simp only [or_assoc, or_left_comm]
  | .record _ _ _ vs sp => by
    intro t
    simp only [List.mem_append, List.mem_map, List.mem_cons, List.not_mem_nil, typesE, tagsE, usesE, or_and_right, exists_or, mem_typesEs vs, mem_typesO sp, false_and, exists_false, or_false, exists_eq_left, exists_eq_or_imp, mem_map_ty]
    try first
      | exact or_or_or_comm
      | simp only [or_assoc, or_left_comm]
  | .method _ r _ as => by
    intro t
    simp only [List.mem_append, List.mem_map, List.mem_cons, List.not_mem_nil, typesE, tagsE, usesE, or_and_right, exists_or, mem_typesE r, mem_typesEs as, false_and, exists_false, or_false, exists_eq_left, exists_eq_or_imp, mem_map_ty]
    try first
      | exact or_or_or_comm
      | simp only [or_assoc, or_left_comm]
  | .block _ ss e => by
    intro t
    simp only [List.mem_append, List.mem_map, List.mem_cons, List.not_mem_nil, typesE, tagsE, usesE, or_and_right, exists_or, mem_typesSs ss, mem_typesE e, false_and, exists_false, or_false, exists_eq_left, exists_eq_or_imp, mem_map_ty]
    try first
      | exact or_or_or_comm
      | simp only [or_assoc, or_left_comm]
  | .case _ s as => by
    intro t
    simp only [List.mem_append, List.mem_map, List.mem_cons, List.not_mem_nil, typesE, tagsE, usesE, or_and_right, exists_or, mem_typesE s, mem_typesAs as, false_and, exists_false, or_false, exists_eq_left, exists_eq_or_imp, mem_map_ty]
    try first
      | exact or_or_or_comm
      | simp only [or_assoc, or_left_comm]
  | .lam _ _ b => by
    intro t
    simp only [List.mem_append, List.mem_map, List.mem_cons, List.not_mem_nil, typesE, tagsE, usesE, or_and_right, exists_or, mem_typesE b, false_and, exists_false, or_false, exists_eq_left, exists_eq_or_imp, mem_map_ty]
    try first
      | exact or_or_or_comm
      | simp only [or_assoc, or_left_comm]
  | .handle _ b hs => by
    intro t
    simp only [List.mem_append, List.mem_map, List.mem_cons, List.not_mem_nil, typesE, tagsE, usesE, or_and_right, exists_or, mem_typesE b, mem_typesHs hs, false_and, exists_false, or_false, exists_eq_left, exists_eq_or_imp, mem_map_ty]
    try first
      | exact or_or_or_comm
      | simp only [or_assoc, or_left_comm]
  | .resume _ _ a => by
    intro t
    simp only [List.mem_append, List.mem_map, List.mem_cons, List.not_mem_nil, typesE, tagsE, usesE, or_and_right, exists_or, mem_typesE a, false_and, exists_false, or_false, exists_eq_left, exists_eq_or_imp, mem_map_ty]
    try first
      | exact or_or_or_comm
      | simp only [or_assoc, or_left_comm]
  | .tuple _ as => by
    intro t
    simp only [List.mem_append, List.mem_map, List.mem_cons, List.not_mem_nil, typesE, tagsE, usesE, or_and_right, exists_or, mem_typesEs as, false_and, exists_false, or_false, exists_eq_left, exists_eq_or_imp, mem_map_ty]
    try first
      | exact or_or_or_comm
      | simp only [or_assoc, or_left_comm]
  | .list _ as => by
    intro t
    simp only [List.mem_append, List.mem_map, List.mem_cons, List.not_mem_nil, typesE, tagsE, usesE, or_and_right, exists_or, mem_typesEs as, false_and, exists_false, or_false, exists_eq_left, exists_eq_or_imp, mem_map_ty]
    try first
      | exact or_or_or_comm
      | simp only [or_assoc, or_left_comm]
  | .binop _ _ l r => by
    intro t
    simp only [List.mem_append, List.mem_map, List.mem_cons, List.not_mem_nil, typesE, tagsE, usesE, or_and_right, exists_or, mem_typesE l, mem_typesE r, false_and, exists_false, or_false, exists_eq_left, exists_eq_or_imp, mem_map_ty]
    try first
      | exact or_or_or_comm
      | simp only [or_assoc, or_left_comm]
  | .err _ => by
    intro t
    simp only [List.mem_append, List.mem_map, List.mem_cons, List.not_mem_nil, typesE, tagsE, usesE, or_and_right, exists_or, false_and, exists_false, or_false, exists_eq_left, exists_eq_or_imp, mem_map_ty]
    try first
      | exact or_or_or_comm
      | simp only [or_assoc, or_left_comm]
theorem mem_typesEs : ∀ x : List Expr, ∀ t, t ∈ typesEs x ↔ (∃ u ∈ usesEs x, t = u.2.ty) ∨ ∃ r ∈ tagsEs x, t = r.ty
  | [] => by simp [typesEs, tagsEs, usesEs, or_and_right, exists_or]
  | e :: es => by
    intro t
    simp only [List.mem_append, List.mem_map, List.mem_cons, List.not_mem_nil, typesEs, tagsEs, usesEs, or_and_right, exists_or, mem_typesE e, mem_typesEs es, false_and, exists_false, or_false, exists_eq_left, exists_eq_or_imp, mem_map_ty]
    try first
      | exact or_or_or_comm
      | simp only [or_assoc, or_left_comm]
theorem mem_typesO : ∀ x : Option Expr, ∀ t, t ∈ typesO x ↔ (∃ u ∈ usesO x, t = u.2.ty) ∨ ∃ r ∈ tagsO x, t = r.ty
  | none => by simp [typesO, tagsO, usesO, or_and_right, exists_or]
  | some e => by
    intro t
    simp only [List.mem_append, List.mem_map, List.mem_cons, List.not_mem_nil, typesO, tagsO, usesO, or_and_right, exists_or, mem_typesE e, false_and, exists_false, or_false, exists_eq_left, exists_eq_or_imp, mem_map_ty]
    try first
      | exact or_or_or_comm
      | simp only [or_assoc, or_left_comm]
theorem mem_typesS : ∀ x : Stmt, ∀ t, t ∈ typesS x ↔ (∃ u ∈ usesS x, t = u.2.ty) ∨ ∃ r ∈ tagsS x, t = r.ty
  | .bind _ p e => by
    intro t
    simp only [List.mem_append, List.mem_map, List.mem_cons, List.not_mem_nil, typesS, tagsS, usesS, or_and_right, exists_or, mem_typesE e, types_tagsP, false_and, exists_false, or_false, exists_eq_left, exists_eq_or_imp, mem_map_ty]
    try first
      | exact or_or_or_comm
      | simp only [or_assoc, or_left_comm]
  | .expr _ e => by
    intro t
    simp only [List.mem_append, List.mem_map, List.mem_cons, List.not_mem_nil, typesS, tagsS, usesS, or_and_right, exists_or, mem_typesE e, false_and, exists_false, or_false, exists_eq_left, exists_eq_or_imp, mem_map_ty]
    try first
      | exact or_or_or_comm
      | simp only [or_assoc, or_left_comm]
theorem mem_typesSs : ∀ x : List Stmt, ∀ t, t ∈ typesSs x ↔ (∃ u ∈ usesSs x, t = u.2.ty) ∨ ∃ r ∈ tagsSs x, t = r.ty
  | [] => by simp [typesSs, tagsSs, usesSs, or_and_right, exists_or]
  | s :: ss => by
    intro t
    simp only [List.mem_append, List.mem_map, List.mem_cons, List.not_mem_nil, typesSs, tagsSs, usesSs, or_and_right, exists_or, mem_typesS s, mem_typesSs ss, false_and, exists_false, or_false, exists_eq_left, exists_eq_or_imp, mem_map_ty]
    try first
      | exact or_or_or_comm
      | simp only [or_assoc, or_left_comm]
theorem mem_typesA : ∀ x : Arm, ∀ t, t ∈ typesA x ↔ (∃ u ∈ usesA x, t = u.2.ty) ∨ ∃ r ∈ tagsA x, t = r.ty
  | .mk _ p g b => by
    intro t
    simp only [List.mem_append, List.mem_map, List.mem_cons, List.not_mem_nil, typesA, tagsA, usesA, or_and_right, exists_or, mem_typesO g, mem_typesE b, types_tagsP, false_and, exists_false, or_false, exists_eq_left, exists_eq_or_imp, mem_map_ty]
    try first
      | exact or_or_or_comm
      | simp only [or_assoc, or_left_comm]
theorem mem_typesAs : ∀ x : List Arm, ∀ t, t ∈ typesAs x ↔ (∃ u ∈ usesAs x, t = u.2.ty) ∨ ∃ r ∈ tagsAs x, t = r.ty
  | [] => by simp [typesAs, tagsAs, usesAs, or_and_right, exists_or]
  | a :: as => by
    intro t
    simp only [List.mem_append, List.mem_map, List.mem_cons, List.not_mem_nil, typesAs, tagsAs, usesAs, or_and_right, exists_or, mem_typesA a, mem_typesAs as, false_and, exists_false, or_false, exists_eq_left, exists_eq_or_imp, mem_map_ty]
    try first
      | exact or_or_or_comm
      | simp only [or_assoc, or_left_comm]
theorem mem_typesH : ∀ x : HArm, ∀ t, t ∈ typesH x ↔ (∃ u ∈ usesH x, t = u.2.ty) ∨ ∃ r ∈ tagsH x, t = r.ty
  | .mk _ k b => by
    intro t
    simp only [List.mem_append, List.mem_map, List.mem_cons, List.not_mem_nil, typesH, tagsH, usesH, or_and_right, exists_or, mem_typesE b, types_tagsK, false_and, exists_false, or_false, exists_eq_left, exists_eq_or_imp, mem_map_ty]
    try first
      | exact or_or_or_comm
      | simp only [or_assoc, or_left_comm]
theorem mem_typesHs : ∀ x : List HArm, ∀ t, t ∈ typesHs x ↔ (∃ u ∈ usesHs x, t = u.2.ty) ∨ ∃ r ∈ tagsHs x, t = r.ty
  | [] => by simp [typesHs, tagsHs, usesHs, or_and_right, exists_or]
  | h :: hs => by
    intro t
    simp only [List.mem_append, List.mem_map, List.mem_cons, List.not_mem_nil, typesHs, tagsHs, usesHs, or_and_right, exists_or, mem_typesH h, mem_typesHs hs, false_and, exists_false, or_false, exists_eq_left, exists_eq_or_imp, mem_map_ty]
    try first
      | exact or_or_or_comm
      | simp only [or_assoc, or_left_comm]
end

mutual
theorem uses_idsE : ∀ x : Expr, ∀ u ∈ usesE x, u.1 ∈ idsE x
  | .var _ _ => by intro u hu; simp_all [usesE, idsE]
  | .lit _ _ => by intro u hu; simp_all [usesE, idsE]
  | .call _ f as => by
    intro u hu
    simp only [usesE, List.mem_append] at hu
    cases hu with
    | inl hu => have := uses_idsE f u hu; simp [idsE, this]
    | inr hu => have := uses_idsEs as u hu; simp [idsE, this]
  | .cons _ _ as => by
    intro u hu
    have := uses_idsEs as u (by simpa [usesE] using hu)
    simp [idsE, this]
  | .record _ _ _ vs sp => by
    intro u hu
    simp only [usesE, List.mem_append] at hu
    cases hu with
    | inl hu => have := uses_idsEs vs u hu; simp [idsE, this]
    | inr hu => have := uses_idsO sp u hu; simp [idsE, this]
  | .method _ r _ as => by
    intro u hu
    simp only [usesE, List.mem_append] at hu
    cases hu with
    | inl hu => have := uses_idsE r u hu; simp [idsE, this]
    | inr hu => have := uses_idsEs as u hu; simp [idsE, this]
  | .block _ ss e => by
    intro u hu
    simp only [usesE, List.mem_append] at hu
    cases hu with
    | inl hu => have := uses_idsSs ss u hu; simp [idsE, this]
    | inr hu => have := uses_idsE e u hu; simp [idsE, this]
  | .case _ s as => by
    intro u hu
    simp only [usesE, List.mem_append] at hu
    cases hu with
    | inl hu => have := uses_idsE s u hu; simp [idsE, this]
    | inr hu => have := uses_idsAs as u hu; simp [idsE, this]
  | .lam _ _ b => by
    intro u hu
    have := uses_idsE b u (by simpa [usesE] using hu)
    simp [idsE, this]
  | .handle _ b hs => by
    intro u hu
    simp only [usesE, List.mem_append] at hu
    cases hu with
    | inl hu => have := uses_idsE b u hu; simp [idsE, this]
    | inr hu => have := uses_idsHs hs u hu; simp [idsE, this]
  | .resume _ _ a => by
    intro u hu
    have := uses_idsE a u (by simpa [usesE] using hu)
    simp [idsE, this]
  | .tuple _ as => by
    intro u hu
    have := uses_idsEs as u (by simpa [usesE] using hu)
    simp [idsE, this]
  | .list _ as => by
    intro u hu
    have := uses_idsEs as u (by simpa [usesE] using hu)
    simp [idsE, this]
  | .binop _ _ l r => by
    intro u hu
    simp only [usesE, List.mem_append] at hu
    cases hu with
    | inl hu => have := uses_idsE l u hu; simp [idsE, this]
    | inr hu => have := uses_idsE r u hu; simp [idsE, this]
  | .err _ => by intro u hu; simp_all [usesE, idsE]
theorem uses_idsEs : ∀ x : List Expr, ∀ u ∈ usesEs x, u.1 ∈ idsEs x
  | [] => by intro u hu; simp_all [usesEs, idsEs]
  | e :: es => by
    intro u hu
    simp only [usesEs, List.mem_append] at hu
    cases hu with
    | inl hu => have := uses_idsE e u hu; simp [idsEs, this]
    | inr hu => have := uses_idsEs es u hu; simp [idsEs, this]
theorem uses_idsO : ∀ x : Option Expr, ∀ u ∈ usesO x, u.1 ∈ idsO x
  | none => by intro u hu; simp_all [usesO, idsO]
  | some e => by
    intro u hu
    have := uses_idsE e u (by simpa [usesO] using hu)
    simp [idsO, this]
theorem uses_idsS : ∀ x : Stmt, ∀ u ∈ usesS x, u.1 ∈ idsS x
  | .bind _ p e => by
    intro u hu
    have := uses_idsE e u (by simpa [usesS] using hu)
    simp [idsS, this]
  | .expr _ e => by
    intro u hu
    have := uses_idsE e u (by simpa [usesS] using hu)
    simp [idsS, this]
theorem uses_idsSs : ∀ x : List Stmt, ∀ u ∈ usesSs x, u.1 ∈ idsSs x
  | [] => by intro u hu; simp_all [usesSs, idsSs]
  | s :: ss => by
    intro u hu
    simp only [usesSs, List.mem_append] at hu
    cases hu with
    | inl hu => have := uses_idsS s u hu; simp [idsSs, this]
    | inr hu => have := uses_idsSs ss u hu; simp [idsSs, this]
theorem uses_idsA : ∀ x : Arm, ∀ u ∈ usesA x, u.1 ∈ idsA x
  | .mk _ p g b => by
    intro u hu
    simp only [usesA, List.mem_append] at hu
    cases hu with
    | inl hu => have := uses_idsO g u hu; simp [idsA, this]
    | inr hu => have := uses_idsE b u hu; simp [idsA, this]
theorem uses_idsAs : ∀ x : List Arm, ∀ u ∈ usesAs x, u.1 ∈ idsAs x
  | [] => by intro u hu; simp_all [usesAs, idsAs]
  | a :: as => by
    intro u hu
    simp only [usesAs, List.mem_append] at hu
    cases hu with
    | inl hu => have := uses_idsA a u hu; simp [idsAs, this]
    | inr hu => have := uses_idsAs as u hu; simp [idsAs, this]
theorem uses_idsH : ∀ x : HArm, ∀ u ∈ usesH x, u.1 ∈ idsH x
  | .mk _ k b => by
    intro u hu
    have := uses_idsE b u (by simpa [usesH] using hu)
    simp [idsH, this]
theorem uses_idsHs : ∀ x : List HArm, ∀ u ∈ usesHs x, u.1 ∈ idsHs x
  | [] => by intro u hu; simp_all [usesHs, idsHs]
  | h :: hs => by
    intro u hu
    simp only [usesHs, List.mem_append] at hu
    cases hu with
    | inl hu => have := uses_idsH h u hu; simp [idsHs, this]
    | inr hu => have := uses_idsHs hs u hu; simp [idsHs, this]
end

end Verif.Instances
