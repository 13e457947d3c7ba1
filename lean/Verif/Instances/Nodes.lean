import Verif.Instances.Spec

/-!
# The nodes of functions
-/

namespace Verif.Instances
open Verif.Types Verif.Mono

mutual
theorem nodes_idsP : ∀ x : Pat, nodesP x = idsP x
  | .wild _ => by simp [nodesP, idsP]
  | .bind _ _ => by simp [nodesP, idsP]
  | .lit _ _ => by simp [nodesP, idsP]
  | .variant _ _ ps => by simp [nodesP, idsP, nodes_idsPs ps]
  | .record _ _ fs => by simp [nodesP, idsP, nodes_idsFs fs]
  | .tuple _ ps => by simp [nodesP, idsP, nodes_idsPs ps]
  | .list _ ps => by simp [nodesP, idsP, nodes_idsPs ps]
  | .listRest _ ps _ => by simp [nodesP, idsP, nodes_idsPs ps]
  | .as _ p _ => by simp [nodesP, idsP, nodes_idsP p]
  | .err _ => by simp [nodesP, idsP]
theorem nodes_idsPs : ∀ x : List Pat, nodesPs x = idsPs x
  | [] => by simp [nodesPs, idsPs]
  | p :: ps => by simp [nodesPs, idsPs, nodes_idsP p, nodes_idsPs ps]
theorem nodes_idsF : ∀ x : FPat, nodesF x = idsF x
  | .short _ _ _ => by simp [nodesF, idsF]
  | .full _ _ p => by simp [nodesF, idsF, nodes_idsP p]
theorem nodes_idsFs : ∀ x : List FPat, nodesFs x = idsFs x
  | [] => by simp [nodesFs, idsFs]
  | f :: fs => by simp [nodesFs, idsFs, nodes_idsF f, nodes_idsFs fs]
end

theorem nodes_idsK (k : HKind) : nodesK k = idsK k := by
  cases k <;> simp [nodesK, idsK, nodes_idsP, nodes_idsPs]

mutual
theorem nodes_idsE : ∀ x : Expr, nodesE x = idsE x
  | .var _ _ => by simp [nodesE, idsE]
  | .lit _ _ => by simp [nodesE, idsE]
  | .call _ f as => by simp [nodesE, idsE, nodes_idsE f, nodes_idsEs as]
  | .cons _ _ as => by simp [nodesE, idsE, nodes_idsEs as]
  | .record _ _ _ vs sp => by simp [nodesE, idsE, nodes_idsEs vs, nodes_idsO sp]
  | .method _ r _ as => by simp [nodesE, idsE, nodes_idsE r, nodes_idsEs as]
  | .block _ ss e => by simp [nodesE, idsE, nodes_idsSs ss, nodes_idsE e]
  | .case _ s as => by simp [nodesE, idsE, nodes_idsE s, nodes_idsAs as]
  | .lam _ _ b => by simp [nodesE, idsE, nodes_idsE b]
  | .handle _ b hs => by simp [nodesE, idsE, nodes_idsE b, nodes_idsHs hs]
  | .resume _ _ a => by simp [nodesE, idsE, nodes_idsE a]
  | .tuple _ as => by simp [nodesE, idsE, nodes_idsEs as]
  | .list _ as => by simp [nodesE, idsE, nodes_idsEs as]
  | .binop _ _ l r => by simp [nodesE, idsE, nodes_idsE l, nodes_idsE r]
  | .err _ => by simp [nodesE, idsE]
theorem nodes_idsEs : ∀ x : List Expr, nodesEs x = idsEs x
  | [] => by simp [nodesEs, idsEs]
  | e :: es => by simp [nodesEs, idsEs, nodes_idsE e, nodes_idsEs es]
theorem nodes_idsO : ∀ x : Option Expr, nodesO x = idsO x
  | none => by simp [nodesO, idsO]
  | some e => by simp [nodesO, idsO, nodes_idsE e]
theorem nodes_idsS : ∀ x : Stmt, nodesS x = idsS x
  | .bind _ p e => by simp [nodesS, idsS, nodes_idsP p, nodes_idsE e]
  | .expr _ e => by simp [nodesS, idsS, nodes_idsE e]
theorem nodes_idsSs : ∀ x : List Stmt, nodesSs x = idsSs x
  | [] => by simp [nodesSs, idsSs]
  | s :: ss => by simp [nodesSs, idsSs, nodes_idsS s, nodes_idsSs ss]
theorem nodes_idsA : ∀ x : Arm, nodesA x = idsA x
  | .mk _ p g b => by simp [nodesA, idsA, nodes_idsP p, nodes_idsO g, nodes_idsE b]
theorem nodes_idsAs : ∀ x : List Arm, nodesAs x = idsAs x
  | [] => by simp [nodesAs, idsAs]
  | a :: as => by simp [nodesAs, idsAs, nodes_idsA a, nodes_idsAs as]
theorem nodes_idsH : ∀ x : HArm, nodesH x = idsH x
  | .mk _ k b => by simp [nodesH, idsH, nodes_idsK k, nodes_idsE b]
theorem nodes_idsHs : ∀ x : List HArm, nodesHs x = idsHs x
  | [] => by simp [nodesHs, idsHs]
  | h :: hs => by simp [nodesHs, idsHs, nodes_idsH h, nodes_idsHs hs]
end

section
variable (ts : List Ty) (v : Nat)

mutual
theorem ids_substP : ∀ x : Pat, idsP (substP ts v x) = (idsP x).map (·.withVariant v)
  | .wild _ => by simp [idsP, substP]
  | .bind _ _ => by simp [idsP, substP]
  | .lit _ _ => by simp [idsP, substP]
  | .variant _ _ ps => by simp [idsP, substP, ids_substPs ps]
  | .record _ _ fs => by simp [idsP, substP, ids_substFs fs]
  | .tuple _ ps => by simp [idsP, substP, ids_substPs ps]
  | .list _ ps => by simp [idsP, substP, ids_substPs ps]
  | .listRest _ ps _ => by simp [idsP, substP, ids_substPs ps]
  | .as _ p _ => by simp [idsP, substP, ids_substP p]
  | .err _ => by simp [idsP, substP]
theorem ids_substPs : ∀ x : List Pat, idsPs (substPs ts v x) = (idsPs x).map (·.withVariant v)
  | [] => by simp [idsPs, substPs]
  | p :: ps => by simp [idsPs, substPs, ids_substP p, ids_substPs ps]
theorem ids_substF : ∀ x : FPat, idsF (substF ts v x) = (idsF x).map (·.withVariant v)
  | .short _ _ _ => by simp [idsF, substF]
  | .full _ _ p => by simp [idsF, substF, ids_substP p]
theorem ids_substFs : ∀ x : List FPat, idsFs (substFs ts v x) = (idsFs x).map (·.withVariant v)
  | [] => by simp [idsFs, substFs]
  | f :: fs => by simp [idsFs, substFs, ids_substF f, ids_substFs fs]
end

theorem ids_substK (k : HKind) : idsK (substK ts v k) = (idsK k).map (·.withVariant v) := by
  cases k <;> simp [idsK, substK, ids_substP, ids_substPs]

mutual
theorem ids_substE : ∀ x : Expr, idsE (substE ts v x) = (idsE x).map (·.withVariant v)
  | .var _ _ => by simp [idsE, substE]
  | .lit _ _ => by simp [idsE, substE]
  | .call _ f as => by simp [idsE, substE, ids_substE f, ids_substEs as]
  | .cons _ _ as => by simp [idsE, substE, ids_substEs as]
  | .record _ _ _ vs sp => by simp [idsE, substE, ids_substEs vs, ids_substO sp]
  | .method _ r _ as => by simp [idsE, substE, ids_substE r, ids_substEs as]
  | .block _ ss e => by simp [idsE, substE, ids_substSs ss, ids_substE e]
  | .case _ s as => by simp [idsE, substE, ids_substE s, ids_substAs as]
  | .lam _ _ b => by simp [idsE, substE, ids_substE b]
  | .handle _ b hs => by simp [idsE, substE, ids_substE b, ids_substHs hs]
  | .resume _ _ a => by simp [idsE, substE, ids_substE a]
  | .tuple _ as => by simp [idsE, substE, ids_substEs as]
  | .list _ as => by simp [idsE, substE, ids_substEs as]
  | .binop _ _ l r => by simp [idsE, substE, ids_substE l, ids_substE r]
  | .err _ => by simp [idsE, substE]
theorem ids_substEs : ∀ x : List Expr, idsEs (substEs ts v x) = (idsEs x).map (·.withVariant v)
  | [] => by simp [idsEs, substEs]
  | e :: es => by simp [idsEs, substEs, ids_substE e, ids_substEs es]
theorem ids_substO : ∀ x : Option Expr, idsO (substO ts v x) = (idsO x).map (·.withVariant v)
  | none => by simp [idsO, substO]
  | some e => by simp [idsO, substO, ids_substE e]
theorem ids_substS : ∀ x : Stmt, idsS (substS ts v x) = (idsS x).map (·.withVariant v)
  | .bind _ p e => by simp [idsS, substS, ids_substP ts v p, ids_substE e]
  | .expr _ e => by simp [idsS, substS, ids_substE e]
theorem ids_substSs : ∀ x : List Stmt, idsSs (substSs ts v x) = (idsSs x).map (·.withVariant v)
  | [] => by simp [idsSs, substSs]
  | s :: ss => by simp [idsSs, substSs, ids_substS s, ids_substSs ss]
theorem ids_substA : ∀ x : Arm, idsA (substA ts v x) = (idsA x).map (·.withVariant v)
  | .mk _ p g b => by simp [idsA, substA, ids_substP ts v p, ids_substO g, ids_substE b]
theorem ids_substAs : ∀ x : List Arm, idsAs (substAs ts v x) = (idsAs x).map (·.withVariant v)
  | [] => by simp [idsAs, substAs]
  | a :: as => by simp [idsAs, substAs, ids_substA a, ids_substAs as]
theorem ids_substH : ∀ x : HArm, idsH (substH ts v x) = (idsH x).map (·.withVariant v)
  | .mk _ k b => by simp [idsH, substH, ids_substK ts v k, ids_substE b]
theorem ids_substHs : ∀ x : List HArm, idsHs (substHs ts v x) = (idsHs x).map (·.withVariant v)
  | [] => by simp [idsHs, substHs]
  | h :: hs => by simp [idsHs, substHs, ids_substH h, ids_substHs hs]
end

end

theorem mem_nodes {f : Fun} {id : NodeId} : id ∈ nodes f ↔ id = f.id ∨ id ∈ idsE f.body := by
  simp [nodes, nodes_idsE]

theorem checked_nodes {E : Env} {ds : List Decl} {ct : Table} (hc : Checked E ds ct) {n : Name} {f : Fun}
    (h : (n, f) ∈ functions ds) : f.id.variant = none ∧ ∀ id ∈ idsE f.body, id.variant = none :=
  ⟨hc.nodes n f h _ (mem_nodes.mpr (.inl rfl)), fun id hid => hc.nodes n f h id (mem_nodes.mpr (.inr hid))⟩

end Verif.Instances
