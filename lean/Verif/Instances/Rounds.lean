import Verif.Instances.Spec
import Verif.Instances.Sim
import Verif.Instances.Match

/-!
# What a round changes
-/

namespace Verif.Instances
open Verif.Types Verif.Mono

/-! ## Copying and redirecting leave the program behind the types alone -/

section
variable (ts : List Ty) (v : Nat)
mutual
theorem mapP_subst : ∀ p : Pat, mapP (substP ts v p) = mapP p
  | .wild _ => by simp [substP, mapP]
  | .bind _ _ => by simp [substP, mapP]
  | .lit _ _ => by simp [substP, mapP]
  | .variant _ r ps => by simp [substP, mapP, mapPs_subst ps, forgetR, substR]
  | .record _ r fs => by
    cases r <;> simp [substP, mapP, mapFPs_subst fs, forgetR, substR]
  | .tuple _ ps => by simp [substP, mapP, mapPs_subst ps]
  | .list _ ps => by simp [substP, mapP, mapPs_subst ps]
  | .listRest _ ps _ => by simp [substP, mapP, mapPs_subst ps]
  | .as _ p _ => by simp [substP, mapP, mapP_subst p]
  | .err _ => by simp [substP, mapP]
theorem mapPs_subst : ∀ ps : List Pat, mapPs (substPs ts v ps) = mapPs ps
  | [] => by simp [substPs]
  | p :: ps => by simp [substPs, mapPs, mapP_subst p, mapPs_subst ps]
theorem mapFP_subst : ∀ f : FPat, mapFP (substF ts v f) = mapFP f
  | .short .. => by simp [substF, mapFP]
  | .full _ _ p => by simp [substF, mapFP, mapP_subst p]
theorem mapFPs_subst : ∀ fs : List FPat, mapFPs (substFs ts v fs) = mapFPs fs
  | [] => by simp [substFs]
  | f :: fs => by simp [substFs, mapFPs, mapFP_subst f, mapFPs_subst fs]
end

theorem mapK_subst (k : HKind) : mapK (substK ts v k) = mapK k := by
  cases k <;> simp [substK, mapK, mapP_subst, mapPs_subst, forgetR, substR]

variable (σ : Name → Name)
mutual
theorem mapE_subst : ∀ e : Expr, mapE σ (substE ts v e) = mapE σ e
  | .var _ r => by simp [substE, mapE, mapR, substR]
  | .lit _ _ => by simp [substE, mapE]
  | .call _ f as => by simp [substE, mapE, mapE_subst f, mapEs_subst as]
  | .cons _ r as => by simp [substE, mapE, mapEs_subst as, forgetR, substR]
  | .record _ r ns vs sp => by simp [substE, mapE, mapEs_subst vs, mapO_subst sp, forgetR, substR]
  | .method _ r _ as => by simp [substE, mapE, mapE_subst r, mapEs_subst as]
  | .block _ ss e => by simp [substE, mapE, mapSs_subst ss, mapE_subst e]
  | .case _ s as => by simp [substE, mapE, mapE_subst s, mapAs_subst as]
  | .lam _ _ b => by simp [substE, mapE, mapE_subst b]
  | .handle _ b hs => by simp [substE, mapE, mapE_subst b, mapHs_subst hs]
  | .resume _ _ a => by simp [substE, mapE, mapE_subst a]
  | .tuple _ as => by simp [substE, mapE, mapEs_subst as]
  | .list _ as => by simp [substE, mapE, mapEs_subst as]
  | .binop _ _ l r => by simp [substE, mapE, mapE_subst l, mapE_subst r]
  | .err _ => by simp [substE, mapE]
theorem mapEs_subst : ∀ es : List Expr, mapEs σ (substEs ts v es) = mapEs σ es
  | [] => by simp [substEs]
  | e :: es => by simp [substEs, mapEs, mapE_subst e, mapEs_subst es]
theorem mapO_subst : ∀ o : Option Expr, mapO σ (substO ts v o) = mapO σ o
  | none => by simp [substO]
  | some e => by simp [substO, mapO, mapE_subst e]
theorem mapS_subst : ∀ s : Stmt, mapS σ (substS ts v s) = mapS σ s
  | .bind _ p e => by simp [substS, mapS, mapE_subst e, mapP_subst]
  | .expr _ e => by simp [substS, mapS, mapE_subst e]
theorem mapSs_subst : ∀ ss : List Stmt, mapSs σ (substSs ts v ss) = mapSs σ ss
  | [] => by simp [substSs]
  | s :: ss => by simp [substSs, mapSs, mapS_subst s, mapSs_subst ss]
theorem mapA_subst : ∀ a : Arm, mapA σ (substA ts v a) = mapA σ a
  | .mk _ p g b => by simp [substA, mapA, mapO_subst g, mapE_subst b, mapP_subst]
theorem mapAs_subst : ∀ as : List Arm, mapAs σ (substAs ts v as) = mapAs σ as
  | [] => by simp [substAs]
  | a :: as => by simp [substAs, mapAs, mapA_subst a, mapAs_subst as]
theorem mapH_subst : ∀ h : HArm, mapH σ (substH ts v h) = mapH σ h
  | .mk _ k b => by simp [substH, mapH, mapK_subst, mapE_subst b]
theorem mapHs_subst : ∀ hs : List HArm, mapHs σ (substHs ts v hs) = mapHs σ hs
  | [] => by simp [substHs]
  | h :: hs => by simp [substHs, mapHs, mapH_subst h, mapHs_subst hs]
end
end

section
variable {nm : Names} {ss : Schemes} {K : List Inst} {σ : Name → Name}
  (h : ∀ r, mapR σ (redirectR nm ss K r) = mapR σ r)
include h
mutual
theorem mapE_rew : ∀ e : Expr, mapE σ (rewE nm ss K e) = mapE σ e
  | .var _ r => by simp [rewE, mapE, h]
  | .lit _ _ => by simp [rewE, mapE]
  | .call _ f as => by simp [rewE, mapE, mapE_rew f, mapEs_rew as]
  | .cons _ r as => by simp [rewE, mapE, mapEs_rew as]
  | .record _ r ns vs sp => by simp [rewE, mapE, mapEs_rew vs, mapO_rew sp]
  | .method _ r _ as => by simp [rewE, mapE, mapE_rew r, mapEs_rew as]
  | .block _ ss e => by simp [rewE, mapE, mapSs_rew ss, mapE_rew e]
  | .case _ s as => by simp [rewE, mapE, mapE_rew s, mapAs_rew as]
  | .lam _ _ b => by simp [rewE, mapE, mapE_rew b]
  | .handle _ b hs => by simp [rewE, mapE, mapE_rew b, mapHs_rew hs]
  | .resume _ _ a => by simp [rewE, mapE, mapE_rew a]
  | .tuple _ as => by simp [rewE, mapE, mapEs_rew as]
  | .list _ as => by simp [rewE, mapE, mapEs_rew as]
  | .binop _ _ l r => by simp [rewE, mapE, mapE_rew l, mapE_rew r]
  | .err _ => by simp [rewE, mapE]
theorem mapEs_rew : ∀ es : List Expr, mapEs σ (rewEs nm ss K es) = mapEs σ es
  | [] => by simp [rewEs]
  | e :: es => by simp [rewEs, mapEs, mapE_rew e, mapEs_rew es]
theorem mapO_rew : ∀ o : Option Expr, mapO σ (rewO nm ss K o) = mapO σ o
  | none => by simp [rewO]
  | some e => by simp [rewO, mapO, mapE_rew e]
theorem mapS_rew : ∀ s : Stmt, mapS σ (rewS nm ss K s) = mapS σ s
  | .bind _ p e => by simp [rewS, mapS, mapE_rew e]
  | .expr _ e => by simp [rewS, mapS, mapE_rew e]
theorem mapSs_rew : ∀ ss' : List Stmt, mapSs σ (rewSs nm ss K ss') = mapSs σ ss'
  | [] => by simp [rewSs]
  | s :: ss' => by simp [rewSs, mapSs, mapS_rew s, mapSs_rew ss']
theorem mapA_rew : ∀ a : Arm, mapA σ (rewA nm ss K a) = mapA σ a
  | .mk _ p g b => by simp [rewA, mapA, mapO_rew g, mapE_rew b]
theorem mapAs_rew : ∀ as : List Arm, mapAs σ (rewAs nm ss K as) = mapAs σ as
  | [] => by simp [rewAs]
  | a :: as => by simp [rewAs, mapAs, mapA_rew a, mapAs_rew as]
theorem mapH_rew : ∀ x : HArm, mapH σ (rewH nm ss K x) = mapH σ x
  | .mk _ k b => by simp [rewH, mapH, mapE_rew b]
theorem mapHs_rew : ∀ hs : List HArm, mapHs σ (rewHs nm ss K hs) = mapHs σ hs
  | [] => by simp [rewHs]
  | x :: hs => by simp [rewHs, mapHs, mapH_rew x, mapHs_rew hs]
end
end

section
variable {σ τ : Name → Name}
mutual
theorem mapE_congr : ∀ e : Expr, (∀ u ∈ usesE e, mapR σ u.2 = mapR τ u.2) → mapE σ e = mapE τ e
  | .var _ r, h => by simpa [mapE, usesE] using h
  | .lit _ _, h => by simp [mapE]
  | .call _ f as, h => by
    simp only [usesE, List.mem_append] at h
    simp [mapE, mapE_congr f (fun u hu => h u (.inl hu)), mapEs_congr as (fun u hu => h u (.inr hu))]
  | .cons _ r as, h => by simp [mapE, mapEs_congr as h]
  | .record _ r ns vs sp, h => by
    simp only [usesE, List.mem_append] at h
    simp [mapE, mapEs_congr vs (fun u hu => h u (.inl hu)), mapO_congr sp (fun u hu => h u (.inr hu))]
  | .method _ r _ as, h => by
    simp only [usesE, List.mem_append] at h
    simp [mapE, mapE_congr r (fun u hu => h u (.inl hu)), mapEs_congr as (fun u hu => h u (.inr hu))]
  | .block _ ss e, h => by
    simp only [usesE, List.mem_append] at h
    simp [mapE, mapSs_congr ss (fun u hu => h u (.inl hu)), mapE_congr e (fun u hu => h u (.inr hu))]
  | .case _ s as, h => by
    simp only [usesE, List.mem_append] at h
    simp [mapE, mapE_congr s (fun u hu => h u (.inl hu)), mapAs_congr as (fun u hu => h u (.inr hu))]
  | .lam _ _ b, h => by simp [mapE, mapE_congr b h]
  | .handle _ b hs, h => by
    simp only [usesE, List.mem_append] at h
    simp [mapE, mapE_congr b (fun u hu => h u (.inl hu)), mapHs_congr hs (fun u hu => h u (.inr hu))]
  | .resume _ _ a, h => by simp [mapE, mapE_congr a h]
  | .tuple _ as, h => by simp [mapE, mapEs_congr as h]
  | .list _ as, h => by simp [mapE, mapEs_congr as h]
  | .binop _ _ l r, h => by
    simp only [usesE, List.mem_append] at h
    simp [mapE, mapE_congr l (fun u hu => h u (.inl hu)), mapE_congr r (fun u hu => h u (.inr hu))]
  | .err _, h => by simp [mapE]
theorem mapEs_congr : ∀ e : List Expr, (∀ u ∈ usesEs e, mapR σ u.2 = mapR τ u.2) → mapEs σ e = mapEs τ e
  | [], h => by simp [mapEs]
  | e :: es, h => by
    simp only [usesEs, List.mem_append] at h
    simp [mapEs, mapE_congr e (fun u hu => h u (.inl hu)), mapEs_congr es (fun u hu => h u (.inr hu))]
theorem mapO_congr : ∀ e : Option Expr, (∀ u ∈ usesO e, mapR σ u.2 = mapR τ u.2) → mapO σ e = mapO τ e
  | none, h => by simp [mapO]
  | some e, h => by simp [mapO, mapE_congr e h]
theorem mapS_congr : ∀ e : Stmt, (∀ u ∈ usesS e, mapR σ u.2 = mapR τ u.2) → mapS σ e = mapS τ e
  | .bind _ p e, h => by simp [mapS, mapE_congr e h]
  | .expr _ e, h => by simp [mapS, mapE_congr e h]
theorem mapSs_congr : ∀ e : List Stmt, (∀ u ∈ usesSs e, mapR σ u.2 = mapR τ u.2) → mapSs σ e = mapSs τ e
  | [], h => by simp [mapSs]
  | e :: es, h => by
    simp only [usesSs, List.mem_append] at h
    simp [mapSs, mapS_congr e (fun u hu => h u (.inl hu)), mapSs_congr es (fun u hu => h u (.inr hu))]
theorem mapA_congr : ∀ e : Arm, (∀ u ∈ usesA e, mapR σ u.2 = mapR τ u.2) → mapA σ e = mapA τ e
  | .mk _ p g b, h => by
    simp only [usesA, List.mem_append] at h
    simp [mapA, mapO_congr g (fun u hu => h u (.inl hu)), mapE_congr b (fun u hu => h u (.inr hu))]
theorem mapAs_congr : ∀ e : List Arm, (∀ u ∈ usesAs e, mapR σ u.2 = mapR τ u.2) → mapAs σ e = mapAs τ e
  | [], h => by simp [mapAs]
  | e :: es, h => by
    simp only [usesAs, List.mem_append] at h
    simp [mapAs, mapA_congr e (fun u hu => h u (.inl hu)), mapAs_congr es (fun u hu => h u (.inr hu))]
theorem mapH_congr : ∀ e : HArm, (∀ u ∈ usesH e, mapR σ u.2 = mapR τ u.2) → mapH σ e = mapH τ e
  | .mk _ k b, h => by simp [mapH, mapE_congr b h]
theorem mapHs_congr : ∀ e : List HArm, (∀ u ∈ usesHs e, mapR σ u.2 = mapR τ u.2) → mapHs σ e = mapHs τ e
  | [], h => by simp [mapHs]
  | e :: es, h => by
    simp only [usesHs, List.mem_append] at h
    simp [mapHs, mapH_congr e (fun u hu => h u (.inl hu)), mapHs_congr es (fun u hu => h u (.inr hu))]
end
end

/-! ## The functions of a program after a round -/

theorem lookup_append {α β : Type} [BEq α] [LawfulBEq α] (l l' : List (α × β)) (x : α) :
    (l ++ l').lookup x = match l.lookup x with
      | some y => some y
      | none => l'.lookup x := by
  induction l with
  | nil => rfl
  | cons p l ih =>
    obtain ⟨a, b⟩ := p
    simp only [List.cons_append, List.lookup_cons]
    cases x == a <;> simp [ih]

theorem lookup_mem {α β : Type} [BEq α] [LawfulBEq α] {l : List (α × β)} {x : α} {y : β}
    (h : l.lookup x = some y) : (x, y) ∈ l := by
  induction l with
  | nil => simp at h
  | cons p l ih =>
    obtain ⟨a, b⟩ := p
    simp only [List.lookup_cons] at h
    cases hx : x == a with
    | true =>
      rw [hx] at h
      simp only [Option.some.injEq] at h
      simp only [beq_iff_eq] at hx
      simp [hx, h]
    | false => rw [hx] at h; exact List.mem_cons_of_mem _ (ih h)

theorem lookup_map {α β γ : Type} [BEq α] [LawfulBEq α] (f : β → γ) (l : List (α × β)) (x : α) :
    (l.map fun p => (p.1, f p.2)).lookup x = (l.lookup x).map f := by
  induction l with
  | nil => rfl
  | cons p l ih =>
    obtain ⟨a, b⟩ := p
    simp only [List.map_cons, List.lookup_cons]
    cases x == a <;> simp [ih]

theorem funsL_append (pre : Name) (ds ds' : List Decl) :
    funsL pre (ds ++ ds') = funsL pre ds ++ funsL pre ds' := by
  induction ds with
  | nil => simp [funsL]
  | cons d ds ih => simp [funsL, ih]

def Fun.rew (nm : Names) (ss : Schemes) (K : List Inst) (f : Fun) : Fun := { f with body := rewE nm ss K f.body }

mutual
theorem funs_rew (nm : Names) (ss : Schemes) (K : List Inst) : ∀ (d : Decl) (pre : Name),
    funs pre (rewD nm ss K d) = (funs pre d).map fun p => (p.1, p.2.rew nm ss K)
  | .func .., pre => by simp [rewD, funs, Fun.rew]
  | .ext _, pre => by simp [rewD, funs]
  | .mod n ds, pre => by simp only [rewD, funs]; exact funsL_rew nm ss K ds _
  | .other, pre => by simp [rewD, funs]
theorem funsL_rew (nm : Names) (ss : Schemes) (K : List Inst) : ∀ (ds : List Decl) (pre : Name),
    funsL pre (rewDs nm ss K ds) = (funsL pre ds).map fun p => (p.1, p.2.rew nm ss K)
  | [], pre => by simp [rewDs, funsL]
  | d :: ds, pre => by simp [rewDs, funsL, funs_rew nm ss K d pre, funsL_rew nm ss K ds pre]
end

/-! ## The instances found -/

/-- An instance the collection can find. -/
def Found (ss : Schemes) (i : Inst) : Prop :=
  ∃ s c, ss.lookup i.1 = some s ∧ record s c = some i.2

theorem tryRecord_found {ss : Schemes} {tab : Table} {id : NodeId} {r : TRef} {i : Inst}
    (h : i ∈ tryRecord ss tab id r) : Found ss i := by
  unfold tryRecord at h
  split at h
  · rename_i f hr
    split at h
    · simp at h
    · rename_i s hs
      split at h
      · simp at h
      · rename_i ts hts
        simp only [List.mem_singleton] at h
        subst h
        exact ⟨s, _, hs, hts⟩
  · simp at h

section
variable {ss : Schemes} {tab : Table} {i : Inst}
mutual
theorem visitE_iff : ∀ e : Expr, i ∈ visitE ss tab e ↔ ∃ u ∈ usesE e, i ∈ tryRecord ss tab u.1 u.2
  | .var _ r => by simp [visitE, usesE]
  | .lit _ _ => by simp [visitE, usesE]
  | .call _ f as => by simp [visitE, usesE, visitE_iff f, visitEs_iff as, or_and_right, exists_or]
  | .cons _ r as => by simp [visitE, usesE, visitEs_iff as]
  | .record _ r ns vs sp => by simp [visitE, usesE, visitEs_iff vs, visitO_iff sp, or_and_right, exists_or]
  | .method _ r _ as => by simp [visitE, usesE, visitE_iff r, visitEs_iff as, or_and_right, exists_or]
  | .block _ ss e => by simp [visitE, usesE, visitSs_iff ss, visitE_iff e, or_and_right, exists_or]
  | .case _ s as => by simp [visitE, usesE, visitE_iff s, visitAs_iff as, or_and_right, exists_or]
  | .lam _ _ b => by simp [visitE, usesE, visitE_iff b]
  | .handle _ b hs => by simp [visitE, usesE, visitE_iff b, visitHs_iff hs, or_and_right, exists_or]
  | .resume _ _ a => by simp [visitE, usesE, visitE_iff a]
  | .tuple _ as => by simp [visitE, usesE, visitEs_iff as]
  | .list _ as => by simp [visitE, usesE, visitEs_iff as]
  | .binop _ _ l r => by simp [visitE, usesE, visitE_iff l, visitE_iff r, or_and_right, exists_or]
  | .err _ => by simp [visitE, usesE]
theorem visitEs_iff : ∀ es : List Expr, i ∈ visitEs ss tab es ↔ ∃ u ∈ usesEs es, i ∈ tryRecord ss tab u.1 u.2
  | [] => by simp [visitEs, usesEs]
  | e :: es => by simp [visitEs, usesEs, visitE_iff e, visitEs_iff es, or_and_right, exists_or]
theorem visitO_iff : ∀ o : Option Expr, i ∈ visitO ss tab o ↔ ∃ u ∈ usesO o, i ∈ tryRecord ss tab u.1 u.2
  | none => by simp [visitO, usesO]
  | some e => by simp [visitO, usesO, visitE_iff e]
theorem visitS_iff : ∀ s : Stmt, i ∈ visitS ss tab s ↔ ∃ u ∈ usesS s, i ∈ tryRecord ss tab u.1 u.2
  | .bind _ p e => by simp [visitS, usesS, visitE_iff e]
  | .expr _ e => by simp [visitS, usesS, visitE_iff e]
theorem visitSs_iff : ∀ es : List Stmt, i ∈ visitSs ss tab es ↔ ∃ u ∈ usesSs es, i ∈ tryRecord ss tab u.1 u.2
  | [] => by simp [visitSs, usesSs]
  | e :: es => by simp [visitSs, usesSs, visitS_iff e, visitSs_iff es, or_and_right, exists_or]
theorem visitA_iff : ∀ a : Arm, i ∈ visitA ss tab a ↔ ∃ u ∈ usesA a, i ∈ tryRecord ss tab u.1 u.2
  | .mk _ p g b => by simp [visitA, usesA, visitO_iff g, visitE_iff b, or_and_right, exists_or]
theorem visitAs_iff : ∀ es : List Arm, i ∈ visitAs ss tab es ↔ ∃ u ∈ usesAs es, i ∈ tryRecord ss tab u.1 u.2
  | [] => by simp [visitAs, usesAs]
  | e :: es => by simp [visitAs, usesAs, visitA_iff e, visitAs_iff es, or_and_right, exists_or]
theorem visitH_iff : ∀ h : HArm, i ∈ visitH ss tab h ↔ ∃ u ∈ usesH h, i ∈ tryRecord ss tab u.1 u.2
  | .mk _ k b => by simp [visitH, usesH, visitE_iff b]
theorem visitHs_iff : ∀ es : List HArm, i ∈ visitHs ss tab es ↔ ∃ u ∈ usesHs es, i ∈ tryRecord ss tab u.1 u.2
  | [] => by simp [visitHs, usesHs]
  | e :: es => by simp [visitHs, usesHs, visitH_iff e, visitHs_iff es, or_and_right, exists_or]
end

mutual
theorem visitD_iff : ∀ (d : Decl) (pre : Name), i ∈ visitD ss tab d ↔
    ∃ p ∈ funs pre d, ∃ u ∈ usesE p.2.body, i ∈ tryRecord ss tab u.1 u.2
  | .func .., pre => by simp [visitD, funs, visitE_iff]
  | .ext _, pre => by simp [visitD, funs]
  | .mod n ds, pre => by simp only [visitD, funs]; exact visitDs_iff ds _
  | .other, pre => by simp [visitD, funs]
theorem visitDs_iff : ∀ (ds : List Decl) (pre : Name), i ∈ visitDs ss tab ds ↔
    ∃ p ∈ funsL pre ds, ∃ u ∈ usesE p.2.body, i ∈ tryRecord ss tab u.1 u.2
  | [], pre => by simp [visitDs, funsL]
  | d :: ds, pre => by
    simp only [visitDs, funsL, List.mem_append, visitD_iff d pre, visitDs_iff ds pre, or_and_right, exists_or]
end
end

theorem fresh_mem {K L : List Inst} {i : Inst} : i ∈ fresh K L → i ∈ L ∧ i ∉ K := by
  induction L generalizing K with
  | nil => simp [fresh]
  | cons j L ih =>
    simp only [fresh]
    split
    · rename_i hj
      intro h
      exact ⟨List.mem_cons_of_mem _ (ih h).1, (ih h).2⟩
    · rename_i hj
      intro h
      cases List.mem_cons.mp h with
      | inl h => subst h; exact ⟨List.mem_cons_self, hj⟩
      | inr h =>
        exact ⟨List.mem_cons_of_mem _ (ih h).1, fun hk => (ih h).2 (List.mem_cons_of_mem _ hk)⟩

theorem fresh_all {K L : List Inst} {i : Inst} (h : i ∈ L) : i ∈ K ∨ i ∈ fresh K L := by
  induction L generalizing K with
  | nil => simp at h
  | cons j L ih =>
    simp only [fresh]
    cases List.mem_cons.mp h with
    | inl h =>
      subst h
      split
      · rename_i hj; exact .inl hj
      · exact .inr List.mem_cons_self
    | inr h =>
      split
      · exact ih h
      · cases ih (K := j :: K) h with
        | inl h =>
          cases List.mem_cons.mp h with
          | inl h => subst h; exact .inr List.mem_cons_self
          | inr h => exact .inl h
        | inr h => exact .inr (List.mem_cons_of_mem _ h)

theorem found_args {ss : Schemes} {i : Inst} (h : Found ss i) : i.2 ≠ [] := by
  obtain ⟨s, c, _, hr⟩ := h
  unfold record at hr
  split at hr
  · simp at hr
  · rename_i as has
    split at hr
    · simp only [Option.some.injEq] at hr
      subst hr
      intro he
      have := extract_length has
      simp [he] at this
      omega
    · simp at hr

end Verif.Instances
