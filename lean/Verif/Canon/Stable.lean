import Verif.Canon.Spec

/-!
# A second iteration changes nothing
-/
namespace Verif.Canon

/-- The definitions of a traversal, with nothing replaced. -/
abbrev at' (d : Value → Def) : St := ⟨d, id⟩

theorem keep_at (d : Value → Def) (r : Value) (x : Def) :
    (at' d).keep r x = at' (fun y => if y = r then x else d y) := by
  simp only [St.keep, St.mk.injEq, true_and]
  funext y
  split <;> simp_all

theorem keepAll_at (d : Value → Def) (rs : List Value) :
    (at' d).keepAll rs = at' (fun y => if y ∈ rs then .other else d y) := by
  simp only [St.keepAll, St.mk.injEq, true_and]
  funext y
  split <;> simp_all

theorem forwardAll_defs (st : St) (rs vs : List Value) : (st.forwardAll rs vs).defs = st.defs := by
  induction rs generalizing vs with
  | nil => rfl
  | cons r rs ih => cases vs with
    | nil => rfl
    | cons v vs => exact ih vs

theorem canonOps_append (ty : Value → Ty) (st : St) (a b : List Op) :
    canonOps ty st (a ++ b) =
      (let x := canonOps ty st a
       let y := canonOps ty x.2.1 b
       (x.1 ++ y.1, y.2.1, x.2.2 + y.2.2)) := by
  induction a generalizing st with
  | nil => simp [canonOps]
  | cons o a ih => simp [canonOps, ih, Nat.add_assoc]

theorem splitYield_eq : ∀ {os : List Op} {body : List Op} {vs : List Value},
    splitYield os = some (body, vs) → os = body ++ [.yield vs]
  | [], _, _, h => by simp [splitYield] at h
  | o :: os, body, vs, h => by
    by_cases hy : ∃ ws, o = .yield ws ∧ os = []
    · obtain ⟨ws, rfl, rfl⟩ := hy
      simp only [splitYield, Option.some.injEq, Prod.mk.injEq] at h
      obtain ⟨rfl, rfl⟩ := h
      rfl
    · have h' : (splitYield os).map (fun p => (o :: p.1, p.2)) = some (body, vs) := by
        rw [← h, splitYield]
        rintro ws rfl rfl
        exact hy ⟨ws, rfl, rfl⟩
      simp only [Option.map_eq_some_iff] at h'
      obtain ⟨⟨b, ws⟩, hb, he⟩ := h'
      simp only [Prod.mk.injEq] at he
      obtain ⟨rfl, rfl⟩ := he
      rw [splitYield_eq hb]
      rfl

/-- Visiting the operations again, knowing the same definitions, changes nothing. -/
def Again (ty : Value → Ty) (st : St) (r : List Op × St × Nat) : Prop :=
  canonOps ty (at' st.defs) r.1 = (r.1, at' r.2.1.defs, 0)

theorem again_splice {ty : Value → Ty} {st st1 : St} {os body : List Op} {vs : List Value} {n k : Nat}
    (h : Again ty st (os, st1, n)) (hs : splitYield os = some (body, vs)) (rs : List Value) :
    Again ty st (body, st1.forwardAll rs vs, k) := by
  unfold Again at h ⊢
  rw [splitYield_eq hs, canonOps_append] at h
  simp only [canonOps, canonOp, List.append_nil, Nat.add_zero, Prod.mk.injEq] at h
  obtain ⟨h1, h2, h3⟩ := h
  have h1' := List.append_inj_left' h1 rfl
  rw [forwardAll_defs]
  rcases hc : canonOps ty (at' st.defs) body with ⟨a, b, c⟩
  rw [hc] at h1' h2 h3
  simp only at h1' h2 h3
  rw [h1', h2, h3]

mutual
theorem again_op (ty : Value → Ty) (st : St) : (o : Op) → Again ty st (canonOp ty st o)
  | .const r v => by
    simp [Again, canonOp, canonOps, keep_at]; rfl
  | .constBool r v => by
    simp [Again, canonOp, canonOps, keep_at]; rfl
  | .bin o r a b => by
    unfold Again
    rw [canonOp]
    split
    · rfl
    · rfl
    · simp only [canonOps, canonOp, keep_at]; rfl
    · rename_i h
      simp only [canonOps, canonOp, id, h, keep_at]; rfl
  | .cast r a => by
    unfold Again
    rw [canonOp]
    split
    · rfl
    · rename_i h
      simp only [canonOps, canonOp, id, h, keep_at]; rfl
  | .plain f args rs => by
    simp only [Again, canonOps, canonOp, keepAll_at, List.map_id]; rfl
  | .ite c rs t e => by
    have ht := again_ops ty st t
    have he := again_ops ty st e
    rw [canonOp]
    rcases hct : canonOps ty st t with ⟨t', st1, n1⟩
    rcases hce : canonOps ty st e with ⟨e', st2, n2⟩
    rw [hct] at ht
    rw [hce] at he
    have ht' := ht
    have he' := he
    unfold Again at ht' he'
    simp only at ht' he' ⊢
    have stay : (∀ b, decided ty st.defs (st.sub c) = some b →
          ∀ body vs, splitYield (if b then t' else e') = some (body, vs) → vs.length ≠ rs.length) →
        Again ty st ([Op.ite (st.sub c) rs t' e'], st.keepAll rs, n1 + n2) := by
      intro hno
      unfold Again
      have : canonOp ty (at' st.defs) (.ite (st.sub c) rs t' e') =
          ([Op.ite (st.sub c) rs t' e'], (at' st.defs).keepAll rs, 0) := by
        rw [canonOp, ht', he']
        simp only [id]
        cases hd : decided ty st.defs (st.sub c) with
        | none => rfl
        | some b =>
          have hb := hno b hd
          cases b with
          | true =>
            simp only [if_true] at hb
            cases hs : splitYield t' with
            | none => rfl
            | some p => simp only; rw [if_neg (hb _ _ hs)]
          | false =>
            simp only [Bool.false_eq_true, if_false] at hb
            cases hs : splitYield e' with
            | none => rfl
            | some p => simp only; rw [if_neg (hb _ _ hs)]
      simp only [canonOps, this, List.append_nil, Nat.add_zero, keepAll_at]
      rfl
    cases hd : decided ty st.defs (st.sub c) with
    | none => exact stay (by simp [hd])
    | some b => cases b with
      | true =>
        simp only
        cases hs : splitYield t' with
        | none => exact stay (by simp [hd, hs])
        | some p =>
          simp only
          split
          · exact again_splice ht hs rs
          · rename_i hl
            refine stay fun b hb body vs hs' => ?_
            rw [hd, Option.some.injEq] at hb
            subst hb
            rw [if_pos rfl, hs, Option.some.injEq] at hs'
            subst hs'
            exact hl
      | false =>
        simp only
        cases hs : splitYield e' with
        | none => exact stay (by simp [hd, hs])
        | some p =>
          simp only
          split
          · exact again_splice he hs rs
          · rename_i hl
            refine stay fun b hb body vs hs' => ?_
            rw [hd, Option.some.injEq] at hb
            subst hb
            rw [if_neg (by decide), hs, Option.some.injEq] at hs'
            subst hs'
            exact hl
  | .loop inits args rs body => by
    have hb := again_ops ty (st.keepAll args) body
    rw [canonOp]
    rcases hc : canonOps ty (st.keepAll args) body with ⟨b', st1, n1⟩
    rw [hc] at hb
    unfold Again at hb ⊢
    simp only [canonOps, canonOp, keepAll_at, List.map_id] at hb ⊢
    have e : (at' (st.keepAll args).defs) = at' (fun y => if y ∈ args then .other else st.defs y) := rfl
    rw [e] at hb
    rw [hb]
    rfl
  | .yield vs => by simp only [Again, canonOps, canonOp, List.map_id]; rfl
  | .cont vs => by simp only [Again, canonOps, canonOp, List.map_id]; rfl
  | .brk vs => by simp only [Again, canonOps, canonOp, List.map_id]; rfl
  | .exit f vs => by simp only [Again, canonOps, canonOp, List.map_id]; rfl

theorem again_ops (ty : Value → Ty) (st : St) : (os : List Op) → Again ty st (canonOps ty st os)
  | [] => rfl
  | o :: os => by
    have ho := again_op ty st o
    rw [canonOps]
    rcases hc : canonOp ty st o with ⟨a, st1, n1⟩
    have hos := again_ops ty st1 os
    rw [hc] at ho
    unfold Again at ho hos ⊢
    simp only at ho hos ⊢
    rw [canonOps_append, ho]
    simp only
    rw [hos]
    rfl
end

theorem round_again (ty : Value → Ty) (ops : List Op) :
    round ty (round ty ops).1 = ((round ty ops).1, 0) := by
  have h := again_ops ty .init ops
  unfold Again at h
  unfold round
  rw [show at' St.init.defs = St.init from rfl] at h
  simp only
  rw [h]

end Verif.Canon
