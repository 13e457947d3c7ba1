import Verif.Canon.Main

/-!
# Nothing foldable is left
-/
namespace Verif.Canon

open Verif.Arith (I128 BinOp)

/-- Every known fact is a definition the folds see. -/
def Sees (d : Value → Def) (k : Value → Option Fact) : Prop :=
  ∀ x f, k x = some f → match f with
    | .const v => d x = .const v
    | .castOf a => d x = .castOf a

theorem splitYield_append : ∀ (b : List Op) (vs : List Value), splitYield (b ++ [.yield vs]) = some (b, vs)
  | [], _ => rfl
  | o :: b, vs => by
    have h := splitYield_append b vs
    rw [List.cons_append, splitYield]
    · rw [h]; rfl
    · rintro ws rfl hb
      simp at hb

theorem sees_keep {d : Value → Def} {k : Value → Option Fact} (h : Sees d k) (r : Value) (x : Def)
    (f : Option Fact) (hf : ∀ g, f = some g → match g with
      | .const v => x = .const v
      | .castOf a => x = .castOf a) :
    Sees (fun y => if y = r then x else d y) (fun y => if y = r then f else k y) := by
  intro y g hg
  by_cases e : y = r
  · simp only [if_pos e] at hg ⊢
    exact hf g hg
  · simp only [if_neg e] at hg ⊢
    exact h y g hg

theorem sees_keepAll {d : Value → Def} {k : Value → Option Fact} (h : Sees d k) (rs : List Value) :
    Sees (fun y => if y ∈ rs then .other else d y) (fun y => if y ∈ rs then none else k y) := by
  intro y g hg
  by_cases e : y ∈ rs
  · simp [if_pos e] at hg
  · simp only [if_neg e] at hg ⊢
    exact h y g hg

/-- No changes: the operation stays, nothing in it could be folded, and what is known is seen. -/
def Quiet (ty : Value → Ty) (k : Value → Option Fact) (o : Op) (r : List Op × St × Nat) : Prop :=
  r.2.2 = 0 → r.1 = [o] ∧ ¬ FoldableOp ty k o ∧ ∃ d', r.2.1 = at' d' ∧ Sees d' (learn k o)

mutual
theorem quiet_op (ty : Value → Ty) : (o : Op) → ∀ (d : Value → Def) (k : Value → Option Fact), Sees d k →
    Quiet ty k o (canonOp ty (at' d) o)
  | .const r v, d, k, hk => by
    rw [canonOp]
    intro _
    refine ⟨rfl, by simp [FoldableOp], _, keep_at d r _, ?_⟩
    exact sees_keep hk r _ _ (by rintro g ⟨⟩; rfl)
  | .constBool r v, d, k, hk => by
    rw [canonOp]
    intro _
    refine ⟨rfl, by simp [FoldableOp], _, keep_at d r _, ?_⟩
    have := sees_keep hk r .other none (by simp)
    simpa [learn, Op.results] using this
  | .bin o r a b, d, k, hk => by
    rw [canonOp]
    split
    · intro h; cases h
    · intro h; cases h
    · intro h; cases h
    · rename_i hf
      intro _
      refine ⟨rfl, ?_, _, keep_at d r _, ?_⟩
      · simp only [FoldableOp]
        rintro ⟨w, x, y, hr, h1, h2, ha, hb, na, nb, he⟩
        have da := hk a _ ha
        have db := hk b _ hb
        simp only [foldBin, hr, id, operand, da, db] at hf
        exact he ((Arith.C16_folds_constants o h1 h2 x y na nb).1 hf)
      · have := sees_keep hk r .other none (by simp)
        simpa [learn, Op.results] using this
  | .cast r a, d, k, hk => by
    rw [canonOp]
    split
    · intro h; cases h
    · rename_i hf
      intro _
      refine ⟨rfl, ?_, _, keep_at d r _, ?_⟩
      · simp only [FoldableOp]
        simp only [foldCast, id] at hf
        rintro (e | ⟨i, hi, e⟩)
        · rw [if_pos e] at hf; cases hf
        · have di := hk a _ hi
          simp only at di
          split at hf
          · cases hf
          · rw [di] at hf
            simp only [if_pos e] at hf
            cases hf
      · exact sees_keep hk r _ _ (by rintro g ⟨⟩; rfl)
  | .plain f args rs, d, k, hk => by
    rw [canonOp]
    intro _
    refine ⟨by simp only [List.map_id], by simp [FoldableOp], _, keepAll_at d rs, ?_⟩
    exact sees_keepAll hk rs
  | .ite c rs t e, d, k, hk => by
    have ht := quiet_ops ty t d k hk
    have he := quiet_ops ty e d k hk
    rw [canonOp]
    rcases hct : canonOps ty (at' d) t with ⟨t', st1, n1⟩
    rcases hce : canonOps ty (at' d) e with ⟨e', st2, n2⟩
    rw [hct] at ht
    rw [hce] at he
    simp only [id] at ht he ⊢
    have stay : (∀ b, decided ty d c = some b →
          ∀ body vs, splitYield (if b then t' else e') = some (body, vs) → vs.length ≠ rs.length) →
        Quiet ty k (.ite c rs t e) ([Op.ite c rs t' e'], (at' d).keepAll rs, n1 + n2) := by
      intro hno hz
      have hz1 : n1 = 0 := Nat.eq_zero_of_add_eq_zero_right hz
      have hz2 : n2 = 0 := Nat.eq_zero_of_add_eq_zero_left hz
      obtain ⟨et, ft⟩ := ht hz1
      obtain ⟨ee, fe⟩ := he hz2
      refine ⟨by rw [et, ee], ?_, _, keepAll_at d rs, sees_keepAll hk rs⟩
      simp only [FoldableOp]
      rintro (⟨hty, ⟨hc, b, vs, hb, hl⟩ | ⟨hc, b, vs, hb, hl⟩⟩ | h | h)
      · have dc := hk c _ hc
        refine hno true ?_ b vs ?_ hl
        · simp [decided, hty, show d c = .const 1 from dc]
        · rw [if_pos rfl, et, hb, splitYield_append]
      · have dc := hk c _ hc
        refine hno false ?_ b vs ?_ hl
        · simp [decided, hty, show d c = .const 0 from dc]
        · rw [if_neg (by decide), ee, hb, splitYield_append]
      · exact ft h
      · exact fe h
    cases hd : decided ty d c with
    | none => exact stay (by simp [hd])
    | some b => cases b with
      | true =>
        simp only
        cases hs : splitYield t' with
        | none => exact stay (by simp [hd, hs])
        | some p =>
          simp only
          split
          · intro h; cases h
          · rename_i hl
            refine stay fun b hb body vs hs' => ?_
            rw [hd, Option.some.injEq] at hb
            subst hb
            rw [if_pos rfl, hs, Option.some.injEq] at hs'
            subst hs'
            exact hl
      | false =>
        simp only
        cases hs : splitYield e' with
        | none => exact stay (by simp [hd, hs])
        | some p =>
          simp only
          split
          · intro h; cases h
          · rename_i hl
            refine stay fun b hb body vs hs' => ?_
            rw [hd, Option.some.injEq] at hb
            subst hb
            rw [if_neg (by decide), hs, Option.some.injEq] at hs'
            subst hs'
            exact hl
  | .loop inits args rs body, d, k, hk => by
    have hb := quiet_ops ty body _ _ (sees_keepAll hk args)
    rw [canonOp, keepAll_at]
    intro hz
    obtain ⟨e, f⟩ := hb hz
    exact ⟨by simp only [e, List.map_id], by simp only [FoldableOp]; exact f, _, keepAll_at d rs,
      sees_keepAll hk rs⟩
  | .yield vs, d, k, hk => by
    rw [canonOp]
    exact fun _ => ⟨by simp only [List.map_id], by simp [FoldableOp], d, rfl, by simpa [learn, Op.results] using hk⟩
  | .cont vs, d, k, hk => by
    rw [canonOp]
    exact fun _ => ⟨by simp only [List.map_id], by simp [FoldableOp], d, rfl, by simpa [learn, Op.results] using hk⟩
  | .brk vs, d, k, hk => by
    rw [canonOp]
    exact fun _ => ⟨by simp only [List.map_id], by simp [FoldableOp], d, rfl, by simpa [learn, Op.results] using hk⟩
  | .exit f vs, d, k, hk => by
    rw [canonOp]
    exact fun _ => ⟨by simp only [List.map_id], by simp [FoldableOp], d, rfl, by simpa [learn, Op.results] using hk⟩

theorem quiet_ops (ty : Value → Ty) : (os : List Op) → ∀ (d : Value → Def) (k : Value → Option Fact), Sees d k →
    (canonOps ty (at' d) os).2.2 = 0 → (canonOps ty (at' d) os).1 = os ∧ ¬ FoldableOps ty k os
  | [], d, k, hk => by simp [canonOps, FoldableOps]
  | o :: os, d, k, hk => by
    have ho := quiet_op ty o d k hk
    simp only [canonOps]
    rcases hc : canonOp ty (at' d) o with ⟨out, st1, n1⟩
    rw [hc] at ho
    simp only
    intro hz
    have hz1 : n1 = 0 := Nat.eq_zero_of_add_eq_zero_right hz
    have hz2 := Nat.eq_zero_of_add_eq_zero_left hz
    obtain ⟨e1, f1, d', e2, s2⟩ := ho hz1
    simp only at e1 e2
    subst e2
    obtain ⟨e3, f3⟩ := quiet_ops ty os d' _ s2 hz2
    refine ⟨by rw [e1, e3]; rfl, ?_⟩
    simp only [FoldableOps]
    rintro (h | h)
    · exact f1 h
    · exact f3 h
end

end Verif.Canon
