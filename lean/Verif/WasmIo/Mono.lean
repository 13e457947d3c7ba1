import Verif.WasmIo.Model
/-! More rounds do not change a result. -/
namespace Verif.WasmIo

theorem rounds_mono {f g : St → Option Out} (h : ∀ s o, f s = some o → g s = some o) (st : List V)
    {n m : Nat} (hnm : n ≤ m) (s : St) (o : Out) (hr : rounds f st n s = some o) :
    rounds g st m s = some o := by
  induction n generalizing m s with
  | zero => simp [rounds] at hr
  | succ n ih =>
    obtain ⟨m, rfl⟩ : ∃ k, m = k + 1 := ⟨m - 1, by omega⟩
    rw [rounds] at hr ⊢
    cases hf : f s with
    | none => rw [hf] at hr; simp at hr
    | some x =>
      rw [hf] at hr
      rw [h s x hf]
      match x, hr with
      | .next [] _, hr => exact hr
      | .next (_ :: _) _, hr => exact hr
      | .branch 0 _, hr => exact ih (by omega) _ hr
      | .branch (_ + 1) _, hr => exact hr
      | .ret _, hr => exact hr
      | .trap _, hr => exact hr
      | .waiting _, hr => exact hr
      | .invalid, hr => exact hr

mutual
theorem exec_mono {n m : Nat} (hnm : n ≤ m) : ∀ (i : Instr) (st : List V) (s : St) (o : Out),
    exec n i st s = some o → exec m i st s = some o
  | .get _, _, _, _, h => by rw [exec] at h ⊢; exact h
  | .set _, _, _, _, h => by unfold exec at h ⊢; exact h
  | .prim _, _, _, _, h => by rw [exec] at h ⊢; exact h
  | .ite t e, st, s, o, h => by
    match st, h with
    | .i32 c :: st, h =>
      rw [exec] at h ⊢
      simp only [Option.map_eq_some_iff] at h ⊢
      obtain ⟨x, hx, rfl⟩ := h
      refine ⟨x, ?_, rfl⟩
      by_cases hc : c ≠ 0
      · rw [if_pos hc] at hx ⊢; exact execs_mono hnm t [] s x hx
      · rw [if_neg hc] at hx ⊢; exact execs_mono hnm e [] s x hx
    | [], h => unfold exec at h ⊢; exact h
    | .bytes .. :: _, h => unfold exec at h ⊢; exact h
    | .array .. :: _, h => unfold exec at h ⊢; exact h
  | .block b, st, s, o, h => by
    rw [exec] at h ⊢
    simp only [Option.map_eq_some_iff] at h ⊢
    obtain ⟨x, hx, rfl⟩ := h
    exact ⟨x, execs_mono hnm b [] s x hx, rfl⟩
  | .loop b, st, s, o, h => by
    rw [exec] at h ⊢
    exact rounds_mono (fun s o => execs_mono hnm b [] s o) st hnm s o h
  | .br _, _, _, _, h => by rw [exec] at h ⊢; exact h
  | .brIf _, _, _, _, h => by unfold exec at h ⊢; exact h
theorem execs_mono {n m : Nat} (hnm : n ≤ m) : ∀ (is : List Instr) (st : List V) (s : St) (o : Out),
    execs n is st s = some o → execs m is st s = some o
  | [], _, _, _, h => by rw [execs] at h ⊢; exact h
  | i :: is, st, s, o, h => by
    rw [execs] at h ⊢
    cases hx : exec n i st s with
    | none => rw [hx] at h; simp at h
    | some x =>
      rw [hx] at h
      rw [exec_mono hnm i st s x hx]
      cases x with
      | next st' s' => exact execs_mono hnm is st' s' o h
      | _ => exact h
end

theorem callHelper_mono {n m : Nat} (hnm : n ≤ m) {a : Layout} {d : List Byte} {off len nl : Nat}
    {w : World} {o : Out} (h : callHelper n a d off len nl w = some o) :
    callHelper m a d off len nl w = some o := by
  unfold callHelper at h ⊢
  exact execs_mono hnm _ _ _ _ h

end Verif.WasmIo
