import Verif.ScfToCf.Spec

/-
Facts about the interpreter that do not mention the lowering: allowance, names of values, jumps.
-/
namespace Verif.ScfToCf

variable {I : Interp}

/-- Go on after a list of operations that reached its end. -/
def seq (r : Option (Res I)) (k : Env I → I.S → Option (Res I)) : Option (Res I) :=
  match r with
  | some (.fell, e, s) => k e s
  | r => r

/-- Go on in a region after a block. -/
def settle (n : Nat) (bs : List Block) (r : Option (Res I)) : Option (Res I) :=
  match r with
  | some (.jump l vs, e, s) =>
    if l ∈ bs.map Block.label then run n bs l vs e s else some (.jump l vs, e, s)
  | some (.fell, e, s) => some (.stuck, e, s)
  | r => r

/-- One round of a loop. -/
def nextRound (k : List I.V → Env I → I.S → Option (Res I)) (res : List Value)
    (r : Option (Res I)) : Option (Res I) :=
  match r with
  | some (.cont vs, e, s) => k vs e s
  | some (.brk v, e, s) => some (.fell, bind e res [v], s)
  | some (.yield _, e, s) => some (.stuck, e, s)
  | r => r

theorem exec_cons (r : Runner I) (n : Nat) (o : Op) (os : List Op) (e : Env I) (s : I.S) :
    exec r n (o :: os) e s = seq (execOp r n e s o) (exec r n os) := by
  rw [exec]
  rcases execOp r n e s o with _ | ⟨o, e, s⟩
  · rfl
  · cases o <;> rfl

theorem iterate_succ (r : Runner I) (body : List Block) (h : Label) (res : List Value) (k : Nat)
    (vs : List I.V) (e : Env I) (s : I.S) :
    iterate r body h res (k + 1) vs e s =
      nextRound (iterate r body h res k) res (r body h vs e s) := by
  rw [iterate]
  rcases r body h vs e s with _ | ⟨o, e, s⟩
  · rfl
  · cases o <;> rfl

theorem run_succ (n : Nat) (bs : List Block) (l : Label) (as : List I.V) (e : Env I) (s : I.S)
    {l' ps ops} (h : findBlock l bs = some (.mk l' ps ops)) :
    run (n + 1) bs l as e s =
      if ps.length < as.length then some (.stuck, e, s)
      else settle n bs (exec (run n) n ops (bind e ps as) s) := by
  rw [run, h]
  by_cases hl : ps.length < as.length
  · simp [hl]
  · simp only [hl, if_false]
    rcases exec (run n) n ops (bind e ps as) s with _ | ⟨o, e, s⟩
    · rfl
    · cases o <;> rfl

theorem run_none (n : Nat) (bs : List Block) (l : Label) (as : List I.V) (e : Env I) (s : I.S)
    (h : findBlock l bs = none) : run (n + 1) bs l as e s = some (.stuck, e, s) := by
  rw [run, h]

theorem seq_some (e : Env I) (s : I.S) (o : Out I.V) (k : Env I → I.S → Option (Res I)) :
    seq (some (o, e, s)) k = match o with | .fell => k e s | o => some (o, e, s) := by
  cases o <;> rfl

theorem seq_none (k : Env I → I.S → Option (Res I)) : seq none k = none := rfl

theorem seq_assoc (r : Option (Res I)) (k k' : Env I → I.S → Option (Res I)) :
    seq (seq r k) k' = seq r fun e s => seq (k e s) k' := by
  rcases r with _ | ⟨o, e, s⟩
  · rfl
  · cases o <;> rfl

theorem exec_append (r : Runner I) (n : Nat) (xs ys : List Op) (e : Env I) (s : I.S) :
    exec r n (xs ++ ys) e s = seq (exec r n xs e s) (exec r n ys) := by
  induction xs generalizing e s with
  | nil => rfl
  | cons o os ih =>
    rw [List.cons_append, exec_cons, exec_cons, seq_assoc]
    congr 1
    funext e s
    exact ih e s

/-! ## A larger allowance changes nothing -/

/-- `r'` finishes whenever `r` does, with the same end. -/
def LE (r r' : Runner I) : Prop :=
  ∀ bs l as e s x, r bs l as e s = some x → r' bs l as e s = some x

theorem iterate_mono {r r' : Runner I} (hr : LE r r') (body : List Block) (h : Label)
    (res : List Value) : ∀ {k k' : Nat}, k ≤ k' → ∀ (vs : List I.V) (e : Env I) (s : I.S) (x : Res I),
      iterate r body h res k vs e s = some x → iterate r' body h res k' vs e s = some x
  | 0, _, _, _, _, _, _, hx => by cases hx
  | k + 1, 0, hk, _, _, _, _, _ => by omega
  | k + 1, k' + 1, hk, vs, e, s, x, hx => by
    rw [iterate_succ] at hx ⊢
    cases hb : r body h vs e s with
    | none => rw [hb] at hx; cases hx
    | some y =>
      rw [hb] at hx
      rw [hr _ _ _ _ _ _ hb]
      obtain ⟨o, e, s⟩ := y
      cases o <;> first | exact hx | skip
      exact iterate_mono hr body h res (by omega) _ _ _ _ hx

theorem afterBranch_mono {res : List Value} {a b : Option (Res I)}
    (h : ∀ x, a = some x → b = some x) (x : Res I) (hx : afterBranch res a = some x) :
    afterBranch res b = some x := by
  cases a with
  | none => cases hx
  | some y => rw [h y rfl]; exact hx

theorem enter_mono {r r' : Runner I} (hr : LE r r') (bs : List Block) (vs : List I.V) (e : Env I)
    (s : I.S) (x : Res I) (hx : enter r bs vs e s = some x) : enter r' bs vs e s = some x := by
  unfold enter at hx ⊢
  cases hf : firstLabel bs with
  | none => rw [hf] at hx; exact hx
  | some l => rw [hf] at hx; exact hr _ _ _ _ _ _ hx

theorem execOp_mono {r r' : Runner I} (hr : LE r r') {n n' : Nat} (hn : n ≤ n') (e : Env I) (s : I.S)
    (o : Op) (x : Res I) (hx : execOp r n e s o = some x) : execOp r' n' e s o = some x := by
  cases o <;> first | exact hx | skip
  case ite c res t el =>
    exact afterBranch_mono (fun x => enter_mono hr _ _ _ _ x) x hx
  case loop init res body =>
    simp only [execOp] at hx ⊢
    cases hf : firstLabel body with
    | none => rw [hf] at hx; exact hx
    | some l => rw [hf] at hx; exact iterate_mono hr _ _ _ hn _ _ _ _ hx
  case switch d res cases =>
    simp only [execOp] at hx ⊢
    cases hc : choose (e d) cases with
    | none => rw [hc] at hx; exact hx
    | some body =>
      rw [hc] at hx
      exact afterBranch_mono (fun x => enter_mono hr _ _ _ _ x) x hx

theorem exec_mono {r r' : Runner I} (hr : LE r r') {n n' : Nat} (hn : n ≤ n') (os : List Op) :
    ∀ (e : Env I) (s : I.S) (x : Res I), exec r n os e s = some x → exec r' n' os e s = some x := by
  induction os with
  | nil => exact fun _ _ _ h => h
  | cons o os ih =>
    intro e s x hx
    rw [exec_cons] at hx ⊢
    cases ho : execOp r n e s o with
    | none => rw [ho] at hx; cases hx
    | some y =>
      rw [ho] at hx
      rw [execOp_mono hr hn _ _ _ _ ho]
      obtain ⟨o, e, s⟩ := y
      cases o <;> first | exact hx | exact ih _ _ _ hx

theorem run_le_succ (n : Nat) : LE (run (I := I) n) (run (n + 1)) := by
  induction n with
  | zero => intro _ _ _ _ _ _ h; cases h
  | succ n ih =>
    intro bs l as e s x hx
    cases hf : findBlock l bs with
    | none => rw [run_none _ _ _ _ _ _ hf] at hx ⊢; exact hx
    | some blk =>
      obtain ⟨l', ps, ops⟩ := blk
      rw [run_succ _ _ _ _ _ _ hf] at hx ⊢
      by_cases hl : ps.length < as.length
      · simpa [hl] using hx
      · simp only [hl, if_false] at hx ⊢
        cases hx1 : exec (run n) n ops (bind e ps as) s with
        | none => rw [hx1] at hx; cases hx
        | some y =>
          rw [hx1] at hx
          rw [exec_mono ih (Nat.le_succ n) _ _ _ _ hx1]
          obtain ⟨o, e, s⟩ := y
          cases o <;> first | exact hx | skip
          simp only [settle] at hx ⊢
          split
          · rename_i h; rw [if_pos h] at hx; exact ih _ _ _ _ _ _ hx
          · rename_i h; rw [if_neg h] at hx; exact hx

theorem run_mono {n n' : Nat} (h : n ≤ n') : LE (run (I := I) n) (run n') := by
  induction h with
  | refl => exact fun _ _ _ _ _ _ h => h
  | step _ ih => exact fun _ _ _ _ _ _ h => run_le_succ _ _ _ _ _ _ _ (ih _ _ _ _ _ _ h)

theorem exec_run_mono {n n' : Nat} (h : n ≤ n') {os : List Op} {e : Env I} {s : I.S} {x : Res I}
    (hx : exec (run n) n os e s = some x) : exec (run n') n' os e s = some x :=
  exec_mono (run_mono h) h os e s x hx

theorem execOp_run_mono {n n' : Nat} (h : n ≤ n') {o : Op} {e : Env I} {s : I.S} {x : Res I}
    (hx : execOp (run n) n e s o = some x) : execOp (run n') n' e s o = some x :=
  execOp_mono (run_mono h) h e s o x hx

/-! ## Cases of a switch -/

theorem choose_eq (a : I.V) (cs : List Case) :
    choose a cs = (((casesOf cs).find? fun p => decide (a = I.const p.1)).map Prod.snd).or
      (defaultOf cs) := by
  unfold choose
  rw [Option.map_or]
  congr 1
  · induction cs with
    | nil => rfl
    | cons c cs ih =>
      obtain ⟨v, b⟩ := c
      cases v with
      | none => simpa [casesOf, List.find?_cons, Case.is] using ih
      | some v =>
        by_cases hv : a = I.const v
        · simp [casesOf, Case.is, hv, Case.body]
        · simpa [casesOf, Case.is, hv] using ih
  · induction cs with
    | nil => rfl
    | cons c cs ih =>
      obtain ⟨v, b⟩ := c
      rw [List.reverse_cons, List.find?_append, Option.map_or, ih]
      cases v with
      | none => simp [defaultOf, Case.isDefault, Case.body]
      | some v => simp [defaultOf, Case.isDefault]

end Verif.ScfToCf
