import Verif.Inline.Clone
/-!
# The code around the call
-/
namespace Verif.Inline

variable {V W σ : Type}

/-! ## Renaming -/

mutual
/-- All operands renamed. -/
def Ops.rename (ρ : Value → Value) : Ops → Ops
  | .nil => .nil
  | .cons h rs rest => .cons { h with operands := h.operands.map ρ } (rs.rename ρ) (rest.rename ρ)
/-- See `Ops.rename`. -/
def Regions.rename (ρ : Value → Value) : Regions → Regions
  | .nil => .nil
  | .cons ps body rest => .cons ps (body.rename ρ) (rest.rename ρ)
end

mutual
theorem Ops.replaceUses_eq (a b : Value) : ∀ o : Ops, o.replaceUses a b = o.rename (renameUse a b)
  | .nil => rfl
  | .cons h rs rest => by
    simp only [Ops.replaceUses, Ops.rename, Regions.replaceUses_eq a b rs, Ops.replaceUses_eq a b rest]
theorem Regions.replaceUses_eq (a b : Value) : ∀ rs : Regions, rs.replaceUses a b = rs.rename (renameUse a b)
  | .nil => rfl
  | .cons ps body rest => by
    simp only [Regions.replaceUses, Regions.rename, Ops.replaceUses_eq a b body, Regions.replaceUses_eq a b rest]
end

mutual
theorem Ops.rename_rename (ρ ρ' : Value → Value) : ∀ o : Ops, (o.rename ρ).rename ρ' = o.rename (ρ' ∘ ρ)
  | .nil => rfl
  | .cons h rs rest => by
    simp only [Ops.rename, List.map_map, Regions.rename_rename ρ ρ' rs, Ops.rename_rename ρ ρ' rest]
theorem Regions.rename_rename (ρ ρ' : Value → Value) : ∀ rs : Regions,
    (rs.rename ρ).rename ρ' = rs.rename (ρ' ∘ ρ)
  | .nil => rfl
  | .cons ps body rest => by
    simp only [Regions.rename, Ops.rename_rename ρ ρ' body, Regions.rename_rename ρ ρ' rest]
end

mutual
theorem Ops.rename_id : ∀ o : Ops, o.rename id = o
  | .nil => rfl
  | .cons h rs rest => by
    simp only [Ops.rename, List.map_id, Regions.rename_id rs, Ops.rename_id rest]
theorem Regions.rename_id : ∀ rs : Regions, rs.rename id = rs
  | .nil => rfl
  | .cons ps body rest => by
    simp only [Regions.rename, Ops.rename_id body, Regions.rename_id rest]
end

/-- The renaming done by the loop over the results of the call. -/
def renameAll : List (Value × Value) → Value → Value
  | [], v => v
  | (a, b) :: zs, v => renameAll zs (renameUse a b v)

theorem replaceAll_eq : ∀ (zs : List (Value × Value)) (o : Ops), replaceAll zs o = o.rename (renameAll zs)
  | [], o => (Ops.rename_id o).symm
  | (a, b) :: zs, o => by
    rw [replaceAll, replaceAll_eq zs, Ops.replaceUses_eq, Ops.rename_rename]
    rfl

theorem renameAll_not_mem : ∀ {rs vs : List Value} {v : Value}, v ∉ rs → renameAll (rs.zip vs) v = v
  | [], _, _, _ => rfl
  | r :: rs, [], _, _ => rfl
  | r :: rs, x :: vs, v, h => by
    simp only [List.mem_cons, not_or] at h
    simp only [List.zip_cons_cons, renameAll, renameUse, if_neg h.1]
    exact renameAll_not_mem h.2

/-- The results of the call stand for the returned values. -/
theorem renameAll_lookup : ∀ {rs vs : List Value} {v : Value}, rs.Nodup → (∀ x ∈ vs, x ∉ rs) →
    rs.length = vs.length → v ∈ rs → (rs.zip vs).lookup v = some (renameAll (rs.zip vs) v)
  | [], _, _, _, _, _, h => by simp at h
  | r :: rs, [], _, _, _, hl, _ => by simp at hl
  | r :: rs, x :: vs, v, hnd, hx, hl, h => by
    rw [List.nodup_cons] at hnd
    simp only [List.zip_cons_cons, renameAll, List.lookup_cons, renameUse]
    by_cases hv : v = r
    · subst hv
      have : x ∉ rs := fun hm => hx x (by simp) (by simp [hm])
      simp [renameAll_not_mem this]
    · have : (v == r) = false := by simpa using hv
      rw [this, if_neg hv]
      exact renameAll_lookup hnd.2 (fun y hy hm => hx y (by simp [hy]) (by simp [hm])) (by simpa using hl)
        (by rcases List.mem_cons.mp h with h | h; exacts [absurd h hv, h])

theorem Ops.rename_append (ρ : Value → Value) (b : Ops) : ∀ a : Ops,
    (a.append b).rename ρ = (a.rename ρ).append (b.rename ρ)
  | .nil => rfl
  | .cons h rs rest => by simp only [Ops.append, Ops.rename, Ops.rename_append ρ b rest]

mutual
theorem Ops.rename_eq {ρ : Value → Value} : ∀ {o : Ops} {vis : List Value}, o.Scoped vis → (∀ v ∈ vis, ρ v = v) →
    (∀ v ∈ o.defs, ρ v = v) → o.rename ρ = o
  | .nil, _, _, _, _ => rfl
  | .cons h rs rest, vis, hs, h1, h2 => by
    simp only [Ops.Scoped] at hs
    simp only [Ops.defs] at h2
    have : h.operands.map ρ = h.operands := by
      conv => rhs; rw [← List.map_id h.operands]
      exact List.map_congr_left fun v hv => h1 v (hs.1 v hv)
    simp only [Ops.rename, this]
    rw [Regions.rename_eq hs.2.1 h1 (fun v hv => h2 v (by simp [hv])),
      Ops.rename_eq hs.2.2 (fun v hv => by
        rcases List.mem_append.mp hv with h | h
        · exact h2 v (by simp [h])
        · exact h1 v h) (fun v hv => h2 v (by simp [hv]))]
theorem Regions.rename_eq {ρ : Value → Value} : ∀ {rs : Regions} {vis : List Value}, rs.Scoped vis →
    (∀ v ∈ vis, ρ v = v) → (∀ v ∈ rs.defs, ρ v = v) → rs.rename ρ = rs
  | .nil, _, _, _, _ => rfl
  | .cons ps body rest, vis, hs, h1, h2 => by
    simp only [Regions.Scoped] at hs
    simp only [Regions.defs] at h2
    simp only [Regions.rename]
    rw [Regions.rename_eq hs.2 h1 (fun v hv => h2 v (by simp [hv])),
      Ops.rename_eq hs.1 (fun v hv => by
        rcases List.mem_append.mp hv with h | h
        · exact h2 v (by simp [h])
        · exact h1 v h) (fun v hv => h2 v (by simp [hv]))]
end

/-! ## Structure of appended operations -/

theorem Ops.scoped_append {b : Ops} : ∀ {a : Ops} {vis : List Value},
    (a.append b).Scoped vis ↔ a.Scoped vis ∧ b.Scoped (a.after vis)
  | .nil, vis => by simp [Ops.append, Ops.Scoped, Ops.after]
  | .cons h rs rest, vis => by
    simp only [Ops.append, Ops.Scoped, Ops.after, Ops.scoped_append (a := rest), and_assoc]

theorem Ops.defs_append (b : Ops) : ∀ a : Ops, (a.append b).defs = a.defs ++ b.defs
  | .nil => rfl
  | .cons h rs rest => by simp only [Ops.append, Ops.defs, Ops.defs_append b rest, List.append_assoc]

theorem Ops.visit_append (b : Ops) : ∀ a : Ops, (a.append b).visit = a.visit ++ b.visit
  | .nil => rfl
  | .cons h rs rest => by
    simp only [Ops.append, Ops.visit, Ops.visit_append b rest, List.append_assoc, List.cons_append]

theorem Ops.all_append {P : Head → Prop} (b : Ops) : ∀ a : Ops, (a.append b).All P ↔ a.All P ∧ b.All P
  | .nil => by simp [Ops.append, Ops.All]
  | .cons h rs rest => by simp only [Ops.append, Ops.All, Ops.all_append b rest, and_assoc]

theorem Ops.mem_after {v : Value} : ∀ {o : Ops} {vis : List Value}, v ∈ o.after vis → v ∈ vis ∨ v ∈ o.defs
  | .nil, _, h => Or.inl h
  | .cons hd rs rest, vis, h => by
    simp only [Ops.after] at h
    simp only [Ops.defs, List.mem_append]
    rcases Ops.mem_after h with h | h
    · rcases List.mem_append.mp h with h | h
      · exact Or.inr (Or.inr (Or.inl h))
      · exact Or.inl h
    · exact Or.inr (Or.inr (Or.inr h))

/-! ## Code that does not leave the function -/

/-- The function returned. -/
def Result.isRet : Result V W → Bool
  | .ret _ _ => true
  | _ => false

theorem drive_noRet (S : Sem V W σ) {c : Sym → List V → W → Option (Result V W)}
    {regs : List (List V → W → Option (Exit V W))}
    (hr : ∀ d ∈ regs, ∀ args w r, d args w = some (.ends r) → r.isRet = false) :
    ∀ (k : Nat) (st : Step V W σ) r, drive S c regs k st = some (.ends r) → r.isRet = false
  | 0, _, _, h => by simp [drive] at h
  | k + 1, st, r, h => by
    have ih := drive_noRet S (c := c) hr k
    cases st with
    | done vals w => simp [drive] at h
    | trap w => simp only [drive, Option.some.injEq, Outcome.ends.injEq] at h; subst h; rfl
    | run i args s w =>
      simp only [drive] at h
      cases h1 : regs[i]? with
      | none => rw [h1] at h; simp only [Option.some.injEq, Outcome.ends.injEq] at h; subst h; rfl
      | some d =>
        rw [h1] at h
        simp only at h
        have hd := hr d (List.mem_of_getElem? h1) args w
        cases h3 : d args w with
        | none => rw [h3] at h; simp at h
        | some e =>
          rw [h3] at h hd
          cases e with
          | fell w' => exact ih _ r h
          | leave n vs w' => exact ih _ r h
          | ends r' =>
            simp only [Option.some.injEq, Outcome.ends.injEq] at h; subst h
            exact hd r' rfl
    | call g args s w =>
      simp only [drive] at h
      cases h3 : c g args w with
      | none => rw [h3] at h; simp at h
      | some e =>
        rw [h3] at h
        cases e with
        | ret vs w' => exact ih _ r h
        | trap w' => simp only [Option.some.injEq, Outcome.ends.injEq] at h; subst h; rfl
        | stuck => simp only [Option.some.injEq, Outcome.ends.injEq] at h; subst h; rfl

theorem give_ends {env : Env V} {rs : List Value} {vals : List V} {w : W} {r : Result V W}
    (h : give env rs vals w = .exit (.ends r)) : r.isRet = false := by
  unfold give at h
  split at h
  · cases h
  · cases h; rfl

theorem stepOp_noRet (S : Sem V W σ) (F : Oracle V W) (k : Nat) {h : Head}
    {regs : List (List V → W → Option (Exit V W))} (hk : h.kind.returns = false)
    (hr : ∀ d ∈ regs, ∀ args w r, d args w = some (.ends r) → r.isRet = false) {env : Env V} {w : W}
    {r : Result V W} (he : stepOp S F k h regs env w = some (.exit (.ends r))) : r.isRet = false := by
  unfold stepOp at he
  cases hxs : env.read h.operands with
  | none => rw [hxs] at he; cases he; rfl
  | some xs =>
    rw [hxs] at he
    cases hkd : h.kind with
    | call c => cases c with
      | none => rw [hkd] at he; cases he; rfl
      | some g =>
        rw [hkd] at he
        simp only at he
        rcases hF : F h.id g xs w with _ | r'
        · rw [hF] at he; simp [afterCall] at he
        · rw [hF] at he
          cases r' with
          | ret vals w => simp only [afterCall, Option.some.injEq] at he; exact give_ends he
          | trap w => cases he; rfl
          | stuck => cases he; rfl
    | tailCall c => rw [hkd] at hk; simp [Kind.returns] at hk
    | tailCallIndirect => rw [hkd] at hk; simp [Kind.returns] at hk
    | ret => rw [hkd] at hk; simp [Kind.returns] at hk
    | leave n => rw [hkd] at he; cases he
    | constant c => rw [hkd] at he; simp only [Option.some.injEq] at he; exact give_ends he
    | other n =>
      rw [hkd] at he
      simp only at he
      rcases hD : drive S (F h.id) regs k (S.start n xs w) with _ | o
      · rw [hD] at he; simp [afterOther] at he
      · rw [hD] at he
        cases o with
        | vals vals w => simp only [afterOther, Option.some.injEq] at he; exact give_ends he
        | ends r' =>
          simp only [afterOther, Option.some.injEq, Res.exit.injEq, Exit.ends.injEq] at he
          subst he
          exact drive_noRet S hr k _ _ hD

mutual
theorem Ops.noRet (S : Sem V W σ) (F : Oracle V W) (k : Nat) : ∀ (o : Ops),
    o.All (fun h => h.kind.returns = false) → ∀ env w r, o.run S F k env w = some (.exit (.ends r)) →
    r.isRet = false
  | .nil, _, env, w, r, h => by simp [Ops.run] at h
  | .cons hd rs rest, ha, env, w, r, h => by
    simp only [Ops.All] at ha
    simp only [Ops.run] at h
    cases hs : stepOp S F k hd (rs.run S F k env) env w with
    | none => rw [hs] at h; simp [andThen] at h
    | some x =>
      rw [hs] at h
      cases x with
      | next env' w' => exact Ops.noRet S F k rest ha.2.2 env' w' r h
      | exit e =>
        simp only [andThen, Option.some.injEq, Res.exit.injEq] at h
        subst h
        exact stepOp_noRet S F k ha.1 (Regions.noRet S F k rs ha.2.1 env) hs
theorem Regions.noRet (S : Sem V W σ) (F : Oracle V W) (k : Nat) : ∀ (rs : Regions),
    rs.All (fun h => h.kind.returns = false) → ∀ env, ∀ d ∈ rs.run S F k env, ∀ args w r,
    d args w = some (.ends r) → r.isRet = false
  | .nil, _, env, d, hd, _, _, _, _ => by simp [Regions.run] at hd
  | .cons ps body rest, ha, env, d, hd, args, w, r, h => by
    simp only [Regions.All] at ha
    simp only [Regions.run, List.mem_cons] at hd
    rcases hd with rfl | hd
    · simp only at h
      split at h
      · cases hb : body.run S F k (env.bind ps args) w with
        | none => rw [hb] at h; simp at h
        | some x =>
          rw [hb] at h
          cases x with
          | next e w => simp [Res.toExit] at h
          | exit e =>
            simp only [Option.map_some, Res.toExit, Option.some.injEq] at h
            subst h
            exact Ops.noRet S F k body ha.1 _ w r hb
      · cases h; rfl
    · exact Regions.noRet S F k rest ha.2 env d hd args w r h
end

theorem stepOp_exit (S : Sem V W σ) (F : Oracle V W) (k : Nat) {h : Head}
    {regs : List (List V → W → Option (Exit V W))} (hk : h.kind.terminates = false) {env : Env V} {w : W}
    {e : Exit V W} (he : stepOp S F k h regs env w = some (.exit e)) : ∃ r, e = .ends r := by
  have hgive : ∀ {rs : List Value} {vals : List V} {w : W}, give env rs vals w = .exit e → ∃ r, e = .ends r := by
    intro rs vals w hg
    unfold give at hg
    split at hg
    · cases hg
    · cases hg; exact ⟨_, rfl⟩
  unfold stepOp at he
  cases hxs : env.read h.operands with
  | none => rw [hxs] at he; cases he; exact ⟨_, rfl⟩
  | some xs =>
    rw [hxs] at he
    cases hkd : h.kind with
    | call c => cases c with
      | none => rw [hkd] at he; cases he; exact ⟨_, rfl⟩
      | some g =>
        rw [hkd] at he
        simp only at he
        rcases hF : F h.id g xs w with _ | r'
        · rw [hF] at he; simp [afterCall] at he
        · rw [hF] at he
          cases r' with
          | ret vals w => simp only [afterCall, Option.some.injEq] at he; exact hgive he
          | trap w => cases he; exact ⟨_, rfl⟩
          | stuck => cases he; exact ⟨_, rfl⟩
    | tailCall c => rw [hkd] at hk; simp [Kind.returns, Kind.terminates] at hk
    | tailCallIndirect => rw [hkd] at hk; simp [Kind.returns, Kind.terminates] at hk
    | ret => rw [hkd] at hk; simp [Kind.returns, Kind.terminates] at hk
    | leave n => rw [hkd] at hk; simp [Kind.terminates] at hk
    | constant c => rw [hkd] at he; simp only [Option.some.injEq] at he; exact hgive he
    | other n =>
      rw [hkd] at he
      simp only at he
      rcases hD : drive S (F h.id) regs k (S.start n xs w) with _ | o
      · rw [hD] at he; simp [afterOther] at he
      · rw [hD] at he
        cases o with
        | vals vals w => simp only [afterOther, Option.some.injEq] at he; exact hgive he
        | ends r' => cases he; exact ⟨_, rfl⟩

theorem returns_of_terminates {k : Kind} (h : k.terminates = false) : k.returns = false := by
  cases k <;> simp_all [Kind.terminates, Kind.returns]

/-- Straight code goes on, or stops the program. -/
theorem straight_run (S : Sem V W σ) (F : Oracle V W) (k : Nat) : ∀ {o : Ops}, o.Straight → ∀ {env w e},
    o.run S F k env w = some (.exit e) → ∃ r, e = .ends r ∧ r.isRet = false
  | .nil, _, env, w, e, h => by simp [Ops.run] at h
  | .cons hd rs rest, hs, env, w, e, h => by
    simp only [Ops.Straight] at hs
    simp only [Ops.run] at h
    cases hst : stepOp S F k hd (rs.run S F k env) env w with
    | none => rw [hst] at h; simp [andThen] at h
    | some x =>
      rw [hst] at h
      cases x with
      | next env' w' => exact straight_run S F k hs.2.2 h
      | exit e' =>
        simp only [andThen, Option.some.injEq, Res.exit.injEq] at h
        subst h
        obtain ⟨r, rfl⟩ := stepOp_exit S F k hs.1 hst
        exact ⟨r, rfl, stepOp_noRet S F k (returns_of_terminates hs.1) (Regions.noRet S F k rs hs.2.1 env) hst⟩

/-! ## Defined values -/

theorem bind_defined {env : Env V} {vs : List Value} {xs : List V} {vis : List Value}
    (hl : vs.length = xs.length) (h : ∀ v ∈ vis, (env v).isSome) :
    ∀ v ∈ vs ++ vis, (env.bind vs xs v).isSome := by
  intro v hv
  by_cases hm : v ∈ vs
  · obtain ⟨x, _, h'⟩ := lookup_zip_some (xs := xs) hm hl
    simp [Env.bind, h']
  · rw [bind_of_not_mem hm]
    rcases List.mem_append.mp hv with hv | hv
    · exact absurd hv hm
    · exact h v hv

theorem read_defined {env : Env V} : ∀ {vs : List Value}, (∀ v ∈ vs, (env v).isSome) →
    ∃ xs, env.read vs = some xs
  | [], _ => ⟨[], rfl⟩
  | v :: vs, h => by
    obtain ⟨x, hx⟩ := Option.isSome_iff_exists.mp (h v (by simp))
    obtain ⟨xs, hxs⟩ := read_defined (vs := vs) (fun u hu => h u (by simp [hu]))
    exact ⟨x :: xs, by simp [Env.read, hx, hxs]⟩

theorem stepOp_next (S : Sem V W σ) (F : Oracle V W) (k : Nat) {h : Head}
    {regs : List (List V → W → Option (Exit V W))} {env e : Env V} {w w' : W}
    (he : stepOp S F k h regs env w = some (.next e w')) :
    ∃ vals, h.results.length = vals.length ∧ e = env.bind h.results vals := by
  have hgive : ∀ {vals : List V} {w1 : W}, give env h.results vals w1 = .next e w' →
      ∃ vals, h.results.length = vals.length ∧ e = env.bind h.results vals := by
    intro vals w1 hg
    unfold give at hg
    split at hg
    · rename_i hl; cases hg; exact ⟨vals, hl, rfl⟩
    · cases hg
  unfold stepOp at he
  cases hxs : env.read h.operands with
  | none => rw [hxs] at he; cases he
  | some xs =>
    rw [hxs] at he
    simp only at he
    cases hkd : h.kind with
    | call c => cases c with
      | none => rw [hkd] at he; cases he
      | some g =>
        rw [hkd] at he
        simp only at he
        rcases hF : F h.id g xs w with _ | r'
        · rw [hF] at he; simp [afterCall] at he
        · rw [hF] at he
          cases r' with
          | ret vals w => simp only [afterCall, Option.some.injEq] at he; exact hgive he
          | trap w => cases he
          | stuck => cases he
    | tailCall c => cases c with
      | none => rw [hkd] at he; cases he
      | some g =>
        rw [hkd] at he
        simp only at he
        rcases hF : F h.id g xs w with _ | r' <;> rw [hF] at he <;> simp [afterTail] at he
    | tailCallIndirect =>
      rw [hkd] at he
      cases xs with
      | nil => cases he
      | cons x xs =>
        simp only at he
        cases ht : S.target x with
        | none => rw [ht] at he; cases he
        | some g =>
          rw [ht] at he
          simp only at he
          rcases hF : F h.id g xs w with _ | r' <;> rw [hF] at he <;> simp [afterTail] at he
    | ret => rw [hkd] at he; cases he
    | leave n => rw [hkd] at he; cases he
    | constant c => rw [hkd] at he; simp only [Option.some.injEq] at he; exact hgive he
    | other n =>
      rw [hkd] at he
      simp only at he
      rcases hD : drive S (F h.id) regs k (S.start n xs w) with _ | o
      · rw [hD] at he; simp [afterOther] at he
      · rw [hD] at he
        cases o with
        | vals vals w => simp only [afterOther, Option.some.injEq] at he; exact hgive he
        | ends r' => cases he

theorem run_defined (S : Sem V W σ) (F : Oracle V W) (k : Nat) : ∀ {o : Ops} {vis : List Value} {env e : Env V}
    {w w' : W}, (∀ v ∈ vis, (env v).isSome) → o.run S F k env w = some (.next e w') →
    ∀ v ∈ o.after vis, (e v).isSome
  | .nil, vis, env, e, w, w', hv, h => by simp only [Ops.run] at h; cases h; exact hv
  | .cons hd rs rest, vis, env, e, w, w', hv, h => by
    simp only [Ops.run] at h
    cases hst : stepOp S F k hd (rs.run S F k env) env w with
    | none => rw [hst] at h; simp [andThen] at h
    | some x =>
      rw [hst] at h
      cases x with
      | exit e' => simp [andThen] at h
      | next env' w1 =>
        obtain ⟨vals, hl, rfl⟩ := stepOp_next S F k hst
        exact run_defined S F k (vis := hd.results ++ vis) (env := env.bind hd.results vals) (bind_defined hl hv) h

/-! ## The caller -/

mutual
/-- Only the operation `t` defines values of `results`. -/
def Ops.Avoid (t : OpId) (results : List Value) : Ops → Prop
  | .nil => True
  | .cons h rs rest => (h.id ≠ t → ∀ r ∈ h.results, r ∉ results) ∧ rs.Avoid t results ∧ rest.Avoid t results
/-- See `Ops.Avoid`. -/
def Regions.Avoid (t : OpId) (results : List Value) : Regions → Prop
  | .nil => True
  | .cons ps body rest => (∀ p ∈ ps, p ∉ results) ∧ body.Avoid t results ∧ rest.Avoid t results
end

/-- What the caller is told about the code put in place of the call: renaming `ρ` of results, code `N`. -/
structure Site (S : Sem V W σ) (k : Nat) (F F' : Oracle V W) (call : Head) (A : Nat) (N : Ops) (ρ : Value → Value) :
    Prop where
  same : ∀ v ∉ call.results, ρ v = v
  image : ∀ v ∈ call.results, ρ v ∈ call.operands ∨ A ≤ ρ v
  fixed : N.rename ρ = N
  oracle : ∀ i ≠ call.id, F' i = F i
  run : ∀ (vis : List Value) (env env' : Env V) (regs : List (List V → W → Option (Exit V W))) (w : W),
    (∀ v ∈ call.operands, v ∈ vis) → (∀ v ∈ vis, v ∉ call.results ∧ v < A) →
    (∀ v ∈ vis, env v = env' v ∧ (env v).isSome) →
    RelRes (fun e e' => ∀ v ∈ call.results ++ vis, e v = e' (ρ v) ∧ (e v).isSome)
      (stepOp S F k call regs env w) (N.run S F' k env' w)

/-- What is known in a place of the caller: `vis` are the visible values, `defs` those still to be defined,
`ids` the operations to come. -/
structure Place (call : Head) (A : Nat) (ρ : Value → Value) (vis defs : List Value) (ids : List OpId) : Prop where
  nodup : defs.Nodup
  bound : ∀ v ∈ defs, v < A
  apart : ∀ v ∈ vis, ρ v ∉ defs
  before : call.id ∈ ids → ∀ v ∈ vis, v ∉ call.results ∧ v < A
  once : ids.Nodup

mutual
theorem caller_run (S : Sem V W σ) {k : Nat} {F F' : Oracle V W} {call : Head} {A : Nat} {N : Ops}
    {ρ : Value → Value} (hsite : Site S k F F' call A N ρ) : ∀ (o : Ops) (vis : List Value) (env env' : Env V)
    (w : W), o.Scoped vis → Place call A ρ vis o.defs o.visit →
    o.All (fun h => h.id = call.id → h = call) → o.Avoid call.id call.results →
    (∀ v ∈ vis, env v = env' (ρ v) ∧ (env v).isSome) →
    RelRes (fun _ _ => True) (o.run S F k env w) (((Ops.splice call.id N o).rename ρ).run S F' k env' w)
  | .nil, vis, env, env', w, _, _, _, _, _ => by
    simp only [Ops.splice, Ops.rename, Ops.run]; exact .next w trivial
  | .cons h rs rest, vis, env, env', w, hs, hp, hall, hav, he => by
    simp only [Ops.Scoped] at hs
    simp only [Ops.All] at hall
    simp only [Ops.Avoid] at hav
    obtain ⟨hnd, hbd, hap, hbf, hon⟩ := hp
    simp only [Ops.defs] at hnd hbd hap
    simp only [Ops.visit] at hbf hon
    rw [List.nodup_append] at hnd
    obtain ⟨hnd1, hnd2, hnd3⟩ := hnd
    rw [List.nodup_append] at hnd2
    obtain ⟨hnd4, hnd5, hnd6⟩ := hnd2
    rw [List.nodup_append] at hon
    obtain ⟨hon1, hon2, hon3⟩ := hon
    rw [List.nodup_cons] at hon2
    by_cases ht : h.id = call.id
    · obtain rfl := hall.1 ht
      simp only [Ops.splice, if_true, Ops.rename_append, hsite.fixed, Ops.run, run_append]
      have hvis := hbf (by simp)
      refine (hsite.run vis env env' _ w hs.1 hvis (fun v hv => ?_)).andThen ?_
      · have := he v hv
        rw [hsite.same v (hvis v hv).1] at this
        exact this
      · intro e e' w he'
        refine caller_run S hsite rest _ e e' w hs.2.2 ⟨hnd5, fun v hv => hbd v (by simp [hv]), ?_, ?_, hon2.2⟩
          hall.2.2 hav.2.2 he'
        · intro v hv hm
          rcases List.mem_append.mp hv with hv | hv
          · rcases hsite.image v hv with hi | hi
            · have h1 := hs.1 _ hi
              have h2 := hap _ h1
              rw [hsite.same _ (hvis _ h1).1] at h2
              exact h2 (by simp [hm])
            · exact absurd (hbd _ (by simp [hm] : ρ v ∈ _)) (Nat.not_lt.mpr hi)
          · exact hap v hv (by simp [hm])
        · exact fun hm => absurd hm hon2.1
    · have hres := hav.1 ht
      simp only [Ops.splice, if_neg ht, Ops.rename, Ops.run]
      have hregs := caller_regions S hsite rs vis env env' hs.2.1
        ⟨hnd1, fun v hv => hbd v (by simp [hv]), fun v hv hm => hap v hv (by simp [hm]),
          fun hm => hbf (by simp [hm]), hon1⟩ hall.2.1 hav.2.1 he
      rw [← hregs]
      refine RelRes.andThen (R := fun e e' => ∀ v ∈ h.results ++ vis, e v = e' (ρ v) ∧ (e v).isSome) ?_ ?_
      · apply stepOp_rel
        · rfl
        · exact hsite.oracle _ ht
        · rfl
        · exact read_congr fun v hv => (he v (hs.1 v hv)).1
        · intro vals hl v hv
          refine ⟨?_, bind_defined hl (fun v hv => (he v hv).2) v hv⟩
          by_cases hm : v ∈ h.results
          · rw [hsite.same v (hres v hm)]
            obtain ⟨x, _, hx⟩ := lookup_zip_some (xs := vals) hm hl
            simp [Env.bind, hx]
          · have hv' : v ∈ vis := by
              rcases List.mem_append.mp hv with h | h
              · exact absurd h hm
              · exact h
            rw [bind_of_not_mem hm, bind_of_not_mem (fun hm' => hap v hv' (by simp [hm']))]
            exact (he v hv').1
      · intro e e' w he'
        refine caller_run S hsite rest _ e e' w hs.2.2 ⟨hnd5, fun v hv => hbd v (by simp [hv]), ?_, ?_, hon2.2⟩
          hall.2.2 hav.2.2 he'
        · intro v hv hm
          rcases List.mem_append.mp hv with hv | hv
          · rw [hsite.same v (hres v hv)] at hm
            exact hnd6 v hv v hm rfl
          · exact hap v hv (by simp [hm])
        · intro hm v hv
          rcases List.mem_append.mp hv with hv | hv
          · exact ⟨hres v hv, hbd v (by simp [hv])⟩
          · exact hbf (by simp [hm]) v hv
theorem caller_regions (S : Sem V W σ) {k : Nat} {F F' : Oracle V W} {call : Head} {A : Nat} {N : Ops}
    {ρ : Value → Value} (hsite : Site S k F F' call A N ρ) : ∀ (rs : Regions) (vis : List Value) (env env' : Env V),
    rs.Scoped vis → Place call A ρ vis rs.defs rs.visit →
    rs.All (fun h => h.id = call.id → h = call) → rs.Avoid call.id call.results →
    (∀ v ∈ vis, env v = env' (ρ v) ∧ (env v).isSome) →
    rs.run S F k env = ((Regions.splice call.id N rs).rename ρ).run S F' k env'
  | .nil, vis, env, env', _, _, _, _, _ => by
    simp only [Regions.splice, Regions.rename, Regions.run]
  | .cons ps body rest, vis, env, env', hs, hp, hall, hav, he => by
    simp only [Regions.Scoped] at hs
    simp only [Regions.All] at hall
    simp only [Regions.Avoid] at hav
    obtain ⟨hnd, hbd, hap, hbf, hon⟩ := hp
    simp only [Regions.defs] at hnd hbd hap
    simp only [Regions.visit] at hbf hon
    rw [List.nodup_append] at hnd
    obtain ⟨hnd1, hnd2, hnd3⟩ := hnd
    rw [List.nodup_append] at hnd2
    obtain ⟨hnd4, hnd5, hnd6⟩ := hnd2
    rw [List.nodup_append] at hon
    obtain ⟨hon1, hon2, hon3⟩ := hon
    simp only [Regions.splice, Regions.rename, Regions.run]
    congr 1
    · funext args w
      by_cases hl : ps.length = args.length
      · rw [if_pos hl, if_pos hl]
        refine (caller_run S hsite body (ps ++ vis) _ _ w hs.1 ⟨hnd4, fun v hv => hbd v (by simp [hv]), ?_, ?_, hon1⟩
          hall.1 hav.2.1 ?_).toExit
        · intro v hv hm
          rcases List.mem_append.mp hv with hv | hv
          · rw [hsite.same v (hav.1 v hv)] at hm
            exact hnd3 v hv v (by simp [hm]) rfl
          · exact hap v hv (by simp [hm])
        · intro hm v hv
          rcases List.mem_append.mp hv with hv | hv
          · exact ⟨hav.1 v hv, hbd v (by simp [hv])⟩
          · exact hbf (by simp [hm]) v hv
        · intro v hv
          refine ⟨?_, bind_defined hl (fun v hv => (he v hv).2) v hv⟩
          by_cases hm : v ∈ ps
          · rw [hsite.same v (hav.1 v hm)]
            obtain ⟨x, _, hx⟩ := lookup_zip_some (xs := args) hm hl
            simp [Env.bind, hx]
          · have hv' : v ∈ vis := by
              rcases List.mem_append.mp hv with h | h
              · exact absurd h hm
              · exact h
            rw [bind_of_not_mem hm, bind_of_not_mem (fun hm' => hap v hv' (by simp [hm']))]
            exact (he v hv').1
      · rw [if_neg hl, if_neg hl]
    · exact caller_regions S hsite rest vis env env' hs.2
        ⟨hnd5, fun v hv => hbd v (by simp [hv]), fun v hv hm => hap v hv (by simp [hm]),
          fun hm => hbf (by simp [hm]), hon2⟩ hall.2 hav.2.2 he
end

end Verif.Inline
