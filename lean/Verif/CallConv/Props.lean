import Verif.CallConv.Proofs
/-!
# Properties C33 and C43: calling conventions
-/
namespace Verif.CallConv
variable {A : Type}

/-- C33: the convention chosen for a row provides exactly what the row's effects demand: it is the
weakest one that is enough. -/
theorem C33_least (t : Table A) (r : Row A) :
    (∀ h, RowDemands t r h → provides (forEffectRow t r) h) ∧
    ∀ c, (∀ h, RowDemands t r h → provides c h) → AtLeast c (forEffectRow t r) :=
  ⟨fun h hd => (provides_forEffectRow t r h).mpr hd,
   fun _ hc h hp => hc h ((provides_forEffectRow t r h).mp hp)⟩

/-- C33: an open row, or one with an unknown ability, gets full CPS. -/
theorem C33_conservative (t : Table A) (r : Row A)
    (h : r.isOpen = true ∨ ∃ a ∈ r.abilities, t a = none) : forEffectRow t r = .cps := by
  apply provides_ext
  intro x
  rw [provides_forEffectRow]
  refine ⟨fun _ => by cases x <;> trivial, fun _ => ?_⟩
  rcases h with h | ⟨a, ha, hn⟩
  · exact .isOpen h
  · exact .ability ha (.unknown hn)

/-- C33: adding effects (in any order and number) or strengthening the table never weakens the
convention; the order and multiplicity of effects do not matter. -/
theorem C33_monotone (t t' : Table A) (r r' : Row A) (hr : ∀ a ∈ r.abilities, a ∈ r'.abilities)
    (ho : r.isOpen = true → r'.isOpen = true)
    (ht : ∀ a h, Demands t a h → Demands t' a h) :
    AtLeast (forEffectRow t' r') (forEffectRow t r) := by
  intro h hp
  rw [provides_forEffectRow] at hp ⊢
  rcases hp with ⟨ha, hd⟩ | hop
  · exact .ability (hr _ ha) (ht _ _ hd)
  · exact .isOpen (ho hop)

/-- C33: a function type's convention is the weakest one that serves its row and its declared
minimum; only function types have one. -/
theorem C33_function_type (t : Table A) (ty : Ty A) :
    (∀ c, forFunctionType t ty = some c ↔ ∃ r m, ty = .func r m ∧
      ∀ h, provides c h ↔ RowDemands t r h ∨ provides m h) := by
  intro c
  cases ty with
  | other => simp [forFunctionType]
  | func r m =>
    have key : ∀ h, provides (m.join (forEffectRow t r)) h ↔ RowDemands t r h ∨ provides m h :=
      fun h => by rw [provides_join, provides_forEffectRow, or_comm]
    constructor
    · intro h
      simp only [forFunctionType, Option.some.injEq] at h
      exact ⟨r, m, rfl, h ▸ key⟩
    · rintro ⟨r', m', h, hc⟩
      cases h
      simp only [forFunctionType, Option.some.injEq]
      exact provides_ext fun h => by rw [key, hc]

/-- C33: after any declarations, an ability demands a continuation exactly if its latest declaration
has a general operation, and always demands evidence; undeclared abilities other than I/O stay
unknown. -/
theorem C33_table [DecidableEq A] (io : A) (decls : List (A × List OpKind)) (a : A) :
    let t := decls.foldl (fun t d => Table.registerAbility t d.1 d.2) (Table.new io)
    (∀ pre ops post, decls = pre ++ (a, ops) :: post → (∀ d ∈ post, d.1 ≠ a) →
      Demands t a .evidence ∧ (Demands t a .continuation ↔ .op ∈ ops)) ∧
    ((∀ d ∈ decls, d.1 ≠ a) →
      (a = io → Demands t a .evidence ∧ ¬ Demands t a .continuation) ∧ (a ≠ io → t a = none)) := by
  intro t
  have skip : ∀ (l : List (A × List OpKind)) (t0 : Table A), (∀ d ∈ l, d.1 ≠ a) →
      (l.foldl (fun t d => Table.registerAbility t d.1 d.2) t0) a = t0 a := by
    intro l
    induction l with
    | nil => intros; rfl
    | cons d l ih =>
      intro t0 h
      rw [List.foldl_cons, ih _ (fun d hd => h d (List.mem_cons_of_mem _ hd))]
      simp [Table.registerAbility, (h d (by simp)).symm]
  constructor
  · intro pre ops post hd hp
    have ht : t a = some (if ops.any (fun k => k == .op) then .cps else .evidenceDirect) := by
      show (decls.foldl (fun t d => Table.registerAbility t d.1 d.2) (Table.new io)) a = _
      rw [hd, List.foldl_append, List.foldl_cons, skip _ _ hp]
      simp [Table.registerAbility]
    simp only [demands_iff, ht, Option.getD_some]
    by_cases ho : OpKind.op ∈ ops
    · rw [if_pos (by simpa using ho)]; simp [provides, ho]
    · rw [if_neg (by simpa using ho)]; simp [provides, ho]
  · intro h
    have ht : t a = Table.new io a := skip _ _ h
    refine ⟨?_, ?_⟩
    · rintro rfl
      simp [demands_iff, ht, Table.new, provides]
    · intro hne; simp [ht, Table.new, hne]

/-- C33: the byte encoding is reversible, and bytes that encode nothing are rejected. -/
theorem C33_encoding (c : Conv) (b : UInt8) : tryFrom b = some c ↔ b.toNat = c.code := by
  rw [tryFrom]
  generalize b.toNat = n
  rcases n with _ | _ | _ | n <;> cases c <;> simp [byCode, Conv.code]

/-- C33: a convention attached to an operation is read back, whatever other attributes it has, and
attaching it leaves the others alone; an attribute that is not the code of a convention is not read as
one. -/
theorem C33_attribute (attrs : Attrs) (c : Conv) :
    getConvention (setConvention attrs c) = some c ∧
    (∀ k, k ≠ "tribute.calling_convention" → setConvention attrs c k = attrs k) ∧
    (getConvention attrs = some c ↔ attrs "tribute.calling_convention" = some
      (match c with | .direct => 0 | .evidenceDirect => 1 | .cps => 2)) := by
  refine ⟨?_, ?_, ?_⟩
  rotate_left 2
  · rw [getConvention, getU8, convAttr]
    cases attrs "tribute.calling_convention" with
    | none => simp
    | some v =>
      simp only [Option.some.injEq]
      by_cases hv : 0 ≤ v ∧ v ≤ 255
      · rw [if_pos hv]
        simp only
        rw [tryFrom]
        have : (UInt8.ofNat v.toNat).toNat = v.toNat := by simp; omega
        rw [this]
        obtain ⟨n, rfl⟩ := Int.eq_ofNat_of_zero_le hv.1
        simp only [Int.toNat_natCast, byCode]
        rcases n with _ | _ | _ | n <;> cases c <;> simp <;> omega
      · rw [if_neg hv]
        simp only [reduceCtorEq, false_iff]
        cases c <;> simp only <;> omega
  · cases c <;> simp [getConvention, getU8, setConvention, Conv.code, tryFrom, byCode]
  · intro k hk
    exact if_neg hk

/-- C33: what a convention asks callers to pass. -/
theorem C33_needs (c : Conv) : (c.needsEvidence = true ↔ provides c .evidence) ∧
    (c.needsDoneK = true ↔ provides c .continuation) := by
  cases c <;> simp [Conv.needsEvidence, Conv.needsDoneK, provides, Conv.code]

example : forEffectRow (fun a : Nat => if a = 1 then some .evidenceDirect else
    if a = 2 then some .cps else none) ⟨[1, 1], false⟩ = .evidenceDirect := by decide
example : forEffectRow (fun a : Nat => if a = 1 then some .evidenceDirect else
    if a = 2 then some .cps else none) ⟨[1, 3], false⟩ = .cps := by decide

/-- C43: in the lowered parameter list the source parameters come last, in order, from
`source_param_offset` on; the hidden parameters before them are exactly those the convention
provides, evidence first; the result is the source result unless a continuation takes it. -/
theorem C43_lowered {T : Type} (abi : Abi T) (ev k : T) :
    ∃ hidden : List T, abi.loweredParams ev k = hidden ++ abi.sourceParams ∧
      hidden.length = abi.sourceParamOffset ∧
      (provides abi.convention .continuation → hidden = [ev, k]) ∧
      (provides abi.convention .evidence → ¬ provides abi.convention .continuation → hidden = [ev]) ∧
      (¬ provides abi.convention .evidence → hidden = []) ∧
      (provides abi.convention .continuation → abi.loweredResult k = k) ∧
      (¬ provides abi.convention .continuation → abi.loweredResult k = abi.sourceResult) := by
  obtain ⟨c, ps, r⟩ := abi
  cases c
  · exact ⟨[], by simp [Abi.loweredParams, Conv.needsEvidence, Conv.needsDoneK, Conv.code,
      Abi.sourceParamOffset, ofBool, provides, Abi.loweredResult]⟩
  · exact ⟨[ev], by simp [Abi.loweredParams, Conv.needsEvidence, Conv.needsDoneK, Conv.code,
      Abi.sourceParamOffset, ofBool, provides, Abi.loweredResult]⟩
  · exact ⟨[ev, k], by simp [Abi.loweredParams, Conv.needsEvidence, Conv.needsDoneK, Conv.code,
      Abi.sourceParamOffset, ofBool, provides, Abi.loweredResult]⟩

/-- C43: the physical parameters of a closure are the lowered ones with the environment at
`closure_environment_index`: right after the evidence if there is any, first otherwise. Dropping it
gives the lowered parameters back. -/
theorem C43_closure {T : Type} (abi : Abi T) (ev k env : T) :
    ∃ phys, abi.interposeEnvironment (abi.loweredParams ev k) env = some phys ∧
      phys[abi.convention.closureEnvironmentIndex]? = some env ∧
      phys.eraseIdx abi.convention.closureEnvironmentIndex = abi.loweredParams ev k ∧
      (provides abi.convention .evidence → phys.head? = some ev) ∧
      (¬ provides abi.convention .evidence → phys.head? = some env) := by
  obtain ⟨c, ps, r⟩ := abi
  cases c <;> simp [Abi.loweredParams, Conv.needsEvidence, Conv.needsDoneK, Conv.code, ofBool,
    Abi.interposeEnvironment, Conv.closureEnvironmentIndex, provides]

example : Abi.interposeEnvironment ⟨.cps, ["a", "b"], "r"⟩
    (Abi.loweredParams ⟨.cps, ["a", "b"], "r"⟩ "ev" "k") "env" = some ["ev", "env", "k", "a", "b"] := by
  decide

end Verif.CallConv
