import Verif.IrStore.Unique

/-
Properties C58 to C61: the storage of the IR stays consistent, and clones are copies.
-/
namespace Verif.IrStore

/-! ## Example histories -/

/-- One call after the other. -/
def runAll : Store → List Cmd → Option Store
  | c, [] => some c
  | c, cmd :: cmds => (exec c cmd).bind fun c' => runAll c' cmds

/-- Calls that keep the rules whatever was removed. -/
def Cmd.plain : Cmd → Bool
  | .setOperand .. | .pushOperand .. | .removeOperand .. => false
  | .createBlock d => d.ops = [] ∧ d.parent = none
  | .createRegion d => d.parent = none
  | _ => true

theorem runAll_history : ∀ {cmds : List Cmd} {c c' : Store} {gone : OpRef → Prop}, History c gone →
    (∀ cmd ∈ cmds, cmd.plain = true) → runAll c cmds = some c' → ∃ gone', History c' gone' := by
  intro cmds
  induction cmds with
  | nil => intro c c' gone h _ e; cases e; exact ⟨gone, h⟩
  | cons cmd cmds ih =>
    intro c c' gone h hp e
    unfold runAll at e
    cases hx : exec c cmd with
    | none => rw [hx] at e; cases e
    | some c1 =>
      rw [hx] at e
      refine ih (History.call cmd h ?_ hx) (fun x hx => hp x (.tail _ hx)) e
      have := hp cmd (.head _)
      cases cmd <;> simp_all [Cmd.plain, Fair]

/-- An operation with a region: a block with one argument, an operation using it, and one using the
result of that operation and the argument. -/
def exampleCalls : List Cmd :=
  [.createBlock ⟨[5], [], none⟩, .createOp ⟨1, [0], [7], [], [], none⟩, .pushOp 0 0,
    .createOp ⟨2, [1, 0], [], [], [], none⟩, .pushOp 0 1, .createRegion ⟨[0], none⟩,
    .createOp ⟨3, [], [], [0], [], none⟩]

instance Nested.dec (c : Store) : ∀ n o, Decidable (Nested c n o)
  | 0, _ => isFalse id
  | n + 1, o => by
    have := Nested.dec c n
    unfold Nested
    infer_instance

theorem example_plain : ∀ cmd ∈ exampleCalls, cmd.plain = true := by decide

/-! ## C58: use chains -/

/-- C58: whatever calls were made, the use chain of a value lists exactly the operands, of operations
that have not been removed, that are this value, each once. -/
theorem C58_use_chains {c : Store} {gone : OpRef → Prop} (h : History c gone) (v : Value) :
    (c.uses v).Nodup ∧
      ∀ o i, ⟨o, i⟩ ∈ c.uses v ↔ ¬ gone o ∧ (c.operandsOf o)[i]? = some v :=
  ⟨h.inv.uses.nodup v, fun o i => h.inv.uses.mem v ⟨o, i⟩⟩

example : ∃ c gone, History c gone ∧ c.uses 0 = [⟨0, 0⟩, ⟨1, 1⟩] ∧ c.uses 1 = [⟨1, 0⟩] := by
  obtain ⟨gone, h⟩ := runAll_history .start example_plain (c' := (runAll .empty exampleCalls).get (by rfl)) (by rfl)
  exact ⟨_, gone, h, by rfl, by rfl⟩

/-- C58: a value has no uses exactly if no operation that has not been removed has it as an operand. -/
theorem C58_unused {c : Store} {gone : OpRef → Prop} (h : History c gone) (v : Value) :
    c.uses v = [] ↔ ∀ o, ¬ gone o → v ∉ c.operandsOf o := by
  rw [List.eq_nil_iff_forall_not_mem]
  constructor
  · intro hn o hg hm
    obtain ⟨i, hi⟩ := List.mem_iff_getElem?.1 hm
    exact hn ⟨o, i⟩ ((h.inv.uses.mem v _).2 ⟨hg, hi⟩)
  · rintro hn ⟨o, i⟩ hm
    obtain ⟨hg, hi⟩ := (h.inv.uses.mem v _).1 hm
    exact hn o hg (List.mem_of_getElem? hi)

/-- C58: replacing all uses of a value never panics. In every operation that has not been removed, the
old value gives way to the new one; nothing else changes; the old value is unused afterwards. -/
theorem C58_replace_all_uses {c : Store} {gone : OpRef → Prop} (h : History c gone) (old new : Value) :
    ∃ c', replaceAllUses c old new = some c' ∧
      (∀ o, ¬ gone o → c'.operandsOf o = (c.operandsOf o).map fun v => if v = old then new else v) ∧
      (∀ o, gone o → c'.operandsOf o = c.operandsOf o) ∧
      (∀ o, c'.infoOf o = c.infoOf o ∧ c'.tysOf o = c.tysOf o ∧ c'.regionsOf o = c.regionsOf o ∧
        c'.succsOf o = c.succsOf o ∧ c'.parentOf o = c.parentOf o) ∧
      c'.ops.length = c.ops.length ∧ c'.vals = c.vals ∧ c'.blocks = c.blocks ∧ c'.regions = c.regions ∧
      c'.results = c.results ∧ c'.args = c.args ∧ (old ≠ new → c'.uses old = []) := by
  by_cases hne : old = new
  · refine ⟨c, by unfold replaceAllUses; rw [if_pos hne], fun o _ => ?_, fun _ _ => rfl,
      fun _ => ⟨rfl, rfl, rfl, rfl, rfl⟩, rfl, rfl, rfl, rfl, rfl, rfl, fun h => absurd hne h⟩
    subst hne
    conv => lhs; rw [← List.map_id (c.operandsOf o)]
    refine List.map_congr_left fun v _ => ?_
    split <;> simp_all
  · obtain ⟨ops', h1, h2⟩ := replace_spec h.inv.uses old new hne
    have key : ∀ {β : Type} (dflt : β) (f : OpData → β),
        (∀ (d : OpData) l, f { d with operands := l } = f d) → ∀ o, look dflt f ops' o = look dflt f c.ops o := by
      intro β dflt f hf o
      unfold look
      rw [h2]
      cases c.ops[o]? with
      | none => rfl
      | some d => simp [hf]
    have hlen : ops'.length = c.ops.length := by
      have h3 := h2 c.ops.length
      have h4 := h2 ops'.length
      rw [List.getElem?_eq_none (Nat.le_refl _)] at h3 h4
      have a1 : ops'.length ≤ c.ops.length := by
        simpa using h3
      have a2 : c.ops.length ≤ ops'.length := by
        have := h4.symm
        simpa using this
      omega
    refine ⟨_, h1, fun o hg => ?_, fun o hg => ?_, fun o => ⟨key _ _ (fun _ _ => rfl) o,
      key _ _ (fun _ _ => rfl) o, key _ _ (fun _ _ => rfl) o, key _ _ (fun _ _ => rfl) o,
      key _ _ (fun _ _ => rfl) o⟩, hlen, rfl, rfl, rfl, rfl, rfl, fun _ => ?_⟩
    · show look [] OpData.operands ops' o = _
      cases hd : c.ops[o]? with
      | none =>
        have h3 := h2 o
        rw [hd] at h3
        rw [Store.operandsOf, look_none hd, look_none h3]; rfl
      | some d =>
        have h3 := h2 o
        rw [hd] at h3
        rw [Store.operandsOf, look_some hd, look_some h3]
        exact replace_operands h.inv.uses d hd hg
    · show look [] OpData.operands ops' o = _
      cases hd : c.ops[o]? with
      | none =>
        have h3 := h2 o
        rw [hd] at h3
        rw [Store.operandsOf, look_none hd, look_none h3]
      | some d =>
        have h3 := h2 o
        rw [hd] at h3
        rw [Store.operandsOf, look_some hd, look_some h3]
        exact replace_gone h.inv.uses d.operands hg
    · show put (put c.uses old []) new _ old = []
      rw [put_ne _ _ hne, put_eq]

example : ((runAll .empty (exampleCalls ++ [.replaceAllUses 0 1])).map fun c =>
    (c.uses 0, c.uses 1, c.operandsOf 0, c.operandsOf 1)) =
    some ([], [⟨1, 0⟩, ⟨0, 0⟩, ⟨1, 1⟩], [1], [1, 1]) := by rfl

/-- C58: removing an operation that returns leaves no operation, other than those removed, that uses one
of its results; and no use of the removed operations stays in any chain. -/
theorem C58_removed {c c' : Store} {gone : OpRef → Prop} {n : Nat} {op : OpRef} (h : History c gone)
    (hr : removeOp n c op = some c') :
    (∀ v ∈ c.results op, ∀ o, ¬ gone o → v ∉ c'.operandsOf o) ∧
      ∀ v o i, Within c op o → ⟨o, i⟩ ∉ c'.uses v := by
  have hist : History c' (fun o => gone o ∨ Within c op o) := History.call (.removeOp n op) h trivial hr
  refine ⟨fun v hv o hg => ?_, fun v o i hw hm => ?_⟩
  · obtain ⟨d, l, u, -, -, hu, -, -, rfl⟩ := removeOp_eq hr
    exact (C58_unused h v).1 (hu v hv) o hg
  · exact ((C58_use_chains hist v).2 o i |>.1 hm).1 (.inr hw)

example : ((runAll .empty (exampleCalls ++ [.removeOp 5 2])).map fun c =>
    (c.uses 0, c.uses 1)) = some ([], []) := by rfl
example : (runAll .empty (exampleCalls ++ [.detachOp 0, .removeOp 5 0])).isNone := by rfl

/-! ## C59: values -/

/-- C59: every value is the result of an operation or the argument of a block, at one place, and the
lists of results and arguments name it there. -/
theorem C59_definitions {c : Store} {gone : OpRef → Prop} (h : History c gone) :
    (∀ (v : Nat) op i, c.vals[v]? = some (.opResult op i) ↔ (c.results op)[i]? = some v) ∧
      ∀ (v : Nat) b i, c.vals[v]? = some (.blockArg b i) ↔ (c.args b)[i]? = some v :=
  ⟨h.inv.defs.res, h.inv.defs.arg⟩

/-- C59: asking for the type of a value that exists never panics. -/
theorem C59_typed {c : Store} {gone : OpRef → Prop} (h : History c gone) (v : Nat)
    (hv : v < c.vals.length) : ∃ t, c.valueTy v = some t := by
  unfold Store.valueTy
  have e := List.getElem?_eq_getElem hv
  rw [e]
  cases hd : c.vals[v] with
  | opResult op i =>
    rw [hd] at e
    have := (h.inv.defs.res v op i).1 e
    have hi : i < (c.tysOf op).length := by
      rw [← h.inv.defs.resLen]; exact (List.getElem?_eq_some_iff.1 this).1
    exact ⟨_, List.getElem?_eq_getElem hi⟩
  | blockArg b i =>
    rw [hd] at e
    have := (h.inv.defs.arg v b i).1 e
    have hi : i < (c.argTysOf b).length := by
      rw [← h.inv.defs.argLen]; exact (List.getElem?_eq_some_iff.1 this).1
    exact ⟨_, List.getElem?_eq_getElem hi⟩

example : ((runAll .empty (exampleCalls ++ [.prependBlockArg 0 9])).map fun c =>
    (c.args 0, c.valueTy 0, c.valueTy 1, c.valueTy 2)) = some ([2, 0], some 5, some 7, some 9) := by rfl

/-- Where a value is defined, without the position. -/
def Def.owner : Def → OpRef ⊕ BlockRef
  | .opResult op _ => .inl op
  | .blockArg b _ => .inr b

theorem builds_vals {c c' : Store} (h : Builds c c') : ∃ more, c'.vals = c.vals ++ more := by
  induction h with
  | refl => exact ⟨[], by simp⟩
  | op _ e ih =>
    obtain ⟨m, hm⟩ := ih
    obtain ⟨-, -, rs, -, rfl⟩ := createOp_eq e
    exact ⟨_, by simp only [hm, List.append_assoc]; rfl⟩
  | block _ ih =>
    obtain ⟨m, hm⟩ := ih
    exact ⟨_, by simp only [createBlock, hm, List.append_assoc]; rfl⟩
  | push _ e ih =>
    obtain ⟨m, hm⟩ := ih
    obtain ⟨d, bd, -, -, -, rfl⟩ := pushOp_eq e
    exact ⟨m, hm⟩
  | region _ e ih =>
    obtain ⟨m, hm⟩ := ih
    obtain ⟨-, bs, -, rfl⟩ := createRegion_eq e
    exact ⟨m, hm⟩

/-- C59: a value stays with the operation or block that defined it, through every call; only the
position of block arguments moves, when an argument is put in front of them. -/
theorem C59_stays {c c' : Store} {gone : OpRef → Prop} (h : History c gone) {cmd : Cmd}
    (he : exec c cmd = some c') (v : Nat) (hv : v < c.vals.length) :
    (c'.vals[v]?).map Def.owner = (c.vals[v]?).map Def.owner ∧
      ((∀ b ty, cmd ≠ .prependBlockArg b ty) → c'.vals[v]? = c.vals[v]?) := by
  suffices hs : c'.vals[v]? = c.vals[v]? ∨ (∃ b ty, cmd = .prependBlockArg b ty) ∧
      (c'.vals[v]?).map Def.owner = (c.vals[v]?).map Def.owner by
    rcases hs with e | ⟨⟨b, ty, rfl⟩, e⟩
    · exact ⟨by rw [e], fun _ => e⟩
    · exact ⟨e, fun hn => absurd rfl (hn b ty)⟩
  have pre : ∀ {more : List Def}, c'.vals = c.vals ++ more → c'.vals[v]? = c.vals[v]? := by
    intro more e; rw [e, List.getElem?_append_left hv]
  cases cmd with
  | prependBlockArg b ty =>
    refine .inr ⟨⟨b, ty, rfl⟩, ?_⟩
    obtain ⟨vals, h1, h2, h3⟩ := shiftDefs_spec (c.args b) c.vals (h.inv.defs.args_nodup b) (fun v hv => by
      obtain ⟨i, hi⟩ := List.mem_iff_getElem?.1 hv
      exact h.inv.defs.arg.lt hi)
    simp only [exec, prependBlockArg, h1] at he
    cases hd : c.blocks[b]? with
    | none => rw [hd] at he; cases he
    | some d =>
      rw [hd] at he
      cases he
      simp only
      rw [List.getElem?_append_left (by rw [h2]; exact hv), h3]
      split
      · cases c.vals[v]? with
        | none => rfl
        | some x => cases x <;> rfl
      · rfl
  | cloneOp n op m =>
    simp only [exec, Option.map_eq_some_iff] at he
    obtain ⟨⟨_, o, m'⟩, he, rfl⟩ := he
    obtain ⟨more, e⟩ := builds_vals (cloneOp_builds n he)
    exact .inl (pre e)
  | cloneRegion n r m =>
    simp only [exec, Option.map_eq_some_iff] at he
    obtain ⟨⟨_, o, m'⟩, he, rfl⟩ := he
    obtain ⟨more, e⟩ := builds_vals (region_builds (cloneOp_builds n) he)
    exact .inl (pre e)
  | createOp d =>
    simp only [exec, Option.map_eq_some_iff] at he
    obtain ⟨⟨_, o⟩, he, rfl⟩ := he
    obtain ⟨-, -, rs, -, rfl⟩ := createOp_eq he
    exact .inl (pre rfl)
  | createBlock d => cases he; exact .inl (pre rfl)
  | createRegion d =>
    simp only [exec, Option.map_eq_some_iff] at he
    obtain ⟨⟨_, o⟩, he, rfl⟩ := he
    obtain ⟨-, bs, -, rfl⟩ := createRegion_eq he
    exact .inl rfl
  | pushOp b op => obtain ⟨d, bd, -, -, -, rfl⟩ := pushOp_eq he; exact .inl rfl
  | insertOpBefore b before op =>
    obtain ⟨d, bd, os, -, -, -, -, rfl⟩ := insertOpBefore_eq he; exact .inl rfl
  | removeOpFromBlock b op => obtain ⟨d, bd, -, -, rfl⟩ := removeOpFromBlock_eq he; exact .inl rfl
  | detachOp op =>
    rcases detachOp_eq he with rfl | ⟨b, he⟩
    · exact .inl rfl
    · obtain ⟨d, bd, -, -, rfl⟩ := removeOpFromBlock_eq he; exact .inl rfl
  | detachRegion r =>
    rcases detachRegion_eq he with rfl | ⟨rd, op, d, -, -, -, rfl⟩ <;> exact .inl rfl
  | removeOp n op => obtain ⟨d, l, u, -, -, -, -, -, rfl⟩ := removeOp_eq he; exact .inl rfl
  | replaceAllUses old new =>
    obtain ⟨c'', h1, -, -, -, -, h2, -⟩ := C58_replace_all_uses h old new
    simp only [exec] at he
    rw [h1] at he
    cases he
    exact .inl (by rw [h2])
  | addBlockArg b ty =>
    simp only [exec, addBlockArg] at he
    split at he
    · cases he
    · cases he; exact .inl (pre rfl)
  | setResultType op i ty =>
    simp only [exec, setResultType] at he
    split at he
    · cases he
    · split at he
      · cases he; exact .inl rfl
      · cases he
  | setBlockArgType b i ty =>
    simp only [exec, setBlockArgType] at he
    split at he
    · cases he
    · split at he
      · cases he; exact .inl rfl
      · cases he
  | setOperand op i w =>
    simp only [exec, setOperand] at he
    split at he
    · cases he
    · split at he
      · cases he
      · split at he <;> · cases he; exact .inl rfl
  | pushOperand op w =>
    simp only [exec, pushOperand] at he
    split at he
    · cases he
    · cases he; exact .inl rfl
  | removeOperand op i =>
    simp only [exec, removeOperand] at he
    split at he
    · cases he
    · split at he
      · cases he
      · cases he; exact .inl rfl

/-! ## C60: containment -/

/-- C60: an operation says it is in a block exactly if the block lists it, and then once; the same for
blocks in regions and for regions of operations. -/
theorem C60_containment {c : Store} {gone : OpRef → Prop} (h : History c gone) :
    (∀ o b, c.parentOf o = some b ↔ o ∈ c.opsOf b) ∧ (∀ b, (c.opsOf b).Nodup) ∧
    (∀ b r, c.regionOf b = some r ↔ b ∈ c.blocksOf r) ∧ (∀ r, (c.blocksOf r).Nodup) ∧
    (∀ r o, c.ownerOf r = some o ↔ r ∈ c.regionsOf o) ∧ ∀ o, (c.regionsOf o).Nodup :=
  ⟨h.inv.links.op.iff, h.inv.links.op.nodup, h.inv.links.block.iff, h.inv.links.block.nodup,
    h.inv.links.region.iff, h.inv.links.region.nodup⟩

example : ((runAll .empty exampleCalls).map fun c =>
    (c.parentOf 1, c.opsOf 0, c.regionOf 0, c.blocksOf 0, c.ownerOf 0, c.regionsOf 2)) =
    some (some 0, [0, 1], some 0, [0], some 2, [0]) := by rfl

/-- C60: hence nothing is in two places: an operation nested at two places of an operation of finite
nesting is nested there along the same way; in particular nothing contains itself. -/
theorem C60_no_sharing {c : Store} {gone : OpRef → Prop} (h : History c gone) {n : Nat} {p : OpRef}
    (hn : Nested c n p) {r r' : RegionRef} {b b' : BlockRef} {o o' x : OpRef}
    (hr : r ∈ c.regionsOf p) (hb : b ∈ c.blocksOf r) (ho : o ∈ c.opsOf b)
    (hr' : r' ∈ c.regionsOf p) (hb' : b' ∈ c.blocksOf r') (ho' : o' ∈ c.opsOf b')
    (hx : Within c o x) (hx' : Within c o' x) : r = r' ∧ b = b' ∧ o = o' ∧ x ≠ p := by
  have L := h.inv.links
  have e := apart L hn ⟨r, hr, b, hb, ho⟩ ⟨r', hr', b', hb', ho'⟩ hx hx'
  subst e
  have e2 := ((L.op.iff o b).2 ho).symm.trans ((L.op.iff o b').2 ho')
  cases e2
  refine ⟨(block_owner L hr hb hr' hb').1, rfl, rfl, fun e => ?_⟩
  subst e
  exact acyclic hn ⟨r, hr, b, hb, ho⟩ hx

/-! ## C61: cloning -/

/-- C61: cloning an operation of finite nesting returns; everything that was there stays as it was, the
new operation is in no block, and the mapping is extended by what the operation defines only. -/
theorem C61_clone_returns {c : Store} {gone : OpRef → Prop} (h : History c gone) {n : Nat} {op : OpRef}
    (hn : Nested c n op) (m : Mapping) :
    ∃ c' op' ρ, cloneOp n c op m = some (c', op', ρ) ∧ Kept c c' ∧ c.ops.length ≤ op' ∧
      op' < c'.ops.length ∧ c'.parentOf op' = none ∧
      (∀ v, ¬ Defines c op v → ρ.value v = m.value v) ∧
      ∀ b, ¬ HasBlock c op b → ρ.block b = m.block b := by
  obtain ⟨c', op', ρ, e, k, l1, l2, hp, mp, -⟩ := clones h.inv.defs n c m op (.refl c) hn
  refine ⟨c', op', ρ, e, k, l1, l2, hp, fun v hv => ?_, fun b hb => ?_⟩
  · unfold Mapping.value; rw [mp.1 v fun hm => hv (read_val hm)]
  · unfold Mapping.block; rw [mp.2 b fun hm => hb (read_block hm)]

/-- C61, partial: if reading the operation nothing is used before it is defined, its clone is a copy, new
throughout, with every value and block defined in it replaced by the new one.

Missing: operations in which a value is used in a block listed before the block that defines it, see
`C61_forward_violated`. -/
theorem C61_clone_op_partial {c : Store} {gone : OpRef → Prop} (h : History c gone) {n : Nat} {op : OpRef}
    (hn : Nested c n op) (ho : InOrder (readOp c n op)) {m ρ : Mapping} {c' : Store} {op' : OpRef}
    (he : cloneOp n c op m = some (c', op', ρ)) : OpCopy c c' ρ n op op' := by
  obtain ⟨c1, op1, ρ1, e, -, -, -, -, -, s⟩ := clones h.inv.defs n c m op (.refl c) hn
  rw [e] at he
  cases he
  exact (s (strict_of ho (op_once h.inv.defs h.inv.links hn))).copy

/-- C61, partial: the same for a region of an operation. -/
theorem C61_clone_region_partial {c : Store} {gone : OpRef → Prop} (h : History c gone) {n : Nat}
    {op : OpRef} {r : RegionRef} (hn : Nested c (n + 1) op) (hr : r ∈ c.regionsOf op)
    (ho : InOrder (readRegion c (readOp c n) r)) (m : Mapping) :
    ∃ c' r' ρ, cloneRegion (cloneOp n) c r m = some (c', r', ρ) ∧ Kept c c' ∧ c'.ownerOf r' = none ∧
      RegionCopy c c' ρ (OpCopy c c' ρ n) r r' := by
  obtain ⟨c', r', ρ, e, k, -, -, hp, -, s⟩ := region_ok h.inv.defs (clones h.inv.defs n) c m r (.refl c)
    (hn.2 r hr).1 (hn.2 r hr).2
  exact ⟨c', r', ρ, e, k, hp, (s (strict_of ho (region_once h.inv.defs h.inv.links hn
    (fun o hi => op_once h.inv.defs h.inv.links (hn.inside hi)) hr))).copy fun _ _ => OpC.copy⟩

theorem mem_forall2 {α β : Type} {R : α → β → Prop} {as : List α} {bs : List β} (h : List.Forall₂ R as bs)
    {a : α} (ha : a ∈ as) : ∃ b ∈ bs, R a b := by
  induction h with
  | nil => cases ha
  | cons h1 _ ih =>
    rcases List.mem_cons.1 ha with rfl | ha
    · exact ⟨_, .head _, h1⟩
    · obtain ⟨b, hb, hr⟩ := ih ha
      exact ⟨b, .tail _ hb, hr⟩

theorem copy_within {c c' : Store} {ρ : Mapping} {n : Nat} {op op' : OpRef} (h : OpCopy c c' ρ n op op')
    {o : OpRef} (hw : Within c op o) : ∃ k o', OpCopy c c' ρ k o o' ∧ Within c' op' o' := by
  induction hw with
  | self => exact ⟨n, op', h, .self⟩
  | nested _ h1 h2 h3 ih =>
    obtain ⟨k, o', hc, hw'⟩ := ih
    cases k with
    | zero => exact hc.elim
    | succ k =>
      obtain ⟨-, -, -, -, -, -, -, hr⟩ := hc
      obtain ⟨r', hr', -, -, hb⟩ := mem_forall2 hr h1
      obtain ⟨b', hb', -, -, -, -, -, ho⟩ := mem_forall2 hb h2
      obtain ⟨x', hx', hx⟩ := mem_forall2 ho h3
      exact ⟨k, x', hx, .nested hw' hr' hb' hx'⟩

/-- C61, partial: the image of a value defined in the cloned operation is a new value of the same type,
defined in the clone. -/
theorem C61_values_partial {c : Store} {gone : OpRef → Prop} (h : History c gone) {n : Nat} {op : OpRef}
    (hn : Nested c n op) (ho : InOrder (readOp c n op)) {m ρ : Mapping} {c' : Store} {op' : OpRef}
    (he : cloneOp n c op m = some (c', op', ρ)) {v : Value} (hv : Defines c op v) :
    c.vals.length ≤ ρ.value v ∧ c'.valueTy (ρ.value v) = c.valueTy v ∧ Defines c' op' (ρ.value v) := by
  have hist : History c' gone :=
    History.call (.cloneOp n op m) h trivial (by simp only [exec, he]; rfl)
  obtain ⟨c1, op1, ρ1, e, k, -⟩ := C61_clone_returns h hn m
  rw [e] at he
  cases he
  have hc := C61_clone_op_partial h hn ho e
  have D := h.inv.defs
  have D' := hist.inv.defs
  obtain ⟨o, hw, hd⟩ := hv
  obtain ⟨j, o', hcp, hw'⟩ := copy_within hc hw
  cases j with
  | zero => exact hcp.elim
  | succ j =>
    obtain ⟨f1, f2, -, f4, -, -, f7, f8⟩ := hcp
    rcases hd with hd | ⟨r, hr, b, hb, hd⟩
    · obtain ⟨i, hi⟩ := List.mem_iff_getElem?.1 hd
      have hi' : (c'.results o')[i]? = some (ρ.value v) := by
        rw [← f7, List.getElem?_map, hi]; rfl
      have hval := (D'.res _ o' i).2 hi'
      have hval0 := (D.res _ o i).2 hi
      refine ⟨Nat.le_of_not_lt fun hlt => ?_, ?_, o', hw', .inl (List.mem_of_getElem? hi')⟩
      · rw [k.vals.2 _ hlt] at hval
        have := (D.res _ o' i).1 hval
        rw [D.results_new f1] at this
        cases this
      · unfold Store.valueTy
        rw [hval, hval0]
        simp only [f4]
    · obtain ⟨r', hr', -, -, hbs⟩ := mem_forall2 f8 hr
      obtain ⟨b', hb', g1, -, -, g4, g5, -⟩ := mem_forall2 hbs hb
      obtain ⟨i, hi⟩ := List.mem_iff_getElem?.1 hd
      have hi' : (c'.args b')[i]? = some (ρ.value v) := by
        rw [← g5, List.getElem?_map, hi]; rfl
      have hval := (D'.arg _ b' i).2 hi'
      have hval0 := (D.arg _ b i).2 hi
      refine ⟨Nat.le_of_not_lt fun hlt => ?_, ?_, o', hw',
        .inr ⟨r', hr', b', hb', List.mem_of_getElem? hi'⟩⟩
      · rw [k.vals.2 _ hlt] at hval
        have := (D.arg _ b' i).1 hval
        rw [D.args_new g1] at this
        cases this
      · unfold Store.valueTy
        rw [hval, hval0]
        simp only [g4]

theorem example_nested : ∀ c, runAll .empty exampleCalls = some c → Nested c 2 2 ∧ InOrder (readOp c 2 2) := by
  intro c e
  cases e
  refine ⟨by show Nested ((runAll .empty exampleCalls).get (by rfl)) 2 2; decide, ?_⟩
  have : readOp ((runAll .empty exampleCalls).get (by rfl)) 2 2 =
    [.block 0, .val 0, .use 0, .val 1, .use 1, .use 0] := by rfl
  show InOrder (readOp ((runAll .empty exampleCalls).get (by rfl)) 2 2)
  rw [this]
  unfold InOrder
  simp

/-- The clone of the example: new operations, block and values, and the operands follow. -/
example : ((runAll .empty (exampleCalls ++ [.cloneOp 2 2 .empty])).map fun c =>
    (c.regionsOf 5, c.blocksOf 1, c.opsOf 1, c.args 1, c.results 3, c.operandsOf 3, c.operandsOf 4)) =
    some ([1], [1], [3, 4], [2], [3], [2], [3, 2]) := by rfl

/-- A region of three blocks: the first jumps to the third, which defines a value and jumps to the
second, which uses it. -/
def forwardCalls : List Cmd :=
  [.createBlock ⟨[], [], none⟩, .createBlock ⟨[], [], none⟩, .createBlock ⟨[], [], none⟩,
    .createOp ⟨1, [], [7], [], [], none⟩, .createOp ⟨2, [0], [], [], [], none⟩,
    .createOp ⟨3, [], [], [], [2], none⟩, .createOp ⟨3, [], [], [], [1], none⟩,
    .pushOp 0 2, .pushOp 1 1, .pushOp 2 0, .pushOp 2 3,
    .createRegion ⟨[0, 1, 2], none⟩, .createOp ⟨4, [], [], [0], [], none⟩]

/-- C61 is violated when the block that defines a value is listed after a block that uses it, although it
runs before: the second block is only jumped to from the third, which defines value 0. The clone of
the using operation still has the original value as its operand, which is defined in the original
operation and not in the clone. -/
theorem C61_forward_violated : ∃ c gone c' op' ρ, History c gone ∧ Nested c 2 4 ∧
    cloneOp 2 c 4 .empty = some (c', op', ρ) ∧ Defines c 4 0 ∧
    (∀ o, 1 ∈ c.succsOf o → c.parentOf o = some 2) ∧ (∀ o ∈ c.opsOf 2, c.results o = [0] ∨ c.succsOf o = [1]) ∧
    ¬ Defines c' op' 0 ∧ ∃ o', Within c' op' o' ∧ 0 ∈ c'.operandsOf o' := by
  obtain ⟨gone, h⟩ := runAll_history .start (by decide : ∀ cmd ∈ forwardCalls, cmd.plain = true)
    (c' := (runAll .empty forwardCalls).get (by rfl)) (by rfl)
  have hn : Nested ((runAll .empty forwardCalls).get (by rfl)) 2 4 := by decide
  have hd : Defines ((runAll .empty forwardCalls).get (by rfl)) 4 0 :=
    ⟨0, .nested (r := 0) (b := 2) .self (by decide) (by decide) (by decide), .inl (by decide)⟩
  obtain ⟨c', op', ρ, e, k, l1, -⟩ := C61_clone_returns h hn .empty
  have hist : History c' gone :=
    History.call (.cloneOp 2 4 .empty) h trivial (by simp only [exec, e]; rfl)
  have e' : cloneOp 2 ((runAll .empty forwardCalls).get (by rfl)) 4 .empty = some (c', op', ρ) := e
  have hb : c' = ((cloneOp 2 ((runAll .empty forwardCalls).get (by rfl)) 4 .empty).get (by rfl)).1 := by
    simp only [e', Option.get_some]
  have ho' : op' = 9 := by
    have : op' = ((cloneOp 2 ((runAll .empty forwardCalls).get (by rfl)) 4 .empty).get (by rfl)).2.1 := by
      simp only [e', Option.get_some]
    rw [this]; rfl
  refine ⟨_, gone, c', op', ρ, h, hn, e, hd, ?_, ?_, ?_, ?_⟩
  · intro o ho
    by_cases hlt : o < 5
    · have : o = 0 ∨ o = 1 ∨ o = 2 ∨ o = 3 ∨ o = 4 := by simp only [OpRef] at *; omega
      rcases this with rfl | rfl | rfl | rfl | rfl
      · exact absurd ho (by decide)
      · exact absurd ho (by decide)
      · exact absurd ho (by decide)
      · rfl
      · exact absurd ho (by decide)
    · have : Store.succsOf ((runAll .empty forwardCalls).get (by rfl)) o = [] :=
        look_out (Nat.le_of_not_lt hlt)
      rw [this] at ho
      cases ho
  · intro o ho
    have : Store.opsOf ((runAll .empty forwardCalls).get (by rfl)) 2 = [0, 3] := by rfl
    rw [this] at ho
    simp only [List.mem_cons, List.not_mem_nil, or_false] at ho
    rcases ho with rfl | rfl
    · exact .inl rfl
    · exact .inr rfl
  · rintro ⟨x, hw, hx⟩
    -- value 0 is a result of operation 0, whose block is in the original
    have L := hist.inv.links
    have h0 : (0 : Value) ∈ c'.results 0 := by rw [hb]; decide
    have hx0 : x = 0 := defAt_unique hist.inv.defs L hx (.inl h0)
    subst hx0
    rcases hw.last with e0 | ⟨q, hq, hi⟩
    · rw [ho'] at e0; cases e0
    · have hq4 : q = 4 := hi.unique L ⟨0, by rw [hb]; decide, 2, by rw [hb]; decide, by rw [hb]; decide⟩
      subst hq4
      rcases hq.last with e0 | ⟨q', -, r, hr, b, hb', ho⟩
      · rw [ho'] at e0; cases e0
      · have := (L.op.iff 4 b).2 ho
        rw [hb] at this
        have e4 : Store.parentOf ((cloneOp 2 ((runAll .empty forwardCalls).get (by rfl)) 4 .empty).get
          (by rfl)).1 4 = none := by rfl
        rw [e4] at this
        cases this
  · refine ⟨6, ?_, ?_⟩
    · rw [ho', hb]
      exact .nested (r := 1) (b := 4) .self (by decide) (by decide) (by decide)
    · rw [hb]; decide

end Verif.IrStore
