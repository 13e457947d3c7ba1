import Verif.IrStore.Links

/-
Every store that calls of the interface reach is consistent.
-/
namespace Verif.IrStore

structure Inv (c : Store) (gone : OpRef → Prop) : Prop where
  uses : UsesOk c gone
  defs : DefsOk c
  links : LinksOk c

/-- What a clone is made of. -/
inductive Builds : Store → Store → Prop
  | refl {c} : Builds c c
  | op {c c' c'' d o} : Builds c c' → createOp c' d = some (c'', o) → Builds c c''
  | block {c c' tys} : Builds c c' → Builds c (createBlock c' ⟨tys, [], none⟩).1
  | push {c c' c'' b o} : Builds c c' → pushOp c' b o = some c'' → Builds c c''
  | region {c c' c'' bs r} : Builds c c' → createRegion c' ⟨bs, none⟩ = some (c'', r) → Builds c c''

theorem Builds.trans {a b c : Store} (h : Builds a b) (h' : Builds b c) : Builds a c := by
  induction h' with
  | refl => exact h
  | op _ e ih => exact ih.op e
  | block _ ih => exact ih.block
  | push _ e ih => exact ih.push e
  | region _ e ih => exact ih.region e

theorem inv_createOp {c c' : Store} {gone : OpRef → Prop} {d : OpData} {op : OpRef} (H : Inv c gone)
    (h : createOp c d = some (c', op)) : Inv c' gone :=
  ⟨uses_createOp H.uses h, defs_createOp H.defs h, links_createOp H.links h⟩

theorem inv_createBlock {c : Store} {gone : OpRef → Prop} {d : BlockData} (H : Inv c gone)
    (h1 : d.ops = []) (h2 : d.parent = none) : Inv (createBlock c d).1 gone :=
  ⟨H.uses.same rfl rfl rfl, defs_createBlock H.defs, links_createBlock H.links h1 h2⟩

theorem operands_set {c : Store} {op : OpRef} {d d' : OpData} (hd : c.ops[op]? = some d)
    (h : d'.operands = d.operands) : look [] OpData.operands (c.ops.set op d') = c.operandsOf :=
  look_set_same hd h

theorem tys_set {c : Store} {op : OpRef} {d d' : OpData} (hd : c.ops[op]? = some d)
    (h : d'.resultTys = d.resultTys) : look [] OpData.resultTys (c.ops.set op d') = c.tysOf :=
  look_set_same hd h

theorem argTys_set {c : Store} {b : BlockRef} {d d' : BlockData} (hd : c.blocks[b]? = some d)
    (h : d'.args = d.args) : look [] BlockData.args (c.blocks.set b d') = c.argTysOf :=
  look_set_same hd h

theorem inv_pushOp {c c' : Store} {gone : OpRef → Prop} {b : BlockRef} {op : OpRef} (H : Inv c gone)
    (h : pushOp c b op = some c') : Inv c' gone := by
  refine ⟨?_, ?_, links_pushOp H.links h⟩
  · obtain ⟨d, bd, hd, hb, -, rfl⟩ := pushOp_eq h
    exact H.uses.same rfl (operands_set hd (by rfl)) (List.length_set ..)
  · obtain ⟨d, bd, hd, hb, -, rfl⟩ := pushOp_eq h
    exact H.defs.same rfl rfl rfl (fun o => congrArg List.length (congrFun (tys_set hd (by rfl)) o))
      (fun x => congrArg List.length (congrFun (argTys_set hb (by rfl)) x))

theorem createRegion_eq {c c' : Store} {d : RegionData} {r : RegionRef}
    (h : createRegion c d = some (c', r)) : r = c.regions.length ∧
      ∃ bs, linkBlocks r d.blocks c.blocks = some bs ∧
        c' = { c with regions := c.regions ++ [d], blocks := bs } := by
  unfold createRegion at h
  simp only at h
  cases hl : linkBlocks c.regions.length d.blocks c.blocks with
  | none => rw [hl] at h; cases h
  | some bs =>
    rw [hl] at h
    simp only [Option.some.injEq, Prod.mk.injEq] at h
    obtain ⟨rfl, rfl⟩ := h
    exact ⟨rfl, bs, hl, rfl⟩

theorem inv_createRegion {c c' : Store} {gone : OpRef → Prop} {d : RegionData} {r : RegionRef}
    (H : Inv c gone) (hd : d.parent = none) (h : createRegion c d = some (c', r)) : Inv c' gone := by
  refine ⟨?_, ?_, links_createRegion H.links hd h⟩
  · obtain ⟨-, bs, -, rfl⟩ := createRegion_eq h
    exact H.uses.same rfl rfl rfl
  · obtain ⟨-, bs, hl, rfl⟩ := createRegion_eq h
    obtain ⟨-, -, -, -, s5, -⟩ := linkBlocks_spec hl
    exact H.defs.same rfl rfl rfl (fun _ => rfl) (fun x => congrArg List.length (congrFun s5 x))

theorem inv_removeOpFromBlock {c c' : Store} {gone : OpRef → Prop} {b : BlockRef} {op : OpRef}
    (H : Inv c gone) (h : removeOpFromBlock c b op = some c') : Inv c' gone := by
  refine ⟨?_, ?_, links_removeOpFromBlock H.links h⟩
  · obtain ⟨d, bd, hd, hb, rfl⟩ := removeOpFromBlock_eq h
    refine H.uses.same rfl ?_ ?_
    · show look [] OpData.operands (if _ then _ else _) = _
      split
      · exact operands_set hd (by rfl)
      · rfl
    · show (if _ then _ else _ : List OpData).length = _
      split
      · exact List.length_set ..
      · rfl
  · obtain ⟨d, bd, hd, hb, rfl⟩ := removeOpFromBlock_eq h
    refine H.defs.same rfl rfl rfl (fun o => ?_)
      (fun x => congrArg List.length (congrFun (argTys_set hb (by rfl)) x))
    show (look [] OpData.resultTys (if _ then _ else _) o).length = _
    split
    · exact congrArg List.length (congrFun (tys_set hd (by rfl)) o)
    · rfl

theorem Builds.inv {c c' : Store} {gone : OpRef → Prop} (h : Builds c c') (H : Inv c gone) :
    Inv c' gone := by
  induction h with
  | refl => exact H
  | op _ e ih => exact inv_createOp ih e
  | block _ ih => exact inv_createBlock ih rfl rfl
  | push _ e ih => exact inv_pushOp ih e
  | region _ e ih => exact inv_createRegion ih rfl e

/-! ## Cloning is building -/

theorem headers_builds : ∀ {bs : List BlockRef} {c : Store} {m : Mapping} {c' nbs m'},
    cloneHeaders bs c m = some (c', nbs, m') → Builds c c' := by
  intro bs
  induction bs with
  | nil => intro c m c' nbs m' h; cases h; exact .refl
  | cons b bs ih =>
    intro c m c' nbs m' h
    unfold cloneHeaders at h
    cases hb : c.blocks[b]? with
    | none => rw [hb] at h; cases h
    | some d =>
      rw [hb] at h
      simp only at h
      split at h
      · cases h
      · rename_i h2
        cases h
        exact (Builds.block .refl).trans (ih h2)

def ClonesBuild (f : Cloner) : Prop := ∀ {c o m c' o' m'}, f c o m = some (c', o', m') → Builds c c'

theorem ops_builds {f : Cloner} (hf : ClonesBuild f) {nb : BlockRef} : ∀ {os : List OpRef} {c : Store}
    {m : Mapping} {c' m'}, cloneOps f nb os c m = some (c', m') → Builds c c' := by
  intro os
  induction os with
  | nil => intro c m c' m' h; cases h; exact .refl
  | cons o os ih =>
    intro c m c' m' h
    unfold cloneOps at h
    cases ho : f c o m with
    | none => rw [ho] at h; cases h
    | some x =>
      obtain ⟨c1, no, m1⟩ := x
      rw [ho] at h
      simp only at h
      cases hp : pushOp c1 nb no with
      | none => rw [hp] at h; cases h
      | some c2 =>
        rw [hp] at h
        exact ((hf ho).push hp).trans (ih h)

theorem bodies_builds {f : Cloner} (hf : ClonesBuild f) : ∀ {bs nbs : List BlockRef} {c : Store}
    {m : Mapping} {c' m'}, cloneBodies f bs nbs c m = some (c', m') → Builds c c' := by
  intro bs
  induction bs with
  | nil => intro nbs c m c' m' h; cases h; exact .refl
  | cons b bs ih =>
    intro nbs c m c' m' h
    cases nbs with
    | nil => cases h; exact .refl
    | cons nb nbs =>
      unfold cloneBodies at h
      cases hb : c.blocks[b]? with
      | none => rw [hb] at h; cases h
      | some d =>
        rw [hb] at h
        simp only at h
        cases ho : cloneOps f nb d.ops c m with
        | none => rw [ho] at h; cases h
        | some x =>
          rw [ho] at h
          exact (ops_builds hf ho).trans (ih h)

theorem region_builds {f : Cloner} (hf : ClonesBuild f) {c : Store} {r : RegionRef} {m : Mapping}
    {c' r' m'} (h : cloneRegion f c r m = some (c', r', m')) : Builds c c' := by
  unfold cloneRegion at h
  cases hr : c.regions[r]? with
  | none => rw [hr] at h; cases h
  | some d =>
    rw [hr] at h
    simp only at h
    cases h1 : cloneHeaders d.blocks c m with
    | none => rw [h1] at h; cases h
    | some x =>
      obtain ⟨c1, nbs, m1⟩ := x
      rw [h1] at h
      simp only at h
      cases h2 : cloneBodies f d.blocks nbs c1 m1 with
      | none => rw [h2] at h; cases h
      | some x =>
        obtain ⟨c2, m2⟩ := x
        rw [h2] at h
        simp only at h
        cases h3 : createRegion c2 ⟨nbs, none⟩ with
        | none => rw [h3] at h; cases h
        | some x =>
          rw [h3] at h
          cases h
          exact ((headers_builds h1).trans (bodies_builds hf h2)).region h3

theorem regions_builds {f : Cloner} (hf : ClonesBuild f) : ∀ {rs : List RegionRef} {c : Store}
    {m : Mapping} {c' nrs m'}, cloneRegions f rs c m = some (c', nrs, m') → Builds c c' := by
  intro rs
  induction rs with
  | nil => intro c m c' nrs m' h; cases h; exact .refl
  | cons r rs ih =>
    intro c m c' nrs m' h
    unfold cloneRegions at h
    cases h1 : cloneRegion f c r m with
    | none => rw [h1] at h; cases h
    | some x =>
      obtain ⟨c1, nr, m1⟩ := x
      rw [h1] at h
      simp only at h
      cases h2 : cloneRegions f rs c1 m1 with
      | none => rw [h2] at h; cases h
      | some x =>
        rw [h2] at h
        cases h
        exact (region_builds hf h1).trans (ih h2)

theorem cloneOp_builds : ∀ n, ClonesBuild (cloneOp n) := by
  intro n
  induction n with
  | zero => intro c o m c' o' m' h; cases h
  | succ n ih =>
    intro c o m c' o' m' h
    unfold cloneOp at h
    cases hd : c.ops[o]? with
    | none => rw [hd] at h; cases h
    | some d =>
      rw [hd] at h
      simp only at h
      cases h1 : cloneRegions (cloneOp n) d.regions c m with
      | none => rw [h1] at h; cases h
      | some x =>
        obtain ⟨c1, nrs, m1⟩ := x
        rw [h1] at h
        simp only at h
        split at h
        · cases h
        · rename_i h2
          cases h
          exact (regions_builds ih h1).op h2

/-! ## Histories -/

theorem inv_exec {c c' : Store} {gone : OpRef → Prop} {cmd : Cmd} (H : Inv c gone)
    (hf : Fair gone cmd) (h : exec c cmd = some c') : Inv c' (goneAfter c gone cmd) := by
  cases cmd with
  | createOp d =>
    simp only [exec, Option.map_eq_some_iff] at h
    obtain ⟨⟨_, o⟩, h, rfl⟩ := h
    exact inv_createOp H h
  | setResultType op i ty =>
    simp only [exec, setResultType] at h
    cases hd : c.ops[op]? with
    | none => rw [hd] at h; cases h
    | some d =>
      rw [hd] at h
      simp only at h
      split at h
      · cases h
        refine ⟨H.uses.same rfl (operands_set hd (by rfl)) (List.length_set ..),
          H.defs.same rfl rfl rfl (fun o => ?_) (fun _ => rfl),
          H.links.same (look_set_same hd (by rfl)) rfl rfl rfl rfl (look_set_same hd (by rfl))⟩
        show (look [] OpData.resultTys (c.ops.set op _) o).length = _
        rw [look_set hd]
        by_cases ho : o = op
        · subst ho; rw [put_eq, Store.tysOf, look_some hd, List.length_set]
        · rw [put_ne _ _ ho]; rfl
      · cases h
  | setOperand op i v =>
    refine ⟨uses_setOperand H.uses hf h, ?_, ?_⟩ <;>
    · simp only [exec, setOperand] at h
      cases hd : c.ops[op]? with
      | none => rw [hd] at h; cases h
      | some d =>
        rw [hd] at h
        simp only at h
        cases hi : d.operands[i]? with
        | none => rw [hi] at h; cases h
        | some old =>
          rw [hi] at h
          simp only at h
          split at h
          · cases h; first | exact H.defs | exact H.links
          · cases h
            first
              | exact H.defs.same rfl rfl rfl (fun o => congrArg List.length (congrFun (tys_set hd (by rfl)) o))
                  (fun _ => rfl)
              | exact H.links.same (look_set_same hd (by rfl)) rfl rfl rfl rfl (look_set_same hd (by rfl))
  | pushOperand op v =>
    refine ⟨uses_pushOperand H.uses hf h, ?_, ?_⟩ <;>
    · simp only [exec, pushOperand] at h
      cases hd : c.ops[op]? with
      | none => rw [hd] at h; cases h
      | some d =>
        rw [hd] at h
        cases h
        first
          | exact H.defs.same rfl rfl rfl (fun o => congrArg List.length (congrFun (tys_set hd (by rfl)) o))
              (fun _ => rfl)
          | exact H.links.same (look_set_same hd (by rfl)) rfl rfl rfl rfl (look_set_same hd (by rfl))
  | removeOperand op i =>
    refine ⟨uses_removeOperand H.uses hf h, ?_, ?_⟩ <;>
    · simp only [exec, removeOperand] at h
      cases hd : c.ops[op]? with
      | none => rw [hd] at h; cases h
      | some d =>
        rw [hd] at h
        simp only at h
        cases hi : d.operands[i]? with
        | none => rw [hi] at h; cases h
        | some old =>
          rw [hi] at h
          cases h
          first
            | exact H.defs.same rfl rfl rfl (fun o => congrArg List.length (congrFun (tys_set hd (by rfl)) o))
                (fun _ => rfl)
            | exact H.links.same (look_set_same hd (by rfl)) rfl rfl rfl rfl (look_set_same hd (by rfl))
  | removeOp n op =>
    refine ⟨uses_removeOp H.uses h, ?_, ?_⟩ <;>
    · obtain ⟨d, l, u, hd, -, -, hw, hu, rfl⟩ := removeOp_eq h
      first | exact H.defs.same rfl rfl rfl (fun _ => rfl) (fun _ => rfl)
            | exact H.links.same rfl rfl rfl rfl rfl rfl
  | createBlock d =>
    cases h
    exact inv_createBlock H hf.1 hf.2
  | addBlockArg b ty =>
    refine ⟨?_, defs_addBlockArg H.defs h, ?_⟩ <;>
    · simp only [exec, addBlockArg] at h
      cases hd : c.blocks[b]? with
      | none => rw [hd] at h; cases h
      | some d =>
        rw [hd] at h
        cases h
        first | exact H.uses.same rfl rfl rfl
              | exact H.links.same rfl (look_set_same hd (by rfl)) (look_set_same hd (by rfl)) rfl rfl rfl
  | prependBlockArg b ty =>
    refine ⟨?_, defs_prependBlockArg H.defs h, ?_⟩ <;>
    · simp only [exec, prependBlockArg] at h
      cases hs : shiftDefs (c.args b) c.vals with
      | none => rw [hs] at h; cases h
      | some vals =>
        cases hd : c.blocks[b]? with
        | none => rw [hs, hd] at h; cases h
        | some d =>
          rw [hs, hd] at h
          cases h
          first | exact H.uses.same rfl rfl rfl
                | exact H.links.same rfl (look_set_same hd (by rfl)) (look_set_same hd (by rfl)) rfl rfl rfl
  | setBlockArgType b i ty =>
    simp only [exec, setBlockArgType] at h
    cases hd : c.blocks[b]? with
    | none => rw [hd] at h; cases h
    | some d =>
      rw [hd] at h
      simp only at h
      split at h
      · cases h
        refine ⟨H.uses.same rfl rfl rfl, H.defs.same rfl rfl rfl (fun _ => rfl) (fun x => ?_),
          H.links.same rfl (look_set_same hd (by rfl)) (look_set_same hd (by rfl)) rfl rfl rfl⟩
        show (look [] BlockData.args (c.blocks.set b _) x).length = _
        rw [look_set hd]
        by_cases hx : x = b
        · subst hx; rw [put_eq, Store.argTysOf, look_some hd, List.length_set]
        · rw [put_ne _ _ hx]; rfl
      · cases h
  | pushOp b op => exact inv_pushOp H h
  | insertOpBefore b before op =>
    refine ⟨?_, ?_, links_insertOpBefore H.links h⟩ <;>
    · obtain ⟨d, bd, os, hd, hb, -, -, rfl⟩ := insertOpBefore_eq h
      first
        | exact H.uses.same rfl (operands_set hd (by rfl)) (List.length_set ..)
        | exact H.defs.same rfl rfl rfl (fun o => congrArg List.length (congrFun (tys_set hd (by rfl)) o))
            (fun x => congrArg List.length (congrFun (argTys_set hb (by rfl)) x))
  | removeOpFromBlock b op => exact inv_removeOpFromBlock H h
  | detachOp op =>
    rcases detachOp_eq h with rfl | ⟨b, h⟩
    · exact H
    · exact inv_removeOpFromBlock H h
  | createRegion d =>
    simp only [exec, Option.map_eq_some_iff] at h
    obtain ⟨⟨_, r⟩, h, rfl⟩ := h
    exact inv_createRegion H hf h
  | detachRegion r =>
    refine ⟨?_, ?_, links_detachRegion H.links h⟩ <;>
    · rcases detachRegion_eq h with rfl | ⟨rd, op, d, hr, hp, hd, rfl⟩
      · first | exact H.uses | exact H.defs
      · first
          | exact H.uses.same rfl (operands_set hd (by rfl)) (List.length_set ..)
          | exact H.defs.same rfl rfl rfl (fun o => congrArg List.length (congrFun (tys_set hd (by rfl)) o))
              (fun _ => rfl)
  | replaceAllUses old new =>
    refine ⟨uses_replace H.uses h, ?_, ?_⟩ <;>
    · by_cases hne : old = new
      · simp only [exec, replaceAllUses] at h
        rw [if_pos hne] at h
        cases h
        first | exact H.defs | exact H.links
      · obtain ⟨ops', h1, h2⟩ := replace_spec H.uses old new hne
        simp only [exec] at h
        rw [h1] at h
        cases h
        have key : ∀ {β : Type} (dflt : β) (f : OpData → β), (∀ (d : OpData) l, f { d with operands := l } = f d) →
            look dflt f ops' = look dflt f c.ops := by
          intro β dflt f hf
          funext o
          unfold look
          rw [h2]
          cases c.ops[o]? with
          | none => rfl
          | some d => simp [hf]
        first
          | exact H.defs.same rfl rfl rfl
              (fun o => congrArg List.length (congrFun (key [] OpData.resultTys (fun _ _ => rfl)) o))
              (fun _ => rfl)
          | exact H.links.same (key none OpData.parent (fun _ _ => rfl)) rfl rfl rfl rfl
              (key [] OpData.regions (fun _ _ => rfl))
  | cloneOp n op m =>
    simp only [exec, Option.map_eq_some_iff] at h
    obtain ⟨⟨_, o, m'⟩, h, rfl⟩ := h
    exact (cloneOp_builds n h).inv H
  | cloneRegion n r m =>
    simp only [exec, Option.map_eq_some_iff] at h
    obtain ⟨⟨_, o, m'⟩, h, rfl⟩ := h
    exact (region_builds (cloneOp_builds n) h).inv H

theorem inv_empty : Inv .empty (fun _ => False) := by
  refine ⟨⟨fun _ => .nil, fun v u => ?_, fun _ h => h.elim⟩, ⟨?_, ?_, fun _ => rfl, fun _ => rfl⟩,
    ⟨⟨?_, fun _ => .nil⟩, ⟨?_, fun _ => .nil⟩, ⟨?_, fun _ => .nil⟩⟩⟩
  · simp [Store.empty, Store.operandsOf, look]
  · intro v e i; simp [Store.empty]
  · intro v e i; simp [Store.empty]
  all_goals intro x p; simp [Store.empty, Store.parentOf, Store.opsOf, Store.regionOf, Store.blocksOf,
    Store.ownerOf, Store.regionsOf, look]

theorem History.inv {c : Store} {gone : OpRef → Prop} (h : History c gone) : Inv c gone := by
  induction h with
  | start => exact inv_empty
  | call cmd _ hf he ih => exact inv_exec ih hf he

end Verif.IrStore
