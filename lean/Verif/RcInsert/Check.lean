import Verif.RcInsert.Balance
import Verif.Live.Props

/-!
# Checking the conditions on a given body

For the examples: `Regular` and `Tidy` follow from conditions that can be evaluated.
-/

namespace Verif.RcInsert

open Verif.Live

/-- All operations with their places. -/
def allAt (body : Body) : List (Nat × Nat × Op) :=
  body.zipIdx.flatMap (fun x => x.1.ops.zipIdx.map (fun y => (x.2, y.2, y.1)))

theorem at_mem {c : Config} {b i : Nat} {op : Op} (h : At c b i op) : (b, i, op) ∈ allAt c.inp.body := by
  obtain ⟨blk, hb, ho⟩ := h
  simp only [allAt, List.mem_flatMap, List.mem_map]
  exact ⟨(blk, b), List.mk_mem_zipIdx_iff_getElem?.2 hb, (op, i), List.mk_mem_zipIdx_iff_getElem?.2 ho, rfl⟩

theorem mem_at {c : Config} {b i : Nat} {op : Op} (h : (b, i, op) ∈ allAt c.inp.body) : At c b i op := by
  simp only [allAt, List.mem_flatMap, List.mem_map] at h
  obtain ⟨⟨blk, b'⟩, h1, ⟨op', i'⟩, h2, h3⟩ := h
  simp only [Prod.mk.injEq] at h3
  obtain ⟨rfl, rfl, rfl⟩ := h3
  exact ⟨blk, List.mk_mem_zipIdx_iff_getElem?.1 h1, List.mk_mem_zipIdx_iff_getElem?.1 h2⟩

def ownedB (c : Config) (v : Nat) : Bool :=
  c.inp.ptrs.contains v && !c.params.contains v && !c.temps.contains v && !c.interm v

theorem ownedB_iff {c : Config} {v : Nat} (h : ownedB c v = true) : Owned c v := by
  simp only [ownedB, Bool.and_eq_true, Bool.not_eq_true', List.contains_eq_mem, decide_eq_true_eq, decide_eq_false_iff_not] at h
  exact ⟨h.1.1.1, h.1.1.2, h.1.2, h.2⟩

def castsB (ops : List Op) : Bool :=
  (List.range ops.length).all (fun n => match ops[n]? with
    | some op => op.kind != .cast ||
      (op.operands.head?.toList.all (fun v => (ops.drop n).all (fun o => o.kind != .cast || o.results.head? != some v)) &&
       op.results.head?.toList.all (fun v => (ops.take n).all (fun o => o.kind != .cast || o.results.head? != some v)))
    | none => true)

theorem casts_of {ops : List Op} (h : castsB ops = true) : CastsInOrder ops := by
  intro pre op post he hk
  have h1 : ops[pre.length]? = some op := by rw [he]; simp
  have h2 := List.all_eq_true.1 h pre.length (List.mem_range.2 (List.getElem?_eq_some_iff.1 h1).1)
  rw [h1] at h2
  have hd : ops.drop pre.length = op :: post := by rw [he]; simp
  have ht : ops.take pre.length = pre := by rw [he]; simp
  simp only [hd, ht, hk, bne_self_eq_false, Bool.false_or, Bool.and_eq_true, List.all_eq_true, Option.mem_toList,
    Bool.or_eq_true, bne_iff_ne] at h2
  refine ⟨fun v hv o ho hko => ?_, fun v hv o ho hko => ?_⟩
  · exact (h2.1 v hv o ho).resolve_left (fun h => h hko)
  · exact (h2.2 v hv o ho).resolve_left (fun h => h hko)

/-- The conditions of `Regular`, evaluated. -/
structure Checked (c : Config) (l : Live) (interms : List Nat) : Prop where
  args : ∀ blk ∈ c.inp.body, ∀ v ∈ blk.args, c.inp.info.static v = false ∧ ∀ b ∈ c.inp.body, ∀ op ∈ b.ops, v ∉ op.results
  loads : ∀ x ∈ allAt c.inp.body, x.2.2.kind = .load → ∀ v ∈ x.2.2.results, x.2.2.results = [v] ∧
    c.inp.info.static v = false ∧ ∀ b ∈ c.inp.body, ∀ op ∈ b.ops, op.kind = .cast → v ∉ op.results
  casts : castsB (c.inp.body.flatMap (·.ops)) = true
  owners : ∀ e ∈ c.inp.deps, e.2 ∈ c.inp.ptrs
  entry : ∀ v ∈ c.inp.ptrs, v ∉ l.liveIn 0
  last : ∀ x ∈ allAt c.inp.body, isTerminator x.2.2 = true → c.inp.body[x.1]?.map (·.ops.length) = some (x.2.1 + 1)
  ret : ∀ x ∈ allAt c.inp.body, x.2.2.kind = .ret →
    ((x.2.2.operands.map (rootOf c.inp)).filter (c.inp.ptrs.contains ·)).Nodup ∧
    ∀ v ∈ x.2.2.operands, rootOf c.inp v ∈ c.inp.ptrs → ownedB c (rootOf c.inp v) = true
  jump : ∀ x ∈ allAt c.inp.body, x.2.2.kind = .jump →
    (target c x.2.2).map (·.args.length) = some x.2.2.operands.length ∧
    (((moved c x.1 x.2.1 x.2.2).map (rootOf c.inp)).filter (c.inp.ptrs.contains ·)).Nodup ∧
    ∀ v ∈ moved c x.1 x.2.1 x.2.2, rootOf c.inp v ∈ c.inp.ptrs → ownedB c (rootOf c.inp v) = true ∧ rootOf c.inp v ∉ l.liveOut x.1
  branch : ∀ x ∈ allAt c.inp.body, (x.2.2.kind = .brif ∨ x.2.2.kind = .brTable ∨ x.2.2.kind = .trap) →
    (∀ v ∈ x.2.2.operands, touched c.inp v = []) ∧
    ∀ s ∈ x.2.2.succs, ∀ blk ∈ c.inp.body[s]?.toList, ∀ v ∈ blk.args, c.inp.info.anyref v = false
  succs : ∀ x ∈ allAt c.inp.body, x.2.2.succs ≠ [] → x.2.2.kind = .jump ∨ x.2.2.kind = .brif ∨ x.2.2.kind = .brTable
  tail : ∀ x ∈ allAt c.inp.body, (x.2.2.kind = .returnCall ∨ x.2.2.kind = .returnCallIndirect) →
    (∀ v ∈ lent c x.1 x.2.1 x.2.2, touched c.inp v = []) ∧
    ∀ v ∈ takenOver c x.1 x.2.1 x.2.2, rootOf c.inp v ∈ c.inp.ptrs → c.interm (rootOf c.inp v) = false
  contracts : ∀ x ∈ allAt c.inp.body, ∀ ct ∈ (c.contract x.1 x.2.1).toList,
    (ct.isTail = true ∧ (x.2.2.kind = .returnCall ∨ x.2.2.kind = .returnCallIndirect)) ∨
    (ct.isTail = false ∧ (x.2.2.kind = .call ∨ x.2.2.kind = .other))
  interm : ∀ v ∈ interms, v ∈ c.inp.ptrs ∧ ∀ b ∈ List.range c.inp.body.length, v ∉ l.liveIn b

theorem lookup_mem' {e : List (Nat × Nat)} {w o : Nat} (h : e.lookup w = some o) : (w, o) ∈ e := by
  induction e with
  | nil => simp at h
  | cons x e ih =>
    obtain ⟨a, b⟩ := x
    rw [List.lookup_cons] at h
    split at h
    · rename_i heq
      cases h
      rw [beq_iff_eq] at heq
      subst heq
      exact List.mem_cons_self
    · exact List.mem_cons_of_mem _ (ih h)

theorem regular_of {c : Config} {I : Info} {body : Body} {deps : List (Nat × Nat)} (hc : c.inp = analyse I body deps)
    {fuel : Nat} {l : Live} (hl : liveness c.inp fuel = some l) {interms : List Nat} (hi : ∀ v, c.interm v = true → v ∈ interms)
    (h : Checked c l interms) : Regular c := by
  have hex : ∀ p ∈ c.inp.ptrs, ∀ b, (p ∈ l.liveIn b ↔ LiveIn c.inp p b) ∧ (p ∈ l.liveOut b ↔ LiveOut c.inp p b) := by
    have hargs := h.args
    rw [hc] at hl hargs ⊢
    intro p hp b
    exact C21_exact (fun b hb v hv => (hargs b hb v hv).1) hl hp b
  refine ⟨h.args, fun b i op hat => h.loads _ (at_mem hat), casts_of h.casts, ?_, ?_, ?_, ?_, ?_, ?_,
    fun b i op hat => h.succs _ (at_mem hat), fun b i op hat => h.tail _ (at_mem hat), ?_, ?_⟩
  · intro w o hw
    exact h.owners (w, o) (lookup_mem' hw)
  · intro v hv hn
    exact h.entry v hv (((hex v hv 0).1).2 hn)
  · intro b blk i op hb ho ht
    have := h.last (b, i, op) (at_mem ⟨blk, hb, ho⟩) ht
    simp only [hb, Option.map_some, Option.some.injEq] at this
    exact this.symm
  · intro b i op hat hk
    obtain ⟨h1, h2⟩ := h.ret _ (at_mem hat) hk
    exact ⟨h1, fun v hv hp => ownedB_iff (h2 v hv hp)⟩
  · intro b i op hat hk
    obtain ⟨h1, h2, h3⟩ := h.jump _ (at_mem hat) hk
    refine ⟨?_, h2, fun v hv hp => ⟨ownedB_iff (h3 v hv hp).1, fun hn => (h3 v hv hp).2 (((hex _ hp b).2).2 hn)⟩⟩
    simp only [target] at h1
    split at h1
    · rename_i s hs
      cases hb : c.inp.body[s]? with
      | none => rw [hb] at h1; cases h1
      | some blk =>
        rw [hb] at h1
        simp only [Option.map_some, Option.some.injEq] at h1
        exact ⟨s, blk, hs, hb, h1.symm⟩
    · cases h1
  · intro b i op hat hk
    obtain ⟨h1, h2⟩ := h.branch _ (at_mem hat) hk
    exact ⟨h1, fun s hs blk hb => h2 s hs blk (by simp [hb])⟩
  · intro b i op ct hat hc
    exact h.contracts _ (at_mem hat) ct (by simp [hc])
  · intro v b hv hn
    obtain ⟨h1, h2⟩ := h.interm v (hi v hv)
    have hlt : b < c.inp.body.length := by
      obtain ⟨blk, hb, -⟩ := hn
      exact (List.getElem?_eq_some_iff.1 hb).1
    exact h2 b (List.mem_range.2 hlt) (((hex v h1 b).1).2 hn)

/-- The conditions of `Tidy`, evaluated. -/
structure CheckedTidy (c : Config) (interms : List Nat) : Prop where
  ssa : (c.inp.body.flatMap (fun blk => blk.args ++ blk.ops.flatMap (·.results))).Nodup
  first : ∀ blk ∈ c.inp.body, 0 ∉ succsOf blk
  params : ∀ v ∈ c.params, v ∉ c.consumed ∧ v ∈ c.inp.ptrs ∧ (c.inp.body[0]?.map (·.args.contains v)) = some true
  temps : ∀ v ∈ c.temps, c.inp.info.anyref v = true ∧ (allAt c.inp.body).any (fun x => x.2.2.kind = .load && x.2.2.results.contains v) = true
  interm : ∀ v ∈ interms, (allAt c.inp.body).any (fun x => x.2.2.kind != .load && x.2.2.results.contains v) = true
  ends : ∀ blk ∈ c.inp.body, blk.ops.getLast?.map isTerminator = some true
  noResults : ∀ x ∈ allAt c.inp.body, isTerminator x.2.2 = true → x.2.2.results = []
  noBorrow : ∀ x ∈ allAt c.inp.body, (x.2.2.kind = .ret ∨ x.2.2.kind = .jump) → ∀ v ∈ x.2.2.operands, c.inp.deps.lookup v = none
  jumpTypes : ∀ x ∈ allAt c.inp.body, x.2.2.kind = .jump → ∀ s ∈ (target c x.2.2).toList,
    ∀ y ∈ x.2.2.operands.zip s.args, rootOf c.inp y.1 ∈ c.inp.ptrs → c.inp.info.anyref y.2 = true

theorem tidy_of {c : Config} {interms : List Nat} (hi : ∀ v, c.interm v = true → v ∈ interms) (h : CheckedTidy c interms) : Tidy c := by
  refine ⟨h.ssa, h.first, ?_, ?_, ?_, ?_, fun b i op hat => h.noResults _ (at_mem hat), fun b i op hat => h.noBorrow _ (at_mem hat), ?_⟩
  · intro v hv
    obtain ⟨h1, h2, h3⟩ := h.params v hv
    refine ⟨h1, h2, ?_⟩
    cases hb : c.inp.body[0]? with
    | none => rw [hb] at h3; cases h3
    | some blk =>
      rw [hb] at h3
      exact ⟨blk, rfl, by simpa using h3⟩
  · intro v hv
    obtain ⟨h1, h2⟩ := h.temps v hv
    obtain ⟨x, hx, h3⟩ := List.any_eq_true.1 h2
    simp only [Bool.and_eq_true, decide_eq_true_eq, List.contains_eq_mem] at h3
    exact ⟨h1, x.1, x.2.1, x.2.2, mem_at hx, h3.1, h3.2⟩
  · intro v hv
    obtain ⟨x, hx, h3⟩ := List.any_eq_true.1 (h.interm v (hi v hv))
    simp only [Bool.and_eq_true, decide_eq_true_eq, List.contains_eq_mem, bne_iff_ne] at h3
    exact ⟨x.1, x.2.1, x.2.2, mem_at hx, h3.1, h3.2⟩
  · intro blk hb
    have := h.ends blk hb
    cases hl : blk.ops.getLast? with
    | none => rw [hl] at this; cases this
    | some op => exact ⟨op, rfl, by simpa [hl] using this⟩
  · intro b i op s hat hk hs
    exact h.jumpTypes _ (at_mem hat) hk s (by simp [hs])

end Verif.RcInsert
