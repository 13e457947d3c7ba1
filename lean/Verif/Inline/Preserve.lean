import Verif.Inline.Site
/-!
# The module around the call
-/
namespace Verif.Inline

variable {V W σ : Type}

/-! ## Finding the operation -/

mutual
theorem Ops.find_none {t : OpId} : ∀ {o : Ops}, o.find t = none → t ∉ o.visit
  | .nil, _ => by simp [Ops.visit]
  | .cons h rs rest, hf => by
    simp only [Ops.find] at hf
    split at hf
    · cases hf
    · rename_i hne
      rw [Option.or_eq_none_iff] at hf
      simp only [Ops.visit, List.mem_append, List.mem_cons, not_or]
      exact ⟨Regions.find_none hf.1, fun he => hne he.symm, Ops.find_none hf.2⟩
theorem Regions.find_none {t : OpId} : ∀ {rs : Regions}, rs.find t = none → t ∉ rs.visit
  | .nil, _ => by simp [Regions.visit]
  | .cons ps body rest, hf => by
    simp only [Regions.find] at hf
    rw [Option.or_eq_none_iff] at hf
    simp only [Regions.visit, List.mem_append, not_or]
    exact ⟨Ops.find_none hf.1, Regions.find_none hf.2⟩
end

mutual
theorem Ops.all_of_not_mem {t : OpId} {P : Head → Prop} : ∀ {o : Ops}, t ∉ o.visit →
    o.All (fun h => h.id = t → P h)
  | .nil, _ => trivial
  | .cons h rs rest, hf => by
    simp only [Ops.visit, List.mem_append, List.mem_cons, not_or] at hf
    exact ⟨fun he => absurd he.symm hf.2.1, Regions.all_of_not_mem hf.1, Ops.all_of_not_mem hf.2.2⟩
theorem Regions.all_of_not_mem {t : OpId} {P : Head → Prop} : ∀ {rs : Regions}, t ∉ rs.visit →
    rs.All (fun h => h.id = t → P h)
  | .nil, _ => trivial
  | .cons ps body rest, hf => by
    simp only [Regions.visit, List.mem_append, not_or] at hf
    exact ⟨Ops.all_of_not_mem hf.1, Regions.all_of_not_mem hf.2⟩
end

mutual
theorem Ops.find_mem {t : OpId} {c : Head} : ∀ {o : Ops}, o.find t = some c → t ∈ o.visit
  | .nil, h => by simp [Ops.find] at h
  | .cons h rs rest, hf => by
    simp only [Ops.find] at hf
    simp only [Ops.visit, List.mem_append, List.mem_cons]
    split at hf
    · rename_i he; exact Or.inr (Or.inl he.symm)
    · rcases Option.or_eq_some_iff.mp hf with h | ⟨_, h⟩
      · exact Or.inl (Regions.find_mem h)
      · exact Or.inr (Or.inr (Ops.find_mem h))
theorem Regions.find_mem {t : OpId} {c : Head} : ∀ {rs : Regions}, rs.find t = some c → t ∈ rs.visit
  | .nil, h => by simp [Regions.find] at h
  | .cons ps body rest, hf => by
    simp only [Regions.find] at hf
    simp only [Regions.visit, List.mem_append]
    rcases Option.or_eq_some_iff.mp hf with h | ⟨_, h⟩
    · exact Or.inl (Ops.find_mem h)
    · exact Or.inr (Regions.find_mem h)
end

mutual
/-- What holds of all operations holds of the one found, which has the number asked for. -/
theorem Ops.find_all {t : OpId} {c : Head} {P : Head → Prop} : ∀ {o : Ops}, o.find t = some c → o.All P →
    c.id = t ∧ P c
  | .nil, h, _ => by simp [Ops.find] at h
  | .cons h rs rest, hf, ha => by
    simp only [Ops.find] at hf
    simp only [Ops.All] at ha
    split at hf
    · rename_i he; cases hf; exact ⟨he, ha.1⟩
    · rcases Option.or_eq_some_iff.mp hf with h | ⟨_, h⟩
      · exact Regions.find_all h ha.2.1
      · exact Ops.find_all h ha.2.2
theorem Regions.find_all {t : OpId} {c : Head} {P : Head → Prop} : ∀ {rs : Regions}, rs.find t = some c →
    rs.All P → c.id = t ∧ P c
  | .nil, h, _ => by simp [Regions.find] at h
  | .cons ps body rest, hf, ha => by
    simp only [Regions.find] at hf
    simp only [Regions.All] at ha
    rcases Option.or_eq_some_iff.mp hf with h | ⟨_, h⟩
    · exact Ops.find_all h ha.1
    · exact Regions.find_all h ha.2
end

mutual
theorem Ops.all_true : ∀ o : Ops, o.All (fun _ => True)
  | .nil => trivial
  | .cons _ rs rest => ⟨trivial, Regions.all_true rs, Ops.all_true rest⟩
theorem Regions.all_true : ∀ rs : Regions, rs.All (fun _ => True)
  | .nil => trivial
  | .cons _ body rest => ⟨Ops.all_true body, Regions.all_true rest⟩
end

mutual
theorem Ops.All.imp {P Q : Head → Prop} (h : ∀ x, P x → Q x) : ∀ {o : Ops}, o.All P → o.All Q
  | .nil, _ => trivial
  | .cons _ _ _, ha => ⟨h _ ha.1, Regions.All.imp h ha.2.1, Ops.All.imp h ha.2.2⟩
theorem Regions.All.imp {P Q : Head → Prop} (h : ∀ x, P x → Q x) : ∀ {rs : Regions}, rs.All P → rs.All Q
  | .nil, _ => trivial
  | .cons _ _ _, ha => ⟨Ops.All.imp h ha.1, Regions.All.imp h ha.2⟩
end

mutual
theorem Ops.unique {t : OpId} {c : Head} : ∀ {o : Ops}, o.visit.Nodup → o.find t = some c →
    o.All (fun h => h.id = t → h = c)
  | .nil, _, _ => trivial
  | .cons h rs rest, hnd, hf => by
    simp only [Ops.visit] at hnd
    rw [List.nodup_append, List.nodup_cons] at hnd
    simp only [Ops.find] at hf
    split at hf
    · rename_i he; cases hf; subst he
      exact ⟨fun _ => rfl, Regions.all_of_not_mem (fun hm => hnd.2.2 _ hm _ (by simp) rfl),
        Ops.all_of_not_mem hnd.2.1.1⟩
    · rename_i he
      rcases Option.or_eq_some_iff.mp hf with h | ⟨h', h⟩
      · have := Regions.find_mem h
        exact ⟨fun e => absurd e he, Regions.unique hnd.1 h,
          Ops.all_of_not_mem (fun hm => hnd.2.2 _ this _ (by simp [hm]) rfl)⟩
      · exact ⟨fun e => absurd e he, Regions.all_of_not_mem (Regions.find_none h'), Ops.unique hnd.2.1.2 h⟩
theorem Regions.unique {t : OpId} {c : Head} : ∀ {rs : Regions}, rs.visit.Nodup → rs.find t = some c →
    rs.All (fun h => h.id = t → h = c)
  | .nil, _, _ => trivial
  | .cons ps body rest, hnd, hf => by
    simp only [Regions.visit] at hnd
    rw [List.nodup_append] at hnd
    simp only [Regions.find] at hf
    rcases Option.or_eq_some_iff.mp hf with h | ⟨h', h⟩
    · have := Ops.find_mem h
      exact ⟨Ops.unique hnd.1 h, Regions.all_of_not_mem (fun hm => hnd.2.2 _ this _ hm rfl)⟩
    · exact ⟨Ops.all_of_not_mem (Ops.find_none h'), Regions.unique hnd.2.1 h⟩
end

mutual
theorem Ops.find_results {t : OpId} {c : Head} : ∀ {o : Ops}, o.find t = some c →
    c.results.Sublist o.defs
  | .nil, h => by simp [Ops.find] at h
  | .cons h rs rest, hf => by
    simp only [Ops.find] at hf
    simp only [Ops.defs]
    split at hf
    · cases hf; exact (List.sublist_append_left _ _).trans (List.sublist_append_right _ _)
    · rcases Option.or_eq_some_iff.mp hf with h | ⟨_, h⟩
      · exact (Regions.find_results h).trans (List.sublist_append_left _ _)
      · exact ((Ops.find_results h).trans (List.sublist_append_right _ _)).trans (List.sublist_append_right _ _)
theorem Regions.find_results {t : OpId} {c : Head} : ∀ {rs : Regions}, rs.find t = some c →
    c.results.Sublist rs.defs
  | .nil, h => by simp [Regions.find] at h
  | .cons ps body rest, hf => by
    simp only [Regions.find] at hf
    simp only [Regions.defs]
    rcases Option.or_eq_some_iff.mp hf with h | ⟨_, h⟩
    · exact ((Ops.find_results h).trans (List.sublist_append_left _ _)).trans (List.sublist_append_right _ _)
    · exact ((Regions.find_results h).trans (List.sublist_append_right _ _)).trans (List.sublist_append_right _ _)
end

mutual
theorem Ops.avoid_of_disjoint {t : OpId} {results : List Value} : ∀ {o : Ops}, (∀ v ∈ o.defs, v ∉ results) →
    o.Avoid t results
  | .nil, _ => trivial
  | .cons h rs rest, hd => by
    simp only [Ops.defs] at hd
    exact ⟨fun _ r hr => hd r (by simp [hr]), Regions.avoid_of_disjoint fun v hv => hd v (by simp [hv]),
      Ops.avoid_of_disjoint fun v hv => hd v (by simp [hv])⟩
theorem Regions.avoid_of_disjoint {t : OpId} {results : List Value} : ∀ {rs : Regions},
    (∀ v ∈ rs.defs, v ∉ results) → rs.Avoid t results
  | .nil, _ => trivial
  | .cons ps body rest, hd => by
    simp only [Regions.defs] at hd
    exact ⟨fun r hr => hd r (by simp [hr]), Ops.avoid_of_disjoint fun v hv => hd v (by simp [hv]),
      Regions.avoid_of_disjoint fun v hv => hd v (by simp [hv])⟩
end

mutual
theorem Ops.avoid_of_find {t : OpId} {c : Head} : ∀ {o : Ops}, o.defs.Nodup → o.find t = some c →
    o.Avoid t c.results
  | .nil, _, _ => trivial
  | .cons h rs rest, hnd, hf => by
    simp only [Ops.defs] at hnd
    rw [List.nodup_append, List.nodup_append] at hnd
    obtain ⟨h1, ⟨h2, h3, h4⟩, h5⟩ := hnd
    simp only [Ops.find] at hf
    split at hf
    · rename_i he; cases hf
      exact ⟨fun hne => absurd he hne,
        Regions.avoid_of_disjoint fun v hv hm => h5 v hv v (by simp [hm]) rfl,
        Ops.avoid_of_disjoint fun v hv hm => h4 v hm v hv rfl⟩
    · rcases Option.or_eq_some_iff.mp hf with h | ⟨h', h⟩
      · have hs := (Regions.find_results h).subset
        exact ⟨fun _ r hr hm => h5 r (hs hm) r (by simp [hr]) rfl, Regions.avoid_of_find h1 h,
          Ops.avoid_of_disjoint fun v hv hm => h5 v (hs hm) v (by simp [hv]) rfl⟩
      · have hs := (Ops.find_results h).subset
        exact ⟨fun _ r hr hm => h4 r hr r (hs hm) rfl,
          Regions.avoid_of_disjoint fun v hv hm => h5 v hv v (by simp [hs hm]) rfl, Ops.avoid_of_find h3 h⟩
theorem Regions.avoid_of_find {t : OpId} {c : Head} : ∀ {rs : Regions}, rs.defs.Nodup → rs.find t = some c →
    rs.Avoid t c.results
  | .nil, _, _ => trivial
  | .cons ps body rest, hnd, hf => by
    simp only [Regions.defs] at hnd
    rw [List.nodup_append, List.nodup_append] at hnd
    obtain ⟨h1, ⟨h2, h3, h4⟩, h5⟩ := hnd
    simp only [Regions.find] at hf
    rcases Option.or_eq_some_iff.mp hf with h | ⟨h', h⟩
    · have hs := (Ops.find_results h).subset
      exact ⟨fun r hr hm => h5 r hr r (by simp [hs hm]) rfl, Ops.avoid_of_find h2 h,
        Regions.avoid_of_disjoint fun v hv hm => h4 v (hs hm) v hv rfl⟩
    · have hs := (Regions.find_results h).subset
      exact ⟨fun r hr hm => h5 r hr r (by simp [hs hm]) rfl,
        Ops.avoid_of_disjoint fun v hv hm => h4 v hv v (hs hm) rfl, Regions.avoid_of_find h3 h⟩
end

mutual
/-- The operands of an operation are values defined elsewhere. -/
theorem Ops.find_operands {t : OpId} {c : Head} : ∀ {o : Ops} {vis : List Value}, o.Scoped vis → o.defs.Nodup →
    (∀ v ∈ vis, v ∉ o.defs) → o.find t = some c → ∀ v ∈ c.operands, v ∉ c.results ∧ (v ∈ vis ∨ v ∈ o.defs)
  | .nil, _, _, _, _, h, _, _ => by simp [Ops.find] at h
  | .cons h rs rest, vis, hs, hnd, hd, hf, v, hv => by
    simp only [Ops.Scoped] at hs
    simp only [Ops.defs] at hnd hd ⊢
    rw [List.nodup_append, List.nodup_append] at hnd
    obtain ⟨h1, ⟨h2, h3, h4⟩, h5⟩ := hnd
    simp only [Ops.find] at hf
    split at hf
    · cases hf
      have := hs.1 v hv
      exact ⟨fun hm => hd v this (by simp [hm]), Or.inl this⟩
    · rcases Option.or_eq_some_iff.mp hf with h | ⟨h', h⟩
      · have := Regions.find_operands hs.2.1 h1 (fun v hv hm => hd v hv (by simp [hm])) h v hv
        exact ⟨this.1, this.2.imp_right fun h => by simp [h]⟩
      · have := Ops.find_operands hs.2.2 h3 (fun v hv hm => by
          rcases List.mem_append.mp hv with hv | hv
          · exact h4 v hv v hm rfl
          · exact hd v hv (by simp [hm])) h v hv
        refine ⟨this.1, ?_⟩
        rcases this.2 with h | h
        · rcases List.mem_append.mp h with h | h
          · exact Or.inr (by simp [h])
          · exact Or.inl h
        · exact Or.inr (by simp [h])
theorem Regions.find_operands {t : OpId} {c : Head} : ∀ {rs : Regions} {vis : List Value}, rs.Scoped vis →
    rs.defs.Nodup → (∀ v ∈ vis, v ∉ rs.defs) → rs.find t = some c →
    ∀ v ∈ c.operands, v ∉ c.results ∧ (v ∈ vis ∨ v ∈ rs.defs)
  | .nil, _, _, _, _, h, _, _ => by simp [Regions.find] at h
  | .cons ps body rest, vis, hs, hnd, hd, hf, v, hv => by
    simp only [Regions.Scoped] at hs
    simp only [Regions.defs] at hnd hd ⊢
    rw [List.nodup_append, List.nodup_append] at hnd
    obtain ⟨h1, ⟨h2, h3, h4⟩, h5⟩ := hnd
    simp only [Regions.find] at hf
    rcases Option.or_eq_some_iff.mp hf with h | ⟨h', h⟩
    · have := Ops.find_operands hs.1 h2 (fun v hv hm => by
          rcases List.mem_append.mp hv with hv | hv
          · exact h5 v hv v (by simp [hm]) rfl
          · exact hd v hv (by simp [hm])) h v hv
      refine ⟨this.1, ?_⟩
      rcases this.2 with h | h
      · rcases List.mem_append.mp h with h | h
        · exact Or.inr (by simp [h])
        · exact Or.inl h
      · exact Or.inr (by simp [h])
    · have := Regions.find_operands hs.2 h3 (fun v hv hm => hd v hv (by simp [hm])) h v hv
      exact ⟨this.1, this.2.imp_right fun h => by simp [h]⟩
end

/-! ## The blocks of a module as one list of regions -/

/-- The blocks as regions. -/
def ofBlocks : List Block → Regions
  | [] => .nil
  | b :: bs => .cons b.params b.ops (ofBlocks bs)

/-- All blocks of a list of functions. -/
def blocksOf (fs : List Func) : List Block := fs.flatMap fun f => f.body.getD []

theorem ofBlocks_defs : ∀ bs : List Block, (ofBlocks bs).defs = bs.flatMap fun b => b.params ++ b.ops.defs
  | [] => rfl
  | b :: bs => by simp only [ofBlocks, Regions.defs, ofBlocks_defs bs, List.flatMap_cons, List.append_assoc]

theorem ofBlocks_visit : ∀ bs : List Block, (ofBlocks bs).visit = bs.flatMap fun b => b.ops.visit
  | [] => rfl
  | b :: bs => by simp only [ofBlocks, Regions.visit, ofBlocks_visit bs, List.flatMap_cons]

theorem defs_eq (fs : List Func) : fs.flatMap Func.defs = (ofBlocks (blocksOf fs)).defs := by
  rw [ofBlocks_defs, blocksOf, List.flatMap_assoc]; rfl

theorem ids_eq (fs : List Func) : fs.flatMap Func.ids = (ofBlocks (blocksOf fs)).visit := by
  rw [ofBlocks_visit, blocksOf, List.flatMap_assoc]; rfl

theorem ofBlocks_find (t : OpId) : ∀ bs : List Block, (ofBlocks bs).find t = bs.findSome? fun b => b.ops.find t
  | [] => rfl
  | b :: bs => by
    simp only [ofBlocks, Regions.find, ofBlocks_find t bs, List.findSome?_cons]
    cases b.ops.find t <;> rfl

theorem module_find (m : Module) (t : OpId) : m.find t = (ofBlocks (blocksOf m.funcs)).find t := by
  rw [ofBlocks_find]
  unfold Module.find blocksOf
  induction m.funcs with
  | nil => rfl
  | cons f fs ih =>
    rw [List.findSome?_cons, List.flatMap_cons, List.findSome?_append, ← ih]
    cases (f.body.getD []).findSome? fun b => b.ops.find t <;> rfl

theorem ofBlocks_all {P : Head → Prop} : ∀ {bs : List Block}, (ofBlocks bs).All P ↔ ∀ b ∈ bs, b.ops.All P
  | [] => by simp [ofBlocks, Regions.All]
  | b :: bs => by simp [ofBlocks, Regions.All, ofBlocks_all (bs := bs)]

theorem ofBlocks_avoid {t : OpId} {rs : List Value} : ∀ {bs : List Block},
    (ofBlocks bs).Avoid t rs ↔ ∀ b ∈ bs, (∀ p ∈ b.params, p ∉ rs) ∧ b.ops.Avoid t rs
  | [] => by simp [ofBlocks, Regions.Avoid]
  | b :: bs => by simp [ofBlocks, Regions.Avoid, ofBlocks_avoid (bs := bs), and_assoc]

theorem ofBlocks_scoped : ∀ {bs : List Block}, (ofBlocks bs).Scoped [] ↔ ∀ b ∈ bs, b.ops.Scoped b.params
  | [] => by simp [ofBlocks, Regions.Scoped]
  | b :: bs => by simp [ofBlocks, Regions.Scoped, ofBlocks_scoped (bs := bs)]

theorem mem_blocksOf {m : Module} (hwf : WellFormed m) {b : Block} :
    b ∈ blocksOf m.funcs ↔ ∃ f ∈ m.funcs, f.body = some [b] := by
  unfold blocksOf
  rw [List.mem_flatMap]
  constructor
  · rintro ⟨f, hf, hb⟩
    rcases hwf.single f hf with h | ⟨b', h⟩
    · rw [h] at hb; simp at hb
    · rw [h] at hb
      simp only [Option.getD_some, List.mem_singleton] at hb
      subst hb; exact ⟨f, hf, h⟩
  · rintro ⟨f, hf, hb⟩
    exact ⟨f, hf, by rw [hb]; simp⟩

/-- Everything needed about a block of a well-formed module. -/
theorem block_facts {m : Module} (hwf : WellFormed m) {f : Func} (hf : f ∈ m.funcs) {b : Block}
    (hb : f.body = some [b]) : (b.params ++ b.ops.defs).Nodup ∧ (∀ v ∈ b.params ++ b.ops.defs, v < m.arena.value) ∧
      b.ops.visit.Nodup ∧ b.ops.Scoped b.params := by
  have hdef : f.defs = b.params ++ b.ops.defs := by simp [Func.defs, hb]
  have hids : f.ids = b.ops.visit := by simp [Func.ids, hb]
  refine ⟨?_, fun v hv => hwf.values v (List.mem_flatMap.mpr ⟨f, hf, hdef ▸ hv⟩), ?_, hwf.visible f hf b hb⟩
  · rw [← hdef]
    exact (List.nodup_flatMap.mp hwf.defs).1 f hf
  · rw [← hids]
    exact (List.nodup_flatMap.mp hwf.ids).1 f hf

/-- Everything needed about an operation of a well-formed module. -/
theorem call_facts {m : Module} (hwf : WellFormed m) {t : OpId} {call : Head} (hf : m.find t = some call) :
    call.id = t ∧ (∀ b ∈ blocksOf m.funcs, b.ops.All (fun h => h.id = t → h = call)) ∧
    (∀ b ∈ blocksOf m.funcs, (∀ p ∈ b.params, p ∉ call.results) ∧ b.ops.Avoid t call.results) ∧
    (∀ v ∈ call.operands, v < m.arena.value ∧ v ∉ call.results) ∧
    (∀ v ∈ call.results, v < m.arena.value) ∧ call.results.Nodup := by
  rw [module_find] at hf
  have hd := hwf.defs
  have hv := hwf.values
  have hi := hwf.ids
  rw [defs_eq] at hd hv
  rw [ids_eq] at hi
  have hs : (ofBlocks (blocksOf m.funcs)).Scoped [] := by
    rw [ofBlocks_scoped]
    intro b hb
    obtain ⟨f, hf, h⟩ := (mem_blocksOf hwf).mp hb
    exact hwf.visible f hf b h
  have hsub := Regions.find_results hf
  refine ⟨(Regions.find_all hf (Regions.all_true _)).1, ofBlocks_all.mp (Regions.unique hi hf),
    ofBlocks_avoid.mp (Regions.avoid_of_find hd hf), fun v hm => ?_, fun v hm => hv v (hsub.subset hm), hd.sublist hsub⟩
  have := Regions.find_operands hs hd (by simp) hf v hm
  exact ⟨hv v (this.2.resolve_left (by simp)), this.1⟩

/-! ## The transformed module -/

/-- The code put in place of the call, and the renaming of its results. -/
def Replaced (arena : Arena) (call : Head) (entry : Block) (body : Ops) (last : Head) (N : Ops) (ρ : Value → Value)
    (arena' : Arena) : Prop :=
  let r := cloneOps (startState entry call.operands arena) body
  (∃ c, call.kind = .call c ∧ N = r.1 ∧ ρ = renameAll (call.results.zip (last.operands.map r.2.mapping.find)) ∧
    arena' = r.2.arena) ∨
  (∃ c, call.kind = .tailCall c ∧
    N = r.1.append (.cons ⟨r.2.arena.op, .ret, last.operands.map r.2.mapping.find, []⟩ .nil .nil) ∧ ρ = id ∧
    arena' = ⟨r.2.arena.value, r.2.arena.op + 1⟩)

/-- What a successful inlining did. -/
theorem inlineSingle_ok {m m' : Module} {t : OpId} {g : Func} (h : inlineSingle m t g = .ok m') :
    ∃ call entry body last N ρ, m.find t = some call ∧ g.body = some [entry] ∧
      entry.params.length = call.operands.length ∧ entry.ops.splitLast = some (body, last) ∧ last.kind = .ret ∧
      Replaced m.arena call entry body last N ρ m'.arena ∧
      m'.funcs = m.funcs.map (Func.mapOps fun o => (Ops.splice t N o).rename ρ) := by
  unfold inlineSingle at h
  cases hf : m.find t with
  | none => rw [hf] at h; cases h
  | some call =>
    rw [hf] at h
    simp only at h
    cases hsp : spliceCalleeBody m.arena call g with
    | error e => rw [hsp] at h; cases h
    | ok sp =>
      rw [hsp] at h
      simp only at h
      unfold spliceCalleeBody at hsp
      split at hsp
      · cases hsp
      · rename_i hcall
        split at hsp
        · cases hsp
        · cases hsp
        · cases hsp
        · rename_i entry hbody
          split at hsp
          · cases hsp
          · rename_i hlen
            rw [Decidable.not_not] at hlen
            cases hsl : entry.ops.splitLast with
            | none => rw [hsl] at hsp; cases hsp
            | some bl =>
              obtain ⟨body, last⟩ := bl
              rw [hsl] at hsp
              simp only at hsp
              split at hsp
              · cases hsp
              · rename_i hret
                rw [Decidable.not_not] at hret
                cases hsp
                cases hk : call.kind with
                | call c =>
                  rw [hk] at h
                  simp only [Kind.isTail, Bool.false_eq_true, if_false, Except.ok.injEq] at h
                  subst h
                  refine ⟨call, entry, body, last, _, _, rfl, hbody, hlen, hsl, hret,
                    Or.inl ⟨c, hk, rfl, rfl, rfl⟩, ?_⟩
                  simp only [replaceAll_eq]
                  rfl
                | tailCall c =>
                  rw [hk] at h
                  simp only [Kind.isTail, if_true, Except.ok.injEq] at h
                  subst h
                  refine ⟨call, entry, body, last, _, _, rfl, hbody, hlen, hsl, hret,
                    Or.inr ⟨c, hk, rfl, rfl, rfl⟩, ?_⟩
                  simp only [Ops.rename_id]
                  rfl
                | tailCallIndirect => simp [hk, Kind.isCall] at hcall
                | ret => simp [hk, Kind.isCall] at hcall
                | leave n => simp [hk, Kind.isCall] at hcall
                | constant c => simp [hk, Kind.isCall] at hcall
                | other n => simp [hk, Kind.isCall] at hcall

theorem lastNamed_map {T : Ops → Ops} {fs : List Func} {g : Sym} :
    lastNamed (fs.map (Func.mapOps T)) g = (lastNamed fs g).map (Func.mapOps T) := by
  unfold lastNamed
  rw [← List.map_reverse, List.find?_map]
  rfl

theorem lastNamed_mem {fs : List Func} {g : Sym} {f : Func} (h : lastNamed fs g = some f) :
    f ∈ fs ∧ f.name = g := by
  unfold lastNamed at h
  refine ⟨by simpa using List.mem_of_find?_eq_some h, ?_⟩
  have := List.find?_some h
  simpa using this

/-- A function of the transformed module does what the original does when the callee is run in place of the
call. -/
theorem transformed_run (S : Sem V W σ) {k : Nat} {F F' : Oracle V W} {m : Module} (hwf : WellFormed m)
    {t : OpId} {call : Head} {N : Ops} {ρ : Value → Value}
    (hfind : m.find t = some call) (hsite : Site S k F F' call m.arena.value N ρ) {f : Func} (hf : f ∈ m.funcs)
    (args : List V) (w : W) :
    f.run S F k args w = (f.mapOps fun o => (Ops.splice t N o).rename ρ).run S F' k args w := by
  obtain ⟨hid, huniq, havoid, hops, hres, hnd⟩ := call_facts hwf hfind
  subst hid
  unfold Func.run Func.mapOps
  rcases hwf.single f hf with h | ⟨b, h⟩
  · simp [h]
  · obtain ⟨h1, h2, h3, h4⟩ := block_facts hwf hf h
    have hb : b ∈ blocksOf m.funcs := (mem_blocksOf hwf).mpr ⟨f, hf, h⟩
    simp only [h, Option.map_some, List.map_cons, List.map_nil, Block.run]
    by_cases hl : b.params.length = args.length
    · rw [if_pos hl, if_pos hl]
      rw [List.nodup_append] at h1
      have hrel := caller_run S hsite b.ops b.params (Env.bind (fun _ => none) b.params args)
        (Env.bind (fun _ => none) b.params args) w h4
        ⟨h1.2.1, fun v hv => h2 v (by simp [hv]), fun v hv => by
            rw [hsite.same v ((havoid b hb).1 v hv)]
            exact fun hm => h1.2.2 v hv v hm rfl,
          fun _ v hv => ⟨(havoid b hb).1 v hv, h2 v (by simp [hv])⟩, h3⟩
        (huniq b hb) (havoid b hb).2 (fun v hv => ?_)
      · generalize b.ops.run S F k (Env.bind (fun _ => none) b.params args) w = x at hrel ⊢
        generalize ((Ops.splice call.id N b.ops).rename ρ).run S F' k (Env.bind (fun _ => none) b.params args) w = y
          at hrel ⊢
        cases hrel <;> rfl
      · rw [hsite.same v ((havoid b hb).1 v hv)]
        exact ⟨rfl, bind_defined (vis := []) hl (by simp) v (by simpa using hv)⟩
    · rw [if_neg hl, if_neg hl]

/-- The site of a call in a well-formed module. -/
theorem site_of {m : Module} (hwf : WellFormed m) {t : OpId} {call : Head} {g : Func} {gname : Sym}
    (hfind : m.find t = some call) (hcallee : call.kind.callee = some gname) (hg : lastNamed m.funcs gname = some g)
    {entry : Block} {body : Ops} {last : Head} {N : Ops} {ρ : Value → Value} {arena' : Arena}
    (hbody : g.body = some [entry]) (hlen : entry.params.length = call.operands.length)
    (hsl : entry.ops.splitLast = some (body, last)) (hret : last.kind = .ret)
    (hrep : Replaced m.arena call entry body last N ρ arena') (S : Sem V W σ)
    (c : Sym → List V → W → Option (Result V W)) (k : Nat) :
    (∃ rs, Callee entry body last rs) ∧
    Site S k (siteOracle S c k call.id gname entry) (fun _ => c) call m.arena.value N ρ := by
  obtain ⟨hid, huniq, havoid, hops, hres, hnd⟩ := call_facts hwf hfind
  have hgm := (lastNamed_mem hg).1
  obtain ⟨h1, h2, h3, h4⟩ := block_facts hwf hgm hbody
  obtain ⟨rs, happ⟩ := splitLast_append hsl
  have hcal : Callee entry body last rs :=
    ⟨happ, hret, h4, h1, (hwf.noEarly g hgm entry hbody body last hsl).2 (Or.inl hret)⟩
  refine ⟨⟨rs, hcal⟩, ?_⟩
  have htyped : ∃ f ∈ m.funcs, Typed m.funcs f.results call := by
    rw [module_find] at hfind
    have hall : (ofBlocks (blocksOf m.funcs)).All (fun h => ∃ f ∈ m.funcs, Typed m.funcs f.results h) := by
      rw [ofBlocks_all]
      intro b hb
      obtain ⟨f, hf, hfb⟩ := (mem_blocksOf hwf).mp hb
      exact (hwf.typed f hf b hfb).imp fun h ht => ⟨f, hf, ht⟩
    exact (Regions.find_all hfind hall).2
  have hlast : last.operands.length = g.results := by
    have := hwf.typed g hgm entry hbody
    rw [happ, Ops.all_append] at this
    have := this.2.1
    rw [Typed, hret] at this
    exact this
  obtain ⟨f, hf, ht⟩ := htyped
  rcases hrep with ⟨cc, hk, rfl, rfl, _⟩ | ⟨cc, hk, rfl, rfl, _⟩
  · have hcc : cc = some gname := by simpa [Kind.callee, hk] using hcallee
    subst hcc
    rw [Typed, hk] at ht
    exact hcal.site_call S c k m.arena hk hlen hops hres hnd ((ht g hg).trans hlast.symm)
  · have hcc : cc = some gname := by simpa [Kind.callee, hk] using hcallee
    subst hcc
    rw [Typed, hk] at ht
    exact hcal.site_tail S c k m.arena hk hlen (fun v hv => (hops v hv).1) rfl rfl ht.1

/-- Inlining a call preserves what every function does. -/
theorem inline_runs (S : Sem V W σ) {m m' : Module} (hwf : WellFormed m) {t : OpId} {g : Func} {call : Head}
    {gname : Sym} (hfind : m.find t = some call) (hcallee : call.kind.callee = some gname)
    (hg : lastNamed m.funcs gname = some g) (hok : inlineSingle m t g = .ok m') (f : Sym) (args : List V) (w : W)
    (r : Result V W) : Runs S m f args w r ↔ Runs S m' f args w r := by
  obtain ⟨call', entry, body, last, N, ρ, h1, h2, h3, h4, h5, h6, h7⟩ := inlineSingle_ok hok
  rw [hfind, Option.some.injEq] at h1; subst h1
  have hid := (call_facts hwf hfind).1
  have hkind : call.kind = .call (some gname) ∨ call.kind = .tailCall (some gname) := by
    cases hk : call.kind <;> simp_all [Kind.callee]
  have hsite := fun (c : Sym → List V → W → Option (Result V W)) (k : Nat) =>
    (site_of hwf hfind hcallee hg h2 h3 h4 h5 h6 S c k).2
  have hgrun : ∀ (F : Oracle V W) k args w, g.run S F k args w = entry.run S F k args w := by
    intro F k args w; unfold Func.run; rw [h2]
  have hone : ∀ (c : Sym → List V → W → Option (Result V W)) k (f : Func), f ∈ m.funcs → ∀ args w,
      f.run S (siteOracle S c k t gname entry) k args w =
        (f.mapOps fun o => (Ops.splice t N o).rename ρ).run S (fun _ => c) k args w := by
    intro c k f hf args w
    exact transformed_run S hwf hfind (hid ▸ hsite c k) hf args w
  have hgev : ∀ n args w, evalFn S m (n + 1) gname args w = entry.run S (fun _ => evalFn S m n) n args w := by
    intro n args w; simp only [evalFn, hg]; exact hgrun _ _ _ _
  have hmono : ∀ {c c' : Sym → List V → W → Option (Result V W)} {k k' : Nat},
      (∀ g a w, Le (c g a w) (c' g a w)) → k ≤ k' → ∀ args w,
      Le (entry.run S (fun _ => c) k args w) (entry.run S (fun _ => c') k' args w) := by
    intro c c' k k' hc hk args w
    rw [← hgrun, ← hgrun]
    exact Func.run_mono S (fun _ => hc) hk g args w
  have hev' : ∀ n f args w, evalFn S m' (n + 1) f args w = match lastNamed m.funcs f with
      | none => some (S.extern f args w)
      | some fd => fd.run S (siteOracle S (evalFn S m' n) n t gname entry) n args w := by
    intro n f args w
    simp only [evalFn]
    rw [h7, lastNamed_map]
    cases hl : lastNamed m.funcs f with
    | none => rfl
    | some fd => simp only [Option.map_some]; exact (hone _ n fd (lastNamed_mem hl).1 args w).symm
  have hfwd : ∀ n f args w, Le (evalFn S m n f args w) (evalFn S m' n f args w) := by
    intro n
    induction n with
    | zero => intro f args w r h; simp [evalFn] at h
    | succ n ih =>
      intro f args w
      rw [hev']
      simp only [evalFn]
      cases hl : lastNamed m.funcs f with
      | none => exact Le.refl _
      | some fd =>
        refine Func.run_mono S (fun i g' a w => ?_) (Nat.le_refl n) fd args w
        unfold siteOracle
        split
        · rename_i hs
          rw [hs.2]
          cases n with
          | zero => intro r h; simp [evalFn] at h
          | succ j =>
            rw [hgev]
            exact hmono (fun g a w => (evalFn_mono S m j (j + 1) (by omega) g a w).trans (ih g a w)) (by omega) a w
        · exact ih g' a w
  have hbwd : ∀ n f args w, Le (evalFn S m' n f args w) (evalFn S m (2 * n) f args w) := by
    intro n
    induction n with
    | zero => intro f args w r h; simp [evalFn] at h
    | succ n ih =>
      intro f args w
      rw [hev', show 2 * (n + 1) = (2 * n + 1) + 1 by omega, evalFn]
      cases hl : lastNamed m.funcs f with
      | none => exact Le.refl _
      | some fd =>
        refine Func.run_mono S (fun i g' a w => ?_) (by omega) fd args w
        unfold siteOracle
        split
        · rename_i hs
          rw [hs.2, hgev]
          exact hmono ih (by omega) a w
        · exact (ih g' a w).trans (evalFn_mono S m _ _ (by omega) g' a w)
  exact ⟨fun ⟨n, h⟩ => ⟨n, hfwd n f args w r h⟩, fun ⟨n, h⟩ => ⟨2 * n, hbwd n f args w r h⟩⟩

end Verif.Inline
