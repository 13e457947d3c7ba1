import Verif.Inline.Wf
import Verif.CallGraph.Props
import Mathlib.Data.Fintype.Defs
import Mathlib.Order.WellFounded
import Mathlib.Data.Set.Finite.Basic
/-!
# Recursive functions, and termination of the pass
-/
namespace Verif.Inline
open Relation

/-! ## Kinds of operations -/

theorem Ops.kinds_append (b : Ops) : ∀ a : Ops, (a.append b).kinds = a.kinds ++ b.kinds
  | .nil => rfl
  | .cons h rs rest => by simp only [Ops.append, Ops.kinds, Ops.kinds_append b rest, List.append_assoc, List.cons_append]

mutual
theorem Ops.kinds_rename (ρ : Value → Value) : ∀ o : Ops, (o.rename ρ).kinds = o.kinds
  | .nil => rfl
  | .cons h rs rest => by simp only [Ops.rename, Ops.kinds, Regions.kinds_rename ρ rs, Ops.kinds_rename ρ rest]
theorem Regions.kinds_rename (ρ : Value → Value) : ∀ rs : Regions, (rs.rename ρ).kinds = rs.kinds
  | .nil => rfl
  | .cons ps body rest => by
    simp only [Regions.rename, Regions.kinds, Ops.kinds_rename ρ body, Regions.kinds_rename ρ rest]
end

mutual
theorem clone_kinds : ∀ (o : Ops) (s : Cloning), (cloneOps s o).1.kinds = o.kinds
  | .nil, _ => rfl
  | .cons h rs rest, s => by
    simp only [cloneOps, Ops.kinds, clone_kinds_regions rs, clone_kinds rest]
theorem clone_kinds_regions : ∀ (rs : Regions) (s : Cloning), (cloneRegions s rs).1.kinds = rs.kinds
  | .nil, _ => rfl
  | .cons ps body rest, s => by
    simp only [cloneRegions, Regions.kinds, clone_kinds body, clone_kinds_regions rest]
end

mutual
theorem clone_flat : ∀ {o : Ops} {s : Cloning}, o.FlatCalls → (cloneOps s o).1.FlatCalls
  | .nil, _, _ => trivial
  | .cons h rs rest, s, hf => by
    simp only [cloneOps, Ops.FlatCalls]
    refine ⟨fun hc => ?_, clone_flat_regions hf.2.1, clone_flat hf.2.2⟩
    rw [hf.1 hc]; rfl
theorem clone_flat_regions : ∀ {rs : Regions} {s : Cloning}, rs.FlatCalls → (cloneRegions s rs).1.FlatCalls
  | .nil, _, _ => trivial
  | .cons ps body rest, s, hf => by
    simp only [cloneRegions, Regions.FlatCalls]
    exact ⟨clone_flat hf.1, clone_flat_regions hf.2⟩
end

theorem Ops.flat_append {b : Ops} : ∀ {a : Ops}, (a.append b).FlatCalls ↔ a.FlatCalls ∧ b.FlatCalls
  | .nil => by simp [Ops.append, Ops.FlatCalls]
  | .cons h rs rest => by simp only [Ops.append, Ops.FlatCalls, Ops.flat_append (a := rest), and_assoc]

mutual
theorem Ops.flat_rename {ρ : Value → Value} : ∀ {o : Ops}, o.FlatCalls → (o.rename ρ).FlatCalls
  | .nil, _ => trivial
  | .cons h rs rest, hf => by
    simp only [Ops.rename, Ops.FlatCalls]
    exact ⟨fun hc => by rw [hf.1 hc]; rfl, Regions.flat_rename hf.2.1, Ops.flat_rename hf.2.2⟩
theorem Regions.flat_rename {ρ : Value → Value} : ∀ {rs : Regions}, rs.FlatCalls → (rs.rename ρ).FlatCalls
  | .nil, _ => trivial
  | .cons ps body rest, hf => ⟨Ops.flat_rename hf.1, Regions.flat_rename hf.2⟩
end

mutual
theorem Ops.flat_splice {t : OpId} {N : Ops} (hN : N.FlatCalls) : ∀ {o : Ops}, o.FlatCalls →
    (Ops.splice t N o).FlatCalls
  | .nil, _ => trivial
  | .cons h rs rest, hf => by
    simp only [Ops.splice]
    split
    · exact Ops.flat_append.mpr ⟨hN, Ops.flat_splice hN hf.2.2⟩
    · exact ⟨fun hc => by rw [hf.1 hc]; rfl, Regions.flat_splice hN hf.2.1, Ops.flat_splice hN hf.2.2⟩
theorem Regions.flat_splice {t : OpId} {N : Ops} (hN : N.FlatCalls) : ∀ {rs : Regions}, rs.FlatCalls →
    (Regions.splice t N rs).FlatCalls
  | .nil, _ => trivial
  | .cons ps body rest, hf => ⟨Ops.flat_splice hN hf.1, Regions.flat_splice hN hf.2⟩
end

/-! ## Kinds after splicing -/

mutual
theorem Ops.splice_kinds {t : OpId} {N : Ops} {k : Kind} : ∀ {o : Ops}, k ∈ (Ops.splice t N o).kinds →
    k ∈ o.kinds ∨ (t ∈ o.visit ∧ k ∈ N.kinds)
  | .nil, h => by simp [Ops.splice, Ops.kinds] at h
  | .cons h rs rest, hk => by
    simp only [Ops.splice] at hk
    simp only [Ops.kinds, Ops.visit, List.mem_cons, List.mem_append]
    split at hk
    · rename_i he
      rw [Ops.kinds_append, List.mem_append] at hk
      rcases hk with hk | hk
      · exact Or.inr ⟨Or.inr (Or.inl he.symm), hk⟩
      · rcases Ops.splice_kinds hk with h | h
        · exact Or.inl (Or.inr (Or.inr h))
        · exact Or.inr ⟨Or.inr (Or.inr h.1), h.2⟩
    · simp only [Ops.kinds, List.mem_cons, List.mem_append] at hk
      rcases hk with hk | hk | hk
      · exact Or.inl (Or.inl hk)
      · rcases Regions.splice_kinds hk with h | h
        · exact Or.inl (Or.inr (Or.inl h))
        · exact Or.inr ⟨Or.inl h.1, h.2⟩
      · rcases Ops.splice_kinds hk with h | h
        · exact Or.inl (Or.inr (Or.inr h))
        · exact Or.inr ⟨Or.inr (Or.inr h.1), h.2⟩
theorem Regions.splice_kinds {t : OpId} {N : Ops} {k : Kind} : ∀ {rs : Regions}, k ∈ (Regions.splice t N rs).kinds →
    k ∈ rs.kinds ∨ (t ∈ rs.visit ∧ k ∈ N.kinds)
  | .nil, h => by simp [Regions.splice, Regions.kinds] at h
  | .cons ps body rest, hk => by
    simp only [Regions.splice, Regions.kinds, List.mem_append] at hk
    simp only [Regions.kinds, Regions.visit, List.mem_append]
    rcases hk with hk | hk
    · rcases Ops.splice_kinds hk with h | h
      · exact Or.inl (Or.inl h)
      · exact Or.inr ⟨Or.inl h.1, h.2⟩
    · rcases Regions.splice_kinds hk with h | h
      · exact Or.inl (Or.inr h)
      · exact Or.inr ⟨Or.inr h.1, h.2⟩
end

mutual
theorem Ops.splice_kinds_keep {t : OpId} {N : Ops} {call : Head} {k : Kind} (hc : call.kind.isCall = true)
    (hne : k ≠ call.kind) : ∀ {o : Ops}, o.FlatCalls → o.All (fun h => h.id = t → h = call) → k ∈ o.kinds →
    k ∈ (Ops.splice t N o).kinds
  | .nil, _, _, h => by simp [Ops.kinds] at h
  | .cons h rs rest, hf, hu, hk => by
    simp only [Ops.splice]
    simp only [Ops.kinds, List.mem_cons, List.mem_append] at hk
    split
    · rename_i he
      obtain rfl := hu.1 he
      rw [Ops.kinds_append, List.mem_append]
      rw [hf.1 hc] at hk
      rcases hk with hk | hk | hk
      · exact absurd hk hne
      · simp [Regions.kinds] at hk
      · exact Or.inr (Ops.splice_kinds_keep hc hne hf.2.2 hu.2.2 hk)
    · simp only [Ops.kinds, List.mem_cons, List.mem_append]
      rcases hk with hk | hk | hk
      · exact Or.inl hk
      · exact Or.inr (Or.inl (Regions.splice_kinds_keep hc hne hf.2.1 hu.2.1 hk))
      · exact Or.inr (Or.inr (Ops.splice_kinds_keep hc hne hf.2.2 hu.2.2 hk))
theorem Regions.splice_kinds_keep {t : OpId} {N : Ops} {call : Head} {k : Kind} (hc : call.kind.isCall = true)
    (hne : k ≠ call.kind) : ∀ {rs : Regions}, rs.FlatCalls → rs.All (fun h => h.id = t → h = call) → k ∈ rs.kinds →
    k ∈ (Regions.splice t N rs).kinds
  | .nil, _, _, h => by simp [Regions.kinds] at h
  | .cons ps body rest, hf, hu, hk => by
    simp only [Regions.kinds, List.mem_append] at hk
    simp only [Regions.splice, Regions.kinds, List.mem_append]
    exact hk.imp (Ops.splice_kinds_keep hc hne hf.1 hu.1) (Regions.splice_kinds_keep hc hne hf.2 hu.2)
end

mutual
theorem Ops.splice_cost {t : OpId} {N : Ops} {call : Head} (p : Kind → Nat) (hc : call.kind.isCall = true) :
    ∀ {o : Ops}, o.FlatCalls → o.All (fun h => h.id = t → h = call) →
    ((Ops.splice t N o).kinds.map p).sum + o.visit.count t * p call.kind =
      (o.kinds.map p).sum + o.visit.count t * (N.kinds.map p).sum
  | .nil, _, _ => by simp [Ops.splice, Ops.kinds, Ops.visit]
  | .cons h rs rest, hf, hu => by
    have ih1 := Regions.splice_cost (N := N) p hc hf.2.1 hu.2.1
    have ih2 := Ops.splice_cost (N := N) p hc hf.2.2 hu.2.2
    simp only [Ops.splice]
    split
    · rename_i he
      obtain rfl := hu.1 he
      rw [Ops.kinds_append]
      rw [hf.1 hc]
      simp only [Ops.kinds, Ops.visit, Regions.kinds, Regions.visit, List.nil_append, List.map_append, List.map_cons,
        List.sum_append, List.sum_cons, he, List.count_cons_self, Nat.add_mul, Nat.one_mul]
      omega
    · rename_i he
      simp only [Ops.kinds, Ops.visit, List.map_append, List.map_cons,
        List.sum_append, List.sum_cons, List.count_append, List.count_cons_of_ne he, Nat.add_mul]
      omega
theorem Regions.splice_cost {t : OpId} {N : Ops} {call : Head} (p : Kind → Nat) (hc : call.kind.isCall = true) :
    ∀ {rs : Regions}, rs.FlatCalls → rs.All (fun h => h.id = t → h = call) →
    ((Regions.splice t N rs).kinds.map p).sum + rs.visit.count t * p call.kind =
      (rs.kinds.map p).sum + rs.visit.count t * (N.kinds.map p).sum
  | .nil, _, _ => by simp [Regions.splice, Regions.kinds, Regions.visit]
  | .cons ps body rest, hf, hu => by
    have ih1 := Ops.splice_cost (N := N) p hc hf.1 hu.1
    have ih2 := Regions.splice_cost (N := N) p hc hf.2 hu.2
    simp only [Regions.splice, Regions.kinds, Regions.visit, List.map_append, List.sum_append, List.count_append,
      Nat.add_mul]
    omega
end

mutual
theorem Ops.mem_kinds {t : OpId} {call : Head} : ∀ {o : Ops}, o.All (fun h => h.id = t → h = call) → t ∈ o.visit →
    call.kind ∈ o.kinds
  | .nil, _, h => by simp [Ops.visit] at h
  | .cons h rs rest, hu, ht => by
    simp only [Ops.visit, List.mem_append, List.mem_cons] at ht
    simp only [Ops.kinds, List.mem_append, List.mem_cons]
    rcases ht with ht | ht | ht
    · exact Or.inr (Or.inl (Regions.mem_kinds hu.2.1 ht))
    · exact Or.inl (by rw [hu.1 ht.symm])
    · exact Or.inr (Or.inr (Ops.mem_kinds hu.2.2 ht))
theorem Regions.mem_kinds {t : OpId} {call : Head} : ∀ {rs : Regions}, rs.All (fun h => h.id = t → h = call) →
    t ∈ rs.visit → call.kind ∈ rs.kinds
  | .nil, _, h => by simp [Regions.visit] at h
  | .cons ps body rest, hu, ht => by
    simp only [Regions.visit, List.mem_append] at ht
    simp only [Regions.kinds, List.mem_append]
    exact ht.imp (Ops.mem_kinds hu.1) (Regions.mem_kinds hu.2)
end

/-! ## The module after one step -/

/-- What one step of inlining does to a numbered module. -/
structure Stepped (m m' : Module) (t : OpId) (g : Func) (call : Head) (N : Ops) : Prop where
  uniq : (ofBlocks (blocksOf m.funcs)).All (fun h => h.id = t → h = call)
  once : (ofBlocks (blocksOf m.funcs)).visit.count t = 1
  isCall : call.kind.isCall = true
  kinds : ∀ k ∈ N.kinds, k = .ret ∨ k ∈ g.kinds
  cost : ∀ p : Kind → Nat, p .ret = 0 → (N.kinds.map p).sum ≤ (g.kinds.map p).sum
  funcs : ∃ ρ, m'.funcs = m.funcs.map (Func.mapOps fun o => (Ops.splice t N o).rename ρ)
  numbered : Numbered m'

theorem flat_ofBlocks : ∀ {bs : List Block}, (ofBlocks bs).FlatCalls ↔ ∀ b ∈ bs, b.ops.FlatCalls
  | [] => by simp [ofBlocks, Regions.FlatCalls]
  | b :: bs => by simp [ofBlocks, Regions.FlatCalls, flat_ofBlocks (bs := bs)]

theorem kinds_ofBlocks : ∀ bs : List Block, (ofBlocks bs).kinds = bs.flatMap fun b => b.ops.kinds
  | [] => rfl
  | b :: bs => by simp only [ofBlocks, Regions.kinds, kinds_ofBlocks bs, List.flatMap_cons]

theorem func_kinds (f : Func) : f.kinds = (ofBlocks (f.body.getD [])).kinds := by
  rw [kinds_ofBlocks]; rfl

theorem func_ids (f : Func) : f.ids = (ofBlocks (f.body.getD [])).visit := by
  rw [ofBlocks_visit]; rfl

theorem kinds_eq (fs : List Func) : fs.flatMap Func.kinds = (ofBlocks (blocksOf fs)).kinds := by
  rw [kinds_ofBlocks, blocksOf, List.flatMap_assoc]; rfl

theorem Numbered.flatAll {m : Module} (h : Numbered m) : (ofBlocks (blocksOf m.funcs)).FlatCalls := by
  rw [flat_ofBlocks]
  intro b hb
  obtain ⟨f, hf, hb⟩ := List.mem_flatMap.mp hb
  exact h.flat f hf b hb

theorem mapOps_ofBlocks (t : OpId) (N : Ops) (ρ : Value → Value) (f : Func) :
    ofBlocks ((f.mapOps fun o => (Ops.splice t N o).rename ρ).body.getD []) =
      (Regions.splice t N (ofBlocks (f.body.getD []))).rename ρ := by
  rw [← ofBlocks_map]
  unfold Func.mapOps
  cases f.body <;> rfl

theorem stepped {m m' : Module} (hn : Numbered m) {t : OpId} {g : Func} (hgm : g ∈ m.funcs)
    (hok : inlineSingle m t g = .ok m') : ∃ call N, m.find t = some call ∧ Stepped m m' t g call N := by
  obtain ⟨call, entry, body, last, N, ρ, h1, h2, h3, h4, h5, h6, h7⟩ := inlineSingle_ok hok
  have hids := hn.ids
  rw [ids_eq] at hids
  have hops := hn.ops
  rw [ids_eq] at hops
  have hfind := h1
  rw [module_find] at hfind
  have hcv := cloneOps_visit body (startState entry call.operands m.arena)
  have hNids : ∃ n, N.visit = List.range' m.arena.op n ∧ m'.arena.op = m.arena.op + n := by
    rcases h6 with ⟨c, hk, rfl, rfl, ha⟩ | ⟨c, hk, rfl, rfl, ha⟩
    · exact ⟨_, hcv.1, by rw [ha]; exact hcv.2⟩
    · refine ⟨body.visit.length + 1, ?_, ?_⟩
      · rw [Ops.visit_append, hcv.1, List.range'_concat]
        simp only [Ops.visit, Regions.visit, List.nil_append, hcv.2, Nat.one_mul]
        rfl
      · rw [ha]; simp only [hcv.2]; rfl
  obtain ⟨rs, happ⟩ := splitLast_append h4
  have hgk : g.kinds = body.kinds ++ (.ret :: rs.kinds) := by
    simp [Func.kinds, h2, happ, Ops.kinds_append, Ops.kinds, h5]
  have hNk : N.kinds = body.kinds ∨ N.kinds = body.kinds ++ [.ret] := by
    rcases h6 with ⟨c, hk, rfl, rfl, ha⟩ | ⟨c, hk, rfl, rfl, ha⟩
    · exact Or.inl (clone_kinds _ _)
    · exact Or.inr (by rw [Ops.kinds_append, clone_kinds]; rfl)
  have hcall : call.kind.isCall = true := by
    rcases h6 with ⟨c, hk, _⟩ | ⟨c, hk, _⟩ <;> rw [hk] <;> rfl
  have hgflat := hn.flat g hgm entry (by simp [h2])
  rw [happ, Ops.flat_append] at hgflat
  have hNf : N.FlatCalls := by
    rcases h6 with ⟨c, hk, rfl, rfl, ha⟩ | ⟨c, hk, rfl, rfl, ha⟩
    · exact clone_flat hgflat.1
    · exact Ops.flat_append.mpr ⟨clone_flat hgflat.1, fun _ => rfl, trivial, trivial⟩
  have honce : (ofBlocks (blocksOf m.funcs)).visit.count t = 1 :=
    List.count_eq_one_of_mem hids (Regions.find_mem hfind)
  refine ⟨call, N, h1, Regions.unique hids hfind, honce, hcall, ?_, ?_, ⟨ρ, h7⟩, ?_⟩
  · intro k hk
    rw [hgk]
    rcases hNk with h | h <;> rw [h] at hk <;> simp at hk ⊢ <;> tauto
  · intro p hp
    rw [hgk]
    rcases hNk with h | h <;> rw [h] <;> simp [hp]
  · obtain ⟨nid, hNids1, hNids2⟩ := hNids
    have hile : ∀ v, (ofBlocks (blocksOf m'.funcs)).visit.count v ≤
        (ofBlocks (blocksOf m.funcs)).visit.count v + N.visit.count v := by
      intro v
      have hRnew : ofBlocks (blocksOf m'.funcs) = (Regions.splice t N (ofBlocks (blocksOf m.funcs))).rename ρ := by
        rw [h7, blocksOf_map]
        exact ofBlocks_map t N ρ _
      rw [hRnew, Regions.rename_visit]
      refine Nat.le_trans (Regions.splice_visit v _) ?_
      rw [honce]; simp
    constructor
    · rw [ids_eq, List.nodup_iff_count_le_one]
      intro v
      refine Nat.le_trans (hile v) ?_
      have h1 : (ofBlocks (blocksOf m.funcs)).visit.count v ≤ 1 := List.nodup_iff_count_le_one.mp hids v
      rw [hNids1]
      by_cases hm : v ∈ (ofBlocks (blocksOf m.funcs)).visit
      · rw [List.count_eq_zero (l := List.range' _ _) |>.mpr]
        · exact h1
        · intro hr
          exact absurd (hops v hm) (Nat.not_lt.mpr (List.mem_range'_1.mp hr).1)
      · rw [List.count_eq_zero.mpr hm, Nat.zero_add]
        exact List.nodup_iff_count_le_one.mp List.nodup_range' v
    · intro v hv
      rw [ids_eq] at hv
      have h1 := hile v
      have h2 : 0 < (ofBlocks (blocksOf m'.funcs)).visit.count v := List.count_pos_iff.mpr hv
      rw [hNids2]
      by_cases hm : v ∈ (ofBlocks (blocksOf m.funcs)).visit
      · exact Nat.lt_of_lt_of_le (hops v hm) (Nat.le_add_right _ _)
      · have : v ∈ N.visit := by
          rw [List.count_eq_zero.mpr hm] at h1
          exact List.count_pos_iff.mp (by omega)
        rw [hNids1] at this
        exact (List.mem_range'_1.mp this).2
    · intro f' hf' b' hb'
      rw [h7] at hf'
      obtain ⟨f, hf, rfl⟩ := List.mem_map.mp hf'
      have : (ofBlocks ((f.mapOps fun o => (Ops.splice t N o).rename ρ).body.getD [])).FlatCalls := by
        rw [mapOps_ofBlocks]
        exact Regions.flat_rename (Regions.flat_splice hNf (flat_ofBlocks.mpr (hn.flat f hf)))
      exact flat_ofBlocks.mp this b' hb'

/-! ## Mentions -/

/-- Kinds that mention `b`. -/
def Kind.mentions (b : Sym) (k : Kind) : Prop :=
  k = .call (some b) ∨ k = .tailCall (some b) ∨ k = .constant (some b)

section
variable {m m' : Module} {t : OpId} {g : Func} {call : Head} {N : Ops} {gname : Sym}

theorem Stepped.names (h : Stepped m m' t g call N) (b : Sym) :
    (∃ f ∈ m'.funcs, f.name = b) ↔ ∃ f ∈ m.funcs, f.name = b := by
  obtain ⟨ρ, h7⟩ := h.funcs
  rw [h7]
  simp [Func.mapOps]

/-- The function with the call mentions its callee. -/
theorem Stepped.mention_callee (h : Stepped m m' t g call N) (hc : call.kind.callee = some gname)
    (hg : g ∈ m.funcs) (hgn : g.name = gname)
    {f : Func} (hf : f ∈ m.funcs) (ht : t ∈ f.ids) : Mention m f.name gname := by
  refine ⟨⟨f, hf, rfl, call.kind, ?_, ?_⟩, g, hg, hgn⟩
  · rw [func_kinds]
    rw [func_ids] at ht
    exact Regions.mem_kinds (ofBlocks_all.mpr fun b hb =>
      ofBlocks_all.mp h.uniq b (List.mem_flatMap.mpr ⟨f, hf, hb⟩)) ht
  · have := h.isCall
    cases hk : call.kind <;> simp_all [Kind.isCall, Kind.callee]

theorem Stepped.mention_back (h : Stepped m m' t g call N) (hc : call.kind.callee = some gname)
    (hg : g ∈ m.funcs) (hgn : g.name = gname) {a b : Sym} (hm : Mention m' a b) : TransGen (Mention m) a b := by
  obtain ⟨⟨f', hf', rfl, k, hk, hkb⟩, hb⟩ := hm
  rw [h.names] at hb
  obtain ⟨ρ, h7⟩ := h.funcs
  rw [h7] at hf'
  obtain ⟨f, hf, rfl⟩ := List.mem_map.mp hf'
  rw [func_kinds, mapOps_ofBlocks, Regions.kinds_rename] at hk
  rcases Regions.splice_kinds hk with hk | ⟨ht, hk⟩
  · rw [← func_kinds] at hk
    exact TransGen.single ⟨⟨f, hf, rfl, k, hk, hkb⟩, hb⟩
  · rcases h.kinds k hk with rfl | hk
    · simp at hkb
    · rw [← func_ids] at ht
      exact (TransGen.single (h.mention_callee hc hg hgn hf ht)).tail ⟨⟨g, hg, hgn, k, hk, hkb⟩, hb⟩

theorem Stepped.mention_forth (h : Stepped m m' t g call N) (hn : Numbered m) (hc : call.kind.callee = some gname)
    {a b : Sym} (hne : b ≠ gname) (hm : Mention m a b) : Mention m' a b := by
  obtain ⟨⟨f, hf, rfl, k, hk, hkb⟩, hb⟩ := hm
  rw [← h.names] at hb
  obtain ⟨ρ, h7⟩ := h.funcs
  refine ⟨⟨f.mapOps fun o => (Ops.splice t N o).rename ρ, ?_, rfl, k, ?_, hkb⟩, hb⟩
  · rw [h7]; exact List.mem_map_of_mem hf
  · rw [func_kinds, mapOps_ofBlocks, Regions.kinds_rename]
    refine Regions.splice_kinds_keep h.isCall ?_ (flat_ofBlocks.mpr (hn.flat f hf)) ?_ (by rwa [← func_kinds])
    · rintro rfl
      rcases hkb with hkb | hkb | hkb <;> rw [hkb] at hc <;> simp [Kind.callee] at hc
      · exact hne hc
      · exact hne hc
    · rw [ofBlocks_all]
      intro b hb
      exact ofBlocks_all.mp h.uniq b (List.mem_flatMap.mpr ⟨f, hf, hb⟩)

/-- Inlining a function that is not recursive leaves the recursive functions as they are. -/
theorem Stepped.recursive (h : Stepped m m' t g call N) (hn : Numbered m) (hc : call.kind.callee = some gname)
    (hg : g ∈ m.funcs) (hgn : g.name = gname) (hnr : ¬ Recursive m gname) (a : Sym) :
    Recursive m' a ↔ Recursive m a := by
  constructor
  · intro hr
    unfold Recursive at hr ⊢
    have key : ∀ b, TransGen (Mention m') a b → TransGen (Mention m) a b := by
      intro b hab
      induction hab with
      | single he => exact h.mention_back hc hg hgn he
      | tail _ he ih => exact ih.trans (h.mention_back hc hg hgn he)
    exact key a hr
  · intro hr
    have key : ∀ b, TransGen (Mention m) a b → TransGen (Mention m) b a → TransGen (Mention m') a b := by
      intro b hab
      induction hab with
      | single he =>
        intro hba
        refine TransGen.single (h.mention_forth hn hc ?_ he)
        rintro rfl
        exact hnr (hba.tail he)
      | tail hac he ih =>
        intro hba
        refine (ih (TransGen.head he hba)).tail (h.mention_forth hn hc ?_ he)
        rintro rfl
        exact hnr ((hba.trans hac).tail he)
    exact key a hr hr

end

/-! ## Termination -/

/-- The weight of an operation: calls of functions of the module that are not recursive. -/
noncomputable def kindWeight (names : List Sym) (R : Sym → Prop) (W : Sym → Nat) (k : Kind) : Nat :=
  open Classical in
  match k.callee with
  | none => 0
  | some c => if c ∈ names ∧ ¬ R c then 1 + W c else 0

/-- The weight of a function. -/
noncomputable def Func.weight (names : List Sym) (R : Sym → Prop) (W : Sym → Nat) (f : Func) : Nat :=
  (f.kinds.map (kindWeight names R W)).sum

/-- Names of the functions. -/
def Module.names (m : Module) : List Sym := m.funcs.map (·.name)

theorem mem_names {m : Module} {a : Sym} : a ∈ m.names ↔ ∃ f ∈ m.funcs, f.name = a := by
  simp [Module.names]

theorem sum_map_le {α : Type} {p q : α → Nat} : ∀ {l : List α}, (∀ x ∈ l, p x ≤ q x) → (l.map p).sum ≤ (l.map q).sum
  | [], _ => by simp
  | x :: l, h => by
    simp only [List.map_cons, List.sum_cons]
    exact Nat.add_le_add (h x (by simp)) (sum_map_le fun y hy => h y (by simp [hy]))

theorem le_sum_of_mem {l : List Nat} {x : Nat} (h : x ∈ l) : x ≤ l.sum := by
  induction l with
  | nil => simp at h
  | cons y l ih =>
    simp only [List.sum_cons]
    rcases List.mem_cons.mp h with rfl | h
    · omega
    · have := ih h; omega

/-- Functions of the module can be given weights above those of their bodies. -/
theorem weights_exist (m : Module) : ∃ W : Sym → Nat, ∀ f ∈ m.funcs, f.weight m.names (Recursive m) W ≤ W f.name := by
  classical
  let α := { s : Sym // s ∈ m.names }
  let r : α → α → Prop := fun a b => TransGen (Mention m) b.1 a.1 ∧ ¬ Recursive m a.1
  haveI : Finite α := m.names.finite_toSet
  haveI : IsTrans α r := ⟨fun a b c h h' => ⟨h'.1.trans h.1, h.2⟩⟩
  haveI : Std.Irrefl r := ⟨fun a h => h.2 h.1⟩
  have wf : WellFounded r := Finite.wellFounded_of_trans_of_irrefl r
  let step : (b : α) → ((a : α) → r a b → Nat) → Nat := fun b rec =>
    (m.funcs.map fun f => if f.name = b.1 then (f.kinds.map fun k => match k.callee with
      | none => 0
      | some c => if h : ∃ hc : c ∈ m.names, r ⟨c, hc⟩ b then 1 + rec ⟨c, h.choose⟩ h.choose_spec else 0).sum else 0).sum
  let w : α → Nat := wf.fix step
  have hw : ∀ b, w b = step b fun a _ => w a := fun b => wf.fix_eq step b
  refine ⟨fun s => if h : s ∈ m.names then w ⟨s, h⟩ else 0, fun f hf => ?_⟩
  have hfn : f.name ∈ m.names := mem_names.mpr ⟨f, hf, rfl⟩
  simp only [dif_pos hfn]
  rw [hw]
  refine Nat.le_trans ?_ (le_sum_of_mem (List.mem_map_of_mem hf))
  rw [if_pos rfl]
  refine sum_map_le fun k hk => ?_
  unfold kindWeight
  cases hc : k.callee with
  | none => simp
  | some c =>
    simp only
    by_cases hcn : c ∈ m.names ∧ ¬ Recursive m c
    · rw [if_pos hcn, dif_pos hcn.1, dif_pos]
      refine ⟨hcn.1, TransGen.single ⟨⟨f, hf, rfl, k, hk, ?_⟩, mem_names.mp hcn.1⟩, hcn.2⟩
      cases k <;> simp_all [Kind.callee]
    · rw [if_neg hcn]; exact Nat.zero_le _

/-- The weight of a module. -/
noncomputable def Module.weight (names : List Sym) (R : Sym → Prop) (W : Sym → Nat) (m : Module) : Nat :=
  (m.funcs.map (Func.weight names R W)).sum

/-- What stays true during the pass. -/
structure Bounded (names : List Sym) (R : Sym → Prop) (W : Sym → Nat) (m : Module) : Prop where
  numbered : Numbered m
  named : m.names = names
  recursive : ∀ a, Recursive m a ↔ R a
  valid : ∀ f ∈ m.funcs, f.weight names R W ≤ W f.name

theorem weight_step {names : List Sym} {R : Sym → Prop} {W : Sym → Nat} {m m' : Module}
    (hb : Bounded names R W m) {t : OpId} {g : Func} {gname : Sym} (hg : lastNamed m.funcs gname = some g)
    {call : Head} (hfind : m.find t = some call) (hc : call.kind.callee = some gname) (hnr : ¬ R gname)
    (hok : inlineSingle m t g = .ok m') :
    Bounded names R W m' ∧ m'.weight names R W + 1 ≤ m.weight names R W := by
  obtain ⟨hgm, hgn⟩ := lastNamed_mem hg
  obtain ⟨call', N, hfind', hs⟩ := stepped hb.numbered hgm hok
  rw [hfind, Option.some.injEq] at hfind'; subst hfind'
  obtain ⟨ρ, h7⟩ := hs.funcs
  have hp : kindWeight names R W call.kind = 1 + W gname := by
    unfold kindWeight
    rw [hc]
    simp only
    rw [if_pos ⟨by rw [← hb.named]; exact mem_names.mpr ⟨g, hgm, hgn⟩, hnr⟩]
  have hN : (N.kinds.map (kindWeight names R W)).sum ≤ W gname := by
    refine Nat.le_trans (hs.cost _ rfl) ?_
    rw [← hgn]; exact hb.valid g hgm
  have hcost : ∀ f ∈ m.funcs, (f.mapOps fun o => (Ops.splice t N o).rename ρ).weight names R W +
      f.ids.count t * (1 + W gname) = f.weight names R W +
        f.ids.count t * (N.kinds.map (kindWeight names R W)).sum := by
    intro f hf
    unfold Func.weight
    rw [func_kinds, mapOps_ofBlocks, Regions.kinds_rename, func_kinds, func_ids, ← hp]
    exact Regions.splice_cost _ hs.isCall (flat_ofBlocks.mpr (hb.numbered.flat f hf))
      (ofBlocks_all.mpr fun b hb => ofBlocks_all.mp hs.uniq b (List.mem_flatMap.mpr ⟨f, hf, hb⟩))
  have hle : ∀ f ∈ m.funcs, (f.mapOps fun o => (Ops.splice t N o).rename ρ).weight names R W + f.ids.count t ≤
      f.weight names R W := by
    intro f hf
    have h1 := hcost f hf
    have h2 := Nat.mul_le_mul_left (f.ids.count t) hN
    rw [Nat.mul_add, Nat.mul_one] at h1
    omega
  refine ⟨⟨hs.numbered, ?_, ?_, ?_⟩, ?_⟩
  · rw [← hb.named]; unfold Module.names; rw [h7, List.map_map]; rfl
  · intro a
    rw [← hb.recursive a]
    exact hs.recursive hb.numbered hc hgm hgn (fun h => hnr ((hb.recursive _).mp h)) a
  · intro f' hf'
    rw [h7] at hf'
    obtain ⟨f, hf, rfl⟩ := List.mem_map.mp hf'
    have h1 := hle f hf
    have h2 := hb.valid f hf
    show _ ≤ W f.name
    omega
  · have hsum : ∀ fs : List Func, (∀ f ∈ fs, f ∈ m.funcs) →
        ((fs.map (Func.mapOps fun o => (Ops.splice t N o).rename ρ)).map (Func.weight names R W)).sum +
          (fs.flatMap Func.ids).count t ≤ (fs.map (Func.weight names R W)).sum := by
      intro fs
      induction fs with
      | nil => intro _; simp
      | cons f fs ih =>
        intro h
        have h1 := hle f (h f (by simp))
        have h2 := ih fun f hf => h f (by simp [hf])
        simp only [List.map_cons, List.sum_cons, List.flatMap_cons, List.count_append]
        omega
    have := hsum m.funcs fun _ h => h
    rw [ids_eq, hs.once, ← h7] at this
    exact this

/-- What the pattern did. -/
theorem tryInline_cases (a : Analysis) (c : Config) (m : Module) (t : OpId) :
    tryInline a c m t = (m, false) ∨ ∃ call gname g m', m.find t = some call ∧ call.kind.callee = some gname ∧
      gname ∉ a.recursive ∧ lastNamed m.funcs gname = some g ∧ inlineSingle m t g = .ok m' ∧
      tryInline a c m t = (m', true) := by
  unfold tryInline
  cases hfind : m.find t with
  | none => exact Or.inl rfl
  | some call =>
    simp only
    split
    · exact Or.inl rfl
    · cases hcallee : call.kind.callee with
      | none => exact Or.inl rfl
      | some gname =>
        simp only
        split
        · exact Or.inl rfl
        · rename_i hshould
          cases hg : lastNamed m.funcs gname with
          | none => exact Or.inl rfl
          | some g =>
            simp only
            cases hok : inlineSingle m t g with
            | error e => exact Or.inl rfl
            | ok m' =>
              refine Or.inr ⟨call, gname, g, m', rfl, hcallee, ?_, hg, hok, rfl⟩
              intro hm
              apply hshould
              unfold shouldInline
              rw [hg]
              simp [hm]

theorem tryInline_bounded {names : List Sym} {R : Sym → Prop} {W : Sym → Nat} {a : Analysis} {c : Config}
    (ha : ∀ v, v ∉ a.recursive → ¬ R v) {m : Module} (hb : Bounded names R W m) (t : OpId) :
    Bounded names R W (tryInline a c m t).1 ∧
    (tryInline a c m t).1.weight names R W + (if (tryInline a c m t).2 then 1 else 0) ≤ m.weight names R W := by
  rcases tryInline_cases a c m t with h | ⟨call, gname, g, m', hfind, hcallee, hnr, hg, hok, h⟩
  · rw [h]; exact ⟨hb, by simp⟩
  · rw [h]
    exact weight_step hb hg hfind hcallee (ha _ hnr) hok

theorem sweep_bounded {names : List Sym} {R : Sym → Prop} {W : Sym → Nat} {a : Analysis} {c : Config}
    (ha : ∀ v, v ∉ a.recursive → ¬ R v) : ∀ (ts : List OpId) {m : Module}, Bounded names R W m →
    Bounded names R W (sweep a c ts m).1 ∧
    (sweep a c ts m).1.weight names R W + (sweep a c ts m).2 ≤ m.weight names R W
  | [], m, hb => ⟨hb, by simp [sweep]⟩
  | t :: ts, m, hb => by
    have h1 := tryInline_bounded (c := c) ha hb t
    have h2 := sweep_bounded (c := c) ha ts h1.1
    simp only [sweep]
    exact ⟨h2.1, by omega⟩

theorem mentions_items (fs : List Func) (a : Sym) (body : List CallGraph.BodyOp) :
    CallGraph.Defines [] (items fs) a body ↔ ∃ f ∈ fs, f.name = a ∧ f.walk = body := by
  induction fs with
  | nil =>
    constructor
    · intro h; cases h
    · simp
  | cons f fs ih =>
    constructor
    · intro h
      cases h with
      | top h => exact ⟨f, by simp, rfl, rfl⟩
      | nested h => exact absurd rfl h
      | skipFunc h =>
        obtain ⟨f', hf', h⟩ := ih.mp h
        exact ⟨f', by simp [hf'], h⟩
    · rintro ⟨f', hf', rfl, rfl⟩
      rcases List.mem_cons.mp hf' with rfl | hf'
      · exact .top rfl
      · exact .skipFunc (ih.mpr ⟨f', hf', rfl, rfl⟩)

mutual
theorem Ops.walk_kinds : ∀ o : Ops, o.walk = o.kinds.map Kind.bodyOp
  | .nil => rfl
  | .cons h rs rest => by
    simp only [Ops.walk, Ops.kinds, Regions.walk_kinds rs, Ops.walk_kinds rest, List.map_append, List.map_cons]
theorem Regions.walk_kinds : ∀ rs : Regions, rs.walk = rs.kinds.map Kind.bodyOp
  | .nil => rfl
  | .cons _ body rest => by
    simp only [Regions.walk, Regions.kinds, Ops.walk_kinds body, Regions.walk_kinds rest, List.map_append]
end

theorem func_walk (f : Func) : f.walk = f.kinds.map Kind.bodyOp := by
  unfold Func.walk Func.kinds
  rw [List.map_flatMap]
  congr 1
  funext b
  exact Ops.walk_kinds b.ops

/-- The analysis finds the recursive functions. -/
theorem analyse_ok (m : Module) : ∃ a, analyse m = some a ∧ (∀ v, v ∈ a.recursive ↔ Recursive m v) ∧
    a.funcOp = lastNamed m.funcs := by
  obtain ⟨rs, h1, h2⟩ := CallGraph.C19_module (items m.funcs)
  refine ⟨_, by simp only [analyse, h1, Option.bind_eq_bind, Option.bind_some]; rfl, fun v => ?_, rfl⟩
  rw [h2 v]
  unfold Recursive
  have : (fun a b => (∃ body, CallGraph.Defines [] (items m.funcs) a body ∧ ∃ o ∈ body, CallGraph.Mentions b o) ∧
      ∃ body, CallGraph.Defines [] (items m.funcs) b body) = Mention m := by
    funext a b
    apply propext
    simp only [mentions_items, Mention]
    refine and_congr ?_ ?_
    · constructor
      · rintro ⟨body, ⟨f, hf, rfl, rfl⟩, o, ho, hm⟩
        rw [func_walk] at ho
        obtain ⟨k, hk, rfl⟩ := List.mem_map.mp ho
        refine ⟨f, hf, rfl, k, hk, ?_⟩
        cases k <;> simp_all [CallGraph.Mentions, CallGraph.CallsOp, Kind.bodyOp]
      · rintro ⟨f, hf, rfl, k, hk, hm⟩
        refine ⟨_, ⟨f, hf, rfl, rfl⟩, k.bodyOp, ?_, ?_⟩
        · rw [func_walk]; exact List.mem_map_of_mem hk
        · rcases hm with rfl | rfl | rfl <;> simp [CallGraph.Mentions, CallGraph.CallsOp, Kind.bodyOp]
    · constructor
      · rintro ⟨_, f, hf, h, _⟩; exact ⟨f, hf, h⟩
      · rintro ⟨f, hf, h⟩; exact ⟨_, f, hf, h, rfl⟩
  rw [this]

/-- The pass ends. -/
theorem inlineFunctions_ends {names : List Sym} {R : Sym → Prop} {W : Sym → Nat} (c : Config) :
    ∀ (fuel : Nat) {m : Module}, Bounded names R W m → m.weight names R W < fuel →
    ∃ r, inlineFunctions c fuel m = some r ∧ Bounded names R W r.1
  | 0, _, _, h => by omega
  | fuel + 1, m, hb, h => by
    obtain ⟨a, h1, h2, _⟩ := analyse_ok m
    have hs := sweep_bounded (c := c) (a := a)
      (fun v hv hr => hv ((h2 v).mpr ((hb.recursive v).mpr hr))) m.visit hb
    have hit : iteration c m = some (sweep a c m.visit m) := by simp [iteration, h1]
    unfold inlineFunctions
    rw [hit]
    simp only [Option.bind_eq_bind, Option.bind_some]
    split
    · exact ⟨_, rfl, hs.1⟩
    · rename_i hne
      obtain ⟨r, hr, hbr⟩ := inlineFunctions_ends c fuel hs.1 (by omega)
      exact ⟨(r.1, _ + r.2), by rw [hr]; rfl, hbr⟩

theorem bounded_start {m : Module} (hn : Numbered m) : ∃ W, Bounded m.names (Recursive m) W m := by
  obtain ⟨W, hW⟩ := weights_exist m
  exact ⟨W, hn, rfl, fun _ => Iff.rfl, hW⟩

end Verif.Inline
