import Verif.Inline.Preserve
/-!
# Inlining keeps modules well formed
-/
namespace Verif.Inline

/-! ## Renaming -/

mutual
theorem Ops.rename_defs (ρ : Value → Value) : ∀ o : Ops, (o.rename ρ).defs = o.defs
  | .nil => rfl
  | .cons h rs rest => by simp only [Ops.rename, Ops.defs, Regions.rename_defs ρ rs, Ops.rename_defs ρ rest]
theorem Regions.rename_defs (ρ : Value → Value) : ∀ rs : Regions, (rs.rename ρ).defs = rs.defs
  | .nil => rfl
  | .cons ps body rest => by
    simp only [Regions.rename, Regions.defs, Ops.rename_defs ρ body, Regions.rename_defs ρ rest]
end

mutual
theorem Ops.rename_visit (ρ : Value → Value) : ∀ o : Ops, (o.rename ρ).visit = o.visit
  | .nil => rfl
  | .cons h rs rest => by simp only [Ops.rename, Ops.visit, Regions.rename_visit ρ rs, Ops.rename_visit ρ rest]
theorem Regions.rename_visit (ρ : Value → Value) : ∀ rs : Regions, (rs.rename ρ).visit = rs.visit
  | .nil => rfl
  | .cons ps body rest => by
    simp only [Regions.rename, Regions.visit, Ops.rename_visit ρ body, Regions.rename_visit ρ rest]
end

mutual
theorem Ops.rename_all {ρ : Value → Value} {P Q : Head → Prop}
    (h : ∀ h : Head, P h → Q { h with operands := h.operands.map ρ }) : ∀ {o : Ops}, o.All P → (o.rename ρ).All Q
  | .nil, _ => trivial
  | .cons _ _ _, ha => ⟨h _ ha.1, Regions.rename_all h ha.2.1, Ops.rename_all h ha.2.2⟩
theorem Regions.rename_all {ρ : Value → Value} {P Q : Head → Prop}
    (h : ∀ h : Head, P h → Q { h with operands := h.operands.map ρ }) : ∀ {rs : Regions}, rs.All P →
    (rs.rename ρ).All Q
  | .nil, _ => trivial
  | .cons _ _ _, ha => ⟨Ops.rename_all h ha.1, Regions.rename_all h ha.2⟩
end

theorem Ops.rename_straight {ρ : Value → Value} : ∀ {o : Ops}, o.Straight → (o.rename ρ).Straight
  | .nil, _ => trivial
  | .cons _ _ _, h => ⟨h.1, Regions.rename_all (fun _ h => h) h.2.1, Ops.rename_straight h.2.2⟩

/-! ## Splicing -/

mutual
theorem Ops.splice_not_mem {t : OpId} {N : Ops} : ∀ {o : Ops}, t ∉ o.visit → Ops.splice t N o = o
  | .nil, _ => rfl
  | .cons h rs rest, hm => by
    simp only [Ops.visit, List.mem_append, List.mem_cons, not_or] at hm
    simp only [Ops.splice, if_neg (fun e => hm.2.1 (Eq.symm e)), Regions.splice_not_mem hm.1,
      Ops.splice_not_mem hm.2.2]
theorem Regions.splice_not_mem {t : OpId} {N : Ops} : ∀ {rs : Regions}, t ∉ rs.visit → Regions.splice t N rs = rs
  | .nil, _ => rfl
  | .cons ps body rest, hm => by
    simp only [Regions.visit, List.mem_append, not_or] at hm
    simp only [Regions.splice, Ops.splice_not_mem hm.1, Regions.splice_not_mem hm.2]
end

mutual
theorem Ops.splice_defs {t : OpId} {N : Ops} (v : Value) : ∀ o : Ops,
    (Ops.splice t N o).defs.count v ≤ o.defs.count v + o.visit.count t * N.defs.count v
  | .nil => by simp [Ops.splice, Ops.defs]
  | .cons h rs rest => by
    have ih1 := Regions.splice_defs (t := t) (N := N) v rs
    have ih2 := Ops.splice_defs (t := t) (N := N) v rest
    simp only [Ops.splice]
    split
    · rename_i he; subst he
      rw [Ops.defs_append]
      simp only [Ops.defs, Ops.visit, List.count_append, List.count_cons_self]
      have : ∀ a b c : Nat, (a + (b + 1)) * c = a * c + b * c + c := by intros; grind
      rw [this]; omega
    · rename_i he
      simp only [Ops.defs, Ops.visit, List.count_append, List.count_cons_of_ne he]
      rw [Nat.add_mul]; omega
theorem Regions.splice_defs {t : OpId} {N : Ops} (v : Value) : ∀ rs : Regions,
    (Regions.splice t N rs).defs.count v ≤ rs.defs.count v + rs.visit.count t * N.defs.count v
  | .nil => by simp [Regions.splice, Regions.defs]
  | .cons ps body rest => by
    have ih1 := Ops.splice_defs (t := t) (N := N) v body
    have ih2 := Regions.splice_defs (t := t) (N := N) v rest
    simp only [Regions.splice, Regions.defs, Regions.visit, List.count_append]
    rw [Nat.add_mul]; omega
end

mutual
theorem Ops.splice_visit {t : OpId} {N : Ops} (v : OpId) : ∀ o : Ops,
    (Ops.splice t N o).visit.count v ≤ o.visit.count v + o.visit.count t * N.visit.count v
  | .nil => by simp [Ops.splice, Ops.visit]
  | .cons h rs rest => by
    have ih1 := Regions.splice_visit (t := t) (N := N) v rs
    have ih2 := Ops.splice_visit (t := t) (N := N) v rest
    simp only [Ops.splice]
    split
    · rename_i he; subst he
      rw [Ops.visit_append]
      simp only [Ops.visit, List.count_append, List.count_cons_self, List.count_cons (a := v)]
      have : ∀ a b c : Nat, (a + (b + 1)) * c = a * c + b * c + c := by intros; grind
      rw [this]; omega
    · rename_i he
      simp only [Ops.visit, List.count_append, List.count_cons_of_ne he, List.count_cons (a := v)]
      rw [Nat.add_mul]; omega
theorem Regions.splice_visit {t : OpId} {N : Ops} (v : OpId) : ∀ rs : Regions,
    (Regions.splice t N rs).visit.count v ≤ rs.visit.count v + rs.visit.count t * N.visit.count v
  | .nil => by simp [Regions.splice, Regions.visit]
  | .cons ps body rest => by
    have ih1 := Ops.splice_visit (t := t) (N := N) v body
    have ih2 := Regions.splice_visit (t := t) (N := N) v rest
    simp only [Regions.splice, Regions.visit, List.count_append]
    rw [Nat.add_mul]; omega
end

mutual
theorem Ops.splice_all {t : OpId} {N : Ops} {P : Head → Prop} : ∀ {o : Ops}, o.All P → (t ∈ o.visit → N.All P) →
    (Ops.splice t N o).All P
  | .nil, _, _ => trivial
  | .cons h rs rest, ha, hN => by
    simp only [Ops.visit, List.mem_append, List.mem_cons] at hN
    simp only [Ops.splice]
    split
    · rename_i he
      rw [Ops.all_append]
      exact ⟨hN (Or.inr (Or.inl he.symm)), Ops.splice_all ha.2.2 fun h => hN (Or.inr (Or.inr h))⟩
    · exact ⟨ha.1, Regions.splice_all ha.2.1 fun h => hN (Or.inl h),
        Ops.splice_all ha.2.2 fun h => hN (Or.inr (Or.inr h))⟩
theorem Regions.splice_all {t : OpId} {N : Ops} {P : Head → Prop} : ∀ {rs : Regions}, rs.All P →
    (t ∈ rs.visit → N.All P) → (Regions.splice t N rs).All P
  | .nil, _, _ => trivial
  | .cons ps body rest, ha, hN => by
    simp only [Regions.visit, List.mem_append] at hN
    exact ⟨Ops.splice_all ha.1 fun h => hN (Or.inl h), Regions.splice_all ha.2 fun h => hN (Or.inr h)⟩
end

theorem Ops.straight_append {b : Ops} : ∀ {a : Ops}, (a.append b).Straight ↔ a.Straight ∧ b.Straight
  | .nil => by simp [Ops.append, Ops.Straight]
  | .cons h rs rest => by simp only [Ops.append, Ops.Straight, Ops.straight_append (a := rest), and_assoc]

theorem Ops.append_assoc (b c : Ops) : ∀ a : Ops, (a.append b).append c = a.append (b.append c)
  | .nil => rfl
  | .cons h rs rest => by simp only [Ops.append, Ops.append_assoc b c rest]

theorem Ops.append_nil : ∀ a : Ops, a.append .nil = a
  | .nil => rfl
  | .cons h rs rest => by simp only [Ops.append, Ops.append_nil rest]

theorem Ops.splice_append {t : OpId} {N : Ops} (b : Ops) : ∀ a : Ops,
    Ops.splice t N (a.append b) = (Ops.splice t N a).append (Ops.splice t N b)
  | .nil => rfl
  | .cons h rs rest => by
    simp only [Ops.append, Ops.splice]
    split
    · rw [Ops.splice_append b rest, Ops.append_assoc]
    · simp only [Ops.append, Ops.splice_append b rest]

/-- A block that is straight returns nowhere. -/
theorem Ops.Straight.all : ∀ {o : Ops}, o.Straight → o.All (fun h => h.kind.returns = false)
  | .nil, _ => trivial
  | .cons _ _ _, h => ⟨returns_of_terminates h.1, h.2.1, Ops.Straight.all h.2.2⟩

theorem Ops.splice_straight {t : OpId} {N : Ops} : ∀ {o : Ops}, o.Straight → (t ∈ o.visit → N.Straight) →
    (Ops.splice t N o).Straight
  | .nil, _, _ => trivial
  | .cons h rs rest, ha, hN => by
    simp only [Ops.visit, List.mem_append, List.mem_cons] at hN
    simp only [Ops.splice]
    split
    · rename_i he
      rw [Ops.straight_append]
      exact ⟨hN (Or.inr (Or.inl he.symm)), Ops.splice_straight ha.2.2 fun h => hN (Or.inr (Or.inr h))⟩
    · exact ⟨ha.1, Regions.splice_all ha.2.1 fun h => (hN (Or.inl h)).all,
        Ops.splice_straight ha.2.2 fun h => hN (Or.inr (Or.inr h))⟩

theorem splitLast_snoc (l : Head) (rs : Regions) : ∀ a : Ops,
    (a.append (.cons l rs .nil)).splitLast = some (a, l)
  | .nil => by simp [Ops.append, Ops.splitLast]
  | .cons h r .nil => by simp [Ops.append, Ops.splitLast]
  | .cons h r (.cons h' r' rest) => by
    have := splitLast_snoc l rs (.cons h' r' rest)
    simp only [Ops.append] at this ⊢
    rw [Ops.splitLast, this]
    · rfl
    · intro h; cases h

/-! ## Clones -/

theorem freshen_length (s : Cloning) (xs : List Value) : (s.freshen xs).1.length = xs.length := by
  simp [Cloning.freshen]

mutual
theorem clone_all {P Q : Head → Prop} (h : ∀ x y : Head, y.kind = x.kind → y.operands.length = x.operands.length →
    y.results.length = x.results.length → P x → Q y) : ∀ {o : Ops} {s : Cloning}, o.All P → (cloneOps s o).1.All Q
  | .nil, _, _ => trivial
  | .cons hd _ _, s, ha => by
    simp only [cloneOps, Ops.All]
    exact ⟨h hd _ rfl (List.length_map ..) (freshen_length _ _) ha.1, clone_all_regions h ha.2.1, clone_all h ha.2.2⟩
theorem clone_all_regions {P Q : Head → Prop} (h : ∀ x y : Head, y.kind = x.kind →
    y.operands.length = x.operands.length → y.results.length = x.results.length → P x → Q y) :
    ∀ {rs : Regions} {s : Cloning}, rs.All P → (cloneRegions s rs).1.All Q
  | .nil, _, _ => trivial
  | .cons _ _ _, s, ha => by
    simp only [cloneRegions, Regions.All]
    exact ⟨clone_all h ha.1, clone_all_regions h ha.2⟩
end

theorem clone_straight : ∀ {o : Ops} {s : Cloning}, o.Straight → (cloneOps s o).1.Straight
  | .nil, _, _ => trivial
  | .cons _ _ _, s, h => by
    simp only [cloneOps, Ops.Straight]
    exact ⟨h.1, clone_all_regions (fun x y hk _ _ hx => by rw [hk]; exact hx) h.2.1, clone_straight h.2.2⟩

/-! ## Visibility -/

theorem Ops.after_mono : ∀ {o : Ops} {vis vis' : List Value}, (∀ v ∈ vis, v ∈ vis') →
    ∀ v ∈ o.after vis, v ∈ o.after vis'
  | .nil, _, _, h => h
  | .cons hd _ rest, vis, vis', h => by
    simp only [Ops.after]
    refine Ops.after_mono fun v hv => ?_
    rcases List.mem_append.mp hv with hv | hv
    · simp [hv]
    · simp [h v hv]

theorem Ops.sub_after : ∀ {o : Ops} {vis : List Value}, ∀ v ∈ vis, v ∈ o.after vis
  | .nil, _, _, h => h
  | .cons hd _ rest, vis, v, h => by
    simp only [Ops.after]
    exact Ops.sub_after v (by simp [h])

mutual
theorem Ops.all_mem {t : OpId} {P : Head → Prop} : ∀ {o : Ops}, t ∈ o.visit → o.All P → ∃ h : Head, h.id = t ∧ P h
  | .nil, h, _ => by simp [Ops.visit] at h
  | .cons hd rs rest, h, ha => by
    simp only [Ops.visit, List.mem_append, List.mem_cons] at h
    rcases h with h | h | h
    · exact Regions.all_mem h ha.2.1
    · exact ⟨hd, h.symm, ha.1⟩
    · exact Ops.all_mem h ha.2.2
theorem Regions.all_mem {t : OpId} {P : Head → Prop} : ∀ {rs : Regions}, t ∈ rs.visit → rs.All P →
    ∃ h : Head, h.id = t ∧ P h
  | .nil, h, _ => by simp [Regions.visit] at h
  | .cons ps body rest, h, ha => by
    simp only [Regions.visit, List.mem_append] at h
    rcases h with h | h
    · exact Ops.all_mem h ha.1
    · exact Regions.all_mem h ha.2
end

mutual
theorem Ops.all_and {P Q : Head → Prop} : ∀ {o : Ops}, o.All P → o.All Q → o.All (fun h => P h ∧ Q h)
  | .nil, _, _ => trivial
  | .cons _ _ _, h, h' => ⟨⟨h.1, h'.1⟩, Regions.all_and h.2.1 h'.2.1, Ops.all_and h.2.2 h'.2.2⟩
theorem Regions.all_and {P Q : Head → Prop} : ∀ {rs : Regions}, rs.All P → rs.All Q → rs.All (fun h => P h ∧ Q h)
  | .nil, _, _ => trivial
  | .cons _ _ _, h, h' => ⟨Ops.all_and h.1 h'.1, Regions.all_and h.2 h'.2⟩
end

theorem splitLast_or : ∀ o : Ops, o = .nil ∨ ∃ (B : Ops) (l : Head) (rs : Regions), o = B.append (.cons l rs .nil)
  | .nil => Or.inl rfl
  | .cons h rs rest => by
    rcases splitLast_or rest with rfl | ⟨B, l, r, rfl⟩
    · exact Or.inr ⟨.nil, h, rs, rfl⟩
    · exact Or.inr ⟨.cons h rs B, l, r, rfl⟩

mutual
theorem splice_scoped {call : Head} {N : Ops} {ρ : Value → Value} (hsame : ∀ v ∉ call.results, ρ v = v)
    (hops : ∀ v ∈ call.operands, v ∉ call.results)
    (hfixed : N.rename ρ = N) (hN : N.Scoped call.operands) (hres : ∀ v ∈ call.results, ρ v ∈ N.after call.operands) :
    ∀ {o : Ops} {vis vis' : List Value}, o.Scoped vis → o.All (fun h => h.id = call.id → h = call) →
    o.Avoid call.id call.results → (∀ v ∈ vis, ρ v ∈ vis') →
    ((Ops.splice call.id N o).rename ρ).Scoped vis'
  | .nil, _, _, _, _, _, _ => trivial
  | .cons h rs rest, vis, vis', hs, hu, ha, hv => by
    simp only [Ops.Scoped] at hs
    simp only [Ops.All] at hu
    simp only [Ops.Avoid] at ha
    simp only [Ops.splice]
    split
    · rename_i he
      obtain rfl := hu.1 he
      rw [Ops.rename_append, hfixed, Ops.scoped_append]
      have hsub : ∀ v ∈ h.operands, v ∈ vis' := fun v hm => by
        have := hv v (hs.1 v hm)
        rwa [hsame v (hops v hm)] at this
      refine ⟨hN.mono hsub, splice_scoped hsame hops hfixed hN hres hs.2.2 hu.2.2 ha.2.2 fun v hm => ?_⟩
      rcases List.mem_append.mp hm with hm | hm
      · exact Ops.after_mono hsub _ (hres v hm)
      · exact Ops.sub_after _ (hv v hm)
    · rename_i he
      simp only [Ops.rename, Ops.Scoped]
      refine ⟨fun v hm => ?_, splice_scoped_regions hsame hops hfixed hN hres hs.2.1 hu.2.1 ha.2.1 hv,
        splice_scoped hsame hops hfixed hN hres hs.2.2 hu.2.2 ha.2.2 fun v hm => ?_⟩
      · obtain ⟨u, hu, rfl⟩ := List.mem_map.mp hm
        exact hv u (hs.1 u hu)
      · rcases List.mem_append.mp hm with hm | hm
        · rw [hsame v (ha.1 he v hm)]; simp [hm]
        · simp [hv v hm]
theorem splice_scoped_regions {call : Head} {N : Ops} {ρ : Value → Value} (hsame : ∀ v ∉ call.results, ρ v = v)
    (hops : ∀ v ∈ call.operands, v ∉ call.results)
    (hfixed : N.rename ρ = N) (hN : N.Scoped call.operands) (hres : ∀ v ∈ call.results, ρ v ∈ N.after call.operands) :
    ∀ {rs : Regions} {vis vis' : List Value}, rs.Scoped vis → rs.All (fun h => h.id = call.id → h = call) →
    rs.Avoid call.id call.results → (∀ v ∈ vis, ρ v ∈ vis') →
    ((Regions.splice call.id N rs).rename ρ).Scoped vis'
  | .nil, _, _, _, _, _, _ => trivial
  | .cons ps body rest, vis, vis', hs, hu, ha, hv => by
    simp only [Regions.Scoped] at hs
    simp only [Regions.All] at hu
    simp only [Regions.Avoid] at ha
    simp only [Regions.splice, Regions.rename, Regions.Scoped]
    refine ⟨splice_scoped hsame hops hfixed hN hres hs.1 hu.1 ha.2.1 fun v hm => ?_,
      splice_scoped_regions hsame hops hfixed hN hres hs.2 hu.2 ha.2.2 hv⟩
    rcases List.mem_append.mp hm with hm | hm
    · rw [hsame v (ha.1 v hm)]; simp [hm]
    · simp [hv v hm]
end

/-! ## The module -/

theorem ofBlocks_map (t : OpId) (N : Ops) (ρ : Value → Value) : ∀ bs : List Block,
    ofBlocks (bs.map fun b => { b with ops := (Ops.splice t N b.ops).rename ρ }) =
      (Regions.splice t N (ofBlocks bs)).rename ρ
  | [] => rfl
  | b :: bs => by simp only [List.map_cons, ofBlocks, Regions.splice, Regions.rename, ofBlocks_map t N ρ bs]

theorem blocksOf_map (T : Ops → Ops) (fs : List Func) :
    blocksOf (fs.map (Func.mapOps T)) = (blocksOf fs).map fun b => { b with ops := T b.ops } := by
  unfold blocksOf
  rw [List.flatMap_map, List.map_flatMap]
  congr 1
  funext f
  unfold Func.mapOps
  cases f.body <;> rfl

theorem typed_of_not_returns {fs : List Func} {n n' : Nat} {h : Head} (hr : h.kind.returns = false)
    (ht : Typed fs n h) : Typed fs n' h := by
  unfold Typed at ht ⊢
  cases hk : h.kind with
  | call c => rw [hk] at ht; cases c <;> exact ht
  | ret => simp [hk, Kind.returns] at hr
  | tailCall c => simp [hk, Kind.returns] at hr
  | _ => trivial

theorem typed_congr {fs : List Func} {n : Nat} {x y : Head} (hk : y.kind = x.kind)
    (ho : y.operands.length = x.operands.length) (hr : y.results.length = x.results.length)
    (ht : Typed fs n x) : Typed fs n y := by
  unfold Typed at ht ⊢
  rw [hk]
  cases h : x.kind with
  | call c => rw [h] at ht; cases c <;> simp_all
  | ret => rw [h] at ht; simp_all
  | tailCall c =>
    rw [h] at ht
    cases c with
    | none => trivial
    | some g =>
      refine ⟨?_, ht.2⟩
      rw [ht.1] at hr
      exact List.length_eq_zero_iff.mp hr
  | _ => trivial

theorem typed_map {fs : List Func} {T : Ops → Ops} {n : Nat} {h : Head} (ht : Typed fs n h) :
    Typed (fs.map (Func.mapOps T)) n h := by
  unfold Typed at ht ⊢
  cases hk : h.kind with
  | call c =>
    cases c with
    | none => trivial
    | some g =>
      rw [hk] at ht
      intro f hf
      rw [lastNamed_map, Option.map_eq_some_iff] at hf
      obtain ⟨f', h1, rfl⟩ := hf
      exact ht f' h1
  | tailCall c =>
    cases c with
    | none => trivial
    | some g =>
      rw [hk] at ht
      refine ⟨ht.1, ?_⟩
      intro f hf
      rw [lastNamed_map, Option.map_eq_some_iff] at hf
      obtain ⟨f', h1, rfl⟩ := hf
      exact ht.2 f' h1
  | ret => rw [hk] at ht; exact ht
  | _ => trivial

/-- Inlining a call keeps the module well formed. -/
theorem inline_wf {m m' : Module} (hwf : WellFormed m) {t : OpId} {g : Func} {call : Head}
    {gname : Sym} (hfind : m.find t = some call) (hcallee : call.kind.callee = some gname)
    (hg : lastNamed m.funcs gname = some g) (hok : inlineSingle m t g = .ok m') : WellFormed m' := by
  obtain ⟨call', entry, body, last, N, ρ, h1, h2, h3, h4, h5, h6, h7⟩ := inlineSingle_ok hok
  rw [hfind, Option.some.injEq] at h1; subst h1
  obtain ⟨hid, huniq, havoid, hops, hres, hnd⟩ := call_facts hwf hfind
  obtain ⟨⟨rs, hcal⟩, hsite⟩ := site_of (V := Unit) (W := Unit) (σ := Unit) hwf hfind hcallee hg h2 h3 h4 h5 h6
    ⟨fun _ _ _ => .done [] (), fun _ _ _ => .done [] (), fun _ => (), fun _ => none, fun _ _ _ => .stuck⟩
    (fun _ _ _ => none) 0
  have hsc := hcal.clones_scoped (operands := call.operands) m.arena h3
  have hcd := cloneOps_defs body (startState entry call.operands m.arena)
  have hcv := cloneOps_visit body (startState entry call.operands m.arena)
  have hgm := (lastNamed_mem hg).1
  have hgt := hwf.typed g hgm entry h2
  rw [hcal.ops, Ops.all_append] at hgt
  have hlast : last.operands.length = g.results := by
    have := hgt.2.1
    rw [Typed, h5] at this
    exact this
  have hsite_typed : ∀ f ∈ m.funcs, ∀ b, f.body = some [b] → t ∈ b.ops.visit → Typed m.funcs f.results call := by
    intro f hf b hb ht
    obtain ⟨h, he, hu, hty⟩ := Ops.all_mem ht (Ops.all_and (huniq b ((mem_blocksOf hwf).mpr ⟨f, hf, hb⟩))
      (hwf.typed f hf b hb))
    rw [← hu he]; exact hty
  obtain ⟨f0, b0, hf0, hb0, ht0⟩ : ∃ f b, f ∈ m.funcs ∧ f.body = some [b] ∧ t ∈ b.ops.visit := by
    have := hfind
    rw [module_find] at this
    have := Regions.find_mem this
    rw [ofBlocks_visit, List.mem_flatMap] at this
    obtain ⟨b, hb, ht⟩ := this
    obtain ⟨f, hf, hfb⟩ := (mem_blocksOf hwf).mp hb
    exact ⟨f, b, hf, hfb, ht⟩
  have hct := hsite_typed f0 hf0 b0 hb0 ht0
  -- the inserted operations
  have hNdefs : N.defs = List.range' m.arena.value body.defs.length ∧
      m'.arena.value = m.arena.value + body.defs.length := by
    rcases h6 with ⟨c, hk, rfl, rfl, ha⟩ | ⟨c, hk, rfl, rfl, ha⟩
    · exact ⟨hcd.1, by rw [ha]; exact hcd.2⟩
    · rw [Ops.defs_append, hcd.1, ha]
      exact ⟨by simp [Ops.defs, Regions.defs, startState], hcd.2⟩
  have hNids : ∃ n, N.visit = List.range' m.arena.op n ∧ m'.arena.op = m.arena.op + n := by
    rcases h6 with ⟨c, hk, rfl, rfl, ha⟩ | ⟨c, hk, rfl, rfl, ha⟩
    · exact ⟨_, hcv.1, by rw [ha]; exact hcv.2⟩
    · refine ⟨body.visit.length + 1, ?_, ?_⟩
      · rw [Ops.visit_append, hcv.1, List.range'_concat]
        simp only [Ops.visit, Regions.visit, List.nil_append, hcv.2, Nat.one_mul]
        rfl
      · rw [ha]; simp only [hcv.2]; rfl
  have hNsc : N.Scoped call.operands ∧ ∀ v ∈ call.results, ρ v ∈ N.after call.operands := by
    rcases h6 with ⟨c, hk, rfl, rfl, ha⟩ | ⟨c, hk, rfl, rfl, ha⟩
    · refine ⟨hsc.1, fun v hv => hsc.2 _ ?_⟩
      rw [Typed, hk] at hct
      have hcc : c = some gname := by simpa [Kind.callee, hk] using hcallee
      subst hcc
      have hlen : call.results.length = last.operands.length := (hct g hg).trans hlast.symm
      obtain ⟨x, hx, hx'⟩ := lookup_zip_some (xs := last.operands.map
        (cloneOps (startState entry call.operands m.arena) body).2.mapping.find) hv (by simpa using hlen)
      rw [renameAll_lookup hnd (fun x hx hm => ?_) (by simpa using hlen) hv, Option.some.injEq] at hx'
      · rw [hx']; exact hx
      · rcases hcal.values m.arena h3 x hx with h | h
        · exact (hops x h).2 hm
        · exact absurd (hres x hm) (Nat.not_lt.mpr h)
    · rw [Typed, hk] at hct
      have hcc : c = some gname := by simpa [Kind.callee, hk] using hcallee
      subst hcc
      refine ⟨?_, fun v hv => by rw [hct.1] at hv; simp at hv⟩
      rw [Ops.scoped_append]
      exact ⟨hsc.1, by simpa [Ops.Scoped, Regions.Scoped] using hsc.2⟩
  have hNtyped : ∀ f ∈ m.funcs, ∀ b, f.body = some [b] → t ∈ b.ops.visit → N.All (Typed m.funcs f.results) := by
    intro f hf b hb ht
    have hcl : (cloneOps (startState entry call.operands m.arena) body).1.All (Typed m.funcs f.results) :=
      clone_all (fun x y h1 h2 h3 hx => typed_congr h1 h2 h3 (typed_of_not_returns hx.2 hx.1))
        (Ops.all_and hgt.1 hcal.straight.all)
    rcases h6 with ⟨c, hk, rfl, rfl, ha⟩ | ⟨c, hk, rfl, rfl, ha⟩
    · exact hcl
    · rw [Ops.all_append]
      refine ⟨hcl, ?_, trivial, trivial⟩
      have hct := hsite_typed f hf b hb ht
      rw [Typed, hk] at hct
      have hcc : c = some gname := by simpa [Kind.callee, hk] using hcallee
      subst hcc
      simp only [Typed, List.length_map]
      rw [hlast]; exact hct.2 g hg
  have hRnew : ofBlocks (blocksOf m'.funcs) = (Regions.splice t N (ofBlocks (blocksOf m.funcs))).rename ρ := by
    rw [h7, blocksOf_map]
    exact ofBlocks_map t N ρ _
  have hcount : (ofBlocks (blocksOf m.funcs)).visit.count t ≤ 1 := by
    rw [← ids_eq]; exact List.nodup_iff_count_le_one.mp hwf.ids t
  have hdle : ∀ v, (ofBlocks (blocksOf m'.funcs)).defs.count v ≤
      (ofBlocks (blocksOf m.funcs)).defs.count v + N.defs.count v := by
    intro v
    rw [hRnew, Regions.rename_defs]
    refine Nat.le_trans (Regions.splice_defs v _) (Nat.add_le_add_left ?_ _)
    exact Nat.le_trans (Nat.mul_le_mul_right _ hcount) (by simp)
  have hile : ∀ v, (ofBlocks (blocksOf m'.funcs)).visit.count v ≤
      (ofBlocks (blocksOf m.funcs)).visit.count v + N.visit.count v := by
    intro v
    rw [hRnew, Regions.rename_visit]
    refine Nat.le_trans (Regions.splice_visit v _) (Nat.add_le_add_left ?_ _)
    exact Nat.le_trans (Nat.mul_le_mul_right _ hcount) (by simp)
  obtain ⟨nid, hNids1, hNids2⟩ := hNids
  have hall : ∀ f ∈ m.funcs, ∀ b, f.body = some [b] → b ∈ blocksOf m.funcs :=
    fun f hf b hb => (mem_blocksOf hwf).mpr ⟨f, hf, hb⟩
  have hback : ∀ f' ∈ m'.funcs, ∀ b', f'.body = some [b'] → ∃ f ∈ m.funcs, ∃ b, f.body = some [b] ∧
      f' = f.mapOps (fun o => (Ops.splice t N o).rename ρ) ∧
      b' = { b with ops := (Ops.splice t N b.ops).rename ρ } := by
    intro f' hf' b' hb'
    rw [h7] at hf'
    obtain ⟨f, hf, rfl⟩ := List.mem_map.mp hf'
    rcases hwf.single f hf with h | ⟨b, h⟩
    · simp [Func.mapOps, h] at hb'
    · refine ⟨f, hf, b, h, rfl, ?_⟩
      simp [Func.mapOps, h] at hb'
      exact hb'.symm
  refine ⟨⟨?_, ?_, ?_, ?_, ?_, ?_, ?_, ?_⟩, ?_⟩
  · intro f' hf'
    rw [h7] at hf'
    obtain ⟨f, hf, rfl⟩ := List.mem_map.mp hf'
    rcases hwf.single f hf with h | ⟨b, h⟩
    · exact Or.inl (by simp [Func.mapOps, h])
    · exact Or.inr ⟨_, by simp [Func.mapOps, h]; rfl⟩
  · rw [h7, List.map_map]; exact hwf.names
  · rw [defs_eq, List.nodup_iff_count_le_one]
    intro v
    refine Nat.le_trans (hdle v) ?_
    have h1 : (ofBlocks (blocksOf m.funcs)).defs.count v ≤ 1 := by
      rw [← defs_eq]; exact List.nodup_iff_count_le_one.mp hwf.defs v
    rw [hNdefs.1]
    by_cases hm : v ∈ (ofBlocks (blocksOf m.funcs)).defs
    · rw [List.count_eq_zero (l := List.range' _ _) |>.mpr]
      · exact h1
      · intro hr
        rw [← defs_eq] at hm
        exact absurd (hwf.values v hm) (Nat.not_lt.mpr (List.mem_range'_1.mp hr).1)
    · rw [List.count_eq_zero.mpr hm, Nat.zero_add]
      exact List.nodup_iff_count_le_one.mp List.nodup_range' v
  · intro v hv
    rw [defs_eq] at hv
    have h1 := hdle v
    have h2 : 0 < (ofBlocks (blocksOf m'.funcs)).defs.count v := List.count_pos_iff.mpr hv
    rw [hNdefs.2]
    by_cases hm : v ∈ (ofBlocks (blocksOf m.funcs)).defs
    · rw [← defs_eq] at hm
      exact Nat.lt_of_lt_of_le (hwf.values v hm) (Nat.le_add_right _ _)
    · have : v ∈ N.defs := by
        rw [List.count_eq_zero.mpr hm] at h1
        exact List.count_pos_iff.mp (by omega)
      rw [hNdefs.1] at this
      exact (List.mem_range'_1.mp this).2
  · rw [ids_eq, List.nodup_iff_count_le_one]
    intro v
    refine Nat.le_trans (hile v) ?_
    have h1 : (ofBlocks (blocksOf m.funcs)).visit.count v ≤ 1 := by
      rw [← ids_eq]; exact List.nodup_iff_count_le_one.mp hwf.ids v
    rw [hNids1]
    by_cases hm : v ∈ (ofBlocks (blocksOf m.funcs)).visit
    · rw [List.count_eq_zero (l := List.range' _ _) |>.mpr]
      · exact h1
      · intro hr
        rw [← ids_eq] at hm
        exact absurd (hwf.ops v hm) (Nat.not_lt.mpr (List.mem_range'_1.mp hr).1)
    · rw [List.count_eq_zero.mpr hm, Nat.zero_add]
      exact List.nodup_iff_count_le_one.mp List.nodup_range' v
  · intro v hv
    rw [ids_eq] at hv
    have h1 := hile v
    have h2 : 0 < (ofBlocks (blocksOf m'.funcs)).visit.count v := List.count_pos_iff.mpr hv
    rw [hNids2]
    by_cases hm : v ∈ (ofBlocks (blocksOf m.funcs)).visit
    · rw [← ids_eq] at hm
      exact Nat.lt_of_lt_of_le (hwf.ops v hm) (Nat.le_add_right _ _)
    · have : v ∈ N.visit := by
        rw [List.count_eq_zero.mpr hm] at h1
        exact List.count_pos_iff.mp (by omega)
      rw [hNids1] at this
      exact (List.mem_range'_1.mp this).2
  · intro f' hf' b' hb'
    obtain ⟨f, hf, b, hb, rfl, rfl⟩ := hback f' hf' b' hb'
    subst hid
    have hv : ∀ v ∈ b.params, ρ v ∈ b.params := fun v hv => by
      rw [hsite.same v ((havoid b (hall f hf b hb)).1 v hv)]; exact hv
    exact splice_scoped hsite.same (fun v hv => (hops v hv).2) hsite.fixed hNsc.1 hNsc.2
      (hwf.visible f hf b hb) (huniq b (hall f hf b hb)) (havoid b (hall f hf b hb)).2 hv
  · intro f' hf' b' hb'
    obtain ⟨f, hf, b, hb, rfl, rfl⟩ := hback f' hf' b' hb'
    rw [h7]
    exact Ops.rename_all (P := Typed m.funcs f.results)
      (fun h ht => typed_map (typed_congr (x := h) rfl (by simp) rfl ht))
      (Ops.splice_all (hwf.typed f hf b hb) (hNtyped f hf b hb))
  · intro f' hf' b' hb'
    obtain ⟨f, hf, b, hb, rfl, rfl⟩ := hback f' hf' b' hb'
    intro body' last' hsp
    have hne := hwf.noEarly f hf b hb
    have hbids := (block_facts hwf hf hb).2.2.1
    have hbu := huniq b (hall f hf b hb)
    simp only at hsp
    rcases splitLast_or b.ops with hnil | ⟨B, l, rr, hBl⟩
    · rw [hnil] at hsp; simp [Ops.splice, Ops.rename, Ops.splitLast] at hsp
    · rw [hBl] at hsp hne hbids hbu
      have hne := hne B l (splitLast_snoc l rr B)
      rw [Ops.splice_append, Ops.rename_append] at hsp
      rw [Ops.visit_append, List.nodup_append] at hbids
      rw [Ops.all_append] at hbu
      by_cases hlt : l.id = t
      · have hl : l = call := hbu.2.1 hlt
        have hB : t ∉ B.visit := fun hm => hbids.2.2 t hm t (by simp [Ops.visit, hlt]) rfl
        rcases h6 with ⟨c, hk, rfl, rfl, ha⟩ | ⟨c, hk, rfl, rfl, ha⟩
        · exact absurd (hl ▸ hk) (hne.1 c)
        · simp only [Ops.splice, if_pos hlt, Ops.rename_id, Ops.append_nil] at hsp
          rw [Ops.splice_not_mem hB, ← Ops.append_assoc, splitLast_snoc] at hsp
          cases hsp
          refine ⟨fun c => by simp, fun _ => Ops.straight_append.mpr ⟨hne.2 (Or.inr ?_), clone_straight hcal.straight⟩⟩
          rw [hl, hk]; rfl
      · simp only [Ops.splice, if_neg hlt, Ops.rename] at hsp
        rw [splitLast_snoc] at hsp
        cases hsp
        refine ⟨hne.1, fun hr => Ops.rename_straight (Ops.splice_straight (hne.2 hr) fun hm => ?_)⟩
        obtain ⟨h, he, hu, hr'⟩ := Ops.all_mem hm (Ops.all_and hbu.1 (hne.2 hr).all)
        rw [hu he] at hr'
        rcases h6 with ⟨c, hk, rfl, rfl, ha⟩ | ⟨c, hk, rfl, rfl, ha⟩
        · exact clone_straight hcal.straight
        · rw [hk] at hr'; simp [Kind.returns] at hr'

end Verif.Inline
