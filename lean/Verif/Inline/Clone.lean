import Verif.Inline.Interp
import Mathlib.Data.List.Nodup
/-!
# Clones behave like the originals
-/
namespace Verif.Inline

variable {V W σ : Type}

theorem lookup_none_of_not_mem {β : Type} {v : Value} : ∀ {l : List (Value × β)}, v ∉ l.map Prod.fst →
    l.lookup v = none
  | [], _ => rfl
  | (a, b) :: l, h => by
    simp only [List.map_cons, List.mem_cons, not_or] at h
    rw [List.lookup_cons]
    have : (v == a) = false := by simpa using h.1
    rw [this]
    exact lookup_none_of_not_mem h.2

theorem lookup_zip_none {β : Type} {v : Value} {vs : List Value} {xs : List β} (h : v ∉ vs) :
    (vs.zip xs).lookup v = none := by
  apply lookup_none_of_not_mem
  intro hm
  obtain ⟨⟨a, b⟩, hp, rfl⟩ := List.mem_map.mp hm
  exact h (List.of_mem_zip hp).1

theorem bind_of_not_mem {env : Env V} {vs : List Value} {xs : List V} {v : Value} (h : v ∉ vs) :
    env.bind vs xs v = env v := by
  unfold Env.bind
  rw [lookup_zip_none h]; rfl

theorem lookup_append {β : Type} {v : Value} : ∀ (a b : List (Value × β)),
    (a ++ b).lookup v = (a.lookup v).or (b.lookup v)
  | [], b => by simp
  | (u, x) :: a, b => by
    simp only [List.cons_append, List.lookup_cons]
    cases (v == u) with
    | true => rfl
    | false => exact lookup_append a b

theorem find_append (a b : Mapping) (v : Value) :
    Mapping.find (a ++ b) v = (a.lookup v).getD (Mapping.find b v) := by
  unfold Mapping.find
  rw [lookup_append]
  cases a.lookup v <;> rfl

theorem find_zip_not_mem {vs news : List Value} {m : Mapping} {v : Value} (h : v ∉ vs) :
    Mapping.find (vs.zip news ++ m) v = m.find v := by
  rw [find_append, lookup_zip_none h]; rfl

theorem lookup_zip_some {β : Type} {v : Value} : ∀ {vs : List Value} {xs : List β}, v ∈ vs →
    vs.length = xs.length → ∃ x ∈ xs, (vs.zip xs).lookup v = some x
  | [], _, h, _ => by simp at h
  | u :: vs, [], _, hl => by simp at hl
  | u :: vs, x :: xs, h, hl => by
    simp only [List.zip_cons_cons, List.lookup_cons]
    cases hv : (v == u) with
    | true => exact ⟨x, by simp, rfl⟩
    | false =>
      have hv' : v ∈ vs := by
        rcases List.mem_cons.mp h with rfl | h
        · simp at hv
        · exact h
      obtain ⟨y, hy, h'⟩ := lookup_zip_some (xs := xs) hv' (by simpa using hl)
      exact ⟨y, by simp [hy], h'⟩

theorem find_zip_mem {vs news : List Value} {m : Mapping} {v : Value} (h : v ∈ vs)
    (hl : vs.length = news.length) : Mapping.find (vs.zip news ++ m) v ∈ news := by
  rw [find_append]
  obtain ⟨x, hx, h'⟩ := lookup_zip_some (xs := news) h hl
  rw [h']; exact hx

/-- Renaming keys does not change what they are bound to. -/
theorem lookup_zip_rename {β : Type} {m : Mapping} : ∀ {vs news : List Value} {xs : List β} {v : Value}, v ∈ vs →
    vs.length = news.length → vs.length = xs.length → news.Nodup →
    (news.zip xs).lookup (Mapping.find (vs.zip news ++ m) v) = (vs.zip xs).lookup v
  | [], _, _, _, h, _, _, _ => by simp at h
  | u :: vs, [], _, _, _, hl, _, _ => by simp at hl
  | u :: vs, n :: ns, [], _, _, _, hl, _ => by simp at hl
  | u :: vs, n :: ns, x :: xs, v, h, h1, h2, hnd => by
    simp only [List.zip_cons_cons, List.cons_append]
    rw [List.nodup_cons] at hnd
    by_cases hv : v = u
    · subst hv
      have : Mapping.find ((v, n) :: (vs.zip ns ++ m)) v = n := by
        simp [Mapping.find, List.lookup_cons]
      rw [this]
      simp [List.lookup_cons]
    · have hv' : v ∈ vs := by
        rcases List.mem_cons.mp h with h | h
        · exact absurd h hv
        · exact h
      have hf : Mapping.find ((u, n) :: (vs.zip ns ++ m)) v = Mapping.find (vs.zip ns ++ m) v := by
        have : (v == u) = false := by simpa using hv
        simp [Mapping.find, List.lookup_cons, this]
      rw [hf]
      have hmem := find_zip_mem (m := m) hv' (by simpa using h1 : vs.length = ns.length)
      have hne : (Mapping.find (vs.zip ns ++ m) v == n) = false := by
        have : Mapping.find (vs.zip ns ++ m) v ≠ n := fun he => hnd.1 (he ▸ hmem)
        simpa using this
      have hne' : (v == u) = false := by simpa using hv
      rw [List.lookup_cons, List.lookup_cons, hne, hne']
      exact lookup_zip_rename hv' (by simpa using h1) (by simpa using h2) hnd.2

theorem bind_rename {env env' : Env V} {m : Mapping} {vs news : List Value} {xs : List V} {v : Value}
    (h : v ∈ vs) (hl : vs.length = news.length) (hx : vs.length = xs.length) (hnd : news.Nodup) :
    env.bind vs xs v = env'.bind news xs (Mapping.find (vs.zip news ++ m) v) := by
  unfold Env.bind
  rw [lookup_zip_rename h hl hx hnd]
  obtain ⟨x, _, h'⟩ := lookup_zip_some (xs := xs) h hx
  rw [h']; rfl

/-! ## What cloning creates -/

mutual
theorem cloneOps_defs : ∀ (o : Ops) (s : Cloning),
    (cloneOps s o).1.defs = List.range' s.arena.value o.defs.length ∧
    (cloneOps s o).2.arena.value = s.arena.value + o.defs.length
  | .nil, s => by simp [cloneOps, Ops.defs]
  | .cons h rs rest, s => by
    obtain ⟨h1, h2⟩ := cloneRegions_defs rs s
    obtain ⟨h3, h4⟩ := cloneOps_defs rest ((cloneRegions s rs).2.newOp.2.freshen h.results).2
    simp only [cloneOps, Ops.defs, h1, h3, h4]
    simp only [Cloning.freshen, Cloning.newOp, h2, List.length_append]
    constructor
    · rw [← List.range'_append_1 (s := s.arena.value), ← List.range'_append_1 (s := s.arena.value + rs.defs.length)]
    · omega
theorem cloneRegions_defs : ∀ (rs : Regions) (s : Cloning),
    (cloneRegions s rs).1.defs = List.range' s.arena.value rs.defs.length ∧
    (cloneRegions s rs).2.arena.value = s.arena.value + rs.defs.length
  | .nil, s => by simp [cloneRegions, Regions.defs]
  | .cons ps body rest, s => by
    obtain ⟨h1, h2⟩ := cloneOps_defs body (s.freshen ps).2
    obtain ⟨h3, h4⟩ := cloneRegions_defs rest (cloneOps (s.freshen ps).2 body).2
    simp only [cloneRegions, Regions.defs, h1, h3, h4, h2]
    simp only [Cloning.freshen, List.length_append]
    constructor
    · rw [← List.range'_append_1 (s := s.arena.value), ← List.range'_append_1 (s := s.arena.value + ps.length)]
    · omega
end

mutual
theorem cloneOps_visit : ∀ (o : Ops) (s : Cloning),
    (cloneOps s o).1.visit = List.range' s.arena.op o.visit.length ∧
    (cloneOps s o).2.arena.op = s.arena.op + o.visit.length
  | .nil, s => by simp [cloneOps, Ops.visit]
  | .cons h rs rest, s => by
    obtain ⟨h1, h2⟩ := cloneRegions_visit rs s
    obtain ⟨h3, h4⟩ := cloneOps_visit rest ((cloneRegions s rs).2.newOp.2.freshen h.results).2
    simp only [cloneOps, Ops.visit, h1, h3, h4]
    simp only [Cloning.freshen, Cloning.newOp, h2, List.length_append, List.length_cons]
    constructor
    · rw [← List.range'_append_1 (s := s.arena.op)]
      congr 1
    · omega
theorem cloneRegions_visit : ∀ (rs : Regions) (s : Cloning),
    (cloneRegions s rs).1.visit = List.range' s.arena.op rs.visit.length ∧
    (cloneRegions s rs).2.arena.op = s.arena.op + rs.visit.length
  | .nil, s => by simp [cloneRegions, Regions.visit]
  | .cons ps body rest, s => by
    obtain ⟨h1, h2⟩ := cloneOps_visit body (s.freshen ps).2
    obtain ⟨h3, h4⟩ := cloneRegions_visit rest (cloneOps (s.freshen ps).2 body).2
    simp only [cloneRegions, Regions.visit, h1, h3, h4, h2]
    simp only [Cloning.freshen, List.length_append]
    constructor
    · rw [← List.range'_append_1 (s := s.arena.op)]
    · omega
end

mutual
/-- Values that are not defined in the cloned code keep their meaning. -/
theorem cloneOps_find : ∀ (o : Ops) (s : Cloning) (v : Value), v ∉ o.defs →
    (cloneOps s o).2.mapping.find v = s.mapping.find v
  | .nil, s, v, _ => rfl
  | .cons h rs rest, s, v, hv => by
    simp only [Ops.defs, List.mem_append, not_or] at hv
    simp only [cloneOps]
    rw [cloneOps_find rest _ v hv.2.2]
    simp only [Cloning.freshen, Cloning.newOp]
    rw [find_zip_not_mem hv.2.1]
    exact cloneRegions_find rs s v hv.1
theorem cloneRegions_find : ∀ (rs : Regions) (s : Cloning) (v : Value), v ∉ rs.defs →
    (cloneRegions s rs).2.mapping.find v = s.mapping.find v
  | .nil, s, v, _ => rfl
  | .cons ps body rest, s, v, hv => by
    simp only [Regions.defs, List.mem_append, not_or] at hv
    simp only [cloneRegions]
    rw [cloneRegions_find rest _ v hv.2.2, cloneOps_find body _ v hv.2.1]
    simp only [Cloning.freshen]
    rw [find_zip_not_mem hv.1]
end

/-- The values visible after the operations. -/
def Ops.after (vis : List Value) : Ops → List Value
  | .nil => vis
  | .cons h _ rest => rest.after (h.results ++ vis)

/-- What the environments have in common. -/
def Agree (s : Cloning) (vis : List Value) (env env' : Env V) : Prop :=
  ∀ v ∈ vis, env v = env' (s.mapping.find v)

/-- Binding of the values `olds` and of their fresh copies. -/
theorem agree_freshen {s : Cloning} {vis olds : List Value} {env env' : Env V} {xs : List V}
    (h : Agree s vis env env') (hb : ∀ v ∈ vis, s.mapping.find v < s.arena.value)
    (hx : olds.length = xs.length) :
    Agree (s.freshen olds).2 (olds ++ vis) (env.bind olds xs) (env'.bind (s.freshen olds).1 xs) := by
  intro v hv
  simp only [Cloning.freshen]
  by_cases ho : v ∈ olds
  · exact bind_rename ho (by simp) hx (by exact List.nodup_range')
  · have hv' : v ∈ vis := by
      rcases List.mem_append.mp hv with h | h
      · exact absurd h ho
      · exact h
    rw [bind_of_not_mem ho, find_zip_not_mem ho, bind_of_not_mem, h v hv']
    intro hm
    have h1 : @LE.le Nat _ s.arena.value (s.mapping.find v) := (List.mem_range'_1.mp hm).1
    have h2 : @LT.lt Nat _ (s.mapping.find v) s.arena.value := hb v hv'
    omega

theorem bounded_freshen {s : Cloning} {vis olds : List Value}
    (hb : ∀ v ∈ vis, s.mapping.find v < s.arena.value) :
    ∀ v ∈ olds ++ vis, (s.freshen olds).2.mapping.find v < (s.freshen olds).2.arena.value := by
  intro v hv
  simp only [Cloning.freshen]
  by_cases ho : v ∈ olds
  · have := find_zip_mem (m := s.mapping) ho
      (by simp : olds.length = (List.range' s.arena.value olds.length).length)
    exact (List.mem_range'_1.mp this).2
  · have hv' : v ∈ vis := by
      rcases List.mem_append.mp hv with h | h
      · exact absurd h ho
      · exact h
    rw [find_zip_not_mem ho]
    show @LT.lt Nat _ _ _
    have h2 : @LT.lt Nat _ (s.mapping.find v) s.arena.value := hb v hv'
    omega

mutual
/-- Running the clones of some operations is running the operations. -/
theorem clone_run (S : Sem V W σ) (c : Sym → List V → W → Option (Result V W)) (k : Nat) :
    ∀ (o : Ops) (s : Cloning) (vis : List Value) (env env' : Env V) (w : W), o.Scoped vis → o.defs.Nodup →
    (∀ v ∈ vis, v ∉ o.defs) → Agree s vis env env' → (∀ v ∈ vis, s.mapping.find v < s.arena.value) →
    RelRes (fun e e' => Agree (cloneOps s o).2 (o.after vis) e e' ∧ ∀ u < s.arena.value, e' u = env' u)
      (o.run S (fun _ => c) k env w) ((cloneOps s o).1.run S (fun _ => c) k env' w)
  | .nil, s, vis, env, env', w, _, _, _, ha, _ => by
    simp only [cloneOps, Ops.run, Ops.after]
    exact .next w ⟨ha, fun _ _ => rfl⟩
  | .cons h rs rest, s, vis, env, env', w, hs, hnd, hd, ha, hb => by
    simp only [Ops.Scoped] at hs
    simp only [Ops.defs] at hnd hd
    rw [List.nodup_append] at hnd
    obtain ⟨hnd1, hnd2, hnd3⟩ := hnd
    rw [List.nodup_append] at hnd2
    obtain ⟨hnd4, hnd5, hnd6⟩ := hnd2
    have hregs := clone_regions S c k rs s vis env env' hs.2.1 hnd1
      (fun v hv hm => hd v hv (by simp [hm])) ha hb
    -- the state after the regions
    have hval := (cloneRegions_defs rs s).2
    have hfind : ∀ v ∈ vis, (cloneRegions s rs).2.newOp.2.mapping.find v = s.mapping.find v :=
      fun v hv => cloneRegions_find rs s v (fun hm => hd v hv (by simp [hm]))
    have ha1 : Agree (cloneRegions s rs).2.newOp.2 vis env env' := fun v hv => by
      rw [hfind v hv]; exact ha v hv
    have hb1 : ∀ v ∈ vis, (cloneRegions s rs).2.newOp.2.mapping.find v
        < (cloneRegions s rs).2.newOp.2.arena.value := fun v hv => by
      rw [hfind v hv]
      have h2 : @LT.lt Nat _ (s.mapping.find v) s.arena.value := hb v hv
      show @LT.lt Nat _ _ (cloneRegions s rs).2.arena.value
      omega
    simp only [cloneOps, Ops.run, Ops.after]
    have hge : s.arena.value ≤ (cloneRegions s rs).2.newOp.2.arena.value := by
      show _ ≤ (cloneRegions s rs).2.arena.value
      omega
    refine RelRes.andThen (R := fun e e' =>
      Agree ((cloneRegions s rs).2.newOp.2.freshen h.results).2 (h.results ++ vis) e e' ∧
        ∀ u < s.arena.value, e' u = env' u) ?_ ?_
    · rw [← hregs]
      apply stepOp_rel
      · rfl
      · rfl
      · simp [Cloning.freshen]
      · exact read_congr fun v hv => ha v (hs.1 v hv)
      · intro vals hlen
        refine ⟨agree_freshen ha1 hb1 hlen, fun u hu => ?_⟩
        apply bind_of_not_mem
        intro hm
        simp only [Cloning.freshen] at hm
        have := (List.mem_range'_1.mp hm).1
        omega
    · intro e e' w ⟨he1, he2⟩
      refine (clone_run S c k rest _ _ e e' w hs.2.2 hnd5 ?_ he1 (bounded_freshen hb1)).mono ?_
      · intro v hv hm
        rcases List.mem_append.mp hv with hv | hv
        · exact hnd6 v hv v hm rfl
        · exact hd v hv (by simp [hm])
      · rintro e1 e1' ⟨h1, h2⟩
        refine ⟨h1, fun u hu => ?_⟩
        rw [h2 u (by simp only [Cloning.freshen]; omega), he2 u hu]
/-- See `clone_run`. -/
theorem clone_regions (S : Sem V W σ) (c : Sym → List V → W → Option (Result V W)) (k : Nat) :
    ∀ (rs : Regions) (s : Cloning) (vis : List Value) (env env' : Env V), rs.Scoped vis → rs.defs.Nodup →
    (∀ v ∈ vis, v ∉ rs.defs) → Agree s vis env env' → (∀ v ∈ vis, s.mapping.find v < s.arena.value) →
    rs.run S (fun _ => c) k env = (cloneRegions s rs).1.run S (fun _ => c) k env'
  | .nil, s, vis, env, env', _, _, _, _, _ => by simp only [cloneRegions, Regions.run]
  | .cons ps body rest, s, vis, env, env', hs, hnd, hd, ha, hb => by
    simp only [Regions.Scoped] at hs
    simp only [Regions.defs] at hnd hd
    rw [List.nodup_append] at hnd
    obtain ⟨hnd1, hnd2, hnd3⟩ := hnd
    rw [List.nodup_append] at hnd2
    obtain ⟨hnd4, hnd5, hnd6⟩ := hnd2
    simp only [cloneRegions, Regions.run]
    have hlen : (s.freshen ps).1.length = ps.length := by simp [Cloning.freshen]
    congr 1
    · funext args w
      rw [hlen]
      by_cases hl : ps.length = args.length
      · rw [if_pos hl, if_pos hl]
        refine (clone_run S c k body _ (ps ++ vis) _ _ w hs.1 hnd4 ?_ (agree_freshen ha hb hl)
          (bounded_freshen hb)).toExit
        intro v hv hm
        rcases List.mem_append.mp hv with hv | hv
        · exact hnd3 v hv v (by simp [hm]) rfl
        · exact hd v hv (by simp [hm])
      · rw [if_neg hl, if_neg hl]
    · have hfind : ∀ v ∈ vis, (cloneOps (s.freshen ps).2 body).2.mapping.find v = s.mapping.find v := by
        intro v hv
        rw [cloneOps_find body _ v (fun hm => hd v hv (by simp [hm]))]
        simp only [Cloning.freshen]
        exact find_zip_not_mem (fun hm => hd v hv (by simp [hm]))
      refine clone_regions S c k rest _ vis env env' hs.2 hnd5 (fun v hv hm => hd v hv (by simp [hm]))
        (fun v hv => by rw [hfind v hv]; exact ha v hv) (fun v hv => ?_)
      rw [hfind v hv, (cloneOps_defs body _).2]
      have h2 : @LT.lt Nat _ (s.mapping.find v) s.arena.value := hb v hv
      simp only [Cloning.freshen]
      show @LT.lt Nat _ _ _
      omega
end

end Verif.Inline
