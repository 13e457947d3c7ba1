import Verif.Inline.Caller
/-!
# The call site
-/
namespace Verif.Inline

variable {V W σ : Type}

theorem lookup_read {env : Env V} {p : Value} : ∀ {keys vs : List Value} {xs : List V}, env.read vs = some xs →
    keys.length = vs.length → (keys.zip xs).lookup p = ((keys.zip vs).lookup p).bind env
  | [], _, _, _, _ => rfl
  | k :: ks, [], _, _, hl => by simp at hl
  | k :: ks, v :: vs, xs, h, hl => by
    simp only [Env.read, Option.bind_eq_bind, Option.bind_eq_some_iff] at h
    obtain ⟨x, hx, ys, hys, h3⟩ := h
    simp only [Option.some.injEq] at h3; subst h3
    simp only [List.zip_cons_cons, List.lookup_cons]
    cases (p == k) with
    | true => simp [hx]
    | false => exact lookup_read hys (by simpa using hl)

theorem lookup_reverse {β : Type} {v : Value} : ∀ {l : List (Value × β)}, (l.map Prod.fst).Nodup →
    l.reverse.lookup v = l.lookup v
  | [], _ => rfl
  | (a, b) :: l, h => by
    simp only [List.map_cons, List.nodup_cons] at h
    rw [List.reverse_cons, lookup_append, lookup_reverse h.2, List.lookup_cons]
    by_cases hv : v = a
    · subst hv
      rw [lookup_none_of_not_mem h.1]
      simp [List.lookup_cons]
    · have : (v == a) = false := by simpa using hv
      rw [this]
      simp [List.lookup_cons, this]

theorem map_fst_zip_nodup {β : Type} {vs : List Value} {xs : List β} (h : vs.Nodup) :
    ((vs.zip xs).map Prod.fst).Nodup := by
  induction vs generalizing xs with
  | nil => simp
  | cons v vs ih =>
    cases xs with
    | nil => simp
    | cons x xs =>
      rw [List.nodup_cons] at h
      simp only [List.zip_cons_cons, List.map_cons, List.nodup_cons]
      refine ⟨fun hm => ?_, ih h.2⟩
      obtain ⟨⟨a, b⟩, hp, rfl⟩ := List.mem_map.mp hm
      exact h.1 (List.of_mem_zip hp).1

mutual
theorem cloneOps_image : ∀ (o : Ops) (s : Cloning) (v : Value), v ∈ o.defs →
    s.arena.value ≤ (cloneOps s o).2.mapping.find v
  | .nil, s, v, h => by simp [Ops.defs] at h
  | .cons h rs rest, s, v, hv => by
    simp only [Ops.defs, List.mem_append] at hv
    have hval := (cloneRegions_defs rs s).2
    simp only [cloneOps]
    by_cases hr : v ∈ rest.defs
    · have := cloneOps_image rest ((cloneRegions s rs).2.newOp.2.freshen h.results).2 v hr
      refine Nat.le_trans ?_ this
      simp only [Cloning.freshen, Cloning.newOp]
      omega
    · rw [cloneOps_find rest _ v hr]
      by_cases hres : v ∈ h.results
      · simp only [Cloning.freshen, Cloning.newOp]
        have := find_zip_mem (m := (cloneRegions s rs).2.mapping) hres
          (by simp : h.results.length = (List.range' (cloneRegions s rs).2.arena.value h.results.length).length)
        refine Nat.le_trans ?_ (List.mem_range'_1.mp this).1
        omega
      · simp only [Cloning.freshen, Cloning.newOp]
        rw [find_zip_not_mem hres]
        exact cloneRegions_image rs s v (by tauto)
theorem cloneRegions_image : ∀ (rs : Regions) (s : Cloning) (v : Value), v ∈ rs.defs →
    s.arena.value ≤ (cloneRegions s rs).2.mapping.find v
  | .nil, s, v, h => by simp [Regions.defs] at h
  | .cons ps body rest, s, v, hv => by
    simp only [Regions.defs, List.mem_append] at hv
    have hval := (cloneOps_defs body (s.freshen ps).2).2
    have hval' : (s.freshen ps).2.arena.value = s.arena.value + ps.length := rfl
    simp only [cloneRegions]
    by_cases hr : v ∈ rest.defs
    · have := cloneRegions_image rest (cloneOps (s.freshen ps).2 body).2 v hr
      refine Nat.le_trans ?_ this
      omega
    · rw [cloneRegions_find rest _ v hr]
      by_cases hb : v ∈ body.defs
      · refine Nat.le_trans ?_ (cloneOps_image body _ v hb)
        omega
      · rw [cloneOps_find body _ v hb]
        have hp : v ∈ ps := by tauto
        have := find_zip_mem (m := s.mapping) hp
          (by simp : ps.length = (List.range' s.arena.value ps.length).length)
        exact (List.mem_range'_1.mp this).1
end

mutual
theorem Ops.Scoped.mono : ∀ {o : Ops} {vis vis' : List Value}, o.Scoped vis → (∀ v ∈ vis, v ∈ vis') → o.Scoped vis'
  | .nil, _, _, _, _ => trivial
  | .cons h rs rest, vis, vis', hs, hv => by
    simp only [Ops.Scoped] at hs ⊢
    refine ⟨fun v hm => hv v (hs.1 v hm), hs.2.1.mono hv, hs.2.2.mono fun v hm => ?_⟩
    rcases List.mem_append.mp hm with h | h
    · simp [h]
    · simp [hv v h]
theorem Regions.Scoped.mono : ∀ {rs : Regions} {vis vis' : List Value}, rs.Scoped vis → (∀ v ∈ vis, v ∈ vis') →
    rs.Scoped vis'
  | .nil, _, _, _, _ => trivial
  | .cons ps body rest, vis, vis', hs, hv => by
    simp only [Regions.Scoped] at hs ⊢
    refine ⟨hs.1.mono fun v hm => ?_, hs.2.mono hv⟩
    rcases List.mem_append.mp hm with h | h
    · simp [h]
    · simp [hv v h]
end

/-- Visibility under a mapping extended by fresh copies. -/
theorem visible_freshen {s : Cloning} {vis vis' olds : List Value}
    (h : ∀ v ∈ vis, s.mapping.find v ∈ vis') :
    ∀ v ∈ olds ++ vis, (s.freshen olds).2.mapping.find v ∈ (s.freshen olds).1 ++ vis' := by
  intro v hv
  simp only [Cloning.freshen]
  by_cases ho : v ∈ olds
  · exact List.mem_append_left _ (find_zip_mem ho (by simp))
  · rw [find_zip_not_mem ho]
    rcases List.mem_append.mp hv with hm | hm
    · exact absurd hm ho
    · exact List.mem_append_right _ (h v hm)

mutual
theorem clone_scoped : ∀ (o : Ops) (s : Cloning) (vis vis' : List Value), o.Scoped vis → o.defs.Nodup →
    (∀ v ∈ vis, v ∉ o.defs) → (∀ v ∈ vis, s.mapping.find v ∈ vis') →
    (cloneOps s o).1.Scoped vis' ∧ ∀ v ∈ o.after vis, (cloneOps s o).2.mapping.find v ∈ (cloneOps s o).1.after vis'
  | .nil, s, vis, vis', _, _, _, h => ⟨trivial, h⟩
  | .cons h rs rest, s, vis, vis', hs, hnd, hd, hv => by
    simp only [Ops.Scoped] at hs
    simp only [Ops.defs] at hnd hd
    rw [List.nodup_append] at hnd
    obtain ⟨hnd1, hnd2, hnd3⟩ := hnd
    rw [List.nodup_append] at hnd2
    obtain ⟨hnd4, hnd5, hnd6⟩ := hnd2
    have hfind : ∀ v ∈ vis, (cloneRegions s rs).2.newOp.2.mapping.find v ∈ vis' := fun v hm => by
      have : (cloneRegions s rs).2.newOp.2.mapping.find v = s.mapping.find v :=
        cloneRegions_find rs s v (fun hm' => hd v hm (by simp [hm']))
      rw [this]; exact hv v hm
    have := clone_scoped rest ((cloneRegions s rs).2.newOp.2.freshen h.results).2 (h.results ++ vis)
      (((cloneRegions s rs).2.newOp.2.freshen h.results).1 ++ vis') hs.2.2 hnd5 (fun v hm hm' => by
        rcases List.mem_append.mp hm with hm | hm
        · exact hnd6 v hm v hm' rfl
        · exact hd v hm (by simp [hm'])) (visible_freshen hfind)
    simp only [cloneOps, Ops.Scoped, Ops.after]
    refine ⟨⟨?_, ?_, this.1⟩, this.2⟩
    · intro v hm
      obtain ⟨u, hu, rfl⟩ := List.mem_map.mp hm
      exact hv u (hs.1 u hu)
    · exact clone_scoped_regions rs s vis vis' hs.2.1 hnd1 (fun v hm hm' => hd v hm (by simp [hm'])) hv
theorem clone_scoped_regions : ∀ (rs : Regions) (s : Cloning) (vis vis' : List Value), rs.Scoped vis →
    rs.defs.Nodup → (∀ v ∈ vis, v ∉ rs.defs) → (∀ v ∈ vis, s.mapping.find v ∈ vis') →
    (cloneRegions s rs).1.Scoped vis'
  | .nil, s, vis, vis', _, _, _, h => trivial
  | .cons ps body rest, s, vis, vis', hs, hnd, hd, hv => by
    simp only [Regions.Scoped] at hs
    simp only [Regions.defs] at hnd hd
    rw [List.nodup_append] at hnd
    obtain ⟨hnd1, hnd2, hnd3⟩ := hnd
    rw [List.nodup_append] at hnd2
    obtain ⟨hnd4, hnd5, hnd6⟩ := hnd2
    simp only [cloneRegions, Regions.Scoped]
    refine ⟨(clone_scoped body _ _ _ hs.1 hnd4 (fun v hm hm' => ?_) (visible_freshen hv)).1, ?_⟩
    · rcases List.mem_append.mp hm with hm | hm
      · exact hnd3 v hm v (by simp [hm']) rfl
      · exact hd v hm (by simp [hm'])
    · refine clone_scoped_regions rest _ vis vis' hs.2 hnd5 (fun v hm hm' => hd v hm (by simp [hm'])) ?_
      intro v hm
      rw [cloneOps_find body _ v (fun hm' => hd v hm (by simp [hm']))]
      simp only [Cloning.freshen]
      rw [find_zip_not_mem (fun hm' => hd v hm (by simp [hm']))]
      exact hv v hm
end

/-! ## The callee -/

/-- What is known about a callee that is spliced in. -/
structure Callee (entry : Block) (body : Ops) (last : Head) (rs : Regions) : Prop where
  ops : entry.ops = body.append (.cons last rs .nil)
  ret : last.kind = .ret
  visible : entry.ops.Scoped entry.params
  nodup : (entry.params ++ entry.ops.defs).Nodup
  straight : body.Straight

/-- The state in which the clone starts. -/
def startState (entry : Block) (operands : List Value) (arena : Arena) : Cloning :=
  ⟨(entry.params.zip operands).reverse, arena⟩

theorem start_lookup {entry : Block} {operands : List Value} {arena : Arena} (hnd : entry.params.Nodup)
    (p : Value) : (startState entry operands arena).mapping.find p = ((entry.params.zip operands).lookup p).getD p := by
  simp only [startState, Mapping.find]
  rw [lookup_reverse (map_fst_zip_nodup hnd)]

theorem start_mem {entry : Block} {operands : List Value} {arena : Arena} (hnd : entry.params.Nodup)
    (hl : entry.params.length = operands.length) {p : Value} (hp : p ∈ entry.params) :
    (startState entry operands arena).mapping.find p ∈ operands := by
  rw [start_lookup hnd]
  obtain ⟨x, hx, h⟩ := lookup_zip_some (xs := operands) hp hl
  rw [h]; exact hx

section
variable {entry : Block} {body : Ops} {last : Head} {rs : Regions}

theorem Callee.parts (h : Callee entry body last rs) : entry.params.Nodup ∧ body.defs.Nodup ∧
    (∀ v ∈ entry.params, v ∉ body.defs) ∧ body.Scoped entry.params ∧
    ∀ v ∈ last.operands, v ∈ body.after entry.params := by
  have hnd := h.nodup
  have hs := h.visible
  rw [h.ops] at hnd hs
  rw [Ops.defs_append] at hnd
  rw [Ops.scoped_append] at hs
  rw [List.nodup_append, List.nodup_append] at hnd
  refine ⟨hnd.1, hnd.2.1.1, fun v hv hm => hnd.2.2 v hv v (by simp [hm]) rfl, hs.1, ?_⟩
  simp only [Ops.Scoped] at hs
  exact hs.2.1

/-- The callee, run on its own and in place of the call. -/
theorem Callee.run (h : Callee entry body last rs) (S : Sem V W σ) (c : Sym → List V → W → Option (Result V W))
    (k : Nat) {operands : List Value} (arena : Arena) (hl : entry.params.length = operands.length)
    {env' : Env V} {xs : List V} (hread : env'.read operands = some xs)
    (hlt : ∀ v ∈ operands, v < arena.value) (w : W) :
    (∃ (e e' : Env V) (w' : W) (vals : List V),
      (cloneOps (startState entry operands arena) body).1.run S (fun _ => c) k env' w = some (.next e' w') ∧
      entry.run S (fun _ => c) k xs w = some (.ret vals w') ∧ e.read last.operands = some vals ∧
      e'.read (last.operands.map (cloneOps (startState entry operands arena) body).2.mapping.find) = some vals ∧
      ∀ u < arena.value, e' u = env' u) ∨
    (∃ r : Result V W, r.isRet = false ∧
      (cloneOps (startState entry operands arena) body).1.run S (fun _ => c) k env' w = some (.exit (.ends r)) ∧
      entry.run S (fun _ => c) k xs w = some r) ∨
    ((cloneOps (startState entry operands arena) body).1.run S (fun _ => c) k env' w = none ∧
      entry.run S (fun _ => c) k xs w = none) := by
  obtain ⟨hp, hbd, hdis, hsc, hlast⟩ := h.parts
  have hxl : entry.params.length = xs.length := hl.trans (read_length hread)
  have hagree : Agree (startState entry operands arena) entry.params
      (Env.bind (fun _ => none) entry.params xs) env' := by
    intro v hv
    rw [start_lookup hp]
    obtain ⟨x, hx, hlk⟩ := lookup_zip_some (xs := operands) hv hl
    simp only [Env.bind]
    rw [lookup_read hread hl, hlk]
    simp
  have hrel := clone_run S c k body (startState entry operands arena) entry.params _ env' w hsc hbd hdis hagree
    (fun v hv => hlt _ (start_mem hp hl hv))
  have hrun : entry.run S (fun _ => c) k xs w = (andThen (body.run S (fun _ => c) k
      (Env.bind (fun _ => none) entry.params xs) w)
      ((Ops.cons last rs .nil).run S (fun _ => c) k)).map fun r => r.toExit.toResult := by
    unfold Block.run
    rw [if_pos hxl, h.ops, run_append]
  rw [hrun]
  cases hb : body.run S (fun _ => c) k (Env.bind (fun _ => none) entry.params xs) w with
  | none =>
    rw [hb] at hrel
    generalize (cloneOps (startState entry operands arena) body).1.run S (fun _ => c) k env' w = y at hrel ⊢
    cases hrel
    exact Or.inr (Or.inr ⟨rfl, rfl⟩)
  | some x =>
    rw [hb] at hrel
    cases x with
    | exit e =>
      obtain ⟨r, rfl, hr⟩ := straight_run S _ k h.straight hb
      generalize (cloneOps (startState entry operands arena) body).1.run S (fun _ => c) k env' w = y at hrel ⊢
      cases hrel
      exact Or.inr (Or.inl ⟨r, hr, rfl, rfl⟩)
    | next e w' =>
      have hdef := run_defined S _ k (vis := entry.params) (fun v hv => by
        have := bind_defined (env := fun _ => none) (vis := []) hxl (by simp) v (by simpa using hv)
        exact this) hb
      obtain ⟨vals, hvals⟩ := read_defined (env := e) (fun v hv => hdef v (hlast v hv))
      generalize (cloneOps (startState entry operands arena) body).1.run S (fun _ => c) k env' w = y at hrel ⊢
      cases hrel with
      | next w' hR =>
        rename_i e'
        refine Or.inl ⟨e, e', w', vals, rfl, ?_, hvals, ?_, hR.2⟩
        · simp [andThen, Ops.run, stepOp, hvals, h.ret, Res.toExit, Exit.toResult]
        · rw [read_congr fun v hv => hR.1 v (hlast v hv)]
          exact hvals

/-- The values the callee's returned values are mapped to: operands of the call, or fresh ones. -/
theorem Callee.values (h : Callee entry body last rs) {operands : List Value} (arena : Arena)
    (hl : entry.params.length = operands.length) :
    ∀ v ∈ last.operands.map (cloneOps (startState entry operands arena) body).2.mapping.find,
      v ∈ operands ∨ arena.value ≤ v := by
  obtain ⟨hp, hbd, hdis, hsc, hlast⟩ := h.parts
  intro v hv
  obtain ⟨u, hu, rfl⟩ := List.mem_map.mp hv
  by_cases hd : u ∈ body.defs
  · exact Or.inr (cloneOps_image body (startState entry operands arena) u hd)
  · have := (Ops.mem_after (hlast u hu)).resolve_right hd
    rw [cloneOps_find body _ u hd]
    exact Or.inl (start_mem hp hl this)

theorem Callee.clones_scoped (h : Callee entry body last rs) {operands : List Value} (arena : Arena)
    (hl : entry.params.length = operands.length) :
    (cloneOps (startState entry operands arena) body).1.Scoped operands ∧
    ∀ v ∈ last.operands.map (cloneOps (startState entry operands arena) body).2.mapping.find,
      v ∈ (cloneOps (startState entry operands arena) body).1.after operands := by
  obtain ⟨hp, hbd, hdis, hsc, hlast⟩ := h.parts
  have := clone_scoped body (startState entry operands arena) entry.params operands hsc hbd hdis
    (fun v hv => start_mem hp hl hv)
  refine ⟨this.1, fun v hv => ?_⟩
  obtain ⟨u, hu, rfl⟩ := List.mem_map.mp hv
  exact this.2 u (hlast u hu)

/-- The oracle that runs the callee's block at the call site, and asks `c` elsewhere. -/
def siteOracle (S : Sem V W σ) (c : Sym → List V → W → Option (Result V W)) (k : Nat) (t : OpId) (name : Sym)
    (entry : Block) : Oracle V W :=
  fun i g args w => if i = t ∧ g = name then entry.run S (fun _ => c) k args w else c g args w

/-- A regular call. -/
theorem Callee.site_call (h : Callee entry body last rs) (S : Sem V W σ)
    (c : Sym → List V → W → Option (Result V W)) (k : Nat) {call : Head} {g : Sym} (arena : Arena)
    (hk : call.kind = .call (some g)) (hl : entry.params.length = call.operands.length)
    (hlt : ∀ v ∈ call.operands, v < arena.value ∧ v ∉ call.results) (hres : ∀ v ∈ call.results, v < arena.value)
    (hnd : call.results.Nodup) (hlen : call.results.length = last.operands.length) :
    Site S k (siteOracle S c k call.id g entry) (fun _ => c) call arena.value
      (cloneOps (startState entry call.operands arena) body).1
      (renameAll (call.results.zip
        (last.operands.map (cloneOps (startState entry call.operands arena) body).2.mapping.find))) := by
  have hval := h.values arena hl
  have hvr : ∀ x ∈ last.operands.map (cloneOps (startState entry call.operands arena) body).2.mapping.find,
      x ∉ call.results := by
    intro x hx hm
    rcases hval x hx with h | h
    · exact (hlt x h).2 hm
    · exact absurd (hres x hm) (Nat.not_lt.mpr h)
  have hlook : ∀ v ∈ call.results, (call.results.zip
      (last.operands.map (cloneOps (startState entry call.operands arena) body).2.mapping.find)).lookup v =
      some (renameAll (call.results.zip
        (last.operands.map (cloneOps (startState entry call.operands arena) body).2.mapping.find)) v) :=
    fun v hv => renameAll_lookup hnd hvr (by simpa using hlen) hv
  refine ⟨fun v hv => renameAll_not_mem hv, fun v hv => ?_, ?_, fun i hi => ?_, ?_⟩
  · obtain ⟨x, hx, hx'⟩ := lookup_zip_some (xs := last.operands.map
      (cloneOps (startState entry call.operands arena) body).2.mapping.find) hv (by simpa using hlen)
    rw [hlook v hv, Option.some.injEq] at hx'
    rw [hx']
    exact hval x hx
  · refine Ops.rename_eq (h.clones_scoped arena hl).1 (fun v hv => renameAll_not_mem (hlt v hv).2) ?_
    intro v hv
    apply renameAll_not_mem
    intro hm
    rw [(cloneOps_defs body _).1] at hv
    exact absurd (hres v hm) (Nat.not_lt.mpr (List.mem_range'_1.mp hv).1)
  · funext g args w; simp [siteOracle, hi]
  · intro vis env env' regs w hops hvis he
    obtain ⟨xs, hxs⟩ := read_defined (env := env) (fun v hv => (he v (hops v hv)).2)
    have hxs' : env'.read call.operands = some xs := by
      rw [← hxs, ← read_congr (ρ := id) (env' := env') (fun v hv => (he v (hops v hv)).1), List.map_id]
    have hstep : stepOp S (siteOracle S c k call.id g entry) k call regs env w =
        afterCall env call.results (entry.run S (fun _ => c) k xs w) := by
      simp [stepOp, hxs, hk, siteOracle]
    rw [hstep]
    rcases h.run S c k arena hl hxs' (fun v hv => (hlt v hv).1) w with
      ⟨e, e', w', vals, h1, h2, h3, h4, h5⟩ | ⟨r, hr, h1, h2⟩ | ⟨h1, h2⟩
    · rw [h1, h2]
      have hl' : call.results.length = vals.length := hlen.trans (read_length h3)
      simp only [afterCall, give, if_pos hl']
      refine .next w' fun v hv => ⟨?_, bind_defined hl' (fun v hv => (he v hv).2) v hv⟩
      by_cases hm : v ∈ call.results
      · simp only [Env.bind]
        rw [lookup_read h4 (by simpa using hlen), hlook v hm]
        obtain ⟨x, _, hx⟩ := lookup_zip_some (xs := vals) hm hl'
        have := lookup_read (p := v) h4 (keys := call.results) (by simpa using hlen)
        rw [hlook v hm, hx, Option.bind_some] at this
        simp [← this]
      · have hv' : v ∈ vis := (List.mem_append.mp hv).resolve_left hm
        rw [bind_of_not_mem hm, renameAll_not_mem hm, h5 v (hvis v hv').2]
        exact (he v hv').1
    · rw [h1, h2]
      cases r with
      | ret _ _ => simp [Result.isRet] at hr
      | trap w => exact .exit _
      | stuck => exact .exit _
    · rw [h1, h2]; exact .none

/-- A tail call. -/
theorem Callee.site_tail (h : Callee entry body last rs) (S : Sem V W σ)
    (c : Sym → List V → W → Option (Result V W)) (k : Nat) {call ret : Head} {g : Sym} (arena : Arena)
    (hk : call.kind = .tailCall (some g)) (hl : entry.params.length = call.operands.length)
    (hlt : ∀ v ∈ call.operands, v < arena.value) (hret : ret.kind = .ret)
    (hops : ret.operands = last.operands.map (cloneOps (startState entry call.operands arena) body).2.mapping.find)
    (hnil : call.results = []) :
    Site S k (siteOracle S c k call.id g entry) (fun _ => c) call arena.value
      ((cloneOps (startState entry call.operands arena) body).1.append (.cons ret .nil .nil)) id := by
  refine ⟨fun v hv => rfl, fun v hv => by simp [hnil] at hv, Ops.rename_id _, fun i hi => ?_, ?_⟩
  · funext g args w; simp [siteOracle, hi]
  · intro vis env env' regs w hvo hvis he
    obtain ⟨xs, hxs⟩ := read_defined (env := env) (fun v hv => (he v (hvo v hv)).2)
    have hxs' : env'.read call.operands = some xs := by
      rw [← hxs, ← read_congr (ρ := id) (env' := env') (fun v hv => (he v (hvo v hv)).1), List.map_id]
    have hstep : stepOp S (siteOracle S c k call.id g entry) k call regs env w =
        afterTail (entry.run S (fun _ => c) k xs w) := by
      simp [stepOp, hxs, hk, siteOracle]
    rw [hstep, run_append]
    rcases h.run S c k arena hl hxs' hlt w with
      ⟨e, e', w', vals, h1, h2, h3, h4, h5⟩ | ⟨r, hr, h1, h2⟩ | ⟨h1, h2⟩
    · rw [h1, h2]
      simp only [afterTail, andThen, Ops.run, stepOp, hops, h4, hret]
      exact .exit _
    · rw [h1, h2]; exact .exit _
    · rw [h1, h2]; exact .none

end

end Verif.Inline
