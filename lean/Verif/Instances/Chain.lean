import Verif.Instances.Succeeds

/-!
# Programs that need many rounds
-/

namespace Verif.Instances
open Verif.Types Verif.Mono

def tInt : Ty := .node (.prim 0) [] [] none
def tVar : Ty := .node (.bound 0) [] [] none
def fn1 (a b : Ty) : Ty := .node (.func 0) [a, b] [] none
def sId : Scheme.PolyTy := ⟨1, [], fn1 tVar tVar⟩

def node (n : Nat) : NodeId := ⟨n, none⟩
def letters : Names := fun _ => ['L']

theorem instOf_fn {a b c : Ty} {ts : List Ty} (h : InstOf ts (fn1 a b) c) :
    ∃ m ks es r, c = .node (.func m) ks es r ∧ InstOfL ts [a, b] ks := by
  simp only [fn1, InstOf] at h
  exact h

theorem instOf_sId {ts : List Ty} {a b : Ty} (h : InstOf ts (fn1 tVar tVar) (fn1 a b)) : ts[0]? = some a := by
  simp only [fn1, tVar, InstOf, InstOfL] at h
  obtain ⟨m, ks, es, r, he, c, cs, hc, h0, _⟩ := h
  simp only [Ty.node.injEq] at he
  rw [← he.2.1] at hc
  simp only [List.cons.injEq] at hc
  rw [hc.1]; exact h0

theorem one_arg {ts : List Ty} {a : Ty} (hl : ts.length = 1) (h : ts[0]? = some a) : ts = [a] := by
  match ts, hl with
  | [x], _ => simpa using h

theorem lookup_key {β : Type} (key : Nat → Name) (val : Nat → β) (hk : ∀ i j, key i = key j → i = j)
    (l : List Nat) (k : Nat) (hm : k ∈ l) : (l.map fun i => (key i, val i)).lookup (key k) = some (val k) := by
  induction l with
  | nil => simp at hm
  | cons a l ih =>
    by_cases h : k = a
    · subst h; simp
    · have hne : (key k == key a) = false := by simpa using fun e => h (hk _ _ e)
      simp only [List.map_cons, List.lookup_cons, hne]
      exact ih ((List.mem_cons.mp hm).resolve_left h)

/-! ## A chain of functions -/

/-- The name of the `k`-th function of the chain: `f`, `ff`, … -/
def link (k : Nat) : Name := List.replicate (k + 1) 'f'

/-- `fn fk(x: a) -> a { fk1(x) }`, the last one `fn fk(x: a) -> a { x }`. -/
def linkBody (m k : Nat) : Expr :=
  if k + 1 < m then .call (node 2) (.var (node 3) ⟨.func (link (k + 1)), fn1 tVar tVar⟩) [.var (node 4) ⟨.loc 0, tVar⟩]
  else .var (node 4) ⟨.loc 0, tVar⟩

/-- `fn m() -> Int { f(7) }`. -/
def startBody : Expr := .call (node 1) (.var (node 3) ⟨.func (link 0), fn1 tInt tInt⟩) [.lit (node 4) 7]

/-- A chain of `m` generic functions, each calling the next one, and a function that calls the
first one on an integer. -/
def chain (m : Nat) : List Decl :=
  .func (node 0) ['m'] [] startBody :: (List.range m).map fun k => .func (node 0) (link k) [0] (linkBody m k)

def chainEnv (m : Nat) : Env where
  nm := letters
  ss := (List.range m).map fun k => (link k, sId)
  hash := fun _ => 0

theorem link_inj : ∀ i j, link i = link j → i = j := by
  intro i j h
  have := congrArg List.length h
  simpa [link] using this

theorem link_plain (k : Nat) : '$' ∉ link k := by
  intro h
  have := (List.mem_replicate.mp h).2
  exact absurd this (by decide)

theorem funs_links (m : Nat) (l : List Nat) : funsL [] (l.map fun k => Decl.func (node 0) (link k) [0] (linkBody m k)) =
    l.map fun k => (link k, ⟨node 0, [0], linkBody m k⟩) := by
  induction l with
  | nil => rfl
  | cons a l ih => simp [funsL, funs, qualify, ih]

theorem chain_functions (m : Nat) : functions (chain m) =
    (['m'], ⟨node 0, [], startBody⟩) :: (List.range m).map fun k => (link k, ⟨node 0, [0], linkBody m k⟩) := by
  simp only [functions, chain, funsL, funs, qualify, if_true, funs_links]
  rfl

theorem chain_mem {m : Nat} {n : Name} {f : Fun} (h : (n, f) ∈ functions (chain m)) :
    (n = ['m'] ∧ f = ⟨node 0, [], startBody⟩) ∨ ∃ k < m, n = link k ∧ f = ⟨node 0, [0], linkBody m k⟩ := by
  rw [chain_functions] at h
  cases List.mem_cons.mp h with
  | inl h => simp only [Prod.mk.injEq] at h; exact .inl h
  | inr h =>
    obtain ⟨k, hk, he⟩ := List.mem_map.mp h
    simp only [Prod.mk.injEq] at he
    exact .inr ⟨k, List.mem_range.mp hk, he.1.symm, he.2.symm⟩

theorem chain_lookup {m k : Nat} (h : k < m) :
    (functions (chain m)).lookup (link k) = some ⟨node 0, [0], linkBody m k⟩ := by
  rw [chain_functions]
  have hne : (link k == ['m']) = false := by
    simp only [link, List.replicate_succ]
    rw [beq_eq_false_iff_ne]
    intro h
    simp only [List.cons.injEq] at h
    exact absurd h.1 (by decide)
  simp only [List.lookup_cons, hne]
  exact lookup_key link _ link_inj _ k (List.mem_range.mpr h)

theorem chain_scheme {m : Nat} {n : Name} {s : Scheme.PolyTy} (h : (chainEnv m).ss.lookup n = some s) :
    s = sId ∧ ∃ k < m, n = link k := by
  obtain ⟨k, hk, he⟩ := List.mem_map.mp (lookup_mem h)
  simp only [Prod.mk.injEq] at he
  exact ⟨he.2.symm, k, List.mem_range.mp hk, he.1.symm⟩

theorem chain_scheme' {m k : Nat} (h : k < m) : (chainEnv m).ss.lookup (link k) = some sId :=
  lookup_key link (fun _ => sId) link_inj _ k (List.mem_range.mpr h)

theorem start_uses : usesE startBody = [(node 3, ⟨.func (link 0), fn1 tInt tInt⟩)] := by
  simp [startBody, usesE, usesEs]

theorem link_uses {m k : Nat} {u : NodeId × TRef} (h : u ∈ usesE (linkBody m k)) :
    (k + 1 < m ∧ u = (node 3, ⟨.func (link (k + 1)), fn1 tVar tVar⟩)) ∨ u = (node 4, ⟨.loc 0, tVar⟩) := by
  simp only [linkBody] at h
  split at h
  · rename_i hk
    simp only [usesE, usesEs, List.append_nil, List.cons_append, List.nil_append, List.mem_cons,
      List.not_mem_nil, or_false] at h
    cases h with
    | inl h => exact .inl ⟨hk, h⟩
    | inr h => exact .inr h
  · simp only [usesE, List.mem_singleton] at h
    exact .inr h

theorem chain_source (m : Nat) : Source (chainEnv m) (chain m) := by
  refine ⟨fun n s h => ?_, fun n f h => ?_, fun n f h u hu g hg => ?_⟩
  · obtain ⟨_, k, _, rfl⟩ := chain_scheme h
    exact link_plain k
  · cases chain_mem h with
    | inl h => rw [h.1]; decide
    | inr h => obtain ⟨k, _, rfl, _⟩ := h; exact link_plain k
  · cases chain_mem h with
    | inl h =>
      rw [h.2, start_uses] at hu
      simp only [List.mem_singleton] at hu
      subst hu
      simp only [Res.func.injEq] at hg
      subst hg
      exact link_plain 0
    | inr h =>
      obtain ⟨k, _, _, rfl⟩ := h
      cases link_uses hu with
      | inl h => obtain ⟨_, rfl⟩ := h; simp only [Res.func.injEq] at hg; subst hg; exact link_plain _
      | inr h => subst h; simp at hg

theorem chain_checked (m : Nat) (ct : Table) (h0 : ct = []) : Checked (chainEnv m) (chain m) ct := by
  subst h0
  refine ⟨fun n s h => ?_, fun n f h u hu => ?_, fun n f h => ?_, fun _ _ _ _ _ t ht => by simp at ht,
    fun _ t ht => by simp at ht⟩
  · obtain ⟨rfl, _⟩ := chain_scheme h
    refine ⟨by simp [sId, fn1, tVar, WF, WFL], by simp [sId, fn1, tVar, Plain, PlainL], fun i hi => ?_⟩
    simp only [sId] at hi
    simp [sId, fn1, tVar, Shows, ShowsL]; omega
  · cases chain_mem h with
    | inl h =>
      rw [h.2, start_uses] at hu
      simp only [List.mem_singleton] at hu
      subst hu
      simp [fn1, tInt, Formed, FormedL, FormedE, Shaped]
    | inr h =>
      obtain ⟨k, _, _, rfl⟩ := h
      cases link_uses hu with
      | inl h => obtain ⟨_, rfl⟩ := h; simp [fn1, tVar, Formed, FormedL, FormedE, Shaped]
      | inr h => subst h; simp [tVar, Formed, FormedL, FormedE, Shaped]
  · cases chain_mem h with
    | inl h => rw [h.2]; simp [startBody, nodes, nodesE, nodesEs, node]
    | inr h =>
      obtain ⟨k, _, _, rfl⟩ := h
      simp only [linkBody]
      split <;> simp [nodes, nodesE, nodesEs, node]

theorem usedAt_int {m k : Nat} (h : k < m) : UsedAt (chainEnv m) (link k) (fn1 tInt tInt) [tInt] :=
  ⟨sId, chain_scheme' h, by simp [sId], rfl, by simp [sId, fn1, tVar, tInt, InstOf, InstOfL], by simp [tInt, concrete]⟩

theorem usedAt_fn {m : Nat} {g : Name} {a b : Ty} {ts : List Ty} (h : UsedAt (chainEnv m) g (fn1 a b) ts) :
    ts = [a] ∧ concrete a = true := by
  obtain ⟨s, hs, _, hl, hin, hcon⟩ := h
  obtain ⟨rfl, _⟩ := chain_scheme hs
  have := one_arg hl (instOf_sId hin)
  subst this
  exact ⟨rfl, hcon a (by simp)⟩

/-- The `k`-th function is needed at integers, at level `k` and no other. -/
theorem chain_needed {m j : Nat} {i : Inst} (h : Needed (chainEnv m) (chain m) j i) :
    j < m ∧ i = (link j, [tInt]) := by
  induction h with
  | source hf hu hr hused =>
    cases chain_mem hf with
    | inl h =>
      rw [h.2, start_uses] at hu
      simp only [List.mem_singleton] at hu
      subst hu
      simp only [Res.func.injEq] at hr
      subst hr
      obtain ⟨rfl, _⟩ := usedAt_fn hused
      obtain ⟨s, hs, _⟩ := hused
      obtain ⟨_, k, hk, he⟩ := chain_scheme hs
      rw [link_inj _ _ he] at *
      exact ⟨by omega, rfl⟩
    | inr h =>
      obtain ⟨k, _, _, rfl⟩ := h
      cases link_uses hu with
      | inl h =>
        obtain ⟨_, rfl⟩ := h
        have := (usedAt_fn hused).2
        simp [tVar, concrete] at this
      | inr h => subst h; simp at hr
  | @copy k h us f u g c ts hnd hf hu hr hs hused ih =>
    obtain ⟨hk, he⟩ := ih
    simp only [Prod.mk.injEq] at he
    obtain ⟨rfl, rfl⟩ := he
    rw [chain_lookup hk] at hf
    simp only [Option.some.injEq] at hf
    subst hf
    cases link_uses hu with
    | inl h =>
      obtain ⟨hlt, rfl⟩ := h
      simp only [Res.func.injEq] at hr
      subst hr
      have hc : c = fn1 tInt tInt := by
        have : Scheme.substB [tInt] (fn1 tVar tVar) = .ok (fn1 tInt tInt) := rfl
        simp only at hs
        rw [this] at hs
        simpa using hs.symm
      subst hc
      rw [(usedAt_fn hused).1]
      exact ⟨hlt, rfl⟩
    | inr h => subst h; simp at hr

theorem chain_needs {m : Nat} : ∀ {k : Nat}, k < m → Needed (chainEnv m) (chain m) k (link k, [tInt]) := by
  intro k
  induction k with
  | zero =>
    intro h
    exact .source (n := ['m']) (f := ⟨node 0, [], startBody⟩) (u := (node 3, ⟨.func (link 0), fn1 tInt tInt⟩))
      (by rw [chain_functions]; exact .head _) (by rw [start_uses]; exact .head _) rfl (usedAt_int h)
  | succ k ih =>
    intro h
    refine .copy (u := (node 3, ⟨.func (link (k + 1)), fn1 tVar tVar⟩)) (c := fn1 tInt tInt) (ih (by omega))
      (chain_lookup (by omega)) ?_ rfl rfl (usedAt_int h)
    simp [linkBody, h, usesE, usesEs]

theorem chain_noClash (m : Nat) : NoClash (chainEnv m) (chain m) := by
  intro j k a b ha hb _
  rw [(chain_needed ha).2, (chain_needed hb).2]

theorem chain_fits {m j : Nat} {i : Inst} (h : Needed (chainEnv m) (chain m) j i) :
    Fits (chainEnv m) (chain m) [] [] i := by
  obtain ⟨hj, rfl⟩ := chain_needed h
  refine ⟨⟨link j ++ "$Int".toList, rfl⟩, fun s hs => ?_, fun f hf u hu => ?_, fun f hf r hr => ?_, fun f hf id _ t ht => by
    simp at ht⟩
  · obtain ⟨rfl, _⟩ := chain_scheme hs
    exact ⟨_, rfl⟩
  · rw [chain_lookup hj] at hf
    simp only [Option.some.injEq] at hf
    subst hf
    cases link_uses hu with
    | inl h => obtain ⟨_, rfl⟩ := h; exact ⟨_, rfl⟩
    | inr h => subst h; exact ⟨_, rfl⟩
  · rw [chain_lookup hj] at hf
    simp only [Option.some.injEq] at hf
    subst hf
    simp only [linkBody] at hr
    split at hr <;> simp [tagsE, tagsEs] at hr

/-! ## A function that calls itself at a larger type -/

def tList (t : Ty) : Ty := .node (.named 0 0) [t] [] none
def lists : Nat → Ty
  | 0 => tInt
  | k + 1 => tList (lists k)

def sGrow : Scheme.PolyTy := ⟨1, [], fn1 tVar tInt⟩

/-- `fn g(x: a) -> Int { g([x]) }`. -/
def growBody : Expr :=
  .call (node 2) (.var (node 3) ⟨.func ['g'], fn1 (tList tVar) tInt⟩) [.list (node 5) [.var (node 4) ⟨.loc 0, tVar⟩]]

/-- `fn m() -> Int { g(7) }`. -/
def growStart : Expr := .call (node 1) (.var (node 3) ⟨.func ['g'], fn1 tInt tInt⟩) [.lit (node 4) 7]

def grow : List Decl := [.func (node 0) ['m'] [] growStart, .func (node 0) ['g'] [0] growBody]

mutual
def depth : Ty → Nat
  | .uni _ => 0
  | .node _ ks _ _ => 1 + depthL ks
def depthL : List Ty → Nat
  | [] => 0
  | t :: ts => depth t + depthL ts
end

def growEnv : Env where
  nm := letters
  ss := [(['g'], sGrow)]
  hash := depthL

theorem grow_mem {n : Name} {f : Fun} (h : (n, f) ∈ functions grow) :
    (n = ['m'] ∧ f = ⟨node 0, [], growStart⟩) ∨ (n = ['g'] ∧ f = ⟨node 0, [0], growBody⟩) := by
  simpa [functions, grow, funsL, funs, qualify] using h

theorem grow_scheme {n : Name} {s : Scheme.PolyTy} (h : growEnv.ss.lookup n = some s) : n = ['g'] ∧ s = sGrow := by
  have := lookup_mem h
  simpa [growEnv] using this

theorem grow_uses : usesE growBody = [(node 3, ⟨.func ['g'], fn1 (tList tVar) tInt⟩), (node 4, ⟨.loc 0, tVar⟩)] := by
  simp [growBody, usesE, usesEs]

theorem growStart_uses : usesE growStart = [(node 3, ⟨.func ['g'], fn1 tInt tInt⟩)] := by
  simp [growStart, usesE, usesEs]

theorem grow_source : Source growEnv grow := by
  refine ⟨fun n s h => ?_, fun n f h => ?_, fun n f h u hu g hg => ?_⟩
  · rw [(grow_scheme h).1]; decide
  · cases grow_mem h with
    | inl h => rw [h.1]; decide
    | inr h => rw [h.1]; decide
  · cases grow_mem h with
    | inl h =>
      rw [h.2, growStart_uses] at hu
      simp only [List.mem_singleton] at hu
      subst hu
      simp only [Res.func.injEq] at hg
      subst hg
      decide
    | inr h =>
      rw [h.2, grow_uses] at hu
      simp only [List.mem_cons, List.not_mem_nil, or_false] at hu
      cases hu with
      | inl h => subst h; simp only [Res.func.injEq] at hg; subst hg; decide
      | inr h => subst h; simp at hg

theorem grow_checked : Checked growEnv grow [] := by
  refine ⟨fun n s h => ?_, fun n f h u hu => ?_, fun n f h => ?_, fun _ _ _ _ _ t ht => by simp at ht,
    fun _ t ht => by simp at ht⟩
  · rw [(grow_scheme h).2]
    refine ⟨by simp [sGrow, fn1, tVar, tInt, WF, WFL], by simp [sGrow, fn1, tVar, tInt, Plain, PlainL], fun i hi => ?_⟩
    simp only [sGrow] at hi
    simp [sGrow, fn1, tVar, tInt, Shows, ShowsL]; omega
  · cases grow_mem h with
    | inl h =>
      rw [h.2, growStart_uses] at hu
      simp only [List.mem_singleton] at hu
      subst hu
      simp [fn1, tInt, Formed, FormedL, FormedE, Shaped]
    | inr h =>
      rw [h.2, grow_uses] at hu
      simp only [List.mem_cons, List.not_mem_nil, or_false] at hu
      cases hu with
      | inl h => subst h; simp [fn1, tVar, tInt, tList, Formed, FormedL, FormedE, Shaped]
      | inr h => subst h; simp [tVar, Formed, FormedL, FormedE, Shaped]
  · cases grow_mem h with
    | inl h => rw [h.2]; simp [growStart, nodes, nodesE, nodesEs, node]
    | inr h => rw [h.2]; simp [growBody, nodes, nodesE, nodesEs, node]

theorem lists_concrete (k : Nat) : concrete (lists k) = true := by
  induction k with
  | zero => rfl
  | succ k ih => simp [lists, tList, concrete, concreteL, ih]

theorem depth_lists (k : Nat) : depth (lists k) = k + 1 := by
  induction k with
  | zero => simp [lists, tInt, depth, depthL]
  | succ k ih => simp [lists, tList, depth, depthL, ih]; omega

theorem usedAt_grow {g : Name} {a b : Ty} {ts : List Ty} (h : UsedAt growEnv g (fn1 a b) ts) :
    g = ['g'] ∧ ts = [a] ∧ concrete a = true := by
  obtain ⟨s, hs, _, hl, hin, hcon⟩ := h
  obtain ⟨rfl, rfl⟩ := grow_scheme hs
  have h0 : ts[0]? = some a := by
    simp only [sGrow, fn1, tVar, InstOf, InstOfL] at hin
    obtain ⟨m, ks, es, r, he, c, cs, hc, h0, _⟩ := hin
    simp only [Ty.node.injEq] at he
    rw [← he.2.1] at hc
    simp only [List.cons.injEq] at hc
    rw [hc.1]; exact h0
  have := one_arg hl h0
  subst this
  exact ⟨rfl, rfl, hcon a (by simp)⟩

theorem usedAt_lists (k : Nat) : UsedAt growEnv ['g'] (fn1 (lists k) tInt) [lists k] :=
  ⟨sGrow, rfl, by simp [sGrow], rfl, by simp [sGrow, fn1, tVar, tInt, InstOf, InstOfL]; rfl, by simp [lists_concrete]⟩

theorem subst_grow (k : Nat) : Scheme.substB [lists k] (fn1 (tList tVar) tInt) = .ok (fn1 (lists (k + 1)) tInt) := rfl

theorem grow_needed {j : Nat} {i : Inst} (h : Needed growEnv grow j i) : i = (['g'], [lists j]) := by
  induction h with
  | source hf hu hr hused =>
    cases grow_mem hf with
    | inl h =>
      rw [h.2, growStart_uses] at hu
      simp only [List.mem_singleton] at hu
      subst hu
      obtain ⟨rfl, rfl, _⟩ := usedAt_grow hused
      rfl
    | inr h =>
      rw [h.2, grow_uses] at hu
      simp only [List.mem_cons, List.not_mem_nil, or_false] at hu
      cases hu with
      | inl h =>
        subst h
        have := (usedAt_grow hused).2.2
        simp [tList, tVar, concrete, concreteL] at this
      | inr h => subst h; simp at hr
  | @copy k h us f u g c ts hnd hf hu hr hs hused ih =>
    simp only [Prod.mk.injEq] at ih
    obtain ⟨rfl, rfl⟩ := ih
    have : (functions grow).lookup ['g'] = some ⟨node 0, [0], growBody⟩ := rfl
    rw [this] at hf
    simp only [Option.some.injEq] at hf
    subst hf
    rw [grow_uses] at hu
    simp only [List.mem_cons, List.not_mem_nil, or_false] at hu
    cases hu with
    | inl h =>
      subst h
      rw [subst_grow] at hs
      simp only [Except.ok.injEq] at hs
      subst hs
      obtain ⟨rfl, rfl, _⟩ := usedAt_grow hused
      rfl
    | inr h => subst h; simp at hr

theorem grow_needs (k : Nat) : Needed growEnv grow k (['g'], [lists k]) := by
  induction k with
  | zero =>
    exact .source (n := ['m']) (f := ⟨node 0, [], growStart⟩) (u := (node 3, ⟨.func ['g'], fn1 tInt tInt⟩))
      (.head _) (by rw [growStart_uses]; exact .head _) rfl (usedAt_lists 0)
  | succ k ih =>
    exact .copy (u := (node 3, ⟨.func ['g'], fn1 (tList tVar) tInt⟩)) (c := fn1 (lists (k + 1)) tInt) ih
      rfl (by rw [grow_uses]; exact .head _) rfl (subst_grow k) (usedAt_lists (k + 1))

theorem grow_noClash : NoClash growEnv grow := by
  intro j k a b ha hb he
  rw [grow_needed ha, grow_needed hb] at he ⊢
  simp only [growEnv, depthL, depth_lists] at he
  have : j = k := by omega
  rw [this]

end Verif.Instances
