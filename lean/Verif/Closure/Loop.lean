import Verif.Closure.Walk
import Verif.Closure.Names
/-!
# The loop over the module
-/
namespace Verif.Closure
open Verif.CallConv (Conv)
variable {B σ : Type}

/-! ## Names -/

/-- The counters are ahead of all names given. -/
structure NameInv (names : List Sym) (counters : Sym → Nat) : Prop where
  ahead : ∀ g k, clamName g k ∈ names → k < counters g
  nodup : names.Nodup

theorem walk_names {names : List Sym} (fname : Sym) (E : Option Var) : ∀ (c : Code) {m : Map} {st : St},
    NameInv (names ++ st.out.map Prod.fst) st.counters →
    NameInv (names ++ (walk fname E m c st).2.out.map Prod.fst) (walk fname E m c st).2.counters
  | .ret x, m, st, h => h
  | .tail _ _ _, m, st, h => h
  | .op r o args k, m, st, h => by simp only [walk]; exact walk_names fname E k h
  | .cond r c t e k, m, st, h => by
    simp only [walk]
    exact walk_names fname E k (walk_names fname E e (walk_names fname E t h))
  | .lambda r caps conv ty ps body k, m, st, h => by
    cases hacc : accept conv ty ps with
    | none => simp only [walk, hacc]; exact walk_names fname E k h
    | some slot =>
      simp only [walk, hacc]
      refine walk_names fname E k ?_
      constructor
      · intro g j hj
        simp only [List.map_append, List.map_cons, List.map_nil, ← List.append_assoc] at hj
        rcases List.mem_append.mp hj with hj | hj
        · have := h.ahead g j hj
          simp only
          split
          · next e => subst e; omega
          · exact this
        · simp only [List.mem_singleton] at hj
          obtain ⟨e1, e2⟩ := clamName_inj hj
          simp only [e1, e2, if_true]
          omega
      · simp only [List.map_append, List.map_cons, List.map_nil, ← List.append_assoc]
        rw [List.nodup_append]
        refine ⟨h.nodup, by simp, ?_⟩
        intro a ha b hb e
        simp only [List.mem_singleton] at hb
        subst hb; subst e
        exact Nat.lt_irrefl _ (h.ahead _ _ ha)

theorem walkFns_names {names : List Sym} : ∀ (fns : List (Sym × Func)) {st : St},
    NameInv (names ++ st.out.map Prod.fst) st.counters →
    NameInv (names ++ (walkFns fns st).2.out.map Prod.fst) (walkFns fns st).2.counters
  | [], st, h => h
  | (f, fn) :: rest, st, h => by
    simp only [walkFns]
    exact walkFns_names rest (walk_names f _ fn.body h)

theorem walkFns_fst : ∀ (fns : List (Sym × Func)) (st : St), (walkFns fns st).1.map Prod.fst = fns.map Prod.fst
  | [], st => rfl
  | (f, fn) :: rest, st => by
    simp only [walkFns, List.map_cons]
    rw [walkFns_fst rest]

/-! ## All functions -/

structure FnsOk (q : Prog) (fns fns' : List (Sym × Func)) (st st' : St) : Prop where
  next : st.next ≤ st'.next
  out : ∃ new, st'.out = st.out ++ new ∧ ∀ x ∈ new, x.2.WF st'.next
  wf : ∀ x ∈ fns', x.2.WF st'.next
  alpha : (∀ x ∈ st'.out, q.find x.1 = some x.2) → ∀ x ∈ fns, ∃ b, (x.1, (⟨x.2.params, b⟩ : Func)) ∈ fns' ∧
    Alpha q (firstEvidence x.2.params) (firstEvidence x.2.params) (pm (x.2.params.map Prod.fst) id) x.2.body b

theorem walkFns_ok (q : Prog) {n₀ : Nat} : ∀ (fns : List (Sym × Func)) {st : St}, (∀ x ∈ fns, x.2.WF n₀) → n₀ ≤ st.next →
    FnsOk q fns (walkFns fns st).1 st (walkFns fns st).2
  | [], st, _, _ => ⟨Nat.le_refl _, ⟨[], by simp [walkFns], by simp⟩, by simp [walkFns], by simp⟩
  | (f, fn) :: rest, st, hw, hn => by
    have w := hw (f, fn) (by simp)
    simp only [walkFns, evArg_eq]
    have h1 := walk_ok q f fn.body (st := st) (S := fn.params.map Prod.fst) (S' := fn.params.map Prod.fst) (m := id)
      w.inScope w.below (moves_id n₀) (fun _ _ _ _ h => h) (fun e he => ⟨firstEvidence_mem he, rfl⟩)
      ⟨fun v hv => hv, fun y hy => .inl hy⟩ hn (fun y hy => Nat.lt_of_lt_of_le (w.params y hy) hn)
      (fun v hv => Nat.lt_of_lt_of_le hv hn)
    have h2 := walkFns_ok q rest (st := (walk f (firstEvidence fn.params) id fn.body st).2)
      (fun x hx => hw x (by simp [hx])) (Nat.le_trans hn h1.next)
    refine ⟨Nat.le_trans h1.next h2.next, out_trans h2.next h1.out h2.out, ?_, ?_⟩
    · intro x hx
      rcases List.mem_cons.mp hx with e | hx
      · subst e
        exact ⟨w.nodup, fun y hy => Nat.lt_of_lt_of_le (w.params y hy) (Nat.le_trans hn (Nat.le_trans h1.next h2.next)),
          h1.inScope, below_mono h2.next _ h1.below⟩
      · exact h2.wf x hx
    · intro hq x hx
      rcases List.mem_cons.mp hx with e | hx
      · subst e
        refine ⟨_, List.mem_cons_self, h1.alpha (fun y hy => hq y ?_)⟩
        obtain ⟨new, e, _⟩ := h2.out
        rw [e]; simp [hy]
      · obtain ⟨b, hb, ha⟩ := h2.alpha hq x hx
        exact ⟨b, List.mem_cons_of_mem _ hb, ha⟩

theorem find_mem {p : Prog} (hn : (p.fns.map Prod.fst).Nodup) {x : Sym × Func} (hx : x ∈ p.fns) :
    p.find x.1 = some x.2 := by
  unfold Prog.find
  generalize p.fns = l at hn hx
  induction l with
  | nil => simp at hx
  | cons a l ih =>
    simp only [List.map_cons, List.nodup_cons] at hn
    rw [List.find?_cons]
    rcases List.mem_cons.mp hx with e | hx
    · subst e; simp
    · have : a.1 ≠ x.1 := by
        intro e
        exact hn.1 (e ▸ List.mem_map.mpr ⟨x, hx, rfl⟩)
      simp only [beq_eq_false_iff_ne.mpr this]
      exact ih hn.2 hx

theorem mem_find {p : Prog} {f : Sym} {fn : Func} (h : p.find f = some fn) : (f, fn) ∈ p.fns := by
  unfold Prog.find at h
  cases hf : p.fns.find? (fun g => g.1 == f) with
  | none => rw [hf] at h; cases h
  | some x =>
    rw [hf] at h
    have h1 := List.find?_some hf
    have h2 := List.mem_of_find?_eq_some hf
    simp only [beq_iff_eq] at h1
    simp only [Option.map_some, Option.some.injEq] at h
    subst h; subst h1
    exact h2

def Prog.names (p : Prog) : List Sym := p.fns.map Prod.fst

theorem round_ok {p : Prog} {counters : Sym → Nat} (hp : p.WF) (hn : NameInv p.names counters) :
    (round p counters).1.WF ∧ NameInv (round p counters).1.names (round p counters).2 ∧ PRel p (round p counters).1 := by
  have hnames := walkFns_names (names := p.names) p.fns (st := ⟨p.next, counters, []⟩) (by simpa using hn)
  have hfst := walkFns_fst p.fns ⟨p.next, counters, []⟩
  have hqn : (round p counters).1.names = p.names ++ (walkFns p.fns ⟨p.next, counters, []⟩).2.out.map Prod.fst := by
    simp only [round, Prog.names, List.map_append, hfst]
  have hok := walkFns_ok (round p counters).1 p.fns (st := ⟨p.next, counters, []⟩) hp.fns (Nat.le_refl _)
  have hmem : ∀ x, x ∈ (round p counters).1.fns ↔ x ∈ (walkFns p.fns ⟨p.next, counters, []⟩).1 ∨
      x ∈ (walkFns p.fns ⟨p.next, counters, []⟩).2.out := by
    intro x; simp only [round, List.mem_append]
  have hnd : ((round p counters).1.fns.map Prod.fst).Nodup := by
    have := hnames.nodup
    rw [← hqn] at this; exact this
  refine ⟨⟨hnd, ?_⟩, ?_, ?_⟩
  · intro x hx
    rcases (hmem x).mp hx with h | h
    · exact hok.wf x h
    · obtain ⟨new, e, hw⟩ := hok.out
      rw [e] at h
      exact hw x (by simpa using h)
  · rw [hqn]; exact hnames
  · intro f fn hf
    have hq : ∀ x ∈ (walkFns p.fns ⟨p.next, counters, []⟩).2.out, (round p counters).1.find x.1 = some x.2 :=
      fun x hx => find_mem hnd ((hmem x).mpr (.inr hx))
    have hm := mem_find hf
    obtain ⟨b, hb, ha⟩ := hok.alpha hq (f, fn) hm
    refine ⟨b, find_mem hnd ((hmem _).mpr (.inl hb)), (hp.fns _ hm).nodup, ?_⟩
    rw [← pm_nil (f := id), pm_updAll (f := id) rfl]
    rw [← pm_congr (S := fn.params.map Prod.fst) (f := id) (fun v => by simp)
      (fun v hv => (setAll_self (m := id) hv).symm)]
    exact ha

/-! ## Termination -/

theorem lambdas_rename : ∀ (c : Code) (m : Map), lambdas (renameUses m c) = lambdas c
  | .ret _, _ => rfl
  | .tail _ _ _, _ => rfl
  | .op _ _ _ k, m => by simp only [renameUses, lambdas]; exact lambdas_rename k _
  | .cond _ _ t e k, m => by
    simp only [renameUses, lambdas]; rw [lambdas_rename t, lambdas_rename e, lambdas_rename k]
  | .lambda _ _ _ _ _ body k, m => by
    simp only [renameUses, lambdas]; rw [lambdas_rename body, lambdas_rename k]

theorem lambdas_clone : ∀ (c : Code) (m : Map) (n : Nat), lambdas (clone m n c).1 = lambdas c
  | .ret _, _, _ => rfl
  | .tail _ _ _, _, _ => rfl
  | .op _ _ _ k, m, n => by simp only [clone, lambdas]; exact lambdas_clone k _ _
  | .cond _ _ t e k, m, n => by
    simp only [clone, lambdas]; rw [lambdas_clone t, lambdas_clone e, lambdas_clone k]
  | .lambda _ _ _ _ _ body k, m, n => by
    simp only [clone, lambdas]; rw [lambdas_clone body, lambdas_clone k]

theorem lambdas_loads (cst : Var) (k : Code) : ∀ (gs : List Var) (i : Nat), lambdas (loads cst i gs k) = lambdas k
  | [], _ => rfl
  | _ :: gs, i => by simp only [loads, lambdas]; exact lambdas_loads cst k gs _

theorem lambdas_lift (n : Nat) (slot : Slot) (imp : Option Var) (caps : List Var) (ps : List (Var × Ty)) (body : Code) :
    lambdas (lift n slot imp caps ps body).1.body = lambdas body := by
  unfold lift
  simp only
  by_cases h : caps.isEmpty
  · simp only [h, if_true]; exact lambdas_clone _ _ _
  · simp only [h]
    simp only [Bool.false_eq_true, if_false, lambdas]
    rw [lambdas_loads, lambdas_clone]

def total (l : List (Sym × Func)) : Nat := (l.map fun f => lambdas f.2.body).sum

theorem total_append (a b : List (Sym × Func)) : total (a ++ b) = total a + total b := by
  simp [total]

theorem walk_lambdas (fname : Sym) (E : Option Var) : ∀ (c : Code) (m : Map) (st : St),
    lambdas (walk fname E m c st).1 + total (walk fname E m c st).2.out + (if progress c then 1 else 0)
      ≤ lambdas c + total st.out
  | .ret x, m, st => by simp [walk, lambdas, progress]
  | .tail _ _ _, m, st => by simp [walk, lambdas, progress]
  | .op r o args k, m, st => by
    simp only [walk, lambdas, progress]; exact walk_lambdas fname E k _ st
  | .cond r c t e k, m, st => by
    have h1 := walk_lambdas fname E t m st
    have h2 := walk_lambdas fname E e m (walk fname E m t st).2
    have h3 := walk_lambdas fname E k (m.set r r) (walk fname E m e (walk fname E m t st).2).2
    simp only [walk, lambdas, progress]
    by_cases p1 : progress t = true <;> by_cases p2 : progress e = true <;> by_cases p3 : progress k = true <;>
      simp only [p1, p2, p3, if_true, if_false, Bool.or_true, Bool.true_or, Bool.or_false, Bool.false_or, Bool.false_eq_true] at h1 h2 h3 ⊢ <;> omega
  | .lambda r caps conv ty ps body k, m, st => by
    cases hacc : accept conv ty ps with
    | none =>
      simp only [walk, hacc, lambdas, progress, lambdas_rename]
      have := walk_lambdas fname E k (m.set r r) st
      simp only [Option.isSome_none, Bool.false_or]
      omega
    | some slot =>
      simp only [walk, hacc, lambdas, progress]
      simp only [Option.isSome_some, Bool.true_or, if_true]
      have := walk_lambdas fname E k
        (m.set r ((lift st.next slot (implicitEvidence slot E (caps.map m)) (caps.map m) ps
          (renameUses (m.setAll (ps.map Prod.fst) (ps.map Prod.fst)) body)).2 + 1))
        ⟨(lift st.next slot (implicitEvidence slot E (caps.map m)) (caps.map m) ps
          (renameUses (m.setAll (ps.map Prod.fst) (ps.map Prod.fst)) body)).2 + 2,
          (fun f => if f = fname then st.counters fname + 1 else st.counters f),
          st.out ++ [(clamName fname (st.counters fname), (lift st.next slot (implicitEvidence slot E (caps.map m)) (caps.map m) ps
          (renameUses (m.setAll (ps.map Prod.fst) (ps.map Prod.fst)) body)).1)]⟩
      rw [total_append] at this
      have ht : total [(clamName fname (st.counters fname), (lift st.next slot (implicitEvidence slot E (caps.map m)) (caps.map m) ps
          (renameUses (m.setAll (ps.map Prod.fst) (ps.map Prod.fst)) body)).1)] = lambdas body := by
        simp only [total, List.map_cons, List.map_nil, List.sum_cons, List.sum_nil, Nat.add_zero]
        rw [lambdas_lift, lambdas_rename]
      rw [ht] at this
      omega

theorem walkFns_lambdas : ∀ (fns : List (Sym × Func)) (st : St),
    total (walkFns fns st).1 + total (walkFns fns st).2.out + (if fns.any (fun f => progress f.2.body) then 1 else 0)
      ≤ total fns + total st.out
  | [], st => by simp [walkFns]
  | (f, fn) :: rest, st => by
    have h1 := walk_lambdas f (evArg fn.params) fn.body id st
    have h2 := walkFns_lambdas rest (walk f (evArg fn.params) id fn.body st).2
    simp only [walkFns, List.any_cons]
    have e1 : ∀ (a : Sym × Func) l, total (a :: l) = lambdas a.2.body + total l := by intro a l; simp [total]
    rw [e1, e1]
    simp only
    by_cases p1 : progress fn.body = true <;> by_cases p2 : rest.any (fun f => progress f.2.body) = true <;>
      simp only [p1, p2, if_true, if_false, Bool.or_true, Bool.true_or, Bool.or_false, Bool.false_or, Bool.false_eq_true] at h1 h2 ⊢ <;> omega

theorem round_lambdas (p : Prog) (counters : Sym → Nat) (h : p.fns.any (fun f => progress f.2.body) = true) :
    (round p counters).1.lambdas < p.lambdas := by
  have := walkFns_lambdas p.fns ⟨p.next, counters, []⟩
  rw [h] at this
  have e : (round p counters).1.lambdas = total (walkFns p.fns ⟨p.next, counters, []⟩).1 + total (walkFns p.fns ⟨p.next, counters, []⟩).2.out := by
    simp only [round, Prog.lambdas]
    rw [← total_append]; rfl
  have e2 : p.lambdas = total p.fns := rfl
  rw [e, e2]
  have e3 : total ([] : List (Sym × Func)) = 0 := rfl
  simp only [if_true, e3] at this
  omega

theorem loop_stops : ∀ (fuel : Nat) (p : Prog) (counters : Sym → Nat), p.lambdas ≤ fuel →
    (lowerLoop fuel p counters).fns.any (fun f => progress f.2.body) = false
  | 0, p, counters, h => by
    simp only [lowerLoop]
    cases he : p.fns.any (fun f => progress f.2.body) with
    | false => rfl
    | true => have := round_lambdas p counters he; omega
  | fuel + 1, p, counters, h => by
    simp only [lowerLoop]
    cases he : p.fns.any (fun f => progress f.2.body) with
    | false => simp only [Bool.false_eq_true, if_false]; exact he
    | true =>
      simp only [if_true]
      have := round_lambdas p counters he
      exact loop_stops fuel _ _ (by omega)

/-- More turns than needed change nothing. -/
theorem loop_more : ∀ (fuel : Nat) (p : Prog) (counters : Sym → Nat) (k : Nat), p.lambdas ≤ fuel →
    lowerLoop (fuel + k) p counters = lowerLoop fuel p counters
  | 0, p, counters, k, h => by
    cases he : p.fns.any (fun f => progress f.2.body) with
    | false => cases k <;> simp [lowerLoop, he]
    | true => have := round_lambdas p counters he; omega
  | fuel + 1, p, counters, k, h => by
    have e : fuel + 1 + k = (fuel + k) + 1 := by omega
    rw [e]
    simp only [lowerLoop]
    cases he : p.fns.any (fun f => progress f.2.body) with
    | false => rfl
    | true =>
      simp only [if_true]
      have := round_lambdas p counters he
      exact loop_more fuel _ _ k (by omega)

/-! ## Behaviour -/

theorem Same.trans {a b c : Res B σ} (h1 : Same a b) (h2 : Same b c) : Same a c := by
  cases h1 with
  | out => exact h2
  | ok h1 =>
    cases h2 with
    | ok h2 => exact .ok (fun b => (h1 b).trans (h2 b))

theorem Same.refl {a : Res B σ} (h : a ≠ .err) : Same a a := by
  cases a with
  | out => exact .out
  | err => exact absurd rfl h
  | ok s v => exact .ok (fun _ => Iff.rfl)

theorem Same.not_err {a b : Res B σ} (h : Same a b) : b ≠ .err := by
  intro e; subst e; cases h

theorem loop_ok (S : Sem B σ) : ∀ (fuel : Nat) (p : Prog) (counters : Sym → Nat), p.WF → NameInv p.names counters →
    (lowerLoop fuel p counters).WF ∧
      ∀ n f bs s, result S p n f bs s ≠ .err → Same (result S p n f bs s) (result S (lowerLoop fuel p counters) n f bs s)
  | 0, p, counters, hp, hn => ⟨hp, fun n f bs s h => Same.refl h⟩
  | fuel + 1, p, counters, hp, hn => by
    simp only [lowerLoop]
    split
    · obtain ⟨h1, h2, h3⟩ := round_ok hp hn
      obtain ⟨i1, i2⟩ := loop_ok S fuel _ _ h1 h2
      refine ⟨i1, fun n f bs s h => ?_⟩
      have := same_of_rrel (result_rel S h3 n f bs s) h
      exact this.trans (i2 n f bs s this.not_err)
    · exact ⟨hp, fun n f bs s h => Same.refl h⟩

theorem nameInv_of_plain {p : Prog} (hp : p.WF) (hn : p.PlainNames) : NameInv p.names (fun _ => 0) := by
  refine ⟨?_, hp.names⟩
  intro g k h
  exfalso
  obtain ⟨x, hx, e⟩ := List.mem_map.mp h
  exact hn x hx g k e

/-! ## No lambda is left -/

theorem marked_rename : ∀ (c : Code) {m : Map}, Marked c → Marked (renameUses m c)
  | .ret _, _, _ => trivial
  | .tail _ _ _, _, _ => trivial
  | .op _ _ _ k, m, h => marked_rename k h
  | .cond _ _ t e k, m, h => ⟨marked_rename t h.1, marked_rename e h.2.1, marked_rename k h.2.2⟩
  | .lambda _ _ _ _ _ body k, m, h => ⟨h.1, h.2.1, marked_rename body h.2.2.1, marked_rename k h.2.2.2⟩

theorem marked_clone : ∀ (c : Code) {m : Map} {n : Nat}, Marked c → Marked (clone m n c).1
  | .ret _, _, _, _ => trivial
  | .tail _ _ _, _, _, _ => trivial
  | .op _ _ _ k, m, n, h => by simp only [clone]; exact marked_clone k h
  | .cond _ _ t e k, m, n, h => by
    simp only [clone]
    exact ⟨marked_clone t h.1, marked_clone e h.2.1, marked_clone k h.2.2⟩
  | .lambda _ _ _ _ ps body k, m, n, h => by
    simp only [clone]
    refine ⟨?_, ?_, marked_clone body h.2.2.1, marked_clone k h.2.2.2⟩
    · obtain ⟨slot, h1, h2⟩ := h.1
      exact ⟨slot, h1, fun c i e => by simpa using h2 c i e⟩
    · rw [h.2.1, mem_snd_zip (by simp)]

theorem marked_loads {cst : Var} {k : Code} (h : Marked k) : ∀ (gs : List Var) (i : Nat), Marked (loads cst i gs k)
  | [], _ => h
  | _ :: gs, i => marked_loads h gs _

theorem marked_lift {n : Nat} {slot : Slot} {imp : Option Var} {caps : List Var} {ps : List (Var × Ty)} {body : Code}
    (h : Marked body) : Marked (lift n slot imp caps ps body).1.body := by
  unfold lift
  simp only
  by_cases hc : caps.isEmpty
  · simp only [hc, if_true]; exact marked_clone _ h
  · simp only [hc]
    simp only [Bool.false_eq_true, if_false, Marked]
    exact marked_loads (marked_clone _ h) _ _

theorem walk_marked (fname : Sym) (E : Option Var) : ∀ (c : Code) {m : Map} {st : St}, Marked c →
    (∀ x ∈ st.out, Marked x.2.body) →
    Marked (walk fname E m c st).1 ∧ ∀ x ∈ (walk fname E m c st).2.out, Marked x.2.body
  | .ret _, m, st, _, h => ⟨trivial, h⟩
  | .tail _ _ _, m, st, _, h => ⟨trivial, h⟩
  | .op r o args k, m, st, hm, h => by simp only [walk]; exact walk_marked fname E k hm h
  | .cond r c t e k, m, st, hm, h => by
    simp only [walk]
    have h1 := walk_marked fname E t (m := m) hm.1 h
    have h2 := walk_marked fname E e (m := m) hm.2.1 h1.2
    have h3 := walk_marked fname E k (m := m.set r r) hm.2.2 h2.2
    exact ⟨⟨h1.1, h2.1, h3.1⟩, h3.2⟩
  | .lambda r caps conv ty ps body k, m, st, hm, h => by
    obtain ⟨m1, m2, m3, m4⟩ := hm
    cases hacc : accept conv ty ps with
    | none =>
      simp only [walk, hacc]
      have h1 := walk_marked fname E k (m := m.set r r) m4 h
      exact ⟨⟨m1, m2, marked_rename body m3, h1.1⟩, h1.2⟩
    | some slot =>
      simp only [walk, hacc, Marked]
      refine walk_marked fname E k m4 ?_
      intro x hx
      rcases List.mem_append.mp hx with hx | hx
      · exact h x hx
      · simp only [List.mem_singleton] at hx
        subst hx
        exact marked_lift (marked_rename body m3)

theorem walkFns_marked : ∀ (fns : List (Sym × Func)) {st : St}, (∀ x ∈ fns, Marked x.2.body) →
    (∀ x ∈ st.out, Marked x.2.body) →
    (∀ x ∈ (walkFns fns st).1, Marked x.2.body) ∧ ∀ x ∈ (walkFns fns st).2.out, Marked x.2.body
  | [], st, _, h => ⟨by simp [walkFns], h⟩
  | (f, fn) :: rest, st, hm, h => by
    simp only [walkFns]
    have h1 := walk_marked f (evArg fn.params) fn.body (m := id) (hm (f, fn) (by simp)) h
    have h2 := walkFns_marked rest (fun x hx => hm x (by simp [hx])) h1.2
    refine ⟨?_, h2.2⟩
    intro x hx
    rcases List.mem_cons.mp hx with e | hx
    · subst e; exact h1.1
    · exact h2.1 x hx

theorem round_marked {p : Prog} {counters : Sym → Nat} (h : ∀ x ∈ p.fns, Marked x.2.body) :
    ∀ x ∈ (round p counters).1.fns, Marked x.2.body := by
  have := walkFns_marked p.fns (st := ⟨p.next, counters, []⟩) h (by simp)
  intro x hx
  simp only [round, List.mem_append] at hx
  rcases hx with hx | hx
  · exact this.1 x hx
  · exact this.2 x hx

theorem loop_marked : ∀ (fuel : Nat) (p : Prog) (counters : Sym → Nat), (∀ x ∈ p.fns, Marked x.2.body) →
    ∀ x ∈ (lowerLoop fuel p counters).fns, Marked x.2.body
  | 0, p, counters, h => h
  | fuel + 1, p, counters, h => by
    simp only [lowerLoop]
    split
    · exact loop_marked fuel _ _ (round_marked h)
    · exact h

theorem noLambda_of_marked : ∀ (c : Code), Marked c → progress c = false → NoLambda c
  | .ret _, _, _ => trivial
  | .tail _ _ _, _, _ => trivial
  | .op _ _ _ k, h, hp => noLambda_of_marked k h hp
  | .cond _ _ t e k, h, hp => by
    simp only [progress, Bool.or_eq_false_iff] at hp
    exact ⟨noLambda_of_marked t h.1 hp.1.1, noLambda_of_marked e h.2.1 hp.1.2, noLambda_of_marked k h.2.2 hp.2⟩
  | .lambda _ _ conv ty ps body k, h, hp => by
    obtain ⟨⟨slot, h1, h2⟩, h3, _⟩ := h
    simp only [progress, Bool.or_eq_false_iff] at hp
    have : accept conv ty ps = some slot := by
      unfold accept
      rw [slotOf_eq, h1]
      simp only [h3, ne_eq, not_true_eq_false, if_false]
      cases slot with
      | legacy => rfl
      | «at» c i => simp only [Nat.not_lt.mpr (h2 c i rfl), gt_iff_lt, if_false]
    rw [this] at hp
    simp at hp

end Verif.Closure
