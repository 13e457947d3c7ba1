import Verif.Borrow.Proofs

/-!
# C77: borrowed parameters, C78: calls and functions agree on who gives a reference back
-/

namespace Verif.Borrow

/-- C77: a reference passed for a parameter that the compiler found to be borrowed is never kept: whatever the function,
and the functions it passes the reference on to, do, it is not put into memory, returned, passed to a block, a continuation
or unknown code. -/
theorem C77_never_kept {rec : Nat → Bool} {m : Module} {orders : Nat → List Fn} (ho : Orders m orders) {n : Nat} {s : Summ}
    (h : summarize rec m orders n = some s) {st : State} (hr : Reach (borrowedAt s) m st) : st.kept = [] :=
  (reach_good (loop_admissible ho h) hr).1

/-- C77: the search for borrowed parameters ends, after at most one round more than there are parameters. -/
theorem C77_ends (rec : Nat → Bool) (m : Module) {orders : Nat → List Fn} (ho : Orders m orders) :
    (summarize rec m orders ((m.flatMap (fun f => f.params)).length + 1)).isSome := by
  refine loop_some ho _ _ (Nat.lt_succ_of_le ?_)
  have h1 : total m (initial rec m) ≤ ((unique m).map (fun f => f.params.length)).sum := by
    refine sum_le_of (fun f hf => ?_)
    simp only [initial, find_unique hf, Option.getD_some]
    refine Nat.le_trans List.count_le_length ?_
    rw [List.length_map, Fn.entry]
    split <;> simp
  have h2 : ∀ (p : Fn → Bool) (l : List Fn), ((l.filter p).map (fun f => f.params.length)).sum ≤ (l.flatMap (fun f => f.params)).length := by
    intro p l
    induction l with
    | nil => simp
    | cons f l ih =>
      simp only [List.filter_cons, List.flatMap_cons, List.length_append]
      split
      · simp only [List.map_cons, List.sum_cons]; omega
      · omega
  exact Nat.le_trans h1 (h2 _ m)

/-- C77: the parameters found are a choice that may be made: references, of functions that are called directly only, with
harmless uses only. -/
theorem C77_admissible {rec : Nat → Bool} {m : Module} {orders : Nat → List Fn} (ho : Orders m orders) {n : Nat} {s : Summ}
    (h : summarize rec m orders n = some s) : Admissible rec m (borrowedAt s) := loop_admissible ho h

/-- C77: and it is the largest such choice: no reference is counted that need not be. -/
theorem C77_largest {rec : Nat → Bool} {m : Module} {orders : Nat → List Fn} (ho : Orders m orders) {n : Nat} {s : Summ}
    (h : summarize rec m orders n = some s) {b : Nat → Nat → Bool} (hb : Admissible rec m b) :
    ∀ g i, b g i = true → borrowedAt s g i = true :=
  (loop_result ho _ _ _ h).2.1 b hb (fun _ _ h => admissible_initial hb h)

/-- C77: the summaries do not depend on the order in which the functions are visited. -/
theorem C77_order_irrelevant {rec : Nat → Bool} {m : Module} {o1 o2 : Nat → List Fn} (h1 : Orders m o1) (h2 : Orders m o2)
    {n1 n2 : Nat} {s1 s2 : Summ} (e1 : summarize rec m o1 n1 = some s1) (e2 : summarize rec m o2 n2 = some s2) : s1 = s2 := by
  have a := C77_largest h1 e1 (C77_admissible h2 e2)
  have b := C77_largest h2 e2 (C77_admissible h1 e1)
  obtain ⟨-, -, -, k1, l1⟩ := loop_result h1 _ _ _ e1
  obtain ⟨-, -, -, k2, l2⟩ := loop_result h2 _ _ _ e2
  funext g
  cases hi : initial rec m g with
  | none => rw [k1 g hi, k2 g hi]
  | some l =>
    obtain ⟨x, hx, lx⟩ := l1 g l hi
    obtain ⟨y, hy, ly⟩ := l2 g l hi
    rw [hx, hy]
    congr 1
    refine List.ext_getElem (by rw [lx, ly]) ?_
    intro i hi1 hi2
    have ha := a g i
    have hb := b g i
    simp only [borrowedAt, hx, hy, Option.bind_some, beq_iff_eq, List.getElem?_eq_getElem hi1,
      List.getElem?_eq_getElem hi2, Option.some.injEq] at ha hb
    cases hp : x[i] <;> cases hq : y[i] <;> simp_all

/-! ## Example

`f0(1, 2)` reads from 1 through a cast and keeps 2; `f1(1)` passes its parameter to `f0` for the first parameter;
`f2(1)` passes it to `f0` for the second; `f3(1)` is used as a value; `f4(1)` reads, and calls itself. -/

def exMod : Module :=
  [{ name := 0, params := [⟨1, true⟩, ⟨2, true⟩],
     ops := [{ kind := .cast, operands := [1], results := [3] }, { kind := .read, operands := [3], results := [4] },
       { kind := .memStore, operands := [3, 2] }, { kind := .compare, operands := [1, 2], results := [5] },
       { kind := .other, operands := [4] }] },
   { name := 1, params := [⟨1, true⟩, ⟨2, false⟩],
     ops := [{ kind := .call 0, operands := [1, 3], results := [4] }, { kind := .other, operands := [4] }] },
   { name := 2, params := [⟨1, true⟩], ops := [{ kind := .call 0, operands := [3, 1], results := [4] }] },
   { name := 3, params := [⟨1, true⟩], ops := [{ kind := .constant 3, operands := [], results := [2] }] },
   { name := 4, params := [⟨1, true⟩], ops := [{ kind := .read, operands := [1], results := [2] }] }]

theorem exOrders : Orders exMod (fun n => if n % 2 = 0 then unique exMod else (unique exMod).reverse) := by
  intro n
  dsimp only
  split
  · exact List.Perm.refl _
  · exact List.reverse_perm _

def exRec : Nat → Bool := fun g => g == 4

example : (summarize exRec exMod (fun n => if n % 2 = 0 then unique exMod else (unique exMod).reverse) 7).map
    (fun s => [s 0, s 1, s 2, s 3, s 4, s 5]) =
    some [some [true, false], some [true, false], some [false], some [false], some [false], none] := by decide +kernel

/-- A run in which a marked reference is passed on, cast and read from. -/
example : ∃ s, summarize exRec exMod (fun n => if n % 2 = 0 then unique exMod else (unique exMod).reverse) 7 = some s ∧
    ∃ st, Reach (borrowedAt s) exMod st ∧ st.stack.length = 2 ∧
      ∃ fr ∈ st.stack, fr.fn.name = 0 ∧ fr.marks 3 = [(0, 0), (1, 0)] := by
  obtain ⟨s, hs⟩ := Option.isSome_iff_exists.1 (show (summarize exRec exMod
    (fun n => if n % 2 = 0 then unique exMod else (unique exMod).reverse) 7).isSome = true by decide +kernel)
  have hb : [borrowedAt s 0 0, borrowedAt s 0 1, borrowedAt s 1 0, borrowedAt s 1 1] = [true, false, true, false] := by
    have : (summarize exRec exMod (fun n => if n % 2 = 0 then unique exMod else (unique exMod).reverse) 7).map
      (fun s => [borrowedAt s 0 0, borrowedAt s 0 1, borrowedAt s 1 0, borrowedAt s 1 1]) = some [true, false, true, false] := by
      decide +kernel
    rw [hs] at this
    simpa using this
  simp only [List.cons.injEq, and_true] at hb
  obtain ⟨b0, b1, b2, b3⟩ := hb
  refine ⟨s, hs, _, .step (.step (.step .start (.outside (f := exMod[1]) (args := []) (by decide) (by simp)))
    (.call (op := (exMod[1].ops)[0]) (g := 0) (h := exMod[0]) (by decide) rfl ⟨by decide, rfl, rfl, by decide⟩))
    (.cast (op := (exMod[0].ops)[0]) (v := 1) (r := 3) (by decide) rfl rfl rfl), rfl, _, List.mem_cons_self, rfl, ?_⟩
  simp [assign, enterMarks, exMod, Fn.entry, b0, b1, b2, b3]

/-! ## Contracts -/

/-- C78: a direct call that has a contract calls a function of the module, passes as many arguments as that has
parameters, and hands over a reference with exactly those arguments which the function gives back itself. -/
theorem C78_direct_partial {isRef : Nat → Bool} {s : Summ} {m : Module} {op : Op} {g : Nat} {l : List Mode}
    (hk : op.kind = .call g ∨ op.kind = .tailCall g) (h : contractOf isRef s m op = .actions l) :
    ∃ f ∈ m, f.name = g ∧ (∀ f' ∈ m, f'.name = g → f' = f) ∧ l.length = op.operands.length ∧
      l.length = f.entry.length ∧ ∀ i p, f.entry[i]? = some p →
        ∃ a, l[i]? = some a ∧ hands a = takes (entryMode s f (p, i)) ∧ (a = .plain ↔ p.isRef = false) := by
  have key : ∀ tail, directContract s m g tail op = .actions l → _ := fun tail h => direct_ok h
  have mode : ∀ f p i, entryMode s f (p, i) = .plain ↔ p.isRef = false := by
    intro f p i
    simp only [entryMode]
    cases p.isRef <;> simp only [Bool.not_false, Bool.not_true, if_true, Bool.false_eq_true, if_false]
    · split
      · simp
      · split <;> simp
  have fin : ∀ tail, directContract s m g tail op = .actions l → ∃ f ∈ m, f.name = g ∧ (∀ f' ∈ m, f'.name = g → f' = f) ∧
      l.length = op.operands.length ∧ l.length = f.entry.length ∧ ∀ i p, f.entry[i]? = some p →
        ∃ a, l[i]? = some a ∧ hands a = takes (entryMode s f (p, i)) ∧ (a = .plain ↔ p.isRef = false) := by
    intro tail h
    obtain ⟨f, hf, hn, h1, h2, h3⟩ := key tail h
    refine ⟨f, (unique_iff.1 hf).1, hn, fun f' hf' hn' => unique_eq hf hf' (by rw [hn', hn]), h1, h2, ?_⟩
    intro i p hp
    obtain ⟨a, ha, hact⟩ := h3 i p hp
    refine ⟨a, ha, ?_, ?_⟩
    · cases tail <;> cases he : entryMode s f (p, i) <;> rw [he] at hact <;> simp [actionFor] at hact <;> subst hact <;> rfl
    · rw [← mode f p i]
      cases tail <;> cases he : entryMode s f (p, i) <;> rw [he] at hact <;> simp [actionFor] at hact <;> subst hact <;> simp
  rcases hk with hk | hk
  · simp only [contractOf, hk] at h
    exact fin false h
  · simp only [contractOf, hk] at h
    split at h
    · split at h <;> cases h
    · exact fin true h

/-- C78: a tail call that has a contract hands over every reference it passes: nothing is left to give back after it. -/
theorem C78_tail_partial {isRef : Nat → Bool} {s : Summ} {m : Module} {op : Op} {l : List Mode}
    (hk : (∃ g, op.kind = .tailCall g) ∨ op.kind = .tailCallIndirect) (h : contractOf isRef s m op = .actions l) :
    ∀ a ∈ l, a = .plain ∨ hands a = 1 := by
  rcases hk with ⟨g, hk⟩ | hk
  · simp only [contractOf, hk] at h
    split at h
    · split at h <;> cases h
    · simp only [directContract] at h
      split at h
      · split at h <;> cases h
      · split at h
        · cases h
        · split at h
          · rename_i es _ _ _ r hm
            simp only [Contract.actions.injEq] at h
            subst h
            obtain ⟨h1, h2⟩ := mapM_get hm
            intro a ha
            obtain ⟨i, hi, he⟩ := List.getElem_of_mem ha
            have hi' : i < es.length := by rw [← h1]; exact hi
            obtain ⟨y, h3, h4⟩ := h2 i es[i] (by simp)
            rw [List.getElem?_eq_getElem hi, he] at h3
            cases h3
            cases hes : es[i] <;> rw [hes] at h4 <;> simp [actionFor] at h4 <;> subst h4 <;> simp [hands]
          · cases h
  · simp only [contractOf, hk] at h
    split at h
    · split at h <;> cases h
    · simp only [indirectContract] at h
      split at h
      · cases h
      · split at h
        · cases h
        · split at h
          · cases h
          · simp only [Contract.actions.injEq] at h
            subst h
            intro a ha
            obtain ⟨r, -, rfl⟩ := List.mem_map.1 ha
            cases r <;> simp [hands]

/-- C78: an indirect tail call agrees with every function it may call, that is, with every function of its signature which
consumes its parameters. -/
theorem C78_indirect_partial {isRef : Nat → Bool} {s : Summ} {m : Module} {op : Op} {l : List Mode} {sg : Sig} {f : Fn}
    (hk : op.kind = .tailCallIndirect) (h : contractOf isRef s m op = .actions l) (hs : op.sig = some sg)
    (hf : consuming f = true) (hp : f.entry.map (·.isRef) = sg.params) :
    l.length = f.entry.length ∧ l.length = (op.operands.drop 1).length ∧
      ∀ i p, f.entry[i]? = some p → ∃ a, l[i]? = some a ∧ hands a = takes (entryMode s f (p, i)) := by
  simp only [contractOf, hk] at h
  split at h
  · split at h <;> cases h
  · simp only [indirectContract, hs] at h
    split at h
    · cases h
    · split at h
      · cases h
      · rename_i hlen
        simp only [Contract.actions.injEq] at h
        simp only [ne_eq, Decidable.not_not] at hlen
        subst h
        rw [← hp] at hlen ⊢
        refine ⟨by simp, by rw [hlen]; simp, ?_⟩
        intro i p hip
        refine ⟨if p.isRef then .transfer else .plain, by simp [hip], ?_⟩
        simp only [entryMode, hf]
        cases p.isRef <;> simp [hands, takes]

/-- C78: a call has no contract only if it calls what is not defined once in the module, or does so by reference without
leaving the function, or is a tail call that passes no reference. -/
theorem C78_absent_partial {isRef : Nat → Bool} {s : Summ} {m : Module} {op : Op} (h : contractOf isRef s m op = .absent) :
    match op.kind with
    | .call g => ¬ ∃ f ∈ m, f.name = g ∧ (m.filter (fun f' => f'.name == g)).length = 1
    | .tailCall _ => ∀ v ∈ op.operands, isRef v = false
    | .tailCallIndirect => ∀ v ∈ op.operands.drop 1, isRef v = false
    | _ => True := by
  have dir : ∀ g tail, directContract s m g tail op = .absent →
      tail = false ∧ ¬ ∃ f ∈ m, f.name = g ∧ (m.filter (fun f' => f'.name == g)).length = 1 := by
    intro g tail h
    simp only [directContract, entryContract] at h
    cases hf : (unique m).find? (fun f => f.name == g) with
    | none =>
      rw [hf] at h
      refine ⟨by cases tail <;> simp_all, ?_⟩
      rintro ⟨f, h1, h2, h3⟩
      subst h2
      rw [find_unique (List.mem_filter.2 ⟨h1, by simp [h3]⟩)] at hf
      cases hf
    | some f =>
      rw [hf] at h
      simp only at h
      split at h
      · cases h
      · split at h <;> cases h
  have none_ref : ∀ vs : List Nat, (if (vs.any isRef) = true then Contract.error else Contract.absent) = .absent →
      ∀ v ∈ vs, isRef v = false := by
    intro vs h v hv
    split at h
    · cases h
    · rename_i hn
      cases hr : isRef v with
      | false => rfl
      | true => exact absurd (List.any_eq_true.2 ⟨v, hv, hr⟩) hn
  cases hk : op.kind with
  | call g =>
    simp only [contractOf, hk] at h
    exact (dir g false h).2
  | tailCall g =>
    simp only [contractOf, hk] at h
    split at h
    · exact none_ref _ h
    · exact absurd (dir g true h).1 (by simp)
  | tailCallIndirect =>
    simp only [contractOf, hk] at h
    split at h
    · exact none_ref _ h
    · simp only [indirectContract] at h
      split at h
      · cases h
      · split at h
        · cases h
        · split at h <;> cases h
  | _ => trivial

/-- A function that consumes its parameter, and one that calls it by reference and goes on. -/
def callMod : Module :=
  [{ name := 0, params := [⟨1, true⟩], cps := true, nilResult := true, ops := [{ kind := .other, operands := [1] }] },
   { name := 1, params := [⟨1, true⟩],
     ops := [{ kind := .constant 0, operands := [], results := [2] },
       { kind := .callIndirect, operands := [2, 1], cps := true, sig := some ⟨[true], true⟩ },
       { kind := .other, operands := [1] }] },
   { name := 2, params := [⟨1, true⟩, ⟨2, false⟩], cps := true, nilResult := true,
     ops := [{ kind := .call 0, operands := [1] }, { kind := .tailCall 0, operands := [1], cps := true }] }]

/-- C78 does not hold of a call by reference that does not leave the function: it has no contract, whatever it calls, so it
hands over nothing; the function below gives the reference back. -/
theorem C78_indirect_violated (isRef : Nat → Bool) (s : Summ) : ∃ m : Module, ∃ f ∈ m, ∃ g ∈ m, ∃ op ∈ g.ops,
    op.kind = .callIndirect ∧ op.sig = some ⟨f.entry.map (·.isRef), true⟩ ∧ contractOf isRef s m op = .absent ∧
    ∃ p, f.entry[0]? = some p ∧ takes (entryMode s f (p, 0)) = 1 :=
  ⟨callMod, callMod[0], by simp [callMod], callMod[1], by simp [callMod], callMod[1].ops[1], by simp [callMod], rfl, rfl, rfl,
    ⟨1, true⟩, rfl, rfl⟩

/-- The calls of the last function: one acquires a reference for the callee, the other passes on its own. -/
example : contractOf (fun _ => true) (initial exRec callMod) callMod callMod[2].ops[0] = .actions [.acquire] ∧
    contractOf (fun _ => true) (initial exRec callMod) callMod callMod[2].ops[1] = .actions [.transfer] ∧
    contractOf (fun _ => true) (initial exRec exMod) exMod exMod[1].ops[0] = .actions [.borrowed, .borrowed] ∧
    contractOf (fun _ => true) (initial exRec exMod) exMod { kind := .tailCall 0, operands := [1, 2], cps := true } = .error ∧
    contractOf (fun _ => true) (initial exRec callMod) callMod
      { kind := .tailCallIndirect, operands := [9, 1], cps := true, sig := some ⟨[true], true⟩ } = .actions [.transfer] := by
  decide +kernel

end Verif.Borrow
