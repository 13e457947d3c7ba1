import Verif.PassMgr.Proofs

/-!
# C101: the pass manager runs what was registered and blames the pass that broke the IR

`C101_chain`, `C101_honest`, `C101_checked`, `C101_success` and `C101_failure` hold for all managers
and passes. `C101_schedule_partial` needs passes that do not add or remove operations that managers
look for: a nested manager runs on an erased operation (`C101_erased_violated`) and not on an added
one (`C101_added_violated`). `C101_blame_partial` needs passes that leave their own operation in
place: after one that does not, nothing is verified (`C101_unverified_violated`), and the blame
falls on a later pass (`C101_blame_violated`).
-/
namespace Verif.PassMgr

variable {X : Type}

/-! ### Examples -/

/-- A module, operation 0, with the given functions; `rest` says whether something is broken. -/
def exIr (fns : List Nat) (broken : Bool) : Ir Bool :=
  { kind := fun n => if n = 0 then "core.module" else "func.func"
    attached := fun n => fns.contains n
    under := fun n => if n = 0 then 0 :: fns else [n]
    rest := broken }

def exIsolated (k : String) : Bool := k == "core.module" || k == "func.func"

def exCheck (ir : Ir Bool) : Option String := if ir.rest then some "broken" else none

/-- A pass that changes nothing. -/
def exIdle (name : String) : Pass Bool := ⟨name, fun ir _ => (ir, none)⟩

/-- A pass that breaks the IR when it comes to operation `k`. -/
def exBreak (k : Nat) : Pass Bool :=
  ⟨"break", fun ir op => (if op = k then { ir with rest := true } else ir, none)⟩

/-- A pass that fails on operation `k`. -/
def exFail (k : Nat) : Pass Bool :=
  ⟨"fail", fun ir op => (ir, if op = k then some "oops" else none)⟩

/-- Module passes `a`, and function managers with the given passes. -/
def exManager (nested : List (List (Pass Bool))) : Manager Bool :=
  .mk "core.module" [exIdle "a"] (nested.map fun ps => .mk "func.func" ps [] none)
    (some fun ir _ => exCheck ir)

def exRun (nested : List (List (Pass Bool))) (fns : List Nat) : Result Bool :=
  run exIsolated (exManager nested) 0 (exIr fns false)

example : (exRun [[exIdle "b", exIdle "c"], [exIdle "d"]] [1, 2]).err = none
    ∧ runs (exRun [[exIdle "b", exIdle "c"], [exIdle "d"]] [1, 2]).events
      = [([], "a", 0), ([0], "b", 1), ([0], "c", 1), ([0], "b", 2), ([0], "c", 2),
         ([1], "d", 1), ([1], "d", 2)] := by decide +kernel

example : (exRun [[exIdle "b", exBreak 1, exIdle "c"]] [1, 2]).err
      = some (.verification "break" "broken")
    ∧ runs (exRun [[exIdle "b", exBreak 1, exIdle "c"]] [1, 2]).events
      = [([], "a", 0), ([0], "b", 1), ([0], "break", 1)] := by decide +kernel

example : (exRun [[exIdle "b", exFail 2]] [1, 2]).err = some (.execution "fail" "oops")
    ∧ runs (exRun [[exIdle "b", exFail 2]] [1, 2]).events
      = [([], "a", 0), ([0], "b", 1), ([0], "fail", 1), ([0], "b", 2), ([0], "fail", 2)] := by
  decide +kernel

/-! ### What holds of every run -/

/-- The IR goes from pass to pass, and the verifier sees what the pass before it left. -/
theorem C101_chain (isolated : String → Bool) (m : Manager X) (op : Nat) (ir : Ir X)
    (hk : ir.kind op = m.kind) :
    Chain ir (run isolated m op ir).events (run isolated m op ir).ir :=
  (run_inv isolated m op ir hk).chain

/-- Every verification is by the verifier in force: the manager's own, or else the closest one
around it. -/
theorem C101_honest (isolated : String → Bool) (m : Manager X) (op : Nat) (ir : Ir X)
    (hk : ir.kind op = m.kind) :
    ∀ e ∈ (run isolated m op ir).events, Honest (inForce none m) e :=
  (run_inv isolated m op ir hk).honest

/-- After each pass that succeeds and leaves its operation in place, the verifier in force is asked
at once. -/
theorem C101_checked (isolated : String → Bool) (m : Manager X) (op : Nat) (ir : Ir X)
    (hk : ir.kind op = m.kind) : Checked (inForce none m) (run isolated m op ir).events :=
  (run_inv isolated m op ir hk).checked

/-- When the run succeeds no pass failed and no verifier complained. -/
theorem C101_success (isolated : String → Bool) (m : Manager X) (op : Nat) (ir : Ir X)
    (hk : ir.kind op = m.kind) (h : (run isolated m op ir).err = none) :
    ∀ e ∈ (run isolated m op ir).events, e.bad = none := by
  have := (run_inv isolated m op ir hk).ends
  rwa [h] at this

/-- When the run fails, the error names the pass that failed or that the verifier complained about;
this was the last thing to happen and everything before went well. The only other error is that a
nested manager is for a kind of operation that is not isolated. -/
theorem C101_failure (isolated : String → Bool) (m : Manager X) (op : Nat) (ir : Ir X)
    (hk : ir.kind op = m.kind) (err : Err) (h : (run isolated m op ir).err = some err) :
    (∃ pre last, (run isolated m op ir).events = pre ++ [last] ∧ (∀ e ∈ pre, e.bad = none)
        ∧ Tells err last)
      ∨ ∃ k, err = .notIsolated k ∧ isolated k = false
        ∧ ∀ e ∈ (run isolated m op ir).events, e.bad = none := by
  have := (run_inv isolated m op ir hk).ends
  rwa [h] at this

example : (run (fun k => k == "core.module") (exManager [[exIdle "b"]]) 0 (exIr [1] false)).err
    = some (.notIsolated "func.func") := by decide +kernel

/-! ### Which passes run on what -/

/-- When the passes neither add nor remove operations of the kinds that managers are for, a
successful run is exactly the promised schedule. -/
theorem C101_schedule_partial (isolated : String → Bool) (m : Manager X) (op : Nat) (ir : Ir X)
    (hk : ir.kind op = m.kind)
    (hp : AllPasses (fun p => ∀ ir op, Keeps (fun k => HasKind k m) ir (p.run ir op).1) m)
    (h : (run isolated m op ir).err = none) :
    runs (run isolated m op ir).events = schedule ir m [] op :=
  (runManager_did (fun k => HasKind k m) ir isolated m [] none op ir (fun _ h => h) hp hk
    (Keeps.refl _ ir) h).2

theorem exIdle_keeps (K : String → Prop) (name : String) (ir : Ir Bool) (op : Nat) :
    Keeps K ir ((exIdle name).run ir op).1 := Keeps.refl K ir

example : runs (exRun [[exIdle "b", exIdle "c"]] [1, 2]).events
    = schedule (exIr [1, 2] false) (exManager [[exIdle "b", exIdle "c"]]) [] 0 := by
  refine C101_schedule_partial exIsolated _ 0 _ rfl ?_ (by decide +kernel)
  refine ⟨?_, ⟨?_, trivial⟩, trivial⟩
  · intro p hp ir op
    rw [List.mem_singleton.1 hp]; exact exIdle_keeps _ _ _ _
  · intro p hp ir op
    simp only [List.mem_cons, List.not_mem_nil, or_false] at hp
    rcases hp with rfl | rfl <;> exact exIdle_keeps _ _ _ _

/-- A pass that, when it comes to function 1, erases function 2: the operation stays what it was but
is attached to nothing. -/
def exErase : Pass Bool := ⟨"erase", fun ir op => (if op = 1 then exIr [1] ir.rest else ir, none)⟩

/-- A nested manager goes on to an operation that has been erased meanwhile: the pass runs on a
function that is no longer in the module. -/
theorem C101_erased_violated :
    ∃ (m : Manager Bool) (ir : Ir Bool) (op : Nat), ir.kind op = m.kind
      ∧ (run exIsolated m op ir).err = none
      ∧ ∃ e ∈ (run exIsolated m op ir).events, ∃ path name t before after,
        e = .ran path name t before after none ∧ t ∉ before.under op
          ∧ before.attached t = false := by
  refine ⟨exManager [[exErase]], exIr [1, 2] false, 0, rfl, by decide +kernel, ?_⟩
  have h : ((run exIsolated (exManager [[exErase]]) 0 (exIr [1, 2] false)).events.any fun e =>
      match e with
      | .ran _ _ t b _ f => f.isNone && !(b.under 0).contains t && !b.attached t
      | _ => false) = true := by decide +kernel
  obtain ⟨e, he, hh⟩ := List.any_eq_true.1 h
  refine ⟨e, he, ?_⟩
  cases e with
  | verified => cases hh
  | ran path name t b a f =>
    simp only [Bool.and_eq_true, Option.isNone_iff_eq_none, Bool.not_eq_true'] at hh
    refine ⟨path, name, t, b, a, by rw [hh.1.1], ?_, hh.2⟩
    intro hm
    have := List.contains_iff_mem.2 hm
    rw [hh.1.2] at this; cases this

/-- A pass that, when it comes to function 1, adds function 3. -/
def exAdd : Pass Bool := ⟨"add", fun ir op => (if op = 1 then exIr [1, 2, 3] ir.rest else ir, none)⟩

/-- A nested manager does not come to an operation that has been added meanwhile: the module ends
with a function on which no pass of that manager ran. -/
theorem C101_added_violated :
    ∃ (m : Manager Bool) (ir : Ir Bool) (op t : Nat), ir.kind op = m.kind
      ∧ (run exIsolated m op ir).err = none
      ∧ (∃ n ∈ m.nested, t ∈ instances n.kind (run exIsolated m op ir).ir op
        ∧ n.passes ≠ [])
      ∧ ∀ r ∈ runs (run exIsolated m op ir).events, r.2.2 ≠ t := by
  refine ⟨exManager [[exAdd, exIdle "b"]], exIr [1, 2] false, 0, 3, rfl, by decide +kernel,
    ⟨_, List.mem_singleton.2 rfl, by decide +kernel, by simp [Manager.passes]⟩, by decide +kernel⟩

/-! ### Blame -/

/-- When the only verifier judges the IR as a whole, the IR was in order at the beginning and every
pass left its operation in place, then the pass named in a verification error is the one that broke
the IR: it was in order before that pass and not after it. -/
theorem C101_blame_partial (isolated : String → Bool) (m : Manager X) (op : Nat) (ir : Ir X)
    (check : Ir X → Option String) (hk : ir.kind op = m.kind) (hv : m.verifier ≠ none)
    (hcheck : ∀ path v, inForce none m path = some v → v = fun ir _ => check ir)
    (hir : check ir = none) (hkeep : ∀ e ∈ (run isolated m op ir).events, Kept e)
    (p msg : String) (h : (run isolated m op ir).err = some (.verification p msg)) :
    ∃ pre path t before after, (run isolated m op ir).events
        = pre ++ [.ran path p t before after none, .verified path p t after (some msg)]
      ∧ check before = none ∧ check after = some msg := by
  have hinv := run_inv isolated m op ir hk
  have hends := hinv.ends
  rw [h] at hends
  rcases hends with ⟨pre, last, hev, hpre, ht⟩ | ⟨k, he, _⟩
  · cases last with
    | ran => exact absurd ht (by simp [Tells])
    | verified path name t i c =>
      obtain ⟨rfl, rfl⟩ : p = name ∧ c = some msg := ht
      obtain ⟨pre', b, hp, h1, h2⟩ := blame (inForce none m) check hcheck _ pre ir _ path p t i msg
        hir hinv.chain hinv.checked hinv.honest (hinv.guarded hv) hkeep hev hpre
      exact ⟨pre', path, t, b, i, by rw [hev, hp]; simp, h1, h2⟩
  · cases he

/-- The example above, where `break` is blamed, meets the hypotheses. -/
example : (exIr [1, 2] false).kind 0 = (exManager [[exIdle "b", exBreak 1, exIdle "c"]]).kind
    ∧ exCheck (exIr [1, 2] false) = none
    ∧ (∀ e ∈ (exRun [[exIdle "b", exBreak 1, exIdle "c"]] [1, 2]).events, Kept e) := by
  refine ⟨rfl, rfl, ?_⟩
  have h : ((exRun [[exIdle "b", exBreak 1, exIdle "c"]] [1, 2]).events.all fun e =>
      match e with
      | .ran _ _ t b a _ => a.kind t == b.kind t && (!b.attached t || a.attached t)
      | _ => true) = true := by decide +kernel
  intro e he
  have := List.all_eq_true.1 h e he
  cases e with
  | verified => trivial
  | ran path name t b a f =>
    simp only [Bool.and_eq_true, beq_iff_eq, Bool.or_eq_true, Bool.not_eq_true'] at this
    refine ⟨this.1, fun hb => ?_⟩
    rcases this.2 with h | h
    · rw [h] at hb; cases hb
    · exact h

/-- A pass that, when it comes to function 2, erases it and breaks the IR. -/
def exVanish : Pass Bool := ⟨"vanish", fun ir op => (if op = 2 then exIr [1] true else ir, none)⟩

/-- A run may succeed and leave the IR broken, with a verifier installed that would have noticed:
after a pass that erases its own operation nothing is verified. -/
theorem C101_unverified_violated :
    ∃ (m : Manager Bool) (ir : Ir Bool) (op : Nat), ir.kind op = m.kind
      ∧ m.verifier = some (fun ir _ => exCheck ir) ∧ exCheck ir = none
      ∧ (run exIsolated m op ir).err = none ∧ exCheck (run exIsolated m op ir).ir ≠ none :=
  ⟨exManager [[exVanish]], exIr [1, 2] false, 0, rfl, rfl, rfl, by decide +kernel, by decide +kernel⟩

/-- The blame may fall on a pass that did nothing: the IR was already broken before each of its
runs. -/
theorem C101_blame_violated :
    ∃ (m : Manager Bool) (ir : Ir Bool) (op : Nat) (p msg : String), ir.kind op = m.kind
      ∧ m.verifier = some (fun ir _ => exCheck ir) ∧ exCheck ir = none
      ∧ (run exIsolated m op ir).err = some (.verification p msg)
      ∧ ∀ e ∈ (run exIsolated m op ir).events, ∀ path t before after f,
        e = .ran path p t before after f → exCheck before ≠ none := by
  refine ⟨exManager [[exVanish], [exIdle "innocent"]], exIr [1, 2] false, 0, "innocent", "broken",
    rfl, rfl, rfl, by decide +kernel, ?_⟩
  have h : ((run exIsolated (exManager [[exVanish], [exIdle "innocent"]]) 0
      (exIr [1, 2] false)).events.all fun e =>
      match e with
      | .ran _ n _ b _ _ => n != "innocent" || (exCheck b).isSome
      | _ => true) = true := by decide +kernel
  intro e he path t b a f heq
  have := List.all_eq_true.1 h e he
  subst heq
  simp only [bne_self_eq_false, Bool.false_or] at this
  intro hn
  rw [hn] at this; cases this

end Verif.PassMgr
