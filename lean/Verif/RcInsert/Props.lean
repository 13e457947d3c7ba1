import Verif.RcInsert.Check

/-!
# C23: insertion of retains and releases
-/

namespace Verif.RcInsert

open Verif.Live

/-- The operations among the instructions of a block. -/
def operations (xs : List Instr) : List (Nat × Op) :=
  xs.filterMap (fun x => match x with | .op i o => some (i, o) | _ => none)

/-- C23: apart from the retains and releases the block is what it was. -/
theorem C23_keeps_code (c : Config) (l : Live) (b : Nat) (blk : Block) :
    (operations (insertBlock c l b blk)).map Prod.snd = blk.ops := by
  have hret : ∀ vs : List Nat, operations (vs.map .retain) = [] := by
    intro vs; induction vs <;> simp_all [operations]
  have hrel : ∀ vs : List Nat, operations (vs.map .release) = [] := by
    intro vs; induction vs <;> simp_all [operations]
  have happ : ∀ xs ys, operations (xs ++ ys) = operations xs ++ operations ys := by
    intro xs ys; simp [operations]
  have hone : ∀ i o, operations [Instr.op i o] = [(i, o)] := fun i o => rfl
  have : ∀ (ops : List Op) (i : Nat), (operations (chunks c l b blk i ops)).map Prod.snd = ops := by
    intro ops
    induction ops with
    | nil => intro i; rfl
    | cons op ops ih =>
      intro i
      simp only [chunks, chunk, happ, hret, hrel, hone, List.nil_append, List.append_nil, List.map_append, ih]
      rfl
  simp only [insertBlock, happ, hret, hrel, List.nil_append, this]

/-- C23: along every path through the body, for bodies and contracts that are `Regular`, no reference is given
back or moved away that is not held, and no value is used whose last reference is gone. -/
theorem C23_safe_partial {c : Config} {I : Info} {body : Body} {deps : List (Nat × Nat)} (hc : c.inp = analyse I body deps)
    {fuel : Nat} {l : Live} (hl : liveness c.inp fuel = some l) (hr : Regular c) {p : List Nat} (hp : IsPath body p) :
    (runPath c l p (initial c)).isSome := by
  have hbody : c.inp.body = body := by rw [hc]; rfl
  rw [← hbody] at hp
  obtain ⟨q, b, e⟩ := path_last hp
  obtain ⟨own, h, -⟩ := run_path (facts hc hr hl) hr hp q b e
  rw [h]
  rfl

/-- C23: along a path on which whatever is live at the end of a block is live at the start of the next, one reference
is held at the end for each owned value that is still live, and no other: every owned value whose use is over was given
back exactly once. -/
theorem C23_balanced_partial {c : Config} {I : Info} {body : Body} {deps : List (Nat × Nat)} (hc : c.inp = analyse I body deps)
    {fuel : Nat} {l : Live} (hl : liveness c.inp fuel = some l) (hr : Regular c) (ht : Tidy c) {q : List Nat} {b : Nat} {blk : Block}
    (hp : IsPath body (q ++ [b])) (hb : body[b]? = some blk) (hs : StaysLive c (q ++ [b])) :
    ∃ own, runPath c l (q ++ [b]) (initial c) = some own ∧ ∀ v ∈ c.inp.ptrs,
      (Owned c v ∧ LiveOut c.inp v b → own v = 1) ∧ (¬ (Owned c v ∧ LiveOut c.inp v b) → own v = 0) := by
  have hbody : c.inp.body = body := by rw [hc]; rfl
  rw [← hbody] at hp hb
  have F := facts hc hr hl
  have hex : ∀ p ∈ c.inp.ptrs, ∀ b, (p ∈ l.liveIn b ↔ LiveIn c.inp p b) ∧ (p ∈ l.liveOut b ↔ LiveOut c.inp p b) := by
    have hargs := hr.args
    rw [hc] at hl hargs ⊢
    intro p hp b
    exact C21_exact (fun b hb v hv => (hargs b hb v hv).1) hl hp b
  obtain ⟨own, h1, h2, h3⟩ := path_exact F hr ht (fun v hv b => ⟨((hex v hv b).1).2, ((hex v hv b).2).1⟩) hp hs q b blk rfl hb
  refine ⟨own, h1, fun v hv => ⟨?_, ?_⟩⟩
  · rintro ⟨ho, hlo⟩
    have e1 := h2 v ho (((hex v hv b).2).2 hlo)
    have e2 := (h3 v hv).1
    omega
  · intro hn
    by_contra hne
    obtain ⟨e1, e2⟩ := (h3 v hv).2 (by omega)
    exact hn ⟨e1, ((hex v hv b).2).1 e2⟩

/-- C23: through straight-line code to the end of the function: every owned value has been given back exactly once. -/
theorem C23_straight_partial {c : Config} {I : Info} {body : Body} {deps : List (Nat × Nat)} (hc : c.inp = analyse I body deps)
    {fuel : Nat} {l : Live} (hl : liveness c.inp fuel = some l) (hr : Regular c) (ht : Tidy c) {q : List Nat} {b : Nat} {blk : Block}
    (hp : IsPath body (q ++ [b])) (hone : ∀ x ∈ q, ∀ xb, body[x]? = some xb → ∃ s, succsOf xb = [s])
    (hb : body[b]? = some blk) (hend : succsOf blk = []) :
    ∃ own, runPath c l (q ++ [b]) (initial c) = some own ∧ ∀ v ∈ c.inp.ptrs, own v = 0 := by
  have hbody : c.inp.body = body := by rw [hc]; rfl
  have hedge : ∀ {p}, IsPath body p → ∀ pre x s post, p = pre ++ x :: s :: post →
      ∃ xb, body[x]? = some xb ∧ s ∈ succsOf xb := by
    intro p hp
    induction hp with
    | entry =>
      intro pre x s post he
      have := congrArg List.length he
      simp at this
      omega
    | @step q b s blk hq hb hs ih =>
      intro pre x y post he
      rcases List.eq_nil_or_concat post with rfl | ⟨post', z, rfl⟩
      · have := List.append_inj' (show q ++ [b, s] = pre ++ [x, y] from he) rfl
        simp only [List.cons.injEq, and_true] at this
        obtain ⟨-, rfl, rfl⟩ := this
        exact ⟨blk, hb, hs⟩
      · have : (q ++ [b]) ++ [s] = (pre ++ x :: y :: post') ++ [z] := by simpa using he
        exact ih pre x y post' (List.append_inj' this rfl).1
  have hlast : ∀ (xb : Block) (op : Op), xb.ops.getLast? = some op → succsOf xb = op.succs := by
    intro xb op h; simp [succsOf, h]
  obtain ⟨own, h1, h2⟩ := C23_balanced_partial hc hl hr ht hp hb (by
    intro pre x s post he v hv
    rintro ⟨xb, op, s', hx, hop, hs', hlive⟩
    obtain ⟨xb', hx', hs⟩ := hedge hp pre x s post he
    rw [hbody] at hx
    rw [hx] at hx'
    cases hx'
    have hxq : x ∈ q := by
      rcases List.eq_nil_or_concat post with rfl | ⟨post', z, rfl⟩
      · have : q ++ [b] = (pre ++ [x]) ++ [s] := by simpa using he
        rw [(List.append_inj' this rfl).1]
        simp
      · have : q ++ [b] = (pre ++ x :: s :: post') ++ [z] := by simpa using he
        rw [(List.append_inj' this rfl).1]
        simp
    obtain ⟨t, ht'⟩ := hone x hxq xb hx
    rw [hlast xb op hop] at hs ht'
    rw [ht', List.mem_singleton] at hs hs'
    rw [hs, ← hs']
    exact hlive)
  refine ⟨own, h1, fun v hv => (h2 v hv).2 ?_⟩
  rintro ⟨-, blk', op, s, hb', hop, hs, -⟩
  rw [hbody, hb] at hb'
  cases hb'
  rw [← hlast blk op hop, hend] at hs
  cases hs

/-! ## Example

`bb0(1): 2 = call 1 (keeps it); brif [bb1, bb2]`, `bb1: 6 = load 2 (borrowed); other 6; 3 = load 2; 4 = cast 3;
store 1 into 2; jump 4 bb3`, `bb2: tail call with 1, 2`, `bb3(5): return 5`. -/

def exInfo : Info := ⟨fun v => [1, 2, 3, 4, 5, 6].contains v, fun _ => false, fun _ => false⟩

def exBody : Body :=
  [⟨[1], [⟨.call, [1], [2], []⟩, ⟨.brif, [9], [], [1, 2]⟩]⟩,
   ⟨[], [⟨.load, [2], [6], []⟩, ⟨.other, [6], [], []⟩, ⟨.load, [2], [3], []⟩, ⟨.cast, [3], [4], []⟩,
     ⟨.store, [1, 2], [], []⟩, ⟨.jump, [4], [], [3]⟩]⟩,
   ⟨[], [⟨.returnCall, [1, 2], [], []⟩]⟩,
   ⟨[5], [⟨.ret, [5], [], []⟩]⟩]

def exConfig : Config :=
  { inp := analyse exInfo exBody [(6, 2)], params := [], temps := [6], consumed := [], interm := fun _ => false,
    contract := fun b i =>
      if b = 0 ∧ i = 0 then some ⟨[.acquire], false, false⟩
      else if b = 2 ∧ i = 0 then some ⟨[.transfer, .transfer], true, false⟩ else none }

def exLive : Live :=
  match liveness exConfig.inp 9 with
  | some l => l
  | none => start

theorem exLive_eq : liveness exConfig.inp 9 = some exLive := by
  have : (liveness exConfig.inp 9).isSome = true := by decide +kernel
  simp only [exLive]
  cases h : liveness exConfig.inp 9 with
  | none => rw [h] at this; cases this
  | some l => rfl

theorem exRegular : Regular exConfig :=
  regular_of rfl exLive_eq (interms := []) (fun _ h => by cases h)
    ⟨by decide +kernel, by decide +kernel, by decide +kernel, by decide +kernel, by decide +kernel, by decide +kernel,
     by decide +kernel, by decide +kernel, by decide +kernel, by decide +kernel, by decide +kernel, by decide +kernel,
     by decide +kernel⟩

theorem exTidy : Tidy exConfig :=
  tidy_of (interms := []) (fun _ h => by cases h)
    ⟨by decide +kernel, by decide +kernel, by decide +kernel, by decide +kernel, by decide +kernel, by decide +kernel,
     by decide +kernel, by decide +kernel, by decide +kernel⟩

/-- The conditions of the theorems hold of the example, which has two paths to the end, and this is what the pass
makes of it. -/
example : Regular exConfig ∧ Tidy exConfig ∧ IsPath exBody [0, 1, 3] ∧ IsPath exBody [0, 2] ∧
    insertBlock exConfig exLive 0 exBody[0] =
      [.retain 1, .retain 1, .op 0 ⟨.call, [1], [2], []⟩, .op 1 ⟨.brif, [9], [], [1, 2]⟩] ∧
    insertBlock exConfig exLive 1 exBody[1] =
      [.op 0 ⟨.load, [2], [6], []⟩, .op 1 ⟨.other, [6], [], []⟩, .op 2 ⟨.load, [2], [3], []⟩, .retain 3,
       .op 3 ⟨.cast, [3], [4], []⟩, .retain 1, .op 4 ⟨.store, [1, 2], [], []⟩, .release 1, .release 2,
       .op 5 ⟨.jump, [4], [], [3]⟩] ∧
    insertBlock exConfig exLive 2 exBody[2] = [.op 0 ⟨.returnCall, [1, 2], [], []⟩] := by
  refine ⟨exRegular, exTidy, ?_, ?_, by decide +kernel, by decide +kernel, by decide +kernel⟩
  · exact .step (p := [0]) (.step (p := []) .entry (show exBody[0]? = some _ from rfl) (by decide))
      (show exBody[1]? = some _ from rfl) (by decide)
  · exact .step (p := []) .entry (show exBody[0]? = some _ from rfl) (by decide)

/-! ## What goes wrong -/

/-- A parameter that is used in one of two branches only. -/
def leakInfo : Info := ⟨fun v => v == 1, fun _ => false, fun _ => false⟩

def leakBody : Body :=
  [⟨[1], [⟨.brif, [9], [], [1, 2]⟩]⟩, ⟨[], [⟨.call, [1], [], []⟩, ⟨.ret, [], [], []⟩]⟩, ⟨[], [⟨.ret, [], [], []⟩]⟩]

def leakConfig : Config :=
  { inp := analyse leakInfo leakBody [], params := [], temps := [], consumed := [], interm := fun _ => false,
    contract := fun _ _ => none }

/-- C23 does not hold without `StaysLive`: a value that is used after one side of a branch only is never released on
the other side.  The function below keeps a reference to its parameter when it returns from there, and satisfies all
the other conditions. -/
theorem C23_leak_violated : ∃ (c : Config) (I : Info) (body : Body) (l : Live) (p : List Nat) (own : Ledger) (v : Nat),
    c.inp = analyse I body [] ∧ liveness c.inp 9 = some l ∧ Regular c ∧ Tidy c ∧ IsPath body p ∧
    runPath c l p (initial c) = some own ∧ Owned c v ∧
    (∃ blk, body[p.getLastD 0]? = some blk ∧ succsOf blk = []) ∧ own v = 1 := by
  have hl : (liveness leakConfig.inp 9).isSome = true := by decide +kernel
  obtain ⟨l, hl'⟩ := Option.isSome_iff_exists.1 hl
  have hcheck : ∀ l, liveness leakConfig.inp 9 = some l →
      Checked leakConfig l [] ∧ (runPath leakConfig l [0, 2] (initial leakConfig)).map (fun o => o 1) = some 1 := by
    have hx : ∀ m, m = (match liveness leakConfig.inp 9 with | some l => l | none => start) →
        Checked leakConfig m [] ∧ (runPath leakConfig m [0, 2] (initial leakConfig)).map (fun o => o 1) = some 1 := by
      rintro m rfl
      exact ⟨⟨by decide +kernel, by decide +kernel, by decide +kernel, by decide +kernel, by decide +kernel, by decide +kernel,
        by decide +kernel, by decide +kernel, by decide +kernel, by decide +kernel, by decide +kernel, by decide +kernel,
        by decide +kernel⟩, by decide +kernel⟩
    intro l hl
    exact hx l (by rw [hl])
  obtain ⟨h1, h2⟩ := hcheck l hl'
  rw [Option.map_eq_some_iff] at h2
  obtain ⟨own, h3, h4⟩ := h2
  refine ⟨leakConfig, leakInfo, leakBody, l, [0, 2], own, 1, rfl, hl', regular_of rfl hl' (fun _ h => by cases h) h1,
    tidy_of (interms := []) (fun _ h => by cases h) ?_, ?_, h3, ?_, ⟨_, rfl, rfl⟩, h4⟩
  · exact ⟨by decide +kernel, by decide +kernel, by decide +kernel, by decide +kernel, by decide +kernel, by decide +kernel,
      by decide +kernel, by decide +kernel, by decide +kernel⟩
  · exact .step (p := []) .entry (show leakBody[0]? = some _ from rfl) (by decide)
  · exact ownedB_iff (by decide +kernel)

/-- The parameter is passed to a block, and used there under both names. -/
def twiceInfo : Info := ⟨fun v => v == 1 || v == 2, fun _ => false, fun _ => false⟩

def twiceBody : Body :=
  [⟨[1], [⟨.jump, [1], [], [1]⟩]⟩, ⟨[2], [⟨.call, [1], [], []⟩, ⟨.call, [2], [], []⟩, ⟨.ret, [], [], []⟩]⟩]

def twiceConfig : Config :=
  { inp := analyse twiceInfo twiceBody [], params := [], temps := [], consumed := [], interm := fun _ => false,
    contract := fun _ _ => none }

/-- C23 does not hold for a value that is passed to a block and is used later under its old name as well: its object is
retained once, for the parameter, and released twice, once for each name, and the second use is one of an object that
may be gone. -/
theorem C23_double_violated : ∃ l, liveness twiceConfig.inp 9 = some l ∧ IsPath twiceBody [0, 1] ∧
    insertBlock twiceConfig l 0 twiceBody[0] = [.retain 1, .op 0 ⟨.jump, [1], [], [1]⟩] ∧
    insertBlock twiceConfig l 1 twiceBody[1] =
      [.op 0 ⟨.call, [1], [], []⟩, .release 1, .op 1 ⟨.call, [2], [], []⟩, .release 2, .op 2 ⟨.ret, [], [], []⟩] ∧
    runPath twiceConfig l [0, 1] (initial twiceConfig) = none := by
  have hl : (liveness twiceConfig.inp 9).isSome = true := by decide +kernel
  obtain ⟨l, hl'⟩ := Option.isSome_iff_exists.1 hl
  have hx : ∀ m, m = (match liveness twiceConfig.inp 9 with | some l => l | none => start) →
      insertBlock twiceConfig m 0 twiceBody[0] = [.retain 1, .op 0 ⟨.jump, [1], [], [1]⟩] ∧
      insertBlock twiceConfig m 1 twiceBody[1] =
        [.op 0 ⟨.call, [1], [], []⟩, .release 1, .op 1 ⟨.call, [2], [], []⟩, .release 2, .op 2 ⟨.ret, [], [], []⟩] ∧
      (runPath twiceConfig m [0, 1] (initial twiceConfig)).isSome = false := by
    rintro m rfl
    exact ⟨by decide +kernel, by decide +kernel, by decide +kernel⟩
  obtain ⟨h1, h2, h3⟩ := hx l (by rw [hl'])
  refine ⟨l, hl', .step (p := []) .entry (show twiceBody[0]? = some _ from rfl) (by decide), h1, h2, ?_⟩
  simpa using h3

/-- A value is made and passed to a tail call without a contract. -/
def tailBody : Body := [⟨[], [⟨.call, [], [1], []⟩, ⟨.returnCall, [1], [], []⟩]⟩]

def tailConfig : Config :=
  { inp := analyse leakInfo tailBody [], params := [], temps := [], consumed := [], interm := fun _ => false,
    contract := fun _ _ => none }

/-- C23 does not hold for a value that a tail call without a contract is passed: its only reference is given back before
the call. -/
theorem C23_tail_violated : ∃ l, liveness tailConfig.inp 9 = some l ∧ IsPath tailBody [0] ∧
    insertBlock tailConfig l 0 tailBody[0] = [.op 0 ⟨.call, [], [1], []⟩, .release 1, .op 1 ⟨.returnCall, [1], [], []⟩] ∧
    runPath tailConfig l [0] (initial tailConfig) = none := by
  have hl : (liveness tailConfig.inp 9).isSome = true := by decide +kernel
  obtain ⟨l, hl'⟩ := Option.isSome_iff_exists.1 hl
  have hx : ∀ m, m = (match liveness tailConfig.inp 9 with | some l => l | none => start) →
      insertBlock tailConfig m 0 tailBody[0] = [.op 0 ⟨.call, [], [1], []⟩, .release 1, .op 1 ⟨.returnCall, [1], [], []⟩] ∧
      (runPath tailConfig m [0] (initial tailConfig)).isSome = false := by
    rintro m rfl
    exact ⟨by decide +kernel, by decide +kernel⟩
  obtain ⟨h1, h2⟩ := hx l (by rw [hl'])
  exact ⟨l, hl', .entry, h1, by simpa using h2⟩

end Verif.RcInsert
