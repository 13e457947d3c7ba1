import Verif.Inline.Term
/-!
# C20 — inlining preserves what programs do; C53 — the inlining pass ends
-/
namespace Verif.Inline
open Relation

variable {V W σ : Type}

/-! ## A module to show that the hypotheses can be met -/

/-- Operation without regions. -/
def op (id : OpId) (kind : Kind) (operands results : List Value) (rest : Ops) : Ops :=
  .cons ⟨id, kind, operands, results⟩ .nil rest

def pairFunc : Func :=
  ⟨"pair", false, 2, some [⟨[10, 11], op 5 (.other 2) [10, 11] [12] <| op 6 .ret [12, 10] [] .nil⟩]⟩

/-- `main` calls `pair` with the same argument twice, inside a region `wrap` tail-calls it, and `pair` returns its
own parameter. `loop` calls itself. -/
def sample : Module where
  funcs :=
    [⟨"main", false, 1, some [⟨[], op 0 (.other 1) [] [0] <| op 1 (.call (some "pair")) [0, 0] [1, 2] <|
        op 2 (.other 2) [1, 2] [3] <| op 3 .ret [3] [] .nil⟩]⟩,
     pairFunc,
     ⟨"loop", false, 1, some [⟨[20], op 7 (.call (some "loop")) [20] [21] <| op 8 .ret [21] [] .nil⟩]⟩,
     ⟨"wrap", false, 2, some [⟨[30], .cons ⟨9, .other 7, [30], []⟩
        (.cons [31] (op 10 (.tailCall (some "pair")) [31, 30] [] .nil) .nil) .nil⟩]⟩]
  arena := ⟨40, 20⟩

theorem sample_wf : WellFormed sample := by
  refine ⟨⟨?_, ?_, ?_, ?_, ?_, ?_, ?_, ?_⟩, ?_⟩
  · simp [sample, pairFunc]
  · decide
  · decide
  · decide
  · decide
  · decide
  · simp [sample, pairFunc, op, Ops.Scoped, Regions.Scoped]
  · simp [sample, pairFunc, op, Ops.All, Regions.All, Typed, lastNamed]
  · intro f hf b hb body last hs
    simp only [sample, List.mem_cons, List.not_mem_nil, or_false] at hf
    rcases hf with rfl | rfl | rfl | rfl <;> simp only [pairFunc, Option.some.injEq, List.cons.injEq, and_true] at hb <;>
      subst hb <;> simp only [op, Ops.splitLast, Option.bind_eq_bind, Option.bind_some, Option.some.injEq,
        Prod.mk.injEq] at hs <;> obtain ⟨rfl, rfl⟩ := hs <;>
      simp [Ops.Straight, Kind.terminates, Kind.returns, Regions.All, Kind.isTail]

theorem sample_numbered : Numbered sample :=
  ⟨by decide, by decide, by
    simp [sample, pairFunc, op, Ops.FlatCalls, Regions.FlatCalls, Kind.isCall]⟩

/-- `main` after inlining its call. -/
def sampleInlined : Module where
  funcs :=
    [⟨"main", false, 1, some [⟨[], op 0 (.other 1) [] [0] <| op 20 (.other 2) [0, 0] [40] <|
        op 2 (.other 2) [40, 0] [3] <| op 3 .ret [3] [] .nil⟩]⟩] ++ sample.funcs.tail
  arena := ⟨41, 21⟩

/-- `wrap` after inlining its tail call. -/
def sampleInlinedTail : Module where
  funcs := sample.funcs.dropLast ++
    [⟨"wrap", false, 2, some [⟨[30], .cons ⟨9, .other 7, [30], []⟩
        (.cons [31] (op 20 (.other 2) [31, 30] [40] <| op 21 .ret [40, 31] [] .nil) .nil) .nil⟩]⟩]
  arena := ⟨41, 22⟩

/-! ## One call -/

/-- **C20.** Replacing a call or a tail call of a function of the module by the function's body changes nothing: for
every meaning of the other operations, every function of the module, called with any arguments in any state of
the world, ends with the same values and in the same state, traps in the same state, or runs forever, as
before.

Partial: the module satisfies the rules of the IR and its bodies are single blocks, and functions that end in a return or tail call do
not return earlier from within a region (`NoEarlyReturn`); without the last condition the claim is false, see
`C20_early_return_violated`. -/
theorem C20_inline_partial (S : Sem V W σ) {m m' : Module} (hwf : WellFormed m) {t : OpId} {call : Head} {gname : Sym}
    {g : Func} (hfind : m.find t = some call)
    (hcall : call.kind = .call (some gname) ∨ call.kind = .tailCall (some gname))
    (hg : lastNamed m.funcs gname = some g) (hok : inlineSingle m t g = .ok m')
    (f : Sym) (args : List V) (w : W) (r : Result V W) :
    Runs S m f args w r ↔ Runs S m' f args w r :=
  inline_runs S hwf hfind (by rcases hcall with h | h <;> rw [h] <;> rfl) hg hok f args w r

example : WellFormed sample ∧ sample.find 1 = some ⟨1, .call (some "pair"), [0, 0], [1, 2]⟩ ∧
    lastNamed sample.funcs "pair" = some pairFunc ∧ inlineSingle sample 1 pairFunc = .ok sampleInlined :=
  ⟨sample_wf, by decide, rfl, rfl⟩

example : sample.find 10 = some ⟨10, .tailCall (some "pair"), [31, 30], []⟩ ∧
    inlineSingle sample 10 pairFunc = .ok sampleInlinedTail := ⟨by decide, rfl⟩

/-- **C20.** Inlining is refused only for the listed reasons, and then changes nothing: a call of a function whose body
is one block that ends in a return and has as many parameters as the call has operands is inlined. -/
theorem C20_inline_succeeds (m : Module) {t : OpId} {call : Head} {g : Func} {entry : Block} {body : Ops} {last : Head}
    (hfind : m.find t = some call) (hcall : call.kind.isCall = true) (hbody : g.body = some [entry])
    (hlen : entry.params.length = call.operands.length) (hsplit : entry.ops.splitLast = some (body, last))
    (hret : last.kind = .ret) : ∃ m', inlineSingle m t g = .ok m' := by
  unfold inlineSingle spliceCalleeBody
  rw [hfind]
  simp only [hcall, Bool.not_true, Bool.false_eq_true, if_false, hbody, hlen, ne_eq, not_true_eq_false, hsplit, hret]
  split <;> exact ⟨_, rfl⟩

/-- **C20.** Inlining keeps the rules of the IR: in particular every value is still defined once and every operand still
refers to a value that is visible where it is used. -/
theorem C20_inline_wellFormed_partial {m m' : Module} (hwf : WellFormed m) {t : OpId} {call : Head} {gname : Sym}
    {g : Func} (hfind : m.find t = some call)
    (hcall : call.kind = .call (some gname) ∨ call.kind = .tailCall (some gname))
    (hg : lastNamed m.funcs gname = some g) (hok : inlineSingle m t g = .ok m') : WellFormed m' :=
  inline_wf hwf hfind (by rcases hcall with h | h <;> rw [h] <;> rfl) hg hok

/-! ## The pass -/

theorem sweep_runs (S : Sem V W σ) (a : Analysis) (c : Config) : ∀ (ts : List OpId) {m : Module}, WellFormed m →
    WellFormed (sweep a c ts m).1 ∧
    ∀ f args w r, Runs S m f args w r ↔ Runs S (sweep a c ts m).1 f args w r
  | [], m, hwf => ⟨hwf, fun _ _ _ _ => Iff.rfl⟩
  | t :: ts, m, hwf => by
    simp only [sweep]
    rcases tryInline_cases a c m t with h | ⟨call, gname, g, m', hfind, hcallee, _, hg, hok, h⟩
    · rw [h]; exact sweep_runs S a c ts hwf
    · rw [h]
      have ih := sweep_runs S a c ts (inline_wf hwf hfind hcallee hg hok)
      exact ⟨ih.1, fun f args w r => (inline_runs S hwf hfind hcallee hg hok f args w r).trans (ih.2 f args w r)⟩

/-- **C20.** The whole pass changes nothing about what any function of the module does, whatever its configuration.

Partial: as in `C20_inline_partial`. -/
theorem C20_pass_partial (S : Sem V W σ) (c : Config) : ∀ (fuel : Nat) {m m' : Module} {n : Nat}, WellFormed m →
    inlineFunctions c fuel m = some (m', n) →
    WellFormed m' ∧ ∀ f args w r, Runs S m f args w r ↔ Runs S m' f args w r
  | 0, _, _, _, _, h => by simp [inlineFunctions] at h
  | fuel + 1, m, m', n, hwf, h => by
    obtain ⟨a, ha, _⟩ := analyse_ok m
    have hit : iteration c m = some (sweep a c m.visit m) := by simp [iteration, ha]
    have hs := sweep_runs S a c m.visit hwf
    unfold inlineFunctions at h
    rw [hit] at h
    simp only [Option.bind_eq_bind, Option.bind_some] at h
    split at h
    · cases h; exact hs
    · cases hr : inlineFunctions c fuel (sweep a c m.visit m).1 with
      | none => rw [hr] at h; cases h
      | some r =>
        rw [hr] at h
        cases h
        have ih := C20_pass_partial S c fuel hs.1 hr
        exact ⟨ih.1, fun f args w r => (hs.2 f args w r).trans (ih.2 f args w r)⟩

example : (inlineFunctions .default 3 sample).map (fun r => r.2) = some 2 ∧
    (inlineFunctions ⟨0, false, false⟩ 3 sample).map (fun r => r.2) = some 0 := by decide +kernel

/-! ## Recursive functions -/

/-- **C20.** A recursive function is never inlined, into itself or elsewhere: with the analysis of a module, a call of a
function that leads back to itself in that module is left alone, also after other calls were inlined. -/
theorem C20_recursive_never (c : Config) (m : Module) : ∃ a, analyse m = some a ∧
    ∀ g, Recursive m g → ∀ (cur : Module) (t : OpId) (call : Head), cur.find t = some call →
      call.kind = .call (some g) ∨ call.kind = .tailCall (some g) → tryInline a c cur t = (cur, false) := by
  obtain ⟨a, ha, hr, _⟩ := analyse_ok m
  refine ⟨a, ha, fun g hg cur t call hf hk => ?_⟩
  rcases tryInline_cases a c cur t with h | ⟨call', gname, _, _, hf', hc, hnr, _⟩
  · exact h
  · rw [hf, Option.some.injEq] at hf'
    subst hf'
    have : gname = g := by rcases hk with h | h <;> rw [h] at hc <;> simpa [Kind.callee] using hc.symm
    subst this
    exact absurd ((hr _).mpr hg) hnr

example : Recursive sample "loop" ∧ sample.find 7 = some ⟨7, .call (some "loop"), [20], [21]⟩ :=
  ⟨TransGen.single ⟨⟨sample.funcs[2], by simp [sample], rfl, .call (some "loop"), by decide, Or.inl rfl⟩,
    sample.funcs[2], by simp [sample], rfl⟩, by decide⟩

/-- How one function changes: it keeps its name, and keeps its calls of functions that satisfy `R`. -/
def Keeps (R : Sym → Prop) (f f' : Func) : Prop :=
  f'.name = f.name ∧ ∀ g, R g → f.kinds.count (.call (some g)) ≤ f'.kinds.count (.call (some g)) ∧
    f.kinds.count (.tailCall (some g)) ≤ f'.kinds.count (.tailCall (some g))

theorem sum_indicator (K : Kind) : ∀ l : List Kind, (l.map fun k => if k = K then 1 else 0).sum = l.count K
  | [] => rfl
  | k :: l => by
    simp only [List.map_cons, List.sum_cons, sum_indicator K l, List.count_cons, beq_iff_eq]
    omega

theorem keeps_step {R : Sym → Prop} {m m' : Module} (hn : Numbered m) {t : OpId} {g : Func} {gname : Sym}
    (hg : lastNamed m.funcs gname = some g) {call : Head} (hfind : m.find t = some call)
    (hc : call.kind.callee = some gname) (hnr : ¬ R gname) (hok : inlineSingle m t g = .ok m') :
    List.Forall₂ (Keeps R) m.funcs m'.funcs := by
  obtain ⟨hgm, hgn⟩ := lastNamed_mem hg
  obtain ⟨call', N, hfind', hs⟩ := stepped hn hgm hok
  rw [hfind, Option.some.injEq] at hfind'; subst hfind'
  obtain ⟨ρ, h7⟩ := hs.funcs
  rw [h7, List.forall₂_map_right_iff, List.forall₂_same]
  intro f hf
  have hcost : ∀ K : Kind, K ≠ call.kind → f.kinds.count K ≤
      (f.mapOps fun o => (Ops.splice t N o).rename ρ).kinds.count K := by
    intro K hK
    have := Regions.splice_cost (N := N) (fun k => if k = K then 1 else 0) hs.isCall
      (flat_ofBlocks.mpr (hn.flat f hf))
      (ofBlocks_all.mpr fun b hb => ofBlocks_all.mp hs.uniq b (List.mem_flatMap.mpr ⟨f, hf, hb⟩))
    rw [sum_indicator, sum_indicator, if_neg (Ne.symm hK), Nat.mul_zero, Nat.add_zero] at this
    rw [func_kinds, func_kinds, mapOps_ofBlocks, Regions.kinds_rename, this]
    exact Nat.le_add_right _ _
  refine ⟨rfl, fun h hh => ⟨hcost _ ?_, hcost _ ?_⟩⟩ <;>
  · intro he
    rw [← he] at hc
    simp only [Kind.callee, Option.some.injEq] at hc
    exact hnr (hc ▸ hh)

theorem Keeps.trans {R : Sym → Prop} {a b c : Func} (h : Keeps R a b) (h' : Keeps R b c) : Keeps R a c :=
  ⟨h'.1.trans h.1, fun g hg => ⟨((h.2 g hg).1).trans (h'.2 g hg).1, ((h.2 g hg).2).trans (h'.2 g hg).2⟩⟩

theorem forall₂_trans {α : Type} {P : α → α → Prop} (hP : ∀ a b c, P a b → P b c → P a c) : ∀ {x y z : List α},
    List.Forall₂ P x y → List.Forall₂ P y z → List.Forall₂ P x z
  | _, _, _, .nil, .nil => .nil
  | _, _, _, .cons h hs, .cons h' hs' => .cons (hP _ _ _ h h') (forall₂_trans hP hs hs')

theorem sweep_keeps {names : List Sym} {R : Sym → Prop} {W : Sym → Nat} {a : Analysis} {c : Config}
    (ha : ∀ v, v ∉ a.recursive → ¬ R v) : ∀ (ts : List OpId) {m : Module}, Bounded names R W m →
    List.Forall₂ (Keeps R) m.funcs (sweep a c ts m).1.funcs
  | [], m, _ => List.forall₂_same.mpr fun f _ => ⟨rfl, fun _ _ => ⟨Nat.le_refl _, Nat.le_refl _⟩⟩
  | t :: ts, m, hb => by
    have hb' := (tryInline_bounded (c := c) ha hb t).1
    have ih := sweep_keeps (c := c) ha ts hb'
    simp only [sweep]
    rcases tryInline_cases a c m t with h | ⟨call, gname, g, m', hfind, hcallee, hnr, hg, hok, h⟩
    · rw [h] at ih ⊢; exact ih
    · rw [h] at ih ⊢
      exact forall₂_trans (P := Keeps R) (fun _ _ _ => Keeps.trans) (keeps_step hb.numbered hg hfind hcallee (ha _ hnr) hok) ih

theorem pass_keeps {names : List Sym} {R : Sym → Prop} {W : Sym → Nat} (c : Config) : ∀ (fuel : Nat) {m m' : Module}
    {n : Nat}, Bounded names R W m → inlineFunctions c fuel m = some (m', n) →
    List.Forall₂ (Keeps R) m.funcs m'.funcs ∧ Bounded names R W m'
  | 0, _, _, _, _, h => by simp [inlineFunctions] at h
  | fuel + 1, m, m', n, hb, h => by
    obtain ⟨a, ha, h2, _⟩ := analyse_ok m
    have hit : iteration c m = some (sweep a c m.visit m) := by simp [iteration, ha]
    have hr : ∀ v, v ∉ a.recursive → ¬ R v := fun v hv hr => hv ((h2 v).mpr ((hb.recursive v).mpr hr))
    have hs := sweep_keeps (c := c) hr m.visit hb
    have hb' := (sweep_bounded (c := c) hr m.visit hb).1
    unfold inlineFunctions at h
    rw [hit] at h
    simp only [Option.bind_eq_bind, Option.bind_some] at h
    split at h
    · cases h; exact ⟨hs, hb'⟩
    · cases hr : inlineFunctions c fuel (sweep a c m.visit m).1 with
      | none => rw [hr] at h; cases h
      | some r =>
        rw [hr] at h
        cases h
        have ih := pass_keeps c fuel hb' hr
        exact ⟨forall₂_trans (P := Keeps R) (fun _ _ _ => Keeps.trans) hs ih.1, ih.2⟩

/-- **C20.** Over the whole pass: every function keeps all its calls and tail calls of recursive functions, so none of
those was inlined anywhere, and exactly the functions that were recursive before are recursive after. -/
theorem C20_pass_recursive (c : Config) (fuel : Nat) {m m' : Module} {n : Nat} (hn : Numbered m)
    (h : inlineFunctions c fuel m = some (m', n)) :
    List.Forall₂ (fun f f' => f'.name = f.name ∧ ∀ g, Recursive m g →
      f.kinds.count (.call (some g)) ≤ f'.kinds.count (.call (some g)) ∧
      f.kinds.count (.tailCall (some g)) ≤ f'.kinds.count (.tailCall (some g))) m.funcs m'.funcs ∧
    ∀ g, Recursive m' g ↔ Recursive m g := by
  obtain ⟨W, hW⟩ := bounded_start hn
  have := pass_keeps c fuel hW h
  exact ⟨this.1, this.2.recursive⟩

example : Numbered sample := sample_numbered

/-! ## Termination -/

theorem sweep_zero {a : Analysis} {c : Config} : ∀ {ts : List OpId} {m : Module}, (sweep a c ts m).2 = 0 →
    (sweep a c ts m).1 = m ∧ ∀ t ∈ ts, tryInline a c m t = (m, false)
  | [], m, _ => ⟨rfl, by simp⟩
  | t :: ts, m, h => by
    simp only [sweep] at h ⊢
    rcases tryInline_cases a c m t with h' | ⟨_, _, _, _, _, _, _, _, _, h'⟩
    · rw [h'] at h ⊢
      have ih := sweep_zero (a := a) (c := c) (ts := ts) (m := m) (by simpa using h)
      exact ⟨ih.1, fun t' ht' => by
        rcases List.mem_cons.mp ht' with rfl | ht'
        · exact h'
        · exact ih.2 t' ht'⟩
    · rw [h'] at h
      simp only [if_true] at h
      omega

theorem pass_done (c : Config) : ∀ (fuel : Nat) {m m' : Module} {n : Nat},
    inlineFunctions c fuel m = some (m', n) →
    ∃ a, analyse m' = some a ∧ ∀ t ∈ m'.visit, tryInline a c m' t = (m', false)
  | 0, _, _, _, h => by simp [inlineFunctions] at h
  | fuel + 1, m, m', n, h => by
    obtain ⟨a, ha, _⟩ := analyse_ok m
    have hit : iteration c m = some (sweep a c m.visit m) := by simp [iteration, ha]
    unfold inlineFunctions at h
    rw [hit] at h
    simp only [Option.bind_eq_bind, Option.bind_some] at h
    split at h
    · rename_i h0
      have hz := sweep_zero h0
      cases h
      rw [hz.1]
      exact ⟨a, ha, hz.2⟩
    · cases hr : inlineFunctions c fuel (sweep a c m.visit m).1 with
      | none => rw [hr] at h; cases h
      | some r =>
        rw [hr] at h
        cases h
        exact pass_done c fuel hr

/-- **C53.** The inlining pass ends, for every module and every configuration: after finitely many rounds no call is
left that it would inline. -/
theorem C53_inlining_ends (c : Config) {m : Module} (hn : Numbered m) :
    ∃ fuel m' n, inlineFunctions c fuel m = some (m', n) ∧
      ∃ a, analyse m' = some a ∧ ∀ t ∈ m'.visit, tryInline a c m' t = (m', false) := by
  obtain ⟨W, hW⟩ := bounded_start hn
  obtain ⟨⟨m', n⟩, hr, _⟩ := inlineFunctions_ends c (m.weight m.names (Recursive m) W + 1) hW (Nat.lt_succ_self _)
  exact ⟨_, m', n, hr, pass_done c _ hr⟩

example : Numbered sample ∧ (inlineFunctions .default 3 sample).isSome ∧
    (inlineFunctions .default 1 sample).isNone := ⟨sample_numbered, by decide +kernel, by decide +kernel⟩

/-! ## Early returns -/

/-- The callee returns from within a region, and otherwise ends in a return. -/
def earlyFunc : Func :=
  ⟨"early", false, 1, some [⟨[10], .cons ⟨4, .other 9, [], []⟩ (.cons [] (op 5 .ret [10] [] .nil) .nil) <|
    op 6 .ret [10] [] .nil⟩]⟩

def earlyModule : Module where
  funcs :=
    [⟨"main", false, 1, some [⟨[], op 0 (.other 1) [] [0] <| op 1 (.call (some "early")) [0] [1] <|
        op 2 (.other 2) [1] [2] <| op 3 .ret [2] [] .nil⟩]⟩, earlyFunc]
  arena := ⟨20, 10⟩

/-- The module after inlining. -/
def earlyInlined : Module where
  funcs :=
    [⟨"main", false, 1, some [⟨[], op 0 (.other 1) [] [0] <|
        .cons ⟨11, .other 9, [], []⟩ (.cons [] (op 10 .ret [0] [] .nil) .nil) <|
        op 2 (.other 2) [0] [2] <| op 3 .ret [2] [] .nil⟩]⟩, earlyFunc]
  arena := ⟨20, 12⟩

/-- `other 1` gives 5, `other 2` adds one, `other 9` runs its region. -/
def earlySem : Sem Nat Unit Unit where
  start := fun n xs w => match n, xs with
    | 1, _ => .done [5] w
    | 2, [x] => .done [x + 1] w
    | 9, _ => .run 0 [] () w
    | _, _ => .trap w
  resume := fun _ _ w => .done [] w
  funcValue := fun _ => 0
  target := fun _ => none
  extern := fun _ _ w => .trap w

/-- Running is deterministic. -/
theorem Runs.unique {S : Sem V W σ} {m : Module} {g : Sym} {args : List V} {w : W} {r r' : Result V W}
    (h : Runs S m g args w r) (h' : Runs S m g args w r') : r = r' := by
  obtain ⟨n, h⟩ := h
  obtain ⟨n', h'⟩ := h'
  have h1 := evalFn_mono S m n (max n n') (Nat.le_max_left _ _) g args w r h
  have h2 := evalFn_mono S m n' (max n n') (Nat.le_max_right _ _) g args w r' h'
  rw [h1] at h2
  exact Option.some.inj h2

/-- **C20, violated.** Inlining a call of a function that may return from within a region — its last operation being a return as
well, so that the inliner accepts it — copies the inner return into the caller, which then returns from the
caller. The module satisfies the rules of the IR. -/
theorem C20_early_return_violated : ∃ (m m' : Module) (t : OpId) (call : Head) (g : Func),
    Formed m ∧ m.find t = some call ∧ call.kind = .call (some g.name) ∧ lastNamed m.funcs g.name = some g ∧
    inlineSingle m t g = .ok m' ∧ ∃ (S : Sem Nat Unit Unit) (f : Sym) (r : Result Nat Unit),
      Runs S m f [] () r ∧ ¬ Runs S m' f [] () r := by
  refine ⟨earlyModule, earlyInlined, 1, ⟨1, .call (some "early"), [0], [1]⟩, earlyFunc, ?_, by decide, rfl, rfl, rfl,
    earlySem, "main", .ret [6] (), ⟨5, rfl⟩, fun h => ?_⟩
  · refine ⟨?_, by decide, by decide, by decide, by decide, by decide, ?_, ?_⟩
    · simp [earlyModule, earlyFunc]
    · simp [earlyModule, earlyFunc, op, Ops.Scoped, Regions.Scoped]
    · simp [earlyModule, earlyFunc, op, Ops.All, Regions.All, Typed, lastNamed]
  · have := Runs.unique h (r' := .ret [5] ()) ⟨5, rfl⟩
    simp at this

end Verif.Inline
