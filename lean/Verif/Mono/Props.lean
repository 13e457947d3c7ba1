import Verif.Mono.Proofs
import Verif.Mono.Extract

/-!
# C32 and C49: specialised functions
-/

namespace Verif.Mono
open Verif.Types Verif.Scheme

/-! ## C32: different specialisations have different names -/

/-- C32, partial: two specialisations with the same generated name are of the same function at the
same type arguments.  Missing: type arguments that differ only in the effect rows (or calling
conventions) of function types inside them, and programs that declare a type called like one of
the reserved words; both are refuted below. -/
theorem C32_unique_partial {nm : Names} (hg : GoodNames nm) {f g : List Char} (hf : Ident f) (hg' : Ident g)
    {as bs : List Ty} (wa : ∀ t ∈ as, WF t ∧ concrete t = true) (wb : ∀ t ∈ bs, WF t ∧ concrete t = true)
    {n : List Char} (ha : mangle nm f as = some n) (hb : mangle nm g bs = some n) :
    f = g ∧ as.map forget = bs.map forget := by
  simp only [mangle, Option.map_eq_some_iff] at ha hb
  obtain ⟨s, hs, rfl⟩ := ha
  obtain ⟨s', hs', e⟩ := hb
  have sep : ∀ {ts : List Ty} {s}, writeT nm ts = some s → Sep s := by
    intro ts s h
    cases ts with
    | nil => simp [writeT] at h; exact Or.inl h
    | cons t ts =>
      rw [writeT] at h
      split at h
      · simp only [Option.some.injEq] at h; exact Or.inr ⟨_, h.symm⟩
      · simp at h
  obtain ⟨e1, e2⟩ := split_tok hg'.2.1 hf.2.1 (sep hs') (sep hs) e
  have hmap : ∀ l : List Ty, forgetL l = l.map forget := by
    intro l
    induction l with
    | nil => rfl
    | cons t l ih => simp [forgetL, ih]
  refine ⟨e1.symm, ?_⟩
  rw [← hmap, ← hmap]
  exact (writeT_inj hg (z := []) (z' := []) (fun t ht => write_inj hg t (wa t ht).1 (wa t ht).2) (fun t ht => (wa t ht).1)
    (fun t ht => (wa t ht).2) (fun t ht => (wb t ht).1) (fun t ht => (wb t ht).2) hs hs'
    (Or.inl rfl) (Or.inl rfl) (by rw [e2])).1

/-- C32: a name is generated for every list of concrete type arguments without continuations. -/
theorem C32_total {nm : Names} {as : List Ty} (h : ∀ t ∈ as, WF t ∧ concrete t = true ∧ NoCont t)
    (f : List Char) : ∃ n, mangle nm f as = some n := by
  obtain ⟨s, hs⟩ := writeT_some (nm := nm) (fun t ht => write_some t (h t ht).1 (h t ht).2.1 (h t ht).2.2)
  exact ⟨f ++ s, by simp [mangle, hs]⟩

/-- Example names: the declared types `T0`, `T00`, `T000`, … written with letters only. -/
def exNames : Names := fun i => 'T' :: List.replicate i 'x'

theorem exNames_good : GoodNames exNames := by
  refine ⟨fun i j h => ?_, fun i => ⟨⟨by simp [exNames], ?_, ?_⟩, ?_⟩⟩
  · have := congrArg List.length h
    simpa [exNames] using this
  · simp only [exNames, List.mem_cons, List.mem_replicate]
    rintro (h | ⟨_, h⟩) <;> exact absurd h (by decide)
  · intro c hc
    simp [exNames] at hc
    subst hc; decide
  · simp only [exNames, reserved, List.mem_cons, List.not_mem_nil, or_false]
    have hx : ∀ s : List Char, 'T' :: List.replicate i 'x' = s → ∀ c ∈ s, c = 'T' ∨ c = 'x' := by
      rintro s rfl c hc
      simp only [List.mem_cons, List.mem_replicate] at hc
      rcases hc with h | ⟨_, h⟩
      · exact Or.inl h
      · exact Or.inr h
    rintro (h | h | h | h | h | h | h | h | h | h) <;> exact absurd (hx _ h) (by decide)

-- The names of `f` at `T0(Int, (Nat, Bool))` and at `T0(Int), (Nat, Bool)`.
example : mangle exNames "f".toList [.node (.named 0 0) [.node (.prim 0) [] [] none,
      .node .tuple [.node (.prim 1) [] [] none, .node (.prim 3) [] [] none] [] none] [] none]
    = some "f$T$0$Int$Tup$0$Nat$Bool$1$1".toList := by decide
example : mangle exNames "f".toList [.node (.named 0 0) [.node (.prim 0) [] [] none] [] none,
      .node .tuple [.node (.prim 1) [] [] none, .node (.prim 3) [] [] none] [] none]
    = some "f$T$0$Int$1$Tup$0$Nat$Bool$1".toList := by decide
example : mangle exNames "f".toList [.node (.func 0) [.node (.prim 0) [] [] none, .node (.func 0)
      [.node (.prim 6) [] [] none] [] none] [] none] = some "f$Fn$0$Int$1$Fn$0$$1$Nil".toList := by decide
example : WF (.node (.func 0) [.node (.prim 0) [] [] none, .node (.func 0)
      [.node (.prim 6) [] [] none] [] none] [] none) := by simp [WF, WFL]
example : Ident "f".toList := ⟨by decide, by decide, by intro c hc; cases hc; decide⟩

/-- C32 is violated: `fn(Int) -> Bool` and `fn(Int) ->{A} Bool` are different concrete types, and
the specialisations at them get the same name. -/
theorem C32_effects_violated : ∃ a b : Ty, (WF a ∧ concrete a = true) ∧ (WF b ∧ concrete b = true) ∧ a ≠ b ∧
    ∀ (nm : Names) (f : List Char), mangle nm f [a] = mangle nm f [b] ∧ (mangle nm f [a]).isSome := by
  refine ⟨.node (.func 0) [.node (.prim 0) [] [] none, .node (.prim 3) [] [] none] [] none,
    .node (.func 0) [.node (.prim 0) [] [] none, .node (.prim 3) [] [] none] [.mk 0 []] none,
    ⟨by simp [WF, WFL], by decide⟩, ⟨by simp [WF, WFL], by decide⟩, by decide, fun nm f => ⟨rfl, rfl⟩⟩

/-- C32 is violated: when a program declares a type called `Tup`, `Tup(Int)` and the tuple `(Int,)`
get the same name. -/
theorem C32_tuple_name_violated {nm : Names} {i : Nat} (h : nm i = "Tup".toList) :
    ∃ a b : Ty, (WF a ∧ concrete a = true ∧ NoCont a) ∧ (WF b ∧ concrete b = true ∧ NoCont b) ∧ forget a ≠ forget b ∧
    ∀ f : List Char, mangle nm f [a] = mangle nm f [b] ∧ (mangle nm f [a]).isSome := by
  refine ⟨.node (.named i 0) [.node (.prim 0) [] [] none] [] none, .node .tuple [.node (.prim 0) [] [] none] [] none,
    ⟨by simp [WF, WFL], rfl, by simp [NoCont, NoContL]⟩, ⟨by simp [WF, WFL], rfl, by simp [NoCont, NoContL]⟩,
    by simp [forget], fun f => ?_⟩
  simp [mangle, writeT, write, writeL, h]

/-- C32 is violated: when a program declares a type called `Fn`, the two type arguments
`fn(Int) -> Fn(Bool), Nat` and the two type arguments `Fn(Int), fn(Bool) -> Nat` get the same
name. -/
theorem C32_function_name_violated {nm : Names} {i : Nat} (h : nm i = "Fn".toList) :
    ∃ as bs : List Ty, (∀ t ∈ as, WF t ∧ concrete t = true ∧ NoCont t) ∧ (∀ t ∈ bs, WF t ∧ concrete t = true ∧ NoCont t) ∧
    as.length = bs.length ∧ as.map forget ≠ bs.map forget ∧
    ∀ f : List Char, mangle nm f as = mangle nm f bs ∧ (mangle nm f as).isSome := by
  refine ⟨[.node (.func 0) [tInt, .node (.named i 0) [tBool] [] none] [] none, tNat],
    [.node (.named i 0) [tInt] [] none, .node (.func 0) [tBool, tNat] [] none], ?_, ?_, rfl, ?_, fun f => ?_⟩
  · intro t ht
    simp only [List.mem_cons, List.not_mem_nil, or_false] at ht
    rcases ht with rfl | rfl
    · exact ⟨by simp [WF, WFL, tInt, tBool], rfl, by simp [NoCont, NoContL, tInt, tBool]⟩
    · exact ⟨by simp [WF, WFL, tNat], rfl, by simp [NoCont, NoContL, tNat]⟩
  · intro t ht
    simp only [List.mem_cons, List.not_mem_nil, or_false] at ht
    rcases ht with rfl | rfl
    · exact ⟨by simp [WF, WFL, tInt], rfl, by simp [NoCont, NoContL, tInt]⟩
    · exact ⟨by simp [WF, WFL, tNat, tBool], rfl, by simp [NoCont, NoContL, tNat, tBool]⟩
  · simp [forget]
  · simp [mangle, writeT, write, writeL, writeF, writeFT, h, tInt, tBool, tNat, primName]

/-- C32 is violated: a continuation type passes the check for concrete types, and generating a
name for it panics. -/
theorem C32_continuation_violated : ∃ t : Ty, WF t ∧ concrete t = true ∧
    ∀ (nm : Names) (f : List Char), mangle nm f [t] = none :=
  ⟨.node .cont [.node (.prim 0) [] [] none, .node (.prim 3) [] [] none] [] none,
    by simp [WF, WFL], by decide, fun _ _ => rfl⟩

/-! ## C49: the type arguments of a use -/

/-- C49: the type arguments found for a use of a generic function are those at which its type is
the type of the use. -/
theorem C49_sound {s : PolyTy} {c : Ty} (hb : NoBound c) {ts : List Ty} (h : extract s c = some ts) :
    ts.length = s.params ∧ InstOf ts s.body c :=
  ⟨(extract_sound hb h).1, (extract_sound hb h).2.2⟩

/-- C49, partial: they are found, for a function whose every type parameter occurs in a parameter
or result type.  Missing: parameters that occur only in effect rows, type applications or
continuations, see below. -/
theorem C49_found_partial {s : PolyTy} (hw : WF s.body) (hp : Plain s.body) (h0 : s.params ≠ 0)
    (hs : ∀ i < s.params, Shows i s.body) {c : Ty} {ts : List Ty} (hl : ts.length = s.params)
    (h : InstOf ts s.body c) : extract s c = some ts :=
  extract_complete hw hp hl h0 hs h

/-- C49: a use is redirected only to a specialisation at the type arguments of the use. -/
theorem C49_redirect {nm : Names} {base : List Char} {recorded : List (List Ty)} {s : PolyTy} {c : Ty}
    (hb : NoBound c) {n : List Char} (h : redirect nm base recorded s c = some n) :
    ∃ ts ∈ recorded, ts.length = s.params ∧ InstOf ts s.body c ∧ mangle nm base ts = some n := by
  rw [redirect] at h
  split at h
  · simp at h
  · rename_i ts hts
    split at h
    · rename_i hm
      exact ⟨ts, hm, (extract_sound hb hts).1, (extract_sound hb hts).2.2, h⟩
    · simp at h

/-- C49: a use whose type arguments are all concrete is recorded, and later redirected to the
specialisation recorded for it, whatever else is recorded. -/
theorem C49_recorded_partial {s : PolyTy} (hw : WF s.body) (hp : Plain s.body) (h0 : s.params ≠ 0)
    (hs : ∀ i < s.params, Shows i s.body) {c : Ty} {ts : List Ty} (hl : ts.length = s.params)
    (h : InstOf ts s.body c) (hc : ∀ t ∈ ts, WF t ∧ concrete t = true ∧ NoCont t) :
    record s c = some ts ∧ ∀ (nm : Names) (base : List Char) (recorded : List (List Ty)), ts ∈ recorded →
      (redirect nm base recorded s c).isSome ∧ redirect nm base recorded s c = mangle nm base ts := by
  have e := extract_complete hw hp hl h0 hs h
  refine ⟨?_, fun nm base recorded hm => ?_⟩
  · rw [record, e]
    exact if_pos (List.all_eq_true.mpr (fun t ht => (hc t ht).2.1))
  · obtain ⟨n, hn⟩ := C32_total (nm := nm) hc base
    have : redirect nm base recorded s c = mangle nm base ts := by
      rw [redirect, e]
      exact if_pos hm
    exact ⟨by rw [this, hn]; rfl, this⟩

/-- C49: only concrete type arguments are recorded. -/
theorem C49_record_concrete {s : PolyTy} {c : Ty} {ts : List Ty} (h : record s c = some ts) :
    extract s c = some ts ∧ ∀ t ∈ ts, concrete t = true := by
  rw [record] at h
  split at h
  · simp at h
  · rename_i as has
    split at h
    · rename_i ha
      simp only [Option.some.injEq] at h
      subst h
      exact ⟨has, List.all_eq_true.mp ha⟩
    · simp at h

/-- `map : ∀a b. fn(T0(a), fn(a) -> b) -> T0(b)`. -/
def exMap : PolyTy := ⟨2, [7], .node (.func 0) [.node (.named 0 0) [.node (.bound 0) [] [] none] [] none,
  .node (.func 0) [.node (.bound 0) [] [] none, .node (.bound 1) [] [] none] [] (some 7),
  .node (.named 0 0) [.node (.bound 1) [] [] none] [] none] [] (some 7)⟩

-- `map` used at `Int` and `Bool` with a function that performs ability 3.
example : extract exMap (.node (.func 0) [.node (.named 0 0) [.node (.prim 0) [] [] none] [] none,
    .node (.func 0) [.node (.prim 0) [] [] none, .node (.prim 3) [] [] none] [.mk 3 []] none,
    .node (.named 0 0) [.node (.prim 3) [] [] none] [] none] [.mk 3 []] none)
    = some [.node (.prim 0) [] [] none, .node (.prim 3) [] [] none] := by decide
example : WF exMap.body ∧ Plain exMap.body ∧ ∀ i < exMap.params, Shows i exMap.body := by
  refine ⟨by simp [exMap, WF, WFL], by simp [exMap, Plain, PlainL], ?_⟩
  intro i hi
  have : i = 0 ∨ i = 1 := by simp [exMap] at hi; omega
  rcases this with rfl | rfl <;> simp [exMap, Shows, ShowsL]
-- A use at inconsistent types is refused.
example : extract exMap (.node (.func 0) [.node (.named 0 0) [.node (.prim 1) [] [] none] [] none,
    .node (.func 0) [.node (.prim 0) [] [] none, .node (.prim 3) [] [] none] [] none,
    .node (.named 0 0) [.node (.prim 3) [] [] none] [] none] [] none) = none := by decide

/-- C49 is violated for a parameter that occurs only in an effect row: no type arguments are found
for any use of such a function, so it is never specialised.  The function is
`∀a. fn() ->{A(a)} Int`. -/
theorem C49_effect_parameter_violated : ∃ s : PolyTy, s.params = 1 ∧ WF s.body ∧
    (∀ t : Ty, ∃ c, substB [t] s.body = .ok c ∧ InstOf [t] s.body c) ∧ ∀ c, extract s c = none := by
  refine ⟨⟨1, [], .node (.func 0) [.node (.prim 0) [] [] none] [.mk 0 [.node (.bound 0) [] [] none]] none⟩, rfl,
    by simp [WF, WFL], fun t => ⟨.node (.func 0) [.node (.prim 0) [] [] none] [.mk 0 [t]] none, rfl, ?_⟩, fun c => ?_⟩
  · simp only [InstOf, InstOfL]
    exact ⟨_, _, _, _, rfl, _, _, rfl, rfl, rfl⟩
  · cases c with
    | uni v => simp [extract, extractR]
    | node h ks es r =>
      simp only [extract, extractR, Nat.succ_ne_zero, if_false, List.replicate]
      cases h <;> simp [ownArm, descends]
      cases ks with
      | nil => simp
      | cons k ks =>
        cases ks with
        | nil =>
          cases k with
          | uni v => simp [extractL, extractR]
          | node h' ks' es' r' =>
            simp only [extractL, extractR]
            by_cases e : ownArm (.prim 0) h' = true
            · cases h' <;> simp [ownArm] at e
            · by_cases e2 : (.node (.prim 0) [] [] none : Ty) = .node h' ks' es' r'
              · simp [e2, e, allSome]
              · simp [e2, e]
        | cons k2 ks => simp

end Verif.Mono
