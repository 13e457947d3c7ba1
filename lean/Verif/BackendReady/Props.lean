import Verif.BackendReady.Whole

/-!
# The last check before code is emitted: C102, C103
-/

namespace Verif.BackendReady

variable {s : Store} {b : Backend} {m : Module}

/-! ## C102: what the check accepts -/

/-- C102: the check accepts exactly the modules that are ready for the target. -/
theorem C102_accepts (hi : Interned s b m) : verify s b m = none ↔ Ready s b m := by
  refine ⟨verify_ok hi, fun h => ?_⟩
  cases hv : verify s b m with
  | none => rfl
  | some e => exact (ready_says h e (verify_err hi hv)).elim

/-- C102: what an error says is so. -/
theorem C102_error (hi : Interned s b m) {e : Err} (h : verify s b m = some e) : Says s b m e :=
  verify_err hi h

/-- C102: nothing of the languages before the target is left in an accepted module: every type it
mentions, however deeply nested, is of the core, a declared one, or a WebAssembly one. -/
theorem C102_noLogicalTypes (hi : Interned s b m) (h : verify s b m = none) {x : Place}
    (hx : Reaches s b m x) : ∃ d, s[x.1]? = some d ∧
      (d.dialect = "core" ∨ d.dialect = "adt" ∨ (b = .wasm ∧ d.dialect = "wasm")) := by
  obtain ⟨d, hd, ha, _⟩ := ((C102_accepts hi).mp h).types x hx
  refine ⟨d, hd, ?_⟩
  obtain ⟨t, sf⟩ := x
  have hsc : Scalar d → d.dialect = "core" := by
    rintro (k | k | k | k | k | k | k) <;> exact k.1
  cases sf with
  | signature => exact .inl ha.1
  | metadata =>
    rcases ha with k | (k | k) | k | k | k | k | k | ⟨k1, k⟩
    · exact .inl (hsc k)
    · exact .inl k.1
    · exact .inl k.1
    · exact .inl k.1
    · exact .inl k.1
    · exact .inl k.1
    · exact .inl k.1
    · exact .inr (.inl k.1)
    · exact .inr (.inr ⟨k1, k.1⟩)
  | _ =>
    cases b with
    | native =>
      rcases ha with k | k | k
      · exact .inl (hsc k)
      · exact .inl k.1
      · exact .inl k.1
    | wasm =>
      rcases ha with k | k | k | k | k | k
      · exact .inl (hsc k)
      · exact .inl k.1
      · exact .inl k.1
      · exact .inl k.1
      · exact .inr (.inl k.1)
      · exact .inr (.inr ⟨rfl, k.1⟩)

/-! ## C103: the signatures of accepted modules can be emitted -/

theorem translate_native {d : TypeData} (h : ValueType .native d) (hn : ¬ IsCore d "nil") :
    ∃ c, translateType d = some c := by
  rcases h with (k | k | k | k | k | k | k) | k | k
  · exact (hn k).elim
  all_goals simp [translateType, k.1, k.2]

theorem params_native : ∀ {ps : List TyRef},
    (∀ p ∈ ps, ∃ d, s[p]? = some d ∧ ValueType .native d) → ∃ cs, translateParams s ps = some cs
  | [], _ => ⟨[], rfl⟩
  | p :: ps, h => by
    obtain ⟨d, hd, hv⟩ := h p (by simp)
    obtain ⟨cs, hcs⟩ := params_native (ps := ps) (fun q hq => h q (by simp [hq]))
    by_cases hn : IsCore d "nil"
    · exact ⟨cs, by simp [translateParams, hd, isNil_iff.mpr hn, hcs]⟩
    · obtain ⟨c, hc⟩ := translate_native hv hn
      have : isNil d = false := by
        cases hx : isNil d
        · rfl
        · exact (hn (isNil_iff.mp hx)).elim
      exact ⟨c :: cs, by simp [translateParams, hd, this, hcs, hc]⟩

theorem valtype_wasm {idx : TyRef → Option Nat} {t : TyRef} {d : TypeData}
    (hd : s[t]? = some d) (h : ValueType .wasm d) : ∃ v, typeToValtype s idx t = some v := by
  have hr : d.name ≠ "ref" → isBytesArrayRef s d = false := by
    intro hn
    simp [isBytesArrayRef, hn]
  have hr' : d.dialect ≠ "core" → isBytesArrayRef s d = false := by
    intro hn
    simp [isBytesArrayRef, hn]
  unfold typeToValtype
  simp only [hd]
  rcases h with (k | k | k | k | k | k | k) | k | k | k | k | k
  · cases idx t <;> cases hc : isClosureStruct d <;> simp [k.1, k.2, hr, isNil, hc]
  · simp [k.1, k.2]
  · simp [k.1, k.2]
  · simp [k.1, k.2]
  · simp [k.1, k.2]
  · simp [k.1, k.2]
  · simp [k.1, k.2, hr]
  · simp [k.1, k.2]
  · cases idx t <;> simp [k.1, k.2, hr]
  · cases idx t <;> simp [k.1, k.2, hr]
  · cases idx t <;> cases hc : isClosureStruct d <;> simp [k.1, hr', hc]
  · rcases k with ⟨k1, k | k | k | k | k⟩ <;> cases idx t <;> simp [k1, k, hr]

/-- A signature of an operation of the module. -/
def Signature (b : Backend) (m : Module) (t : TyRef) : Prop :=
  ∃ o k, m.Has o ∧ (k, .type t) ∈ o.1.attrs ∧ SignatureKey b o.1 k

theorem signature_parts (hi : Interned s b m) (h : verify s b m = none) {t : TyRef} (ht : Signature b m t) :
    ∃ d r ps, s[t]? = some d ∧ IsCore d "func" ∧ d.params = r :: ps ∧
      (∃ rd, s[r]? = some rd ∧ ValueType b rd) ∧ ∀ p ∈ ps, ∃ pd, s[p]? = some pd ∧ ValueType b pd := by
  have hready := (C102_accepts hi).mp h
  obtain ⟨o, k, ho, hk, hs⟩ := ht
  have hsh : Shows b m (t, .signature) := .signature ho hk hs
  obtain ⟨d, hd, ha, hne⟩ := hready.types _ ⟨_, hsh, .refl _⟩
  cases hp : d.params with
  | nil => exact (hne ha hp).elim
  | cons r ps =>
    refine ⟨d, r, ps, hd, ha, hp, ?_, fun p hps => ?_⟩
    · obtain ⟨rd, h1, h2, _⟩ := hready.types (r, .result) ⟨_, hsh, .step (.result hd ha hp) (.refl _)⟩
      exact ⟨rd, h1, h2⟩
    · obtain ⟨pd, h1, h2, _⟩ := hready.types (p, .value) ⟨_, hsh, .step (.param hd ha hp hps) (.refl _)⟩
      exact ⟨pd, h1, h2⟩

/-- C103: in a module accepted for native code, the emitter translates the signature of every function
and every indirect call. -/
theorem C103_native (hi : Interned s .native m) (h : verify s .native m = none) {t : TyRef}
    (ht : Signature .native m t) : ∃ sig, translateSignature s t = some sig := by
  obtain ⟨d, r, ps, hd, hf, hp, ⟨rd, hrd, hrv⟩, hps⟩ := signature_parts hi h ht
  obtain ⟨cs, hcs⟩ := params_native hps
  by_cases hn : IsCore rd "nil"
  · exact ⟨(cs, none), by simp [translateSignature, hd, isFunc_iff.mpr hf, hp, hcs, hrd, isNil_iff.mpr hn]⟩
  · obtain ⟨c, hc⟩ := translate_native hrv hn
    have : isNil rd = false := by
      cases hx : isNil rd
      · rfl
      · exact (hn (isNil_iff.mp hx)).elim
    exact ⟨(cs, some c), by simp [translateSignature, hd, isFunc_iff.mpr hf, hp, hcs, hrd, this, hc]⟩

/-- C103: in a module accepted for WebAssembly, the emitter translates the signature of every function
and every indirect call, whatever indices it gave to types. -/
theorem C103_wasm (hi : Interned s .wasm m) (h : verify s .wasm m = none) {t : TyRef}
    (ht : Signature .wasm m t) (idx : TyRef → Option Nat) :
    ∃ sig, wasmSignature s idx t = some sig := by
  obtain ⟨d, r, ps, hd, hf, hp, ⟨rd, hrd, hrv⟩, hps⟩ := signature_parts hi h ht
  have hmap : ∀ l : List TyRef, (∀ p ∈ l, ∃ pd, s[p]? = some pd ∧ ValueType .wasm pd) →
      ∃ vs, l.mapM (typeToValtype s idx) = some vs := by
    intro l hl
    induction l with
    | nil => exact ⟨[], rfl⟩
    | cons p l ih =>
      obtain ⟨pd, h1, h2⟩ := hl p (by simp)
      obtain ⟨v, hv⟩ := valtype_wasm (idx := idx) h1 h2
      obtain ⟨vs, hvs⟩ := ih (fun q hq => hl q (by simp [hq]))
      exact ⟨v :: vs, by simp [List.mapM_cons, hv, hvs]⟩
  obtain ⟨vs, hvs⟩ := hmap ps hps
  obtain ⟨v, hv⟩ := valtype_wasm (idx := idx) hrd hrv
  cases hn : isNil rd with
  | true => exact ⟨(vs, []), by simp [wasmSignature, hd, isFunc_iff.mpr hf, hp, hvs, hrd, hn]⟩
  | false => exact ⟨(vs, [v]), by simp [wasmSignature, hd, isFunc_iff.mpr hf, hp, hvs, hrd, hn, hv]⟩

/-- C103: every operand, result and block argument of a module accepted for WebAssembly has a type the
emitter can give a value. -/
theorem C103_wasmValues (hi : Interned s .wasm m) (h : verify s .wasm m = none) {t : TyRef}
    (ht : Reaches s .wasm m (t, .value) ∨ Reaches s .wasm m (t, .result)) (idx : TyRef → Option Nat)
    : ∃ v, typeToValtype s idx t = some v := by
  have hready := (C102_accepts hi).mp h
  rcases ht with ht | ht
  · obtain ⟨d, hd, ha, _⟩ := hready.types _ ht
    exact valtype_wasm hd ha
  · obtain ⟨d, hd, ha, _⟩ := hready.types _ ht
    exact valtype_wasm hd ha

/-! ## Examples -/

/-- nil, i32, (i32) → nil, an array of i8 with its reference, and a callable of the language. -/
def exStore : Store :=
  [⟨"core", "nil", [], []⟩, ⟨"core", "i32", [], []⟩, ⟨"core", "func", [0, 1], []⟩, ⟨"core", "i8", [], []⟩,
   ⟨"core", "array", [3], []⟩, ⟨"core", "ref", [4], []⟩, ⟨"tribute_control", "callable", [0], []⟩,
   ⟨"core", "array", [6], []⟩]

/-- `func @main(%x: t) { return }` for a target. -/
def exModule (b : Backend) (t : TyRef) (attr : Attr) : Module :=
  ⟨[("Main", 2)], ⟨"core", "module", [], [], [("sym_name", .sym "test")]⟩,
   some [.mk [] [.mk ⟨b.dialect, "func", [], [], [("type", .type 2), ("tribute.calling_convention", .int 2)]⟩
     [.mk [⟨t, []⟩] [.mk ⟨b.dialect, "return", [], [], [("note", .list [attr])]⟩ []]]]]⟩

theorem exStore_types : ∀ t sf y, Mentions exStore (t, sf) y → y.1 < t := by
  have key : ∀ (t : Nat) (d : TypeData), exStore[t]? = some d → (∀ p ∈ d.params, p < t) ∧ d.attrs = [] := by
    intro t d h
    have ht : t < 8 := by
      have := (List.getElem?_eq_some_iff.mp h).1
      simpa [exStore] using this
    have : t = 0 ∨ t = 1 ∨ t = 2 ∨ t = 3 ∨ t = 4 ∨ t = 5 ∨ t = 6 ∨ t = 7 := by omega
    rcases this with rfl | rfl | rfl | rfl | rfl | rfl | rfl | rfl <;>
      simp only [exStore, List.getElem?_cons_zero, List.getElem?_cons_succ, Option.some.injEq] at h <;>
      subst h <;> simp
  intro t sf y h
  cases h with
  | result h1 _ h3 => exact (key _ _ h1).1 _ (by simp [h3])
  | param h1 _ h3 h4 => exact (key _ _ h1).1 _ (by simp [h3, h4])
  | inside h1 _ h3 => exact (key _ _ h1).1 _ h3
  | attr h1 h2 _ => simp [(key _ _ h1).2] at h2

theorem exModule_ops {b : Backend} {t : TyRef} {a : Attr} {o : OpData × List Block} (h : (exModule b t a).Has o) :
    o.1.results = [] ∧ o.1.operands = [] ∧ (∀ k x, (k, x) ∈ o.1.attrs →
      x = .sym "test" ∨ x = .type 2 ∨ x = .int 2 ∨ x = .list [a]) ∧ ∀ c, HasArg o c → c = ⟨t, []⟩ := by
  have h := mem_all.mpr h
  simp only [Module.all, exModule, Option.getD_some, collectOp, collectBlocks, collectBlock, collectOps,
    List.append_nil, List.mem_cons, List.not_mem_nil, or_false] at h
  rcases h with rfl | rfl | rfl
  · refine ⟨rfl, rfl, by simp, fun c hc => ?_⟩
    obtain ⟨as, ops, h1, h2⟩ := hc
    simp at h1
    simp [h1.1] at h2
  · refine ⟨rfl, rfl, fun k x hx => ?_, fun c hc => ?_⟩
    · simp at hx
      rcases hx with ⟨_, rfl⟩ | ⟨_, rfl⟩ <;> simp
    obtain ⟨as, ops, h1, h2⟩ := hc
    simp at h1
    simpa [h1.1] using h2
  · refine ⟨rfl, rfl, by simp, fun c hc => ?_⟩
    obtain ⟨as, ops, h1, h2⟩ := hc
    simp at h1

theorem exModule_interned {b : Backend} {t : TyRef} {a : Attr} (ht : t < exStore.length)
    (ha : ∀ u, Holds a (.type u) → u < exStore.length) : Interned exStore b (exModule b t a) := by
  refine ⟨exStore_types, fun x hx => ?_⟩
  have two : (2 : Nat) < exStore.length := by decide
  cases hx with
  | alias h =>
    simp only [exModule, List.mem_singleton, Prod.mk.injEq] at h
    rw [h.2]
    exact two
  | result h k => simp [(exModule_ops h).1] at k
  | operand h k => simp [(exModule_ops h).2.1] at k
  | signature h k _ =>
    rcases (exModule_ops h).2.2.1 _ _ k with e | e | e | e <;> cases e
    exact two
  | attr h k _ q =>
    rcases (exModule_ops h).2.2.1 _ _ k with rfl | rfl | rfl | rfl
    · cases q
    · cases q
      exact two
    · cases q
    · obtain ⟨c, hc, q'⟩ := (holds_list (by simp)).mp q
      simp only [List.mem_singleton] at hc
      subst hc
      exact ha _ q'
  | arg h k =>
    rw [(exModule_ops h).2.2.2 _ k]
    exact ht
  | argAttr h k q _ => simp [(exModule_ops h).2.2.2 _ k] at q

/-- Whether the result is this error about a type. -/
def isIllegal (t : TyRef) (sf : Surface) : Option Err → Bool
  | some (.illegalType t' sf') => t == t' && sf == sf'
  | _ => false

/-- C103 is false the other way: of what the WebAssembly emitter can do not all is accepted; it has a type for references
to arrays of bytes, which texts are made of, as values; the check rejects them. -/
theorem C103_bytes_violated : ∃ (s : Store) (m : Module) (t : TyRef), Interned s .wasm m ∧
    Reaches s .wasm m (t, .value) ∧ (∀ idx, typeToValtype s idx t = some (.bytesArray false)) ∧
    isIllegal t .value (verify s .wasm m) = true := by
  refine ⟨exStore, exModule .wasm 5 .other, 5, exModule_interned (by decide) (fun u h => by cases h), ?_,
    fun idx => rfl, by decide +kernel⟩
  refine ⟨_, .arg (o := (⟨"wasm", "func", [], [], [("type", .type 2), ("tribute.calling_convention", .int 2)]⟩,
     [.mk [⟨5, []⟩] [.mk ⟨"wasm", "return", [], [], [("note", .list [.other])]⟩ []]])) (a := ⟨5, []⟩)
     (.inr (.mk (as := []) (List.mem_cons_self ..) (List.mem_cons_self ..) .self))
     ⟨_, _, List.mem_cons_self .., List.mem_cons_self ..⟩, .refl _⟩

/-- `C102_accepts`, `C103_native`, `C103_wasm`: modules that are accepted, with a function that has a
signature. -/
example : Interned exStore .native (exModule .native 1 (.type 4)) ∧
    (verify exStore .native (exModule .native 1 (.type 4))).isNone = true ∧
    Signature .native (exModule .native 1 (.type 4)) 2 ∧ translateSignature exStore 2 = some ([.i32], none) := by
  refine ⟨exModule_interned (by decide) (fun u h => ?_), by decide +kernel, ?_, by decide +kernel⟩
  · cases h
    decide
  · exact ⟨_, "type", .inr (.mk (as := []) (List.mem_cons_self ..) (List.mem_cons_self ..) .self),
      List.mem_cons_self .., .func rfl rfl⟩

example : Interned exStore .wasm (exModule .wasm 4 (.type 5)) ∧
    (verify exStore .wasm (exModule .wasm 4 (.type 5))).isNone = true ∧
    Signature .wasm (exModule .wasm 4 (.type 5)) 2 ∧
    wasmSignature exStore (fun _ => none) 2 = some ([.i32], []) := by
  refine ⟨exModule_interned (by decide) (fun u h => ?_), by decide +kernel, ?_, by decide +kernel⟩
  · cases h
    decide
  · exact ⟨_, "type", .inr (.mk (as := []) (List.mem_cons_self ..) (List.mem_cons_self ..) .self),
      List.mem_cons_self .., .func rfl rfl⟩

/-- `C102_error`: a callable of the language inside an array inside a list in an attribute is found,
on both targets; a value that only WebAssembly has is rejected for native code; the carrier of control
is found. -/
example : isIllegal 6 .metadata (verify exStore .native (exModule .native 1 (.type 7))) = true ∧
    isIllegal 6 .metadata (verify exStore .wasm (exModule .wasm 1 (.type 7))) = true ∧
    isIllegal 4 .value (verify exStore .native (exModule .native 4 .other)) = true ∧
    (match verify exStore .wasm (exModule .wasm 1 (.sym "__tribute_cps_control")) with
     | some .carrier => true
     | _ => false) = true := by
  refine ⟨?_, ?_, ?_, ?_⟩ <;> decide +kernel

end Verif.BackendReady
