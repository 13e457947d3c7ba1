import Verif.BackendReady.Proofs

/-! # Proofs: operations and the whole module -/

namespace Verif.BackendReady

variable {s : Store} {b : Backend} {m : Module}

/-! ## Walking -/

mutual
theorem mem_collectOp {o : OpData × List Block} : ∀ {p : Op}, o ∈ collectOp p ↔ InOp o p
  | .mk d bs => by
    simp only [collectOp, List.mem_cons]
    constructor
    · rintro (rfl | h)
      · exact .self
      · exact .nested (mem_collectBlocks.mp h)
    · intro h
      cases h with
      | self => exact .inl rfl
      | nested h => exact .inr (mem_collectBlocks.mpr h)
theorem mem_collectBlocks {o : OpData × List Block} : ∀ {bs : List Block}, o ∈ collectBlocks bs ↔ InBlocks o bs
  | [] => by
    simp only [collectBlocks, List.not_mem_nil, false_iff]
    rintro ⟨h, _, _⟩
    simp at h
  | c :: bs => by
    have hc := mem_collectBlock (o := o) (c := c)
    simp only [collectBlocks, List.mem_append, mem_collectBlocks (bs := bs)]
    constructor
    · rintro (h | ⟨h1, h2, h3⟩)
      · obtain ⟨as, ops, rfl, p, hp, hi⟩ := hc.mp h
        exact .mk (List.mem_cons_self ..) hp hi
      · exact .mk (List.mem_cons_of_mem _ h1) h2 h3
    · rintro ⟨h1, h2, h3⟩
      rcases List.mem_cons.mp h1 with rfl | h1
      · exact .inl (hc.mpr ⟨_, _, rfl, _, h2, h3⟩)
      · exact .inr (.mk h1 h2 h3)
theorem mem_collectBlock {o : OpData × List Block} : ∀ {c : Block},
    o ∈ collectBlock c ↔ ∃ as ops, c = .mk as ops ∧ ∃ p ∈ ops, InOp o p
  | .mk as ops => by
    simp only [collectBlock, mem_collectOps]
    constructor
    · rintro ⟨p, hp, h⟩
      exact ⟨as, ops, rfl, p, hp, h⟩
    · rintro ⟨_, _, e, p, hp, h⟩
      cases e
      exact ⟨p, hp, h⟩
theorem mem_collectOps {o : OpData × List Block} : ∀ {os : List Op}, o ∈ collectOps os ↔ ∃ p ∈ os, InOp o p
  | [] => by simp [collectOps]
  | p :: os => by
    simp only [collectOps, List.mem_append, mem_collectOp (p := p), mem_collectOps (os := os), List.mem_cons,
      exists_eq_or_imp]
end

theorem mem_all {o : OpData × List Block} : o ∈ m.all ↔ m.Has o := by
  simp only [Module.all, collectOp, List.mem_cons, mem_collectBlocks, Module.Has]

theorem mem_argsOf {o : OpData × List Block} {a : Arg} : a ∈ argsOf o.2 ↔ HasArg o a := by
  simp only [argsOf, List.mem_flatMap, HasArg]
  constructor
  · rintro ⟨⟨as, ops⟩, h, k⟩
    exact ⟨as, ops, h, k⟩
  · rintro ⟨as, ops, h, k⟩
    exact ⟨_, h, k⟩

/-! ## The validators of the targets -/

/-- The complaint of the native validator about an operation. -/
def clifHead (o : OpData × List Block) : Option Err :=
  if !clifAllowed o.1 then some (.operation o.1.dialect o.1.name) else none

mutual
theorem clifOp_eq : ∀ p : Op, clifOp p = (collectOp p).findSome? clifHead
  | .mk d bs => by
    simp only [clifOp, collectOp, List.findSome?_cons, clifHead]
    split
    · simp
    · simp only [clifBlocks_eq bs]
theorem clifBlocks_eq : ∀ bs : List Block, clifBlocks bs = (collectBlocks bs).findSome? clifHead
  | [] => rfl
  | c :: bs => by simp only [clifBlocks, collectBlocks, List.findSome?_append, clifBlock_eq c, clifBlocks_eq bs]
theorem clifBlock_eq : ∀ c : Block, clifBlock c = (collectBlock c).findSome? clifHead
  | .mk as ops => by simp only [clifBlock, collectBlock, clifOps_eq ops]
theorem clifOps_eq : ∀ os : List Op, clifOps os = (collectOps os).findSome? clifHead
  | [] => rfl
  | p :: os => by simp only [clifOps, collectOps, List.findSome?_append, clifOp_eq p, clifOps_eq os]
end

/-- The complaint of the WebAssembly validator about an operation. -/
def wasmHead (s : Store) (depth : Nat) (o : OpData × List Block) : Option Err :=
  if !wasmAllowed depth o.1 then some (.operation o.1.dialect o.1.name)
  else if o.1.dialect == "wasm" && o.1.name == "return_call_indirect" && !exactSignature s o.1 then
    some (.tailCall o.1)
  else none

theorem wasmHead_succ (k : Nat) : wasmHead s (k + 1) = wasmHead s 1 := by
  funext o
  simp [wasmHead, wasmAllowed]

mutual
theorem wasmOp_eq : ∀ (k : Nat) (p : Op), wasmOp s (k + 1) p = (collectOp p).findSome? (wasmHead s 1)
  | k, .mk d bs => by
    simp only [wasmOp, collectOp, List.findSome?_cons, ← wasmHead_succ k]
    simp only [wasmHead]
    split
    · simp
    · split
      · simp
      · simp only [wasmBlocks_eq (k + 1) bs, wasmHead_succ k]
theorem wasmBlocks_eq : ∀ (k : Nat) (bs : List Block),
    wasmBlocks s (k + 1) bs = (collectBlocks bs).findSome? (wasmHead s 1)
  | _, [] => rfl
  | k, c :: bs => by
    simp only [wasmBlocks, collectBlocks, List.findSome?_append, wasmBlock_eq k c, wasmBlocks_eq k bs]
theorem wasmBlock_eq : ∀ (k : Nat) (c : Block),
    wasmBlock s (k + 1) c = (collectBlock c).findSome? (wasmHead s 1)
  | k, .mk as ops => by simp only [wasmBlock, collectBlock, wasmOps_eq k ops]
theorem wasmOps_eq : ∀ (k : Nat) (os : List Op), wasmOps s (k + 1) os = (collectOps os).findSome? (wasmHead s 1)
  | _, [] => rfl
  | k, p :: os => by simp only [wasmOps, collectOps, List.findSome?_append, wasmOp_eq k p, wasmOps_eq k os]
end

theorem wasmOps_zero : ∀ os : List Op, wasmOps s 0 os = os.findSome? (wasmOp s 0)
  | [] => rfl
  | p :: os => by
    simp only [wasmOps, List.findSome?_cons, wasmOps_zero os]
    cases wasmOp s 0 p <;> rfl

theorem wasmBlocks_zero : ∀ bs : List Block,
    wasmBlocks s 0 bs = (bs.flatMap fun | .mk _ ops => ops).findSome? (wasmOp s 0)
  | [] => rfl
  | .mk as ops :: bs => by
    simp only [wasmBlocks, wasmBlock, List.flatMap_cons, List.findSome?_append, wasmOps_zero, wasmBlocks_zero bs]

theorem wasmOp_zero (d : OpData) (bs : List Block) :
    wasmOp s 0 (.mk d bs) = (wasmHead s 0 (d, bs)).or ((collectBlocks bs).findSome? (wasmHead s 1)) := by
  simp only [wasmOp, wasmHead]
  split
  · rfl
  · split
    · rfl
    · simp only [wasmBlocks_eq 0 bs, Option.none_or]

theorem exact_iff {d : OpData} : exactSignature s d = true ↔ ExactTailCall s d := by
  constructor
  · intro h
    unfold exactSignature at h
    split at h
    · rename_i t ht
      split at h
      · rename_i sig hsig
        simp only [Bool.and_eq_true] at h
        obtain ⟨hf, h⟩ := h
        split at h
        · simp at h
        · rename_i r ps hps
          simp only [Bool.and_eq_true] at h
          obtain ⟨h1, h2⟩ := h
          split at h1
          · rename_i rd hrd
            split at h2
            · simp at h2
            · rename_i i args hargs
              simp only [Bool.and_eq_true, beq_iff_eq] at h2
              obtain ⟨h3, rfl⟩ := h2
              split at h3
              · rename_i x hx
                exact ⟨t, i, x, ps, ht, hargs, hx, by simpa [IsCore] using h3, sig, r, rd, hsig, isFunc_iff.mp hf, hps, hrd,
                  isNil_iff.mp h1⟩
              · simp at h3
          · simp at h1
      · simp at h
    · simp at h
  · rintro ⟨t, i, x, args, h1, h2, h3, ⟨h4, h4'⟩, sig, r, rd, h5, h6, h7, h8, h9⟩
    simp [exactSignature, get, h1, h2, h3, h4, h4', h5, isFunc_iff.mpr h6, h7, h8, isNil_iff.mpr h9]

theorem InBlocks.trans {o q : OpData × List Block} {bs : List Block} (h : InBlocks q bs) (h' : InBlocks o q.2) :
    InBlocks o bs := by
  have key : ∀ n, (∀ p : Op, sizeOf p < n → InOp q p → InOp o p) ∧
      (∀ bs : List Block, sizeOf bs < n → InBlocks q bs → InBlocks o bs) := by
    intro n
    induction n with
    | zero => exact ⟨fun _ h => absurd h (Nat.not_lt_zero _), fun _ h => absurd h (Nat.not_lt_zero _)⟩
    | succ n ih =>
      refine ⟨fun p hp hq => ?_, fun bs hbs hq => ?_⟩
      · cases hq with
        | self => exact .nested h'
        | nested hq =>
          refine .nested (ih.2 _ ?_ hq)
          simp only [Op.mk.sizeOf_spec] at hp
          omega
      · obtain ⟨h1, h2, h3⟩ := hq
        refine .mk h1 h2 (ih.1 _ ?_ h3)
        have := List.sizeOf_lt_of_mem h1
        have := List.sizeOf_lt_of_mem h2
        simp only [Block.mk.sizeOf_spec] at *
        omega
  exact (key (sizeOf bs + 1)).2 bs (Nat.lt_succ_self _) h

theorem wasmHead_none {k : Nat} {o : OpData × List Block} (h : wasmHead s k o = none) :
    wasmAllowed k o.1 = true ∧
      (o.1.dialect = "wasm" → o.1.name = "return_call_indirect" → ExactTailCall s o.1) := by
  unfold wasmHead at h
  split at h
  · simp at h
  · rename_i h1
    split at h
    · simp at h
    · rename_i h2
      refine ⟨by simpa using h1, fun a c => exact_iff.mp ?_⟩
      simpa [a, c] using h2

theorem wasmHead_some {k : Nat} {o : OpData × List Block} {e : Err} (h : wasmHead s k o = some e) :
    (wasmAllowed k o.1 = false ∧ e = .operation o.1.dialect o.1.name) ∨
      (o.1.dialect = "wasm" ∧ o.1.name = "return_call_indirect" ∧ ¬ ExactTailCall s o.1 ∧ e = .tailCall o.1) := by
  unfold wasmHead at h
  split at h
  · rename_i h1
    simp only [Option.some.injEq] at h
    exact .inl ⟨by simpa using h1, h.symm⟩
  · split at h
    · rename_i h2
      simp only [Option.some.injEq] at h
      simp only [Bool.and_eq_true, beq_iff_eq, Bool.not_eq_true'] at h2
      exact .inr ⟨h2.1.1, h2.1.2, fun k => by simp [exact_iff.mpr k] at h2, h.symm⟩
    · simp at h

theorem target_ok (h : verifyTargetOperations s b m = none) : OpsFine s b m := by
  unfold verifyTargetOperations at h
  split at h
  · simp at h
  · rename_i bs hbs
    cases b with
    | native =>
      simp only [clifBlocks_eq, List.findSome?_eq_none_iff] at h
      refine ⟨by simp [hbs], fun _ o ho => ?_, fun k => (by cases k), fun k => (by cases k), fun k => (by cases k)⟩
      have := h o (mem_collectBlocks.mpr (by simpa [hbs] using ho))
      by_cases hc : o.1.dialect = "clif"
      · exact .inl hc
      · exact .inr (by simpa [clifHead, clifAllowed, hc] using this)
    | wasm =>
      simp only [wasmBlocks_zero, List.findSome?_eq_none_iff, List.mem_flatMap] at h
      have htop : ∀ as ops d cs, Block.mk as ops ∈ bs → Op.mk d cs ∈ ops →
          wasmHead s 0 (d, cs) = none ∧ ∀ q, InBlocks q cs → wasmHead s 1 q = none := by
        intro as ops d cs h1 h2
        have := h _ ⟨_, h1, h2⟩
        rw [wasmOp_zero, Option.or_eq_none_iff, List.findSome?_eq_none_iff] at this
        exact ⟨this.1, fun q hq => this.2 q (mem_collectBlocks.mpr hq)⟩
      have hall : ∀ o, InBlocks o bs → ∃ k, wasmHead s k o = none ∧ ∀ q, InBlocks q o.2 → wasmHead s 1 q = none := by
        rintro o ⟨h1, h2, h3⟩
        cases h3 with
        | self =>
          obtain ⟨a, c⟩ := htop _ _ _ _ h1 h2
          exact ⟨0, a, c⟩
        | nested h3 =>
          obtain ⟨a, c⟩ := htop _ _ _ _ h1 h2
          exact ⟨1, c _ h3, fun q hq => c _ (h3.trans hq)⟩
      have hw : ∀ k o, wasmAllowed k o = true → o.dialect = "wasm" ∨ (o.dialect = "core" ∧ o.name = "module") := by
        intro k o h
        simp only [wasmAllowed, Bool.or_eq_true, Bool.and_eq_true, beq_iff_eq] at h
        rcases h with h | ⟨⟨_, h1⟩, h2⟩
        · exact .inl h
        · exact .inr ⟨h1, h2⟩
      refine ⟨by simp [hbs], fun k => (by cases k), fun _ o ho => ?_, fun _ o ho p hp => ?_, fun _ o ho hd hn => ?_⟩
      · obtain ⟨k, h1, _⟩ := hall o (by simpa [hbs] using ho)
        exact hw k _ (wasmHead_none h1).1
      · obtain ⟨k, _, h1⟩ := hall o (by simpa [hbs] using ho)
        simpa [wasmAllowed] using (wasmHead_none (h1 p hp)).1
      · obtain ⟨k, h1, _⟩ := hall o (by simpa [hbs] using ho)
        exact (wasmHead_none h1).2 hd hn

theorem target_err {e : Err} (h : verifyTargetOperations s b m = some e) : Says s b m e := by
  unfold verifyTargetOperations at h
  split at h
  · rename_i hb
    simp only [Option.some.injEq] at h
    subst h
    exact hb
  · rename_i bs hbs
    cases b with
    | native =>
      simp only [clifBlocks_eq] at h
      obtain ⟨o, ho, h⟩ := List.exists_of_findSome?_eq_some h
      unfold clifHead at h
      split at h
      · rename_i hc
        simp only [Option.some.injEq] at h
        subst h
        simp [clifAllowed] at hc
        refine ⟨o, by simpa [hbs] using mem_collectBlocks.mp ho, rfl, rfl, by simpa [Backend.dialect] using hc.1, ?_⟩
        intro h1 h2
        exact (hc.2.elim (fun k => k h1) (fun k => k h2)).elim
      · simp at h
    | wasm =>
      simp only [wasmBlocks_zero] at h
      obtain ⟨⟨d, cs⟩, ho, h⟩ := List.exists_of_findSome?_eq_some h
      obtain ⟨⟨as, ops⟩, h1, h2⟩ := List.mem_flatMap.mp ho
      have hin : InBlocks (d, cs) (m.body.getD []) := by
        simp only [hbs, Option.getD_some]
        exact .mk h1 h2 .self
      rw [wasmOp_zero, Option.or_eq_some_iff] at h
      rcases h with h | ⟨_, h⟩
      · rcases wasmHead_some h with ⟨k, rfl⟩ | ⟨k1, k2, k3, rfl⟩
        · simp [wasmAllowed] at k
          exact ⟨_, hin, rfl, rfl, k.1, fun a c => absurd c (k.2 a)⟩
        · exact ⟨rfl, k1, k2, ⟨_, hin⟩, k3⟩
      · obtain ⟨q, hq, h⟩ := List.exists_of_findSome?_eq_some h
        have hq := mem_collectBlocks.mp hq
        rcases wasmHead_some h with ⟨k, rfl⟩ | ⟨k1, k2, k3, rfl⟩
        · simp [wasmAllowed] at k
          exact ⟨q, hin.trans hq, rfl, rfl, k, fun _ _ => ⟨rfl, _, hin, hq⟩⟩
        · exact ⟨rfl, k1, k2, ⟨_, hin.trans hq⟩, k3⟩

/-! ## Operations -/

theorem says_of_tfault {x : Place} {e : Err} (hx : Shows b m x) (h : TFault s b x e) : Says s b m e := by
  obtain ⟨⟨t, sf⟩, ht, d, hd, h⟩ := h
  rcases h with ⟨rfl, h⟩ | ⟨rfl, h, h'⟩ | ⟨rfl, h⟩
  · exact ⟨⟨x, hx, ht⟩, d, hd, h⟩
  · exact ⟨sf, d, ⟨x, hx, ht⟩, hd, h, h'⟩
  · exact .type ⟨x, hx, ht⟩ hd h

theorem sound_top (hi : Interned s b m) {sf : Surface} {t : TyRef} (hx : Shows b m (t, sf)) :
    Sound s b (verifyTypeTop s b sf t) (· = (t, sf)) True (Says s b m) :=
  (sound_type hi.types (t + 1) sf t (Nat.lt_succ_self _) (hi.module _ hx)).weaken (fun _ h => h) id
    (fun _ h => says_of_tfault hx h)

theorem key_iff {d : OpData} {k : String} : isSignatureAttribute b d k = true ↔ SignatureKey b d k := by
  unfold isSignatureAttribute
  constructor
  · intro h
    split at h
    · simp at h
    · rename_i h1
      simp only [bne_iff_ne, ne_eq, Decidable.not_not] at h1
      split at h
      · rename_i h2
        simp only [beq_iff_eq] at h h2
        subst h
        exact .func h1 h2
      · split at h
        · simp at h
        · rename_i h3
          have h3 : d.name = "call_indirect" ∨ d.name = "return_call_indirect" := by
            simp at h3
            by_cases hc : d.name = "call_indirect"
            · exact .inl hc
            · exact .inr (h3 hc)
          cases b with
          | native =>
            simp only [beq_iff_eq] at h
            subst h
            exact .native h1 h3
          | wasm =>
            simp only [beq_iff_eq] at h
            subst h
            exact .wasm h1 h3
  · intro h
    cases h with
    | func h1 h2 => simp [h1, h2]
    | native h1 h2 => rcases h2 with h2 | h2 <;> simp [h1, h2, Backend.dialect]
    | wasm h1 h2 => rcases h2 with h2 | h2 <;> simp [h1, h2, Backend.dialect]

theorem sound_opAttr (hi : Interned s b m) {o : OpData × List Block} (ho : m.Has o) {ka : String × Attr}
    (hka : ka ∈ o.1.attrs) :
    Sound s b (verifyOpAttr s b o.1 ka)
      (fun x => (SignatureKey b o.1 ka.1 ∧ ∃ t, ka.2 = .type t ∧ x = (t, .signature)) ∨
        (¬ SignatureKey b o.1 ka.1 ∧ ∃ t, Holds ka.2 (.type t) ∧ x = (t, .metadata)))
      (ka.1 ≠ carrierName ∧ ¬ Holds ka.2 (.sym carrierName) ∧ (SignatureKey b o.1 ka.1 → ∃ t, ka.2 = .type t))
      (Says s b m) := by
  obtain ⟨k, a⟩ := ka
  by_cases hk : SignatureKey b o.1 k
  · simp only [verifyOpAttr, key_iff.mpr hk, if_true]
    have hsym := (sound_symbol (s := s) (b := b) k).weaken (F' := Says s b m) (fun _ h => h) id
      (fun e h => by obtain ⟨rfl, h⟩ := h; subst h; exact .op ho (.key hka))
    cases a with
    | type t =>
      refine (sound_andThen hsym (sound_top hi (.signature ho hka hk))).weaken ?_ ?_ (fun e h => h.elim id id)
      · rintro x (⟨_, t', h, e⟩ | ⟨h, _⟩)
        · cases h
          exact .inr e
        · exact (h hk).elim
      · rintro ⟨h, _⟩
        exact ⟨h, fun h => (by cases h), fun _ => ⟨t, rfl⟩⟩
    | _ =>
      refine (sound_andThen hsym (sound_reject true (.notAType o.1))).weaken ?_ (fun h => by simp at h)
        (fun e h => h.elim id ?_)
      · rintro x (⟨_, t', h, e⟩ | ⟨h, _⟩)
        · cases h
        · exact (h hk).elim
      · rintro ⟨_, rfl⟩
        exact ⟨⟨_, ho⟩, k, _, hka, hk, by simp⟩
  · have hk' : isSignatureAttribute b o.1 k = false := by
      cases h : isSignatureAttribute b o.1 k
      · rfl
      · exact (hk (key_iff.mp h)).elim
    simp only [verifyOpAttr, hk', Bool.false_eq_true, if_false]
    refine (sound_andThen (sound_symbol k) (sound_attribute (G := fun _ => Says s b m)
      (fun t ht => sound_top hi (.attr ho hka hk ht)))).weaken ?_ ?_ ?_
    · rintro x (⟨h, _⟩ | ⟨_, h⟩)
      · exact (hk h).elim
      · exact .inr h
    · rintro ⟨h1, h2⟩
      exact ⟨h1, h2, fun h => (hk h).elim⟩
    · rintro e (⟨rfl, h⟩ | ⟨rfl, h⟩ | ⟨_, _, h⟩)
      · subst h
        exact .op ho (.key hka)
      · exact .op ho (.sym hka h)
      · exact h

theorem sound_arg (hi : Interned s b m) {o : OpData × List Block} (ho : m.Has o) {a : Arg} (ha : HasArg o a) :
    Sound s b (verifyArg s b a)
      (fun x => x = (a.ty, .value) ∨ ∃ k y t, (k, y) ∈ a.attrs ∧ Holds y (.type t) ∧ x = (t, .metadata))
      (¬ Named a.attrs carrierName) (Says s b m) := by
  refine (sound_andThen (sound_top hi (.arg ho ha)) (sound_attrs (G := fun _ => Says s b m)
    (fun k y hy t ht => sound_top hi (.argAttr ho ha hy ht)))).weaken (fun _ h => h) (fun h => h.2) ?_
  rintro e (h | ⟨rfl, h⟩ | ⟨_, _, _, _, _, h⟩)
  · exact h
  · exact .arg ho ha h
  · exact h

theorem cps_iff {d : OpData} : cpsOk s d = true ↔
    ∃ t ps, d.attrs.lookup "type" = some (.type t) ∧ EmptyResult s t ps := by
  constructor
  · intro h
    unfold cpsOk at h
    split at h
    · rename_i t ht
      split at h
      · rename_i sig hsig
        simp only [Bool.and_eq_true] at h
        obtain ⟨hf, h⟩ := h
        split at h
        · simp at h
        · rename_i r ps hps
          split at h
          · rename_i rd hrd
            exact ⟨t, ps, ht, sig, r, rd, hsig, isFunc_iff.mp hf, hps, hrd, isNil_iff.mp h⟩
          · simp at h
      · simp at h
    · simp at h
  · rintro ⟨t, ps, h1, sig, r, rd, h5, h6, h7, h8, h9⟩
    simp [cpsOk, get, h1, h5, isFunc_iff.mpr h6, h7, h8, isNil_iff.mpr h9]

theorem sound_abi {o : OpData × List Block} (ho : m.Has o) :
    Sound s b (verifyAbi s b o.1) (fun _ => False)
      ((∀ a, o.1.attrs.lookup "tribute.calling_convention" = some a → ∃ i : Int, a = .int i ∧ 0 ≤ i ∧ i ≤ 2) ∧
        (o.1.attrs.lookup "tribute.calling_convention" = some (.int 2) → o.1.dialect = b.dialect →
          o.1.name = "func" → ∃ t ps, o.1.attrs.lookup "type" = some (.type t) ∧ EmptyResult s t ps) ∧
        (o.1.name = "return_call" ∨ o.1.name = "return_call_indirect" → o.1.results = []))
      (Says s b m) := by
  obtain ⟨d, bs⟩ := o
  have h2 : Sound s b (reject ((d.name == "return_call" || d.name == "return_call_indirect") && !d.results.isEmpty)
      (.transferResult d)) (fun _ => False)
      (d.name = "return_call" ∨ d.name = "return_call_indirect" → d.results = []) (Says s b m) := by
    refine (sound_reject _ _).weaken (fun _ h => h) (fun h k => ?_) ?_
    · have : (d.name == "return_call" || d.name == "return_call_indirect") = true := by simpa using k
      rw [this] at h
      simpa using h
    · rintro e ⟨h, rfl⟩
      simp at h
      exact ⟨⟨bs, ho⟩, h.1, by simpa using h.2⟩
  have h1 : Sound s b (if (get d.attrs "tribute.calling_convention").isSome then
      match callingConvention d.attrs with
      | none => reject true (.badConvention d)
      | some c => reject (c == 2 && d.dialect == b.dialect && d.name == "func" && !cpsOk s d) (.cpsResult d)
     else .ok) (fun _ => False)
      ((∀ a, d.attrs.lookup "tribute.calling_convention" = some a → ∃ i : Int, a = .int i ∧ 0 ≤ i ∧ i ≤ 2) ∧
        (d.attrs.lookup "tribute.calling_convention" = some (.int 2) → d.dialect = b.dialect →
          d.name = "func" → ∃ t ps, d.attrs.lookup "type" = some (.type t) ∧ EmptyResult s t ps))
      (Says s b m) := by
    cases hg : d.attrs.lookup "tribute.calling_convention" with
    | none =>
      simp only [get, hg, Option.isSome_none, Bool.false_eq_true, if_false]
      exact sound_ok.weaken (fun _ h => h) (by simp) (fun _ h => h.elim)
    | some a =>
      simp only [get, hg, Option.isSome_some, if_true]
      have bad : (∀ i : Int, a = .int i → i < 0 ∨ 2 < i) →
          Sound s b (reject true (.badConvention d)) (fun _ => False)
            ((∀ a', some a = some a' → ∃ i : Int, a' = .int i ∧ 0 ≤ i ∧ i ≤ 2) ∧
              (some a = some (.int 2) → d.dialect = b.dialect →
                d.name = "func" → ∃ t ps, d.attrs.lookup "type" = some (.type t) ∧ EmptyResult s t ps))
            (Says s b m) := by
        intro hbad
        refine (sound_reject _ _).weaken (fun _ h => h) (by simp) ?_
        rintro e ⟨_, rfl⟩
        exact ⟨⟨bs, ho⟩, a, hg, hbad⟩
      cases a with
      | int i =>
        by_cases hr : 0 ≤ i ∧ i < 3
        · simp only [callingConvention, get, hg, if_pos hr]
          refine (sound_reject _ _).weaken (fun _ h => h) (fun h => ⟨?_, ?_⟩) ?_
          · rintro a' e
            simp only [Option.some.injEq] at e
            subst e
            exact ⟨i, rfl, hr.1, by omega⟩
          · intro e k1 k2
            simp only [Option.some.injEq, Attr.int.injEq] at e
            subst e
            refine cps_iff.mp ?_
            simpa [k1, k2] using h
          · rintro e ⟨h, rfl⟩
            simp only [Bool.and_eq_true, beq_iff_eq, Bool.not_eq_true'] at h
            obtain ⟨⟨⟨h1, h1'⟩, h3⟩, h4⟩ := h
            have : i = 2 := by omega
            subst this
            exact ⟨⟨bs, ho⟩, h1', h3, hg, fun k => by simp [cps_iff.mpr k] at h4⟩
        · simp only [callingConvention, get, hg, if_neg hr]
          refine bad fun j hj => ?_
          simp only [Attr.int.injEq] at hj
          subst hj
          omega
      | _ =>
        simp only [callingConvention, get, hg]
        exact bad (by simp)
  exact (sound_andThen h1 h2).weaken (fun _ h => h.elim) (fun ⟨⟨a, c⟩, d⟩ => ⟨a, c, d⟩) (fun e h => h.elim id id)

/-- What an operation mentions itself. -/
def OpShows (b : Backend) (o : OpData × List Block) (x : Place) : Prop :=
  (∃ t ∈ o.1.results, x = (t, .result)) ∨ (∃ t ∈ o.1.operands, x = (t, .value)) ∨
  (∃ ka ∈ o.1.attrs, (SignatureKey b o.1 ka.1 ∧ ∃ t, ka.2 = .type t ∧ x = (t, .signature)) ∨
        (¬ SignatureKey b o.1 ka.1 ∧ ∃ t, Holds ka.2 (.type t) ∧ x = (t, .metadata))) ∨
  (∃ a ∈ argsOf o.2, x = (a.ty, .value) ∨ ∃ k y t, (k, y) ∈ a.attrs ∧ Holds y (.type t) ∧ x = (t, .metadata))

theorem sound_operation (hi : Interned s b m) {o : OpData × List Block} (ho : m.Has o) :
    Sound s b (verifyOperation s b o) (OpShows b o)
      (OpFine s b o.1 ∧ ¬ Named o.1.attrs carrierName ∧ ∀ a, HasArg o a → ¬ Named a.attrs carrierName)
      (Says s b m) := by
  have h1 := sound_each (s := s) (b := b) (f := verifyTypeTop s b .result) (l := o.1.results)
    (fun t ht => sound_top hi (.result ho ht))
  have h2 := sound_each (s := s) (b := b) (f := verifyTypeTop s b .value) (l := o.1.operands)
    (fun t ht => sound_top hi (.operand ho ht))
  have h3 := sound_each (s := s) (b := b) (f := verifyOpAttr s b o.1) (l := o.1.attrs)
    (fun ka hka => sound_opAttr hi ho hka)
  have h4 := sound_each (s := s) (b := b) (f := verifyArg s b) (l := argsOf o.2)
    (fun a ha => sound_arg hi ho (mem_argsOf.mp ha))
  have h5 := sound_abi (s := s) (b := b) ho
  refine (sound_andThen h1 (sound_andThen h2 (sound_andThen h3 (sound_andThen h4 h5)))).weaken ?_ ?_ ?_
  · rintro x (h | h | h | h)
    · exact .inl h
    · exact .inr (.inl h)
    · exact .inr (.inr (.inl h))
    · exact .inr (.inr (.inr (.inl h)))
  · rintro ⟨_, _, h3, h4, a, c, d⟩
    refine ⟨⟨fun k x hk hs => (h3 _ hk).2.2 hs, a, c, d⟩, fun n => ?_, fun x hx => h4 x (mem_argsOf.mpr hx)⟩
    cases n with
    | key hk => exact (h3 _ hk).1 rfl
    | sym hk hs => exact (h3 _ hk).2.1 hs
  · rintro e (⟨_, _, h⟩ | ⟨_, _, h⟩ | ⟨_, _, h⟩ | ⟨_, _, h⟩ | h) <;> exact h

theorem sound_alias (hi : Interned s b m) {a : String × TyRef} (ha : a ∈ m.aliases) :
    Sound s b (verifyAlias s b a) (· = (a.2, .metadata)) (a.1 ≠ carrierName) (Says s b m) := by
  refine (sound_andThen (sound_symbol a.1) (sound_top hi (.alias ha))).weaken (fun _ h => .inr h) (fun h => h.1) ?_
  rintro e (⟨rfl, h⟩ | h)
  · have : (carrierName, a.2) ∈ m.aliases := by rw [← h]; exact ha
    exact .alias this
  · exact h

theorem sound_module (hi : Interned s b m) :
    Sound s b (andThen (each (verifyAlias s b) m.aliases) (each (verifyOperation s b) m.all)) (Shows b m)
      ((∀ a ∈ m.aliases, a.1 ≠ carrierName) ∧ ∀ o, m.Has o → OpFine s b o.1 ∧ ¬ Named o.1.attrs carrierName ∧
        ∀ a, HasArg o a → ¬ Named a.attrs carrierName)
      (Says s b m) := by
  have h1 := sound_each (s := s) (b := b) (f := verifyAlias s b) (l := m.aliases) (fun a ha => sound_alias hi ha)
  have h2 := sound_each (s := s) (b := b) (f := verifyOperation s b) (l := m.all)
    (fun o ho => sound_operation hi (mem_all.mp ho))
  refine (sound_andThen h1 h2).weaken ?_ ?_ ?_
  · intro x hx
    cases hx with
    | alias h => exact .inl ⟨_, h, rfl⟩
    | result h k => exact .inr ⟨_, mem_all.mpr h, .inl ⟨_, k, rfl⟩⟩
    | operand h k => exact .inr ⟨_, mem_all.mpr h, .inr (.inl ⟨_, k, rfl⟩)⟩
    | signature h k q => exact .inr ⟨_, mem_all.mpr h, .inr (.inr (.inl ⟨_, k, .inl ⟨q, _, rfl, rfl⟩⟩))⟩
    | attr h k q r => exact .inr ⟨_, mem_all.mpr h, .inr (.inr (.inl ⟨_, k, .inr ⟨q, _, r, rfl⟩⟩))⟩
    | arg h k => exact .inr ⟨_, mem_all.mpr h, .inr (.inr (.inr ⟨_, mem_argsOf.mpr k, .inl rfl⟩))⟩
    | argAttr h k q r =>
      exact .inr ⟨_, mem_all.mpr h, .inr (.inr (.inr ⟨_, mem_argsOf.mpr k, .inr ⟨_, _, _, q, r, rfl⟩⟩))⟩
  · rintro ⟨a, c⟩
    exact ⟨a, fun o ho => c o (mem_all.mpr ho)⟩
  · rintro e (⟨_, _, h⟩ | ⟨_, _, h⟩) <;> exact h

theorem verify_ok (hi : Interned s b m) (h : verify s b m = none) : Ready s b m := by
  unfold verify at h
  split at h
  · simp at h
  · rename_i ht
    split at h
    · rename_i v hv
      obtain ⟨_, hn, ⟨c1, c2⟩, hd⟩ := (sound_module hi).ok _ _ hv
      have hdone : ∀ x ∈ v, Done s b v x := fun x hx => (hd x hx).resolve_left (by simp)
      have hthr : ∀ {x y}, Through s x y → x ∈ v → y ∈ v := by
        intro x y h
        induction h with
        | refl => exact id
        | step h1 _ ih => exact fun hx => ih ((hdone _ hx).2.2 _ h1)
      have hreach : ∀ x, Reaches s b m x → x ∈ v := fun x ⟨y, hy, hyx⟩ => hthr hyx (hn y hy)
      refine ⟨target_ok ht, fun x hx => (hdone x (hreach x hx)).1, ?_, fun o ho => (c2 o ho).1⟩
      intro h
      cases h with
      | alias h => exact c1 _ h rfl
      | op h k => exact (c2 _ h).2.1 k
      | arg h k q => exact (c2 _ h).2.2 _ k q
      | type h k q => exact (hdone _ (hreach _ h)).2.1 _ k q
    · simp at h

theorem verify_err (hi : Interned s b m) {e : Err} (h : verify s b m = some e) : Says s b m e := by
  unfold verify at h
  split at h
  · rename_i e' ht
    simp only [Option.some.injEq] at h
    subst h
    exact target_err ht
  · split at h
    · simp at h
    · rename_i e' hv
      simp only [Option.some.injEq] at h
      subst h
      exact (sound_module hi).err _ _ hv

theorem ready_says (h : Ready s b m) (e : Err) : ¬ Says s b m e := by
  intro k
  cases e with
  | stuck => exact k
  | noBody => exact h.ops.body k
  | operation d n =>
    obtain ⟨o, ho, rfl, rfl, hd, hn⟩ := k
    cases b with
    | native =>
      rcases h.ops.native rfl o ho with k | ⟨k1, k2⟩
      · exact hd k
      · have := (hn k1 k2).1
        cases this
    | wasm =>
      rcases h.ops.wasm rfl o ho with k | ⟨k1, k2⟩
      · exact hd k
      · obtain ⟨_, q, hq, hoq⟩ := hn k1 k2
        exact hd (h.ops.nestedWasm rfl q hq o hoq)
  | tailCall d =>
    obtain ⟨rfl, hd, hn, ⟨bs, hb⟩, hx⟩ := k
    exact hx (h.ops.tailCalls rfl _ hb hd hn)
  | illegalType t sf =>
    obtain ⟨hr, d, hd, hx⟩ := k
    obtain ⟨d', hd', ha, _⟩ := h.types _ hr
    rw [hd] at hd'
    cases hd'
    exact hx ha
  | noResult t =>
    obtain ⟨sf, d, hr, hd, hf, hp⟩ := k
    obtain ⟨d', hd', _, ha⟩ := h.types _ hr
    rw [hd] at hd'
    cases hd'
    exact ha hf hp
  | carrier => exact h.names k
  | notAType d =>
    obtain ⟨⟨bs, hb⟩, k, a, ha, hk, hx⟩ := k
    obtain ⟨t, ht⟩ := (h.each _ hb).signature k a ha hk
    exact hx t ht
  | badConvention d =>
    obtain ⟨⟨bs, hb⟩, a, ha, hx⟩ := k
    obtain ⟨i, hi, h1, h2⟩ := (h.each _ hb).convention a ha
    rcases hx i hi <;> omega
  | cpsResult d =>
    obtain ⟨⟨bs, hb⟩, hd, hn, hc, hx⟩ := k
    exact hx ((h.each _ hb).cps hc hd hn)
  | transferResult d =>
    obtain ⟨⟨bs, hb⟩, hn, hx⟩ := k
    exact hx ((h.each _ hb).transfer hn)

end Verif.BackendReady
