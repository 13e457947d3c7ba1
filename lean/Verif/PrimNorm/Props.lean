import Verif.PrimNorm.Whole

/-! # C105: run-time types become WebAssembly types everywhere -/

namespace Verif.PrimNorm

/-- C105 (operation by operation).  The pass changes each operation of a well-formed module as it
should: results by the table, signatures and entry blocks by the larger table, and nothing else
(but see `C105_callAttributes_violated`). -/
theorem C105_each (ops : List Op) (hw : WF ops) :
    List.Forall₂ Normalised (opsAll ops) (opsAll (lower ops).1) := by
  rw [lower_eq]
  exact ops_normalised ops hw

/-- C105 (one run is enough).  The rounds end with nothing left to change, and running the pass
again changes nothing. -/
theorem C105_fixpoint (ops : List Op) :
    (lower ops).2 = true ∧ lower (lower ops).1 = ((lower ops).1, true) := by
  refine ⟨by rw [lower_eq], ?_⟩
  rw [lower_eq, lower_eq, visitOps_idem]

theorem forall₂_mem_right {α β : Type} {R : α → β → Prop} {l : List α} {l' : List β}
    (h : List.Forall₂ R l l') : ∀ y ∈ l', ∃ x ∈ l, R x y := by
  induction h with
  | nil => intro y hy; cases hy
  | cons h _ ih =>
    intro y hy
    rcases List.mem_cons.1 hy with rfl | hy
    · exact ⟨_, by simp, h⟩
    · obtain ⟨x, hx, hr⟩ := ih y hy
      exact ⟨x, by simp [hx], hr⟩

/-- C105 (results).  No operation has a result of a run-time type afterwards. -/
theorem C105_results (ops : List Op) (hw : WF ops) :
    ∀ e ∈ opsAll (lower ops).1, ∀ r ∈ e.1.results, ¬ ∃ u, Prim r.2 u := by
  intro e he r hr
  obtain ⟨e₀, -, hn⟩ := forall₂_mem_right (C105_each ops hw) e he
  obtain ⟨r₀, -, -, hb⟩ := forall₂_mem_right hn.results r hr
  rintro ⟨u, hu⟩
  rw [becomesPrim_iff] at hb
  have := getD_image r₀.2
  rw [← hb, convertPrimitive_iff.2 hu] at this
  cases this

/-- C105 (signatures).  Afterwards every function has a signature of WebAssembly types (a type to
which a conversion applies is its own image), and its entry block has arguments of the types of the
signature. -/
theorem C105_signatures (ops : List Op) (hw : WF ops) :
    ∀ e ∈ opsAll (lower ops).1, IsFunc e.1 →
      ∃ t, e.1.attrs.lookup "type" = some (.type t) ∧
        (∀ x ∈ t.result :: t.params, ∀ u, Prim x u ∨ Further x u → u = x) ∧
        (e.1.hasRegion = true → (entryArgs e.2).map (·.2) = t.params) := by
  intro e he hf
  obtain ⟨e₀, hm, hn⟩ := forall₂_mem_right (C105_each ops hw) e he
  have hf₀ : IsFunc e₀.1 := by
    obtain ⟨h1, h2, -⟩ := hn.same
    unfold IsFunc at hf ⊢
    rw [← h1, ← h2]
    exact hf
  obtain ⟨-, -, t, ht, hreg, -⟩ := (hw e₀ hm).func hf₀
  obtain ⟨t', ht', hres, hps⟩ := (hn.func hf₀).2 t ht
  have himg : ∀ x y, BecomesSig x y → ∀ u, Prim y u ∨ Further y u → u = y := by
    intro x y hb u hu
    rw [becomesSig_iff] at hb
    have h1 := convertOr_idem x
    rw [← hb] at h1
    have h2 := convertType_iff.2 hu
    unfold convertOr at h1
    rw [h2] at h1
    exact h1
  refine ⟨t', ht', ?_, ?_⟩
  · intro x hx
    rcases List.mem_cons.1 hx with rfl | hx
    · exact himg _ _ hres
    · obtain ⟨x₀, -, hb⟩ := forall₂_mem_right hps x hx
      exact himg _ _ hb
  · intro hr
    rw [hn.same.2.2.2] at hr
    obtain ⟨-, hty⟩ := hreg hr
    have hent := hn.entry hf₀
    have : ∀ (l l' : List (Nat × Ty)) (ps ps' : List Ty),
        List.Forall₂ (fun a a' => a'.1 = a.1 ∧ BecomesSig a.2 a'.2) l l' →
        List.Forall₂ BecomesSig ps ps' → l.map (·.2) = ps → l'.map (·.2) = ps' := by
      intro l l' ps ps' h
      induction h generalizing ps ps' with
      | nil => intro h2 h3; subst h3; cases h2; rfl
      | cons h _ ih =>
        intro h2 h3
        subst h3
        cases h2 with
        | cons h4 h5 =>
          simp only [List.map_cons, List.cons.injEq]
          refine ⟨?_, ih _ _ h5 rfl⟩
          rw [becomesSig_iff] at h4
          rw [becomesSig_iff.1 h.2, h4]
    exact this _ _ _ _ hent hps hty

theorem forall₂_get {α β : Type} {R : α → β → Prop} {l : List α} {l' : List β}
    (h : List.Forall₂ R l l') : ∀ (i : Nat) x, l[i]? = some x → ∃ y, l'[i]? = some y ∧ R x y := by
  induction h with
  | nil => intro i x hx; simp at hx
  | cons h _ ih =>
    intro i x hx
    cases i with
    | zero => simp at hx; subst hx; exact ⟨_, by simp, h⟩
    | succ i => simp at hx; simpa using ih i x hx

/-- C105 (calls agree with functions, in part).  A call whose result has the type the function
returns has it afterwards, unless that type is one only signatures are rid of.  Missing: those
types, for which it is false (`C105_callAgrees_violated`). -/
theorem C105_callAgrees_partial (ops : List Op) (hw : WF ops) (i j : Nat)
    (c f : OpData × List Block) (v : Nat) (t : FuncTy)
    (hi : (opsAll ops)[i]? = some c) (hj : (opsAll ops)[j]? = some f) (hf : IsFunc f.1)
    (ht : f.1.attrs.lookup "type" = some (.type t)) (hc : c.1.results = [(v, t.result)])
    (hfur : ¬ ∃ u, Further t.result u) :
    ∃ c' f' t', (opsAll (lower ops).1)[i]? = some c' ∧ (opsAll (lower ops).1)[j]? = some f' ∧
      f'.1.attrs.lookup "type" = some (.type t') ∧ c'.1.results = [(v, t'.result)] := by
  obtain ⟨c', hc', hcn⟩ := forall₂_get (C105_each ops hw) i c hi
  obtain ⟨f', hf', hfn⟩ := forall₂_get (C105_each ops hw) j f hj
  obtain ⟨t', ht', hres, -⟩ := (hfn.func hf).2 t ht
  refine ⟨c', f', t', hc', hf', ht', ?_⟩
  have hr := hcn.results
  rw [hc] at hr
  cases hcr : c'.1.results with
  | nil => rw [hcr] at hr; cases hr
  | cons r rs =>
    rw [hcr] at hr
    cases hr with
    | cons h1 h2 =>
      cases h2
      obtain ⟨v', u⟩ := r
      obtain ⟨rfl, h3⟩ := h1
      have : u = t'.result := by
        replace h3 : BecomesPrim t.result u := h3
        rcases h3 with h3 | ⟨h3, rfl⟩
        · have := becomesSig_iff.1 (show BecomesSig t.result u from .inl h3)
          rw [this, ← becomesSig_iff.1 hres]
        · rcases hres with h4 | h4 | ⟨-, h4⟩
          · exact absurd ⟨_, h4⟩ h3
          · exact absurd ⟨_, h4⟩ hfur
          · exact h4.symm
      simp [this]

/-- Values keep their types unless these are convertible. -/
theorem values_kept (ops : List Op) (hw : WF ops) :
    List.Forall₂ (fun a a' => a'.1 = a.1 ∧ (¬ Convertible a.2 → a'.2 = a.2)) (values ops)
      (values (lower ops).1) := by
  have hsig : ∀ {x y}, BecomesSig x y → ¬ Convertible x → y = x := by
    rintro x y (h | h | ⟨-, h⟩) hn
    · exact absurd ⟨y, .inl h⟩ hn
    · exact absurd ⟨y, .inr h⟩ hn
    · exact h
  have hprim : ∀ {x y}, BecomesPrim x y → ¬ Convertible x → y = x := by
    rintro x y (h | ⟨-, h⟩) hn
    · exact absurd ⟨y, .inl h⟩ hn
    · exact h
  unfold values
  have hall := C105_each ops hw
  generalize opsAll ops = l₁ at hall
  generalize opsAll (lower ops).1 = l₂ at hall
  induction hall with
  | nil => exact .nil
  | @cons e e' l l' h _ ih =>
    simp only [List.flatMap_cons]
    refine List.rel_append (List.rel_append ?_ ?_) ih
    · exact h.results.imp (fun a b hab => ⟨hab.1, hprim hab.2⟩)
    · by_cases hf : IsFunc e.1
      · have hent := h.entry hf
        have hlat := h.later
        have hsplit : ∀ bs : List Block, bs.flatMap Block.args =
            entryArgs bs ++ ((bs.drop 1).map Block.args).flatten := by
          intro bs
          cases bs with
          | nil => rfl
          | cons b bs => cases b; simp [entryArgs, Block.args, List.flatMap]
        rw [hsplit, hsplit, hlat]
        refine List.rel_append (hent.imp (fun a b hab => ⟨hab.1, hsig hab.2⟩)) ?_
        exact forall₂_refl _ (fun x _ => ⟨rfl, fun _ => rfl⟩)
      · have := h.args hf
        rw [List.flatMap, List.flatMap, this]
        exact forall₂_refl _ (fun x _ => ⟨rfl, fun _ => rfl⟩)

theorem lookup_kept {l l' : List (Nat × Ty)}
    (h : List.Forall₂ (fun a a' => a'.1 = a.1 ∧ (¬ Convertible a.2 → a'.2 = a.2)) l l')
    (v : Nat) (t : Ty) (hl : l.lookup v = some t) (ht : ¬ Convertible t) : l'.lookup v = some t := by
  induction h with
  | nil => cases hl
  | @cons a a' _ _ h _ ih =>
    obtain ⟨k, x⟩ := a
    obtain ⟨k', x'⟩ := a'
    obtain ⟨rfl, hx⟩ := h
    rw [List.lookup_cons] at hl ⊢
    cases hk : v == k' with
    | true =>
      simp only [hk, Option.some.injEq] at hl
      subst hl
      have hx' : x' = x := hx ht
      simp [hx']
    | false =>
      simp only [hk] at hl
      exact ih hl

/-- C105 (indirect tail calls, in part).  An indirect tail call whose recorded signature has the
types of its arguments still has it, if none of these types is converted.  Missing: the other
types, for which it is false (`C105_tailCall_violated`). -/
theorem C105_tailCall_partial (ops : List Op) (hw : WF ops) (i : Nat) (e : OpData × List Block)
    (hi : (opsAll ops)[i]? = some e) (hn : e.1.name = "tail_call_indirect")
    (t : FuncTy) (ht : e.1.attrs.lookup "func.indirect_call_signature" = some (.type t))
    (hex : exactArguments (typeOf ops) e.1 = true) (hc : ∀ x ∈ t.params, ¬ Convertible x) :
    ∃ e', (opsAll (lower ops).1)[i]? = some e' ∧
      exactArguments (typeOf (lower ops).1) e'.1 = true := by
  obtain ⟨e', he', hne⟩ := forall₂_get (C105_each ops hw) i e hi
  refine ⟨e', he', ?_⟩
  have hnf : ¬ IsFunc e.1 := by rintro ⟨-, h⟩; rw [hn] at h; simp at h
  have hnc : ¬ IsCall e.1 := by rintro ⟨-, h | h⟩ <;> rw [hn] at h <;> simp at h
  have ha := hne.plain hnf hnc
  have ho := hne.same.2.2.1
  simp only [exactArguments, ht, beq_iff_eq] at hex
  simp only [exactArguments, ha, ho, ht, beq_iff_eq]
  rw [hex]
  apply List.map_congr_left
  intro v hv
  have hm : typeOf ops v ∈ t.params.map some := by rw [hex]; exact List.mem_map_of_mem hv
  obtain ⟨x, hx, hxe⟩ := List.mem_map.1 hm
  rw [← hxe]
  exact (lookup_kept (values_kept ops hw) v x hxe.symm (hc x hx)).symm

/-! ### Where it fails -/

def exAny : Ty := { dialect := "tribute_rt", name := "anyref" }
def exInt : Ty := { dialect := "tribute_rt", name := "int" }
def exI1 : Ty := { dialect := "core", name := "i1" }
def exNil : Ty := { dialect := "core", name := "nil" }

/-- `fn f() -> Bool`, a declaration. -/
def exF (t : Ty) : OpData :=
  { dialect := "func", name := "func", attrs := [("sym_name", .other 1), ("type", .type ⟨t, [], 0⟩)] }

/-- A call of it. -/
def exCall (t : Ty) : OpData :=
  { dialect := "func", name := "call", attrs := [("callee", .other 1), ("tribute.calling_convention", .other 0)], results := [(7, t)] }

def exCallModule (t : Ty) : List Op := [.mk (exF t) [], .mk (exCall t) []]

theorem exCallModule_wf (t : Ty) : WF (exCallModule t) := by
  intro e he
  simp only [exCallModule, opsAll, Op.all, blocksAll, List.append_nil, List.cons_append,
    List.nil_append, List.mem_cons, List.not_mem_nil, or_false] at he
  rcases he with rfl | rfl
  · refine ⟨fun _ => ⟨rfl, rfl, _, rfl, by simp [exF], fun _ => rfl⟩, ?_, ?_⟩
    · rintro ⟨-, h | h⟩ <;> simp [exF] at h
    · intro _ h; simp [exF] at h
  · refine ⟨?_, fun _ => ⟨⟨_, rfl⟩, rfl, rfl⟩, ?_⟩
    · rintro ⟨-, h⟩; simp [exCall] at h
    · intro _ h; simp [exCall] at h

/-- C105 is false: a call of a function that returns a truth value has a result of type `core.i1`
while the function now returns `core.i32`. -/
theorem C105_callAgrees_violated : ∃ (ops : List Op) (i j v : Nat) (c f c' f' : OpData × List Block)
    (t t' : FuncTy), WF ops ∧ (opsAll ops)[i]? = some c ∧ (opsAll ops)[j]? = some f ∧
      IsCall c.1 ∧ IsFunc f.1 ∧ f.1.attrs.lookup "type" = some (.type t) ∧
      c.1.results = [(v, t.result)] ∧
      (opsAll (lower ops).1)[i]? = some c' ∧ (opsAll (lower ops).1)[j]? = some f' ∧
      f'.1.attrs.lookup "type" = some (.type t') ∧ c'.1.results ≠ [(v, t'.result)] :=
  ⟨exCallModule exI1, 1, 0, 7, (exCall exI1, []), (exF exI1, []), (exCall exI1, []),
    (exF i32Ty, []), ⟨exI1, [], 0⟩, ⟨i32Ty, [], 0⟩, exCallModule_wf _, rfl, rfl,
    ⟨rfl, .inl rfl⟩, ⟨.inl rfl, rfl⟩, rfl, rfl, by rw [lower_eq]; rfl, by rw [lower_eq]; rfl, rfl,
    by decide⟩

/-- C105 is false: a call that has its result converted loses its attributes, here the calling
convention. -/
theorem C105_callAttributes_violated : ∃ (ops : List Op) (i : Nat) (e e' : OpData × List Block)
    (k : String), WF ops ∧ (opsAll ops)[i]? = some e ∧ IsCall e.1 ∧
      (opsAll (lower ops).1)[i]? = some e' ∧ (e.1.attrs.lookup k).isSome ∧
      e'.1.attrs.lookup k = none :=
  ⟨exCallModule exInt, 1, (exCall exInt, []),
    ({ dialect := "func", name := "call", attrs := [("callee", .other 1)], results := [(7, i32Ty)] }, []),
    "tribute.calling_convention", exCallModule_wf _, rfl, ⟨rfl, .inl rfl⟩,
    by rw [lower_eq]; rfl, rfl, rfl⟩

/-- A function with two blocks; the second has an argument of a run-time type. -/
def exBlocks : List Op :=
  [.mk { dialect := "func", name := "func", attrs := [("type", .type ⟨exNil, [exInt], 0⟩)], hasRegion := true }
    [.mk [(1, exInt)] [], .mk [(2, exAny)] []]]

/-- C105 is false for arguments of blocks, although the documentation lists them: only those of
entry blocks are converted. -/
theorem C105_blockArguments_violated : ∃ (ops : List Op), WF ops ∧
    ∃ e ∈ opsAll (lower ops).1, ∃ b ∈ e.2, ∃ a ∈ b.args, ∃ u, Prim a.2 u := by
  refine ⟨exBlocks, ?_, ?_⟩
  · intro e he
    simp only [exBlocks, opsAll, Op.all, blocksAll, Block.all, List.append_nil, List.mem_cons,
      List.not_mem_nil, or_false] at he
    subst he
    refine ⟨fun _ => ⟨rfl, rfl, _, rfl, fun _ => ⟨by simp, rfl⟩, by simp⟩, ?_, ?_⟩
    · rintro ⟨-, h | h⟩ <;> simp at h
    · intro _ h; simp at h
  · rw [lower_eq]
    exact ⟨_, List.mem_cons_self, .mk [(2, exAny)] [], List.mem_cons_of_mem _ List.mem_cons_self,
      (2, exAny), List.mem_cons_self, anyrefTy, .anyref _ _⟩

/-- A function that passes its second argument to its first with an indirect tail call. -/
def exTail : OpData :=
  { dialect := "func", name := "tail_call_indirect", attrs := [("func.indirect_call_signature", .type ⟨exNil, [exAny], 0⟩)], operands := [1, 2] }

def exTailModule : List Op :=
  [.mk { dialect := "func", name := "func", attrs := [("type", .type ⟨exNil, [i32Ty, exAny], 0⟩)], hasRegion := true }
    [.mk [(1, i32Ty), (2, exAny)] [.mk exTail []]]]

/-- C105 is false for indirect tail calls: the type of the argument is converted and the recorded
signature is not, so that the check that they are the same (which decides whether the call is
lowered at all) succeeds before the pass and fails after it. -/
theorem C105_tailCall_violated : ∃ (ops : List Op) (i : Nat) (e e' : OpData × List Block),
    WF ops ∧ (opsAll ops)[i]? = some e ∧ e.1.name = "tail_call_indirect" ∧
    exactArguments (typeOf ops) e.1 = true ∧ (opsAll (lower ops).1)[i]? = some e' ∧
    exactArguments (typeOf (lower ops).1) e'.1 = false := by
  refine ⟨exTailModule, 1, (exTail, []), (exTail, []), ?_, rfl, rfl, rfl, ?_, ?_⟩
  · intro e he
    simp only [exTailModule, opsAll, Op.all, blocksAll, Block.all, List.append_nil,
      List.mem_cons, List.not_mem_nil, or_false] at he
    rcases he with rfl | rfl
    · refine ⟨fun _ => ⟨rfl, rfl, _, rfl, fun _ => ⟨by simp, rfl⟩, by simp⟩, ?_, ?_⟩
      · rintro ⟨-, h | h⟩ <;> simp at h
      · intro _ h; simp at h
    · refine ⟨?_, ?_, ?_⟩
      · rintro ⟨-, h⟩; simp [exTail] at h
      · rintro ⟨-, h | h⟩ <;> simp [exTail] at h
      · intro _ h; simp [exTail] at h
  · rw [lower_eq]; rfl
  · rw [lower_eq]; rfl

/-! ### Cases -/

/-- The hypotheses of `C105_callAgrees_partial` are met by a function that returns a number. -/
example : WF (exCallModule exInt) ∧ (¬ ∃ u, Further exInt u) ∧
    (lower (exCallModule exInt)).1 = [.mk (exF i32Ty) [],
      .mk { dialect := "func", name := "call", attrs := [("callee", .other 1)], results := [(7, i32Ty)] } []] := by
  refine ⟨exCallModule_wf _, ?_, by rw [lower_eq]; rfl⟩
  rintro ⟨u, h⟩
  generalize hx : exInt = x at h
  cases h <;> simp [exInt] at hx

/-- A function with its entry block. -/
example : (lower exTailModule).1 =
    [.mk { dialect := "func", name := "func", attrs := [("type", .type ⟨exNil, [i32Ty, anyrefTy], 0⟩)], hasRegion := true }
      [.mk [(1, i32Ty), (2, anyrefTy)] [.mk exTail []]]] := by
  rw [lower_eq]; rfl

end Verif.PrimNorm
