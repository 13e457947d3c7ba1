import Verif.WasmCall.Sim

/-! # Well-formed modules compile; indirect calls that are not tail calls -/

namespace Verif.WasmCall

open Spec

theorem valtype_supported (gc : List (Ty × Nat)) {t : Ty} (h : Supported t) :
    ∃ v, valtype gc t = some v := by
  cases t with
  | adt n l =>
    simp only [valtype]
    cases gcIdx gc (.adt n l) with
    | some i => exact ⟨_, rfl⟩
    | none => by_cases hn : n = "_closure" <;> simp [hn]
  | other n => exact h.elim
  | _ => exact ⟨_, rfl⟩

theorem valtypes_supported (gc : List (Ty × Nat)) {ts : List Ty} (h : ∀ t ∈ ts, Supported t) :
    ∃ vs, valtypes gc ts = some vs := by
  induction ts with
  | nil => exact ⟨[], rfl⟩
  | cons t ts ih =>
    obtain ⟨v, hv⟩ := valtype_supported gc (h t (by simp))
    obtain ⟨vs, hvs⟩ := ih fun t ht => h t (List.mem_cons_of_mem _ ht)
    exact ⟨v :: vs, by simp [valtypes, hv, hvs]⟩

theorem typeDef_supported (gc : List (Ty × Nat)) {s : Sig} (h : SigSupported s) :
    ∃ d, typeDef gc s = some d := by
  obtain ⟨ps, h1⟩ := valtypes_supported gc h.1
  obtain ⟨v, h2⟩ := valtype_supported gc h.2
  unfold typeDef resultVTs
  rw [h1, h2]
  split
  · exact ⟨_, rfl⟩
  · rename_i h3
    split at h3
    · exact absurd rfl (h3 ps [] rfl)
    · exact absurd rfl (h3 ps [v] rfl)

theorem typeDefs_supported (gc : List (Ty × Nat)) {ss : List Sig}
    (h : ∀ s ∈ ss, SigSupported s) : ∃ ds, typeDefs gc ss = some ds := by
  induction ss with
  | nil => exact ⟨[], rfl⟩
  | cons s ss ih =>
    obtain ⟨d, hd⟩ := typeDef_supported gc (h s (by simp))
    obtain ⟨ds, hds⟩ := ih fun s hs => h s (List.mem_cons_of_mem _ hs)
    exact ⟨d :: ds, by simp [typeDefs, hd, hds]⟩

/-- The conditions of `BodyOk`. -/
abbrev bodyCond (m : Mod) (ty : Nat → Ty) : Cond where
  ref := fun _ => True
  call := fun f => ∃ i, nameAt m i = some f
  ind := fun rty callee args => ty callee = .i32 ∧ (∀ a ∈ args, Supported (ty a)) ∧ Supported rty
  tailInd := fun callee args s =>
    ty callee = .i32 ∧ (∀ a ∈ args, Supported (ty a)) ∧ s = some ⟨args.map ty, .nil⟩

theorem callResult_supported {ret rty : Ty} (h : Supported rty) :
    Supported (callResult ret rty) := by
  unfold callResult
  split
  · split
    · trivial
    · split
      · trivial
      · exact h
  · exact h

/-- What is needed of lowered code for it to be emitted. -/
def WOk (m : Mod) (ty : Nat → Ty) : WCode → Prop
  | .num _ _ k | .add _ _ _ k => WOk m ty k
  | .call _ _ f _ k => (∃ i, nameAt m i = some f) ∧ WOk m ty k
  | .callInd _ _ _ _ callee _ k => ty callee = .i32 ∧ WOk m ty k
  | .ifte _ t e k => WOk m ty t ∧ WOk m ty e ∧ WOk m ty k
  | .tail f _ => ∃ i, nameAt m i = some f
  | .tailInd .. | .fall | .ret _ | .unreach => True

theorem lower_ok {m : Mod} {tbl : List String} {ty : Nat → Ty} (ret : Ty) {c : Code}
    (h : Every (bodyCond m ty) c) (ht : ∀ f ∈ refsIn c, f ∈ tbl) :
    ∃ wc, lower tbl ty c = some wc ∧ WOk m ty wc ∧
      ∀ s ∈ indSigs ty ret wc, SigSupported s := by
  induction c with
  | const d f k ih =>
    obtain ⟨i, hi⟩ := tableIdx_mem (ht f (by simp [refsIn]))
    obtain ⟨wk, h1, h2⟩ := ih h.2 fun f hf => ht f (by simp [refsIn, hf])
    exact ⟨.num d (BitVec.ofNat 32 i) wk, by simp [lower, hi, h1], h2⟩
  | num d z k ih =>
    obtain ⟨wk, h1, h2⟩ := ih h ht
    exact ⟨.num d z wk, by simp [lower, h1], h2⟩
  | add d a b k ih =>
    obtain ⟨wk, h1, h2⟩ := ih h ht
    exact ⟨.add d a b wk, by simp [lower, h1], h2⟩
  | call d rty f args k ih =>
    obtain ⟨wk, h1, h2, h3⟩ := ih h.2 ht
    exact ⟨.call d rty f args wk, by simp [lower, h1], ⟨h.1, h2⟩, h3⟩
  | callInd d rty callee args k ih =>
    obtain ⟨wk, h1, h2, h3⟩ := ih h.2 ht
    obtain ⟨⟨h4, h5, h6⟩, _⟩ := h
    refine ⟨.callInd d rty (some 0) 0 callee args wk, by simp [lower, h1], ⟨h4, h2⟩, ?_⟩
    intro s hs
    rcases List.mem_cons.mp hs with rfl | hs
    · refine ⟨?_, callResult_supported h6⟩
      intro t ht
      obtain ⟨a, ha, rfl⟩ := List.mem_map.mp ht
      exact h5 a ha
    · exact h3 s hs
  | ifte c t e k iht ihe ihk =>
    obtain ⟨wt, t1, t2, t3⟩ := iht h.1 fun f hf => ht f (by simp [refsIn, hf])
    obtain ⟨we, e1, e2, e3⟩ := ihe h.2.1 fun f hf => ht f (by simp [refsIn, hf])
    obtain ⟨wk, k1, k2, k3⟩ := ihk h.2.2 fun f hf => ht f (by simp [refsIn, hf])
    refine ⟨.ifte c wt we wk, by simp [lower, t1, e1, k1], ⟨t2, e2, k2⟩, ?_⟩
    intro s hs
    simp only [indSigs, List.mem_append] at hs
    rcases hs with (hs | hs) | hs
    · exact t3 s hs
    · exact e3 s hs
    · exact k3 s hs
  | fall => exact ⟨.fall, rfl, trivial, by intro s hs; cases hs⟩
  | ret v => exact ⟨.ret v, rfl, trivial, by intro s hs; cases hs⟩
  | tail f args => exact ⟨.tail f args, rfl, h, by intro s hs; cases hs⟩
  | tailInd callee args sig =>
    obtain ⟨h1, h2, rfl⟩ := h
    refine ⟨.tailInd callee args ⟨args.map ty, .nil⟩ (some 0) 0, by simp [lower, exactSig, h1],
      trivial, ?_⟩
    intro s hs
    simp [indSigs] at hs
    subst hs
    refine ⟨?_, trivial⟩
    intro t ht
    obtain ⟨a, ha, rfl⟩ := List.mem_map.mp ht
    exact h2 a ha
  | unreach => exact ⟨.unreach, rfl, trivial, by intro s hs; cases hs⟩

theorem emit_ok {m : Mod} {r : Reg} {ty : Nat → Ty} {ret : Ty} {wc : WCode} (h : WOk m ty wc)
    (hs : ∀ s ∈ indSigs ty ret wc, (sigIdx r.map s).isSome) :
    ∃ ic, emit m r ty ret wc = some ic := by
  induction wc with
  | num d z k ih =>
    obtain ⟨ik, hk⟩ := ih h hs
    exact ⟨_, by simp [emit, hk]; rfl⟩
  | add d a b k ih =>
    obtain ⟨ik, hk⟩ := ih h hs
    exact ⟨_, by simp [emit, hk]; rfl⟩
  | call d rty f args k ih =>
    obtain ⟨ik, hk⟩ := ih h.2 hs
    obtain ⟨i, hi⟩ := h.1
    obtain ⟨j, hj⟩ := funcIdx_of_nameAt hi
    exact ⟨_, by simp [emit, hk, hj]; rfl⟩
  | callInd d rty x tb callee args k ih =>
    obtain ⟨ik, hk⟩ := ih h.2 fun s hs' => hs s (List.mem_cons_of_mem _ hs')
    obtain ⟨i, hi⟩ := Option.isSome_iff_exists.mp (hs (callSig ty ret rty args) (by simp [indSigs]))
    cases x with
    | none => exact ⟨_, by simp [emit, h.1, indTypeIdx, hi, hk]; rfl⟩
    | some j => exact ⟨_, by simp [emit, h.1, indTypeIdx, hi, hk]; rfl⟩
  | ifte c t e k iht ihe ihk =>
    obtain ⟨it, ht⟩ := iht h.1 fun s hs' => hs s (by simp [indSigs, hs'])
    obtain ⟨ie, he⟩ := ihe h.2.1 fun s hs' => hs s (by simp [indSigs, hs'])
    obtain ⟨ik, hk⟩ := ihk h.2.2 fun s hs' => hs s (by simp [indSigs, hs'])
    exact ⟨_, by simp [emit, ht, he, hk]; rfl⟩
  | fall => exact ⟨_, rfl⟩
  | ret v => cases v <;> exact ⟨_, rfl⟩
  | tail f args =>
    obtain ⟨i, hi⟩ := h
    obtain ⟨j, hj⟩ := funcIdx_of_nameAt hi
    exact ⟨_, by simp [emit, hj]; rfl⟩
  | tailInd callee args s x tb =>
    obtain ⟨i, hi⟩ := Option.isSome_iff_exists.mp (hs s (by simp [indSigs]))
    exact ⟨_, by simp [emit, hi]; rfl⟩
  | unreach => exact ⟨_, rfl⟩

theorem lowerFns_ok {m : Mod} {tbl : List String} {fs : List (Fn Code)}
    (h : ∀ g ∈ fs, BodyOk m g) (ht : ∀ g ∈ fs, ∀ f ∈ refsIn g.body, f ∈ tbl) :
    ∃ ws, lowerFns tbl fs = some ws ∧ ∀ f ∈ ws, WOk m f.ty f.body ∧
      ∀ s ∈ indSigs f.ty f.sig.result f.body, SigSupported s := by
  induction fs with
  | nil => exact ⟨[], rfl, by intro f hf; cases hf⟩
  | cons g gs ih =>
    obtain ⟨ws, h1, h2⟩ := ih (fun g hg => h g (List.mem_cons_of_mem _ hg))
      (fun g hg => ht g (List.mem_cons_of_mem _ hg))
    obtain ⟨wc, h3, h4, h5⟩ := lower_ok g.sig.result (h g (by simp)) (ht g (by simp))
    refine ⟨⟨g.name, g.sig, g.ty, wc⟩ :: ws, by simp [lowerFns, lowerFn, h3, h1], ?_⟩
    intro f hf
    rcases List.mem_cons.mp hf with rfl | hf
    · exact ⟨h4, h5⟩
    · exact h2 f hf

theorem emitFns_ok {m : Mod} {r : Reg} {n : Nat} {ws : List (Fn WCode)}
    (h : ∀ f ∈ ws, WOk m f.ty f.body)
    (hs : ∀ f ∈ ws, ∀ s ∈ indSigs f.ty f.sig.result f.body, (sigIdx r.map s).isSome) :
    ∃ fns, emitFns m r n ws = some fns := by
  induction ws generalizing n with
  | nil => exact ⟨[], rfl⟩
  | cons f fs ih =>
    obtain ⟨c, hc⟩ := emit_ok (h f (by simp)) (hs f (by simp))
    obtain ⟨rest, hr⟩ := ih (n := n + 1) (fun g hg => h g (List.mem_cons_of_mem _ hg))
      (fun g hg => hs g (List.mem_cons_of_mem _ hg))
    exact ⟨⟨n, c⟩ :: rest, by simp [emitFns, hc, hr]⟩

theorem compile_ok {m : Mod} (h : WellFormed m) : ∃ w, compile m = some w := by
  obtain ⟨ws, h1, h2⟩ := lowerFns_ok (tbl := tableSyms m) h.bodies
    (fun g hg f hf => mem_tableSyms.mpr ⟨g, hg, hf⟩)
  obtain ⟨fns, h3⟩ := emitFns_ok (m := m) (r := registered m ws)
    (n := gcCount m + m.imports.length) (fun f hf => (h2 f hf).1)
    (fun f hf s hs => collectFns_all _ ws _ f hf s hs)
  have hsig : ∀ s ∈ m.imports.map (·.2) ++ ws.map effectiveSig ++ (registered m ws).added,
      SigSupported s := by
    intro s hs
    simp only [List.mem_append] at hs
    rcases hs with (hs | hs) | hs
    · obtain ⟨p, hp, rfl⟩ := List.mem_map.mp hs
      exact h.imports p hp
    · obtain ⟨f, hf, rfl⟩ := List.mem_map.mp hs
      have : f.sig ∈ m.fns.map (·.sig) := by
        rw [← lowerFns_sigs h1]; exact List.mem_map.mpr ⟨f, hf, rfl⟩
      obtain ⟨g, hg, he⟩ := List.mem_map.mp this
      have hgs := h.fns g hg
      rw [he] at hgs
      refine ⟨by rw [effectiveSig_params]; exact hgs.1, ?_⟩
      unfold effectiveSig
      split
      · trivial
      · exact hgs.2
    · rcases collectFns_added hs with h' | ⟨f, hf, h'⟩
      · cases h'
      · exact (h2 f hf).2 s h'
  obtain ⟨ds, h4⟩ := typeDefs_supported m.gcMap hsig
  unfold compile
  rw [h1]
  simp only
  rw [h3, h4]
  exact ⟨_, rfl⟩

/-! ## Indirect calls that are not tail calls -/

theorem badCall_pre {types : List TypeDef} (is : List Ins) {k : ICode} (h : BadCall types k) :
    BadCall types (pre is k) := by
  induction is with
  | nil => exact h
  | cons i is ih =>
    cases i <;> first | exact ih | exact .inr ih

theorem badCall_mid {types : List TypeDef} (is js : List Ins) {k : ICode} {t tb : Nat}
    (h : ∀ ps rs, types[t]? ≠ some (.func ps rs)) :
    BadCall types (pre (is ++ .callInd t tb :: js) k) := by
  induction is with
  | nil => exact .inl h
  | cons i is ih =>
    cases i <;> first | exact ih | exact .inr ih

theorem emit_bad {m : Mod} {r : Reg} {tbl : List String} {types : List TypeDef}
    (h0 : types[0]? = some .gc) {ty : Nat → Ty} {ret : Ty} {c : Code} {wc : WCode} {ic : ICode}
    (h : HasIndirectCall c) (hl : lower tbl ty c = some wc) (he : emit m r ty ret wc = some ic) :
    BadCall types ic := by
  induction c generalizing wc ic with
  | const d f k ih =>
    unfold lower at hl
    split at hl
    · cases hl
    · cases h1 : lower tbl ty k with
      | none => simp [h1] at hl
      | some k' =>
        simp [h1] at hl; subst hl
        unfold emit at he
        cases h2 : emit m r ty ret k' with
        | none => simp [h2] at he
        | some ik => simp [h2] at he; subst he; exact badCall_pre _ (ih h h1 h2)
  | num d z k ih =>
    unfold lower at hl
    cases h1 : lower tbl ty k with
    | none => simp [h1] at hl
    | some k' =>
      simp [h1] at hl; subst hl
      unfold emit at he
      cases h2 : emit m r ty ret k' with
      | none => simp [h2] at he
      | some ik => simp [h2] at he; subst he; exact badCall_pre _ (ih h h1 h2)
  | add d a b k ih =>
    unfold lower at hl
    cases h1 : lower tbl ty k with
    | none => simp [h1] at hl
    | some k' =>
      simp [h1] at hl; subst hl
      unfold emit at he
      cases h2 : emit m r ty ret k' with
      | none => simp [h2] at he
      | some ik => simp [h2] at he; subst he; exact badCall_pre _ (ih h h1 h2)
  | call d rty f args k ih =>
    unfold lower at hl
    cases h1 : lower tbl ty k with
    | none => simp [h1] at hl
    | some k' =>
      simp [h1] at hl; subst hl
      unfold emit at he
      split at he
      · cases he
      · cases h2 : emit m r ty ret k' with
        | none => simp [h2] at he
        | some ik => simp [h2] at he; subst he; exact badCall_pre _ (ih h h1 h2)
  | callInd d rty callee args k ih =>
    unfold lower at hl
    cases h1 : lower tbl ty k with
    | none => simp [h1] at hl
    | some k' =>
      simp [h1] at hl; subst hl
      unfold emit at he
      split at he
      · split at he
        · cases he
        · rename_i i hi
          have hi0 : i = 0 := by
            unfold indTypeIdx at hi
            split at hi
            · cases hi
            · simp at hi; exact hi.symm
          subst hi0
          cases h2 : emit m r ty ret k' with
          | none => simp [h2] at he
          | some ik =>
            simp [h2] at he; subst he
            have := badCall_mid (types := types) (gets args ++ [.get callee]) (setResult rty d)
              (k := ik) (t := 0) (tb := 0) (by intro ps rs hh; rw [h0] at hh; cases hh)
            simpa using this
      · cases he
  | ifte c t e k iht ihe ihk =>
    unfold lower at hl
    split at hl
    · rename_i t' e' k' h1 h2 h3
      cases hl
      unfold emit at he
      split at he
      · rename_i it ie ik h4 h5 h6
        cases he
        rcases h with h | h | h
        · exact .inl (iht h h1 h4)
        · exact .inr (.inl (ihe h h2 h5))
        · exact .inr (.inr (ihk h h3 h6))
      · cases he
    · cases hl
  | fall => exact h.elim
  | ret v => exact h.elim
  | tail f a => exact h.elim
  | tailInd c a s => exact h.elim
  | unreach => exact h.elim

end Verif.WasmCall
