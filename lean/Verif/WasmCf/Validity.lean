import Verif.WasmCf.Preserve

/- The emission succeeds, and the validator accepts the emitted instructions. -/
namespace Verif.WasmCf

variable {ty : Value → Ty} {loc : Locals}

/-! ## The emission succeeds -/

theorem gets_total {as : List Name} (h : ∀ a ∈ as, (loc.lookup a).isSome) :
    ∃ is, gets loc as = some is := by
  induction as with
  | nil => exact ⟨[], rfl⟩
  | cons a as ih =>
    obtain ⟨i, hi⟩ := Option.isSome_iff_exists.1 (h a List.mem_cons_self)
    obtain ⟨is, his⟩ := ih fun b hb => h b (List.mem_cons_of_mem _ hb)
    exact ⟨_, by rw [gets, hi, his]; rfl⟩

theorem setResult_total {T : Name → Ty} {r : Option Name}
    (h : ∀ a ∈ r.toList, (loc.lookup a).isSome) : ∃ is, setResult T loc r = some is := by
  cases r with
  | none => exact ⟨[], rfl⟩
  | some v =>
    obtain ⟨i, hi⟩ := Option.isSome_iff_exists.1 (h v (by simp))
    rw [setResult, hi]
    split
    · exact ⟨_, rfl⟩
    · exact ⟨_, rfl⟩

theorem storeResult_total {T : Name → Ty} {bt : Option Ty} {r : Name} (h : (loc.lookup r).isSome) :
    ∃ is, storeResult T loc bt r = some is := by
  unfold storeResult
  split
  · exact setResult_total (by simpa using h)
  · exact ⟨_, rfl⟩

theorem argLocals_total {ps : List Name} (h : ∀ a ∈ ps, (loc.lookup a).isSome) :
    ∃ as, argLocals loc ps = some as ∧ as.length = ps.length := by
  induction ps with
  | nil => exact ⟨[], rfl, rfl⟩
  | cons a ps ih =>
    obtain ⟨i, hi⟩ := Option.isSome_iff_exists.1 (h a List.mem_cons_self)
    obtain ⟨is, his, hl⟩ := ih fun b hb => h b (List.mem_cons_of_mem _ hb)
    exact ⟨_, by rw [argLocals, hi, his]; rfl, by simp [hl]⟩

theorem initCopies_total : ∀ (vs : List Name) (as : List Nat), (∀ a ∈ vs, (loc.lookup a).isSome) →
    vs.length = as.length → ∃ is, initCopies loc vs as = some is
  | [], [], _, _ => ⟨[], rfl⟩
  | [], _ :: _, _, h => by simp at h
  | _ :: _, [], _, h => by simp at h
  | v :: vs, a :: as, h, hl => by
    obtain ⟨i, hi⟩ := Option.isSome_iff_exists.1 (h v List.mem_cons_self)
    obtain ⟨is, his⟩ := initCopies_total vs as (fun b hb => h b (List.mem_cons_of_mem _ hb))
      (by simpa using hl)
    exact ⟨_, by rw [initCopies, hi, his]; rfl⟩

theorem mem_wdefs {w : WOp} {ws : List WOp} (h : w ∈ ws) {a : Name} (ha : a ∈ w.defs) :
    a ∈ wdefs ws := by
  induction ws with
  | nil => cases h
  | cons w' ws ih =>
    rcases List.mem_cons.1 h with rfl | h
    · exact List.mem_append_left _ ha
    · exact List.mem_append_right _ (ih h)

theorem yield_mem {v : Name} : ∀ {os : List Op}, WOp.yield v ∈ lowerOps os → ∃ u ∈ usesO os, v = .src u
  | [], h => by simp [lowerOps] at h
  | o :: os, h => by
    rw [lowerOps] at h
    rcases List.mem_append.1 h with h | h
    · have key : ∃ u ∈ o.uses, v = .src u := by
        cases o with
        | plain n as r => simp [lowerOp] at h
        | exit n as => simp [lowerOp] at h
        | ite c res t e => match res with
          | [] => simp [lowerOp] at h
          | [_] => simp [lowerOp] at h
          | _ :: _ :: _ => simp [lowerOp] at h
        | loop i res ps b => match res with
          | [] => simp [lowerOp] at h
          | [_] => simp [lowerOp] at h
          | _ :: _ :: _ => simp [lowerOp] at h
        | yield vs => match vs with
          | [] => simp [lowerOp] at h
          | [u] => exact ⟨u, by simp [Op.uses], by simpa [lowerOp] using h⟩
          | _ :: _ :: _ => simp [lowerOp] at h
        | cont vs => match vs with
          | [] => simp [lowerOp] at h
          | [u] => exact ⟨u, by simp [Op.uses], by simpa [lowerOp] using h⟩
          | _ :: _ :: _ => simp [lowerOp] at h
        | brk u => exact ⟨u, by simp [Op.uses], by simpa [lowerOp] using h⟩
      obtain ⟨u, hu, e⟩ := key
      exact ⟨u, List.mem_append_left _ hu, e⟩
    · obtain ⟨u, hu, e⟩ := yield_mem h
      exact ⟨u, List.mem_append_right _ hu, e⟩

theorem regionResult_mem {os : List Op} {v : Name} (h : regionResult (lowerOps os) = some v) :
    v ∈ wdefs (lowerOps os) ∨ ∃ u ∈ usesO os, v = .src u := by
  unfold regionResult at h
  split at h
  · next e =>
    cases h
    exact Or.inr (yield_mem (List.mem_of_getLast? e))
  · next e =>
    refine Or.inl (mem_wdefs (List.mem_of_getLast? e) ?_)
    simp [WOp.defs, h]
  · next e =>
    cases h
    exact Or.inl (mem_wdefs (List.mem_of_getLast? e) (by simp [WOp.defs]))
  · next e =>
    cases h
    exact Or.inl (mem_wdefs (List.mem_of_getLast? e) (by simp [WOp.defs]))
  · next e =>
    cases h
    exact Or.inl (mem_wdefs (List.mem_of_getLast? e) (by simp [WOp.defs]))
  · cases h

theorem resultGet_total {bt : Option Ty} {os : List Op} (hu : ∀ v ∈ usesO os, (loc.lookup (.src v)).isSome)
    (hd : ∀ a ∈ wdefs (lowerOps os), (loc.lookup a).isSome) :
    ∃ is, resultGet loc bt (lowerOps os) = some is := by
  unfold resultGet
  split
  · split
    · next v e =>
      refine gets_total ?_
      intro a ha
      simp only [List.mem_singleton] at ha
      subst ha
      rcases regionResult_mem e with h | ⟨u, h, rfl⟩
      · exact hd _ h
      · exact hu u h
    · exact ⟨_, rfl⟩
  · exact ⟨_, rfl⟩

mutual
theorem emit_op_total {T : Name → Ty} : ∀ (o : Op) {y l} (nest : List Kind), o.isTerm = false →
    o.rules ty y l → o.narrow → (∀ v ∈ o.uses, (loc.lookup (.src v)).isSome) →
    (∀ a ∈ wdefs (lowerOp o), (loc.lookup a).isSome) →
    ∃ code, emitOps T loc nest (lowerOp o) = some code
  | .plain nm as r, y, l, nest, _, _, _, hu, hd => by
    rw [lowerOp, single_plain, emitOp]
    obtain ⟨a, ha⟩ := gets_total (loc := loc) (as := as.map .src) (by simpa [Op.uses] using hu)
    obtain ⟨s, hs⟩ := setResult_total (loc := loc) (T := T) (r := r.map .src) (by
      intro b hb
      exact hd b (by simpa [lowerOp, wdefs, WOp.defs] using hb))
    rw [ha, hs]
    exact ⟨_, rfl⟩
  | .exit nm as, y, l, nest, _, _, _, hu, hd => by
    rw [lowerOp, single_exit, emitOp]
    obtain ⟨a, ha⟩ := gets_total (loc := loc) (as := as.map .src) (by simpa [Op.uses] using hu)
    rw [ha]
    exact ⟨_, rfl⟩
  | .ite c res t e, y, l, nest, _, hw, hn, hu, hd => by
    rw [Op.rules] at hw
    rw [Op.narrow] at hn
    obtain ⟨hlen, _, _, hwt, hwe⟩ := hw
    simp only [Op.uses, List.mem_cons, List.mem_append] at hu
    have key : ∀ r, (∀ a ∈ wdefs [WOp.ite (.src c) r (lowerOps t) (lowerOps e)],
        (loc.lookup a).isSome) →
        ∃ code, emitOps T loc nest [WOp.ite (.src c) r (lowerOps t) (lowerOps e)] = some code := by
      intro r hd
      simp only [wdefs, WOp.defs, List.append_nil, List.mem_cons, List.mem_append] at hd
      obtain ⟨ti, hti⟩ := emit_total (T := T) t (.ite :: nest) hwt hn.1 (fun v hv => hu v (Or.inr (Or.inl hv)))
        (fun a ha => hd a (Or.inr (Or.inl ha)))
      obtain ⟨ei, hei⟩ := emit_total (T := T) e (.ite :: nest) hwe hn.2 (fun v hv => hu v (Or.inr (Or.inr hv)))
        (fun a ha => hd a (Or.inr (Or.inr ha)))
      obtain ⟨a, ha⟩ := gets_total (loc := loc) (as := [.src c]) (by simpa using hu c (Or.inl rfl))
      obtain ⟨tr, htr⟩ := resultGet_total (bt := if (regionResult (lowerOps t)).isSome then
        blockType T r else none) (fun v hv => hu v (Or.inr (Or.inl hv)))
        (fun a ha => hd a (Or.inr (Or.inl ha)))
      obtain ⟨er, her⟩ := resultGet_total (bt := if (regionResult (lowerOps t)).isSome then
        blockType T r else none) (fun v hv => hu v (Or.inr (Or.inr hv)))
        (fun a ha => hd a (Or.inr (Or.inr ha)))
      obtain ⟨s, hs⟩ := storeResult_total (T := T) (bt := if (regionResult (lowerOps t)).isSome then
        blockType T r else none) (hd r (Or.inl rfl))
      rw [single_ite, emitOp]
      simp only [ha, hti, htr, hei, her, hs]
      exact ⟨_, rfl⟩
    rcases passes_res hlen with rfl | ⟨v, rfl⟩
    · rw [lowerOp] at hd ⊢
      exact key _ hd
    · rw [lowerOp] at hd ⊢
      exact key _ hd
  | .loop init res ps b, y, l, nest, _, hw, hn, hu, hd => by
    rw [Op.rules] at hw
    rw [Op.narrow] at hn
    obtain ⟨hlen, htys, _, _, hwb⟩ := hw
    simp only [Op.uses, List.mem_append] at hu
    have key : ∀ r r', (∀ a ∈ wdefs [WOp.block r [.loop (init.map .src) r' (ps.map .src) (lowerOps b)]],
        (loc.lookup a).isSome) →
        ∃ code, emitOps T loc nest
          [WOp.block r [.loop (init.map .src) r' (ps.map .src) (lowerOps b)]] = some code := by
      intro r r' hd
      simp only [wdefs, WOp.defs, List.append_nil, List.mem_cons, List.mem_append] at hd
      obtain ⟨as, has, hal⟩ := argLocals_total (loc := loc) (ps := ps.map .src)
        (fun a ha => hd a (Or.inr (Or.inr (Or.inl ha))))
      obtain ⟨ci, hci⟩ := initCopies_total (loc := loc) (init.map .src) as
        (by
          intro a ha
          obtain ⟨v, hv, rfl⟩ := List.mem_map.1 ha
          exact hu v (Or.inl hv))
        (by
          have := congrArg List.length htys
          simp only [List.length_map] at this hal ⊢
          omega)
      obtain ⟨bi, hbi⟩ := emit_total (T := T) b (.loop as :: .block :: nest) hwb hn
        (fun v hv => hu v (Or.inr hv)) (fun a ha => hd a (Or.inr (Or.inr (Or.inr ha))))
      obtain ⟨br, hbr⟩ := resultGet_total (bt := blockType T r') (fun v hv => hu v (Or.inr hv))
        (fun a ha => hd a (Or.inr (Or.inr (Or.inr ha))))
      obtain ⟨s, hs⟩ := storeResult_total (T := T) (bt := blockType T r) (hd r (Or.inl rfl))
      obtain ⟨s', hs'⟩ := storeResult_total (T := T) (bt := blockType T r')
        (hd r' (Or.inr (Or.inl rfl)))
      have hin : ∃ x, emitOps T loc (.block :: nest)
          [.loop (init.map .src) r' (ps.map .src) (lowerOps b)] = some x := by
        rw [single_loop, emitOp]
        simp only [has, Option.bind_eq_bind, Option.bind_some, hci, hbi, hbr, hs']
        exact ⟨_, rfl⟩
      obtain ⟨x, hx⟩ := hin
      have hrg : ∃ x, resultGet loc (blockType T r)
          [.loop (init.map .src) r' (ps.map .src) (lowerOps b)] = some x := by
        unfold resultGet
        split
        · exact gets_total (by simpa using hd r' (Or.inr (Or.inl rfl)))
        · exact ⟨_, rfl⟩
      obtain ⟨z, hz⟩ := hrg
      rw [single_block, emitOp]
      simp only [hx, hz, hs]
      exact ⟨_, rfl⟩
    rcases passes_res hlen with rfl | ⟨v, rfl⟩
    · rw [lowerOp] at hd ⊢
      exact key _ _ hd
    · rw [lowerOp] at hd ⊢
      exact key _ _ hd
  | .yield _, _, _, _, h, _, _, _, _ => by simp [Op.isTerm] at h
  | .cont _, _, _, _, h, _, _, _, _ => by simp [Op.isTerm] at h
  | .brk _, _, _, _, h, _, _, _, _ => by simp [Op.isTerm] at h
theorem emit_total {T : Name → Ty} : ∀ (os : List Op) {y l} (nest : List Kind),
    rulesO ty y l os → narrowO os → (∀ v ∈ usesO os, (loc.lookup (.src v)).isSome) →
    (∀ a ∈ wdefs (lowerOps os), (loc.lookup a).isSome) →
    ∃ code, emitOps T loc nest (lowerOps os) = some code
  | [], _, _, _, _, _, _, _ => ⟨[], rfl⟩
  | o :: os, y, l, nest, hw, hn, hu, hd => by
    rw [rulesO] at hw
    rw [narrowO] at hn
    simp only [usesO, List.mem_append] at hu
    simp only [lowerOps, wdefs_append, List.mem_append] at hd
    cases hterm : o.isTerm with
    | false =>
      obtain ⟨a, ha⟩ := emit_op_total (T := T) o nest hterm hw.1 hn.1 (fun v hv => hu v (Or.inl hv))
        (fun a ha => hd a (Or.inl ha))
      obtain ⟨b, hb⟩ := emit_total (T := T) os nest hw.2.2 hn.2 (fun v hv => hu v (Or.inr hv))
        (fun a ha => hd a (Or.inr ha))
      exact ⟨a ++ b, by rw [lowerOps, emit_append hterm, ha, hb]; rfl⟩
    | true =>
      have hos := hw.2.1 hterm
      subst hos
      cases o with
      | yield vs =>
        obtain ⟨res, _, hf⟩ := hw.1
        have hl : vs.length ≤ 1 := by
          unfold fits at hf
          split at hf
          · exact hf
          · exact hf.1
        match vs with
        | [] => exact ⟨[], rfl⟩
        | [v] => exact ⟨[], rfl⟩
        | _ :: _ :: _ => simp at hl
      | cont vs =>
        have hl : vs.length ≤ 1 := hn.1
        match vs with
        | [] => exact ⟨_, rfl⟩
        | [v] =>
          obtain ⟨i, hi⟩ := Option.isSome_iff_exists.1 (hu v (Or.inl (by simp [Op.uses])))
          simp only [lowerOps, lowerOp, List.append_nil, emitOps, emitOp, nextBr, hi]
          exact ⟨_, rfl⟩
        | _ :: _ :: _ => simp at hl
      | brk v =>
        obtain ⟨i, hi⟩ := Option.isSome_iff_exists.1 (hu v (Or.inl (by simp [Op.uses])))
        simp only [lowerOps, lowerOp, List.append_nil, emitOps, emitOp, nextBr, hi]
        exact ⟨_, rfl⟩
      | _ => simp [Op.isTerm] at hterm
end

mutual
/-- Every value of the function is defined after the pass. -/
theorem lower_defs {v : Value} : ∀ (o : Op) {y l}, o.rules ty y l → v ∈ o.defs →
    .src v ∈ wdefs (lowerOp o)
  | .plain _ _ r, _, _, _, h => by
    cases r <;> simp_all [lowerOp, wdefs, WOp.defs, Op.defs]
  | .ite c res t e, y, l, hw, h => by
    rw [Op.rules] at hw
    obtain ⟨hlen, _, _, hwt, hwe⟩ := hw
    have ht := lower_defss (v := v) t hwt
    have he := lower_defss (v := v) e hwe
    simp only [Op.defs, List.mem_append] at h
    rcases passes_res hlen with rfl | ⟨r, rfl⟩
    · simp only [lowerOp, wdefs, WOp.defs, List.append_nil, List.mem_cons, List.mem_append]
      rcases h with h | h
      · cases h
      · exact Or.inr (h.imp ht he)
    · simp only [lowerOp, wdefs, WOp.defs, List.append_nil, List.mem_cons, List.mem_append,
        Name.src.injEq]
      exact h.imp (by simp) (Or.imp ht he)
  | .loop init res ps b, y, l, hw, h => by
    rw [Op.rules] at hw
    obtain ⟨hlen, _, _, _, hwb⟩ := hw
    have hb := lower_defss (v := v) b hwb
    simp only [Op.defs, List.mem_append] at h
    rcases passes_res hlen with rfl | ⟨r, rfl⟩
    · simp only [lowerOp, wdefs, WOp.defs, List.append_nil, List.mem_cons, List.mem_append]
      rcases h with h | h | h
      · cases h
      · exact Or.inr (Or.inr (Or.inl (List.mem_map.2 ⟨v, h, rfl⟩)))
      · exact Or.inr (Or.inr (Or.inr (hb h)))
    · simp only [lowerOp, wdefs, WOp.defs, List.append_nil, List.mem_cons, List.mem_append,
        Name.src.injEq]
      rcases h with h | h | h
      · exact Or.inl (by simpa using h)
      · exact Or.inr (Or.inr (Or.inl (List.mem_map.2 ⟨v, h, rfl⟩)))
      · exact Or.inr (Or.inr (Or.inr (hb h)))
  | .yield _, _, _, _, h => by simp [Op.defs] at h
  | .cont _, _, _, _, h => by simp [Op.defs] at h
  | .brk _, _, _, _, h => by simp [Op.defs] at h
  | .exit _ _, _, _, _, h => by simp [Op.defs] at h
theorem lower_defss {v : Value} : ∀ (os : List Op) {y l}, rulesO ty y l os → v ∈ defsO os →
    .src v ∈ wdefs (lowerOps os)
  | [], _, _, _, h => by simp [defsO] at h
  | o :: os, y, l, hw, h => by
    rw [rulesO] at hw
    rw [lowerOps, wdefs_append]
    simp only [defsO, List.mem_append] at h
    exact List.mem_append.2 (h.imp (lower_defs o hw.1) (lower_defss os hw.2.2))
end

theorem compile_total {f : Func} (hf : WF f) (hn : narrowO f.body) : ∃ code, compile f = some code := by
  have hd : ∀ a ∈ wdefs (lowerOps f.body), ((localsOf f).lookup a).isSome := fun a ha =>
    assignOps_has _ ha
  refine emit_total f.body [] hf.rules hn ?_ hd
  intro v hv
  rcases List.mem_append.1 (hf.defined v hv) with h | h
  · exact assignOps_mono _ (assignArgs_has (List.mem_map.2 ⟨v, h, rfl⟩))
  · exact hd _ (lower_defss _ hf.rules h)

/-! ## The validator accepts -/

section Valid
variable {types : List (Nat × Ty)} {labels : List (Option Ty)}

theorem validIs_append (a b : List Instr) (s : St) :
    validIs types labels (a ++ b) s = (validIs types labels a s).bind (validIs types labels b) := by
  induction a generalizing s with
  | nil => rfl
  | cons i a ih =>
    rw [List.cons_append, validIs, validIs]
    rcases validI types labels i s with _ | s'
    · rfl
    · exact ih s'

theorem validIs_one (i : Instr) (s : St) : validIs types labels [i] s = validI types labels i s := by
  rw [validIs]
  rcases validI types labels i s with _ | s'
  · rfl
  · rfl

/-- The types of the locals are those of the values. -/
def TypesOk (types : List (Nat × Ty)) (loc : Locals) (T : Name → Ty) : Prop :=
  ∀ a i, loc.lookup a = some i → types.lookup i = some (T a)

theorem valid_gets {T : Name → Ty} (hT : TypesOk types loc T) : ∀ {as : List Name} {is : List Instr},
    gets loc as = some is → ∀ (st : List Ty) (p : Bool),
      validIs types labels is (st, p) = some ((as.map T).reverse ++ st, p)
  | [], is, h, st, p => by cases h; rfl
  | a :: as, is, h, st, p => by
    rw [gets] at h
    cases ha : loc.lookup a with
    | none => rw [ha] at h; cases h
    | some i =>
      rw [ha] at h
      cases hr : gets loc as with
      | none => rw [hr] at h; cases h
      | some is' =>
        rw [hr] at h
        cases h
        rw [validIs, validI, hT a i ha]
        simp only [Option.map_some, Option.bind_some]
        rw [valid_gets hT hr]
        simp

theorem pops_append (ts st : List Ty) (p : Bool) : pops ts (ts ++ st, p) = some (st, p) := by
  induction ts with
  | nil => rfl
  | cons t ts ih => simp [pops, pop, ih]

theorem valid_setResult {T : Name → Ty} (hT : TypesOk types loc T) {r : Option Name}
    {is : List Instr} (h : setResult T loc r = some is) (st : List Ty) (p : Bool) :
    validIs types labels is ((r.bind (blockType T)).toList ++ st, p) = some (st, p) := by
  cases r with
  | none => cases h; rfl
  | some v =>
    by_cases hz : T v = 0
    · rw [setResult, if_pos hz] at h
      cases h
      rw [Option.bind_some, blockType_zero hz]
      rfl
    · rw [setResult, if_neg hz] at h
      cases hi : loc.lookup v with
      | none => rw [hi] at h; cases h
      | some i =>
        rw [hi] at h
        cases h
        rw [Option.bind_some, blockType_ne hz, validIs_one, validI, hT v i hi]
        simp [pop]

theorem valid_storeResult {T : Name → Ty} (hT : TypesOk types loc T) {r : Name} {bt : Option Ty}
    (hbt : bt = none ∨ bt = blockType T r) {is : List Instr} (h : storeResult T loc bt r = some is)
    (p : Bool) : validIs types labels is (bt.toList, p) = some ([], p) := by
  unfold storeResult at h
  cases bt with
  | none => cases h; rfl
  | some t =>
    rcases hbt with hbt | hbt
    · cases hbt
    · have h : setResult T loc (some r) = some is := h
      have := valid_setResult (labels := labels) hT h [] p
      rw [Option.bind_some, ← hbt, List.append_nil] at this
      exact this

theorem valid_init {T : Name → Ty} (hT : TypesOk types loc T) : ∀ {init ps : List Name}
    {as : List Nat} {is : List Instr}, init.map T = ps.map T → argLocals loc ps = some as →
    initCopies loc init as = some is → ∀ (p : Bool),
      validIs types labels is ([], p) = some ([], p)
  | [], [], as, is, _, ha, hi, p => by
    cases ha
    cases hi
    rfl
  | [], _ :: _, _, _, h, _, _, _ => by simp at h
  | _ :: _, [], _, _, h, _, _, _ => by simp at h
  | v :: init, q :: ps, as, is, ht, ha, hi, p => by
    rw [argLocals] at ha
    cases hq : loc.lookup q with
    | none => rw [hq] at ha; cases ha
    | some a =>
      rw [hq] at ha
      cases hps : argLocals loc ps with
      | none => rw [hps] at ha; cases ha
      | some as' =>
        rw [hps] at ha
        cases ha
        rw [initCopies] at hi
        cases hv : loc.lookup v with
        | none => rw [hv] at hi; cases hi
        | some i =>
          rw [hv] at hi
          cases hr : initCopies loc init as' with
          | none => rw [hr] at hi; cases hi
          | some is' =>
            rw [hr] at hi
            cases hi
            simp only [List.map_cons, List.cons.injEq] at ht
            have := valid_init hT ht.2 hps hr p
            rw [validIs, validI, hT v i hv]
            simp only [Option.map_some, Option.bind_some]
            rw [validIs, validI, hT q a hq]
            simp only [Option.bind_some, pop, ht.1, if_true]
            exact this

/-- What branches to the loop and to the block around it pass. -/
def LabOk (ty : Value → Ty) (l : Option (List Value × List Value)) (k : Nat)
    (labels : List (Option Ty)) : Prop :=
  ∀ ps res, l = some (ps, res) → ∃ front bt rest, front.length = k ∧
    labels = front ++ none :: bt :: rest ∧ (bt = none ∨ ∃ r, res = [r] ∧ bt = some (ty r))

theorem LabOk.ite {l k} (h : LabOk ty l k labels) (bt : Option Ty) :
    LabOk ty l (k + 1) (bt :: labels) := by
  intro ps res e
  obtain ⟨front, b, rest, h1, h2, h3⟩ := h ps res e
  exact ⟨bt :: front, b, rest, by simp [h1], by simp [h2], h3⟩

/-- The last operation does not go on, and is no yield. -/
def stops (os : List Op) : Prop :=
  ∃ o, os.getLast? = some o ∧ match o with
    | .cont _ | .brk _ | .exit .. => True
    | _ => False

theorem stops_cons {o o' : Op} {os : List Op} : stops (o :: o' :: os) ↔ stops (o' :: os) := by
  simp [stops, List.getLast?_cons_cons]

theorem lower_key {o : Op} : ∀ (os : List Op), os.getLast? = some o →
    ∃ pre, lowerOps os = pre ++ lowerOp o := by
  intro os
  induction os with
  | nil => simp
  | cons a os ih =>
    intro h
    cases os with
    | nil =>
      simp only [List.getLast?_singleton, Option.some.injEq] at h
      subst h
      exact ⟨[], by simp [lowerOps]⟩
    | cons b os =>
      rw [List.getLast?_cons_cons] at h
      obtain ⟨pre, e⟩ := ih h
      exact ⟨lowerOp a ++ pre, by rw [lowerOps, e, List.append_assoc]⟩

/-- A region that stops has no result. -/
theorem regionResult_stops {os : List Op} (h : stops os) : regionResult (lowerOps os) = none := by
  obtain ⟨o, ho, hm⟩ := h
  obtain ⟨pre, e⟩ := lower_key os ho
  have last : ∀ ws w, lowerOp o = ws ++ [w] → (lowerOps os).getLast? = some w := by
    intro ws w hw
    rw [e, hw, ← List.append_assoc, List.getLast?_append]
    rfl
  cases o with
  | cont vs =>
    match vs with
    | [] => rw [regionResult, last [] _ rfl]
    | [v] => rw [regionResult, last [_] _ rfl]
    | _ :: _ :: _ => rw [regionResult, last [] .left (by simp [lowerOp])]
  | brk v => rw [regionResult, last [_] _ rfl]
  | exit n as => rw [regionResult, last [] _ rfl]
  | _ => exact hm.elim

/-- The end of a branch or of a loop body. -/
theorem valid_region {T : Name → Ty} (hT : TypesOk types loc T) {os : List Op} {bt : Option Ty}
    {bi br : List Instr} {p' : Bool} (h : validIs types labels bi ([], false) = some ([], p'))
    (hstop : stops os → p' = true) (hbr : resultGet loc bt (lowerOps os) = some br)
    (hend : ∀ t, bt = some t → stops os ∨ ∃ v, lastYield os = some [v] ∧ T (.src v) = t) :
    ∃ s, validIs types labels (bi ++ br) ([], false) = some s ∧ closes bt s = true := by
  rw [validIs_append, h, Option.bind_some]
  cases bt with
  | none =>
    cases hbr
    exact ⟨_, rfl, rfl⟩
  | some t =>
    rcases hend t rfl with hs | ⟨v, hv, e⟩
    · simp only [resultGet, Option.isSome_some, if_true, regionResult_stops hs] at hbr
      cases hbr
      rw [hstop hs]
      exact ⟨_, rfl, rfl⟩
    · simp only [resultGet, Option.isSome_some, if_true, regionResult_yield hv] at hbr
      rw [valid_gets hT hbr]
      exact ⟨_, rfl, by simp [closes, pops, pop, e]⟩

theorem ends_cases {os : List Op} {res : List Value} {l} {r : Value}
    (hw : rulesO ty (some res) l os) (hr : res = [r]) (hz : ty r ≠ 0) (h : endsPlainly os) :
    stops os ∨ ∃ v, lastYield os = some [v] ∧ tyName ty (.src v) = tyName ty (.src r) := by
  obtain ⟨o, ho, hm⟩ := h
  cases o with
  | yield vs =>
    right
    have hy : lastYield os = some vs := by simp [lastYield, ho]
    have hf := lastYield_fits hw hy
    subst hr
    have h2 := hf.2 hz
    match vs with
    | [] => simp at h2
    | [v] => exact ⟨v, hy, show ty v = ty r by simpa using h2⟩
    | _ :: _ :: _ => simp at h2
  | cont vs => exact Or.inl ⟨_, ho, trivial⟩
  | brk v => exact Or.inl ⟨_, ho, trivial⟩
  | exit n as => exact Or.inl ⟨_, ho, trivial⟩
  | _ => exact hm.elim

theorem quits_yield {vs : List Value} : ∀ (b : List Op), b.getLast? = some (.yield vs) →
    quitsO b = false
  | [], h => by simp at h
  | [o], h => by
    simp only [List.getLast?_singleton, Option.some.injEq] at h
    subst h
    rfl
  | o :: o' :: b, h => by
    rw [List.getLast?_cons_cons] at h
    rw [quitsO]
    · exact quits_yield (o' :: b) h
    · simp

mutual
theorem valid_op (hT : TypesOk types loc (tyName ty)) : ∀ (o : Op) {y l} {k : Nat} {nest : List Kind}
    {labels : List (Option Ty)} {code : List Instr}, o.isTerm = false → o.rules ty y l → o.oneIf k →
    o.plainEnds ty → NestOk loc l k nest → LabOk ty l k labels →
    emitOps (tyName ty) loc nest (lowerOp o) = some code → ∀ p,
    ∃ p', validIs types labels code ([], p) = some ([], p') ∧
      ((match o with | .exit .. => True | _ => False) → p' = true)
  | .plain nm as r, y, l, k, nest, labels, code, _, _, _, _, _, _, he, p => by
    rw [lowerOp, single_plain] at he
    obtain ⟨a, sc, ha, hs, rfl⟩ := emit_plain he
    refine ⟨p, ?_, nofun⟩
    rw [validIs_append, validIs_append, valid_gets hT ha, Option.bind_some, validIs_one, validI,
      List.append_nil]
    have := pops_append ((as.map Name.src).map (tyName ty)).reverse [] p
    rw [List.append_nil] at this
    rw [this]
    exact valid_setResult hT hs [] p
  | .exit nm as, y, l, k, nest, labels, code, _, _, _, _, _, _, he, p => by
    rw [lowerOp, single_exit] at he
    obtain ⟨a, ha, rfl⟩ := emit_exit he
    refine ⟨true, ?_, fun _ => rfl⟩
    rw [validIs_append, valid_gets hT ha, Option.bind_some, validIs_one, validI, List.append_nil]
    have := pops_append ((as.map Name.src).map (tyName ty)).reverse [] p
    rw [List.append_nil] at this
    rw [this]
    rfl
  | .ite c res t e, y, l, k, nest, labels, code, _, hw, ho, hpe, hn, hlab, he, p => by
    rw [Op.rules] at hw
    rw [Op.oneIf] at ho
    rw [Op.plainEnds] at hpe
    obtain ⟨hlen, het, hee, hwt, hwe⟩ := hw
    have he' : ∃ r, ((res = [] ∧ r = .anon) ∨ ∃ v, res = [v] ∧ r = .src v) ∧
        emitOp (tyName ty) loc nest (.ite (.src c) r (lowerOps t) (lowerOps e)) = some code := by
      rcases passes_res hlen with rfl | ⟨v, rfl⟩
      · rw [lowerOp, single_ite] at he
        exact ⟨_, Or.inl ⟨rfl, rfl⟩, he⟩
      · rw [lowerOp, single_ite] at he
        exact ⟨_, Or.inr ⟨v, rfl, rfl⟩, he⟩
    obtain ⟨r, hr, he⟩ := he'
    obtain ⟨a, ti, tr, ei, er, sc, ha, hti, htr, hei, her, hs, rfl⟩ := emit_ite he
    obtain ⟨pt, hpt, st⟩ := valid_ops hT t hwt ho.1 hpe.2.1 hn.ite (hlab.ite _) hti false
    obtain ⟨pe, hpe', se⟩ := valid_ops hT e hwe ho.2 hpe.2.2 hn.ite (hlab.ite _) hei false
    have hbt : iteType (tyName ty) r (lowerOps t) = none ∨
        iteType (tyName ty) r (lowerOps t) = blockType (tyName ty) r := by
      unfold iteType
      split
      · exact Or.inr rfl
      · exact Or.inl rfl
    have hend : ∀ τ, iteType (tyName ty) r (lowerOps t) = some τ →
        ∃ v, res = [v] ∧ ty v ≠ 0 ∧ tyName ty (.src v) = τ := by
      intro τ hτ
      rcases hbt with hb | hb
      · rw [hb] at hτ; cases hτ
      · rw [hb] at hτ
        rcases hr with ⟨_, rfl⟩ | ⟨v, h1, rfl⟩
        · rw [blockType_zero (show tyName ty .anon = 0 from rfl)] at hτ
          cases hτ
        · by_cases hz : ty v = 0
          · rw [blockType_zero (show tyName ty (.src v) = 0 from hz)] at hτ
            cases hτ
          · rw [blockType_ne (show tyName ty (.src v) ≠ 0 from hz)] at hτ
            cases hτ
            exact ⟨v, h1, hz, rfl⟩
    obtain ⟨s1, h1, c1⟩ := valid_region hT hpt st htr (by
      intro τ hτ
      obtain ⟨v, hv, hz, e⟩ := hend τ hτ
      rw [← e]
      exact ends_cases hwt hv hz (hpe.1 ⟨v, by simp [hv], hz⟩).1)
    obtain ⟨s2, h2, c2⟩ := valid_region hT hpe' se her (by
      intro τ hτ
      obtain ⟨v, hv, hz, e⟩ := hend τ hτ
      rw [← e]
      exact ends_cases hwe hv hz (hpe.1 ⟨v, by simp [hv], hz⟩).2)
    refine ⟨p, ?_, nofun⟩
    rw [validIs_append, validIs_append, valid_gets hT ha, Option.bind_some, validIs_one, validI, h1, h2]
    simp only [List.map_cons, List.map_nil, List.reverse_cons, List.reverse_nil, List.nil_append,
      List.cons_append, popAny, c1, c2, Bool.and_self, if_true, Option.bind_some, List.append_nil]
    exact valid_storeResult hT hbt hs p
  | .loop init res ps b, y, l, k, nest, labels, code, _, hw, ho, hpe, hn, hlab, he, p => by
    rw [Op.rules] at hw
    rw [Op.oneIf] at ho
    rw [Op.plainEnds] at hpe
    obtain ⟨hlen, htys, hdis, hq, hwb⟩ := hw
    have he' : ∃ r r', ((res = [] ∧ r = .anon) ∨ ∃ v, res = [v] ∧ r = .src v) ∧
        tyName ty r' = tyName ty r ∧
        emitOp (tyName ty) loc nest (.block r [.loop (init.map .src) r' (ps.map .src) (lowerOps b)]) =
          some code := by
      rcases passes_res hlen with rfl | ⟨v, rfl⟩
      · rw [lowerOp, single_block] at he
        exact ⟨_, _, Or.inl ⟨rfl, rfl⟩, rfl, he⟩
      · rw [lowerOp, single_block] at he
        exact ⟨_, _, Or.inr ⟨v, rfl, rfl⟩, by rfl, he⟩
    obtain ⟨r, r', hr, hrr, he⟩ := he'
    obtain ⟨bi, br, sc, hbi, hbr, hs, rfl⟩ := emit_block he
    rw [single_loop] at hbi
    obtain ⟨as, ci, bi', br', sc', has, hci, hbi', hbr', hs', rfl⟩ := emit_loop hbi
    have hbt : blockType (tyName ty) r' = blockType (tyName ty) r := by
      rw [blockType, blockType, hrr]
    have hn' : NestOk loc (some (ps, res)) 0 (.loop as :: .block :: nest) := by
      intro ps' res' e
      cases e
      exact ⟨as, nest, has, rfl⟩
    have hres : ∀ τ, blockType (tyName ty) r = some τ → ∃ v, res = [v] ∧ ty v ≠ 0 ∧ τ = ty v := by
      intro τ hτ
      rcases hr with ⟨_, rfl⟩ | ⟨v, h1, rfl⟩
      · rw [blockType_zero (show tyName ty .anon = 0 from rfl)] at hτ
        cases hτ
      · by_cases hz : ty v = 0
        · rw [blockType_zero (show tyName ty (.src v) = 0 from hz)] at hτ
          cases hτ
        · rw [blockType_ne (show tyName ty (.src v) ≠ 0 from hz)] at hτ
          cases hτ
          exact ⟨v, h1, hz, rfl⟩
    have hlab' : LabOk ty (some (ps, res)) 0 (none :: blockType (tyName ty) r :: labels) := by
      intro ps' res' e
      cases e
      refine ⟨[], _, labels, rfl, rfl, ?_⟩
      cases hb : blockType (tyName ty) r with
      | none => exact Or.inl rfl
      | some τ =>
        obtain ⟨v, h1, _, h3⟩ := hres τ hb
        exact Or.inr ⟨v, h1, by rw [h3]⟩
    obtain ⟨pb, hpb, sb⟩ := valid_ops hT b hwb ho hpe.2 hn' hlab' hbi' false
    obtain ⟨s1, h1, c1⟩ := valid_region hT hpb sb hbr' (by
      intro τ hτ
      rw [hbt] at hτ
      obtain ⟨v, hv, hz, e⟩ := hres τ hτ
      left
      obtain ⟨o, ho', hm⟩ := hpe.1 ⟨v, by simp [hv], hz⟩
      cases o with
      | yield vs =>
        exfalso
        have : quitsO b = false := quits_yield b ho'
        rw [this] at hq
        cases hq
      | cont vs => exact ⟨_, ho', trivial⟩
      | brk v => exact ⟨_, ho', trivial⟩
      | exit n as => exact ⟨_, ho', trivial⟩
      | _ => exact hm.elim)
    have htys' : (init.map Name.src).map (tyName ty) = (ps.map Name.src).map (tyName ty) := by
      simpa [List.map_map, Function.comp_def, tyName] using htys
    refine ⟨p, ?_, nofun⟩
    have inner : ∃ s2, validIs types (blockType (tyName ty) r :: labels)
        (ci ++ [.loop (blockType (tyName ty) r') (bi' ++ br')] ++ sc' ++ br) ([], false) = some s2 ∧
        closes (blockType (tyName ty) r) s2 = true := by
      rw [validIs_append, validIs_append, validIs_append, valid_init hT htys' has hci, Option.bind_some,
        validIs_one, validI, h1]
      simp only [c1, if_true, Option.bind_some, List.append_nil]
      rw [valid_storeResult hT (Or.inr rfl) hs']
      rw [Option.bind_some]
      cases hb : blockType (tyName ty) r with
      | none =>
        rw [hb] at hbr
        cases hbr
        exact ⟨_, rfl, rfl⟩
      | some τ =>
        rw [hb] at hbr
        simp only [resultGet, Option.isSome_some, if_true, regionResult, List.getLast?_singleton] at hbr
        rw [valid_gets hT hbr]
        refine ⟨_, rfl, ?_⟩
        have : tyName ty r' = τ := by
          rw [hrr]
          obtain ⟨v, h1, hz, e⟩ := hres τ hb
          unfold blockType at hb
          split at hb
          · cases hb
          · cases hb; rfl
        simp [closes, pops, pop, this]
    obtain ⟨s2, h2, c2⟩ := inner
    rw [validIs_append, validIs_one, validI, h2]
    simp only [c2, if_true, Option.bind_some, List.append_nil]
    exact valid_storeResult hT (Or.inr rfl) hs p
  | .yield _, _, _, _, _, _, _, h, _, _, _, _, _, _, _ => by simp [Op.isTerm] at h
  | .cont _, _, _, _, _, _, _, h, _, _, _, _, _, _, _ => by simp [Op.isTerm] at h
  | .brk _, _, _, _, _, _, _, h, _, _, _, _, _, _, _ => by simp [Op.isTerm] at h
theorem valid_ops (hT : TypesOk types loc (tyName ty)) : ∀ (os : List Op) {y l} {k : Nat}
    {nest : List Kind} {labels : List (Option Ty)} {code : List Instr}, rulesO ty y l os →
    oneIfO k os → plainEndsO ty os → NestOk loc l k nest → LabOk ty l k labels →
    emitOps (tyName ty) loc nest (lowerOps os) = some code → ∀ p,
    ∃ p', validIs types labels code ([], p) = some ([], p') ∧ (stops os → p' = true)
  | [], y, l, k, nest, labels, code, _, _, _, _, _, he, p => by
    cases he
    exact ⟨p, rfl, fun ⟨o, h, _⟩ => by simp at h⟩
  | o :: os, y, l, k, nest, labels, code, hw, ho, hpe, hn, hlab, he, p => by
    rw [rulesO] at hw
    rw [oneIfO] at ho
    rw [plainEndsO] at hpe
    cases hterm : o.isTerm with
    | false =>
      rw [lowerOps, emit_append hterm, Option.bind_eq_some_iff] at he
      obtain ⟨a, ha, he⟩ := he
      rw [Option.map_eq_some_iff] at he
      obtain ⟨b, hb, rfl⟩ := he
      obtain ⟨p1, h1, s1⟩ := valid_op hT o hterm hw.1 ho.1 hpe.1 hn hlab ha p
      obtain ⟨p2, h2, s2⟩ := valid_ops hT os hw.2.2 ho.2 hpe.2 hn hlab hb p1
      rw [validIs_append, h1, Option.bind_some, h2]
      refine ⟨p2, rfl, ?_⟩
      cases os with
      | nil =>
        cases hb
        cases h2
        rintro ⟨o', ho', hm⟩
        simp only [List.getLast?_singleton, Option.some.injEq] at ho'
        subst ho'
        cases o with
        | exit n as => exact s1 trivial
        | cont _ => simp [Op.isTerm] at hterm
        | brk _ => simp [Op.isTerm] at hterm
        | _ => exact hm.elim
      | cons o' os => rw [stops_cons]; exact s2
    | true =>
      have hos := hw.2.1 hterm
      subst hos
      cases o with
      | yield vs =>
        have hc : code = [] := by
          match vs with
          | [] => rw [lowerOps, lowerOp] at he; cases he; rfl
          | [v] => rw [lowerOps, lowerOp] at he; cases he; rfl
          | _ :: _ :: _ => simp [lowerOps, lowerOp, emitOps, emitOp] at he
        subst hc
        refine ⟨p, rfl, ?_⟩
        rintro ⟨o', ho', hm⟩
        simp only [List.getLast?_singleton, Option.some.injEq] at ho'
        subst ho'
        exact hm.elim
      | cont vs =>
        have hk : k = 1 := ho.1
        subst hk
        obtain ⟨ps, res, hl, htys⟩ := hw.1
        obtain ⟨as, rest, has, hnest⟩ := hn ps res hl
        obtain ⟨front, bt, rest', hf, hlabels, hbt⟩ := hlab ps res hl
        have hlen : vs.length = ps.length := by simpa using congrArg List.length htys
        have h1 : labels[1]? = some none := by
          rw [hlabels, List.getElem?_append_right (by omega), hf]
          rfl
        refine ⟨true, ?_, fun _ => rfl⟩
        match vs with
        | [] =>
          simp [lowerOps, lowerOp, emitOps, emitOp] at he
          subst he
          rw [validIs_one, validI, h1]
          rfl
        | [v] =>
          match ps with
          | [] => simp at hlen
          | _ :: _ :: _ => simp at hlen
          | [q] =>
            simp only [List.map_cons, List.map_nil, argLocals] at has
            cases hp : loc.lookup (.src q) with
            | none => rw [hp] at has; cases has
            | some j =>
              rw [hp] at has
              cases has
              subst hnest
              simp only [lowerOps, lowerOp, List.append_nil, emitOps, emitOp, nextBr, yieldCode] at he
              cases hv : loc.lookup (.src v) with
              | none => rw [hv] at he; cases he
              | some i =>
                rw [hv] at he
                simp at he
                subst he
                simp only [List.map_cons, List.map_nil, List.cons.injEq, and_true] at htys
                have e : tyName ty (.src v) = tyName ty (.src q) := htys
                rw [validIs, validI, hT _ i hv]
                simp only [Option.map_some, Option.bind_some]
                rw [validIs, validI, hT _ j hp]
                simp only [Option.bind_some, pop, e, if_true]
                rw [validIs_one, validI, h1]
                rfl
        | _ :: _ :: _ => simp [lowerOps, lowerOp, emitOps, emitOp] at he
      | brk v =>
        have hk : k = 1 := ho.1
        subst hk
        obtain ⟨ps, res, hl, hvr⟩ := hw.1
        obtain ⟨as, rest, has, hnest⟩ := hn ps res hl
        obtain ⟨front, bt, rest', hf, hlabels, hbt⟩ := hlab ps res hl
        have h1 : labels[2]? = some bt := by
          rw [hlabels, List.getElem?_append_right (by omega), hf]
          rfl
        refine ⟨true, ?_, fun _ => rfl⟩
        subst hnest
        simp only [lowerOps, lowerOp, List.append_nil, emitOps, emitOp, nextBr, yieldCode] at he
        cases hv : loc.lookup (.src v) with
        | none => rw [hv] at he; cases he
        | some i =>
          rw [hv] at he
          simp at he
          subst he
          rw [validIs, validI, hT _ i hv]
          simp only [Option.map_some, Option.bind_some]
          rw [validIs_one, validI, h1]
          rcases hbt with rfl | ⟨r, h2, rfl⟩
          · rfl
          · have e : tyName ty (.src v) = ty r := hvr r (by simp [h2])
            simp [pops, pop, e]
      | _ => simp [Op.isTerm] at hterm
end

theorem compile_valid {f : Func} {code : List Instr} {ret : Option Ty} (hf : WF f)
    (ho : oneIfO 0 f.body) (hp : plainEndsO f.ty f.body) (hr : ret = none ∨ endsPlainly f.body)
    (hc : compile f = some code) : Valid (localTypes f) ret code := by
  obtain ⟨p', h, hs⟩ := valid_ops (types := localTypes f) (loc := localsOf f) (ty := f.ty)
    (fun a i h => localTypes_lookup f h) f.body hf.rules ho hp (l := none) (labels := [ret]) nofun nofun
    hc false
  refine ⟨_, h, ?_⟩
  rcases hr with rfl | ⟨o, hl, hm⟩
  · rfl
  · have : stops f.body := by
      cases o with
      | yield vs =>
        exfalso
        have key : ∀ os : List Op, os.getLast? = some (.yield vs) → rulesO f.ty none none os → False := by
          intro os
          induction os with
          | nil => simp
          | cons o os ih =>
            intro h hw
            rw [rulesO] at hw
            cases os with
            | nil =>
              simp only [List.getLast?_singleton, Option.some.injEq] at h
              subst h
              obtain ⟨_, h, _⟩ := hw.1
              cases h
            | cons o' os =>
              rw [List.getLast?_cons_cons] at h
              exact ih h hw.2.2
        exact key _ hl hf.rules
      | cont vs => exact ⟨_, hl, trivial⟩
      | brk v => exact ⟨_, hl, trivial⟩
      | exit n as => exact ⟨_, hl, trivial⟩
      | _ => exact hm.elim
    rw [hs this]
    cases ret <;> rfl

end Valid

end Verif.WasmCf
