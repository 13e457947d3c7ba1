import Verif.WasmCf.Sim

/- The emitted instructions do what the operations do: conditionals, loops, whole bodies. -/
namespace Verif.WasmCf

variable {I : Interp} {ty : Value → Ty} {loc : Locals}

/-- Go on with further instructions. -/
def andThen (x : Option (WRes I)) (f : List I.V → Store I → I.S → Option (WRes I)) :
    Option (WRes I) :=
  match x with
  | some (.fell st, L, s) => f st L s
  | r => r

theorem wexec_app (n : Nat) (a b : List Instr) (st : List I.V) (L : Store I) (s : I.S) :
    wexec n (a ++ b) st L s = andThen (wexec n a st L s) (wexec n b) := by
  rw [wexec_append]
  rfl

theorem wexec_one (n : Nat) (i : Instr) (st : List I.V) (L : Store I) (s : I.S) :
    wexec n [i] st L s = wexecI n i st L s := by
  rw [wexec]
  rcases wexecI n i st L s with _ | ⟨o, L', s'⟩
  · rfl
  · cases o <;> rfl

theorem single_plain {T : Name → Ty} {nest : List Kind} {n as r} :
    emitOps T loc nest [.plain n as r] = emitOp T loc nest (.plain n as r) := emit_single nofun

theorem single_exit {T : Name → Ty} {nest : List Kind} {n as} :
    emitOps T loc nest [.exit n as] = emitOp T loc nest (.exit n as) := emit_single nofun

theorem single_ite {T : Name → Ty} {nest : List Kind} {c r t e} :
    emitOps T loc nest [.ite c r t e] = emitOp T loc nest (.ite c r t e) := emit_single nofun

theorem single_block {T : Name → Ty} {nest : List Kind} {r b} :
    emitOps T loc nest [.block r b] = emitOp T loc nest (.block r b) := emit_single nofun

theorem single_loop {T : Name → Ty} {nest : List Kind} {i r ps b} :
    emitOps T loc nest [.loop i r ps b] = emitOp T loc nest (.loop i r ps b) := emit_single nofun

theorem emit_plain {T : Name → Ty} {nest : List Kind} {nm : Nat} {as : List Name}
    {r : Option Name} {code : List Instr} (h : emitOp T loc nest (.plain nm as r) = some code) :
    ∃ a s, gets loc as = some a ∧ setResult T loc r = some s ∧
      code = a ++ [.op nm (as.map T) (r.bind (blockType T))] ++ s := by
  simp only [emitOp, Option.bind_eq_bind, Option.bind_eq_some_iff, Option.pure_def,
    Option.some.injEq] at h
  obtain ⟨a, ha, s, hs, e⟩ := h
  exact ⟨a, s, ha, hs, e.symm⟩

theorem emit_exit {T : Name → Ty} {nest : List Kind} {nm : Nat} {as : List Name}
    {code : List Instr} (h : emitOp T loc nest (.exit nm as) = some code) :
    ∃ a, gets loc as = some a ∧ code = a ++ [.exit nm (as.map T)] := by
  simp only [emitOp, Option.bind_eq_bind, Option.bind_eq_some_iff, Option.pure_def,
    Option.some.injEq] at h
  obtain ⟨a, ha, e⟩ := h
  exact ⟨a, ha, e.symm⟩

/-- The block type of a conditional. -/
def iteType (T : Name → Ty) (r : Name) (t : List WOp) : Option Ty :=
  if (regionResult t).isSome then blockType T r else none

theorem emit_ite {T : Name → Ty} {nest : List Kind} {c r : Name} {t e : List WOp}
    {code : List Instr} (h : emitOp T loc nest (.ite c r t e) = some code) :
    ∃ a ti tr ei er s, gets loc [c] = some a ∧ emitOps T loc (.ite :: nest) t = some ti ∧
      resultGet loc (iteType T r t) t = some tr ∧ emitOps T loc (.ite :: nest) e = some ei ∧
      resultGet loc (iteType T r t) e = some er ∧
      storeResult T loc (iteType T r t) r = some s ∧
      code = a ++ [.ite (iteType T r t) (ti ++ tr) (ei ++ er)] ++ s := by
  simp only [emitOp, Option.bind_eq_bind, Option.bind_eq_some_iff, Option.pure_def,
    Option.some.injEq] at h
  obtain ⟨a, ha, ti, hti, tr, htr, ei, hei, er, her, s, hs, e⟩ := h
  exact ⟨a, ti, tr, ei, er, s, ha, hti, htr, hei, her, hs, e.symm⟩

theorem emit_block {T : Name → Ty} {nest : List Kind} {r : Name} {b : List WOp}
    {code : List Instr} (h : emitOp T loc nest (.block r b) = some code) :
    ∃ bi br s, emitOps T loc (.block :: nest) b = some bi ∧
      resultGet loc (blockType T r) b = some br ∧
      storeResult T loc (blockType T r) r = some s ∧
      code = [.block (blockType T r) (bi ++ br)] ++ s := by
  simp only [emitOp, Option.bind_eq_bind, Option.bind_eq_some_iff, Option.pure_def,
    Option.some.injEq] at h
  obtain ⟨bi, hbi, br, hbr, s, hs, e⟩ := h
  exact ⟨bi, br, s, hbi, hbr, hs, e.symm⟩

theorem emit_loop {T : Name → Ty} {nest : List Kind} {init ps : List Name} {r : Name} {b : List WOp}
    {code : List Instr} (h : emitOp T loc nest (.loop init r ps b) = some code) :
    ∃ as c bi br s, argLocals loc ps = some as ∧ initCopies loc init as = some c ∧
      emitOps T loc (.loop as :: nest) b = some bi ∧ resultGet loc (blockType T r) b = some br ∧
      storeResult T loc (blockType T r) r = some s ∧
      code = c ++ [.loop (blockType T r) (bi ++ br)] ++ s := by
  simp only [emitOp, Option.bind_eq_bind, Option.bind_eq_some_iff, Option.pure_def,
    Option.some.injEq] at h
  obtain ⟨as, has, c, hc, bi, hbi, br, hbr, s, hs, e⟩ := h
  exact ⟨as, c, bi, br, s, has, hc, hbi, hbr, hs, e.symm⟩

/-! ## Results of regions -/

theorem getLast?_lower : ∀ {os : List Op} {v : Value}, os.getLast? = some (.yield [v]) →
    (lowerOps os).getLast? = some (.yield (.src v))
  | [], _, h => by simp at h
  | [o], v, h => by
    simp only [List.getLast?_singleton, Option.some.injEq] at h
    subst h
    rfl
  | o :: o' :: os, v, h => by
    rw [List.getLast?_cons_cons] at h
    rw [lowerOps, List.getLast?_append, getLast?_lower h]
    rfl

theorem regionResult_yield {os : List Op} {v : Value} (h : lastYield os = some [v]) :
    regionResult (lowerOps os) = some (.src v) := by
  have : os.getLast? = some (.yield [v]) := by
    unfold lastYield at h
    split at h
    · next e => cases h; exact e
    · cases h
  rw [regionResult, getLast?_lower this]

/-- How the results of a structured operation and its block type correspond: either nothing is passed,
or the one result is. -/
def Passes (ty : Value → Ty) (loc : Locals) (res : List Value) (bt : Option Ty) (sc : List Instr) :
    Prop :=
  (bt = none ∧ sc = [] ∧ (∀ r ∈ res, ty r = 0) ∧ res.length ≤ 1) ∨
  ∃ r, res = [r] ∧ ty r ≠ 0 ∧ bt = some (ty r) ∧
    setResult (tyName ty) loc (some (.src r)) = some sc

/-- The operation ends with values, dropped or stored. -/
theorem Passes.gives (hj : Inj loc) {res : List Value} {bt : Option Ty} {sc : List Instr}
    (h : Passes ty loc res bt sc) (n : Nat) {l k us} {vs st : List I.V} {env : Env I} {L : Store I}
    {s : I.S} (hR : Rel I ty loc env L) (hvs : vs.length ≤ 1)
    (hst : bt = none → st = []) (hst' : bt ≠ none → st = vs ∧ vs ≠ []) :
    Sim I ty loc l k us (some (gives ty res vs env s)) (wexec n sc st L s) := by
  rcases h with ⟨h1, h2, h3, h4⟩ | ⟨r, h1, h2, h3, h4⟩
  · rw [hst h1, h2]
    match res with
    | [] => exact .fell hR
    | [r] =>
      have hr := h3 r List.mem_cons_self
      match vs with
      | [] =>
        simp only [WasmCf.gives, if_pos hr]
        exact .fell (hR.giveNil hr _)
      | [v] => exact .fell (hR.giveNil hr _)
      | _ :: _ :: _ => simp at hvs
    | _ :: _ :: _ => simp at h4
  · obtain ⟨e1, e2⟩ := hst' (by rw [h3]; nofun)
    subst h1 e1
    match st with
    | [] => exact absurd rfl e2
    | [v] =>
      obtain ⟨L', hL, hR'⟩ := wexec_setResult hj n hR h2 h4 v [] s
      rw [hL]
      exact .fell hR'
    | _ :: _ :: _ => simp at hvs

theorem Sim.weaken {l k us us'} {x : Option (Res I)} {z : Option (WRes I)}
    (h : Sim I ty loc l k us x z) (hx : ∀ vs env s, x ≠ some (.yield vs, env, s)) :
    Sim I ty loc l k us' x z := by
  cases h with
  | none => exact .none
  | fell h => exact .fell h
  | exit => exact .exit
  | trap => exact .trap
  | yield _ _ => exact absurd rfl (hx _ _ _)
  | cont h1 h2 h3 => exact .cont h1 h2 h3
  | brk h1 h2 => exact .brk h1 h2

/-- A branch of a conditional. -/
theorem sim_branch (hj : Inj loc) (n : Nat) {l k} {t : List Op} {res : List Value} {bt : Option Ty}
    {bi br sc : List Instr} {x : Option (Res I)} {L : Store I} {s : I.S}
    (hsim : Sim I ty loc l (k + 1) (lastYield t) x (wexec n bi [] L s))
    (hnf : ∀ env' s', x ≠ some (.fell, env', s'))
    (hfit : ∀ us, lastYield t = some us → fits ty res us)
    (hbr : resultGet loc bt (lowerOps t) = some br) (hp : Passes ty loc res bt sc) :
    Sim I ty loc l k none (afterBranch ty res x)
      (andThen (leave (arity bt) [] (wexec n (bi ++ br) [] L s)) (wexec n sc)) := by
  rw [wexec_app]
  revert hsim
  generalize wexec n bi [] L s = z
  intro hsim
  cases hsim with
  | none => exact .none
  | fell h => exact absurd rfl (hnf _ _)
  | exit => exact .exit
  | trap => exact .trap
  | cont h1 h2 h3 => exact .cont h1 h2 h3
  | brk h1 h2 => exact .brk h1 h2
  | @yield us env s L hus hR =>
    have hf := hfit us hus
    rw [afterBranch]
    rcases hp with hp | hp
    · obtain ⟨h1, h2, h3, h4⟩ := hp
      subst h1
      cases hbr
      have := Passes.gives hj (Or.inl ⟨rfl, h2, h3, h4⟩ : Passes ty loc res none sc) n (l := l)
        (k := k) (us := none) (vs := us.map env) (st := []) (s := s) hR ?_ (fun _ => rfl)
        (fun h => absurd rfl h)
      · exact this
      · rw [List.length_map]
        unfold fits at hf
        split at hf
        · exact hf
        · exact hf.1
    · obtain ⟨r, h1, h2, h3, h4⟩ := hp
      subst h1 h3
      have hf2 := hf.2 h2
      match us with
      | [] => simp at hf2
      | _ :: _ :: _ => simp at hf2
      | [v] =>
        simp only [resultGet, Option.isSome_some, if_true, regionResult_yield hus] at hbr
        have hg := wexec_gets n hR [v] br [] s hbr
        have := Passes.gives hj (Or.inr ⟨r, rfl, h2, rfl, h4⟩ : Passes ty loc [r] (some (ty r)) sc) n
          (l := l) (k := k) (us := none) (vs := [env v]) (st := [env v]) (s := s) hR (by simp)
          (fun h => nomatch h) (fun _ => ⟨rfl, by simp⟩)
        simp only [andThen]
        rw [hg]
        exact this

/-- The rounds of a loop, inside the block made around it. `rest`: what follows the loop in the
block. -/
theorem sim_rounds (hj : Inj loc) (n : Nat) {l k us} {res ps : List Value} {bt : Option Ty}
    {bi br rest sc : List Instr} {body : Env I → I.S → Option (Res I)}
    (hb : ∀ env L s, Rel I ty loc env L →
      Sim I ty loc (some (ps, res)) 0 us (body env s) (wexec n bi [] L s))
    (hq : ∀ env s r, body env s = some r → (r.1 ≠ .fell ∧ ∀ vs, r.1 ≠ .yield vs))
    (hp : Passes ty loc res bt sc) : ∀ (m : Nat) (vs : List I.V) (env : Env I) (L : Store I) (s : I.S),
      vs.length = ps.length → Rel I ty loc (puts env ps vs) L →
      Sim I ty loc l k none (iterate body ty res ps m vs env s)
        (andThen (leave (arity bt) [] (andThen (around (wexec n (bi ++ br) []) (arity bt) [] m L s)
          (wexec n rest))) (wexec n sc))
  | 0, _, _, _, _, _, _ => .none
  | m + 1, vs, env, L, s, hl, hR => by
    rw [iterate, if_pos hl, around, wexec_app]
    have h1 := hb _ _ s hR
    have h2 := hq (puts env ps vs) s
    revert h1 h2
    generalize body (puts env ps vs) s = x
    generalize wexec n bi [] L s = z
    intro h1 h2
    cases h1 with
    | none => exact .none
    | fell h => exact absurd rfl (h2 _ rfl).1
    | exit => exact .exit
    | trap => exact .trap
    | yield h _ => exact absurd rfl ((h2 _ rfl).2 _)
    | cont e hl' hR' =>
      cases e
      exact sim_rounds hj n hb hq hp m _ _ _ _ hl' hR'
    | @brk v env' s' L' _ _ e hR' =>
      have key : andThen (leave (arity bt) [] (some (WOut.br 0 [v], L', s'))) (wexec n sc) =
          wexec n sc ([v].take (arity bt)) L' s' := by
        cases bt <;> rfl
      simp only [andThen]
      have := Passes.gives hj hp n (l := l) (k := k) (us := none) (vs := [v])
        (st := [v].take (arity bt)) (s := s') hR' (by simp) (fun h => by rw [h]; rfl)
        (fun h => by cases bt with
          | none => exact absurd rfl h
          | some t => exact ⟨rfl, by simp⟩)
      rw [← key] at this
      exact this

theorem blockType_zero {T : Name → Ty} {r : Name} (h : T r = 0) : blockType T r = none := if_pos h

theorem blockType_ne {T : Name → Ty} {r : Name} (h : T r ≠ 0) : blockType T r = some (T r) := if_neg h

/-- The results of a block made for a loop. -/
theorem passes_block {res : List Value} {r : Name} {s : List Instr}
    (hr : (res = [] ∧ r = .anon) ∨ ∃ v, res = [v] ∧ r = .src v)
    (hs : storeResult (tyName ty) loc (blockType (tyName ty) r) r = some s) : Passes ty loc res (blockType (tyName ty) r) s := by
  rcases hr with ⟨h1, h2⟩ | ⟨v, h1, h2⟩
  · subst h1 h2
    rw [blockType_zero (show tyName ty .anon = 0 from rfl)] at hs ⊢
    cases hs
    exact Or.inl ⟨rfl, rfl, by simp, by simp⟩
  · subst h1 h2
    by_cases hz : ty v = 0
    · rw [blockType_zero (show tyName ty (.src v) = 0 from hz)] at hs ⊢
      cases hs
      exact Or.inl ⟨rfl, rfl, by simpa using hz, by simp⟩
    · rw [blockType_ne (show tyName ty (.src v) ≠ 0 from hz)] at hs ⊢
      exact Or.inr ⟨v, rfl, hz, rfl, hs⟩

/-- Operations that make a region have a result. -/
def Op.shows : Op → Prop
  | .yield [_] | .ite .. => True
  | _ => False

theorem lower_last_ite {os : List Op} {o : Op} (h : os.getLast? = some o) (ho : o.shows) {T : Name → Ty} {nest : List Kind} {code : List Instr}
    (he : emitOps T loc nest (lowerOps os) = some code) : (regionResult (lowerOps os)).isSome := by
  have key : ∀ (os : List Op), os.getLast? = some o → ∃ pre, lowerOps os = pre ++ lowerOp o := by
    intro os
    induction os with
    | nil => simp
    | cons a os ih =>
      intro h
      cases os with
      | nil =>
        simp only [List.getLast?_singleton, Option.some.injEq] at h
        subst h
        exact ⟨[], by simp [lowerOps]⟩
      | cons b os =>
        rw [List.getLast?_cons_cons] at h
        obtain ⟨pre, e⟩ := ih h
        exact ⟨lowerOp a ++ pre, by rw [lowerOps, e, List.append_assoc]⟩
  obtain ⟨pre, e⟩ := key os h
  have last : ∀ w, lowerOp o = [w] → (lowerOps os).getLast? = some w := by
    intro w hw
    rw [e, hw, List.getLast?_append]
    rfl
  have left : ∀ (ws : List WOp) (nest : List Kind), emitOps T loc nest (ws ++ [.left]) = none := by
    intro ws nest
    induction ws with
    | nil => rfl
    | cons w ws ih =>
      cases w <;> simp [emitOps, ih] <;> split <;> rfl
  match o, ho with
  | .yield [v], _ => rw [regionResult, last _ rfl]; rfl
  | .ite c [] t e', _ => rw [regionResult, last _ (by rw [lowerOp])]; rfl
  | .ite c [r] t e', _ => rw [regionResult, last _ (by rw [lowerOp])]; rfl
  | .ite c (r :: r' :: rs) t e', _ =>
    rw [e, show lowerOp (.ite c (r :: r' :: rs) t e') = [.left] from by simp [lowerOp], left] at he
    cases he

theorem plain_sim (hj : Inj loc) (n : Nat) {nm : Nat} {as : List Value} {r : Option Value} {l k us}
    {nest : List Kind} {code : List Instr}
    (he : emitOps (tyName ty) loc nest (lowerOp (.plain nm as r)) = some code) {env : Env I}
    {L : Store I} (s : I.S) (hR : Rel I ty loc env L) :
    Sim I ty loc l k us (execOp ty n (.plain nm as r) env s) (wexec n code [] L s) := by
  rw [lowerOp, single_plain] at he
  obtain ⟨a, sc, ha, hs, rfl⟩ := emit_plain he
  rw [wexec_app, wexec_app, wexec_gets n hR as a [] s ha, List.append_nil]
  simp only [andThen, wexec_one, wexecI, List.length_map, List.length_reverse, Nat.le_refl, if_true]
  rw [List.take_of_length_le (by simp), List.reverse_reverse, List.drop_of_length_le (by simp), execOp]
  rcases I.plain nm (as.map env) s with _ | ⟨v, s'⟩
  · exact .trap
  · cases r with
    | none =>
      cases hs
      exact .fell hR
    | some r =>
      by_cases hz : ty r = 0
      · simp only [Option.map_some, Option.bind_some]
        rw [blockType_zero (show tyName ty (.src r) = 0 from hz)]
        rw [Option.map_some, setResult, if_pos (show tyName ty (.src r) = 0 from hz)] at hs
        cases hs
        exact .fell (hR.giveNil hz _)
      · simp only [Option.map_some, Option.bind_some]
        rw [blockType_ne (show tyName ty (.src r) ≠ 0 from hz)]
        obtain ⟨L', hL, hR'⟩ := wexec_setResult hj n hR hz hs v [] s'
        simp only
        rw [hL]
        exact .fell hR'

theorem lastYield_fits {t : List Op} {res : List Value} {l} (h : rulesO ty (some res) l t)
    {us : List Value} (hu : lastYield t = some us) : fits ty res us := by
  induction t with
  | nil => simp [lastYield] at hu
  | cons o t ih =>
    rw [rulesO] at h
    cases t with
    | nil =>
      cases o with
      | yield vs =>
        simp only [lastYield, List.getLast?_singleton, Option.some.injEq] at hu
        subst hu
        obtain ⟨res', e, hf⟩ := h.1
        cases e
        exact hf
      | _ => simp [lastYield] at hu
    | cons o' t =>
      rw [lastYield_cons] at hu
      exact ih h.2.2 hu

/-- The results of a conditional. -/
theorem passes_ite {res : List Value} {r : Name} {t : List Op} {s : List Instr} {l}
    {nest : List Kind} {code : List Instr} (hr : (res = [] ∧ r = .anon) ∨ ∃ v, res = [v] ∧ r = .src v)
    (hw : rulesO ty (some res) l t)
    (ht : ∀ r ∈ res, ty r ≠ 0 → ∃ o, t.getLast? = some o ∧ match o with
      | .yield _ | .ite .. => True
      | _ => False)
    (he : emitOps (tyName ty) loc nest (lowerOps t) = some code)
    (hs : storeResult (tyName ty) loc (iteType (tyName ty) r (lowerOps t)) r = some s) :
    Passes ty loc res (iteType (tyName ty) r (lowerOps t)) s := by
  have : iteType (tyName ty) r (lowerOps t) = blockType (tyName ty) r := by
    rcases hr with ⟨h1, h2⟩ | ⟨v, h1, h2⟩
    · subst h2
      rw [blockType_zero (show tyName ty .anon = 0 from rfl), iteType,
        blockType_zero (show tyName ty .anon = 0 from rfl), ite_self]
    · subst h1 h2
      by_cases hz : ty v = 0
      · rw [blockType_zero (show tyName ty (.src v) = 0 from hz), iteType,
          blockType_zero (show tyName ty (.src v) = 0 from hz), ite_self]
      · obtain ⟨o, ho, hm⟩ := ht v List.mem_cons_self hz
        have hsh : o.shows := by
          cases o with
          | yield vs =>
            have hf := lastYield_fits hw (us := vs) (by simp [lastYield, ho])
            have h2 := hf.2 hz
            match vs with
            | [] => simp at h2
            | [_] => trivial
            | _ :: _ :: _ => simp at h2
          | ite c r t e => trivial
          | _ => exact hm.elim
        rw [iteType, if_pos (lower_last_ite ho hsh he)]
  rw [this] at hs ⊢
  exact passes_block hr hs

theorem passes_res {res : List Value} (h : res.length ≤ 1) :
    res = [] ∨ ∃ v, res = [v] := by
  match res with
  | [] => exact Or.inl rfl
  | [v] => exact Or.inr ⟨v, rfl⟩
  | _ :: _ :: _ => simp at h

mutual
theorem sim_op (hj : Inj loc) (n : Nat) : ∀ (o : Op) {y l} {k : Nat} {nest : List Kind}
    {code : List Instr}, o.isTerm = false → o.rules ty y l → o.oneIf k → o.thenYields ty →
    NestOk loc l k nest → emitOps (tyName ty) loc nest (lowerOp o) = some code →
    ∀ (env : Env I) (L : Store I) (s : I.S), Rel I ty loc env L →
      Sim I ty loc l k none (execOp ty n o env s) (wexec n code [] L s)
  | .plain nm as r, y, l, k, nest, code, _, _, _, _, _, he, env, L, s, hR => plain_sim hj n he s hR
  | .exit nm as, y, l, k, nest, code, _, _, _, _, _, he, env, L, s, hR => by
    rw [lowerOp, single_exit] at he
    obtain ⟨a, ha, rfl⟩ := emit_exit he
    rw [wexec_app, wexec_gets n hR as a [] s ha, List.append_nil]
    simp only [andThen, wexec_one, wexecI, List.length_map, List.length_reverse, Nat.le_refl, if_true]
    rw [List.take_of_length_le (by simp), List.reverse_reverse, execOp]
    exact .exit
  | .ite c res t e, y, l, k, nest, code, _, hw, ho, hty, hn, he, env, L, s, hR => by
    rw [Op.rules] at hw
    rw [Op.oneIf] at ho
    rw [Op.thenYields] at hty
    obtain ⟨hlen, het, hee, hwt, hwe⟩ := hw
    have he' : ∃ r, ((res = [] ∧ r = .anon) ∨ ∃ v, res = [v] ∧ r = .src v) ∧
        emitOp (tyName ty) loc nest (.ite (.src c) r (lowerOps t) (lowerOps e)) = some code := by
      rcases passes_res hlen with rfl | ⟨v, rfl⟩
      · rw [lowerOp, single_ite] at he
        exact ⟨_, Or.inl ⟨rfl, rfl⟩, he⟩
      · rw [lowerOp, single_ite] at he
        exact ⟨_, Or.inr ⟨v, rfl, rfl⟩, he⟩
    obtain ⟨r, hr, he⟩ := he'
    obtain ⟨a, ti, tr, ei, er, sc, ha, hti, htr, hei, her, hs, rfl⟩ := emit_ite he
    have hp := passes_ite hr hwt hty.1 hti hs
    have st := sim_ops hj n t hwt ho.1 hty.2.1 hn.ite hti env L s hR
    have se := sim_ops hj n e hwe ho.2 hty.2.2 hn.ite hei env L s hR
    have bt := sim_branch hj n st (fun env' s' h => ended_ops n hwt het env s h)
      (fun us hu => lastYield_fits hwt hu) htr hp
    have be := sim_branch hj n se (fun env' s' h => ended_ops n hwe hee env s h)
      (fun us hu => lastYield_fits hwe hu) her hp
    rw [wexec_app, wexec_app, wexec_gets n hR [c] a [] s ha, execOp]
    simp only [andThen, wexec_one, wexecI, List.map_cons, List.map_nil, List.reverse_cons,
      List.reverse_nil, List.nil_append, List.cons_append]
    by_cases hc : I.truth (env c) = true
    · rw [if_pos hc, if_pos hc]
      exact bt
    · rw [if_neg hc, if_neg hc]
      exact be
  | .loop init res ps b, y, l, k, nest, code, _, hw, ho, hty, hn, he, env, L, s, hR => by
    rw [Op.rules] at hw
    rw [Op.oneIf] at ho
    rw [Op.thenYields] at hty
    obtain ⟨hlen, htys, hdis, hq, hwb⟩ := hw
    have he' : ∃ r r', ((res = [] ∧ r = .anon) ∨ ∃ v, res = [v] ∧ r = .src v) ∧
        tyName ty r' = tyName ty r ∧
        emitOp (tyName ty) loc nest (.block r [.loop (init.map .src) r' (ps.map .src) (lowerOps b)]) =
          some code := by
      rcases passes_res hlen with rfl | ⟨v, rfl⟩
      · rw [lowerOp, single_block] at he
        exact ⟨_, _, Or.inl ⟨rfl, rfl⟩, rfl, he⟩
      · rw [lowerOp, single_block] at he
        exact ⟨_, _, Or.inr ⟨v, rfl, rfl⟩, by rfl, he⟩
    obtain ⟨r, r', hr, hrr, he⟩ := he'
    obtain ⟨bi, br, sc, hbi, hbr, hs, rfl⟩ := emit_block he
    rw [single_loop] at hbi
    obtain ⟨as, ci, bi', br', sc', has, hci, hbi', hbr', hs', rfl⟩ := emit_loop hbi
    have hp := passes_block hr hs
    have hbt : blockType (tyName ty) r' = blockType (tyName ty) r := by
      rw [blockType, blockType, hrr]
    have hn' : NestOk loc (some (ps, res)) 0 (.loop as :: .block :: nest) := by
      intro ps' res' e
      cases e
      exact ⟨as, nest, has, rfl⟩
    obtain ⟨L', hL, hR'⟩ := wexec_init hj n init ps as ci env env L s hR (fun _ _ => rfl) hdis htys has
      hci
    have := sim_rounds (br := br') (rest := sc' ++ br) (l := l) (k := k) hj n
      (fun env L s hR => sim_ops hj n b hwb ho hty hn' hbi' env L s hR)
      (fun env s r h => quits_ops n b _ _ env s hwb hq r h) hp n (init.map env) env L' s
      (by rw [List.length_map]; simpa using congrArg List.length htys) hR'
    rw [wexec_app, wexec_one, wexecI, List.append_assoc, List.append_assoc, wexec_app n ci, hL, execOp]
    simp only [andThen, wexec_app n [_], wexec_one, wexecI]
    rw [hbt]
    exact this
  | .yield _, _, _, _, _, _, h, _, _, _, _, _, _, _, _, _ => by simp [Op.isTerm] at h
  | .cont _, _, _, _, _, _, h, _, _, _, _, _, _, _, _, _ => by simp [Op.isTerm] at h
  | .brk _, _, _, _, _, _, h, _, _, _, _, _, _, _, _, _ => by simp [Op.isTerm] at h
theorem sim_ops (hj : Inj loc) (n : Nat) : ∀ (os : List Op) {y l} {k : Nat} {nest : List Kind}
    {code : List Instr}, rulesO ty y l os → oneIfO k os → thenYieldsO ty os →
    NestOk loc l k nest → emitOps (tyName ty) loc nest (lowerOps os) = some code →
    ∀ (env : Env I) (L : Store I) (s : I.S), Rel I ty loc env L →
      Sim I ty loc l k (lastYield os) (execOps ty n os env s) (wexec n code [] L s)
  | [], y, l, k, nest, code, _, _, _, _, he, env, L, s, hR => by
    cases he
    exact .fell hR
  | o :: os, y, l, k, nest, code, hw, ho, hty, hn, he, env, L, s, hR => by
    rw [rulesO] at hw
    rw [oneIfO] at ho
    rw [thenYieldsO] at hty
    cases hterm : o.isTerm with
    | false =>
      rw [lowerOps, emit_append hterm, Option.bind_eq_some_iff] at he
      obtain ⟨a, ha, he⟩ := he
      rw [Option.map_eq_some_iff] at he
      obtain ⟨b, hb, rfl⟩ := he
      have h1 := sim_op hj n o hterm hw.1 ho.1 hty.1 hn ha env L s hR
      rw [wexec_app, execOps]
      revert h1
      generalize execOp ty n o env s = x
      generalize wexec n a [] L s = z
      intro h1
      cases h1 with
      | none => exact .none
      | exit => exact .exit
      | trap => exact .trap
      | yield h _ => cases h
      | cont h1 h2 h3 => exact .cont h1 h2 h3
      | brk h1 h2 => exact .brk h1 h2
      | @fell env' s' L' hR' =>
        have h2 := sim_ops hj n os hw.2.2 ho.2 hty.2 hn hb env' L' s' hR'
        cases os with
        | nil =>
          cases hb
          exact .fell hR'
        | cons o' os => rw [lastYield_cons]; exact h2
    | true =>
      have hos := hw.2.1 hterm
      subst hos
      cases o with
      | yield vs =>
        have hx : execOps ty n [Op.yield vs] env s = some (.yield (vs.map env), env, s) := by
          simp [execOps, execOp]
        rw [hx]
        have hc : code = [] := by
          match vs with
          | [] => rw [lowerOps, lowerOp] at he; cases he; rfl
          | [v] => rw [lowerOps, lowerOp] at he; cases he; rfl
          | _ :: _ :: _ => simp [lowerOps, lowerOp, emitOps, emitOp] at he
        subst hc
        exact .yield (by simp [lastYield]) hR
      | cont vs =>
        have hk : k = 1 := ho.1
        subst hk
        obtain ⟨ps, res, hl, htys⟩ := hw.1
        obtain ⟨as, rest, has, hnest⟩ := hn ps res hl
        have hx : execOps ty n [Op.cont vs] env s = some (.cont (vs.map env), env, s) := by
          simp [execOps, execOp]
        rw [hx]
        have hlen : vs.length = ps.length := by simpa using congrArg List.length htys
        match vs with
        | [] =>
          simp [lowerOps, lowerOp, emitOps, emitOp] at he
          subst he
          match ps with
          | [] => exact .cont hl rfl hR
          | _ :: _ => simp at hlen
        | [v] =>
          match ps with
          | [] => simp at hlen
          | _ :: _ :: _ => simp at hlen
          | [p] =>
            simp only [List.map_cons, List.map_nil, argLocals] at has
            cases hp : loc.lookup (.src p) with
            | none => rw [hp] at has; cases has
            | some j =>
              rw [hp] at has
              cases has
              subst hnest
              simp only [lowerOps, lowerOp, List.append_nil, emitOps, emitOp, nextBr, yieldCode] at he
              cases hv : loc.lookup (.src v) with
              | none => rw [hv] at he; cases he
              | some i =>
                rw [hv] at he
                simp at he
                subst he
                simp only [wexec, wexecI]
                simp only [List.map_cons, List.map_nil, List.cons.injEq, and_true] at htys
                refine .cont hl rfl ?_
                rw [hR.1 v i hv]
                exact hR.set hj hp (env v) (fun e => hR.2 v (htys.trans e))
        | _ :: _ :: _ => simp [lowerOps, lowerOp, emitOps, emitOp] at he
      | brk v =>
        have hk : k = 1 := ho.1
        subst hk
        obtain ⟨ps, res, hl, _⟩ := hw.1
        obtain ⟨as, rest, has, hnest⟩ := hn ps res hl
        have hx : execOps ty n [Op.brk v] env s = some (.brk (env v), env, s) := by
          simp [execOps, execOp]
        rw [hx]
        subst hnest
        simp only [lowerOps, lowerOp, List.append_nil, emitOps, emitOp, nextBr, yieldCode] at he
        cases hv : loc.lookup (.src v) with
        | none => rw [hv] at he; cases he
        | some i =>
          rw [hv] at he
          simp at he
          subst he
          simp only [wexec, wexecI]
          rw [hR.1 v i hv]
          exact .brk hl hR
      | _ => simp [Op.isTerm] at hterm
end

end Verif.WasmCf
