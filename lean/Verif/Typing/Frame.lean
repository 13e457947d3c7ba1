import Verif.Typing.Inst

/-!
# What the steps of the checker leave unchanged: operations on the state, patterns
-/

namespace Verif.Typing
open Verif.Types Verif.Solver Verif.Scheme

/-! ## States -/

structure Good (k : K) : Prop where
  cons : ∀ c ∈ k.c.cons, OkCon c
  schemes : ∀ s ∈ k.c.schemes, OkS s
  cur : OkRow k.cur
  refs : ∀ p ∈ k.refs, Ok 0 p.2
  lams : ∀ p ∈ k.lams, Ok 0 p.2
  defer : ∀ d ∈ k.defer, Ok 0 d.recv ∧ Ok 0 d.result ∧ ∀ t ∈ d.args, Ok 0 t

/-- The new state is in the fragment, and nothing was forgotten; `ns` are the references that may
have been visited. -/
structure Go (ns : List Nat) (k k' : K) : Prop where
  good : Good k'
  cons : ∀ c ∈ k.c.cons, c ∈ k'.c.cons
  defer : ∀ d ∈ k.defer, d ∈ k'.defer
  lost : k'.lost = false → k.lost = false
  refs : ∀ m, m ∉ ns → k'.refs.lookup m = k.refs.lookup m

/-- The scopes are the same, too. -/
structure Fr (ns : List Nat) (k k' : K) : Prop extends Go ns k k' where
  names : k'.names = k.names
  schemes : k'.c.schemes = k.c.schemes

theorem Go.refl {k : K} (h : Good k) : Go [] k k := ⟨h, fun _ h => h, fun _ h => h, fun h => h, fun _ _ => rfl⟩

theorem Go.trans {ns ms : List Nat} {a b c : K} (h1 : Go ns a b) (h2 : Go ms b c) : Go (ns ++ ms) a c :=
  ⟨h2.good, fun x hx => h2.cons x (h1.cons x hx), fun x hx => h2.defer x (h1.defer x hx),
    fun h => h1.lost (h2.lost h), fun m hm => by
      simp only [List.mem_append, not_or] at hm
      rw [h2.refs m hm.2, h1.refs m hm.1]⟩

theorem Go.sub {ns ms : List Nat} {a b : K} (h : Go ns a b) (hs : ∀ x ∈ ns, x ∈ ms) : Go ms a b :=
  ⟨h.good, h.cons, h.defer, h.lost, fun m hm => h.refs m (fun hx => hm (hs m hx))⟩

theorem Go.then {ns : List Nat} {a b c : K} (h1 : Go ns a b) (h2 : Go [] b c) : Go ns a c :=
  (h1.trans h2).sub (by simp)

theorem Fr.refl {k : K} (h : Good k) : Fr [] k k := ⟨Go.refl h, rfl, rfl⟩

theorem Fr.trans {ns ms : List Nat} {a b c : K} (h1 : Fr ns a b) (h2 : Fr ms b c) : Fr (ns ++ ms) a c :=
  ⟨h1.toGo.trans h2.toGo, by rw [h2.names, h1.names], by rw [h2.schemes, h1.schemes]⟩

theorem Fr.sub {ns ms : List Nat} {a b : K} (h : Fr ns a b) (hs : ∀ x ∈ ns, x ∈ ms) : Fr ms a b :=
  ⟨h.toGo.sub hs, h.names, h.schemes⟩

theorem Fr.then {ns : List Nat} {a b c : K} (h1 : Fr ns a b) (h2 : Fr [] b c) : Fr ns a c :=
  (h1.trans h2).sub (by simp)

/-- Only counters differ. -/
structure Same (k k' : K) : Prop where
  cons : k'.c.cons = k.c.cons
  schemes : k'.c.schemes = k.c.schemes
  names : k'.names = k.names
  cur : k'.cur = k.cur
  refs : k'.refs = k.refs
  lams : k'.lams = k.lams
  defer : k'.defer = k.defer
  lost : k'.lost = k.lost

theorem Same.refl (k : K) : Same k k := ⟨rfl, rfl, rfl, rfl, rfl, rfl, rfl, rfl⟩

theorem Same.trans {a b c : K} (h1 : Same a b) (h2 : Same b c) : Same a c :=
  ⟨h2.1.trans h1.1, h2.2.trans h1.2, h2.3.trans h1.3, h2.4.trans h1.4, h2.5.trans h1.5, h2.6.trans h1.6,
    h2.7.trans h1.7, h2.8.trans h1.8⟩

theorem Same.good {k k' : K} (h : Same k k') (g : Good k) : Good k' :=
  ⟨by rw [h.cons]; exact g.cons, by rw [h.schemes]; exact g.schemes, by rw [h.cur]; exact g.cur,
    by rw [h.refs]; exact g.refs, by rw [h.lams]; exact g.lams, by rw [h.defer]; exact g.defer⟩

theorem Same.fr {k k' : K} (h : Same k k') (g : Good k) : Fr [] k k' :=
  ⟨⟨h.good g, by rw [h.cons]; exact fun _ h => h, by rw [h.defer]; exact fun _ h => h,
    by rw [h.lost]; exact fun h => h, by rw [h.refs]; exact fun _ _ => rfl⟩, h.names, h.schemes⟩

theorem same_fresh (k : K) : Same k k.fresh.2 := ⟨rfl, rfl, rfl, rfl, rfl, rfl, rfl, rfl⟩
theorem same_freshRow (k : K) : Same k k.freshRow.2 := ⟨rfl, rfl, rfl, rfl, rfl, rfl, rfl, rfl⟩
theorem same_freshTys (m : Nat) (k : K) : Same k (k.freshTys m).2 :=
  ⟨ctx_freshTys.2.1, ctx_freshTys.2.2, rfl, rfl, rfl, rfl, rfl, rfl⟩
theorem same_contVars (m : Nat) (k : K) : Same k (k.contVars m) := by
  rw [K.contVars]
  split
  · exact ⟨rfl, rfl, rfl, rfl, rfl, rfl, rfl, rfl⟩
  · exact Same.refl k

theorem fresh_ok (k : K) : Ok 0 k.fresh.1 := by simp [K.fresh, Ok]
theorem freshTys_ok (m : Nat) (k : K) : ∀ t ∈ (k.freshTys m).1, Ok 0 t := map_uni_ok _
theorem freshTys_length (m : Nat) (k : K) : (k.freshTys m).1.length = m := by
  simp [K.freshTys, ctx_freshTys.1]
theorem freshRow_ok (k : K) : OkRow k.freshRow.1 := ⟨by simp [K.freshRow], by simp [K.freshRow]⟩

theorem add_fr {k : K} (g : Good k) {cs : List Con} (h : ∀ c ∈ cs, OkCon c) : Fr [] k (k.add cs) := by
  refine ⟨⟨⟨?_, g.schemes, g.cur, g.refs, g.lams, g.defer⟩, ?_, fun _ h => h, fun h => h, fun _ _ => rfl⟩, rfl, rfl⟩
  · intro c hc
    rcases List.mem_append.1 hc with hc | hc
    · exact g.cons c hc
    · exact h c hc
  · intro c hc
    exact List.mem_append.2 (.inl hc)

theorem mem_add {k : K} {cs : List Con} {c : Con} (h : c ∈ cs) : c ∈ (k.add cs).c.cons :=
  List.mem_append.2 (.inr h)

theorem lose_fr {k : K} (g : Good k) (b : Bool) : Fr [] k (k.lose b) :=
  ⟨⟨⟨g.cons, g.schemes, g.cur, g.refs, g.lams, g.defer⟩, fun _ h => h, fun _ h => h,
    fun h => by simp [K.lose] at h; exact h.1, fun _ _ => rfl⟩, rfl, rfl⟩

theorem lose_lost {k : K} {b : Bool} (h : (k.lose b).lost = false) : b = false := by
  simp [K.lose] at h; exact h.2

theorem bindScheme_go {k : K} (g : Good k) (x : Nat) {s : PolyTy} (h : OkS s) : Go [] k (k.bindScheme x s) :=
  ⟨⟨g.cons, fun q hq => by
      rcases List.mem_cons.1 hq with rfl | hq
      · exact h
      · exact g.schemes q hq, g.cur, g.refs, g.lams, g.defer⟩,
    fun _ h => h, fun _ h => h, fun h => h, fun _ _ => rfl⟩

theorem bind_go {k : K} (g : Good k) (x : Nat) {t : Ty} (h : Ok 0 t) : Go [] k (k.bind x t) :=
  bindScheme_go g x h

theorem bindAll_go {k : K} (g : Good k) (xs : List Nat) (ts : List Ty) (h : ∀ t ∈ ts, Ok 0 t) :
    Go [] k (K.bindAll xs ts k) := by
  induction xs generalizing ts k with
  | nil => simp only [K.bindAll]; exact Go.refl g
  | cons x xs ih =>
    cases ts with
    | nil => simp only [K.bindAll]; exact Go.refl g
    | cons t ts =>
      simp only [K.bindAll]
      have h1 := bind_go g x (h t (.head _))
      exact h1.then (ih h1.good ts (fun t ht => h t (.tail _ ht)))

theorem cur_fr {k : K} (g : Good k) {r : Row} (h : OkRow r) : Fr [] k { k with cur := r } :=
  ⟨⟨⟨g.cons, g.schemes, h, g.refs, g.lams, g.defer⟩, fun _ h => h, fun _ h => h, fun h => h, fun _ _ => rfl⟩,
    rfl, rfl⟩

theorem merge_fr {k : K} (g : Good k) {r : Row} (h : OkRow r) : Fr [] k (k.merge r) :=
  ⟨⟨⟨g.cons, g.schemes, merge_ok g.cur h, g.refs, g.lams, g.defer⟩, fun _ h => h, fun _ h => h, fun h => h,
    fun _ _ => rfl⟩, rfl, rfl⟩

theorem merge_cons (k : K) (r : Row) : (k.merge r).c.cons = k.c.cons := rfl
theorem merge_defer (k : K) (r : Row) : (k.merge r).defer = k.defer := rfl

/-- Back to the scopes of `old`. -/
theorem pop_fr {ns : List Nat} {old k : K} (g : Good old) (h : Go ns old k) : Fr ns old (K.pop old k) :=
  ⟨⟨⟨h.good.cons, g.schemes, h.good.cur, h.good.refs, h.good.lams, h.good.defer⟩, h.cons, h.defer, h.lost, h.refs⟩,
    rfl, rfl⟩

theorem pop_go {ns : List Nat} {old k0 k : K} (g : Good old) (h : Go ns k0 k) : Go ns k0 (K.pop old k) :=
  ⟨⟨h.good.cons, g.schemes, h.good.cur, h.good.refs, h.good.lams, h.good.defer⟩, h.cons, h.defer, h.lost, h.refs⟩

theorem defer_fr {k : K} (g : Good k) {d : Deferred}
    (h : Ok 0 d.recv ∧ Ok 0 d.result ∧ ∀ t ∈ d.args, Ok 0 t) : Fr [] k { k with defer := k.defer ++ [d] } := by
  refine ⟨⟨⟨g.cons, g.schemes, g.cur, g.refs, g.lams, ?_⟩, fun _ h => h, ?_, fun h => h, fun _ _ => rfl⟩, rfl, rfl⟩
  · intro x hx
    rcases List.mem_append.1 hx with hx | hx
    · exact g.defer x hx
    · simp at hx; subst hx; exact h
  · intro x hx
    exact List.mem_append.2 (.inl hx)

theorem inst_same {s : PolyTy} {k k' : K} {t : Ty} (hs : OkS s) (h : k.inst s = some (t, k')) :
    Same k k' ∧ Ok 0 t ∧ ∀ δ, InstOf δ s (ev δ [] t) := by
  rw [K.inst] at h
  cases hi : k.c.instantiate s with
  | none => simp [hi] at h
  | some p =>
    obtain ⟨i, c⟩ := p
    simp [hi] at h
    obtain ⟨rfl, rfl⟩ := h
    obtain ⟨h1, h2, h3, h4⟩ := ctx_inst hs hi
    exact ⟨⟨h3, h4, rfl, rfl, rfl, rfl, rfl, rfl⟩, h1, h2⟩

theorem instAt_same {ss : List PolyTy} {i : Nat} {k k' : K} {t : Ty} (hs : ∀ s ∈ ss, OkS s)
    (h : k.instAt ss i = some (t, k')) :
    Same k k' ∧ Ok 0 t ∧ ∃ s, ss[i]? = some s ∧ ∀ δ, InstOf δ s (ev δ [] t) := by
  rw [K.instAt] at h
  cases hi : ss[i]? with
  | none => simp [hi] at h
  | some s =>
    simp only [hi] at h
    obtain ⟨h1, h2, h3⟩ := inst_same (hs s (List.mem_of_getElem? hi)) h
    exact ⟨h1, h2, s, rfl, h3⟩

theorem lookup_ok {k : K} (g : Good k) {x : Nat} {s : PolyTy} (h : k.lookup x = some s) : OkS s := by
  rw [K.lookup] at h
  exact g.schemes s (List.of_mem_zip (lookup_mem h)).2

theorem ref_fr {node x : Nat} {k k' : K} {t : Ty} (g : Good k) (h : k.ref node x = some (t, k')) :
    Fr [node] k k' ∧ Ok 0 t := by
  rw [K.ref] at h
  cases hl : k.lookup x with
  | none => simp [hl] at h
  | some s =>
    simp only [hl] at h
    split at h
    · obtain ⟨h1, h2, _⟩ := inst_same (lookup_ok g hl) h
      exact ⟨(h1.fr g).sub (by simp), h2⟩
    · cases hr : k.refs.lookup node with
      | some u =>
        simp [hr] at h
        obtain ⟨rfl, rfl⟩ := h
        exact ⟨(Fr.refl g).sub (by simp), g.refs _ (lookup_mem hr)⟩
      | none =>
        simp only [hr] at h
        cases hi : k.inst s with
        | none => simp [hi] at h
        | some p =>
          obtain ⟨u, k1⟩ := p
          simp [hi] at h
          obtain ⟨rfl, rfl⟩ := h
          obtain ⟨h1, h2, _⟩ := inst_same (lookup_ok g hl) hi
          have h3 := h1.fr g
          refine ⟨⟨⟨⟨h3.good.cons, h3.good.schemes, h3.good.cur, ?_, h3.good.lams, h3.good.defer⟩,
            h3.cons, h3.defer, h3.lost, ?_⟩, h3.names, h3.schemes⟩, h2⟩
          · intro p hp
            rcases List.mem_cons.1 hp with rfl | hp
            · exact h2
            · exact h3.good.refs p hp
          · intro m hm
            have hm : m ≠ node := by simpa using hm
            simp only [List.lookup_cons, beq_eq_false_iff_ne.2 hm]
            rw [h1.refs]

/-! ## Types -/

structure EnvOk (G : Env) : Prop where
  fns : ∀ s ∈ G.fns, OkS s
  ctors : ∀ s ∈ G.ctors, OkS s
  heads : ∀ s ∈ G.ctors, CtorHead s.body

/-- The type of a constructor stays one when it is instantiated. -/
theorem ctorHead_inst {s : PolyTy} (h : CtorHead s.body) {t : Ty} (hi : ∀ δ, InstOf δ s (ev δ [] t))
    (hf : funParts t = none) {δ : UVar → S} {τs : List S} {ρ : S} : ev δ [] t ≠ S.fn τs ρ := by
  intro he
  have key : ∀ v, t ≠ .uni v := by
    rintro v rfl
    obtain ⟨β, _, hb⟩ := hi (fun _ => .node .tuple [])
    revert h hb
    generalize s.body = b
    intro h hb
    unfold CtorHead at h
    split at h
    · simp [ev, head] at hb
    · simp [ev, head] at hb
    · exact h
  cases t with
  | uni v => exact key v rfl
  | node hd ks es r =>
    cases hd with
    | func c =>
      simp only [funParts] at hf
      cases hl : ks.getLast? with
      | some t => simp [hl] at hf
      | none =>
        have : ks = [] := by simpa using hl
        subst this
        simp [ev, evL, S.fn] at he
    | bound i => simp [ev, S.fn] at he; exact absurd he (by simp [default, instInhabitedS])
    | _ => simp [ev, S.fn, head] at he

theorem litTy_ok (G : Env) (l : Lit) : Ok 0 (litTy G l) := by
  cases l <;> simp [litTy, Ok, OkHead, OkL, tNat, tInt, tBool, tNamed]

theorem okRow_nil (r : Option Nat) : OkRow ⟨[], r⟩ := ⟨by simp, by simp⟩

theorem listTy_ok {G : Env} {t : Ty} (h : Ok 0 t) : Ok 0 (listTy G t) := by
  rw [listTy, tNamed, ok_node]
  exact ⟨trivial, by simpa using h, okRow_nil _⟩

theorem tTuple_ok {ts : List Ty} (h : ∀ t ∈ ts, Ok 0 t) : Ok 0 (tTuple ts) := by
  rw [tTuple, ok_node]
  exact ⟨trivial, h, okRow_nil _⟩

theorem tFunc_ok {ps : List Ty} {r : Ty} {row : Row} (h1 : ∀ t ∈ ps, Ok 0 t) (h2 : Ok 0 r) (h3 : OkRow row) :
    Ok 0 (tFunc ps r row) := by
  rw [tFunc, ok_node]
  refine ⟨trivial, ?_, h3⟩
  intro t ht
  rcases List.mem_append.1 ht with ht | ht
  · exact h1 t ht
  · simp at ht; subst ht; exact h2

theorem tBool_ok : Ok 0 tBool := by simp [tBool, Ok, OkHead, OkL]

theorem funParts_ok {t : Ty} {ps : List Ty} {r : Ty} {row : Row} (h : Ok 0 t)
    (hf : funParts t = some (ps, r, row)) : (∀ p ∈ ps, Ok 0 p) ∧ Ok 0 r ∧ OkRow row := by
  cases t with
  | uni v => simp [funParts] at hf
  | node hd ks es o =>
    cases hd <;> simp [funParts] at hf
    rw [ok_node] at h
    cases hl : ks.getLast? with
    | none => simp [hl] at hf
    | some u =>
      simp [hl] at hf
      obtain ⟨rfl, rfl, rfl⟩ := hf
      exact ⟨fun p hp => h.2.1 p (List.dropLast_subset _ hp), h.2.1 _ (List.mem_of_getLast? hl), h.2.2⟩

theorem calleeRow_ok {t : Ty} {r : Row} (h : Ok 0 t) (hr : OkRow r) : OkRow (calleeRow t r) := by
  rw [calleeRow]
  split
  · rename_i hf; exact (funParts_ok h hf).2.2
  · exact hr

theorem zipWith_teq_ok {as bs : List Ty} (ha : ∀ t ∈ as, Ok 0 t) (hb : ∀ t ∈ bs, Ok 0 t) :
    ∀ c ∈ List.zipWith Con.teq as bs, OkCon c := by
  induction as generalizing bs with
  | nil => simp
  | cons a as ih =>
    cases bs with
    | nil => simp
    | cons b bs =>
      intro c hc
      rcases List.mem_cons.1 hc with rfl | hc
      · exact ⟨ha a (.head _), hb b (.head _)⟩
      · exact ih (fun t ht => ha t (.tail _ ht)) (fun t ht => hb t (.tail _ ht)) c hc

/-! ## Calls -/

theorem inferCall_fr {callee : Ty} {args : List Ty} {k : K} (g : Good k) (hc : Ok 0 callee)
    (ha : ∀ t ∈ args, Ok 0 t) :
    Fr [] k (inferCall callee args k).2 ∧ Ok 0 (inferCall callee args k).1 := by
  simp only [inferCall]
  have s1 := same_freshTys args.length k
  have s2 := same_fresh (k.freshTys args.length).2
  have s3 := same_contVars args.length (k.freshTys args.length).2.fresh.2
  have s4 := same_freshRow ((k.freshTys args.length).2.fresh.2.contVars args.length)
  have f1 := (s1.trans (s2.trans (s3.trans s4))).fr g
  have f2 := add_fr f1.good (cs := .teq callee (tFunc (k.freshTys args.length).1
      (k.freshTys args.length).2.fresh.1
      ((k.freshTys args.length).2.fresh.2.contVars args.length).freshRow.1) ::
      List.zipWith .teq (k.freshTys args.length).1 args) (by
    intro c hm
    rcases List.mem_cons.1 hm with rfl | hm
    · exact ⟨hc, tFunc_ok (freshTys_ok _ _) (fresh_ok _) (freshRow_ok _)⟩
    · exact zipWith_teq_ok (freshTys_ok _ _) ha c hm)
  have f3 := merge_fr f2.good (calleeRow_ok hc (freshRow_ok
    ((k.freshTys args.length).2.fresh.2.contVars args.length)))
  exact ⟨(f1.then f2).then f3, fresh_ok _⟩

/-! ## Patterns -/

mutual
/-- The types in the pattern are in the fragment. -/
def OkAP : AP → Prop
  | .none => True
  | .bind _ => True
  | .ctor params res fs => (∀ t ∈ params, Ok 0 t) ∧ Ok 0 res ∧ OkFields fs
  | .tuple ps => OkAPs ps
  | .list ps => OkAPs ps
  | .listRest ps _ => OkAPs ps
  | .as p _ => OkAP p
def OkFields : List (Ty × AP) → Prop
  | [] => True
  | (t, p) :: fs => Ok 0 t ∧ OkAP p ∧ OkFields fs
def OkAPs : List AP → Prop
  | [] => True
  | p :: ps => OkAP p ∧ OkAPs ps
end

mutual
theorem inferPat_fr {G : Env} (hG : EnvOk G) : ∀ (p : Pat) {k k' : K} {t : Ty} {ap : AP}, Good k →
    inferPat G p k = some (t, ap, k') → Fr [] k k' ∧ Ok 0 t ∧ OkAP ap
  | .wild, k, k', t, ap, g, h => by
    simp only [inferPat, Option.some.injEq, Prod.mk.injEq] at h
    obtain ⟨rfl, rfl, rfl⟩ := h
    exact ⟨(same_fresh k).fr g, fresh_ok k, trivial⟩
  | .bind x, k, k', t, ap, g, h => by
    simp only [inferPat, Option.some.injEq, Prod.mk.injEq] at h
    obtain ⟨rfl, rfl, rfl⟩ := h
    exact ⟨(same_fresh k).fr g, fresh_ok k, trivial⟩
  | .lit l, k, k', t, ap, g, h => by
    simp only [inferPat, Option.some.injEq, Prod.mk.injEq] at h
    obtain ⟨rfl, rfl, rfl⟩ := h
    exact ⟨Fr.refl g, litTy_ok G l, trivial⟩
  | .ctor c ps, k, k', t, ap, g, h => by
    simp only [inferPat, Option.bind_eq_bind, Option.bind_eq_some_iff] at h
    obtain ⟨⟨ct, k1⟩, h1, h⟩ := h
    obtain ⟨s1, o1, _⟩ := instAt_same hG.ctors h1
    have f1 := s1.fr g
    dsimp only at h
    cases hf : funParts ct with
    | none =>
      simp only [hf] at h
      split at h
      · simp only [Option.some.injEq, Prod.mk.injEq] at h
        obtain ⟨rfl, rfl, rfl⟩ := h
        exact ⟨f1, o1, by simp [OkAP, OkFields, o1]⟩
      · cases h
    | some q =>
      obtain ⟨params, res, row⟩ := q
      simp only [hf, Option.bind_eq_some_iff] at h
      obtain ⟨⟨fs, k2⟩, h2, h⟩ := h
      simp only [Option.some.injEq, Prod.mk.injEq] at h
      obtain ⟨rfl, rfl, rfl⟩ := h
      obtain ⟨p1, p2, _⟩ := funParts_ok o1 hf
      obtain ⟨f2, o2⟩ := inferFields_fr hG ps f1.good p1 h2
      exact ⟨f1.then f2, p2, p1, p2, o2⟩
  | .tuple ps, k, k', t, ap, g, h => by
    simp only [inferPat, Option.bind_eq_bind, Option.bind_eq_some_iff] at h
    obtain ⟨⟨ts, aps, k1⟩, h1, h⟩ := h
    simp only [Option.some.injEq, Prod.mk.injEq] at h
    obtain ⟨rfl, rfl, rfl⟩ := h
    obtain ⟨f, o1, o2⟩ := inferPats_fr hG ps g h1
    exact ⟨f, tTuple_ok o1, o2⟩
  | .list ps, k, k', t, ap, g, h => by
    simp only [inferPat, Option.bind_eq_bind, Option.bind_eq_some_iff] at h
    obtain ⟨⟨aps, k1⟩, h1, h⟩ := h
    simp only [Option.some.injEq, Prod.mk.injEq] at h
    obtain ⟨rfl, rfl, rfl⟩ := h
    have f0 := (same_fresh k).fr g
    obtain ⟨f, o2⟩ := inferElemPats_fr hG (fresh_ok k) ps f0.good h1
    exact ⟨f0.then f, listTy_ok (fresh_ok k), o2⟩
  | .listRest ps r, k, k', t, ap, g, h => by
    simp only [inferPat, Option.bind_eq_bind, Option.bind_eq_some_iff] at h
    obtain ⟨⟨aps, k1⟩, h1, h⟩ := h
    simp only [Option.some.injEq, Prod.mk.injEq] at h
    obtain ⟨rfl, rfl, rfl⟩ := h
    have f0 := (same_fresh k).fr g
    obtain ⟨f, o2⟩ := inferElemPats_fr hG (fresh_ok k) ps f0.good h1
    exact ⟨f0.then f, listTy_ok (fresh_ok k), o2⟩
  | .as p x, k, k', t, ap, g, h => by
    simp only [inferPat, Option.bind_eq_bind, Option.bind_eq_some_iff] at h
    obtain ⟨⟨u, aq, k1⟩, h1, h⟩ := h
    simp only [Option.some.injEq, Prod.mk.injEq] at h
    obtain ⟨rfl, rfl, rfl⟩ := h
    obtain ⟨f, o, a⟩ := inferPat_fr hG p g h1
    exact ⟨f, o, a⟩
theorem inferFields_fr {G : Env} (hG : EnvOk G) : ∀ (ps : List Pat) {params : List Ty} {k k' : K}
    {fs : List (Ty × AP)}, Good k → (∀ t ∈ params, Ok 0 t) → inferFields G params ps k = some (fs, k') →
    Fr [] k k' ∧ OkFields fs
  | [], params, k, k', fs, g, hp, h => by
    simp only [inferFields] at h
    split at h
    · simp only [Option.some.injEq, Prod.mk.injEq] at h
      obtain ⟨rfl, rfl⟩ := h
      exact ⟨Fr.refl g, trivial⟩
    · cases h
  | p :: ps, params, k, k', fs, g, hp, h => by
    cases params with
    | nil => simp [inferFields] at h
    | cons u us =>
      simp only [inferFields, Option.bind_eq_bind, Option.bind_eq_some_iff] at h
      obtain ⟨⟨t, ap, k1⟩, h1, ⟨fs', k2⟩, h2, h⟩ := h
      simp only [Option.some.injEq, Prod.mk.injEq] at h
      obtain ⟨rfl, rfl⟩ := h
      obtain ⟨f1, o1, a1⟩ := inferPat_fr hG p g h1
      have f2 := add_fr f1.good (cs := [.teq t u]) (by simpa [OkCon] using ⟨o1, hp u (.head _)⟩)
      obtain ⟨f3, o3⟩ := inferFields_fr hG ps f2.good (fun t ht => hp t (.tail _ ht)) h2
      exact ⟨(f1.then f2).then f3, o1, a1, o3⟩
theorem inferPats_fr {G : Env} (hG : EnvOk G) : ∀ (ps : List Pat) {k k' : K} {ts : List Ty} {aps : List AP},
    Good k → inferPats G ps k = some (ts, aps, k') → Fr [] k k' ∧ (∀ t ∈ ts, Ok 0 t) ∧ OkAPs aps
  | [], k, k', ts, aps, g, h => by
    simp only [inferPats, Option.some.injEq, Prod.mk.injEq] at h
    obtain ⟨rfl, rfl, rfl⟩ := h
    exact ⟨Fr.refl g, by simp, trivial⟩
  | p :: ps, k, k', ts, aps, g, h => by
    simp only [inferPats, Option.bind_eq_bind, Option.bind_eq_some_iff] at h
    obtain ⟨⟨t, ap, k1⟩, h1, ⟨ts', aps', k2⟩, h2, h⟩ := h
    simp only [Option.some.injEq, Prod.mk.injEq] at h
    obtain ⟨rfl, rfl, rfl⟩ := h
    obtain ⟨f1, o1, a1⟩ := inferPat_fr hG p g h1
    obtain ⟨f2, o2, a2⟩ := inferPats_fr hG ps f1.good h2
    refine ⟨f1.then f2, ?_, a1, a2⟩
    intro u hu
    rcases List.mem_cons.1 hu with rfl | hu
    · exact o1
    · exact o2 u hu
theorem inferElemPats_fr {G : Env} (hG : EnvOk G) {el : Ty} (he : Ok 0 el) : ∀ (ps : List Pat) {k k' : K}
    {aps : List AP}, Good k → inferElemPats G el ps k = some (aps, k') → Fr [] k k' ∧ OkAPs aps
  | [], k, k', aps, g, h => by
    simp only [inferElemPats, Option.some.injEq, Prod.mk.injEq] at h
    obtain ⟨rfl, rfl⟩ := h
    exact ⟨Fr.refl g, trivial⟩
  | p :: ps, k, k', aps, g, h => by
    simp only [inferElemPats, Option.bind_eq_bind, Option.bind_eq_some_iff] at h
    obtain ⟨⟨t, ap, k1⟩, h1, ⟨aps', k2⟩, h2, h⟩ := h
    simp only [Option.some.injEq, Prod.mk.injEq] at h
    obtain ⟨rfl, rfl⟩ := h
    obtain ⟨f1, o1, a1⟩ := inferPat_fr hG p g h1
    have f2 := add_fr f1.good (cs := [.teq t el]) (by simpa [OkCon] using ⟨o1, he⟩)
    obtain ⟨f3, a3⟩ := inferElemPats_fr hG he ps f2.good h2
    exact ⟨(f1.then f2).then f3, a1, a3⟩
end

theorem tupleParts_ok {t : Ty} {ts : List Ty} (h : Ok 0 t) (hp : tupleParts t = some ts) : ∀ u ∈ ts, Ok 0 u := by
  cases t with
  | uni v => simp [tupleParts] at hp
  | node hd ks es o =>
    cases hd <;> simp [tupleParts] at hp
    subst hp
    rw [ok_node] at h
    exact h.2.1

theorem listElem_some {G : Env} {t el : Ty} (h : listElem G t = some el) :
    ∃ nm es o, t = .node (.named G.list nm) [el] es o := by
  unfold listElem at h
  split at h
  · split at h
    · rename_i hi; simp at h; subst h hi; exact ⟨_, _, _, rfl⟩
    · cases h
  · cases h

theorem listElem_ok {G : Env} {t el : Ty} (h : Ok 0 t) (hp : listElem G t = some el) : Ok 0 el := by
  obtain ⟨nm, es, o, rfl⟩ := listElem_some hp
  rw [ok_node] at h
  exact h.2.1 el (.head _)

theorem bindRest_go {G : Env} {el : Ty} (he : Ok 0 el) (r : Option Nat) {k : K} (g : Good k) :
    Go [] k (bindRest G el r k) := by
  cases r with
  | none => exact Go.refl g
  | some x => exact bind_go g x (listTy_ok he)

mutual
theorem bindPat_go {G : Env} : ∀ (ap : AP) {t : Ty} {k : K}, Good k → OkAP ap → Ok 0 t →
    Go [] k (bindPat G ap t k)
  | .none, t, k, g, _, _ => by simp only [bindPat]; exact Go.refl g
  | .bind x, t, k, g, _, ht => by simp only [bindPat]; exact bind_go g x ht
  | .ctor params res fs, t, k, g, ha, _ => by
    simp only [bindPat]; exact bindFields_go fs g ha.2.2
  | .tuple ps, t, k, g, ha, ht => by
    simp only [bindPat]
    cases hp : tupleParts t with
    | some ts => exact bindPats_go ps g ha (tupleParts_ok ht hp)
    | none =>
      have f := ((same_freshTys ps.length k).fr g)
      have f2 := lose_fr f.good true
      exact (f.then f2).toGo.then (bindPats_go ps f2.good ha (freshTys_ok _ _))
  | .list ps, t, k, g, ha, ht => by
    simp only [bindPat]
    cases hp : listElem G t with
    | some el => exact bindElems_go ps g ha (listElem_ok ht hp)
    | none =>
      have f := ((same_fresh k).fr g)
      have f2 := lose_fr f.good true
      exact (f.then f2).toGo.then (bindElems_go ps f2.good ha (fresh_ok k))
  | .listRest ps r, t, k, g, ha, ht => by
    simp only [bindPat]
    cases hp : listElem G t with
    | some el =>
      have f1 := bindElems_go ps g ha (listElem_ok ht hp) (G := G)
      exact f1.then (bindRest_go (listElem_ok ht hp) r f1.good)
    | none =>
      have f := ((same_fresh k).fr g)
      have f2 := lose_fr f.good true
      have f3 := (f.then f2).toGo.then (bindElems_go ps f2.good ha (fresh_ok k) (G := G))
      exact f3.then (bindRest_go (fresh_ok k) r f3.good)
  | .as p x, t, k, g, ha, ht => by
    simp only [bindPat]
    have f := bind_go g x ht
    exact f.then (bindPat_go p f.good ha ht)
theorem bindFields_go {G : Env} : ∀ (fs : List (Ty × AP)) {k : K}, Good k → OkFields fs →
    Go [] k (bindFields G fs k)
  | [], k, g, _ => by simp only [bindFields]; exact Go.refl g
  | (t, p) :: fs, k, g, h => by
    simp only [bindFields]
    have f := bindPat_go p g h.2.1 h.1 (G := G)
    exact f.then (bindFields_go fs f.good h.2.2)
theorem bindPats_go {G : Env} : ∀ (ps : List AP) {ts : List Ty} {k : K}, Good k → OkAPs ps →
    (∀ t ∈ ts, Ok 0 t) → Go [] k (bindPats G ps ts k)
  | [], ts, k, g, _, _ => by simp only [bindPats]; exact Go.refl g
  | p :: ps, ts, k, g, h, ht => by
    cases ts with
    | nil => simp only [bindPats]; exact Go.refl g
    | cons t ts =>
      simp only [bindPats]
      have f := bindPat_go p g h.1 (ht t (.head _)) (G := G)
      exact f.then (bindPats_go ps f.good h.2 (fun u hu => ht u (.tail _ hu)))
theorem bindElems_go {G : Env} : ∀ (ps : List AP) {el : Ty} {k : K}, Good k → OkAPs ps → Ok 0 el →
    Go [] k (bindElems G el ps k)
  | [], el, k, g, _, _ => by simp only [bindElems]; exact Go.refl g
  | p :: ps, el, k, g, h, ht => by
    simp only [bindElems]
    have f := bindPat_go p g h.1 ht (G := G)
    exact f.then (bindElems_go ps f.good h.2 ht)
end

mutual
theorem convPat_go {G : Env} : ∀ (ap : AP) {t : Ty} {k : K}, Good k → OkAP ap → Ok 0 t →
    Go [] k (convPat G ap t k)
  | .none, t, k, g, _, _ => by simp only [convPat]; exact Go.refl g
  | .bind x, t, k, g, _, ht => by simp only [convPat]; exact Go.refl g
  | .ctor params res fs, t, k, g, ha, ht => by
    simp only [convPat]
    have f := add_fr g (cs := [.teq res t]) (by simpa [OkCon] using ⟨ha.2.1, ht⟩)
    exact f.toGo.then (convFields_go fs f.good ha.1 ha.2.2)
  | .tuple ps, t, k, g, ha, ht => by
    simp only [convPat]
    cases hp : tupleParts t with
    | some ts => exact convPats_go ps g ha (tupleParts_ok ht hp)
    | none =>
      have f := ((same_freshTys ps.length k).fr g)
      exact f.toGo.then (convPats_go ps f.good ha (freshTys_ok _ _))
  | .list ps, t, k, g, ha, ht => by
    simp only [convPat]
    have f := (same_fresh k).fr g
    have f2 := add_fr f.good (cs := [.teq t (listTy G k.fresh.1)])
      (by simpa [OkCon] using ⟨ht, listTy_ok (fresh_ok k)⟩)
    exact (f.then f2).toGo.then (convElems_go ps f2.good ha (fresh_ok k))
  | .listRest ps r, t, k, g, ha, ht => by
    simp only [convPat]
    have f := (same_fresh k).fr g
    have f2 := add_fr f.good (cs := [.teq t (listTy G k.fresh.1)])
      (by simpa [OkCon] using ⟨ht, listTy_ok (fresh_ok k)⟩)
    exact (f.then f2).toGo.then (convElems_go ps f2.good ha (fresh_ok k))
  | .as p x, t, k, g, ha, ht => by
    simp only [convPat]
    exact convPat_go p g ha ht
theorem convFields_go {G : Env} : ∀ (fs : List (Ty × AP)) {params : List Ty} {k : K}, Good k →
    (∀ t ∈ params, Ok 0 t) → OkFields fs → Go [] k (convFields G params fs k)
  | [], params, k, g, _, _ => by simp only [convFields]; exact Go.refl g
  | (t, p) :: fs, params, k, g, hp, h => by
    cases params with
    | nil => simp only [convFields]; exact Go.refl g
    | cons u us =>
      simp only [convFields]
      have f := convPat_go p g h.2.1 (hp u (.head _)) (G := G)
      exact f.then (convFields_go fs f.good (fun t ht => hp t (.tail _ ht)) h.2.2)
theorem convPats_go {G : Env} : ∀ (ps : List AP) {ts : List Ty} {k : K}, Good k → OkAPs ps →
    (∀ t ∈ ts, Ok 0 t) → Go [] k (convPats G ps ts k)
  | [], ts, k, g, _, _ => by simp only [convPats]; exact Go.refl g
  | p :: ps, ts, k, g, h, ht => by
    cases ts with
    | nil => simp only [convPats]; exact Go.refl g
    | cons t ts =>
      simp only [convPats]
      have f := convPat_go p g h.1 (ht t (.head _)) (G := G)
      exact f.then (convPats_go ps f.good h.2 (fun u hu => ht u (.tail _ hu)))
theorem convElems_go {G : Env} : ∀ (ps : List AP) {el : Ty} {k : K}, Good k → OkAPs ps → Ok 0 el →
    Go [] k (convElems G el ps k)
  | [], el, k, g, _, _ => by simp only [convElems]; exact Go.refl g
  | p :: ps, el, k, g, h, ht => by
    simp only [convElems]
    have f := convPat_go p g h.1 ht (G := G)
    exact f.then (convElems_go ps f.good h.2 ht)
end

end Verif.Typing
