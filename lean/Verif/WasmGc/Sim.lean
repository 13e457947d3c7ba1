import Verif.WasmGc.Lower
import Verif.WasmGc.Sem

/-! The emitted instructions do what the operations on declared types do. -/

namespace Verif.WasmGc

open Spec

variable {D : Decls} {m : List (Fn AOp)} {g : List (Fn GOp)} {c : Coll} {defs : List GcDef}

/-! ## States -/

/-- The heap of the emitted program. -/
def toW (ix : List (Ty × Nat)) (h : Objs) : WObjs := h.map fun o => ((ix.lookup o.1).getD 0, o.2)

/-- Objects are of declared types with an index in the type section. -/
def HOk (ix : List (Ty × Nat)) (n : Nat) (h : Objs) : Prop :=
  ∀ o ∈ h, Declared o.1 ∧ ∃ i, ix.lookup o.1 = some i ∧ i - firstUser < n

/-- Locals hold the values defined so far; those of `nil` values are never written. -/
structure LocOk (tys : List Ty) (env ls : List Val) : Prop where
  len : ls.length = tys.length
  get : ∀ (k : Nat) (v : Val), env[k]? = some v → ls[k]? = some v
  nil : ∀ k : Nat, env.length ≤ k → tys[k]? = some .nil → ls[k]? = some .null

theorem toW_length (ix : List (Ty × Nat)) (h : Objs) : (toW ix h).length = h.length := by simp [toW]

theorem toW_get {ix : List (Ty × Nat)} {h : Objs} {a : Nat} {o : Ty} {fs : List Val} {i : Nat}
    (he : h[a]? = some (o, fs)) (hi : ix.lookup o = some i) : (toW ix h)[a]? = some (i, fs) := by
  simp [toW, he, hi]

theorem HOk.get {ix : List (Ty × Nat)} {n : Nat} {h : Objs} (hh : HOk ix n h) {a : Nat} {o : Ty}
    {fs : List Val} (he : h[a]? = some (o, fs)) :
    Declared o ∧ ∃ i, ix.lookup o = some i ∧ i - firstUser < n ∧ (toW ix h)[a]? = some (i, fs) := by
  obtain ⟨h1, i, h2, h3⟩ := hh (o, fs) (List.mem_of_getElem? he)
  exact ⟨h1, i, h2, h3, toW_get he h2⟩

section

variable {w : WModule} {callF : Nat → List Val → WObjs → Out (WObjs × Option Val)} {nres : Nat}

theorem wbody_cons (i : Instr) (is : List Instr) (l s : List Val) (h : WObjs) :
    wbody w callF nres (i :: is) l s h =
      match wstep w callF nres l s h i with
      | .next l s h' => wbody w callF nres is l s h'
      | .done h' v => .ok (h', v)
      | .trap => .trap
      | .stuck => .stuck := rfl

theorem wbody_next {i : Instr} {l s l' s' : List Val} {h h' : WObjs}
    (e : wstep w callF nres l s h i = .next l' s' h') (is : List Instr) :
    wbody w callF nres (i :: is) l s h = wbody w callF nres is l' s' h' := by
  rw [wbody_cons, e]

theorem wbody_trap {i : Instr} {l s : List Val} {h : WObjs}
    (e : wstep w callF nres l s h i = .trap) (is : List Instr) :
    wbody w callF nres (i :: is) l s h = .trap := by
  rw [wbody_cons, e]

theorem step_get {l : List Val} {n : Nat} {v : Val} (e : l[n]? = some v) (s : List Val) (h : WObjs) :
    wstep w callF nres l s h (.localGet n) = .next l (v :: s) h := by simp [wstep, e]

theorem vals_cons {env : List Val} {a : Nat} {args : List Nat} {vs : List Val}
    (h : vals env (a :: args) = some vs) : ∃ v ws, env[a]? = some v ∧ vals env args = some ws ∧ vs = v :: ws := by
  simp only [vals, List.mapM_cons] at h
  cases ha : env[a]? with
  | none => simp [ha] at h
  | some v =>
    cases hr : args.mapM fun v => env[v]? with
    | none => simp [ha, hr] at h
    | some ws =>
      simp [ha, hr] at h
      exact ⟨v, ws, rfl, hr, h.symm⟩

theorem vals_length {env : List Val} : ∀ {args : List Nat} {vs : List Val}, vals env args = some vs →
    vs.length = args.length
  | [], vs, h => by simp [vals] at h; subst h; rfl
  | a :: args, vs, h => by
    obtain ⟨v, ws, _, h2, rfl⟩ := vals_cons h
    simp [vals_length h2]

theorem gets_run {env ls : List Val} (hget : ∀ (k : Nat) (v : Val), env[k]? = some v → ls[k]? = some v) (h : WObjs)
    (rest : List Instr) : ∀ (args : List Nat) (vs s : List Val), vals env args = some vs →
      wbody w callF nres (args.map Instr.localGet ++ rest) ls s h =
        wbody w callF nres rest ls (vs.reverse ++ s) h
  | [], vs, s, e => by simp [vals] at e; subst e; rfl
  | a :: args, vs, s, e => by
    obtain ⟨v, ws, h1, h2, rfl⟩ := vals_cons e
    rw [List.map_cons, List.cons_append, wbody_next (step_get (hget a v h1) s h),
      gets_run hget h rest args ws (v :: s) h2]
    simp

/-- Setting the result. -/
theorem setResult_run {tys : List Ty} {env ls : List Val} {rty : Ty} {v : Val}
    (hl : LocOk tys env ls) (hty : tys[env.length]? = some rty) (hnil : rty = .nil → v = .null)
    (s : List Val) (h : WObjs) :
    ∃ ls' s', (∀ rest, wbody w callF nres (setResult rty env.length ++ rest) ls (v :: s) h =
      wbody w callF nres rest ls' s' h) ∧ LocOk tys (env ++ [v]) ls' := by
  have hlt : env.length < ls.length := by
    rw [hl.len]; exact (List.getElem?_eq_some_iff.1 hty).1
  unfold setResult
  by_cases e : rty = .nil
  · refine ⟨ls, v :: s, fun rest => by simp [e], hl.len, ?_, ?_⟩
    · intro k x hk
      by_cases hk' : k < env.length
      · rw [List.getElem?_append_left hk'] at hk; exact hl.get k x hk
      · have : k = env.length := by
          have := (List.getElem?_eq_some_iff.1 hk).1
          simp at this; omega
        subst this
        simp at hk
        subst hk
        rw [hnil e]
        exact hl.nil _ (Nat.le_refl _) (by rw [hty, e])
    · intro k hk hn
      exact hl.nil k (by simp at hk; omega) hn
  · refine ⟨ls.set env.length v, s, fun rest => by simp [e, wbody_cons, wstep], by simp [hl.len], ?_, ?_⟩
    · intro k x hk
      by_cases hk' : k < env.length
      · rw [List.getElem?_append_left hk'] at hk
        rw [List.getElem?_set_ne (by omega)]
        exact hl.get k x hk
      · have : k = env.length := by
          have := (List.getElem?_eq_some_iff.1 hk).1
          simp at this; omega
        subst this
        simp at hk
        subst hk
        rw [List.getElem?_set_self hlt]
    · intro k hk hn
      simp at hk
      rw [List.getElem?_set_ne (by omega)]
      exact hl.nil k (by omega) hn

/-- What follows the read of a field leaves a value of the type read unchanged. -/
theorem Final.after (h : Final D g c defs) {rty F : Ty} {vF : VT} {idx field : Nat}
    (hs : Sub (norm rty) F) (hF : valtype c.map F = some vF) (hfv : fieldVT defs idx field = some vF)
    {hp : Objs} (hh : HOk (indices g) c.count hp) {v : Val} (ht : hasTy D hp rty v = true)
    (l s : List Val) (rest : List Instr) :
    wbody w callF nres (afterGet { defs := defs, map := c.map } rty idx field ++ rest) l (v :: s)
        (toW (indices g) hp) =
      wbody w callF nres rest l (v :: s) (toW (indices g) hp) := by
  have h1 : ¬ (rty = .anyref ∧ fieldVT defs idx field = some .i64) := by
    rintro ⟨rfl, e⟩
    rw [hfv] at e
    have : F = .anyref := by rcases hs with e' | ⟨e', _⟩ <;> simp [← e', norm]
    subst this
    rw [h.valtype_anyref] at hF
    simp_all
  unfold afterGet
  rw [if_neg h1]
  split
  · split
    · rename_i n i hv
      -- a cast to a concrete type
      cases v with
      | int z =>
        exfalso
        cases rty <;> simp [hasTy, valtype] at ht hv
      | null =>
        rw [List.cons_append, List.nil_append]
        exact wbody_next (by simp [wstep]) _
      | ref a =>
        cases ha : hp[a]? with
        | none => simp [hasTy, ha] at ht
        | some o =>
          obtain ⟨o, fs⟩ := o
          obtain ⟨hd, j, hj, _, hW⟩ := hh.get ha
          have hij : j = i := by
            rcases valtype_cases hv with ⟨i', hi', e, hne⟩ | hv
            · simp only [VT.ref.injEq, Heap.concrete.injEq] at e
              obtain ⟨_, rfl⟩ := e
              rcases h.inv.map rty _ hi' with hs | hs | ⟨t, d1, d2, d3, d4⟩
              · exfalso
                simp only [seeds, List.mem_cons, Prod.mk.injEq, List.not_mem_nil, or_false] at hs
                rcases hs with ⟨rfl, _⟩ | ⟨rfl, _⟩ | ⟨rfl, _⟩ | ⟨rfl, _⟩ | ⟨rfl, _⟩ | ⟨rfl, _⟩ <;>
                  simp [hasTy, ha] at ht <;> subst ht <;> simp [Declared, reserved] at hd
              · exact absurd hs hne
              · have : o = t := by
                  rcases d2 with rfl | ⟨nm, ly, rfl, rfl, e⟩
                  · cases rty <;> simp [Declared] at d1 <;> simpa [hasTy, ha] using ht
                  · simp [hasTy, ha] at ht; rw [ht, e]
                subst this
                rw [hj] at d3
                simpa using d3
            · exfalso
              cases rty <;> simp only [valtype, List.lookup, Option.some.injEq, VT.ref.injEq, reduceCtorEq,
                and_false, Heap.concrete.injEq] at hv
              case bytes => simp [hasTy, ha] at ht
              case bytesArray => simp [hasTy, ha] at ht
              case struct nm ly =>
                split at hv
                · rename_i e
                  simp [hasTy, ha] at ht
                  subst ht e
                  simp [Declared, reserved] at hd
                · simp at hv
          subst hij
          rw [List.cons_append, List.nil_append]
          exact wbody_next (by simp [wstep, hW, ofHeap, heapLe]) _
    · rfl
  · rfl

theorem heap_struct (h : Final D g c defs) (hw : w.defs = defs) {o : Ty} {i : Nat} (hd : Declared o)
    (hi : (indices g).lookup o = some i) (hn : i - firstUser < c.count) :
    ofHeap w.defs i .any = true ∧ ofHeap w.defs i .struct = true := by
  obtain ⟨fs, hf, _⟩ := h.user (indices_declared hd hi) hn
  have hlt := (List.getElem?_eq_some_iff.1 hf).1
  rw [hw]
  exact ⟨by simpa [ofHeap, heapLe] using hlt, by simp [ofHeap, heapLe, hf]⟩

theorem idx_eq_iff {o t : Ty} {i k : Nat} (ho : Declared o) (ht : Declared t)
    (hi : (indices g).lookup o = some i) (hk : (indices g).lookup t = some k) : i = k ↔ o = t := by
  constructor
  · rintro rfl; exact indices_inj ho ht hi hk
  · rintro rfl; rw [hi] at hk; simpa using hk

/-- Casting to a declared type. -/
theorem cast_run {hp : Objs} (hh : HOk (indices g) c.count hp) {t : Ty} {k : Nat} (ht : Declared t)
    (hk : (indices g).lookup t = some k) {v : Val} (l s : List Val) :
    (∀ v', castTo hp t (some v) = .ok v' → v' = v ∧
      wstep w callF nres l (v :: s) (toW (indices g) hp) (.refCast true (.concrete k)) =
        .next l (v :: s) (toW (indices g) hp)) ∧
    (castTo hp t (some v) = .trap →
      wstep w callF nres l (v :: s) (toW (indices g) hp) (.refCast true (.concrete k)) = .trap) := by
  cases v with
  | int z => simp [castTo]
  | null => simp [castTo, wstep]
  | ref a =>
    cases ha : hp[a]? with
    | none => simp [castTo, ha]
    | some o =>
      obtain ⟨o, fs⟩ := o
      obtain ⟨hd, j, hj, _, hW⟩ := hh.get ha
      have := idx_eq_iff hd ht hj hk
      by_cases e : o = t
      · have e' := this.2 e
        simp [castTo, ha, wstep, hW, ofHeap, heapLe, e, e']
      · have e' : j ≠ k := fun x => e (this.1 x)
        simp [castTo, ha, wstep, hW, ofHeap, heapLe, e, e']

/-- Reading a field. -/
theorem read_run {hp : Objs} (hh : HOk (indices g) c.count hp) {rty t : Ty} {k f : Nat}
    (hk : (indices g).lookup t = some k) {v : Val} (l s : List Val) :
    (∀ x, readField D hp rty t (some v) f = .ok x → hasTy D hp rty x = true ∧
      wstep w callF nres l (v :: s) (toW (indices g) hp) (.structGet k f) =
        .next l (x :: s) (toW (indices g) hp)) ∧
    (readField D hp rty t (some v) f = .trap →
      wstep w callF nres l (v :: s) (toW (indices g) hp) (.structGet k f) = .trap) := by
  cases v with
  | int z => simp [readField]
  | null => simp [readField, wstep]
  | ref a =>
    cases ha : hp[a]? with
    | none => simp [readField, ha]
    | some o =>
      obtain ⟨o, fs⟩ := o
      obtain ⟨hd, j, hj, _, hW⟩ := hh.get ha
      by_cases e : o = t
      · subst e
        rw [hj] at hk
        simp only [Option.some.injEq] at hk
        subst hk
        cases hf : fs[f]? with
        | none => simp [readField, ha, hf]
        | some x =>
          by_cases hx : hasTy D hp rty x = true
          · simp [readField, ha, hf, hx, wstep, hW]
          · simp [readField, ha, hf, hx]
      · simp [readField, ha, e]

/-! ## One operation -/

/-- The emitted code `is` does what `out` says, from the given state. -/
structure Sim (ix : List (Ty × Nat)) (n : Nat) (w : WModule)
    (callF : Nat → List Val → WObjs → Out (WObjs × Option Val)) (nres : Nat) (tys : List Ty)
    (is : List Instr) (env ls s : List Val) (h : Objs) (out : Out (Option Val × Objs)) (res : Option Ty) :
    Prop where
  ok : ∀ v h', out = .ok (v, h') → v.isSome = res.isSome ∧ HOk ix n h' ∧ ∃ ls' s',
    (∀ rest, wbody w callF nres (is ++ rest) ls s (toW ix h) = wbody w callF nres rest ls' s' (toW ix h')) ∧
      LocOk tys (env ++ v.toList) ls'
  trap : out = .trap → ∀ rest, wbody w callF nres (is ++ rest) ls s (toW ix h) = .trap

theorem sim_stuck {ix : List (Ty × Nat)} {n : Nat} {tys : List Ty} {is : List Instr} {env ls s : List Val}
    {h : Objs} {res : Option Ty} : Sim ix n w callF nres tys is env ls s h .stuck res :=
  ⟨by simp, by simp⟩

/-- An operation that computes a value and then stores it. -/
theorem sim_value {ix : List (Ty × Nat)} {n : Nat} {tys : List Ty} {is : List Instr} {env ls s : List Val}
    {h h' : Objs} {rty : Ty} {v : Val} (hl : LocOk tys env ls) (hty : tys[env.length]? = some rty)
    (hnil : rty = .nil → v = .null) (hh' : HOk ix n h')
    (hrun : ∀ rest, wbody w callF nres (is ++ rest) ls s (toW ix h) =
      wbody w callF nres rest ls (v :: s) (toW ix h')) :
    Sim ix n w callF nres tys (is ++ setResult rty env.length) env ls s h (.ok (some v, h')) (some rty) := by
  refine ⟨?_, by simp⟩
  intro v0 h0 e
  simp only [Out.ok.injEq, Prod.mk.injEq] at e
  obtain ⟨rfl, rfl⟩ := e
  obtain ⟨ls', s', h1, h2⟩ := setResult_run (w := w) (callF := callF) (nres := nres) hl hty hnil s (toW ix h')
  exact ⟨rfl, hh', ls', s', fun rest => by rw [List.append_assoc, hrun, h1], h2⟩

theorem sim_trap {ix : List (Ty × Nat)} {n : Nat} {tys : List Ty} {is : List Instr} {env ls s : List Val}
    {h : Objs} {res : Option Ty}
    (hrun : ∀ rest, wbody w callF nres (is ++ rest) ls s (toW ix h) = .trap) :
    Sim ix n w callF nres tys is env ls s h .trap res :=
  ⟨by simp, fun _ => hrun⟩

theorem HOk.push {ix : List (Ty × Nat)} {n : Nat} {h : Objs} (hh : HOk ix n h) {t : Ty} {i : Nat}
    (ht : Declared t) (hi : ix.lookup t = some i) (hn : i - firstUser < n) (vs : List Val) :
    HOk ix n (h ++ [(t, vs)]) := by
  intro o ho
  rcases List.mem_append.1 ho with ho | ho
  · exact hh o ho
  · simp only [List.mem_singleton] at ho
    subst ho
    exact ⟨ht, i, hi, hn⟩

theorem HOk.set {ix : List (Ty × Nat)} {n : Nat} {h : Objs} (hh : HOk ix n h) {a : Nat} {o : Ty}
    {fs : List Val} (he : h[a]? = some (o, fs)) (fs' : List Val) : HOk ix n (h.set a (o, fs')) := by
  intro p hp
  rcases List.mem_or_eq_of_mem_set hp with hp | rfl
  · exact hh p hp
  · exact hh (o, fs) (List.mem_of_getElem? he)

/-- A construction. -/
theorem new_sim (fin : Final D g c defs) (hwd : w.defs = defs) {tys : List Ty} {env ls : List Val} {h : Objs}
    {rty t : Ty} {idx : Nat} {args : List Nat} {tenv : List Ty} (hl : LocOk tys env ls)
    (hh : HOk (indices g) c.count h) (hty : tys[env.length]? = some rty)
    (ht : Declared t) (hrt : RefersTo D rty t) (hi : (indices g).lookup t = some idx)
    (har : args.length = D.arity t)
    (hd : Done tenv c (.structNew rty idx args)) (s : List Val) :
    Sim (indices g) c.count w callF nres tys (args.map Instr.localGet ++ [.structNew idx] ++ setResult rty env.length)
      env ls s h
      (match vals env args with
        | some vs => .ok (some (.ref h.length), h ++ [(t, vs)])
        | none => .stuck) (some rty) := by
  obtain ⟨_, hcnt, hal, _⟩ := hd
  cases hv : vals env args with
  | none => exact sim_stuck
  | some vs =>
    refine sim_value hl hty (fun e => absurd e (refers_shape ht hrt).2.2) (hh.push ht hi hcnt vs) ?_
    intro rest
    obtain ⟨fs, hdf, hfl, _⟩ := fin.user (indices_declared ht hi) hcnt
    have hlen := fin.inv.len t idx ht hi
    have hvl := vals_length hv
    have e : fs.length = vs.reverse.length := by rw [List.length_reverse]; omega
    rw [List.append_assoc, gets_run hl.get _ _ args vs s hv, List.cons_append, List.nil_append]
    refine wbody_next ?_ rest
    simp only [wstep, hwd, hdf, e, List.drop_left, List.take_left, List.reverse_reverse, toW_length]
    rw [if_pos (by simp)]
    simp [toW, hi]

/-- A read. -/
theorem get_sim (fin : Final D g c defs) {tys : List Ty} {env ls : List Val} {h : Objs}
    {rty t : Ty} {idx r f : Nat} (hl : LocOk tys env ls)
    (hh : HOk (indices g) c.count h) (hty : tys[env.length]? = some rty)
    (ht : Declared t) (hi : (indices g).lookup t = some idx)
    (hcnt : idx - firstUser < c.count) (hfld : HasField c idx f rty) (s : List Val) :
    Sim (indices g) c.count w callF nres tys
      ([.localGet r] ++ [.structGet idx f] ++ afterGet { defs := defs, map := c.map } rty idx f ++
        setResult rty env.length) env ls s h
      (match readField D h rty t env[r]? f with
        | .ok v => .ok (some v, h)
        | .trap => .trap
        | .stuck => .stuck) (some rty) := by
  obtain ⟨F, vF, fs, s1, s2, s3, s4, _⟩ := fin.hasField (indices_declared ht hi) hcnt hfld
  cases hr : env[r]? with
  | none => simp only [readField]; exact sim_stuck
  | some v =>
    obtain ⟨hok, htr⟩ := read_run (D := D) (w := w) (callF := callF) (nres := nres) (rty := rty) (f := f) (v := v)
      hh hi ls s
    cases hx : readField D h rty t (some v) f with
    | stuck => exact sim_stuck
    | trap =>
      refine sim_trap fun rest => ?_
      simp only [List.append_assoc, List.cons_append, List.nil_append]
      rw [wbody_next (step_get (hl.get r v hr) s _)]
      exact wbody_trap (htr hx) _
    | ok x =>
      obtain ⟨h1, h2⟩ := hok x hx
      refine sim_value hl hty ?_ hh ?_
      · rintro rfl
        cases x with
        | int z => simp [hasTy] at h1
        | null => rfl
        | ref a =>
          simp only [hasTy] at h1
          split at h1 <;> simp at h1
      · intro rest
        simp only [List.append_assoc, List.cons_append, List.nil_append]
        rw [wbody_next (step_get (hl.get r v hr) s _), wbody_next h2]
        exact fin.after s1 s2 (by simp [fieldVT, s3, s4]) hh h1 ls s rest

/-- A cast to a declared type. -/
theorem cast_sim {tys : List Ty} {env ls : List Val} {h : Objs}
    {rty t : Ty} {idx r : Nat} (hl : LocOk tys env ls)
    (hh : HOk (indices g) c.count h) (hty : tys[env.length]? = some rty)
    (ht : Declared t) (hi : (indices g).lookup t = some idx) (hn : rty ≠ .nil) (s : List Val) :
    Sim (indices g) c.count w callF nres tys
      ([.localGet r, .refCast true (.concrete idx)] ++ setResult rty env.length) env ls s h
      (match castTo h t env[r]? with
        | .ok v => .ok (some v, h)
        | .trap => .trap
        | .stuck => .stuck) (some rty) := by
  cases hr : env[r]? with
  | none => simp only [castTo]; exact sim_stuck
  | some v =>
    obtain ⟨hok, htr⟩ := cast_run (w := w) (callF := callF) (nres := nres) (v := v) hh ht hi ls s
    cases hx : castTo h t (some v) with
    | stuck => exact sim_stuck
    | trap =>
      refine sim_trap fun rest => ?_
      simp only [List.append_assoc, List.cons_append, List.nil_append]
      rw [wbody_next (step_get (hl.get r v hr) s _)]
      exact wbody_trap (htr hx) _
    | ok x =>
      obtain ⟨rfl, h2⟩ := hok x hx
      refine sim_value hl hty (fun e => absurd e hn) hh ?_
      intro rest
      simp only [List.cons_append, List.nil_append]
      rw [wbody_next (step_get (hl.get r x hr) s _), wbody_next h2]

/-- The emitted callees do what the callees do. -/
def CallSim (ix : List (Ty × Nat)) (n : Nat) (callA : Nat → List Val → Objs → Out (Objs × Option Val))
    (callW : Nat → List Val → WObjs → Out (WObjs × Option Val)) : Prop :=
  ∀ k args h, HOk ix n h →
    (∀ h' v, callA k args h = .ok (h', v) → HOk ix n h' ∧ callW k args (toW ix h) = .ok (toW ix h', v)) ∧
    (callA k args h = .trap → callW k args (toW ix h) = .trap)

theorem lookup_of_index {t : Ty} {i : IOp} {mk : Nat → IOp}
    (h : (List.lookup t (indices g)).map mk = some i) : ∃ k, (indices g).lookup t = some k ∧ i = mk k := by
  simp only [Option.map_eq_some_iff] at h
  obtain ⟨k, hk, rfl⟩ := h
  exact ⟨k, hk, rfl⟩

theorem op_sim (fin : Final D (adtLower m) c defs) (hwd : w.defs = defs)
    (hfn : ∀ (k : Nat) (fa : Fn AOp), m[k]? = some fa →
      ∃ fw, w.fns[k]? = some fw ∧ fw.params.length = fa.params.length)
    {callA : Nat → List Val → Objs → Out (Objs × Option Val)}
    (hcall : CallSim (indices (adtLower m)) c.count callA callF)
    {f : Fn AOp} {a : AOp} {i : IOp} {result : Ty} {tenv rest : List Ty} {tys : List Ty} {env ls : List Val}
    {h : Objs} {is : List Instr}
    (hf : f ∈ m) (ha : a ∈ f.body) (ho : OpOk true D m result tenv a)
    (hi : indexOp (indices (adtLower m)) (adtToGc a) = some i)
    (htys : tys = tenv ++ (Spec.resultTy a).toList ++ rest) (henv : env.length = tenv.length)
    (hd : Done tys c i) (hret : ∀ vs, a ≠ .ret vs)
    (he : emitOp { defs := defs, map := c.map } tys tenv.length i = some is)
    (hl : LocOk tys env ls) (hh : HOk (indices (adtLower m)) c.count h) (s : List Val) :
    Sim (indices (adtLower m)) c.count w callF nres tys is env ls s h (aop D callA env h a) (Spec.resultTy a) := by
  have hdst : ∀ {t : Ty}, Spec.resultTy a = some t → tys[env.length]? = some t := by
    intro t e
    rw [htys, e, henv, List.append_assoc]
    simp
  have hin : ∀ {r : Nat} {ty : Ty}, tenv[r]? = some ty → tys[r]? = some ty := by
    intro r ty e
    rw [htys, List.append_assoc]; exact prefix_get e
  have lk : ∀ {t : Ty}, mention (adtToGc a) = some t → Declared t →
      ∃ i, (indices (adtLower m)).lookup t = some i := fun h h' => mention_lookup hf ha h h'
  rw [← henv] at he
  cases a with
  | const z =>
    simp only [adtToGc, indexOp, Option.some.injEq] at hi
    subst hi
    simp only [emitOp, Option.some.injEq] at he
    subst he
    have := sim_value (w := w) (callF := callF) (nres := nres) (is := [.i32Const z]) (s := s) (h := h)
      (v := .int z) hl (hdst rfl) (by simp) hh (fun rest => by simp [wbody_cons, wstep])
    simpa [setResult, aop, Spec.resultTy] using this
  | add x y =>
    simp only [adtToGc, indexOp, Option.some.injEq] at hi
    subst hi
    simp only [emitOp, Option.some.injEq] at he
    subst he
    simp only [aop]
    split
    · rename_i p q hx hy
      have := sim_value (w := w) (callF := callF) (nres := nres) (is := [.localGet x, .localGet y, .i32Add])
        (s := s) (h := h) (v := .int (add32 p q)) hl (hdst rfl) (by simp) hh
        (fun rest => by
          simp only [List.cons_append, List.nil_append]
          rw [wbody_next (step_get (hl.get x _ hx) s _), wbody_next (step_get (hl.get y _ hy) _ _)]
          exact wbody_next (by simp [wstep]) _)
      simpa [setResult, aop, Spec.resultTy] using this
    · exact sim_stuck
  | structNew rty t args =>
    obtain ⟨k, hk, rfl⟩ := lookup_of_index hi
    obtain ⟨h1, h2, h3, h4⟩ := ho
    simp only [emitOp, Option.some.injEq] at he
    subst he
    exact new_sim fin hwd hl hh (hdst rfl) h1 (h2.resolve_right erased_strict) hk h3 hd s
  | variantNew e l tag args =>
    obtain ⟨k, hk, rfl⟩ := lookup_of_index hi
    simp only [emitOp, Option.some.injEq] at he
    subst he
    exact new_sim fin hwd hl hh (hdst rfl) (t := .variant e l tag) trivial (.inl rfl) hk ho.1 hd s
  | structGet rty t r fi =>
    obtain ⟨k, hk, rfl⟩ := lookup_of_index hi
    obtain ⟨h1, ⟨ty, e, h2⟩, h3, h4⟩ := ho
    obtain ⟨n1, n2, _⟩ := refers_shape h1 (h2.resolve_right erased_strict)
    simp only [emitOp, tyAt_of (hin e), n1, n2, or_self, if_false, Option.some.injEq, List.append_nil] at he
    subst he
    exact get_sim fin hl hh (hdst rfl) h1 hk hd.2.1 hd.2.2 s
  | variantGet rty e l tag r fi =>
    obtain ⟨k, hk, rfl⟩ := lookup_of_index hi
    obtain ⟨h1, h2, h3⟩ := ho
    have hp := readable_physical (h3 rfl)
    rw [hp] at he hd
    simp only [emitOp, tyAt_of (hin h1), reduceCtorEq, or_self, if_false, Option.some.injEq, List.append_nil] at he
    subst he
    exact get_sim fin hl hh (hdst rfl) (t := .variant e l tag) trivial hk hd.2.1 hd.2.2 s
  | structSet t r v fi =>
    obtain ⟨k, hk, rfl⟩ := lookup_of_index hi
    obtain ⟨h1, ⟨ty, e, h2⟩, h3, h4⟩ := ho
    simp only [emitOp, Option.some.injEq] at he
    subst he
    simp only [aop]
    split
    · rename_i x hr hv
      refine sim_trap fun rest => ?_
      simp only [List.cons_append, List.nil_append]
      rw [wbody_next (step_get (hl.get r _ hr) s _), wbody_next (step_get (hl.get v _ hv) _ _)]
      exact wbody_trap (by simp [wstep]) _
    · rename_i a x hr hv
      cases hx : h[a]? with
      | none => exact sim_stuck
      | some o =>
        obtain ⟨o, fs⟩ := o
        simp only
        split
        · rename_i hc
          obtain ⟨rfl, hlt⟩ := hc
          obtain ⟨_, j, hj, _, hW⟩ := hh.get hx
          rw [hk] at hj
          simp only [Option.some.injEq] at hj
          subst hj
          refine ⟨?_, by simp⟩
          intro v0 h0 e0
          simp only [Out.ok.injEq, Prod.mk.injEq] at e0
          obtain ⟨rfl, rfl⟩ := e0
          refine ⟨rfl, hh.set hx _, ls, s, fun rest => ?_, by simpa using hl⟩
          simp only [List.cons_append, List.nil_append]
          rw [wbody_next (step_get (hl.get r _ hr) s _), wbody_next (step_get (hl.get v _ hv) _ _)]
          refine wbody_next ?_ _
          simp [wstep, hx, hlt, toW, List.map_set, hk]
        · exact sim_stuck
    · exact sim_stuck
  | variantIs e l tag r =>
    obtain ⟨k, hk⟩ := lk (t := .variant e l tag) rfl trivial
    simp only [adtToGc, indexOp, hk, Option.some.injEq] at hi
    subst hi
    simp only [emitOp, targetHeap, Option.map_some, Option.some.injEq] at he
    subst he
    simp only [aop]
    split
    · rename_i a hr
      cases hx : h[a]? with
      | none => exact sim_stuck
      | some o =>
        obtain ⟨o, fs⟩ := o
        simp only
        obtain ⟨ho', j, hj, _, hW⟩ := hh.get hx
        have hiff := idx_eq_iff ho' (t := .variant e l tag) trivial hj hk
        have := sim_value (w := w) (callF := callF) (nres := nres)
          (is := [.localGet r, .refTest true (.concrete k)])
          (s := s) (h := h) (v := .int (if o = .variant e l tag then 1 else 0)) hl (hdst rfl) (by simp) hh
          (fun rest => by
            simp only [List.cons_append, List.nil_append]
            rw [wbody_next (step_get (hl.get r _ hr) s _)]
            refine wbody_next ?_ _
            by_cases ee : o = .variant e l tag
            · simp [wstep, hW, ofHeap, heapLe, hiff.2 ee, ee]
            · have : j ≠ k := fun x => ee (hiff.1 x)
              simp [wstep, hW, ofHeap, heapLe, this, ee])
        simpa [setResult, aop, Spec.resultTy] using this
    · exact sim_stuck
  | variantCast e l tag r =>
    obtain ⟨k, hk⟩ := lk (t := .variant e l tag) rfl trivial
    simp only [adtToGc, indexOp, hk, Option.some.injEq] at hi
    subst hi
    have hvt := fin.valtype_refers (ty := .variant e l tag) (t := .variant e l tag) trivial (.inl rfl) hk hd.1
    have hnul := castNullable_true (info := { defs := defs, map := c.map }) hvt
    simp only [emitOp, targetHeap, Option.map_some, Option.some.injEq] at he
    rw [hnul] at he
    subst he
    exact cast_sim hl hh (hdst rfl) (t := .variant e l tag) trivial hk (by simp) s
  | refNull rty t =>
    simp only [adtToGc, indexOp, Option.some.injEq] at hi
    subst hi
    simp only [emitOp, Option.map_eq_some_iff] at he
    obtain ⟨hp, _, rfl⟩ := he
    exact sim_value hl (hdst rfl) (fun _ => rfl) hh (fun rest => by simp [wbody_cons, wstep])
  | refCast rty t r =>
    simp only [adtToGc, indexOp, Option.some.injEq] at hi
    subst hi
    rcases ho.1 with ⟨h1, h2⟩ | ⟨rfl, h2⟩
    · obtain ⟨k, hk⟩ := lk (t := t) rfl h1
      rw [hk] at he hd
      have hvt := fin.valtype_refers h1 h2 hk hd.1
      have hnul := castNullable_true (info := { defs := defs, map := c.map }) hvt
      simp only [emitOp, targetHeap, Option.map_some, Option.some.injEq] at he
      rw [hnul] at he
      subst he
      obtain ⟨n1, n2, n3⟩ := refers_shape (D := D) h1 (.inl rfl)
      simp only [aop, n1, n2, or_self, if_false]
      exact cast_sim hl hh (hdst rfl) h1 hk (refers_shape h1 h2).2.2 s
    · have hab : isAbstract rty = true := by rcases h2 with rfl | rfl <;> rfl
      have hnn : rty ≠ .nil := by rcases h2 with rfl | rfl <;> simp
      have : ∃ hp, abstractHeap rty = some hp ∧ (hp = .any ∨ hp = .struct) ∧
          castNullable { defs := defs, map := c.map } rty = true := by
        rcases h2 with rfl | rfl
        · exact ⟨.any, rfl, .inl rfl, castNullable_true fin.valtype_anyref⟩
        · exact ⟨.struct, rfl, .inr rfl, castNullable_true fin.valtype_structref⟩
      obtain ⟨hp, e1, e2, e3⟩ := this
      rw [indices_abstract hab] at he
      simp only [emitOp, targetHeap, e1, e3, Option.map_some, Option.some.injEq] at he
      subst he
      simp only [aop, h2, if_true]
      split
      · rename_i hr
        refine sim_value hl (hdst rfl) (fun e => absurd e hnn) hh fun rest => ?_
        simp only [List.cons_append, List.nil_append]
        rw [wbody_next (step_get (hl.get r _ hr) s _)]
        exact wbody_next (by simp [wstep]) _
      · rename_i a hr
        split
        · rename_i hlt
          obtain ⟨o, fs⟩ : ∃ o : Ty × List Val, h[a]? = some o := ⟨h[a], by simp [hlt]⟩
          obtain ⟨o, fs'⟩ := o
          obtain ⟨hd', j, hj, hcnt, hW⟩ := hh.get fs
          have hheap : ofHeap w.defs j hp = true := by
            have := heap_struct fin hwd hd' hj hcnt
            rcases e2 with rfl | rfl
            · exact this.1
            · exact this.2
          refine sim_value hl (hdst rfl) (fun e => absurd e hnn) hh fun rest => ?_
          simp only [List.cons_append, List.nil_append]
          rw [wbody_next (step_get (hl.get r _ hr) s _)]
          exact wbody_next (by simp [wstep, hW, hheap]) _
        · exact sim_stuck
      · exact sim_stuck
  | call k rty args =>
    simp only [adtToGc, indexOp, Option.some.injEq] at hi
    subst hi
    obtain ⟨gf, h1, h2, h3⟩ := ho
    obtain ⟨fw, hfw, hpl⟩ := hfn k gf h1
    simp only [emitOp, Option.some.injEq] at he
    subst he
    simp only [aop]
    cases hv : vals env args with
    | none => exact sim_stuck
    | some vs =>
      have hvl := vals_length hv
      have hargs := h3.length_eq
      have e : fw.params.length = vs.reverse.length := by rw [List.length_reverse]; omega
      have step : ∀ s, wstep w callF nres ls (vs.reverse ++ s) (toW (indices (adtLower m)) h) (.call k) =
          (match callF k vs (toW (indices (adtLower m)) h) with
            | .ok (h', none) => .next ls s h'
            | .ok (h', some v) => .next ls (v :: s) h'
            | .trap => .trap
            | .stuck => .stuck) := by
        intro s
        simp only [wstep, hfw, e, List.drop_left, List.take_left, List.reverse_reverse]
        rw [if_pos (by simp)]
        rfl
      obtain ⟨hok, htr⟩ := hcall k vs h hh
      simp only
      cases hc : callA k vs h with
      | stuck => exact sim_stuck
      | trap =>
        refine sim_trap fun rest => ?_
        simp only [List.append_assoc]
        rw [gets_run hl.get _ _ args vs s hv, List.cons_append]
        exact wbody_trap (by rw [step, htr hc]) _
      | ok p =>
        obtain ⟨h', v⟩ := p
        obtain ⟨hh', hW⟩ := hok h' v hc
        by_cases hn : rty = .nil
        · subst hn
          simp only [if_true]
          refine ⟨?_, by simp⟩
          intro v0 h0 e0
          simp only [Out.ok.injEq, Prod.mk.injEq] at e0
          obtain ⟨rfl, rfl⟩ := e0
          obtain ⟨s', hs'⟩ : ∃ s', wstep w callF nres ls (vs.reverse ++ s) (toW (indices (adtLower m)) h) (.call k) =
              .next ls s' (toW (indices (adtLower m)) h') := by
            rw [step, hW]
            cases v with
            | none => exact ⟨s, rfl⟩
            | some v => exact ⟨v :: s, rfl⟩
          refine ⟨rfl, hh', ls, s', fun rest => ?_, ?_⟩
          · simp only [List.append_assoc, setResult, if_true, List.nil_append, List.append_nil]
            rw [gets_run hl.get _ _ args vs s hv, List.cons_append, List.nil_append]
            exact wbody_next hs' _
          · obtain ⟨ls', s'', _, q⟩ := setResult_run (w := w) (callF := callF) (nres := nres) (v := .null)
              hl (hdst rfl) (fun _ => rfl) s (toW (indices (adtLower m)) h)
            refine ⟨hl.len, ?_, fun j hj hn => hl.nil j (by simp at hj; omega) hn⟩
            intro j x hj
            by_cases hlt : j < env.length
            · simp only [Option.toList, List.getElem?_append_left hlt] at hj
              exact hl.get j x hj
            · have : j = env.length := by
                have := (List.getElem?_eq_some_iff.1 hj).1
                simp at this; omega
              subst this
              simp at hj
              subst hj
              exact hl.nil _ (Nat.le_refl _) (hdst rfl)
        · simp only [hn, if_false]
          cases v with
          | none => exact sim_stuck
          | some v =>
            refine sim_value hl (hdst rfl) (fun e => absurd e hn) hh' fun rest => ?_
            simp only [List.append_assoc]
            rw [gets_run hl.get _ _ args vs s hv, List.cons_append, List.nil_append]
            exact wbody_next (by rw [step, hW]) _
  | ret vs => exact absurd rfl (hret vs)

end

end Verif.WasmGc
