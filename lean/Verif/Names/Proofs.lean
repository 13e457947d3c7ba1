import Verif.Names.Spec

/-! Helper lemmas for the names of functions. -/
namespace Verif.Names
open Spec

/-! ## Finding by name -/

theorem nodup_rev {α} {l : List α} (h : l.Nodup) : l.reverse.Nodup := by
  rw [List.nodup_iff_pairwise_ne, List.pairwise_reverse]
  exact (List.nodup_iff_pairwise_ne.1 h).imp fun h e => h e.symm

theorem lookup_of_mem {β} : ∀ {l : List (String × β)} {n : String} {i : β},
    (l.map (·.1)).Nodup → (n, i) ∈ l → l.lookup n = some i
  | [], _, _, _, h => by simp at h
  | (k, v) :: l, n, i, hn, h => by
    simp only [List.map_cons, List.nodup_cons] at hn
    rcases List.mem_cons.1 h with h | h
    · cases h; simp
    · have hne : n ≠ k := by
        intro e
        exact hn.1 (e ▸ List.mem_map.2 ⟨(n, i), h, rfl⟩)
      have : (n == k) = false := by simp [hne]
      simp only [List.lookup_cons, this]
      exact lookup_of_mem hn.2 h

theorem indexOf_names {names : List String} {i : Nat} {n : String} (hn : names.Nodup)
    (h : names[i]? = some n) : (names.zipIdx).reverse.lookup n = some i := by
  apply lookup_of_mem
  · rw [List.map_reverse]
    exact nodup_rev (by simpa using hn)
  · simp only [List.mem_reverse]
    exact List.mk_mem_zipIdx_iff_getElem?.2 h

def WModule.names (m : WModule) : List String := m.imports.map (·.name) ++ m.funcs.map (·.name)

theorem resolveW_func {m : WModule} {f : TFunc} (hn : m.names.Nodup) (h : f ∈ m.funcs) :
    resolveW m f.name = some (.func f) := by
  obtain ⟨k, hk⟩ := List.mem_iff_getElem?.1 h
  have hi : m.names[m.imports.length + k]? = some f.name := by
    unfold WModule.names
    rw [List.getElem?_append_right (by simp)]
    simp [hk]
  unfold resolveW indexOf funcIndices
  have := indexOf_names hn hi
  unfold WModule.names at this
  rw [this]
  simp [calleeAt, hk]

theorem resolveW_import {m : WModule} {i : Import} (hn : m.names.Nodup) (h : i ∈ m.imports) :
    resolveW m i.name = some (.service i.sig i.service) := by
  obtain ⟨k, hk⟩ := List.mem_iff_getElem?.1 h
  have hlt : k < m.imports.length := by
    rw [List.getElem?_eq_some_iff] at hk; exact hk.1
  have hi : m.names[k]? = some i.name := by
    unfold WModule.names
    rw [List.getElem?_append_left (by simpa using hlt)]
    simp [hk]
  unfold resolveW indexOf funcIndices
  have := indexOf_names hn hi
  unfold WModule.names at this
  rw [this]
  simp [calleeAt, hk]

theorem find_of_mem {α} (name : α → String) : ∀ {l : List α} {f : α},
    (l.map name).Nodup → f ∈ l → (l.find? fun g => name g == name f) = some f
  | [], _, _, h => by simp at h
  | g :: l, f, hn, h => by
    simp only [List.map_cons, List.nodup_cons] at hn
    rcases List.mem_cons.1 h with h | h
    · subst h; simp
    · have hne : name g ≠ name f := by
        intro e; exact hn.1 (e ▸ List.mem_map.2 ⟨f, h, rfl⟩)
      have : (name g == name f) = false := by simp [hne]
      rw [List.find?_cons, this]
      exact find_of_mem name hn.2 h

theorem find_rev_of_mem {α} (name : α → String) {l : List α} {f : α}
    (hn : (l.map name).Nodup) (h : f ∈ l) :
    (l.reverse.find? fun g => name g == name f) = some f :=
  find_of_mem name (by rw [List.map_reverse]; exact nodup_rev hn) (by simpa using h)

theorem find_none {α} (name : α → String) {l : List α} {n : String}
    (h : n ∉ l.map name) : (l.find? fun g => name g == n) = none := by
  rw [List.find?_eq_none]
  intro x hx hb
  exact h (List.mem_map.2 ⟨x, hx, by simpa using hb⟩)

theorem mainOf_mem {p : Program} {m : Func} (hn : (p.map (·.name)).Nodup) (h : m ∈ p)
    (hm : m.name = "main") : mainOf p = some m := by
  have := find_rev_of_mem (·.name) hn h
  unfold mainOf
  rw [← hm]
  exact this

theorem mem_unique {p : Program} {f g : Func} (hn : (p.map (·.name)).Nodup) (hf : f ∈ p) (hg : g ∈ p)
    (e : f.name = g.name) : f = g := by
  have h1 := find_of_mem (·.name) hn hf
  have h2 := find_of_mem (·.name) hn hg
  simp only [e] at h1
  rw [h1] at h2
  exact Option.some.inj h2

/-! ## Checking -/

theorem checkStmts_append {r} : ∀ (a b : List TStmt), checkStmts r a = none → checkStmts r b = none →
    checkStmts r (a ++ b) = none
  | [], _, _, hb => hb
  | s :: a, b, ha, hb => by
    simp only [checkStmts] at ha
    simp only [List.cons_append, checkStmts]
    cases hs : checkStmt r s with
    | some e => simp [hs] at ha
    | none =>
      simp only [hs] at ha
      exact checkStmts_append a b ha hb

theorem checkFuncs_none {r} : ∀ {fs : List TFunc}, (∀ f ∈ fs, checkStmts r f.body = none) →
    checkFuncs r fs = none
  | [], _ => rfl
  | f :: fs, h => by
    simp only [checkFuncs, h f (by simp)]
    exact checkFuncs_none fun g hg => h g (by simp [hg])

theorem callsOk_append {p} : ∀ {a b : List Stmt}, CallsOk p a → CallsOk p b → CallsOk p (a ++ b)
  | [], _, _, hb => hb
  | _ :: _, _, ha, hb => by
    simp only [List.cons_append, CallsOk] at ha ⊢
    exact ⟨ha.1, callsOk_append ha.2 hb⟩

theorem writes_append : ∀ (a b : List Stmt), writesStmts (a ++ b) = (writesStmts a || writesStmts b)
  | [], _ => by simp [writesStmts]
  | s :: a, b => by
    simp [writesStmts, writes_append a b, Bool.or_assoc]

theorem lowerWs_append : ∀ (a b : List Stmt), lowerWs (a ++ b) = lowerWs a ++ lowerWs b
  | [], _ => by simp [lowerWs]
  | s :: a, b => by simp [lowerWs, lowerWs_append a b]

theorem lowerNs_append : ∀ (a b : List Stmt), lowerNs (a ++ b) = lowerNs a ++ lowerNs b
  | [], _ => by simp [lowerNs]
  | s :: a, b => by simp [lowerNs, lowerNs_append a b]

theorem needs_of_mem {p : Program} {f : Func} (h : f ∈ p) (hw : writesStmts f.body = true) :
    needsFdWrite p = true := by
  unfold needsFdWrite
  exact List.any_eq_true.2 ⟨f, h, hw⟩

/-! ## WebAssembly -/

def lowerFuncW (f : Func) : TFunc := ⟨f.name, f.sig, lowerWs f.body⟩

/-- Names mean what they should. -/
structure GoodW (p : Program) (r : String → Option Callee) : Prop where
  func : ∀ f ∈ p, r f.name = some (.func (lowerFuncW f))
  helper : needsFdWrite p = true → r writeHelper = some (.func helperFunc)
  fd : needsFdWrite p = true → r "fd_write" = some (.service fdWrite.sig .write)

mutual
theorem checkW_stmt {p r} (g : GoodW p r) : ∀ (s : Stmt), CallsOkStmt p s →
    (writesStmt s = true → needsFdWrite p = true) → checkStmt r (lowerW s) = none
  | .call f sig, h, _ => by
    obtain ⟨fn, hm, rfl, rfl⟩ := h
    simp [lowerW, checkStmt, g.func fn hm, Callee.sig, lowerFuncW]
  | .write t, _, hw => by
    simp [lowerW, checkStmt, g.helper (hw rfl), Callee.sig, helperFunc]
  | .branch a b, h, hw => by
    simp only [CallsOkStmt] at h
    simp only [lowerW, checkStmt]
    rw [checkW_stmts g a h.1 (fun e => hw (by simp [writesStmt, e])),
      checkW_stmts g b h.2 (fun e => hw (by simp [writesStmt, e]))]

theorem checkW_stmts {p r} (g : GoodW p r) : ∀ (ss : List Stmt), CallsOk p ss →
    (writesStmts ss = true → needsFdWrite p = true) → checkStmts r (lowerWs ss) = none
  | [], _, _ => rfl
  | s :: ss, h, hw => by
    simp only [CallsOk] at h
    simp only [lowerWs, checkStmts]
    rw [checkW_stmt g s h.1 (fun e => hw (by simp [writesStmts, e])),
      checkW_stmts g ss h.2 (fun e => hw (by simp [writesStmts, e]))]
end

theorem helper_forward {p r} (g : GoodW p r) (hn : needsFdWrite p = true) (t : String) :
    TRuns r (some t) helperFunc.body [.out t] :=
  TRuns.service (tr := []) (g.fd hn) .nil

theorem helper_backward {p r} (g : GoodW p r) (hn : needsFdWrite p = true) {t : String} {tr}
    (h : TRuns r (some t) helperFunc.body tr) : tr = [.out t] := by
  cases h with
  | service hr hrest =>
    rw [g.fd hn] at hr
    cases hr
    cases hrest
    simp [Service.run, Arg.eval]
  | func hr => rw [g.fd hn] at hr; cases hr

theorem forwardW {p r} (g : GoodW p r) {ss tr} (h : Runs p ss tr) :
    (writesStmts ss = true → needsFdWrite p = true) → ∀ par,
      TRuns r par (lowerWs ss) (tr.map .out) := by
  induction h with
  | nil => intro _ par; exact .nil
  | @write t rest tr _ ih =>
    intro hw par
    have hn := hw (by simp [writesStmts, writesStmt])
    exact TRuns.func (arg := .text t) (t1 := [.out t]) (g.helper hn) (helper_forward g hn t)
      (ih (fun e => hw (by simp [writesStmts, e])) par)
  | @call f sig rest fn t1 t2 hm hf _ _ ih1 ih2 =>
    intro hw par
    subst hf
    rw [List.map_append]
    exact TRuns.func (arg := .none) (g.func fn hm) (ih1 (needs_of_mem hm) none)
      (ih2 (fun e => hw (by simp [writesStmts, e])) par)
  | @yes a b rest tr _ ih =>
    intro hw par
    refine TRuns.yes (a := lowerWs a) (b := lowerWs b) ?_
    rw [← lowerWs_append]
    refine ih (fun e => hw ?_) par
    rw [writes_append] at e
    simp only [writesStmts, writesStmt]
    revert e; cases writesStmts a <;> cases writesStmts rest <;> simp
  | @no a b rest tr _ ih =>
    intro hw par
    refine TRuns.no (a := lowerWs a) (b := lowerWs b) ?_
    rw [← lowerWs_append]
    refine ih (fun e => hw ?_) par
    rw [writes_append] at e
    simp only [writesStmts, writesStmt]
    revert e; cases writesStmts b <;> cases writesStmts rest <;> simp

theorem backwardW {p r} (hp : Accepted p) (g : GoodW p r) {par ts tr} (h : TRuns r par ts tr) :
    ∀ ss, ts = lowerWs ss → CallsOk p ss → (writesStmts ss = true → needsFdWrite p = true) →
      ∃ texts, tr = texts.map .out ∧ Runs p ss texts := by
  induction h with
  | nil =>
    intro ss hs _ _
    cases ss with
    | nil => exact ⟨[], rfl, .nil⟩
    | cons s ss => simp [lowerWs] at hs
  | @service par f sig arg rest sig' s tr hr _ ih =>
    intro ss hs hc hw
    cases ss with
    | nil => simp [lowerWs] at hs
    | cons s ss =>
      simp only [lowerWs, List.cons.injEq] at hs
      cases s with
      | call f' sig'' =>
        simp only [CallsOk, CallsOkStmt] at hc
        obtain ⟨⟨fn, hm, rfl, rfl⟩, _⟩ := hc
        obtain ⟨h1, _⟩ := hs
        simp only [lowerW, TStmt.call.injEq] at h1
        rw [h1.1, g.func fn hm] at hr
        cases hr
      | write t =>
        have hn := hw (by simp [writesStmts, writesStmt])
        obtain ⟨h1, _⟩ := hs
        simp only [lowerW, TStmt.call.injEq] at h1
        rw [h1.1, g.helper hn] at hr
        cases hr
      | branch a b => obtain ⟨h1, _⟩ := hs; simp [lowerW] at h1
  | @func par f sig arg rest fn t1 t2 hr hb _ ih1 ih2 =>
    intro ss hs hc hw
    cases ss with
    | nil => simp [lowerWs] at hs
    | cons s ss =>
      simp only [lowerWs, List.cons.injEq] at hs
      obtain ⟨h1, h2⟩ := hs
      simp only [CallsOk] at hc
      obtain ⟨u2, e2, r2⟩ := ih2 ss h2 hc.2 (fun e => hw (by simp [writesStmts, e]))
      cases s with
      | call f' sig'' =>
        simp only [CallsOkStmt] at hc
        obtain ⟨⟨fn', hm, rfl, rfl⟩, _⟩ := hc
        simp only [lowerW, TStmt.call.injEq] at h1
        obtain ⟨rfl, rfl, rfl⟩ := h1
        rw [g.func fn' hm] at hr
        cases hr
        obtain ⟨u1, e1, r1⟩ := ih1 fn'.body rfl (hp.calls fn' hm) (needs_of_mem hm)
        exact ⟨u1 ++ u2, by simp [e1, e2], .call hm rfl r1 r2⟩
      | write t =>
        have hn := hw (by simp [writesStmts, writesStmt])
        simp only [lowerW, TStmt.call.injEq] at h1
        obtain ⟨rfl, rfl, rfl⟩ := h1
        rw [g.helper hn] at hr
        cases hr
        have := helper_backward g hn hb
        exact ⟨t :: u2, by simp [this, e2], .write r2⟩
      | branch a b => simp [lowerW] at h1
  | @yes par a b rest tr _ ih =>
    intro ss hs hc hw
    cases ss with
    | nil => simp [lowerWs] at hs
    | cons s ss =>
      simp only [lowerWs, List.cons.injEq] at hs
      obtain ⟨h1, h2⟩ := hs
      cases s with
      | branch a' b' =>
        simp only [lowerW, TStmt.branch.injEq] at h1
        obtain ⟨rfl, rfl⟩ := h1
        simp only [CallsOk, CallsOkStmt] at hc
        obtain ⟨u, e, ru⟩ := ih (a' ++ ss) (by rw [lowerWs_append, h2]) (callsOk_append hc.1.1 hc.2)
          (fun e => hw (by
            rw [writes_append] at e
            simp only [writesStmts, writesStmt]
            revert e; cases writesStmts a' <;> cases writesStmts ss <;> simp))
        exact ⟨u, e, .yes ru⟩
      | call => simp [lowerW] at h1
      | write => simp [lowerW] at h1
  | @no par a b rest tr _ ih =>
    intro ss hs hc hw
    cases ss with
    | nil => simp [lowerWs] at hs
    | cons s ss =>
      simp only [lowerWs, List.cons.injEq] at hs
      obtain ⟨h1, h2⟩ := hs
      cases s with
      | branch a' b' =>
        simp only [lowerW, TStmt.branch.injEq] at h1
        obtain ⟨rfl, rfl⟩ := h1
        simp only [CallsOk, CallsOkStmt] at hc
        obtain ⟨u, e, ru⟩ := ih (b' ++ ss) (by rw [lowerWs_append, h2]) (callsOk_append hc.1.2 hc.2)
          (fun e => hw (by
            rw [writes_append] at e
            simp only [writesStmts, writesStmt]
            revert e; cases writesStmts b' <;> cases writesStmts ss <;> simp))
        exact ⟨u, e, .no ru⟩
      | call => simp [lowerW] at h1
      | write => simp [lowerW] at h1

theorem exists_main {p : Program} (hp : Accepted p) : ∃ m ∈ p, m.name = "main" := by
  obtain ⟨m, hm, e⟩ := List.mem_map.1 hp.main
  exact ⟨m, hm, e⟩

theorem names_nodupW {p : Program} (hp : Accepted p) (ha : Avoids p wasmNames) :
    (wasmModule p).names.Nodup := by
  obtain ⟨m, hm, hmm⟩ := exists_main hp
  have hmo := mainOf_mem hp.names hm hmm
  have e1 : "fd_write" ∉ p.map (·.name) := by
    intro h; obtain ⟨f, hf, e⟩ := List.mem_map.1 h
    exact ha f hf (by rw [e]; simp [wasmNames])
  have e2 : writeHelper ∉ p.map (·.name) := by
    intro h; obtain ⟨f, hf, e⟩ := List.mem_map.1 h
    exact ha f hf (by rw [e]; simp [wasmNames, writeHelper])
  have e3 : "_start" ∉ p.map (·.name) := by
    intro h; obtain ⟨f, hf, e⟩ := List.mem_map.1 h
    exact ha f hf (by rw [e]; simp [wasmNames])
  have hcomp : (p.map (fun f => (⟨f.name, f.sig, lowerWs f.body⟩ : TFunc))).map (·.name)
      = p.map (·.name) := by simp [Function.comp_def]
  unfold WModule.names wasmModule
  simp only [hmo]
  cases needsFdWrite p
  · simp only [Bool.false_eq_true, if_false, List.map_nil, List.nil_append, List.append_nil,
      List.map_append, hcomp, List.map_cons, startFunc]
    rw [List.nodup_append]
    refine ⟨hp.names, by simp, ?_⟩
    intro a h1 b h2 e
    simp only [List.mem_singleton] at h2
    subst h2; subst e; exact e3 h1
  · simp only [if_true, List.map_append, hcomp, List.map_cons, List.map_nil, startFunc, fdWrite,
      helperFunc, List.append_assoc, List.cons_append, List.nil_append]
    rw [List.nodup_cons]
    refine ⟨?_, ?_⟩
    · simp only [List.mem_append, not_or]
      exact ⟨e1, by simp [writeHelper]⟩
    · rw [List.nodup_append]
      refine ⟨hp.names, by simp [writeHelper], ?_⟩
      intro a h1 b h2 e
      subst e
      simp only [List.mem_cons, List.not_mem_nil, or_false] at h2
      rcases h2 with rfl | rfl
      · exact e2 h1
      · exact e3 h1

theorem goodW {p : Program} (hp : Accepted p) (ha : Avoids p wasmNames) :
    GoodW p (resolveW (wasmModule p)) where
  func f hf := resolveW_func (f := lowerFuncW f) (names_nodupW hp ha) (by
    unfold wasmModule
    simp only [List.mem_append, List.mem_map]
    exact .inl (.inl ⟨f, hf, rfl⟩))
  helper hn := resolveW_func (f := helperFunc) (names_nodupW hp ha) (by
    unfold wasmModule; simp [hn])
  fd hn := resolveW_import (i := fdWrite) (names_nodupW hp ha) (by
    unfold wasmModule; simp [hn])

theorem startW {p : Program} (hp : Accepted p) (ha : Avoids p wasmNames) {m : Func} (hm : m ∈ p)
    (hmm : m.name = "main") :
    resolveW (wasmModule p) "_start" = some (.func (startFunc m.sig)) :=
  resolveW_func (f := startFunc m.sig) (names_nodupW hp ha) (by
    unfold wasmModule; simp [mainOf_mem hp.names hm hmm])

theorem compileW {p : Program} (hp : Accepted p) (ha : Avoids p wasmNames) :
    compileWasm p = .ok (wasmModule p) := by
  obtain ⟨m, hm, hmm⟩ := exists_main hp
  have g := goodW hp ha
  have : checkFuncs (resolveW (wasmModule p)) (wasmModule p).funcs = none := by
    apply checkFuncs_none
    intro f hf
    have hf' : f ∈ p.map lowerFuncW ∨ (needsFdWrite p = true ∧ f = helperFunc) ∨ f = startFunc m.sig := by
      unfold wasmModule at hf
      simp only [mainOf_mem hp.names hm hmm] at hf
      cases hn : needsFdWrite p <;> simp [hn] at hf
      · rcases hf with ⟨a, h1, h2⟩ | h
        · exact .inl (List.mem_map.2 ⟨a, h1, h2⟩)
        · exact .inr (.inr h)
      · rcases hf with ⟨a, h1, h2⟩ | h | h
        · exact .inl (List.mem_map.2 ⟨a, h1, h2⟩)
        · exact .inr (.inl ⟨rfl, h⟩)
        · exact .inr (.inr h)
    rcases hf' with h | ⟨hn, rfl⟩ | rfl
    · obtain ⟨f', hf', rfl⟩ := List.mem_map.1 h
      exact checkW_stmts g f'.body (hp.calls f' hf') (needs_of_mem hf')
    · simp [helperFunc, checkStmts, checkStmt, g.fd hn, Callee.sig]
    · have := g.func m hm
      rw [hmm] at this
      simp [startFunc, checkStmts, checkStmt, this, Callee.sig, lowerFuncW]
  unfold compileWasm
  rw [this]

theorem runsW {p : Program} (hp : Accepted p) (ha : Avoids p wasmNames) (tr : List Event) :
    wasmRuns (wasmModule p) tr ↔ ∃ texts, tr = texts.map .out ∧ Does p texts := by
  obtain ⟨m, hm, hmm⟩ := exists_main hp
  have g := goodW hp ha
  have hs := startW hp ha hm hmm
  have hmain := g.func m hm
  rw [hmm] at hmain
  constructor
  · intro h
    unfold wasmRuns at h
    cases h with
    | service hr => rw [hs] at hr; cases hr
    | func hr hb hrest =>
      rw [hs] at hr; cases hr
      cases hrest
      cases hb with
      | service hr => rw [hmain] at hr; cases hr
      | func hr hb hrest =>
        rw [hmain] at hr; cases hr
        cases hrest
        obtain ⟨u, e, ru⟩ := backwardW hp g hb m.body rfl (hp.calls m hm) (needs_of_mem hm)
        exact ⟨u, by simp [e], m, hm, hmm, ru⟩
  · rintro ⟨texts, rfl, m', hm', hmm', hr⟩
    cases mem_unique hp.names hm hm' (hmm.trans hmm'.symm)
    have h1 := forwardW g hr (needs_of_mem hm) none
    have h2 := TRuns.func (param := none) (sig := m.sig) (arg := .none) hmain h1 .nil
    have h3 := TRuns.func (param := none) (sig := ⟨[], []⟩) (arg := .none) hs h2 .nil
    simpa [wasmRuns] using h3

/-! ## Native -/

def lowerFuncN (f : Func) : TFunc := ⟨renameMain f.name, f.sig, lowerNs f.body⟩

structure GoodN (p : Program) (r : String → Option Callee) : Prop where
  func : ∀ f ∈ p, r (renameMain f.name) = some (.func (lowerFuncN f))
  alloc : r "__tribute_alloc" = some (.service allocImport.sig .alloc)
  write : r "__tribute_io_write" = some (.service writeImport.sig .write)

mutual
theorem checkN_stmt {p r} (g : GoodN p r) : ∀ (s : Stmt), CallsOkStmt p s →
    checkStmts r (lowerN s) = none
  | .call f sig, h => by
    obtain ⟨fn, hm, rfl, rfl⟩ := h
    simp [lowerN, checkStmts, checkStmt, g.func fn hm, Callee.sig, lowerFuncN]
  | .write t, _ => by
    simp [lowerN, checkStmts, checkStmt, g.alloc, g.write, Callee.sig]
  | .branch a b, h => by
    simp only [CallsOkStmt] at h
    simp only [lowerN, checkStmts, checkStmt]
    rw [checkN_stmts g a h.1]
    simp only []
    rw [checkN_stmts g b h.2]

theorem checkN_stmts {p r} (g : GoodN p r) : ∀ (ss : List Stmt), CallsOk p ss →
    checkStmts r (lowerNs ss) = none
  | [], _ => rfl
  | s :: ss, h => by
    simp only [CallsOk] at h
    exact checkStmts_append _ _ (checkN_stmt g s h.1) (checkN_stmts g ss h.2)
end

theorem forwardN {p r} (g : GoodN p r) {ss tr} (h : Runs p ss tr) : ∀ par,
      TRuns r par (lowerNs ss) (tr.map .out) := by
  induction h with
  | nil => intro par; exact .nil
  | @write t rest tr _ ih =>
    intro par
    exact TRuns.service (arg := .none) (tr := .out t :: tr.map .out) g.alloc
      (TRuns.service (arg := .text t) g.write (ih par))
  | @call f sig rest fn t1 t2 hm hf _ _ ih1 ih2 =>
    intro par
    subst hf
    rw [List.map_append]
    exact TRuns.func (arg := .none) (g.func fn hm) (ih1 none) (ih2 par)
  | @yes a b rest tr _ ih =>
    intro par
    refine TRuns.yes (a := lowerNs a) (b := lowerNs b) ?_
    show TRuns r par (lowerNs a ++ ([] ++ lowerNs rest)) _
    rw [List.nil_append, ← lowerNs_append]
    exact ih par
  | @no a b rest tr _ ih =>
    intro par
    refine TRuns.no (a := lowerNs a) (b := lowerNs b) ?_
    show TRuns r par (lowerNs b ++ ([] ++ lowerNs rest)) _
    rw [List.nil_append, ← lowerNs_append]
    exact ih par

theorem backwardN {p r} (hp : Accepted p) (g : GoodN p r) {par ts tr} (h : TRuns r par ts tr) :
    (∀ ss, ts = lowerNs ss → CallsOk p ss → ∃ texts, tr = texts.map .out ∧ Runs p ss texts) ∧
    (∀ t ss, ts = .call "__tribute_io_write" writeImport.sig (.text t) :: lowerNs ss → CallsOk p ss →
      ∃ texts, tr = .out t :: texts.map .out ∧ Runs p ss texts) := by
  induction h with
  | nil =>
    refine ⟨?_, by simp⟩
    intro ss hs _
    cases ss with
    | nil => exact ⟨[], rfl, .nil⟩
    | cons s ss => cases s <;> simp [lowerNs, lowerN] at hs
  | @service par f sig arg rest sig' s tr hr _ ih =>
    constructor
    · intro ss hs hc
      cases ss with
      | nil => simp [lowerNs] at hs
      | cons s ss =>
        simp only [CallsOk] at hc
        cases s with
        | call f' sig'' =>
          simp only [CallsOkStmt] at hc
          obtain ⟨⟨fn, hm, rfl, rfl⟩, _⟩ := hc
          simp only [lowerNs, lowerN, List.cons_append, List.cons.injEq, TStmt.call.injEq] at hs
          rw [hs.1.1, g.func fn hm] at hr
          cases hr
        | write t =>
          simp only [lowerNs, lowerN, List.cons_append, List.nil_append, List.cons.injEq,
            TStmt.call.injEq] at hs
          obtain ⟨⟨rfl, rfl, rfl⟩, rfl⟩ := hs
          rw [g.alloc] at hr
          cases hr
          obtain ⟨u, e, ru⟩ := ih.2 t ss rfl hc.2
          exact ⟨t :: u, by simp [e, Service.run], .write ru⟩
        | branch a b => simp [lowerNs, lowerN] at hs
    · intro t ss hs hc
      simp only [List.cons.injEq, TStmt.call.injEq] at hs
      obtain ⟨⟨rfl, rfl, rfl⟩, rfl⟩ := hs
      rw [g.write] at hr
      cases hr
      obtain ⟨u, e, ru⟩ := ih.1 ss rfl hc
      exact ⟨u, by simp [e, Service.run, Arg.eval], ru⟩
  | @func par f sig arg rest fn t1 t2 hr hb _ ih1 ih2 =>
    constructor
    · intro ss hs hc
      cases ss with
      | nil => simp [lowerNs] at hs
      | cons s ss =>
        simp only [CallsOk] at hc
        cases s with
        | call f' sig'' =>
          simp only [CallsOkStmt] at hc
          obtain ⟨⟨fn', hm, rfl, rfl⟩, hc⟩ := hc
          simp only [lowerNs, lowerN, List.cons_append, List.nil_append, List.cons.injEq,
            TStmt.call.injEq] at hs
          obtain ⟨⟨rfl, rfl, rfl⟩, rfl⟩ := hs
          rw [g.func fn' hm] at hr
          cases hr
          obtain ⟨u1, e1, r1⟩ := ih1.1 fn'.body rfl (hp.calls fn' hm)
          obtain ⟨u2, e2, r2⟩ := ih2.1 ss rfl hc
          exact ⟨u1 ++ u2, by simp [e1, e2], .call hm rfl r1 r2⟩
        | write t =>
          simp only [lowerNs, lowerN, List.cons_append, List.cons.injEq, TStmt.call.injEq] at hs
          rw [hs.1.1, g.alloc] at hr
          cases hr
        | branch a b => simp [lowerNs, lowerN] at hs
    · intro t ss hs hc
      simp only [List.cons.injEq, TStmt.call.injEq] at hs
      rw [hs.1.1, g.write] at hr
      cases hr
  | @yes par a b rest tr _ ih =>
    refine ⟨?_, by intro t ss hs; simp at hs⟩
    intro ss hs hc
    cases ss with
    | nil => simp [lowerNs] at hs
    | cons s ss =>
      cases s with
      | branch a' b' =>
        simp only [lowerNs, lowerN, List.cons_append, List.nil_append, List.cons.injEq,
          TStmt.branch.injEq] at hs
        obtain ⟨⟨rfl, rfl⟩, rfl⟩ := hs
        simp only [CallsOk, CallsOkStmt] at hc
        obtain ⟨u, e, ru⟩ := ih.1 (a' ++ ss) (by rw [lowerNs_append]) (callsOk_append hc.1.1 hc.2)
        exact ⟨u, e, .yes ru⟩
      | call => simp [lowerNs, lowerN] at hs
      | write => simp [lowerNs, lowerN] at hs
  | @no par a b rest tr _ ih =>
    refine ⟨?_, by intro t ss hs; simp at hs⟩
    intro ss hs hc
    cases ss with
    | nil => simp [lowerNs] at hs
    | cons s ss =>
      cases s with
      | branch a' b' =>
        simp only [lowerNs, lowerN, List.cons_append, List.nil_append, List.cons.injEq,
          TStmt.branch.injEq] at hs
        obtain ⟨⟨rfl, rfl⟩, rfl⟩ := hs
        simp only [CallsOk, CallsOkStmt] at hc
        obtain ⟨u, e, ru⟩ := ih.1 (b' ++ ss) (by rw [lowerNs_append]) (callsOk_append hc.1.2 hc.2)
        exact ⟨u, e, .no ru⟩
      | call => simp [lowerNs, lowerN] at hs
      | write => simp [lowerNs, lowerN] at hs

/-- The module when the names are avoided. -/
def plainN (p : Program) (m : Func) : NModule :=
  ⟨p.map lowerFuncN ++ [entryFunc m.sig], [initImport, writeImport, allocImport]⟩

theorem not_mem_of_avoids {p : Program} {names : List String} (ha : Avoids p names) {n : String}
    (h : n ∈ names) : n ∉ p.map (·.name) := by
  intro hm
  obtain ⟨f, hf, e⟩ := List.mem_map.1 hm
  exact ha f hf (by rw [e]; exact h)

theorem hasFunc_false {p : Program} {n : String} (h : n ∉ p.map (·.name)) : hasFunc p n = false := by
  unfold hasFunc
  rw [List.any_eq_false]
  intro f hf hb
  exact h (List.mem_map.2 ⟨f, hf, by simpa using hb⟩)

theorem nativeModule_plain {p : Program} (hp : Accepted p) (ha : Avoids p nativeNames) {m : Func}
    (hm : m ∈ p) (hmm : m.name = "main") : nativeModule p = .ok (plainN p m) := by
  have h1 := hasFunc_false (not_mem_of_avoids ha (n := "_tribute_main") (by simp [nativeNames]))
  have h2 := hasFunc_false (not_mem_of_avoids ha (n := "__tribute_init") (by simp [nativeNames]))
  have h3 := hasFunc_false (not_mem_of_avoids ha (n := "__tribute_io_write") (by simp [nativeNames]))
  have h4 := hasFunc_false (not_mem_of_avoids ha (n := "__tribute_alloc") (by simp [nativeNames]))
  unfold nativeModule
  rw [mainOf_mem hp.names hm hmm]
  simp only [h1, Bool.false_eq_true, if_false]
  simp [initImport, writeImport, allocImport, h2, h3, h4, plainN]
  intro a _; rfl

theorem renameMain_ne_main (n : String) : renameMain n ≠ "main" := by
  unfold renameMain
  split <;> simp_all

theorem names_nodupN {p : Program} (hp : Accepted p) (ha : Avoids p nativeNames) (m : Func) :
    ((plainN p m).funcs.map (·.name)).Nodup := by
  have ht : "_tribute_main" ∉ p.map (·.name) := not_mem_of_avoids ha (by simp [nativeNames])
  have hc : (p.map lowerFuncN).map (·.name) = (p.map (·.name)).map renameMain := by
    simp [lowerFuncN, Function.comp_def]
  unfold plainN
  simp only [List.map_append, hc, List.map_cons, List.map_nil, entryFunc]
  rw [List.nodup_append]
  refine ⟨?_, by simp, ?_⟩
  · have hn := hp.names
    revert hn ht
    generalize p.map (·.name) = l
    intro ht hn
    rw [List.nodup_iff_pairwise_ne, List.pairwise_map]
    refine List.Pairwise.imp_of_mem ?_ (List.nodup_iff_pairwise_ne.1 hn)
    intro a b h1 h2 hne e
    unfold renameMain at e
    split at e <;> split at e
    · simp_all
    · subst e; exact ht h2
    · rw [e] at h1; exact ht h1
    · exact hne e
  · intro a h1 b h2 e
    simp only [List.mem_singleton] at h2
    subst h2; subst e
    obtain ⟨x, _, hx⟩ := List.mem_map.1 h1
    exact renameMain_ne_main x hx

theorem resolveN_func {m : NModule} {f : TFunc} (hn : (m.funcs.map (·.name)).Nodup)
    (h : f ∈ m.funcs) : resolveN m f.name = some (.func f) := by
  unfold resolveN
  rw [find_rev_of_mem (·.name) hn h]

theorem resolveN_import {p : Program} (ha : Avoids p nativeNames) (m : Func) {n : String}
    (hn : n ∈ nativeNames) (h1 : n ≠ "_tribute_main") (h2 : n ≠ "main") :
    resolveN (plainN p m) n =
      (([initImport, writeImport, allocImport]).find? fun i => i.name == n).map
        fun i => .service i.sig i.service := by
  have hc : (p.map lowerFuncN).map (·.name) = (p.map (·.name)).map renameMain := by
    simp [lowerFuncN, Function.comp_def]
  have : ((plainN p m).funcs.reverse.find? fun f => f.name == n) = none := by
    apply find_none TFunc.name
    unfold plainN
    simp only [List.map_reverse, List.mem_reverse, List.map_append, hc, List.mem_append, not_or]
    refine ⟨?_, by simpa [entryFunc] using h2⟩
    intro hm
    obtain ⟨x, hx, e⟩ := List.mem_map.1 hm
    unfold renameMain at e
    split at e
    · exact h1 e.symm
    · rw [e] at hx; exact not_mem_of_avoids ha hn hx
  unfold resolveN
  rw [this]
  rfl

theorem goodN {p : Program} (hp : Accepted p) (ha : Avoids p nativeNames) (m : Func) :
    GoodN p (resolveN (plainN p m)) where
  func f hf := resolveN_func (f := lowerFuncN f) (names_nodupN hp ha m) (by
    unfold plainN
    simp only [List.mem_append, List.mem_map]
    exact .inl ⟨f, hf, rfl⟩)
  alloc := by
    rw [resolveN_import ha m (by simp [nativeNames]) (by decide) (by decide)]
    rfl
  write := by
    rw [resolveN_import ha m (by simp [nativeNames]) (by decide) (by decide)]
    rfl

theorem initN {p : Program} (ha : Avoids p nativeNames) (m : Func) :
    resolveN (plainN p m) "__tribute_init" = some (.service initImport.sig .init) := by
  rw [resolveN_import ha m (by simp [nativeNames]) (by decide) (by decide)]
  rfl

theorem entryN {p : Program} (hp : Accepted p) (ha : Avoids p nativeNames) (m : Func) :
    resolveN (plainN p m) "main" = some (.func (entryFunc m.sig)) :=
  resolveN_func (f := entryFunc m.sig) (names_nodupN hp ha m) (by simp [plainN])

theorem compileN {p : Program} (hp : Accepted p) (ha : Avoids p nativeNames) {m : Func}
    (hm : m ∈ p) (hmm : m.name = "main") : compileNative p = .ok (plainN p m) := by
  have g := goodN hp ha m
  have hmain := g.func m hm
  rw [hmm] at hmain
  have : checkFuncs (resolveN (plainN p m)) (plainN p m).funcs = none := by
    apply checkFuncs_none
    intro f hf
    have hf' : f ∈ p.map lowerFuncN ∨ f = entryFunc m.sig := by
      unfold plainN at hf
      simpa only [List.mem_append, List.mem_singleton] using hf
    rcases hf' with h | rfl
    · obtain ⟨f', hf', rfl⟩ := List.mem_map.1 h
      exact checkN_stmts g f'.body (hp.calls f' hf')
    · have hmain' : resolveN (plainN p m) "_tribute_main" = some (.func (lowerFuncN m)) := by
        simpa [renameMain] using hmain
      simp [entryFunc, checkStmts, checkStmt, hmain', initN ha m, Callee.sig, lowerFuncN]
  unfold compileNative
  rw [nativeModule_plain hp ha hm hmm]
  simp only [this]

theorem runsN {p : Program} (hp : Accepted p) (ha : Avoids p nativeNames) {m : Func}
    (hm : m ∈ p) (hmm : m.name = "main") (tr : List Event) :
    nativeRuns (plainN p m) tr ↔ ∃ texts, tr = .init :: texts.map .out ∧ Does p texts := by
  have g := goodN hp ha m
  have hs := entryN hp ha m
  have hi := initN ha m
  have hmain : resolveN (plainN p m) "_tribute_main" = some (.func (lowerFuncN m)) := by
    have := g.func m hm
    rw [hmm] at this
    simpa [renameMain] using this
  constructor
  · intro h
    unfold nativeRuns at h
    cases h with
    | service hr => rw [hs] at hr; cases hr
    | func hr hb hrest =>
      rw [hs] at hr; cases hr
      cases hrest
      cases hb with
      | func hr => rw [hi] at hr; cases hr
      | service hr hb =>
        rw [hi] at hr; cases hr
        cases hb with
        | service hr => rw [hmain] at hr; cases hr
        | func hr hb hrest =>
          rw [hmain] at hr; cases hr
          cases hrest
          obtain ⟨u, e, ru⟩ := (backwardN hp g hb).1 m.body rfl (hp.calls m hm)
          exact ⟨u, by simp [e, Service.run], m, hm, hmm, ru⟩
  · rintro ⟨texts, rfl, m', hm', hmm', hr⟩
    cases mem_unique hp.names hm hm' (hmm.trans hmm'.symm)
    have h1 := forwardN g hr none
    have h2 := TRuns.func (param := none) (sig := m.sig) (arg := .none) hmain h1 .nil
    have h3 := TRuns.service (param := none) (sig := initImport.sig) (arg := .none) hi h2
    have h4 := TRuns.func (param := none) (sig := ⟨[], [.i32]⟩) (arg := .none) hs h3 .nil
    simpa [nativeRuns, Service.run] using h4

end Verif.Names
