import Verif.WasmCf.Preserve
import Verif.WasmCf.Validity

/-! Whole functions. -/
namespace Verif.WasmCf

theorem puts_notin {I : Interp} : ∀ (ps : List Value) (vs : List I.V) (env : Env I) (x : Value),
    x ∉ ps → puts env ps vs x = env x
  | [], _, _, _, _ => by rw [puts]; simp
  | _ :: _, [], _, _, _ => by rw [puts]; simp
  | p :: ps, v :: vs, env, x, h => by
    simp only [List.mem_cons, not_or] at h
    rw [puts, puts_notin ps vs _ x h.2, put, if_neg h.1]

theorem puts_at {I : Interp} : ∀ (ps : List Value) (vs : List I.V) (env : Env I) (j : Nat) (x : Value),
    ps.Nodup → vs.length = ps.length → ps[j]? = some x → vs[j]? = some (puts env ps vs x)
  | [], _, _, _, _, _, _, h => by simp at h
  | _ :: _, [], _, _, _, _, hl, _ => by simp at hl
  | p :: ps, v :: vs, env, 0, x, hn, hl, h => by
    simp only [List.getElem?_cons_zero, Option.some.injEq] at h
    subst h
    rw [puts, puts_notin _ _ _ _ (List.nodup_cons.1 hn).1]
    simp [put]
  | p :: ps, v :: vs, env, j + 1, x, hn, hl, h => by
    rw [puts]
    simp only [List.getElem?_cons_succ] at h ⊢
    exact puts_at ps vs _ j x (List.nodup_cons.1 hn).2 (by simpa using hl) h

/-- At the start, the locals hold the values. -/
theorem rel_start {I : Interp} {f : Func} (hf : WF f) {args : List I.V}
    (hl : args.length = f.params.length)
    (hnil : ∀ (j : Nat) p v, f.params[j]? = some p → f.ty p = 0 → args[j]? = some v → v = I.default 0) :
    Rel I f.ty (localsOf f) (puts (fun v => I.default (f.ty v)) f.params args)
      (start I (localTypes f) args) := by
  have hnd : f.params.Nodup := (List.nodup_append.1 hf.once).1
  constructor
  · intro v i hi
    unfold start
    cases ha : args[i]? with
    | some w =>
      have hlt : i < f.params.length := by
        rw [← hl]
        exact (List.getElem?_eq_some_iff.1 ha).1
      have hp : f.params[i]? = some f.params[i] := List.getElem?_eq_getElem hlt
      have := inj_localsOf f _ _ i hi (param_local hf.once hp)
      cases this
      have := puts_at f.params args (fun v => I.default (f.ty v)) i _ hnd hl hp
      rw [ha] at this
      simpa using this
    | none =>
      have hlt : args.length ≤ i := List.getElem?_eq_none_iff.1 ha
      have hv : v ∉ f.params := by
        intro hv
        obtain ⟨j, hj⟩ := List.mem_iff_getElem?.1 hv
        have h1 := param_local hf.once hj
        rw [hi] at h1
        cases h1
        have := (List.getElem?_eq_some_iff.1 hj).1
        omega
      rw [puts_notin _ _ _ _ hv, localTypes_lookup f hi]
      rfl
  · intro v hv
    by_cases hp : v ∈ f.params
    · obtain ⟨j, hj⟩ := List.mem_iff_getElem?.1 hp
      have h1 := puts_at f.params args (fun v => I.default (f.ty v)) j _ hnd hl hj
      exact hnil j v _ hj hv h1
    · rw [puts_notin _ _ _ _ hp, hv]

theorem run_sim {I : Interp} {f : Func} {code : List Instr} (hf : WF f) (ho : oneIfO 0 f.body)
    (hy : thenYieldsO f.ty f.body) (hc : compile f = some code) {args : List I.V}
    (hl : args.length = f.params.length)
    (hnil : ∀ (j : Nat) p v, f.params[j]? = some p → f.ty p = 0 → args[j]? = some v → v = I.default 0)
    (s : I.S) (n : Nat) :
    Sim I f.ty (localsOf f) none 0 (lastYield f.body)
      (execOps f.ty n f.body (puts (fun v => I.default (f.ty v)) f.params args) s)
      (wexec n code [] (start I (localTypes f) args) s) :=
  sim_ops (inj_localsOf f) n f.body hf.rules ho hy nofun hc _ _ s (rel_start hf hl hnil)

end Verif.WasmCf
