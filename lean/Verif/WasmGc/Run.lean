import Verif.WasmGc.Sim

/-! The emitted functions do what the functions do. -/

namespace Verif.WasmGc

open Spec

variable {D : Decls} {m : List (Fn AOp)} {c : Coll} {defs : List GcDef}

/-- A function and what it is emitted as. -/
structure FnEmit (D : Decls) (m : List (Fn AOp)) (c : Coll) (defs : List GcDef) (f : Fn AOp) (fw : WFn) :
    Prop where
  mem : f ∈ m
  params : fw.params.length = f.params.length
  results : (fw.results.length = 0 ↔ f.result = .nil) ∧ fw.results.length ≤ 1
  locals : List.Forall₂ (fun t v => valtype c.map t = some v) (values f) fw.locals
  body : ∃ ops, List.Forall₂ (fun a i => indexOp (indices (adtLower m)) (adtToGc a) = some i) f.body ops ∧
    (∀ i ∈ ops, Done (values f) c i) ∧
    emitOps { defs := defs, map := c.map } (values f) f.params.length ops = some fw.body

theorem compile_parts {w : WModule} (hm : ModuleOk true D m) (hc : compile m = some w) :
    ∃ c, Final D (adtLower m) c w.defs ∧ List.Forall₂ (FnEmit D m c w.defs) m w.fns := by
  unfold compile at hc
  cases hg : gcLower (adtLower m) with
  | none => simp [hg] at hc
  | some m' =>
    simp only [hg] at hc
    have hlow := gcLower_spec hg
    have hbody : ∀ f f', f ∈ m → FnLow m f f' →
        IBody D (indices (adtLower m)) (m.map fun f => (f.params, f.result)) f'.result f'.params f'.body ∧
          valTys f' = values f := by
      intro f f' hf hl
      obtain ⟨e1, e2, e3⟩ := hl
      obtain ⟨b1, b2⟩ := body_low hf (fun _ h => h) e3 (hm.1 f hf)
      refine ⟨by rw [e1, e2]; exact b1, ?_⟩
      simp only [valTys, values, e1, b2]
    have hpair : ∀ f' ∈ m', ∃ f ∈ m, FnLow m f f' := fun f' hf' => forall₂_mem hlow hf'
    unfold emitModule at hc
    cases hv : visitFns { map := seeds } m' with
    | none => simp [hv] at hc
    | some c =>
      simp only [hv] at hc
      cases hd : gcDefs c with
      | none => simp [hd] at hc
      | some defs =>
        simp only [hd, Option.map_eq_some_iff] at hc
        obtain ⟨wf, hwf, rfl⟩ := hc
        obtain ⟨inv, le, done⟩ := visitFns_spec (D := D) (g := adtLower m) m' (inv_seeds D _)
          (by
            intro f' hf' op hop
            obtain ⟨f, hf, hl⟩ := hpair f' hf'
            exact (hbody f f' hf hl).1.iok op hop) hv
        refine ⟨c, ⟨inv, le.map _ _ (by decide), hd⟩, ?_⟩
        have hfns := mapM_spec hwf
        simp only
        rw [List.forall₂_iff_get]
        have hl1 := hlow.length_eq
        have hl2 := hfns.length_eq
        refine ⟨by omega, ?_⟩
        intro i hi1 hi2
        simp only [List.get_eq_getElem]
        obtain ⟨f', hf', hl⟩ := forall₂_get hlow i m[i] (by simp [hi1])
        obtain ⟨fw, hfw, he⟩ := forall₂_get hfns i f' hf'
        have hwi : wf[i] = fw := (List.getElem?_eq_some_iff.1 hfw).2
        rw [hwi]
        have hmem : m[i] ∈ m := List.getElem_mem _
        obtain ⟨hib, hvt⟩ := hbody m[i] f' hmem hl
        obtain ⟨l1, l2, l3⟩ := hl
        unfold emitFn at he
        split at he
        · rename_i ps rs ls b e1 e2 e3 e4
          simp only [Option.some.injEq] at he
          subst he
          rw [hvt] at e3 e4
          refine ⟨hmem, ?_, ?_, mapM_spec e3, f'.body, l3, ?_, by rw [← l1]; exact e4⟩
          · have := (mapM_spec e1).length_eq
            rw [← l1]; exact this.symm
          · rw [l2] at e2
            unfold resultVTs at e2
            split at e2
            · rename_i hn
              simp only [Option.some.injEq] at e2; subst e2; simp [hn]
            · rename_i hn
              simp only [Option.map_eq_some_iff] at e2
              obtain ⟨x, _, rfl⟩ := e2
              simp [hn]
          · rw [← hvt]; exact done f' (List.mem_of_getElem? hf')
        · contradiction

section

variable {w : WModule} {callW : Nat → List Val → WObjs → Out (WObjs × Option Val)}
  {callA : Nat → List Val → Objs → Out (Objs × Option Val)}

/-- Outcomes of functions agree. -/
structure Same (ix : List (Ty × Nat)) (n : Nat) (a : Out (Objs × Option Val)) (b : Out (WObjs × Option Val)) :
    Prop where
  ok : ∀ h v, a = .ok (h, v) → HOk ix n h ∧ b = .ok (toW ix h, v)
  trap : a = .trap → b = .trap

theorem body_sim (fin : Final D (adtLower m) c defs) (hwd : w.defs = defs)
    (hfn : ∀ (k : Nat) (fa : Fn AOp), m[k]? = some fa →
      ∃ fw, w.fns[k]? = some fw ∧ fw.params.length = fa.params.length)
    (hcall : CallSim (indices (adtLower m)) c.count callA callW) {f : Fn AOp} {nres : Nat} {tys : List Ty}
    (hf : f ∈ m) (hnres : nres = 0 ↔ f.result = .nil) :
    ∀ {ops : List AOp} {is : List IOp} (tenv : List Ty) (env ls s : List Val) (h : Objs) (code : List Instr),
      List.Forall₂ (fun a i => indexOp (indices (adtLower m)) (adtToGc a) = some i) ops is →
      (∀ a ∈ ops, a ∈ f.body) → BodyOk true D m f.result tenv ops → (∀ i ∈ is, Done tys c i) →
      tys = tenv ++ ops.filterMap Spec.resultTy → env.length = tenv.length →
      emitOps { defs := defs, map := c.map } tys tenv.length is = some code →
      LocOk tys env ls → HOk (indices (adtLower m)) c.count h →
      Same (indices (adtLower m)) c.count (abody D callA f.result ops env h)
        (wbody w callW nres code ls s (toW (indices (adtLower m)) h))
  | _, _, tenv, env, ls, s, h, code, .nil, _, hb, _, _, _, _, _, _ => hb.elim
  | a :: ops, i :: is, tenv, env, ls, s, h, code, .cons hi ht, hsub, hb, hd, htys, henv, he, hl, hh => by
    unfold BodyOk at hb
    obtain ⟨ho, hb⟩ := hb
    simp only [emitOps] at he
    cases h1 : emitOp { defs := defs, map := c.map } tys tenv.length i with
    | none => simp [h1] at he
    | some x =>
      cases h2 : emitOps { defs := defs, map := c.map } tys (nextLocal tenv.length i) is with
      | none => simp [h1, h2] at he
      | some y =>
        simp only [h1, h2, Option.some.injEq] at he
        subst he
        obtain ⟨hw, hr, hret⟩ := lower_wt hf (hsub a (by simp)) ho hi
        have general : (∀ vs, a ≠ .ret vs) →
            BodyOk true D m f.result (tenv ++ (Spec.resultTy a).toList) ops →
            Same (indices (adtLower m)) c.count (abody D callA f.result (a :: ops) env h)
              (wbody w callW nres (x ++ y) ls s (toW (indices (adtLower m)) h)) := by
          intro hnr hb
          have ht' : tys = tenv ++ (Spec.resultTy a).toList ++ ops.filterMap Spec.resultTy := by
            rw [htys]; cases hx : Spec.resultTy a <;> simp [hx]
          have sim := op_sim (nres := nres) fin hwd hfn hcall hf (hsub a (by simp)) ho hi ht' henv
            (hd i (by simp)) hnr h1 hl hh s
          have hab : abody D callA f.result (a :: ops) env h =
              match aop D callA env h a with
              | .ok (some v, h') => abody D callA f.result ops (env ++ [v]) h'
              | .ok (none, h') => abody D callA f.result ops env h'
              | .trap => .trap
              | .stuck => .stuck := by
            cases a <;> first
              | rfl
              | exact absurd rfl (hnr _)
          rw [hab]
          have hnl : nextLocal tenv.length i = (tenv ++ (Spec.resultTy a).toList).length := by
            unfold nextLocal; rw [hr]; cases hx : Spec.resultTy a <;> simp
          rw [hnl] at h2
          cases hx : aop D callA env h a with
          | stuck => exact ⟨by simp, by simp⟩
          | trap => exact ⟨by simp, fun _ => sim.trap hx y⟩
          | ok p =>
            obtain ⟨v, h'⟩ := p
            obtain ⟨e1, hh', ls', s', e2, e3⟩ := sim.ok v h' hx
            rw [e2]
            have hrec := body_sim fin hwd hfn hcall hf hnres (tys := tys) (tenv ++ (Spec.resultTy a).toList)
              (env ++ v.toList) ls' s' h' y ht (fun b hb => hsub b (by simp [hb])) hb
              (fun b hb => hd b (by simp [hb])) ht'
              (by
                cases hv : v <;> cases hres : Spec.resultTy a <;> simp [hv, hres] at e1 <;> simp [henv])
              h2 e3 hh'
            cases v with
            | none => simpa using hrec
            | some v => simpa using hrec
        split at hb
        · -- the return
          rename_i vs
          cases ht
          simp only [emitOps, Option.some.injEq] at h2
          subst h2
          simp only [adtToGc, indexOp, Option.some.injEq] at hi
          subst hi
          simp only [emitOp, Option.some.injEq] at h1
          subst h1
          simp only [abody, List.append_nil]
          cases hv : vals env vs with
          | none => exact ⟨by simp, by simp⟩
          | some ws =>
            rw [gets_run hl.get _ _ vs ws s hv]
            refine ⟨?_, by simp⟩
            intro h0 v0 e0
            simp only [Out.ok.injEq, Prod.mk.injEq] at e0
            obtain ⟨rfl, rfl⟩ := e0
            refine ⟨hh, ?_⟩
            rw [wbody_cons]
            by_cases hn : f.result = .nil
            · simp [wstep, hnres.2 hn, hn]
            · have hn' : nres ≠ 0 := fun e => hn (hnres.1 e)
              rcases ho with ⟨e, _⟩ | ⟨_, v, ty, rfl, hty, _⟩
              · exact absurd e hn
              · obtain ⟨x, xs, _, hx, rfl⟩ := vals_cons hv
                simp [vals] at hx
                subst hx
                simp [wstep, hn', hn]
        · exact hb.elim
        · rename_i g1 g2
          exact general (by
            intro vs e
            cases ops with
            | nil => exact g1 vs e rfl
            | cons x xs => exact g2 vs x xs e rfl) hb

end

theorem run_sim {w : WModule} (hm : ModuleOk true D m) (fin : Final D (adtLower m) c w.defs)
    (hf : List.Forall₂ (FnEmit D m c w.defs) m w.fns) :
    ∀ fuel, CallSim (indices (adtLower m)) c.count (arun D m fuel) (wrun w fuel)
  | 0 => fun k args h _ => ⟨by simp [arun], by simp [arun]⟩
  | fuel + 1 => by
    have ih := run_sim hm fin hf fuel
    intro k args h hh
    simp only [arun, wrun]
    cases hk : m[k]? with
    | none => simp
    | some fn =>
      obtain ⟨fw, hfw, he⟩ := forall₂_get hf k fn hk
      simp only [hfw]
      by_cases ha : args.length = fn.params.length
      · rw [if_pos ha, if_pos (by rw [he.params]; exact ha)]
        obtain ⟨ops, hops, hdone, hemit⟩ := he.body
        have hfn : ∀ (k : Nat) (fa : Fn AOp), m[k]? = some fa →
            ∃ fw, w.fns[k]? = some fw ∧ fw.params.length = fa.params.length := by
          intro j fa hj
          obtain ⟨fw', hw', he'⟩ := forall₂_get hf j fa hj
          exact ⟨fw', hw', he'.params⟩
        have hlen := he.locals.length_eq
        have hpl : fn.params.length ≤ (values fn).length := by simp [values]
        have loc : LocOk (values fn) args (args ++ (fw.locals.drop fw.params.length).map defaultVal) := by
          refine ⟨?_, ?_, ?_⟩
          · simp only [List.length_append, List.length_map, List.length_drop]
            have := he.params
            omega
          · intro j v hj
            rw [List.getElem?_append_left (List.getElem?_eq_some_iff.1 hj).1]; exact hj
          · intro j hj hn
            obtain ⟨v, hv, hvt⟩ := forall₂_get he.locals j _ hn
            rw [List.getElem?_append_right hj, List.getElem?_map, List.getElem?_drop]
            have e : fw.params.length + (j - args.length) = j := by rw [he.params]; omega
            rw [e, hv]
            simp only [Option.map_some, Option.some.injEq]
            simp only [valtype] at hvt
            split at hvt <;> simp only [Option.some.injEq] at hvt <;> subst hvt <;> rfl
        have := body_sim (w := w) (nres := fw.results.length) fin rfl hfn ih he.mem he.results.1 fn.params args _ []
          h fw.body hops (fun _ h => h) (hm.1 fn he.mem) hdone rfl ha hemit loc hh
        exact ⟨this.ok, this.trap⟩
      · rw [if_neg ha]
        simp

theorem toW_agree {h : Objs} (hh : HOk (indices (adtLower m)) c.count h) :
    Agree h (toW (indices (adtLower m)) h) := by
  refine ⟨by simp [toW, Function.comp_def], ?_⟩
  intro a b o p x y h1 h2 h3 h4
  obtain ⟨o, fo⟩ := o
  obtain ⟨p, fp⟩ := p
  obtain ⟨d1, i, hi, _, w1⟩ := hh.get h1
  obtain ⟨d2, j, hj, _, w2⟩ := hh.get h2
  rw [w1] at h3
  rw [w2] at h4
  simp only [Option.some.injEq] at h3 h4
  subst h3 h4
  exact (idx_eq_iff d1 d2 hi hj).symm

end Verif.WasmGc
