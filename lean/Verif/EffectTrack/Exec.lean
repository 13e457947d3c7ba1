import Verif.EffectTrack.Spec

/-! # Running the checker on examples -/

namespace Verif.EffectTrack
open Verif.Types

/-- A row constraint of the fragment. -/
def simpleB : Solver.Con → Bool
  | .req a b => a.effects.all (fun e => e.args = []) && decide (a.effects.map Eff.ability).Nodup &&
      (b.effects.all (fun e => e.args = []) && decide (b.effects.map Eff.ability).Nodup)
  | .teq _ _ => false

theorem simple_of {c : Solver.Con} (h : simpleB c = true) : c.Simple := by
  cases c with
  | teq a b => simp [simpleB] at h
  | req a b =>
    simp only [simpleB, Bool.and_eq_true, List.all_eq_true, decide_eq_true_eq] at h
    obtain ⟨⟨h1, h2⟩, h3, h4⟩ := h
    refine ⟨(a.rest.getD 0 + 1) + (b.rest.getD 0 + 1), ⟨h1, h2, ?_⟩, ⟨h3, h4, ?_⟩⟩ <;>
    · intro v hv
      rw [hv]
      simp only [Option.getD_some]
      omega

/-- Check the `i`-th function with the solver given the constraints on rows only. -/
def checkFn (P : Prog) (i : Nat) (env : Env) (f : Fn) : Option Env :=
  match Solver.solve 20 (bodyCtx P env i f).cs Solver.St.init with
  | none => none
  | some (bs, st) =>
    if (bodyCtx P env i f).cs.all simpleB && bs.all id && ioFree P.io f.body &&
        mainOk P st.ρ i (bodyCtx P env i f).cur &&
        annOk f (startCtx env i f).1 (bodyCtx P env i f).cur st.ρ then
      some (env.set i (Solver.rowApply st.ρ (inferredRow P env i f)))
    else none

/-- Check the first `n` functions. -/
def checkFns (P : Prog) : Nat → Option Env
  | 0 => some (collected P)
  | i + 1 => match checkFns P i, P.fns[i]? with
    | some env, some f => checkFn P i env f
    | _, _ => none

/-- Check the program. -/
def checkProg (P : Prog) : Option Env := checkFns P P.fns.length

theorem checks_of {P : Prog} (n : Nat) {env : Env} (h : checkFns P n = some env) :
    Checks P Solver.Con.Simple n env := by
  induction n generalizing env with
  | zero => cases h; exact .start
  | succ i ih =>
    simp only [checkFns] at h
    split at h
    · next env' f h1 h2 =>
      unfold checkFn at h
      split at h
      · cases h
      · next bs st hs =>
        split at h
        · next hc =>
          cases h
          simp only [Bool.and_eq_true, List.all_eq_true, id] at hc
          obtain ⟨⟨⟨⟨c1, c2⟩, c3⟩, c4⟩, c5⟩ := hc
          exact .fn (ih h1) h2 (fun _ h => h) (fun c hc => simple_of (c1 c hc)) hs c2 c3 c4 c5
        · cases h
    · cases h

theorem accepted_of {P : Prog} {env : Env} (h : checkProg P = some env) :
    Accepted P Solver.Con.Simple env := checks_of _ h

end Verif.EffectTrack
