import Verif.SigHelp.Proofs
/-
C94: signature help shows the function being called and the parameter the cursor is in.

Full statement: for every file, with the cursor in (or at the end of) argument i of the
innermost call of a function of the file, the answer is the signature of that function
with parameter i active.  It is false of the code: the lookup of the argument list asks
for a field that the grammar does not have, so there never is an answer.
-/
namespace Verif.SigHelp

open Spec

/-- Were the argument list of calls in a field called "arguments", the answer would be
right: the signature of the called function, with the parameter the cursor is in. -/
theorem C94_activeParameter_partial {text : Nat → Nat → Option String} {root call fn argsNode a : Node}
    {sigs : List Signature} {s : Signature} {name : String} {args : List Node} {o i : Nat}
    (hord : Ordered root) (hcall : InnermostCall root o call)
    (hfn : Field call "function" fn) (hname : text fn.start fn.stop = some name)
    (hargs : Field call "arguments" argsNode) (hlist : ArgumentList argsNode args)
    (hi : args[i]? = some a) (ho : a.start ≤ o ∧ o ≤ a.stop)
    (hs : s ∈ sigs) (hsn : s.name = name) (huniq : ∀ s' ∈ sigs, s'.name = name → s' = s) :
    signatureHelp text root sigs o = some (s, i) := by
  obtain ⟨hb, hk, hin⟩ := hcall
  have h1 := lastCall_innermost hb hord hk hin
  have h2 := countCommas_list ((ordered_below hord hb).kid hargs.1) hlist hi ho
  have h3 : findSignature sigs name = some s := by
    unfold findSignature
    cases hf : sigs.find? (fun s => s.name == name) with
    | none =>
      rw [List.find?_eq_none] at hf
      exact absurd (by simpa using hsn) (hf s hs)
    | some t =>
      have ht := List.find?_some hf
      rw [huniq t (List.mem_of_find?_eq_some hf) (by simpa using ht)]
  simp [signatureHelp, findEnclosingCall, h1, extractCallInfo, childByField_eq hfn, hname,
    childByField_eq hargs, h2, h3]

/-- `f(1, ?)` without and with the field: the tree of `f(1, 22)`. -/
def exTree (argsField : Option String) : Node :=
  .mk "source_file" none 0 8 [
    .mk "call_expression" none 0 8 [
      .mk "identifier" (some "function") 0 1 [],
      .mk "argument_list" argsField 1 8 [
        .mk "(" none 1 2 [], .mk "nat_literal" none 2 3 [], .mk "," none 3 4 [],
        .mk "nat_literal" none 5 7 [], .mk ")" none 7 8 []]]]

def exText : Nat → Nat → Option String := fun s e => if s = 0 ∧ e = 1 then some "f" else none

def exSigs : List Signature := [⟨"g", []⟩, ⟨"f", ["x", "y"]⟩]

/-- The hypotheses are met by the second argument, at its end. -/
example : signatureHelp exText (exTree (some "arguments")) exSigs 7 = some (⟨"f", ["x", "y"]⟩, 1) := by
  refine C94_activeParameter_partial (call := .mk "call_expression" none 0 8 [
      .mk "identifier" (some "function") 0 1 [],
      .mk "argument_list" (some "arguments") 1 8 [
        .mk "(" none 1 2 [], .mk "nat_literal" none 2 3 [], .mk "," none 3 4 [],
        .mk "nat_literal" none 5 7 [], .mk ")" none 7 8 []]])
    (fn := .mk "identifier" (some "function") 0 1 []) (name := "f")
    (argsNode := .mk "argument_list" (some "arguments") 1 8 [
        .mk "(" none 1 2 [], .mk "nat_literal" none 2 3 [], .mk "," none 3 4 [],
        .mk "nat_literal" none 5 7 [], .mk ")" none 7 8 []])
    (args := [.mk "nat_literal" none 2 3 [], .mk "nat_literal" none 5 7 []])
    (a := .mk "nat_literal" none 5 7 [])
    ?_ ⟨?_, rfl, ?_⟩ ⟨?_, rfl, ?_⟩ rfl ⟨?_, rfl, ?_⟩ ?_ rfl ?_ ?_ rfl ?_
  · refine .mk (by simp) (by simp [Node.start, Node.stop]) ?_
    simp only [List.mem_cons, List.not_mem_nil, or_false, forall_eq]
    refine .mk (by simp [Node.start, Node.stop]) (by simp [Node.start, Node.stop]) ?_
    simp only [List.mem_cons, List.not_mem_nil, or_false, forall_eq_or_imp, forall_eq]
    refine ⟨.mk (by simp) (by simp) (by simp), .mk ?_ ?_ ?_⟩
    · simp [Node.start, Node.stop]
    · simp [Node.start, Node.stop]
    · simp only [List.mem_cons, List.not_mem_nil, or_false, forall_eq_or_imp, forall_eq]
      exact ⟨.mk (by simp) (by simp) (by simp), .mk (by simp) (by simp) (by simp),
        .mk (by simp) (by simp) (by simp), .mk (by simp) (by simp) (by simp),
        .mk (by simp) (by simp) (by simp)⟩
  · exact .down List.mem_cons_self (by simp [Has, Node.start, Node.stop]) .here
  · intro k hk hko m hm
    simp only [Node.kids, List.mem_cons, List.not_mem_nil, or_false] at hk
    rcases hk with rfl | rfl
    · simp [Has, Node.start, Node.stop] at hko
    · cases hm with
      | here => simp [Node.kind]
      | down hk' hko' hb =>
        simp only [Node.kids, List.mem_cons, List.not_mem_nil, or_false] at hk'
        rcases hk' with rfl | rfl | rfl | rfl | rfl <;>
          simp [Has, Node.start, Node.stop] at hko'
        cases hb with
        | here => simp [Node.kind]
        | down h _ _ => simp [Node.kids] at h
  · simp [Node.kids]
  · simp [Node.kids, Node.field]
  · simp [Node.kids]
  · simp [Node.kids, Node.field]
  · refine ⟨_, _, rfl, by simp [Node.kind], by simp [Node.start, Node.stop], ?_⟩
    exact .more (by simp [Node.kind]) (by simp [Node.kind]) (by simp [Node.start, Node.stop])
      (.last (by simp [Node.kind]) (by simp [Node.kind]))
  · simp [Node.start, Node.stop]
  · simp [exSigs]
  · simp [exSigs]

/-- False: there is never an answer, whatever the file, the functions it declares and the
position. -/
theorem C94_noAnswer_violated {text : Nat → Nat → Option String} {root : Node}
    (h : NoArgumentsField root) (sigs : List Signature) (o : Nat) :
    signatureHelp text root sigs o = none := by
  have : findEnclosingCall text root o = none := by
    unfold findEnclosingCall
    cases hl : lastCall (pathTo o root) with
    | none => rfl
    | some c =>
      obtain ⟨hm, hk⟩ := lastCall_mem hl
      have hn := childByField_none (h c (below_inside (path_below o root c hm)) hk)
      simp only [extractCallInfo, hn]
      split
      · rfl
      · split <;> rfl
  simp [signatureHelp, this]

/-- In particular not in the second argument of `f(1, 22)`, where a signature of `f` is
known. -/
example : NoArgumentsField (exTree none) ∧ signatureHelp exText (exTree none) exSigs 6 = none := by
  have h : NoArgumentsField (exTree none) := by
    intro c hc hk k hkk
    cases hc with
    | here => simp [exTree, Node.kind] at hk
    | down h1 h2 =>
      simp only [exTree, Node.kids, List.mem_cons, List.not_mem_nil, or_false] at h1
      subst h1
      cases h2 with
      | here =>
        simp only [Node.kids, List.mem_cons, List.not_mem_nil, or_false] at hkk
        rcases hkk with rfl | rfl <;> simp [Node.field]
      | down h3 h4 =>
        simp only [Node.kids, List.mem_cons, List.not_mem_nil, or_false] at h3
        rcases h3 with rfl | rfl
        · cases h4 with
          | here => simp [Node.kind] at hk
          | down h5 _ => simp [Node.kids] at h5
        · cases h4 with
          | here => simp [Node.kind] at hk
          | down h5 h6 =>
            simp only [Node.kids, List.mem_cons, List.not_mem_nil, or_false] at h5
            rcases h5 with rfl | rfl | rfl | rfl | rfl <;>
              (cases h6 with
                | here => simp [Node.kind] at hk
                | down h7 _ => simp [Node.kids] at h7)
  exact ⟨h, C94_noAnswer_violated h _ _⟩

end Verif.SigHelp
