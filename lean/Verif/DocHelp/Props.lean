import Verif.DocHelp.Proofs

/-!
# C110: signature help shows the documentation of the function it shows
-/

namespace Verif.DocHelp

/-- Let a file define a function at its top level, right after a run of comments that says `xs`, before
which there is something else or nothing.  Then `xs`, in order and one per line, is what is shown with
the function, and nothing is shown if `xs` is empty.
Missing: files in which a function of the same name is defined before it, in a nested module. -/
theorem C110_documentation_partial {white : Char → Bool} {pre run post kids : List Node} {name : Text}
    {xs : List Text} (hrun : SaysAll white run xs)
    (hpre : ∀ n ∈ pre.getLast?, n.isComment = false) (hfirst : ∀ n ∈ pre, ¬ Defines name n) :
    help white (pre ++ run ++ .func name kids :: post) name =
      if xs = [] then none else some (lines xs) := by
  have hr : ∀ n ∈ run, ¬ Defines name n := by
    clear hpre hfirst
    intro n hn hd
    induction hrun with
    | nil => cases hn
    | doc hs _ ih =>
      rcases List.mem_cons.1 hn with rfl | hn
      · cases hs <;> cases hd
      · exact ih hn
    | plain _ ih =>
      rcases List.mem_cons.1 hn with rfl | hn
      · cases hd
      · exact ih hn
  unfold help
  rw [find, findKids_skip name (pre ++ run) _ [] (by
    intro n hn
    rcases List.mem_append.1 hn with h | h
    · exact hfirst n h
    · exact hr n h)]
  rw [findKids, find, if_pos rfl]
  simp only [List.append_nil, List.reverse_append]
  rw [saysAll_snoc hrun, collect_stop (r := pre.reverse) (by
    intro n hn; rw [List.head?_reverse] at hn; exact hpre n hn)]
  rw [List.append_nil, List.reverse_reverse, joinLines_eq]
  cases xs with
  | nil => rfl
  | cons x xs => simp

/-- Documentation is shown only for names of functions defined in the file. -/
theorem C110_only {white : Char → Bool} {file : List Node} {name doc : Text}
    (h : help white file name = some doc) : ∃ n ∈ file, Defines name n := by
  unfold help at h
  cases hf : find name [] (.other file) with
  | none => rw [hf] at h; cases h
  | some b =>
    rw [find] at hf
    exact findKids_some name file [] b hf

/-- A function at the top level is shown with the documentation of a function of the same name in a
nested module before it. -/
theorem C110_nested_violated : ∃ (white : Char → Bool) (pre post kids : List Node) (name other : Text),
    (∀ n ∈ pre, ∀ k, n ≠ .func name k) ∧ (∀ n ∈ pre.getLast?, n.isComment = false) ∧
      help white (pre ++ .func name kids :: post) name = some other := by
  refine ⟨fun c => c == ' ', [.other [.docLine "/// inner".toList, .func ['f'] []]], [], [], ['f'],
    "inner".toList, ?_, ?_, by decide +kernel⟩
  · intro n hn k e
    rw [List.mem_singleton.1 hn] at e
    cases e
  · intro n hn
    cases hn
    rfl

/-- A struct, two comments of documentation with a plain one between, and the function. -/
example : help (fun c => c == ' ')
    ([.other []] ++ [.docLine "/// adds ".toList, .comment, .docBlock "/** one */".toList] ++
      .func ['f'] [] :: [.func ['g'] []]) ['f'] = some "adds\none".toList := by decide +kernel

example : SaysAll (fun c => c == ' ')
    [.docLine "/// adds ".toList, .comment, .docBlock "/** one */".toList]
    ["adds".toList, "one".toList] :=
  .doc (.line [' '] "adds".toList [' '] (by decide) (by decide) (by decide) (by decide))
    (.plain (.doc (.block [' '] "one".toList [' '] (by decide) (by decide) (by decide) (by decide))
      .nil))

example : ∀ n ∈ [Node.other []], ¬ Defines ['f'] n := by
  intro n hn hd
  rw [List.mem_singleton.1 hn] at hd
  cases hd with
  | inOther hk _ => cases hk

end Verif.DocHelp
