import Verif.SourcePath.Proofs

/-!
# C114: a source file is accepted under any path and its module has its name
-/

namespace Verif.SourcePath

/-- A file `base.ext` in any directory, absolute or relative, whose path has only characters that stand
for themselves in a URI, is accepted and its module is called `base`.
Missing: all other characters. -/
theorem C114_name_partial {path dir base ext : Text} (hp : path = dir ++ '/' :: (base ++ '.' :: ext))
    (hc : ∀ c ∈ path, pathChar c = true) (hb : base ≠ []) (hs : '/' ∉ base) (he : '.' ∉ ext)
    (hs' : '/' ∉ ext) (hx : ext ≠ []) : moduleOfPath path = some (some base) := by
  have hn : '/' ∉ base ++ '.' :: ext := by
    intro h
    rcases List.mem_append.1 h with h | h
    · exact hs h
    · rcases List.mem_cons.1 h with h | h
      · revert h; decide
      · exact hs' h
  have hl : 2 < (base ++ '.' :: ext).length := by
    have h1 := List.length_pos_of_ne_nil hb
    have h2 := List.length_pos_of_ne_nil hx
    simp only [List.length_append, List.length_cons]
    omega
  have key : ∀ d : Text, moduleOfUri (d ++ '/' :: (base ++ '.' :: ext)) =
      (fileName (pathPart (d ++ '/' :: (base ++ '.' :: ext)))).map stem := fun _ => rfl
  have name : ∀ d : Text, fileName (d ++ '/' :: (base ++ '.' :: ext)) = some (base ++ '.' :: ext) :=
    fun d => fileName_last hn (by intro e; rw [e] at hl; simp at hl)
      (by intro e; rw [e] at hl; simp at hl) (by intro e; rw [e] at hl; simp at hl)
  unfold moduleOfPath pathToUri
  simp only
  by_cases h : path.head? = some '/'
  · rw [if_pos h, if_pos (parses_plain hc), Option.map_some, hp, key, ← hp, pathPart_plain hc, hp, name,
      Option.map_some, stem_dot hb he]
  · have hc' : ∀ c ∈ '/' :: path, pathChar c = true := by
      intro c h
      rcases List.mem_cons.1 h with rfl | h
      · decide
      · exact hc c h
    rw [if_neg h, if_pos (parses_plain hc'), Option.map_some]
    have e : '/' :: path = ('/' :: dir) ++ '/' :: (base ++ '.' :: ext) := by rw [hp]; rfl
    rw [e, key, ← e, pathPart_plain hc', e, name, Option.map_some, stem_dot hb he]

/-- Absolute paths of different files are kept apart. -/
theorem C114_apart {p q u : Text} (hp : p.head? = some '/') (hq : q.head? = some '/')
    (h : pathToUri p = some u) (h' : pathToUri q = some u) : p = q := by
  unfold pathToUri at h h'
  simp only [hp, hq, if_true] at h h'
  split at h
  · split at h'
    · rw [Option.some.inj h, Option.some.inj h']
    · cases h'
  · cases h

/-- A space in the path of a file, or a letter outside ASCII, makes the compiler panic. -/
theorem C114_panic_violated : moduleOfPath "/home/me/my file.trb".toList = none ∧
    moduleOfPath "/home/me/café.trb".toList = none ∧ moduleOfPath "/home/me/100%.trb".toList = none := by
  decide +kernel

/-- A number sign or a question mark in the name of a file cuts off the rest of it. -/
theorem C114_cut_violated : moduleOfPath "/home/me/b#c.trb".toList = some (some "b".toList) ∧
    moduleOfPath "/home/me#1/b.trb".toList = some (some "me".toList) := by
  decide +kernel

/-- A relative path and the absolute one that looks like it are taken for the same file. -/
theorem C114_relative_violated : ∃ p q : Text, p ≠ q ∧ pathToUri p = pathToUri q ∧ pathToUri p ≠ none :=
  ⟨"a.trb".toList, "/a.trb".toList, by decide +kernel, by decide +kernel, by decide +kernel⟩

example : ∀ c ∈ "/home/user/project/my.module.trb".toList, pathChar c = true := by decide +kernel

example : moduleOfPath "/home/user/project/my.module.trb".toList = some (some "my.module".toList) :=
  C114_name_partial (dir := "/home/user/project".toList) (base := "my.module".toList)
    (ext := "trb".toList) (by decide +kernel) (by decide +kernel) (by decide +kernel) (by decide +kernel)
    (by decide +kernel) (by decide +kernel) (by decide +kernel)

end Verif.SourcePath
