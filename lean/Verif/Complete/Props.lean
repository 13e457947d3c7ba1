import Verif.Complete.Proofs

/-!
# C111: completion offers the names that begin with what was typed
-/

namespace Verif.Complete

/-- Every name declared at the top level that begins with what was typed is offered as what it is, the
ability of input and output under every name it is imported by, and every word of the language but
`extern` and `op`.
Missing: those two words, names in modules and names imported from elsewhere. -/
theorem C111_complete_partial {decls : List Decl} {pre n : Text} (hp : pre <+: n) :
    (∀ k, (∃ d ∈ decls, Declares d n k) → (n, k) ∈ complete decls pre) ∧
      ((∃ d ∈ decls, ImportsIo d n) → ∃ k, (n, k) ∈ complete decls pre) ∧
      (n ∈ words → n ≠ "extern".toList → n ≠ "op".toList → (n, Kind.keyword) ∈ complete decls pre) := by
  have hb : pre.isPrefixOf n = true := List.isPrefixOf_iff_prefix.2 hp
  refine ⟨?_, ?_, ?_⟩
  · rintro k ⟨d, hd, h⟩
    exact List.mem_append_left _ (List.mem_filter.2 ⟨fold_declares decls [] d hd h, hb⟩)
  · rintro ⟨d, hd, h⟩
    obtain ⟨k, hk⟩ := fold_imports decls [] d hd h
    exact ⟨k, List.mem_append_left _ (List.mem_filter.2 ⟨hk, hb⟩)⟩
  · intro hw h1 h2
    have hw : n ∈ keywords := by
      have he : words = keywords ++ ["extern".toList, "op".toList] := by decide +kernel
      rw [he] at hw
      rcases List.mem_append.1 hw with h | h
      · exact h
      · simp only [List.mem_cons, List.not_mem_nil, or_false] at h
        rcases h with h | h
        · exact absurd h h1
        · exact absurd h h2
    exact List.mem_append_right _ (List.mem_map.2 ⟨n, List.mem_filter.2 ⟨hw, hb⟩, rfl⟩)

/-- Nothing else is offered. -/
theorem C111_sound {decls : List Decl} {pre n : Text} {k : Kind} (h : (n, k) ∈ complete decls pre) :
    pre <+: n ∧ ((∃ d ∈ decls, Declares d n k) ∨ (k = .ability ∧ ∃ d ∈ decls, ImportsIo d n) ∨
      (k = .keyword ∧ n ∈ words)) := by
  rcases List.mem_append.1 h with h | h
  · obtain ⟨h1, h2⟩ := List.mem_filter.1 h
    refine ⟨List.isPrefixOf_iff_prefix.1 h2, ?_⟩
    rcases fold_sound decls [] h1 with h | ⟨d, hd, h | ⟨h, hk⟩⟩
    · cases h
    · exact .inl ⟨d, hd, h⟩
    · exact .inr (.inl ⟨hk, d, hd, h⟩)
  · obtain ⟨w, hw, he⟩ := List.mem_map.1 h
    obtain ⟨h1, h2⟩ := List.mem_filter.1 hw
    simp only [Prod.mk.injEq] at he
    obtain ⟨rfl, rfl⟩ := he
    exact ⟨List.isPrefixOf_iff_prefix.1 h2, .inr (.inr ⟨rfl, keywords_words.subset h1⟩)⟩

/-- If all names declared and imported are different from each other and from the words of the
language, then every name is offered once.
Missing: see `C111_once_violated`. -/
theorem C111_once_partial {decls : List Decl} (h : ((decls.map names).flatten ++ words).Nodup)
    (pre : Text) : ((complete decls pre).map Prod.fst).Nodup := by
  have hn := fold_names decls [] (by simpa using (List.nodup_append.1 h).1)
  have hs : ((complete decls pre).map Prod.fst).Sublist ((decls.map names).flatten ++ words) := by
    unfold complete
    rw [List.map_append]
    refine List.Sublist.append ?_ ?_
    · have := (List.filter_sublist (p := fun i : Item => pre.isPrefixOf i.1)
        (l := completionItems decls)).map Prod.fst
      unfold completionItems at this ⊢
      rw [hn] at this
      simpa using this
    · unfold completeKeywords
      rw [List.map_map]
      have : (Prod.fst ∘ fun k : Text => ((k, Kind.keyword) : Item)) = id := rfl
      rw [this, List.map_id]
      exact List.filter_sublist.trans keywords_words
  exact hs.nodup h

/-- `use std::io::Io` followed by `ability Io {}`: the name is offered twice, in the other order once. -/
theorem C111_once_violated : ∃ d d' : Decl,
    (complete [d, d'] "Io".toList).map Prod.fst = ["Io".toList, "Io".toList] ∧
      (complete [d', d] "Io".toList).map Prod.fst = ["Io".toList] :=
  ⟨.use ["std".toList, "io".toList, "Io".toList] none, .ability "Io".toList [], by decide +kernel,
    by decide +kernel⟩

/-- Two words of the language are never offered. -/
theorem C111_words_violated : ∃ n ∈ words, ∀ (decls : List Decl) (pre : Text),
    (n, Kind.keyword) ∉ complete decls pre := by
  refine ⟨"op".toList, by decide +kernel, ?_⟩
  intro decls pre h
  rcases List.mem_append.1 h with h | h
  · rcases fold_sound decls [] (List.mem_filter.1 h).1 with h | ⟨d, _, h | ⟨_, hk⟩⟩
    · cases h
    · cases h
    · cases hk
  · obtain ⟨w, hw, he⟩ := List.mem_map.1 h
    have hm := (List.mem_filter.1 hw).1
    simp only [Prod.mk.injEq, and_true] at he
    subst he
    revert hm
    decide +kernel

/-- Neither what a module declares nor what is imported from it is offered: `mod m { fn f() }` and
`use m::f`. -/
theorem C111_imported_violated : ∃ (body : List Decl) (m n : Text) (k : Kind),
    (∃ d ∈ body, Declares d n k) ∧ complete [.module m body, .use [m, n] none] n = [] :=
  ⟨[.function "foo".toList], ['m'], "foo".toList, .function, ⟨_, List.mem_cons_self .., .function _⟩,
    by decide +kernel⟩

/-- `enum Option { None, Some }`, `fn new()` and `use std::io::Io`. -/
private def sample : List Decl :=
  [.enum "Option".toList ["None".toList, "Some".toList], .function "new".toList,
    .use ["std".toList, "io".toList, "Io".toList] none]

example : complete sample "N".toList =
    [("None".toList, .constructor), ("Nil".toList, .keyword)] := by decide +kernel

example : ((sample.map names).flatten ++ words).Nodup := by decide +kernel

end Verif.Complete
