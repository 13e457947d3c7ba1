import Verif.Literals.Text
/-!
# Lemmas about delimiters of texts
-/
namespace Verif.Literals

theorem slice_at {text pre s suf : List Char} {i j : Nat} (e : text = pre ++ s ++ suf) (hi : i = pre.length)
    (hj : j = pre.length + s.length) : slice text i j = s := by subst e hi hj; exact slice_mid pre s suf

theorem getElem_at {text pre suf : List Char} {c : Char} {i : Nat} (e : text = pre ++ c :: suf) (hi : i = pre.length) :
    text[i]? = some c := by subst e hi; simp

theorem exprString_quoted (w : List Char) :
    exprString ('"' :: w ++ ['"']) = fromUtf8 (processEscapes (utf8 w)) := by
  have ht := trim_ends '"' '"' w (by decide) (by decide)
  simp only [exprString, ht]
  have hp : stringPrefix ('"' :: w ++ ['"']) = (0, false) := rfl
  simp only [hp, Bool.false_eq_true, if_false, Nat.lt_irrefl, gt_iff_lt]
  have hg : ('"' :: w ++ ['"'])[0]? = some '"' := rfl
  have hs : slice ('"' :: w ++ ['"']) (0 + 1) (('"' :: w ++ ['"']).length - 1) = w :=
    slice_at (pre := ['"']) (s := w) (suf := ['"']) rfl rfl (by simp; omega)
  rw [if_pos hg, hs]

theorem exprString_s_quoted (w : List Char) :
    exprString ('s' :: '"' :: w ++ ['"']) = fromUtf8 (processEscapes (utf8 w)) := by
  have ht := trim_ends 's' '"' ('"' :: w) (by decide) (by decide)
  have hp : stringPrefix ('s' :: '"' :: w ++ ['"']) = (1, false) := rfl
  simp only [exprString]
  rw [show 's' :: '"' :: w ++ ['"'] = 's' :: ('"' :: w) ++ ['"'] from rfl, ht,
    show 's' :: ('"' :: w) ++ ['"'] = 's' :: '"' :: w ++ ['"'] from rfl]
  simp only [hp, Bool.false_eq_true, if_false, Nat.lt_irrefl, gt_iff_lt]
  have hg : ('s' :: '"' :: w ++ ['"'])[1]? = some '"' := rfl
  have hs : slice ('s' :: '"' :: w ++ ['"']) (1 + 1) (('s' :: '"' :: w ++ ['"']).length - 1) = w :=
    slice_at (pre := ['s', '"']) (s := w) (suf := ['"']) rfl rfl (by simp; omega)
  rw [if_pos hg, hs]

theorem exprBytes_quoted (w : List Char) : exprBytes ('b' :: '"' :: w ++ ['"']) = processEscapes (utf8 w) := by
  have ht := trim_ends 'b' '"' ('"' :: w) (by decide) (by decide)
  simp only [exprBytes]
  rw [show 'b' :: '"' :: w ++ ['"'] = 'b' :: ('"' :: w) ++ ['"'] from rfl, ht,
    show 'b' :: ('"' :: w) ++ ['"'] = 'b' :: '"' :: w ++ ['"'] from rfl]
  rw [if_neg (by intro h; rcases h with h | h <;> exact absurd h (by simp [List.isPrefixOf])),
    if_pos (show ('b' :: '"' :: w ++ ['"']).head? = some 'b' from rfl)]
  have hs : slice ('b' :: '"' :: w ++ ['"']) 2 (('b' :: '"' :: w ++ ['"']).length - 1) = w :=
    slice_at (pre := ['b', '"']) (s := w) (suf := ['"']) rfl rfl (by simp; omega)
  have hh : (('b' :: '"' :: w ++ ['"']).drop 1).takeWhile (· == '#') = [] := rfl
  rw [hh, if_neg (by decide), hs]

theorem patString_quoted (w : List Char) : patString ('"' :: w ++ ['"']) = unescape w.length w := by
  have ht := trim_ends '"' '"' w (by decide) (by decide)
  have hs : slice ('"' :: w ++ ['"']) 1 (('"' :: w ++ ['"']).length - 1) = w :=
    slice_at (pre := ['"']) (s := w) (suf := ['"']) rfl rfl (by simp; omega)
  simp only [patString, ht]
  rw [if_neg (by intro h; rcases h with h | h <;> exact absurd h (by simp [List.isPrefixOf])),
    if_pos ⟨rfl, by rw [List.getLast?_append]; rfl, by simp⟩, hs]

/-! ## Raw texts -/

theorem last_hash (n : Nat) : ∀ c, ('"' :: List.replicate n '#').getLast? = some c → isWhitespace c = false := by
  intro c hc
  have := List.mem_of_getLast? hc
  rcases List.mem_cons.mp this with rfl | h
  · decide
  · rw [(List.mem_replicate.mp h).2]; decide

theorem raw_split (pre : List Char) (n : Nat) (content : List Char) : rawText pre n content =
    (pre ++ List.replicate n '#' ++ '"' :: content) ++ '"' :: List.replicate n '#' := rfl

theorem trim_raw (p : Char) (pre : List Char) (hp : isWhitespace p = false) (n : Nat) (content : List Char) :
    trim (rawText (p :: pre) n content) = rawText (p :: pre) n content := by
  refine trim_eq _ (fun c h => ?_) (fun c h => ?_)
  · simp [rawText] at h; subst h; exact hp
  · rw [raw_split, List.getLast?_append] at h
    cases he : ('"' :: List.replicate n '#').getLast? with
    | none => simp at he
    | some d => rw [he] at h; simp at h; subst h; exact last_hash n _ he

theorem takeWhile_hash (n : Nat) (r : List Char) :
    ((List.replicate n '#' ++ '"' :: r).takeWhile (· == '#')).length = n := by
  induction n with
  | zero => simp
  | succ n ih => simp [List.replicate_succ, ih]

theorem drop_raw (pre : List Char) (n : Nat) (content : List Char) :
    (rawText pre n content).drop pre.length = List.replicate n '#' ++ '"' :: (content ++ '"' :: List.replicate n '#') := by
  simp [rawText]

theorem raw_length (pre : List Char) (n : Nat) (content : List Char) :
    (rawText pre n content).length = pre.length + n + content.length + n + 2 := by
  simp [rawText]; omega

theorem hashedContent_raw (pre : List Char) (n : Nat) (content : List Char) (i : Nat) (hi : i = pre.length + n) :
    hashedContent (rawText pre n content) i n = content := by
  subst hi
  have hl := raw_length pre n content
  have hs : (rawText pre n content).length - (1 + n) = pre.length + n + 1 + content.length := by omega
  simp only [hashedContent, hs]
  rw [if_neg (by
    rw [Decidable.not_not, getElem_at (pre := pre ++ List.replicate n '#') (suf := content ++ '"' :: List.replicate n '#')]
    · simp [rawText]
    · simp)]
  by_cases hc : content = []
  · subst hc; simp
  · have : 1 ≤ content.length := List.length_pos_iff.mpr hc
    rw [if_neg (by omega), if_neg, slice_at (pre := pre ++ List.replicate n '#' ++ ['"']) (s := content)
      (suf := '"' :: List.replicate n '#')]
    · simp [rawText]
    · simp; omega
    · simp; omega
    · rw [Decidable.not_not, raw_split, show pre.length + n + 1 + content.length =
        (pre ++ List.replicate n '#' ++ '"' :: content).length by simp; omega, List.drop_left]

theorem slice_raw0 (pre content : List Char) :
    slice (rawText pre 0 content) (pre.length + 1) ((rawText pre 0 content).length - 1) = content := by
  refine slice_at (pre := pre ++ ['"']) (s := content) (suf := ['"']) ?_ (by simp) ?_
  · simp [rawText]
  · rw [raw_length]; simp; omega

theorem exprString_raw_of (p : Char) (pre : List Char) (hp : isWhitespace p = false) (n : Nat) (content : List Char)
    (h : stringPrefix (rawText (p :: pre) n content) = ((p :: pre).length, true)) :
    exprString (rawText (p :: pre) n content) = some content := by
  simp only [exprString, trim_raw p pre hp, h, if_true, drop_raw, takeWhile_hash]
  by_cases hn : n > 0
  · rw [if_pos hn, hashedContent_raw _ _ _ _ rfl]
  · have : n = 0 := by omega
    subst this
    rw [if_neg hn, if_neg, slice_raw0]
    rw [Decidable.not_not]
    exact getElem_at (pre := p :: pre) (suf := content ++ ['"']) (by simp [rawText]) rfl

theorem exprString_raw {pre : List Char} (h : pre ∈ ["r".toList, "rs".toList, "sr".toList]) (n : Nat) (content : List Char) :
    exprString (rawText pre n content) = some content := by
  simp only [List.mem_cons, List.not_mem_nil, or_false] at h
  rcases h with rfl | rfl | rfl
  · refine exprString_raw_of 'r' [] (by decide) n content ?_
    cases n <;> rfl
  · exact exprString_raw_of 'r' ['s'] (by decide) n content rfl
  · exact exprString_raw_of 's' ['r'] (by decide) n content rfl

theorem exprBytes_raw {pre : List Char} (h : pre ∈ ["br".toList, "rb".toList]) (n : Nat) (content : List Char) :
    exprBytes (rawText pre n content) = utf8 content := by
  have key : ∀ p q : Char, isWhitespace p = false →
      ("rb".toList.isPrefixOf (rawText [p, q] n content) = true ∨ "br".toList.isPrefixOf (rawText [p, q] n content) = true) →
      exprBytes (rawText [p, q] n content) = utf8 content := by
    intro p q hp hh
    have hd : (rawText [p, q] n content).drop 2 = _ := drop_raw [p, q] n content
    simp only [exprBytes, trim_raw p [q] hp]
    rw [if_pos hh, hd, takeWhile_hash]
    by_cases hn : n > 0
    · rw [if_pos hn, hashedContent_raw [p, q] n content (2 + n) rfl]
    · have : n = 0 := by omega
      subst this
      rw [if_neg hn]
      exact congrArg utf8 (slice_raw0 [p, q] content)
  simp only [List.mem_cons, List.not_mem_nil, or_false] at h
  rcases h with rfl | rfl
  · exact key 'b' 'r' (by decide) (Or.inr rfl)
  · exact key 'r' 'b' (by decide) (Or.inl rfl)

theorem patString_raw (n : Nat) (content : List Char) : patString (rawText ['r'] n content) = content := by
  simp only [patString, trim_raw 'r' [] (by decide)]
  have hl := raw_length ['r'] n content
  cases n with
  | zero =>
    rw [if_pos (show "r\"".toList.isPrefixOf (rawText ['r'] 0 content) = true ∨
      "r#".toList.isPrefixOf (rawText ['r'] 0 content) = true from Or.inl rfl), if_neg (by intro h; exact absurd h (by simp [rawText, List.isPrefixOf]))]
    exact slice_raw0 ['r'] content
  | succ n =>
    have hd : (rawText ['r'] (n + 1) content).drop 1 = _ := drop_raw ['r'] (n + 1) content
    have hh : "r#".toList.isPrefixOf (rawText ['r'] (n + 1) content) = true := rfl
    rw [if_pos (Or.inr hh), if_pos hh, hd, takeWhile_hash]
    simp only [List.length_cons, List.length_nil] at hl
    by_cases hc : content = []
    · subst hc
      rw [if_neg]
      simp only [List.length_nil] at hl
      omega
    · have : 1 ≤ content.length := List.length_pos_iff.mpr hc
      rw [if_pos (by omega)]
      refine slice_at (pre := ['r'] ++ List.replicate (n + 1) '#' ++ ['"']) (s := content)
        (suf := '"' :: List.replicate (n + 1) '#') ?_ ?_ ?_
      · simp [rawText]
      · simp; omega
      · rw [hl]; simp; omega

end Verif.Literals
