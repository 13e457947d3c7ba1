import Verif.IrText.Lex
import Mathlib.Data.List.Forall2
/-!
# Lemmas on lists, types and attributes
-/
namespace Verif.IrText

theorem stop_of {c : Char} (h : c = ',' ∨ c = ')' ∨ c = ']' ∨ c = '}') (rest : List Char) : Stop (c :: rest) := by
  rcases h with rfl | rfl | rfl | rfl
  all_goals
    refine ⟨?_, ?_⟩
    · intro x hx; simp at hx; subst hx; decide
    · intro x hx
      rw [List.dropWhile_cons] at hx
      simp [isSpace] at hx
      subst hx; decide

/-- `p` reads `t` as `x`. -/
def Reads {α : Type} (p : Parser α) (t : List Char) (x : α) : Prop :=
  ∀ rest, Stop rest → p (t ++ rest) = some (x, rest)

/-- `t` does not start with whitespace and is not empty. -/
def Starts (t : List Char) : Prop := ∃ c r, t = c :: r ∧ isSpace c = false

/-- `q` reads `t`, possibly after a space, and the whitespace after it. -/
def Item {α : Type} (q : Parser α) (t : List Char) (x : α) : Prop :=
  ∀ rest, Stop rest → q (t ++ rest) = some (x, ws rest) ∧ q (' ' :: (t ++ rest)) = some (x, ws rest)

theorem item_spaced {α : Type} {p : Parser α} {t : List Char} {x : α} (hs : Starts t) (hr : Reads p t x) :
    Item (spaced p) t x := by
  intro rest hrest
  obtain ⟨c, r, rfl, hc⟩ := hs
  have h := hr rest hrest
  constructor
  · rw [spaced, List.cons_append, ws_cons hc, ← List.cons_append, h]; rfl
  · rw [spaced, ws_space, List.cons_append, ws_cons hc, ← List.cons_append, h]; rfl

theorem sepLoop_items {α : Type} {q : Parser α} {c : Char} (hc : c = ')' ∨ c = ']' ∨ c = '}') (rest : List Char) :
    ∀ (ts : List (List Char)) (rs : List α) (n : Nat), List.Forall₂ (Item q) ts rs → ts.length ≤ n →
    sepLoop q n (ts.flatMap (fun t => ", ".toList ++ t) ++ c :: rest) = (rs, c :: rest)
  | [], _, n, .nil, _ => by
    have : c ≠ ',' := by rcases hc with rfl | rfl | rfl <;> decide
    cases n <;> simp [sepLoop, this]
  | t :: ts, r :: rs, n, .cons h hs, hn => by
    obtain ⟨m, rfl⟩ : ∃ m, n = m + 1 := ⟨n - 1, by simp at hn; omega⟩
    have ih := sepLoop_items hc rest ts rs m hs (by simpa using hn)
    have hst : Stop (ts.flatMap (fun t => ", ".toList ++ t) ++ c :: rest) ∧
        ws (ts.flatMap (fun t => ", ".toList ++ t) ++ c :: rest) =
          ts.flatMap (fun t => ", ".toList ++ t) ++ c :: rest := by
      cases ts with
      | nil =>
        refine ⟨stop_of (Or.inr hc) _, ?_⟩
        exact ws_cons (by rcases hc with rfl | rfl | rfl <;> decide)
      | cons t' ts =>
        simp only [List.flatMap_cons]
        exact ⟨stop_of (Or.inl rfl) _, ws_cons rfl⟩
    have h2 := (h _ hst.1).2
    rw [hst.2] at h2
    rw [List.flatMap_cons]
    show sepLoop q (m + 1) (',' :: ' ' :: t ++ ts.flatMap (fun t => ", ".toList ++ t) ++ c :: rest) = _
    simp only [List.cons_append, List.append_assoc, sepLoop, if_true]
    rw [h2]
    simp only [ih]

theorem commaSep_cons (t : List Char) : ∀ ts : List (List Char),
    commaSep (t :: ts) = t ++ ts.flatMap (fun t => ", ".toList ++ t)
  | [] => by simp [commaSep]
  | t' :: ts => by
    rw [commaSep, commaSep_cons t' ts, List.flatMap_cons]
    simp

theorem commaSep_length : ∀ (ts : List (List Char)) t, t ∈ ts → t.length ≤ (commaSep ts).length
  | t0 :: ts, t, h => by
    rw [commaSep_cons, List.length_append]
    rcases List.mem_cons.mp h with rfl | h
    · omega
    · have : t.length ≤ (ts.flatMap (fun t => ", ".toList ++ t)).length := by
        clear * - h
        induction ts with
        | nil => cases h
        | cons a ts ih =>
          rw [List.flatMap_cons, List.length_append, List.length_append]
          rcases List.mem_cons.mp h with rfl | h
          · omega
          · have := ih h; omega
      omega

theorem flat_length (ts : List (List Char)) : ts.length ≤ (ts.flatMap (fun t => ", ".toList ++ t)).length := by
  induction ts with
  | nil => simp
  | cons t ts ih =>
    rw [List.flatMap_cons, List.length_append, List.length_cons, List.length_append]
    have : (", ".toList).length = 2 := rfl
    omega

theorem enclosed_items {α : Type} {q : Parser α} {o c : Char} (hc : c = ')' ∨ c = ']' ∨ c = '}')
    {ts : List (List Char)} {rs : List α} (hq : List.Forall₂ (Item q) ts rs) (hs : ∀ t ∈ ts, Starts t)
    (he : ∀ r, q (c :: r) = none) (rest : List Char) :
    enclosed o c q (o :: commaSep ts ++ c :: rest) = some (rs, rest) := by
  have hsp : isSpace c = false := by rcases hc with rfl | rfl | rfl <;> decide
  cases hq with
  | nil =>
    simp [enclosed, chr, commaSep, ws_cons hsp, sepBy0, he]
  | @cons t r ts rs h hts =>
    have hst : Stop (ts.flatMap (fun t => ", ".toList ++ t) ++ c :: rest) ∧
        ws (ts.flatMap (fun t => ", ".toList ++ t) ++ c :: rest) =
          ts.flatMap (fun t => ", ".toList ++ t) ++ c :: rest := by
      cases ts with
      | nil =>
        refine ⟨stop_of (Or.inr hc) _, ?_⟩
        exact ws_cons (by rcases hc with rfl | rfl | rfl <;> decide)
      | cons t' ts =>
        simp only [List.flatMap_cons]
        exact ⟨stop_of (Or.inl rfl) _, ws_cons rfl⟩
    have h1 := (h _ hst.1).1
    rw [hst.2] at h1
    have h2 := sepLoop_items hc rest ts rs (ts.flatMap (fun t => ", ".toList ++ t) ++ c :: rest).length hts (by
      have := flat_length ts
      rw [List.length_append]; omega)
    obtain ⟨x, xs, rfl, hx⟩ := hs t List.mem_cons_self
    rw [commaSep_cons]
    simp only [enclosed, chr, List.cons_append, if_true, Option.bind_some, List.append_assoc] at h1 ⊢
    rw [ws_cons hx, sepBy0, h1]
    simp only [h2, ws_cons hsp, chr, if_true, Option.bind_some]

/-! ## Attribute names -/

theorem splitDots_ne : ∀ s, splitDots s ≠ []
  | [] => by simp [splitDots]
  | c :: r => by
    rw [splitDots]
    split
    · simp
    · split <;> simp

theorem splitDots_word {w : List Char} (hw : ∀ c ∈ w, isWordChar c = true) :
    splitDots w = [w] ∧ ∀ k, splitDots (w ++ '.' :: k) = w :: splitDots k := by
  induction w with
  | nil => exact ⟨rfl, fun k => by simp [splitDots]⟩
  | cons c w ih =>
    obtain ⟨h1, h2⟩ := ih fun x hx => hw x (List.mem_cons_of_mem _ hx)
    have hc : c ≠ '.' := by
      rintro rfl
      have := hw '.' List.mem_cons_self
      revert this; decide
    refine ⟨by rw [splitDots, if_neg hc, h1], fun k => ?_⟩
    rw [List.cons_append, splitDots, if_neg hc, h2]

theorem segment_word {w : List Char} (hw : Word w) : isSegment w = true := by
  cases w with
  | nil => cases hw
  | cons c w =>
    rw [isSegment, hw.1, Bool.true_and, List.all_eq_true]
    exact hw.2

theorem key_spec {k : List Char} (hk : Key k) : (splitDots k).all isSegment = true ∧ k ≠ [] ∧
    (∀ c ∈ k, (isWordChar c || c == '.') = true) ∧ Starts k := by
  have hstart : ∀ {w : List Char} (r : List Char), Word w → Starts (w ++ r) := by
    intro w r hw
    cases w with
    | nil => cases hw
    | cons c w => exact ⟨c, w ++ r, rfl, isSpace_word (wordStart_word hw.1)⟩
  induction hk with
  | word hw =>
    rw [(splitDots_word (word_all hw)).1]
    refine ⟨by simp [segment_word hw], word_ne hw, fun c hc => by simp [word_all hw c hc], ?_⟩
    simpa using hstart [] hw
  | @dot w k hw hk ih =>
    rw [(splitDots_word (word_all hw)).2]
    refine ⟨by rw [List.all_cons, segment_word hw, ih.1]; rfl, by simp, ?_, hstart _ hw⟩
    intro c hc
    rcases List.mem_append.mp hc with hc | hc
    · simp [word_all hw c hc]
    · rcases List.mem_cons.mp hc with rfl | hc
      · rfl
      · exact ih.2.2.1 c hc

theorem item_entry {α : Type} {p : Parser α} {k t : List Char} {x : α} (hk : Key k) (hs : Starts t)
    (hr : Reads p t x) : Item (entry p) (k ++ " = ".toList ++ t) (k, x) ∧ Starts (k ++ " = ".toList ++ t) := by
  obtain ⟨k1, k2, k3, c, k', rfl, hc⟩ := key_spec hk
  obtain ⟨d, t', rfl, hd⟩ := hs
  refine ⟨?_, c, k' ++ " = ".toList ++ d :: t', rfl, hc⟩
  intro rest hrest
  have hkey : attrKey (c :: k' ++ (" = ".toList ++ d :: t' ++ rest)) =
      some (c :: k', " = ".toList ++ d :: t' ++ rest) := by
    rw [attrKey, takeWhile1_append k2 k3 (by intro x hx; simp at hx; subst hx; decide), Option.bind_some, if_pos k1]
  have hbody : (chr '=' (ws (" = ".toList ++ d :: t' ++ rest))).bind (fun e =>
      (p (ws e.2)).bind fun v => some ((c :: k', v.1), ws v.2)) = some ((c :: k', x), ws rest) := by
    show (chr '=' (ws (' ' :: '=' :: ' ' :: (d :: t' ++ rest)))).bind _ = _
    rw [ws_space, ws_cons (by decide)]
    simp only [chr, if_true, Option.bind_some]
    rw [ws_space, List.cons_append, ws_cons hd, ← List.cons_append, hr rest hrest]
    rfl
  have e : c :: k' ++ " = ".toList ++ d :: t' ++ rest = c :: k' ++ (" = ".toList ++ d :: t' ++ rest) := by simp
  rw [e]
  constructor
  · rw [entry, List.cons_append, ws_cons hc, ← List.cons_append, hkey, Option.bind_some]
    exact hbody
  · rw [entry, ws_space, List.cons_append, ws_cons hc, ← List.cons_append, hkey, Option.bind_some]
    exact hbody

/-! ## Floats -/

theorem exponent_stop {r : List Char} (hr : Stop r) : exponent r = ([], r) := by
  cases r with
  | nil => rfl
  | cons c r =>
    have hc := (hr.1 c rfl).1
    have h1 : ¬ (c = 'e' ∨ c = 'E') := by
      rintro (rfl | rfl)
      · revert hc; decide
      · revert hc; decide
    simp only [exponent, h1, if_false]

theorem floatLit_text {f : F64} {sign whole frac : List Char} {bits : UInt64}
    (hs : sign = [] ∨ sign = ['-']) (hw : whole ≠ []) (hwd : ∀ c ∈ whole, c.isDigit = true)
    (hf : frac ≠ []) (hfd : ∀ c ∈ frac, c.isDigit = true)
    (hp : f.parse (sign ++ whole ++ '.' :: frac) = some bits) : Reads (floatLit f) (sign ++ whole ++ '.' :: frac) bits := by
  intro r hr
  have h1 : takeWhile1 Char.isDigit (whole ++ ('.' :: frac ++ r)) = some (whole, '.' :: frac ++ r) :=
    takeWhile1_append hw hwd (by intro c hc; simp at hc; subst hc; decide)
  have h2 : takeWhile1 Char.isDigit (frac ++ r) = some (frac, r) :=
    takeWhile1_append hf hfd (stop_digit fun c hc => (hr.1 c hc).1)
  have hx := exponent_stop hr
  have hhead : ∀ r', (whole ++ r').head? ≠ some '-' := by
    intro r'
    obtain ⟨c, cs, rfl⟩ := List.exists_cons_of_ne_nil hw
    simp only [List.cons_append, List.head?_cons, ne_eq, Option.some.injEq]
    rintro rfl
    have := hwd '-' List.mem_cons_self
    revert this; decide
  have e : sign ++ whole ++ '.' :: frac ++ r = sign ++ (whole ++ ('.' :: frac ++ r)) := by simp
  rw [e]
  rcases hs with rfl | rfl
  · simp only [List.nil_append] at hp ⊢
    simp only [floatLit, hhead, if_false, List.length_nil, List.drop_zero, h1, Option.bind_some]
    simp only [List.cons_append, chr, if_true, Option.bind_some, h2, hx, List.append_nil, List.nil_append, hp,
      Option.map_some]
  · simp only [floatLit, List.cons_append, List.nil_append, List.head?_cons, if_true, List.length_singleton,
      List.drop_succ_cons, List.drop_zero]
    simp only [List.cons_append] at h1
    rw [h1]
    simp only [Option.bind_some, chr, if_true, h2, hx, List.append_nil]
    simp only [List.cons_append, List.nil_append] at hp
    rw [hp]
    rfl

theorem floatLit_print {f : F64} (hf : F64Ok f) {bits : UInt64} (hb : isFinite bits = true) :
    Reads (floatLit f) (printFloat f bits) bits ∧
    ∃ c r, printFloat f bits = c :: r ∧ (c = '-' ∨ c.isDigit = true) := by
  obtain ⟨sign, whole, frac, h1, h2, h3, h4, h5, h6, h7⟩ := hf.shape bits hb
  have hpf : printFloat f bits = sign ++ whole ++ '.' :: frac := by
    have hsg : ∀ c ∈ sign ++ whole, c ≠ '.' ∧ c ≠ 'e' ∧ c ≠ 'E' := by
      intro c hc
      rcases List.mem_append.mp hc with hc | hc
      · rcases h1 with rfl | rfl
        · cases hc
        · simp only [List.mem_singleton] at hc; subst hc; decide
      · have := h3 c hc
        refine ⟨?_, ?_, ?_⟩ <;> rintro rfl <;> revert this <;> decide
    simp only [printFloat]
    rcases h6 with ⟨h6, rfl⟩ | h6
    · rw [h6, if_pos]
      refine ⟨hb, fun h => (hsg _ h).1 rfl, fun h => (hsg _ h).2.1 rfl, fun h => (hsg _ h).2.2 rfl⟩
    · rw [h6, if_neg]
      rintro ⟨_, h, _⟩
      exact h (by simp)
  rw [hpf]
  refine ⟨floatLit_text h1 h2 h3 h4 h5 h7, ?_⟩
  rcases h1 with rfl | rfl
  · obtain ⟨c, cs, rfl⟩ := List.exists_cons_of_ne_nil h2
    exact ⟨c, cs ++ '.' :: frac, by simp, Or.inr (h3 c List.mem_cons_self)⟩
  · exact ⟨'-', whole ++ '.' :: frac, by simp, Or.inl rfl⟩

theorem floatLit_int {f : F64} (v : Int) {r : List Char} (hr : Stop r) : floatLit f (printInt v ++ r) = none := by
  obtain ⟨d1, d2, _, _⟩ := digits_spec v.natAbs
  have ht := takeWhile1_append d2 d1 (stop_digit fun c hc => (hr.1 c hc).1)
  have hdot : chr '.' r = none := by
    cases r with
    | nil => rfl
    | cons c r => simp [chr, (hr.1 c rfl).2.1]
  unfold printInt
  split
  · simp only [floatLit, List.cons_append, List.head?_cons, if_true, List.length_singleton, List.drop_succ_cons,
      List.drop_zero, ht, Option.bind_some, hdot, Option.bind_none]
  · have hd := head_ne_dash (n := v.natAbs) (r := r)
    simp only [floatLit, hd, if_false, List.length_nil, List.drop_zero, ht, Option.bind_some, hdot,
      Option.bind_none]

/-! ## Alternatives that fail -/

theorem lit_none {t : List Char} {c : Char} {s : List Char} (h : t.head? ≠ some c) (ht : t ≠ []) :
    lit t (c :: s) = none := by
  cases t with
  | nil => exact absurd rfl ht
  | cons x t =>
    have : x ≠ c := by rintro rfl; exact h rfl
    simp [lit, this]

theorem chr_none {c x : Char} {s : List Char} (h : x ≠ c) : chr c (x :: s) = none := by simp [chr, h]

/-- The alternatives before floats fail on a text that starts like a number. -/
theorem attr_number {f : F64} {ty : Parser Ty} {attr : Parser Attr} {c : Char} (r : List Char)
    (h : c = '-' ∨ c.isDigit = true) : attrWith f ty attr (c :: r) =
    alt (mapP .float (floatLit f)) (alt (mapP .int integerLit) (mapP .type ty)) (c :: r) := by
  have hne : c ≠ 't' ∧ c ≠ 'f' ∧ c ≠ 'u' ∧ c ≠ 'l' ∧ c ≠ 'b' ∧ c ≠ '"' ∧ c ≠ '@' ∧ c ≠ '[' := by
    refine ⟨?_, ?_, ?_, ?_, ?_, ?_, ?_, ?_⟩ <;> rintro rfl <;> revert h <;> decide
  obtain ⟨h1, h2, h3, h4, h5, h6, h7, h8⟩ := hne
  have l1 : lit "true".toList (c :: r) = none := lit_none (by simpa using h1.symm) (by simp)
  have l2 : lit "false".toList (c :: r) = none := lit_none (by simpa using h2.symm) (by simp)
  have l3 : lit "unit".toList (c :: r) = none := lit_none (by simpa using h3.symm) (by simp)
  have l4 : lit "loc".toList (c :: r) = none := lit_none (by simpa using h4.symm) (by simp)
  simp only [attrWith, alt, mapP, l1, l2, l3, locationLit, l4, bytesLit, chr_none h5, stringLit, chr_none h6,
    symbolRef, chr_none h7, enclosed, chr_none h8, Option.map_none, Option.bind_none, Option.orElse_none]

end Verif.IrText
