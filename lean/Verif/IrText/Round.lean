import Verif.IrText.Proofs
/-!
# Types and attributes read back
-/
namespace Verif.IrText

theorem prefix_word : ∀ {t d r : List Char}, t <+: d ++ '.' :: r → '.' ∉ t → t <+: d
  | [], _, _, _, _ => List.nil_prefix
  | x :: t, [], r, h, hn => by
    rw [List.nil_append, List.cons_prefix_cons] at h
    exact absurd (by rw [← h.1]; exact List.mem_cons_self) hn
  | x :: t, y :: d, r, h, hn => by
    rw [List.cons_append, List.cons_prefix_cons] at h
    rw [List.cons_prefix_cons]
    exact ⟨h.1, prefix_word h.2 fun hm => hn (List.mem_cons_of_mem _ hm)⟩

theorem lit_word {t d r : List Char} (hn : '.' ∉ t) (h : ¬ t <+: d) : lit t (d ++ '.' :: r) = none := by
  rw [lit, if_neg]
  intro hp
  exact h (prefix_word (List.isPrefixOf_iff_prefix.mp hp) hn)

/-- The head of a non-empty word followed by a dot. -/
theorem head_word {d r : List Char} (hd : ∀ c ∈ d, isWordChar c = true) :
    ∃ c s, d ++ '.' :: r = c :: s ∧ (isWordChar c = true ∨ c = '.') := by
  cases d with
  | nil => exact ⟨'.', r, rfl, Or.inr rfl⟩
  | cons c d => exact ⟨c, d ++ '.' :: r, rfl, Or.inl (hd c List.mem_cons_self)⟩

theorem locationLit_word {d r : List Char} (hd : ∀ c ∈ d, isWordChar c = true) :
    locationLit (d ++ '.' :: r) = none := by
  by_cases h : "loc".toList <+: d
  · obtain ⟨d', rfl⟩ := h
    have hd' : ∀ c ∈ d', isWordChar c = true := fun c hc => hd c (List.mem_append_right _ hc)
    obtain ⟨c, s, hcs, hc⟩ := head_word (r := r) hd'
    have hsp : isSpace c = false := by
      rcases hc with hc | rfl
      · exact isSpace_word hc
      · rfl
    have hop : c ≠ '(' := by
      rintro rfl
      rcases hc with hc | hc
      · revert hc; decide
      · revert hc; decide
    have hl : lit "loc".toList ("loc".toList ++ d' ++ '.' :: r) = some ((), c :: s) := by
      rw [List.append_assoc, hcs]
      rfl
    rw [locationLit, hl, Option.bind_some, ws_cons hsp, chr_none hop]
    rfl
  · rw [locationLit, lit_word (by decide) h]; rfl

theorem attr_word {f : F64} {ty : Parser Ty} {attr : Parser Attr} {d : List Char} (r : List Char) (hd : Word d)
    (hk : ¬ "true".toList <+: d ∧ ¬ "false".toList <+: d ∧ ¬ "unit".toList <+: d) :
    attrWith f ty attr (d ++ '.' :: r) = mapP .type ty (d ++ '.' :: r) := by
  have hall := word_all hd
  have l1 := lit_word (r := r) (by decide) hk.1
  have l2 := lit_word (r := r) (by decide) hk.2.1
  have l3 := lit_word (r := r) (by decide) hk.2.2
  have l4 := locationLit_word (r := r) hall
  cases d with
  | nil => cases hd
  | cons c d =>
    have hc := hd.1
    have hdig : c.isDigit = false := by
      cases h : c.isDigit with
      | false => rfl
      | true =>
        simp only [isWordStart, Char.isAlpha, Char.isUpper, Char.isLower, Bool.or_eq_true, beq_iff_eq,
          decide_eq_true_eq, Bool.and_eq_true] at hc
        simp only [Char.isDigit, Bool.and_eq_true, decide_eq_true_eq] at h
        rcases hc with (hc | hc) | rfl
        · have h1 := UInt32.le_iff_toNat_le.mp h.2
          have h2 := UInt32.le_iff_toNat_le.mp hc.1
          simp at h1 h2; omega
        · have h1 := UInt32.le_iff_toNat_le.mp h.2
          have h2 := UInt32.le_iff_toNat_le.mp hc.1
          simp at h1 h2; omega
        · revert h; decide
    have hne : c ≠ '"' ∧ c ≠ '@' ∧ c ≠ '[' ∧ c ≠ '-' := by
      refine ⟨?_, ?_, ?_, ?_⟩ <;> rintro rfl <;> revert hc <;> decide
    obtain ⟨h6, h7, h8, h9⟩ := hne
    have l5 : bytesLit (c :: d ++ '.' :: r) = none := by
      obtain ⟨x, s, hxs, hx⟩ := head_word (d := d) (r := r) fun c hc => hall c (List.mem_cons_of_mem _ hc)
      rw [List.cons_append, hxs]
      by_cases hb : c = 'b'
      · subst hb
        have : x ≠ '"' := by
          rintro rfl
          rcases hx with hx | hx <;> revert hx <;> decide
        simp [bytesLit, chr, this]
      · simp [bytesLit, chr, hb]
    have l9 : floatLit f (c :: d ++ '.' :: r) = none := by
      have : takeWhile1 Char.isDigit (c :: d ++ '.' :: r) = none :=
        takeWhile1_none (by intro x hx; simp at hx; subst hx; exact hdig)
      have hh : (c :: d ++ '.' :: r).head? ≠ some '-' := by simpa using h9
      simp only [floatLit, hh, if_false, List.length_nil, List.drop_zero, this, Option.bind_none]
    have l10 : integerLit (c :: d ++ '.' :: r) = none := by
      have : takeWhile1 Char.isDigit (c :: d ++ '.' :: r) = none :=
        takeWhile1_none (by intro x hx; simp at hx; subst hx; exact hdig)
      have hh : (c :: d ++ '.' :: r).head? ≠ some '-' := by simpa using h9
      simp only [integerLit, hh, if_false, this, Option.bind_none]
    have l6 : stringLit (c :: d ++ '.' :: r) = none := by simp [stringLit, chr, h6]
    have l7 : symbolRef (c :: d ++ '.' :: r) = none := by simp [symbolRef, chr, h7]
    have l8 : enclosed '[' ']' (spaced attr) (c :: d ++ '.' :: r) = none := by simp [enclosed, chr, h8]
    simp only [attrWith, alt, mapP, l1, l2, l3, l4, l5, l6, l7, l8, l9, l10, Option.map_none, Option.orElse_none]

theorem attr_bang {f : F64} {ty : Parser Ty} {attr : Parser Attr} (r : List Char) :
    attrWith f ty attr ('!' :: r) = mapP .type ty ('!' :: r) := by
  have l : takeWhile1 Char.isDigit ('!' :: r) = none :=
    takeWhile1_none (by intro x hx; simp at hx; subst hx; decide)
  simp [attrWith, alt, mapP, lit, locationLit, bytesLit, chr, stringLit, symbolRef, enclosed, floatLit,
    integerLit, l]

theorem attr_fails {f : F64} {ty : Parser Ty} {attr : Parser Attr} {c : Char} (r : List Char)
    (hc : c = ')' ∨ c = ']' ∨ c = '}') (hty : ty (c :: r) = none) : attrWith f ty attr (c :: r) = none := by
  have l : takeWhile1 Char.isDigit (c :: r) = none :=
    takeWhile1_none (by intro x hx; simp at hx; subst hx; rcases hc with rfl | rfl | rfl <;> decide)
  rcases hc with rfl | rfl | rfl <;>
  simp [attrWith, alt, mapP, lit, locationLit, bytesLit, chr, stringLit, symbolRef, enclosed, floatLit,
    integerLit, l, hty]

theorem typeN_fails (f : F64) {c : Char} (r : List Char) (hc : c = ')' ∨ c = ']' ∨ c = '}') :
    ∀ n, typeN f n (c :: r) = none
  | 0 => by rw [typeN]
  | n + 1 => by
    rcases hc with rfl | rfl | rfl <;>
    simp [typeN, typeWith, qualifiedName, ident, isWordStart]

theorem attrN_fails (f : F64) {c : Char} (r : List Char) (hc : c = ')' ∨ c = ']' ∨ c = '}') :
    ∀ n, attrN f n (c :: r) = none
  | 0 => by rw [attrN]
  | n + 1 => by rw [attrN]; exact attr_fails r hc (typeN_fails f r hc n)

theorem ws_close {c : Char} (r : List Char) (hc : c = ')' ∨ c = ']' ∨ c = '}') : ws (c :: r) = c :: r :=
  ws_cons (by rcases hc with rfl | rfl | rfl <;> decide)

theorem spaced_fails {α : Type} {p : Parser α} {c : Char} {r : List Char} (hc : c = ')' ∨ c = ']' ∨ c = '}')
    (hp : p (c :: r) = none) : spaced p (c :: r) = none := by rw [spaced, ws_close r hc, hp]; rfl

theorem entry_fails {α : Type} {p : Parser α} {c : Char} (r : List Char) (hc : c = ')' ∨ c = ']' ∨ c = '}') :
    entry p (c :: r) = none := by
  rw [entry, ws_close r hc, attrKey, takeWhile1_none]
  · rfl
  · intro x hx; simp at hx; subst hx; rcases hc with rfl | rfl | rfl <;> decide

/-! ## The simple attributes -/

theorem attr_unit {f : F64} {ty : Parser Ty} {attr : Parser Attr} (r : List Char) :
    attrWith f ty attr ("unit".toList ++ r) = some (.unit, r) := by
  simp [attrWith, alt, mapP, lit]

theorem attr_bool {f : F64} {ty : Parser Ty} {attr : Parser Attr} (b : Bool) (r : List Char) :
    attrWith f ty attr ((if b then "true".toList else "false".toList) ++ r) = some (.bool b, r) := by
  cases b <;> simp [attrWith, alt, mapP, lit]

theorem attr_string {f : F64} {ty : Parser Ty} {attr : Parser Attr} (s r : List Char) :
    attrWith f ty attr (quoted s ++ r) = some (.string s, r) := by
  have h := stringLit_quoted s r
  obtain ⟨q, hq⟩ : ∃ q, quoted s ++ r = '"' :: q := ⟨_, rfl⟩
  rw [hq] at h ⊢
  simp [attrWith, alt, mapP, lit, locationLit, bytesLit, chr, h]

theorem attr_bytes {f : F64} {ty : Parser Ty} {attr : Parser Attr} (bs : List UInt8) (r : List Char) :
    attrWith f ty attr ('b' :: '"' :: escapeBytes bs ++ ['"'] ++ r) = some (.bytes bs, r) := by
  have h := bytesLit_print bs r
  obtain ⟨q, hq⟩ : ∃ q, 'b' :: '"' :: escapeBytes bs ++ ['"'] ++ r = 'b' :: q := ⟨_, rfl⟩
  rw [hq] at h ⊢
  simp [attrWith, alt, mapP, lit, locationLit, h]

theorem attr_symbol {f : F64} {ty : Parser Ty} {attr : Parser Attr} (s r : List Char)
    (hr : ∀ c, r.head? = some c → isWordChar c = false) :
    attrWith f ty attr (printSymbol s ++ r) = some (.symbol s, r) := by
  have h := symbolRef_print s r hr
  obtain ⟨q, hq⟩ : ∃ q, printSymbol s ++ r = '@' :: q := ⟨_, rfl⟩
  rw [hq] at h ⊢
  simp [attrWith, alt, mapP, lit, locationLit, bytesLit, stringLit, chr, h]

theorem attr_location {f : F64} {ty : Parser Ty} {attr : Parser Attr} (path : List Char) (start stop : Nat)
    (h1 : start < 2 ^ 64) (h2 : stop < 2 ^ 64) (r : List Char) :
    attrWith f ty attr ("loc(".toList ++ quoted path ++ ' ' :: digits start ++ ':' :: digits stop ++ [')'] ++ r) =
      some (.location path start stop, r) := by
  have e : "loc(".toList ++ quoted path ++ ' ' :: digits start ++ ':' :: digits stop ++ [')'] ++ r =
      'l' :: 'o' :: 'c' :: '(' :: (quoted path ++ (' ' :: (digits start ++ (':' :: (digits stop ++ (')' :: r)))))) := by
    simp
  have hq := stringLit_quoted path (' ' :: (digits start ++ (':' :: (digits stop ++ (')' :: r)))))
  have hs := decUint_print start h1 (':' :: (digits stop ++ (')' :: r)))
    (by intro c hc; simp at hc; subst hc; decide)
  have ht := decUint_print stop h2 (')' :: r) (by intro c hc; simp at hc; subst hc; decide)
  have hdig : ∀ n r, ws (digits n ++ r) = digits n ++ r := by
    intro n r
    obtain ⟨d1, d2, _⟩ := digits_spec n
    obtain ⟨c, cs, hcs⟩ := List.exists_cons_of_ne_nil d2
    rw [hcs, List.cons_append, ws_cons]
    exact isSpace_word (isDigit_word (d1 c (by rw [hcs]; exact List.mem_cons_self)))
  have hloc : locationLit ('l' :: 'o' :: 'c' :: '(' :: (quoted path ++ (' ' :: (digits start ++ (':' :: (digits stop ++ (')' :: r))))))) =
      some (.location path start stop, r) := by
    have hl : ∀ s, lit "loc".toList ('l' :: 'o' :: 'c' :: s) = some ((), s) := fun s => rfl
    have hws : ∀ s, ws (quoted path ++ s) = quoted path ++ s := fun s => ws_cons rfl
    simp only [locationLit, hl, Option.bind_some]
    rw [ws_cons (by decide)]
    simp only [chr, if_true, Option.bind_some, hws, hq, ws_space, hdig, hs, ht]
    rw [ws_cons (by decide)]
    simp only [chr, if_true, Option.bind_some]
  rw [e]
  simp [attrWith, alt, mapP, lit, hloc]

theorem attr_int {f : F64} {ty : Parser Ty} {attr : Parser Attr} (v : Int) (h1 : -2 ^ 127 ≤ v) (h2 : v < 2 ^ 127)
    (r : List Char) (hr : Stop r) : attrWith f ty attr (printInt v ++ r) = some (.int v, r) := by
  have hf := floatLit_int (f := f) v hr
  have hi := integerLit_print v h1 h2 r fun c hc => (hr.1 c hc).1
  obtain ⟨c, q, hq, hc⟩ : ∃ c q, printInt v ++ r = c :: q ∧ (c = '-' ∨ c.isDigit = true) := by
    unfold printInt
    split
    · exact ⟨'-', _, rfl, Or.inl rfl⟩
    · obtain ⟨d1, d2, _⟩ := digits_spec v.natAbs
      obtain ⟨c, cs, hcs⟩ := List.exists_cons_of_ne_nil d2
      exact ⟨c, cs ++ r, by rw [hcs]; rfl, Or.inr (d1 c (by rw [hcs]; exact List.mem_cons_self))⟩
  rw [hq] at hf hi ⊢
  rw [attr_number q hc]
  simp [alt, mapP, hf, hi]

theorem attr_float {f : F64} (hf : F64Ok f) {ty : Parser Ty} {attr : Parser Attr} (bits : UInt64)
    (hb : isFinite bits = true) (r : List Char) (hr : Stop r) :
    attrWith f ty attr (printFloat f bits ++ r) = some (.float bits, r) := by
  obtain ⟨h1, c, q, hq, hc⟩ := floatLit_print hf hb
  have h2 := h1 r hr
  rw [hq] at h2 ⊢
  rw [List.cons_append] at h2 ⊢
  rw [attr_number _ hc]
  simp [alt, mapP, h2]

/-! ## The recursive part -/

theorem printTy_starts (f : F64) (al : Ty → Option (List Char)) (env : List Char → Option Ty) (t : Ty)
    (h : WritableTy al env t) : Starts (printTy f al t) := by
  rw [WritableTy.eq_def] at h
  rw [printTy.eq_def]
  cases ha : al t with
  | some name => exact ⟨'!', _, rfl, rfl⟩
  | none =>
    rw [ha] at h
    cases t with
    | aref _ => exact h.elim
    | mk d n ps as =>
      obtain ⟨hd, _⟩ := h
      cases d with
      | nil => cases hd
      | cons c d => exact ⟨c, _, rfl, isSpace_word (wordStart_word hd.1)⟩

theorem printAttr_starts (f : F64) (hf : F64Ok f) (al : Ty → Option (List Char)) (env : List Char → Option Ty) (a : Attr)
    (h : WritableAttr al env a) : Starts (printAttr f al a) := by
  have hnum : ∀ {c : Char}, c = '-' ∨ c.isDigit = true → isSpace c = false := by
    rintro c (rfl | h)
    · rfl
    · exact isSpace_word (isDigit_word h)
  cases a with
  | unit => exact ⟨'u', _, by rw [printAttr]; rfl, rfl⟩
  | bool b => cases b <;> exact ⟨_, _, by rw [printAttr]; rfl, rfl⟩
  | int v =>
    rw [printAttr, printInt]
    split
    · exact ⟨'-', _, rfl, rfl⟩
    · obtain ⟨d1, d2, _⟩ := digits_spec v.natAbs
      obtain ⟨c, cs, hcs⟩ := List.exists_cons_of_ne_nil d2
      exact ⟨c, cs, hcs, hnum (Or.inr (d1 c (by rw [hcs]; exact List.mem_cons_self)))⟩
  | float bits =>
    rw [WritableAttr] at h
    obtain ⟨_, c, r, h1, h2⟩ := floatLit_print hf h
    exact ⟨c, r, by rw [printAttr]; exact h1, hnum h2⟩
  | string s => exact ⟨'"', _, by rw [printAttr]; rfl, rfl⟩
  | bytes bs => exact ⟨'b', _, by rw [printAttr]; rfl, rfl⟩
  | symbol s => exact ⟨'@', _, by rw [printAttr]; rfl, rfl⟩
  | type t =>
    rw [WritableAttr] at h
    rw [printAttr]
    exact printTy_starts f al env t h.1
  | list l => exact ⟨'[', _, by rw [printAttr]; rfl, rfl⟩
  | location path start stop => exact ⟨'l', _, by rw [printAttr]; rfl, rfl⟩

/-- A list of texts is read, item by item, by a parser. -/
abbrev AllItems {α : Type} (q : Parser α) (ts : List (List Char)) (rs : List α) : Prop :=
  List.Forall₂ (Item q) ts rs ∧ ∀ t ∈ ts, Starts t

theorem ty_alias (f : F64) (al : Ty → Option (List Char)) (env : List Char → Option Ty) (t : Ty)
    (nm : List Char) (ha : al t = some nm) (h : env nm = some t ∧ AliasName nm) :
    ∃ r, buildTy env r = some t ∧
      ∀ n, 2 * (printTy f al t).length ≤ n → Reads (typeN f n) (printTy f al t) r := by
  have hp : printTy f al t = '!' :: printName nm := by rw [printTy.eq_def, ha]; rfl
  refine ⟨.aref nm, by rw [buildTy]; exact h.1, ?_⟩
  rw [hp]
  intro n hn r hr
  obtain ⟨m, rfl⟩ : ∃ m, n = m + 1 := ⟨n - 1, by simp at hn; omega⟩
  rw [typeN, typeWith, List.cons_append, if_pos (by rfl)]
  simp only [List.drop_succ_cons, List.drop_zero]
  rw [aliasName_print nm r h.2 fun c hc => (hr.1 c hc).1]
  rfl

theorem chr_stop {c : Char} {r : List Char} (h : ∀ x, r.head? = some x → x ≠ c) : chr c r = none := by
  cases r with
  | nil => rfl
  | cons x r => exact chr_none (h x rfl)

theorem enclosed_none {α : Type} {p : Parser α} {o c : Char} {r : List Char}
    (h : ∀ x, r.head? = some x → x ≠ o) : enclosed o c p r = none := by
  rw [enclosed, chr_stop h]; rfl

theorem ty_reads (f : F64) (al : Ty → Option (List Char)) (d n : List Char) (ps : List Ty)
    (as : List (List Char × Attr)) (m : Nat) (rps : List Ty) (ras : List (List Char × Attr))
    (ha : al (.mk d n ps as) = none) (hd : Word d) (hn : Word n)
    (hm : 2 * (printTy f al (.mk d n ps as)).length ≤ m + 1)
    (eps : rps = [] ↔ ps = []) (eas : ras = [] ↔ as = [])
    (ips : (∀ x ∈ printTys f al ps, 2 * x.length ≤ m) → AllItems (spaced (typeN f m)) (printTys f al ps) rps)
    (ias : (∀ x ∈ printEntries f al as, 2 * x.length + 1 ≤ m) →
      AllItems (entry (attrN f m)) (printEntries f al as) ras) :
    Reads (typeN f (m + 1)) (printTy f al (.mk d n ps as)) (.mk d n rps ras) := by
  have hdlen : 1 ≤ d.length := List.length_pos_iff.mpr (word_ne hd)
  have hnlen : 1 ≤ n.length := List.length_pos_iff.mpr (word_ne hn)
  intro rest hrest
  have hbang : ∀ s, (d ++ '.' :: n ++ s).head? ≠ some '!' := by
    intro s
    cases d with
    | nil => cases hd
    | cons c d =>
      simp only [List.cons_append, List.head?_cons, ne_eq, Option.some.injEq]
      rintro rfl
      have := hd.1
      revert this; decide
  rw [printTy, ha] at hm ⊢
  simp only at hm ⊢
  by_cases hboth : ps = [] ∧ as = []
  · obtain ⟨rfl, rfl⟩ := hboth
    rw [eps.mpr rfl, eas.mpr rfl]
    simp only [List.isEmpty_nil, if_true, List.append_nil]
    rw [typeN, typeWith, if_neg (hbang rest), qualified_append hd hn fun c hc => (hrest.1 c hc).1,
      Option.bind_some, enclosed_none fun x hx => (hrest.1 x hx).2.2]
  · have hP : (if ps.isEmpty = true then (if as.isEmpty = true then [] else "()".toList)
        else '(' :: commaSep (printTys f al ps) ++ [')']) = '(' :: commaSep (printTys f al ps) ++ [')'] := by
      cases ps with
      | nil =>
        have : as.isEmpty = false := by
          cases as with
          | nil => exact absurd ⟨rfl, rfl⟩ hboth
          | cons => rfl
        simp [this, printTys, commaSep]
      | cons => rfl
    rw [hP] at hm ⊢
    have hi := ips (by
      intro x hx
      have := commaSep_length _ _ hx
      simp only [List.length_append, List.length_cons, List.length_singleton, List.cons_append] at hm
      omega)
    have hen : ∀ s, enclosed '(' ')' (spaced (typeN f m)) ('(' :: commaSep (printTys f al ps) ++ ')' :: s) =
        some (rps, s) := fun s => enclosed_items (Or.inl rfl) hi.1 hi.2
      (fun r => spaced_fails (Or.inl rfl) (typeN_fails f r (Or.inl rfl) m)) s
    have hq : ∀ s, qualifiedName (d ++ '.' :: n ++ ('(' :: commaSep (printTys f al ps) ++ ')' :: s)) =
        some ((d, n), '(' :: commaSep (printTys f al ps) ++ ')' :: s) := fun s =>
      qualified_append hd hn (by intro c hc; simp at hc; subst hc; decide)
    cases as with
    | nil =>
      rw [eas.mpr rfl]
      simp only [List.isEmpty_nil, if_true, List.append_nil]
      rw [show d ++ '.' :: n ++ ('(' :: commaSep (printTys f al ps) ++ [')']) ++ rest =
        d ++ '.' :: n ++ ('(' :: commaSep (printTys f al ps) ++ ')' :: rest) from by simp]
      rw [typeN, typeWith, if_neg (hbang _), hq, Option.bind_some]
      simp only [hen]
      rw [enclosed_none (r := ws rest) (fun x hx => hrest.2 x hx)]
    | cons a as =>
      have hj := ias (by
        intro x hx
        have := commaSep_length _ _ hx
        simp only [List.isEmpty_cons, List.length_append, List.length_cons, List.length_singleton,
          List.cons_append, Bool.false_eq_true, if_false] at hm
        omega)
      simp only [List.isEmpty_cons, Bool.false_eq_true, if_false]
      rw [show d ++ '.' :: n ++ ('(' :: commaSep (printTys f al ps) ++ [')']) ++
          (" {".toList ++ commaSep (printEntries f al (a :: as)) ++ ['}']) ++ rest =
        d ++ '.' :: n ++ ('(' :: commaSep (printTys f al ps) ++ ')' ::
          (' ' :: ('{' :: commaSep (printEntries f al (a :: as)) ++ '}' :: rest))) from by simp]
      rw [typeN, typeWith, if_neg (hbang _), hq, Option.bind_some]
      simp only [hen, ws_space]
      have hws : ws ('{' :: commaSep (printEntries f al (a :: as)) ++ '}' :: rest) =
          '{' :: commaSep (printEntries f al (a :: as)) ++ '}' :: rest := ws_cons rfl
      rw [hws, enclosed_items (Or.inr (Or.inr rfl)) hj.1 hj.2 (fun r => entry_fails r (Or.inr (Or.inr rfl))) rest]

theorem attr_type_switch (f : F64) (al : Ty → Option (List Char)) (env : List Char → Option Ty) (t : Ty)
    (h : WritableTy al env t) (hk : al t = none → ∀ d n ps as, t = .mk d n ps as →
      ¬ "true".toList <+: d ∧ ¬ "false".toList <+: d ∧ ¬ "unit".toList <+: d)
    {ty : Parser Ty} {attr : Parser Attr} (r : List Char) :
    attrWith f ty attr (printTy f al t ++ r) = mapP .type ty (printTy f al t ++ r) := by
  rw [WritableTy.eq_def] at h
  rw [printTy.eq_def]
  cases ha : al t with
  | some name => exact attr_bang _
  | none =>
    rw [ha] at h
    cases t with
    | aref _ => exact h.elim
    | mk d n ps as =>
      simp only [List.append_assoc, List.cons_append]
      exact attr_word _ h.1 (hk ha d n ps as rfl)

mutual
theorem ty_round (f : F64) (hf : F64Ok f) (al : Ty → Option (List Char)) (env : List Char → Option Ty) :
    ∀ (t : Ty), WritableTy al env t → ∃ r, buildTy env r = some t ∧
      ∀ n, 2 * (printTy f al t).length ≤ n → Reads (typeN f n) (printTy f al t) r
  | .aref name, h => by
    rw [WritableTy] at h
    cases ha : al (.aref name) with
    | none => rw [ha] at h; exact h.elim
    | some nm => rw [ha] at h; exact ty_alias f al env _ nm ha h
  | .mk d n ps as, h => by
    rw [WritableTy] at h
    cases ha : al (.mk d n ps as) with
    | some nm => rw [ha] at h; exact ty_alias f al env _ nm ha h
    | none =>
      rw [ha] at h
      obtain ⟨hd, hn, hps, has⟩ := h
      obtain ⟨rps, bps, eps, ips⟩ := tys_round f hf al env ps hps
      obtain ⟨ras, bas, eas, ias⟩ := entries_round f hf al env as has
      refine ⟨.mk d n rps ras, by rw [buildTy, bps, bas]; rfl, ?_⟩
      intro m hm
      obtain ⟨m, rfl⟩ : ∃ k, m = k + 1 := ⟨m - 1, by
        have : 0 < (printTy f al (.mk d n ps as)).length := by
          obtain ⟨c, r, hcr, _⟩ := printTy_starts f al env (.mk d n ps as) (by
            rw [WritableTy, ha]; exact ⟨hd, hn, hps, has⟩)
          rw [hcr]; simp
        omega⟩
      exact ty_reads f al d n ps as m rps ras ha hd hn hm eps eas (ips m) (ias m)
  termination_by t => sizeOf t
theorem tys_round (f : F64) (hf : F64Ok f) (al : Ty → Option (List Char)) (env : List Char → Option Ty) :
    ∀ (ts : List Ty), WritableTys al env ts → ∃ rs, buildTys env rs = some ts ∧
      (rs = [] ↔ ts = []) ∧
      ∀ n, (∀ x ∈ printTys f al ts, 2 * x.length ≤ n) → AllItems (spaced (typeN f n)) (printTys f al ts) rs
  | [], _ => ⟨[], by rw [buildTys], by simp, fun n _ => by rw [printTys]; exact ⟨.nil, by simp⟩⟩
  | t :: ts, h => by
    rw [WritableTys] at h
    obtain ⟨r, b, i⟩ := ty_round f hf al env t h.1
    obtain ⟨rs, bs, _, is⟩ := tys_round f hf al env ts h.2
    refine ⟨r :: rs, by rw [buildTys, b, bs]; rfl, by simp, fun n hn => ?_⟩
    rw [printTys] at hn ⊢
    have hst := printTy_starts f al env t h.1
    obtain ⟨a1, a2⟩ := is n fun x hx => hn x (List.mem_cons_of_mem _ hx)
    refine ⟨.cons (item_spaced hst (i n (hn _ List.mem_cons_self))) a1, ?_⟩
    intro x hx
    rcases List.mem_cons.mp hx with rfl | hx
    · exact hst
    · exact a2 x hx
  termination_by ts => sizeOf ts
theorem attr_round (f : F64) (hf : F64Ok f) (al : Ty → Option (List Char)) (env : List Char → Option Ty) :
    ∀ (a : Attr), WritableAttr al env a → ∃ r, buildAttr env r = some a ∧
      ∀ n, 2 * (printAttr f al a).length + 1 ≤ n → Reads (attrN f n) (printAttr f al a) r
  | .unit, _ => ⟨.unit, by rw [buildAttr] <;> simp, fun n hn r hr => by
      obtain ⟨m, rfl⟩ : ∃ m, n = m + 1 := ⟨n - 1, by omega⟩
      rw [printAttr, attrN]; exact attr_unit r⟩
  | .bool b, _ => ⟨.bool b, by rw [buildAttr] <;> simp, fun n hn r hr => by
      obtain ⟨m, rfl⟩ : ∃ m, n = m + 1 := ⟨n - 1, by omega⟩
      rw [printAttr, attrN]; exact attr_bool b r⟩
  | .int v, h => ⟨.int v, by rw [buildAttr] <;> simp, fun n hn r hr => by
      obtain ⟨m, rfl⟩ : ∃ m, n = m + 1 := ⟨n - 1, by omega⟩
      rw [WritableAttr] at h
      rw [printAttr, attrN]; exact attr_int v h.1 h.2 r hr⟩
  | .float v, h => ⟨.float v, by rw [buildAttr] <;> simp, fun n hn r hr => by
      obtain ⟨m, rfl⟩ : ∃ m, n = m + 1 := ⟨n - 1, by omega⟩
      rw [WritableAttr] at h
      rw [printAttr, attrN]; exact attr_float hf v h r hr⟩
  | .string s, _ => ⟨.string s, by rw [buildAttr] <;> simp, fun n hn r hr => by
      obtain ⟨m, rfl⟩ : ∃ m, n = m + 1 := ⟨n - 1, by omega⟩
      rw [printAttr, attrN]; exact attr_string s r⟩
  | .bytes s, _ => ⟨.bytes s, by rw [buildAttr] <;> simp, fun n hn r hr => by
      obtain ⟨m, rfl⟩ : ∃ m, n = m + 1 := ⟨n - 1, by omega⟩
      rw [printAttr, attrN]; exact attr_bytes s r⟩
  | .symbol s, _ => ⟨.symbol s, by rw [buildAttr] <;> simp, fun n hn r hr => by
      obtain ⟨m, rfl⟩ : ∃ m, n = m + 1 := ⟨n - 1, by omega⟩
      rw [printAttr, attrN]; exact attr_symbol s r fun c hc => (hr.1 c hc).1⟩
  | .location p s e, h => ⟨.location p s e, by rw [buildAttr] <;> simp, fun n hn r hr => by
      obtain ⟨m, rfl⟩ : ∃ m, n = m + 1 := ⟨n - 1, by omega⟩
      rw [WritableAttr] at h
      rw [printAttr, attrN]; exact attr_location p s e h.1 h.2 r⟩
  | .type t, h => by
    rw [WritableAttr] at h
    obtain ⟨rt, b, i⟩ := ty_round f hf al env t h.1
    refine ⟨.type rt, by rw [buildAttr, b]; rfl, ?_⟩
    intro n hn r hr
    obtain ⟨m, rfl⟩ : ∃ m, n = m + 1 := ⟨n - 1, by omega⟩
    rw [printAttr] at hn ⊢
    have hi := i m (by omega) r hr
    have hsw : attrN f (m + 1) (printTy f al t ++ r) = mapP .type (typeN f m) (printTy f al t ++ r) := by
      rw [attrN]
      exact attr_type_switch f al env t h.1 h.2 r
    rw [hsw, mapP, hi]; rfl
  | .list l, h => by
    rw [WritableAttr] at h
    obtain ⟨rs, b, i⟩ := attrs_round f hf al env l h
    refine ⟨.list rs, by rw [buildAttr, b]; rfl, ?_⟩
    intro n hn r hr
    obtain ⟨m, rfl⟩ : ∃ m, n = m + 1 := ⟨n - 1, by omega⟩
    rw [printAttr] at hn ⊢
    have hit := i m (by
      intro x hx
      have := commaSep_length _ _ hx
      simp only [List.length_append, List.length_cons, List.length_singleton, List.cons_append] at hn
      omega)
    have he := enclosed_items (o := '[') (c := ']') (Or.inr (Or.inl rfl)) hit.1 hit.2
      (fun r => spaced_fails (Or.inr (Or.inl rfl)) (attrN_fails f r (Or.inr (Or.inl rfl)) m)) r
    rw [attrN]
    rw [show '[' :: commaSep (printAttrs f al l) ++ [']'] ++ r =
      '[' :: commaSep (printAttrs f al l) ++ ']' :: r from by simp]
    obtain ⟨q, hq⟩ : ∃ q, '[' :: commaSep (printAttrs f al l) ++ ']' :: r = '[' :: q := ⟨_, rfl⟩
    rw [hq] at he ⊢
    simp [attrWith, alt, mapP, lit, locationLit, bytesLit, stringLit, symbolRef, chr, he]
  termination_by a => sizeOf a
theorem attrs_round (f : F64) (hf : F64Ok f) (al : Ty → Option (List Char)) (env : List Char → Option Ty) :
    ∀ (l : List Attr), WritableAttrs al env l → ∃ rs, buildAttrs env rs = some l ∧
      ∀ n, (∀ x ∈ printAttrs f al l, 2 * x.length + 1 ≤ n) → AllItems (spaced (attrN f n)) (printAttrs f al l) rs
  | [], _ => ⟨[], by rw [buildAttrs], fun n _ => by rw [printAttrs]; exact ⟨.nil, by simp⟩⟩
  | a :: l, h => by
    rw [WritableAttrs] at h
    obtain ⟨r, b, i⟩ := attr_round f hf al env a h.1
    obtain ⟨rs, bs, is⟩ := attrs_round f hf al env l h.2
    refine ⟨r :: rs, by rw [buildAttrs, b, bs]; rfl, fun n hn => ?_⟩
    rw [printAttrs] at hn ⊢
    have hst := printAttr_starts f hf al env a h.1
    obtain ⟨a1, a2⟩ := is n fun x hx => hn x (List.mem_cons_of_mem _ hx)
    refine ⟨.cons (item_spaced hst (i n (hn _ List.mem_cons_self))) a1, ?_⟩
    intro x hx
    rcases List.mem_cons.mp hx with rfl | hx
    · exact hst
    · exact a2 x hx
  termination_by l => sizeOf l
theorem entries_round (f : F64) (hf : F64Ok f) (al : Ty → Option (List Char)) (env : List Char → Option Ty) :
    ∀ (l : List (List Char × Attr)), WritableEntries al env l → ∃ rs, buildEntries env rs = some l ∧
      (rs = [] ↔ l = []) ∧
      ∀ n, (∀ x ∈ printEntries f al l, 2 * x.length + 1 ≤ n) → AllItems (entry (attrN f n)) (printEntries f al l) rs
  | [], _ => ⟨[], by rw [buildEntries], by simp, fun n _ => by rw [printEntries]; exact ⟨.nil, by simp⟩⟩
  | (k, a) :: l, h => by
    rw [WritableEntries] at h
    obtain ⟨r, b, i⟩ := attr_round f hf al env a h.2.1
    obtain ⟨rs, bs, _, is⟩ := entries_round f hf al env l h.2.2
    refine ⟨(k, r) :: rs, by rw [buildEntries, b, bs]; rfl, by simp, fun n hn => ?_⟩
    rw [printEntries] at hn ⊢
    have hst := printAttr_starts f hf al env a h.2.1
    obtain ⟨a1, a2⟩ := is n fun x hx => hn x (List.mem_cons_of_mem _ hx)
    have hle := hn _ List.mem_cons_self
    simp only [List.length_append] at hle
    obtain ⟨e1, e2⟩ := item_entry h.1 hst (i n (by omega))
    refine ⟨.cons e1 a1, ?_⟩
    intro x hx
    rcases List.mem_cons.mp hx with rfl | hx
    · exact e2
    · exact a2 x hx
  termination_by l => sizeOf l
end

end Verif.IrText
