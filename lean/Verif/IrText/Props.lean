import Verif.IrText.Round
/-!
# Property C36: printed IR text reads back
-/
namespace Verif.IrText

/-- C36: every text, printed as a string literal, reads back, whatever follows it. -/
theorem C36_string (s rest : List Char) : stringLit (quoted s ++ rest) = some (s, rest) :=
  stringLit_quoted s rest

example : quoted ("a\"b\\\n\x7fé".toList) = "\"a\\\"b\\\\\\n\\x7fé\"".toList := by decide

/-- C36: every byte sequence, printed as a bytes literal, reads back, whatever follows it. -/
theorem C36_bytes (bs : List UInt8) (rest : List Char) :
    bytesLit ('b' :: '"' :: escapeBytes bs ++ '"' :: rest) = some (bs, rest) := by
  have := bytesLit_print bs rest
  rwa [show 'b' :: '"' :: escapeBytes bs ++ ['"'] ++ rest = 'b' :: '"' :: escapeBytes bs ++ '"' :: rest from by
    simp] at this

example : escapeBytes [0, 34, 65, 200] = "\\0\\\"A\\xc8".toList := by decide

/-- C36: every symbol, printed, reads back, unless a letter, digit or `_` follows it. -/
theorem C36_symbol (s rest : List Char) (hr : ∀ c, rest.head? = some c → isWordChar c = false) :
    symbolRef (printSymbol s ++ rest) = some (s, rest) := symbolRef_print s rest hr

example : printSymbol "main".toList = "@main".toList ∧ printSymbol "a::b".toList = "@\"a::b\"".toList ∧
    printSymbol [] = "@\"\"".toList := by decide

/-- C36: every `i128`, printed, reads back, unless a letter, digit or `_` follows it. -/
theorem C36_int (v : Int) (h1 : -2 ^ 127 ≤ v) (h2 : v < 2 ^ 127) (rest : List Char)
    (hr : ∀ c, rest.head? = some c → isWordChar c = false) :
    integerLit (printInt v ++ rest) = some (v, rest) := integerLit_print v h1 h2 rest hr

example : printInt (-170141183460469231731687303715884105728) =
    "-170141183460469231731687303715884105728".toList := by decide +kernel

/-- C36: every attribute that can be written (`WritableAttr`), however deeply nested, reads back:
the parser consumes exactly the printed text, and what it yields stands for the same attribute. -/
theorem C36_attribute (f : F64) (hf : F64Ok f) (al : Ty → Option (List Char)) (env : List Char → Option Ty)
    (a : Attr) (h : WritableAttr al env a) (rest : List Char) (hr : Stop rest) :
    ∃ r, parseAttr f (printAttr f al a ++ rest) = some (r, rest) ∧ buildAttr env r = some a := by
  obtain ⟨r, b, i⟩ := attr_round f hf al env a h
  refine ⟨r, i _ ?_ rest hr, b⟩
  rw [List.length_append]; omega

/-- C36: so does every type. -/
theorem C36_type (f : F64) (hf : F64Ok f) (al : Ty → Option (List Char)) (env : List Char → Option Ty)
    (t : Ty) (h : WritableTy al env t) (rest : List Char) (hr : Stop rest) :
    ∃ r, parseTy f (printTy f al t ++ rest) = some (r, rest) ∧ buildTy env r = some t := by
  obtain ⟨r, b, i⟩ := ty_round f hf al env t h
  refine ⟨r, i _ ?_ rest hr, b⟩
  rw [List.length_append]; omega

/-- A number format with the assumed properties, to show they can be met: it displays every number as
its bit pattern. -/
def bitsF64 : F64 := ⟨fun b => digits b.toNat, fun s => some (UInt64.ofNat (decimal (s.takeWhile (· != '.'))))⟩

theorem bitsF64_ok : F64Ok bitsF64 := by
  refine ⟨fun bits _ => ⟨[], digits bits.toNat, ['0'], Or.inl rfl, ?_⟩⟩
  obtain ⟨h1, h2, h3, _⟩ := digits_spec bits.toNat
  refine ⟨h2, h1, by simp, by decide, Or.inl ⟨rfl, rfl⟩, ?_⟩
  have := (takeWhile_append (a := digits bits.toNat) (b := '.' :: ['0']) (f := (· != '.')) (by
    intro c hc
    have := h1 c hc
    simp only [bne_iff_ne, ne_eq]
    rintro rfl
    revert this; decide) (by intro c hc; simp at hc; subst hc; decide)).1
  simp only [bitsF64, List.nil_append, this, h3, UInt64.ofNat_toNat]

/-- The hypotheses of C36_attribute and C36_type are met by a list holding a function type with an
attribute, an aliased type, a negative number, a location and a quoted symbol. -/
example :
    let point : Ty := .mk "adt".toList "struct".toList [] [("name".toList, .symbol "Point".toList)]
    let al : Ty → Option (List Char) := fun t => match t with
      | .mk ['a', 'd', 't'] _ _ _ => some "Point".toList
      | _ => none
    let env : List Char → Option Ty := fun n => if n = "Point".toList then some point else none
    WritableAttr al env (.list [.type (.mk "core".toList "func".toList [point, .mk "core".toList "i32".toList [] []]
      [("tribute.effect".toList, .list [.unit, .bool true])]), .int (-5), .float 0,
      .location "a \"b\".trb".toList 3 17, .symbol "x::y".toList, .string [], .bytes [255]]) := by
  have w1 : Word "core".toList := by simp [Word, isWordStart, isWordChar, Char.isAlphanum, Char.isAlpha, Char.isUpper, Char.isLower]
  have w2 : Word "func".toList := by simp [Word, isWordStart, isWordChar, Char.isAlphanum, Char.isAlpha, Char.isUpper, Char.isLower]
  have w3 : Word "i32".toList := by simp [Word, isWordStart, isWordChar, Char.isAlphanum, Char.isAlpha, Char.isUpper, Char.isLower, Char.isDigit]
  have k : Key "tribute.effect".toList := by
    refine Key.dot (w := "tribute".toList) (k := "effect".toList) ?_ (.word ?_) <;>
    simp [Word, isWordStart, isWordChar, Char.isAlphanum, Char.isAlpha, Char.isUpper, Char.isLower]
  simp only [WritableAttr, WritableAttrs, WritableTy, WritableTys, WritableEntries]
  refine ⟨⟨⟨w1, w2, ⟨⟨by simp, ?_⟩, ⟨w1, w3, trivial, trivial⟩, trivial⟩, k, ⟨trivial, trivial, trivial⟩, trivial⟩, ?_⟩,
    by decide, by decide, by decide, trivial, trivial, trivial, trivial⟩
  · intro _ c hc; simp at hc; subst hc; decide
  · intro _ d n ps as he; cases he; decide

/-- The text of a nested attribute, and that parsing it gives the attribute back. -/
example : printAttr bitsF64 (fun _ => none) (.list [.type (.mk "core".toList "func".toList
    [.mk "core".toList "i32".toList [] []] [("k".toList, .int 7)]), .bool false, .float 3]) =
    "[core.func(core.i32) {k = 7}, false, 3.0]".toList := by
  have h3 : printFloat bitsF64 3 = "3.0".toList := by decide +kernel
  have h7 : printInt 7 = "7".toList := by decide +kernel
  simp only [printAttr, printAttrs, printTy, printTys, printEntries, commaSep, h3, h7]
  rfl

/-- C36 is false of an alias whose name starts with a digit: it is printed without quotes, which does
not parse. -/
theorem C36_digit_alias_violated (f : F64) (t : Ty) (rest : List Char) (n : Nat) :
    typeN f n (printTy f (fun _ => some "2d".toList) t ++ rest) = none := by
  have hp : printTy f (fun _ => some "2d".toList) t = "!2d".toList := by
    rw [printTy.eq_def]; rfl
  rw [hp]
  cases n with
  | zero => rw [typeN]
  | succ n => simp [typeN, typeWith, aliasName, ident, isWordStart, Char.isAlpha, Char.isUpper, Char.isLower]

/-- C36 is false of a type attribute whose dialect starts with `unit`, `true` or `false`: the keyword is
read instead, and the rest is left over. -/
theorem C36_keyword_dialect_violated (f : F64) :
    printAttr f (fun _ => none) (.type (.mk "units".toList "meter".toList [] [])) = "units.meter".toList ∧
    parseAttr f "units.meter".toList = some (.unit, "s.meter".toList) := by
  constructor
  · simp [printAttr, printTy]
  · have : parseAttr f "units.meter".toList = attrN f 24 ("unit".toList ++ "s.meter".toList) := rfl
    rw [this, attrN, attr_unit]

/-- C36 is false of infinities: they print as a word, which is not an attribute. -/
theorem C36_infinity_violated (f : F64) (hd : f.display 0x7ff0000000000000 = "inf".toList) (rest : List Char)
    (hr : ∀ c, rest.head? = some c → c ≠ '.' ∧ isWordChar c = false) :
    parseAttr f (printAttr f (fun _ => none) (.float 0x7ff0000000000000) ++ rest) = none := by
  have hp : printAttr f (fun _ => none) (.float 0x7ff0000000000000) = "inf".toList := by
    simp only [printAttr, printFloat, hd, show isFinite 0x7ff0000000000000 = false from by decide]
    rfl
  rw [hp]
  have hw : ident ("inf".toList ++ rest) = some ("inf".toList, rest) := by
    refine ident_append ?_ fun c hc => (hr c hc).2
    simp [Word, isWordStart, isWordChar, Char.isAlphanum, Char.isAlpha, Char.isUpper, Char.isLower]
  have hq : qualifiedName ("inf".toList ++ rest) = none := by
    rw [qualifiedName, hw, Option.bind_some, chr_stop fun x hx => (hr x hx).1]
    rfl
  have ht : ∀ n, typeN f n ("inf".toList ++ rest) = none := by
    intro n
    cases n with
    | zero => rw [typeN]
    | succ n =>
      rw [typeN, typeWith, if_neg (by simp), hq]; rfl
  have hdig : takeWhile1 Char.isDigit ("inf".toList ++ rest) = none :=
    takeWhile1_none (by intro x hx; simp at hx; subst hx; decide)
  rw [parseAttr, show 2 * ("inf".toList ++ rest).length + 2 = (2 * ("inf".toList ++ rest).length + 1) + 1 from rfl,
    attrN]
  have hi : integerLit ("inf".toList ++ rest) = none := by
    rw [integerLit]
    simp only [show ¬ (("inf".toList ++ rest).head? = some '-') from by simp, if_false, hdig, Option.bind_none]
  have hfl : floatLit f ("inf".toList ++ rest) = none := by
    rw [floatLit]
    simp only [show ¬ (("inf".toList ++ rest).head? = some '-') from by simp, if_false, List.length_nil,
      List.drop_zero, hdig, Option.bind_none]
  generalize 2 * ("inf".toList ++ rest).length + 1 = n
  have e : "inf".toList ++ rest = 'i' :: ('n' :: 'f' :: rest) := rfl
  simp only [attrWith, alt, mapP, hi, hfl, ht n, Option.map_none, Option.orElse_none]
  rw [e]
  simp [lit, locationLit, bytesLit, stringLit, symbolRef, enclosed, chr]

end Verif.IrText
