import Verif.Literals.Spec
/-!
# Lemmas about literals
-/
namespace Verif.Literals

/-! ## Characters by code point -/

theorem alnum_iff (c : Char) : c.isAlphanum = true ↔
    (48 ≤ c.toNat ∧ c.toNat ≤ 57) ∨ (65 ≤ c.toNat ∧ c.toNat ≤ 90) ∨ (97 ≤ c.toNat ∧ c.toNat ≤ 122) := by
  simp only [Char.isAlphanum, Char.isAlpha, Char.isUpper, Char.isLower, Char.isDigit, Bool.or_eq_true,
    Bool.and_eq_true, decide_eq_true_eq, UInt32.le_iff_toNat_le, ge_iff_le, Char.toNat]
  have e1 : '0'.val.toNat = 48 := rfl
  have e2 : '9'.val.toNat = 57 := rfl
  have e3 : 'A'.val.toNat = 65 := rfl
  have e4 : 'Z'.val.toNat = 90 := rfl
  have e5 : 'a'.val.toNat = 97 := rfl
  have e6 : 'z'.val.toNat = 122 := rfl
  rw [e1, e2, e3, e4, e5, e6]
  omega

theorem isDigit_iff (c : Char) : c.isDigit = true ↔ 48 ≤ c.toNat ∧ c.toNat ≤ 57 := by
  simp only [Char.isDigit, Bool.and_eq_true, decide_eq_true_eq, UInt32.le_iff_toNat_le, ge_iff_le, Char.toNat]
  have e1 : '0'.val.toNat = 48 := rfl
  have e2 : '9'.val.toNat = 57 := rfl
  rw [e1, e2]

theorem isLower_iff (c : Char) : c.isLower = true ↔ 97 ≤ c.toNat ∧ c.toNat ≤ 122 := by
  simp only [Char.isLower, Bool.and_eq_true, decide_eq_true_eq, UInt32.le_iff_toNat_le, ge_iff_le, Char.toNat]
  have e5 : 'a'.val.toNat = 97 := rfl
  have e6 : 'z'.val.toNat = 122 := rfl
  rw [e5, e6]

theorem digitVal_eq (c : Char) : digitVal c =
    if 48 ≤ c.toNat ∧ c.toNat ≤ 57 then c.toNat - 48
    else if 97 ≤ c.toNat ∧ c.toNat ≤ 122 then c.toNat - 97 + 10 else c.toNat - 65 + 10 := by
  simp only [digitVal, isDigit_iff, isLower_iff]
  rfl

theorem toDigit_iff (base : Nat) (c : Char) (d : Nat) : toDigit base c = some d ↔ IsDigit base c ∧ d = digitVal c := by
  rw [toDigit, IsDigit, alnum_iff, digitVal_eq]
  by_cases h1 : 48 ≤ c.toNat ∧ c.toNat ≤ 57
  · simp only [h1, and_self, if_true, Option.bind_some, true_or]
    split <;> simp <;> omega
  · by_cases h2 : 97 ≤ c.toNat ∧ c.toNat ≤ 122
    · simp only [h1, h2, and_self, if_true, if_false, Option.bind_some, or_true]
      split <;> simp <;> omega
    · by_cases h3 : 65 ≤ c.toNat ∧ c.toNat ≤ 90
      · simp only [h1, h2, h3, and_self, if_true, if_false, Option.bind_some, or_true, true_or]
        split <;> simp <;> omega
      · simp [h1, h2, h3]

/-! ## Numbers -/

theorem foldl_mono (base : Nat) (hb : 1 ≤ base) (ds : List Char) (n : Nat) :
    n ≤ ds.foldl (fun n c => n * base + digitVal c) n := by
  induction ds generalizing n with
  | nil => exact Nat.le_refl _
  | cons c r ih =>
    rw [List.foldl_cons]
    refine Nat.le_trans ?_ (ih _)
    have : n * 1 ≤ n * base := Nat.mul_le_mul_left n hb
    omega

theorem digitLoop_eq (base bound : Nat) (hb : 1 ≤ base) (ds : List Char) (h : ∀ c ∈ ds, IsDigit base c) (acc : Nat)
    (hacc : acc < bound) : digitLoop base bound ds acc =
      if ds.foldl (fun n c => n * base + digitVal c) acc < bound
      then some (ds.foldl (fun n c => n * base + digitVal c) acc) else none := by
  induction ds generalizing acc with
  | nil => simp [digitLoop, hacc]
  | cons c r ih =>
    have hd : toDigit base c = some (digitVal c) := (toDigit_iff _ _ _).mpr ⟨h c (by simp), rfl⟩
    rw [digitLoop, hd, Option.bind_some, List.foldl_cons]
    split
    · rename_i h1
      exact ih (fun x hx => h x (by simp [hx])) _ h1
    · rename_i h1
      have := foldl_mono base hb r (acc * base + digitVal c)
      rw [if_neg (by omega)]

theorem not_alnum_ne {base : Nat} {c : Char} (h : IsDigit base c) : c ≠ '+' ∧ c ≠ '-' ∧ c ≠ '_' := by
  refine ⟨?_, ?_, ?_⟩ <;> rintro rfl <;> exact absurd h.1 (by decide)

theorem fromStrRadix_eq (base bound : Nat) (hb : 1 ≤ base) (hbound : 0 < bound) (ds : List Char)
    (h : ∀ c ∈ ds, IsDigit base c) (hne : ds ≠ []) :
    fromStrRadix base bound ds = if number base ds < bound then some (number base ds) else none := by
  cases ds with
  | nil => exact absurd rfl hne
  | cons c r =>
    have hc := not_alnum_ne (h c (by simp))
    rw [fromStrRadix]
    simp only [hc.1, hc.2.1, or_self, and_false, if_false]
    exact digitLoop_eq base bound hb (c :: r) h 0 hbound

/-- Whatever is accepted is made of digits. -/
theorem digitLoop_some (base bound : Nat) (ds : List Char) (acc v : Nat) (h : digitLoop base bound ds acc = some v) :
    (∀ c ∈ ds, IsDigit base c) ∧ v = ds.foldl (fun n c => n * base + digitVal c) acc := by
  induction ds generalizing acc with
  | nil => simp [digitLoop] at h; simp [h]
  | cons c r ih =>
    rw [digitLoop] at h
    cases hd : toDigit base c with
    | none => rw [hd] at h; cases h
    | some d =>
      obtain ⟨h1, rfl⟩ := (toDigit_iff _ _ _).mp hd
      rw [hd, Option.bind_some] at h
      split at h
      · obtain ⟨i1, i2⟩ := ih _ h
        refine ⟨?_, by rw [List.foldl_cons]; exact i2⟩
        intro x hx
        rcases List.mem_cons.mp hx with rfl | hx
        · exact h1
        · exact i1 x hx
      · cases h

theorem fromStrRadix_some (base bound : Nat) (s : List Char) (v : Nat) (h : fromStrRadix base bound s = some v) :
    ∃ ds, (s = ds ∨ s = '+' :: ds) ∧ ds ≠ [] ∧ (∀ c ∈ ds, IsDigit base c) ∧ v = number base ds := by
  cases s with
  | nil => simp [fromStrRadix] at h
  | cons c r =>
    rw [fromStrRadix] at h
    split at h
    · cases h
    · rename_i h1
      split at h
      · rename_i h2
        subst h2
        obtain ⟨i1, i2⟩ := digitLoop_some base bound r 0 v h
        exact ⟨r, Or.inr rfl, fun e => h1 ⟨e, Or.inl rfl⟩, i1, i2⟩
      · obtain ⟨i1, i2⟩ := digitLoop_some base bound (c :: r) 0 v h
        exact ⟨c :: r, Or.inl rfl, by simp, i1, i2⟩

theorem filter_digits {base : Nat} {body : List Char} (h : ∀ c ∈ body, c = '_' ∨ IsDigit base c) :
    ∀ c ∈ noUnderscores body, IsDigit base c := by
  intro c hc
  simp only [noUnderscores, List.mem_filter, bne_iff_ne, ne_eq] at hc
  exact (h c hc.1).resolve_left hc.2

theorem filter_ne {body : List Char} (h : ∃ c ∈ body, c ≠ '_') : noUnderscores body ≠ [] := by
  obtain ⟨c, hc, hne⟩ := h
  intro e
  have : c ∈ noUnderscores body := by simp [noUnderscores, hc, hne]
  rw [e] at this; cases this

theorem filter_eq (body : List Char) : body.filter (· ≠ '_') = noUnderscores body := by
  rw [noUnderscores]; congr 1; funext c; simp [bne, BEq.beq]

/-- A second character that is no digit and no underscore. -/
theorem decimal_no_prefix {body : List Char} (h : ∀ c ∈ body, c = '_' ∨ IsDigit 10 c) (x : Char)
    (hx : x ≠ '_') (hd : ¬ IsDigit 10 x) : ¬ ['0', x].isPrefixOf body = true := by
  intro hp
  rw [List.isPrefixOf_iff_prefix] at hp
  obtain ⟨r, rfl⟩ := hp
  rcases h x (by simp) with e | e
  · exact hx e
  · exact hd e

theorem parseNat_b (body : List Char) : parseNat ("0b".toList ++ body) = fromStrRadix 2 (2 ^ 64) (noUnderscores body) ∧
    parseNat ("0B".toList ++ body) = fromStrRadix 2 (2 ^ 64) (noUnderscores body) := ⟨rfl, rfl⟩

theorem parseNat_o (body : List Char) : parseNat ("0o".toList ++ body) = fromStrRadix 8 (2 ^ 64) (noUnderscores body) ∧
    parseNat ("0O".toList ++ body) = fromStrRadix 8 (2 ^ 64) (noUnderscores body) := ⟨rfl, rfl⟩

theorem parseNat_x (body : List Char) : parseNat ("0x".toList ++ body) = fromStrRadix 16 (2 ^ 64) (noUnderscores body) ∧
    parseNat ("0X".toList ++ body) = fromStrRadix 16 (2 ^ 64) (noUnderscores body) := ⟨rfl, rfl⟩

theorem parseNat_of {t : List Char} {v : Nat} (h : NatLit t v) :
    parseNat t = if v < 2 ^ 64 then some v else none := by
  obtain ⟨hp, hd, hne⟩ := h
  rename_i pre body base
  have key : ∀ b, 1 ≤ b → (∀ c ∈ body, c = '_' ∨ IsDigit b c) →
      fromStrRadix b (2 ^ 64) (noUnderscores body) =
        if number b (body.filter (· ≠ '_')) < 2 ^ 64 then some (number b (body.filter (· ≠ '_'))) else none := by
    intro b hb hd
    rw [filter_eq, fromStrRadix_eq b (2 ^ 64) hb (by decide) _ (filter_digits hd) (filter_ne hne)]
  simp only [List.mem_cons, Prod.mk.injEq, List.not_mem_nil, or_false] at hp
  rcases hp with ⟨rfl, rfl⟩ | ⟨rfl, rfl⟩ | ⟨rfl, rfl⟩ | ⟨rfl, rfl⟩ | ⟨rfl, rfl⟩ | ⟨rfl, rfl⟩ | ⟨rfl, rfl⟩
  · have n1 := decimal_no_prefix hd 'b' (by decide) (by simp [IsDigit]; decide)
    have n2 := decimal_no_prefix hd 'B' (by decide) (by simp [IsDigit]; decide)
    have n3 := decimal_no_prefix hd 'o' (by decide) (by simp [IsDigit]; decide)
    have n4 := decimal_no_prefix hd 'O' (by decide) (by simp [IsDigit]; decide)
    have n5 := decimal_no_prefix hd 'x' (by decide) (by simp [IsDigit]; decide)
    have n6 := decimal_no_prefix hd 'X' (by decide) (by simp [IsDigit]; decide)
    rw [show "".toList ++ body = body from rfl, parseNat, if_neg (fun h => h.elim n1 n2),
      if_neg (fun h => h.elim n3 n4), if_neg (fun h => h.elim n5 n6)]
    exact key 10 (by decide) hd
  · exact (parseNat_b body).1.trans (key _ (by decide) hd)
  · exact (parseNat_b body).2.trans (key _ (by decide) hd)
  · exact (parseNat_o body).1.trans (key _ (by decide) hd)
  · exact (parseNat_o body).2.trans (key _ (by decide) hd)
  · exact (parseNat_x body).1.trans (key _ (by decide) hd)
  · exact (parseNat_x body).2.trans (key _ (by decide) hd)

theorem parseNat_lit {t : List Char} {v : Nat} (h : parseNat t = some v) (hp : '+' ∉ t) : NatLit t v ∧ v < 2 ^ 64 := by
  have key : ∀ (pre body : List Char) (base : Nat), t = pre ++ body → (pre, base) ∈
      [("".toList, 10), ("0b".toList, 2), ("0B".toList, 2), ("0o".toList, 8), ("0O".toList, 8), ("0x".toList, 16),
        ("0X".toList, 16)] → fromStrRadix base (2 ^ 64) (noUnderscores body) = some v → NatLit t v := by
    rintro pre body base rfl hm hv
    obtain ⟨ds, hds, hne, hdig, rfl⟩ := fromStrRadix_some base (2 ^ 64) _ v hv
    have hplus : noUnderscores body = ds := by
      rcases hds with h | h
      · exact h
      · exfalso
        have : '+' ∈ noUnderscores body := by rw [h]; simp
        simp only [noUnderscores, List.mem_filter] at this
        exact hp (by simp [this.1])
    subst hplus
    rw [← filter_eq]
    refine .mk hm ?_ ?_
    · intro c hc
      by_cases e : c = '_'
      · exact Or.inl e
      · exact Or.inr (hdig c (by simp [noUnderscores, hc, e]))
    · cases hb : noUnderscores body with
      | nil => exact absurd hb hne
      | cons c r =>
        have : c ∈ noUnderscores body := by rw [hb]; simp
        simp only [noUnderscores, List.mem_filter, bne_iff_ne] at this
        exact ⟨c, this.1, this.2⟩
  have hlit : NatLit t v := by
    have split2 : ∀ p : List Char, p.length = 2 → p.isPrefixOf t = true → t = p ++ t.drop 2 := by
      intro p hl h
      rw [List.isPrefixOf_iff_prefix] at h
      obtain ⟨r, rfl⟩ := h
      rw [← hl, List.drop_left]
    rw [parseNat] at h
    split at h
    · rename_i c
      rcases c with c | c
      · exact key _ _ 2 (split2 _ rfl c) (by simp) h
      · exact key _ _ 2 (split2 _ rfl c) (by simp) h
    · split at h
      · rename_i c
        rcases c with c | c
        · exact key _ _ 8 (split2 _ rfl c) (by simp) h
        · exact key _ _ 8 (split2 _ rfl c) (by simp) h
      · split at h
        · rename_i c
          rcases c with c | c
          · exact key _ _ 16 (split2 _ rfl c) (by simp) h
          · exact key _ _ 16 (split2 _ rfl c) (by simp) h
        · exact key [] t 10 rfl (by simp) h
  refine ⟨hlit, ?_⟩
  have := parseNat_of hlit
  rw [h] at this
  split at this
  · assumption
  · cases this

/-- The characters of a natural number literal. -/
theorem natLit_chars {t : List Char} {v : Nat} (h : NatLit t v) :
    t ≠ [] ∧ ∀ c ∈ t, c = '_' ∨ c.isAlphanum = true := by
  obtain ⟨hp, hd, hne⟩ := h
  rename_i pre body base
  have hb : ∀ c ∈ body, c = '_' ∨ c.isAlphanum = true := fun c hc => (hd c hc).imp id fun h => h.1
  obtain ⟨c, hc, _⟩ := hne
  refine ⟨fun e => (by rw [(List.append_eq_nil_iff.mp e).2] at hc; cases hc), ?_⟩
  intro c hc
  rcases List.mem_append.mp hc with hc | hc
  · simp only [List.mem_cons, Prod.mk.injEq, List.not_mem_nil, or_false] at hp
    rcases hp with ⟨rfl, -⟩ | ⟨rfl, -⟩ | ⟨rfl, -⟩ | ⟨rfl, -⟩ | ⟨rfl, -⟩ | ⟨rfl, -⟩ | ⟨rfl, -⟩ <;>
      simp at hc <;> rcases hc with rfl | rfl <;> decide
  · exact hb c hc

theorem dropWhile_none {p : Char → Bool} {s : List Char} (h : ∀ c, s.head? = some c → p c = false) : s.dropWhile p = s := by
  cases s with
  | nil => rfl
  | cons c r => rw [List.dropWhile_cons, h c rfl]; rfl

theorem trim_eq (s : List Char) (h1 : ∀ c, s.head? = some c → isWhitespace c = false)
    (h2 : ∀ c, s.getLast? = some c → isWhitespace c = false) : trim s = s := by
  rw [trim, dropWhile_none h1, dropWhile_none, List.reverse_reverse]
  intro c hc
  exact h2 c (by rwa [List.head?_reverse] at hc)

theorem not_ws_alnum {c : Char} (h : c = '_' ∨ c.isAlphanum = true) : isWhitespace c = false := by
  rcases h with rfl | h
  · decide
  · rw [alnum_iff] at h
    simp only [isWhitespace, Bool.or_eq_false_iff, Bool.and_eq_false_iff, decide_eq_false_iff_not, beq_eq_false_iff_ne]
    omega

theorem trim_nat {t : List Char} {v : Nat} (h : NatLit t v) : trim t = t := by
  obtain ⟨_, hc⟩ := natLit_chars h
  exact trim_eq t (fun c h => not_ws_alnum (hc c (List.mem_of_head? h)))
    (fun c h => not_ws_alnum (hc c (List.mem_of_getLast? h)))

theorem trim_signed {t : List Char} {v : Nat} (h : NatLit t v) (s : Char) (hs : isWhitespace s = false) :
    trim (s :: t) = s :: t := by
  obtain ⟨hne, hc⟩ := natLit_chars h
  refine trim_eq _ (fun c h => ?_) (fun c h => ?_)
  · simp at h; subst h; exact hs
  · rw [List.getLast?_cons_of_ne_nil hne] at h
    exact not_ws_alnum (hc c (List.mem_of_getLast? h))

theorem splitSign_plain {t : List Char} {v : Nat} (h : NatLit t v) : splitSign t = (false, t) := by
  obtain ⟨hne, hc⟩ := natLit_chars h
  cases t with
  | nil => exact absurd rfl hne
  | cons c r =>
    have := hc c (by simp)
    rw [splitSign, if_neg, if_neg]
    · rintro rfl; revert this; decide
    · rintro rfl; revert this; decide

theorem exprInt_of {t : List Char} {v : Int} (h : IntLit t v) :
    exprInt t = if -2 ^ 63 ≤ v ∧ v < 2 ^ 63 then some v else none := by
  cases h with
  | @plain t v h =>
    simp only [exprInt, trim_nat h, if_neg (natLit_chars h).1, splitSign_plain h, parseNat_of h]
    by_cases h1 : v < 2 ^ 64
    · simp only [if_pos h1, Option.bind_some, Bool.false_eq_true, if_false]
      split <;> split <;> first | rfl | omega
    · simp only [if_neg h1, Option.bind_none]
      rw [if_neg (by omega)]
  | @plus t v h =>
    simp only [exprInt, trim_signed h '+' (by decide), splitSign, if_true, parseNat_of h, reduceCtorEq, if_false]
    by_cases h1 : v < 2 ^ 64
    · simp only [if_pos h1, Option.bind_some, Bool.false_eq_true, if_false]
      split <;> split <;> first | rfl | omega
    · simp only [if_neg h1, Option.bind_none]
      rw [if_neg (by omega)]
  | @minus t v h =>
    simp only [exprInt, trim_signed h '-' (by decide), splitSign, if_true, show ¬ ('-' = '+') from by decide, if_false,
      parseNat_of h, reduceCtorEq]
    by_cases h1 : v < 2 ^ 64
    · simp only [if_pos h1, Option.bind_some, if_true]
      split
      · rw [if_neg (by omega)]
      · split
        · rename_i h2 h3
          subst h3
          rw [if_pos (by omega)]; rfl
        · rw [if_pos (by omega)]
    · simp only [if_neg h1, Option.bind_none]
      rw [if_neg (by omega)]

theorem patInt_eq (t : List Char) : patInt t = exprInt t := by
  simp only [patInt, exprInt]
  split
  · rfl
  · congr 1
    funext v
    split
    · split
      · rw [if_neg (by omega), if_neg (by omega)]
      · split
        · rename_i h
          rw [if_neg (by omega)]
        · rw [if_pos (by omega)]
    · rfl

end Verif.Literals
