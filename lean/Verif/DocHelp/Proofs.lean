import Verif.DocHelp.Spec

namespace Verif.DocHelp

mutual
theorem find_none (name : Text) : ∀ (x : Node) (b : List Node), ¬ Defines name x → find name b x = none
  | .func n kids, b, h => by
    have ih := findKids_none name kids
    rw [find]
    rw [if_neg (fun e => h (by subst e; exact .here kids))]
    exact ih [] (fun k hk hd => h (.inFunc hk hd))
  | .other kids, b, h => by
    have ih := findKids_none name kids
    rw [find]
    exact ih [] (fun k hk hd => h (.inOther hk hd))
  | .docLine _, _, _ => by simp only [find]
  | .docBlock _, _, _ => by simp only [find]
  | .comment, _, _ => by simp only [find]
theorem findKids_none (name : Text) : ∀ (xs : List Node) (b : List Node),
    (∀ x ∈ xs, ¬ Defines name x) → findKids name b xs = none
  | [], b, _ => by simp only [findKids]
  | x :: xs, b, h => by
    have i1 := find_none name x
    have i2 := findKids_none name xs
    rw [findKids, i1 b (h x (List.mem_cons_self ..))]
    exact i2 (x :: b) (fun y hy => h y (List.mem_cons_of_mem _ hy))
end

theorem findKids_skip (name : Text) : ∀ (pre rest b : List Node), (∀ x ∈ pre, ¬ Defines name x) →
    findKids name b (pre ++ rest) = findKids name (pre.reverse ++ b) rest
  | [], rest, b, _ => rfl
  | x :: pre, rest, b, h => by
    rw [List.cons_append, findKids, find_none name x b (h x (List.mem_cons_self ..))]
    simp only
    rw [findKids_skip name pre rest (x :: b) (fun y hy => h y (List.mem_cons_of_mem _ hy))]
    simp

mutual
theorem find_some (name : Text) : ∀ (x : Node) (b r : List Node), find name b x = some r → Defines name x
  | .func n kids, b, r, h => by
    have ih := findKids_some name kids
    rw [find] at h
    by_cases e : n = name
    · subst e; exact .here kids
    · rw [if_neg e] at h
      obtain ⟨k, hk, hd⟩ := ih [] r h
      exact .inFunc hk hd
  | .other kids, b, r, h => by
    have ih := findKids_some name kids
    rw [find] at h
    obtain ⟨k, hk, hd⟩ := ih [] r h
    exact .inOther hk hd
  | .docLine _, _, _, h => by simp [find] at h
  | .docBlock _, _, _, h => by simp [find] at h
  | .comment, _, _, h => by simp [find] at h
theorem findKids_some (name : Text) : ∀ (xs : List Node) (b r : List Node),
    findKids name b xs = some r → ∃ x ∈ xs, Defines name x
  | [], _, _, h => by simp [findKids] at h
  | x :: xs, b, r, h => by
    have i1 := find_some name x
    have i2 := findKids_some name xs
    rw [findKids] at h
    cases hx : find name b x with
    | some r' => exact ⟨x, List.mem_cons_self .., i1 b r' hx⟩
    | none =>
      rw [hx] at h
      obtain ⟨k, hk, hd⟩ := i2 _ _ h
      exact ⟨k, List.mem_cons_of_mem _ hk, hd⟩
end

theorem dropWhile_white {white : Char → Bool} : ∀ (a y : Text), (∀ c ∈ a, white c = true) →
    (∀ c ∈ y.head?, white c = false) → (a ++ y).dropWhile white = y
  | [], [], _, _ => rfl
  | [], c :: y, _, h => by
    rw [List.nil_append, List.dropWhile_cons, if_neg (by rw [h c rfl]; decide)]
  | c :: a, y, ha, h => by
    rw [List.cons_append, List.dropWhile_cons, if_pos (ha c (List.mem_cons_self ..))]
    exact dropWhile_white a y (fun d hd => ha d (List.mem_cons_of_mem _ hd)) h

theorem trim_eq {white : Char → Bool} (a x b : Text) (ha : ∀ c ∈ a, white c = true)
    (hb : ∀ c ∈ b, white c = true) (hf : ∀ c ∈ x.head?, white c = false)
    (hl : ∀ c ∈ x.getLast?, white c = false) : trim white (a ++ x ++ b) = x := by
  unfold trim
  cases x with
  | nil =>
    have := dropWhile_white (white := white) (a ++ b) [] (by
      intro c hc
      rcases List.mem_append.1 hc with h | h
      · exact ha c h
      · exact hb c h) (by intro c hc; cases hc)
    simp only [List.append_nil] at this ⊢
    rw [this]
    rfl
  | cons d x =>
    rw [List.append_assoc, dropWhile_white a ((d :: x) ++ b) ha (by
      intro c hc; exact hf c hc)]
    rw [List.reverse_append, dropWhile_white b.reverse (d :: x).reverse
      (fun c hc => hb c (List.mem_reverse.1 hc))
      (by intro c hc; rw [List.head?_reverse] at hc; exact hl c hc)]
    exact List.reverse_reverse _

theorem stripPrefix_append : ∀ p t : Text, stripPrefix p (p ++ t) = some t
  | [], _ => rfl
  | c :: p, t => by
    rw [List.cons_append, stripPrefix, if_pos rfl]
    exact stripPrefix_append p t

theorem stripSuffix_append (p t : Text) : stripSuffix p (t ++ p) = some t := by
  unfold stripSuffix
  rw [List.reverse_append, stripPrefix_append]
  simp

/-- What is collected from a node. -/
theorem collect_says {white : Char → Bool} {n : Node} {x : Text} (h : Says white n x) (r : List Node) :
    collect white (n :: r) = x :: collect white r := by
  cases h with
  | line a _ b ha hb hf hl =>
    simp only [collect, cleanLine]
    rw [show ("///".toList : Text) = ['/', '/', '/'] from rfl, stripPrefix_append, Option.getD_some,
      trim_eq a x b ha hb hf hl]
  | block a _ b ha hb hf hl =>
    simp only [collect, cleanBlock]
    rw [show ("/**".toList : Text) = ['/', '*', '*'] from rfl,
      show ("*/".toList : Text) = ['*', '/'] from rfl, List.append_assoc, stripPrefix_append,
      Option.bind_some, stripSuffix_append, Option.map_some, Option.getD_some, trim_eq a x b ha hb hf hl]

theorem collect_stop {white : Char → Bool} {r : List Node}
    (h : ∀ n ∈ r.head?, n.isComment = false) : collect white r = [] := by
  cases r with
  | nil => rfl
  | cons n r =>
    have := h n rfl
    cases n <;> simp_all [Node.isComment, collect]

theorem saysAll_snoc {white : Char → Bool} {run : List Node} {xs : List Text}
    (h : SaysAll white run xs) (r : List Node) :
    collect white (run.reverse ++ r) = xs.reverse ++ collect white r := by
  induction h generalizing r with
  | nil => rfl
  | doc hs _ ih =>
    rw [List.reverse_cons, List.append_assoc, ih, List.singleton_append, collect_says hs]
    simp
  | plain _ ih =>
    rw [List.reverse_cons, List.append_assoc, ih, List.singleton_append, collect]

theorem joinLines_eq : ∀ xs : List Text, joinLines xs = lines xs
  | [] => rfl
  | [x] => by simp [joinLines, lines]
  | x :: y :: xs => by
    rw [joinLines, joinLines_eq (y :: xs)]
    simp [lines]

end Verif.DocHelp
