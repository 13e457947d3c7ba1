import Verif.Display.Spec

namespace Verif.Display

/-- What may follow a type. -/
def Stop (r : Text) : Prop := ∀ c ∈ r.head?, c = ',' ∨ c = ')' ∨ c = '}'

/-- What may follow a name. -/
def End (r : Text) : Prop := ∀ c ∈ r.head?, nameChar c = false

theorem stop_cons {c : Char} {r : Text} (h : c = ',' ∨ c = ')' ∨ c = '}') : Stop (c :: r) := by
  intro d hd
  simp only [List.head?_cons, Option.mem_def, Option.some.injEq] at hd
  subst hd; exact h

theorem end_cons {c : Char} {r : Text} (h : nameChar c = false) : End (c :: r) := by
  intro d hd
  simp only [List.head?_cons, Option.mem_def, Option.some.injEq] at hd
  subst hd; exact h

theorem Stop.end {r : Text} (h : Stop r) : End r := by
  intro c hc
  rcases h c hc with rfl | rfl | rfl <;> decide

theorem Stop.not {c : Char} {r : Text} (h : Stop (c :: r)) : c = ',' ∨ c = ')' ∨ c = '}' :=
  h c rfl

theorem span_inj : ∀ (s s' r r' : Text), (∀ c ∈ s, nameChar c = true) → (∀ c ∈ s', nameChar c = true) →
    End r → End r' → s ++ r = s' ++ r' → s = s' ∧ r = r'
  | [], [], r, r', _, _, _, _, h => ⟨rfl, h⟩
  | [], c :: s', r, r', _, h', hr, _, h => by
    rw [List.nil_append] at h
    subst h
    have := hr c rfl
    rw [h' c (List.mem_cons_self ..)] at this
    cases this
  | c :: s, [], r, r', hs, _, _, hr', h => by
    rw [List.nil_append] at h
    subst h
    have := hr' c rfl
    rw [hs c (List.mem_cons_self ..)] at this
    cases this
  | c :: s, c' :: s', r, r', hs, hs', hr, hr', h => by
    simp only [List.cons_append, List.cons.injEq] at h
    obtain ⟨rfl, h⟩ := h
    obtain ⟨rfl, rfl⟩ := span_inj s s' r r' (fun d hd => hs d (List.mem_cons_of_mem _ hd))
      (fun d hd => hs' d (List.mem_cons_of_mem _ hd)) hr hr' h
    exact ⟨rfl, rfl⟩

/-- Names in paths. -/
def Names (ps : List Text) : Prop := ps ≠ [] ∧ ∀ p ∈ ps, IsName p

/-- What may follow a path. -/
def After (r : Text) : Prop := ∀ c ∈ r.head?, nameChar c = false ∧ c ≠ ':'

theorem Stop.after {r : Text} (h : Stop r) : After r := by
  intro c hc
  rcases h c hc with rfl | rfl | rfl <;> decide

theorem after_paren {r : Text} : After ('(' :: r) := by
  intro d hd
  simp only [List.head?_cons, Option.mem_def, Option.some.injEq] at hd
  subst hd; decide

theorem path_inj : ∀ (ps ps' : List Text) (r r' : Text), Names ps → Names ps' → After r → After r' →
    join [':', ':'] ps ++ r = join [':', ':'] ps' ++ r' → ps = ps' ∧ r = r'
  | [], _, _, _, h, _, _, _, _ => absurd rfl h.1
  | _ :: _, [], _, _, _, h, _, _, _ => absurd rfl h.1
  | [x], [x'], r, r', h, h', hr, hr', he => by
    obtain ⟨rfl, rfl⟩ := span_inj x x' r r' (h.2 x (by simp)).2 (h'.2 x' (by simp)).2
      (fun c hc => (hr c hc).1) (fun c hc => (hr' c hc).1) he
    exact ⟨rfl, rfl⟩
  | [x], x' :: y' :: ps', r, r', h, h', hr, hr', he => by
    simp only [join, List.append_assoc, List.cons_append, List.nil_append] at he
    have := (span_inj x x' _ _ (h.2 x (by simp)).2 (h'.2 x' (by simp)).2
      (fun c hc => (hr c hc).1) (end_cons (by decide)) he).2
    subst this
    exact absurd rfl (hr ':' rfl).2
  | x :: y :: ps, [x'], r, r', h, h', hr, hr', he => by
    simp only [join, List.append_assoc, List.cons_append, List.nil_append] at he
    have := (span_inj x x' _ _ (h.2 x (by simp)).2 (h'.2 x' (by simp)).2
      (end_cons (by decide)) (fun c hc => (hr' c hc).1) he).2
    subst this
    exact absurd rfl (hr' ':' rfl).2
  | x :: y :: ps, x' :: y' :: ps', r, r', h, h', hr, hr', he => by
    simp only [join, List.append_assoc, List.cons_append, List.nil_append] at he
    obtain ⟨rfl, hf⟩ := span_inj x x' _ _ (h.2 x (by simp)).2 (h'.2 x' (by simp)).2
      (end_cons (by decide)) (end_cons (by decide)) he
    simp only [List.cons.injEq, true_and] at hf
    obtain ⟨h1, rfl⟩ := path_inj (y :: ps) (y' :: ps') r r'
      ⟨by simp, fun p hp => h.2 p (List.mem_cons_of_mem _ hp)⟩
      ⟨by simp, fun p hp => h'.2 p (List.mem_cons_of_mem _ hp)⟩ hr hr' hf
    rw [h1]
    exact ⟨rfl, rfl⟩

theorem path_head {ps : List Text} (h : Names ps) : ∃ c x, join [':', ':'] ps = c :: x ∧
    nameChar c = true := by
  obtain ⟨hne, hn⟩ := h
  match ps, hne with
  | p :: ps, _ =>
    obtain ⟨h1, h2⟩ := hn p (by simp)
    match p, h1, h2 with
    | c :: p, _, h2 =>
      have hc := h2 c (by simp)
      cases ps with
      | nil => exact ⟨c, p, rfl, hc⟩
      | cons q ps => exact ⟨c, _, rfl, hc⟩

theorem path_ne {ps : List Text} (h : Names ps) {c : Char} (hc : nameChar c = false) (r x : Text) :
    join [':', ':'] ps ++ r ≠ c :: x := by
  obtain ⟨d, y, h1, h2⟩ := path_head h
  rw [h1]
  intro he
  simp only [List.cons_append, List.cons.injEq] at he
  rw [he.1, hc] at h2
  cases h2

theorem IsPath.names {ps : List Text} (h : IsPath ps) : Names ps := ⟨h.1, h.2.1⟩

theorem blank_names : Names [['_']] :=
  ⟨by simp, fun p hp => by
    rw [List.mem_singleton.1 hp]
    exact ⟨by simp, fun c hc => by rw [List.mem_singleton.1 hc]; decide⟩⟩

/-- The first character of a type. -/
theorem print_head (t : Ty) (h : t.Ok) : ∃ c x, print t = c :: x ∧
    (nameChar c = true ∨ c = '(' ∨ c = '?') := by
  cases t with
  | path ps =>
    obtain ⟨c, x, h1, h2⟩ := path_head (IsPath.names h)
    exact ⟨c, x, h1, .inl h2⟩
  | app ps args =>
    obtain ⟨c, x, h1, h2⟩ := path_head (IsPath.names h.1)
    refine ⟨c, x ++ '(' :: (printList args ++ [')']), ?_, .inl h2⟩
    simp only [print, h1, List.cons_append]
  | func params e result => exact ⟨'(', _, rfl, .inr (.inl rfl)⟩
  | tuple elems => exact ⟨'(', _, rfl, .inr (.inl rfl)⟩
  | infer => exact ⟨'_', [], rfl, .inl (by decide)⟩
  | error => exact ⟨'?', [], rfl, .inr (.inr rfl)⟩

theorem print_ne (t : Ty) (h : t.Ok) {c : Char} (hc : c = ')' ∨ c = '}') (r x : Text) :
    print t ++ r ≠ c :: x := by
  obtain ⟨d, y, h1, h2⟩ := print_head t h
  rw [h1]
  intro he
  simp only [List.cons_append, List.cons.injEq] at he
  rw [he.1] at h2
  rcases hc with rfl | rfl <;> revert h2 <;> decide

mutual
theorem print_inj : ∀ (t t' : Ty) (r r' : Text), t.Ok → t'.Ok → Stop r → Stop r' →
    print t ++ r = print t' ++ r' → t.noEffects = t'.noEffects ∧ r = r'
  | .path ps, t', r, r', h, h', hr, hr', he => by
    cases t' with
    | path ps' =>
      obtain ⟨rfl, rfl⟩ := path_inj ps ps' r r' (IsPath.names h) (IsPath.names h') hr.after hr'.after he
      exact ⟨rfl, rfl⟩
    | app ps' args =>
      simp only [print, List.append_assoc, List.cons_append] at he
      have := (path_inj ps ps' _ _ (IsPath.names h) (IsPath.names h'.1) hr.after after_paren he).2
      subst this
      exact absurd hr.not (by decide)
    | func p e q => exact absurd he (path_ne (IsPath.names h) (by decide) _ _)
    | tuple es => exact absurd he (path_ne (IsPath.names h) (by decide) _ _)
    | infer =>
      have := (path_inj ps [['_']] r r' (IsPath.names h) blank_names hr.after hr'.after he).1
      exact absurd this h.2.2
    | error => exact absurd he (path_ne (IsPath.names h) (by decide) _ _)
  | .app ps args, t', r, r', h, h', hr, hr', he => by
    have il := list_inj args
    simp only [print, List.append_assoc, List.cons_append] at he
    cases t' with
    | path ps' =>
      simp only [print] at he
      have := (path_inj ps ps' _ _ (IsPath.names h.1) (IsPath.names h') after_paren hr'.after he).2
      subst this
      exact absurd hr'.not (by decide)
    | app ps' args' =>
      simp only [print, List.append_assoc, List.cons_append] at he
      obtain ⟨rfl, hf⟩ := path_inj ps ps' _ _ (IsPath.names h.1) (IsPath.names h'.1) after_paren
        after_paren he
      simp only [List.cons.injEq, true_and, List.nil_append] at hf
      obtain ⟨h1, rfl⟩ := il args' ')' r r' (.inl rfl) h.2 h'.2 hf
      simp only [Ty.noEffects, h1, and_self]
    | func p e q => exact absurd he (path_ne (IsPath.names h.1) (by decide) _ _)
    | tuple es => exact absurd he (path_ne (IsPath.names h.1) (by decide) _ _)
    | infer =>
      have := (path_inj ps [['_']] _ r' (IsPath.names h.1) blank_names after_paren hr'.after he).1
      exact absurd this h.1.2.2
    | error => exact absurd he (path_ne (IsPath.names h.1) (by decide) _ _)
  | .func params e result, t', r, r', h, h', hr, hr', he => by
    have il := list_inj params
    have ir := print_inj result
    cases t' with
    | path ps' => exact absurd he.symm (path_ne (IsPath.names h') (by decide) _ _)
    | app ps' args' =>
      simp only [print, List.append_assoc, List.cons_append] at he
      exact absurd he.symm (path_ne (IsPath.names h'.1) (by decide) _ _)
    | func params' e' result' =>
      simp only [print, List.append_assoc, List.cons_append, List.cons.injEq, true_and] at he
      obtain ⟨h1, he⟩ := il params' ')' _ _ (.inl rfl) h.1 h'.1 he
      simp only [List.cons.injEq, true_and] at he
      obtain ⟨h2, rfl⟩ := ir result' r r' h.2 h'.2 hr hr' he
      simp only [Ty.noEffects, h1, h2, and_self]
    | tuple es' =>
      simp only [print, List.append_assoc, List.cons_append, List.cons.injEq, true_and,
        List.nil_append] at he
      have := (il es' ')' _ _ (.inl rfl) h.1 h' he).2
      subst this
      exact absurd hr'.not (by decide)
    | infer => simp [print] at he
    | error => simp [print] at he
  | .tuple es, t', r, r', h, h', hr, hr', he => by
    have il := list_inj es
    cases t' with
    | path ps' => exact absurd he.symm (path_ne (IsPath.names h') (by decide) _ _)
    | app ps' args' =>
      simp only [print, List.append_assoc, List.cons_append] at he
      exact absurd he.symm (path_ne (IsPath.names h'.1) (by decide) _ _)
    | func params' e' result' =>
      simp only [print, List.append_assoc, List.cons_append, List.cons.injEq, true_and,
        List.nil_append] at he
      have := (il params' ')' _ _ (.inl rfl) h h'.1 he).2
      subst this
      exact absurd hr.not (by decide)
    | tuple es' =>
      simp only [print, List.append_assoc, List.cons_append, List.cons.injEq, true_and,
        List.nil_append] at he
      obtain ⟨h1, rfl⟩ := il es' ')' _ _ (.inl rfl) h h' he
      simp only [Ty.noEffects, h1, and_self]
    | infer => simp [print] at he
    | error => simp [print] at he
  | .infer, t', r, r', h, h', hr, hr', he => by
    cases t' with
    | path ps' =>
      have := (path_inj [['_']] ps' r r' blank_names (IsPath.names h') hr.after hr'.after he).1
      exact absurd this.symm h'.2.2
    | app ps' args' =>
      simp only [print, List.append_assoc] at he
      have := (path_inj [['_']] ps' r _ blank_names (IsPath.names h'.1) hr.after after_paren he).1
      exact absurd this.symm h'.1.2.2
    | func p e q => simp [print] at he
    | tuple es => simp [print] at he
    | infer => simp [print] at he; exact ⟨rfl, he⟩
    | error => simp [print] at he
  | .error, t', r, r', h, h', hr, hr', he => by
    cases t' with
    | path ps' => exact absurd he.symm (path_ne (IsPath.names h') (by decide) _ _)
    | app ps' args' =>
      simp only [print, List.append_assoc] at he
      exact absurd he.symm (path_ne (IsPath.names h'.1) (by decide) _ _)
    | func p e q => simp [print] at he
    | tuple es => simp [print] at he
    | infer => simp [print] at he
    | error => simp [print] at he; exact ⟨rfl, he⟩
theorem list_inj : ∀ (ts ts' : List Ty) (c : Char) (r r' : Text), (c = ')' ∨ c = '}') → AllOk ts →
    AllOk ts' → printList ts ++ c :: r = printList ts' ++ c :: r' →
    allNoEffects ts = allNoEffects ts' ∧ r = r'
  | [], ts', c, r, r', hc, h, h', he => by
    cases ts' with
    | nil => simp [printList] at he; exact ⟨rfl, he⟩
    | cons t' ts' =>
      simp only [printList, List.nil_append, List.append_assoc] at he
      exact absurd he.symm (print_ne t' h'.1 hc _ _)
  | t :: ts, ts', c, r, r', hc, h, h', he => by
    have it := print_inj t
    have il := list_inj ts
    have hcs : c = ',' ∨ c = ')' ∨ c = '}' := .inr hc
    have hcc : c ≠ ',' := by rcases hc with rfl | rfl <;> decide
    cases ts' with
    | nil =>
      simp only [printList, List.nil_append, List.append_assoc] at he
      exact absurd he (print_ne t h.1 hc _ _)
    | cons t' ts' =>
      simp only [printList, List.append_assoc] at he
      cases ts with
      | nil =>
        cases ts' with
        | nil =>
          simp only [List.isEmpty_nil, if_true, List.nil_append] at he
          obtain ⟨h1, h2⟩ := it t' _ _ h.1 h'.1 (stop_cons hcs) (stop_cons hcs) he
          simp only [List.cons.injEq, true_and] at h2
          exact ⟨by simp only [allNoEffects, h1], h2⟩
        | cons u' ts' =>
          simp only [List.isEmpty_nil, List.isEmpty_cons, if_true, Bool.false_eq_true, if_false,
            List.nil_append, List.cons_append] at he
          have := (it t' _ _ h.1 h'.1 (stop_cons hcs) (stop_cons (.inl rfl)) he).2
          simp only [List.cons.injEq] at this
          exact absurd this.1 hcc
      | cons u ts =>
        cases ts' with
        | nil =>
          simp only [List.isEmpty_nil, List.isEmpty_cons, if_true, Bool.false_eq_true, if_false,
            List.nil_append, List.cons_append] at he
          have := (it t' _ _ h.1 h'.1 (stop_cons (.inl rfl)) (stop_cons hcs) he).2
          simp only [List.cons.injEq] at this
          exact absurd this.1.symm hcc
        | cons u' ts' =>
          simp only [List.isEmpty_cons, Bool.false_eq_true, if_false, List.cons_append] at he
          obtain ⟨h1, h2⟩ := it t' _ _ h.1 h'.1 (stop_cons (.inl rfl)) (stop_cons (.inl rfl)) he
          simp only [List.cons.injEq, true_and] at h2
          obtain ⟨h3, h4⟩ := il (u' :: ts') c r r' hc h.2 h'.2 h2
          refine ⟨?_, h4⟩
          rw [allNoEffects, h1, h3]
          rfl
end

theorem param_inj {p p' : Text × Option Ty} {r r' : Text} (hn : IsName p.1) (hn' : IsName p'.1)
    (ht : ∀ t, p.2 = some t → t.Ok) (ht' : ∀ t, p'.2 = some t → t.Ok) (hr : Stop r) (hr' : Stop r')
    (he : paramLabel p ++ r = paramLabel p' ++ r') :
    (p.1, p.2.map Ty.noEffects) = (p'.1, p'.2.map Ty.noEffects) ∧ r = r' := by
  obtain ⟨n, t⟩ := p
  obtain ⟨n', t'⟩ := p'
  cases t with
  | none =>
    cases t' with
    | none =>
      obtain ⟨h1, h2⟩ := span_inj n n' r r' hn.2 hn'.2 hr.end hr'.end he
      exact ⟨by rw [h1], h2⟩
    | some t' =>
      simp only [paramLabel, List.append_assoc, List.cons_append] at he
      have := (span_inj n n' r _ hn.2 hn'.2 hr.end (end_cons (by decide)) he).2
      subst this
      exact absurd hr.not (by decide)
  | some t =>
    cases t' with
    | none =>
      simp only [paramLabel, List.append_assoc, List.cons_append] at he
      have := (span_inj n n' _ r' hn.2 hn'.2 (end_cons (by decide)) hr'.end he).2
      subst this
      exact absurd hr'.not (by decide)
    | some t' =>
      simp only [paramLabel, List.append_assoc, List.cons_append] at he
      obtain ⟨h1, h2⟩ := span_inj n n' _ _ hn.2 hn'.2 (end_cons (by decide)) (end_cons (by decide)) he
      simp only [List.cons.injEq, true_and] at h2
      obtain ⟨h3, h4⟩ := print_inj t t' r r' (ht t rfl) (ht' t' rfl) hr hr' h2
      have h1' : n = n' := h1
      exact ⟨by simp only [h1', h3, Option.map_some], h4⟩

theorem paramLabel_head {p : Text × Option Ty} (h : IsName p.1) (r x : Text) :
    paramLabel p ++ r ≠ ')' :: x := by
  obtain ⟨n, t⟩ := p
  obtain ⟨h1, h2⟩ := h
  match n, h1, h2 with
  | c :: n, _, h2 =>
    have hc := h2 c (List.mem_cons_self ..)
    intro he
    cases t <;> simp only [paramLabel, List.cons_append, List.cons.injEq] at he <;>
      (rw [he.1] at hc; revert hc; decide)

theorem params_inj : ∀ (ps ps' : List (Text × Option Ty)) (r r' : Text),
    (∀ p ∈ ps, IsName p.1 ∧ ∀ t, p.2 = some t → t.Ok) →
    (∀ p ∈ ps', IsName p.1 ∧ ∀ t, p.2 = some t → t.Ok) →
    join [',', ' '] (ps.map paramLabel) ++ ')' :: r = join [',', ' '] (ps'.map paramLabel) ++ ')' :: r' →
    ps.map (fun p => (p.1, p.2.map Ty.noEffects)) = ps'.map (fun p => (p.1, p.2.map Ty.noEffects)) ∧
      r = r'
  | [], [], r, r', _, _, he => by simp [join] at he; exact ⟨rfl, he⟩
  | [], [p'], r, r', _, h', he => absurd he.symm (paramLabel_head (h' p' (by simp)).1 _ _)
  | [], p' :: q' :: ps', r, r', _, h', he => by
    simp only [List.map_cons, join, List.append_assoc] at he
    exact absurd he.symm (paramLabel_head (h' p' (by simp)).1 _ _)
  | [p], [], r, r', h, _, he => absurd he (paramLabel_head (h p (by simp)).1 _ _)
  | p :: q :: ps, [], r, r', h, _, he => by
    simp only [List.map_cons, join, List.append_assoc] at he
    exact absurd he (paramLabel_head (h p (by simp)).1 _ _)
  | [p], [p'], r, r', h, h', he => by
    obtain ⟨h1, h2⟩ := param_inj (h p (by simp)).1 (h' p' (by simp)).1 (h p (by simp)).2
      (h' p' (by simp)).2 (stop_cons (.inr (.inl rfl))) (stop_cons (.inr (.inl rfl))) he
    simp only [List.cons.injEq, true_and] at h2
    exact ⟨by simp only [List.map_cons, List.map_nil, h1], h2⟩
  | [p], p' :: q' :: ps', r, r', h, h', he => by
    simp only [List.map_cons, List.map_nil, join, List.append_assoc, List.cons_append] at he
    have := (param_inj (h p (by simp)).1 (h' p' (by simp)).1 (h p (by simp)).2
      (h' p' (by simp)).2 (stop_cons (.inr (.inl rfl))) (stop_cons (.inl rfl)) he).2
    simp at this
  | p :: q :: ps, [p'], r, r', h, h', he => by
    simp only [List.map_cons, List.map_nil, join, List.append_assoc, List.cons_append] at he
    have := (param_inj (h p (by simp)).1 (h' p' (by simp)).1 (h p (by simp)).2
      (h' p' (by simp)).2 (stop_cons (.inl rfl)) (stop_cons (.inr (.inl rfl))) he).2
    simp at this
  | p :: q :: ps, p' :: q' :: ps', r, r', h, h', he => by
    simp only [List.map_cons, join, List.append_assoc, List.cons_append, List.nil_append] at he
    obtain ⟨h1, h2⟩ := param_inj (h p (by simp)).1 (h' p' (by simp)).1 (h p (by simp)).2
      (h' p' (by simp)).2 (stop_cons (.inl rfl)) (stop_cons (.inl rfl)) he
    simp only [List.cons.injEq, true_and] at h2
    obtain ⟨h3, h4⟩ := params_inj (q :: ps) (q' :: ps') r r'
      (fun x hx => h x (List.mem_cons_of_mem _ hx)) (fun x hx => h' x (List.mem_cons_of_mem _ hx)) h2
    refine ⟨?_, h4⟩
    rw [List.map_cons (a := p), List.map_cons (a := p'), h1, h3]

theorem stop_nil : Stop [] := by intro c hc; cases hc

/-- The text of the result of a signature. -/
def retText (o : Option Ty) : Text := print (o.getD .infer)

/-- What follows the arrow of a signature. -/
def tailText (d : Decl) : Text :=
  match d.effects with
  | some (t :: ts) => '{' :: (printList (t :: ts) ++ '}' :: ' ' :: retText d.result)
  | _ => ' ' :: retText d.result

theorem label_eq (d : Decl) : label d = 'f' :: 'n' :: ' ' :: (d.name ++ '(' ::
    (join [',', ' '] (d.params.map paramLabel) ++ ')' :: ' ' :: '-' :: '>' :: tailText d)) := by
  obtain ⟨n, ps, e, r⟩ := d
  rcases e with _ | (_ | ⟨t, ts⟩) <;> cases r <;> rfl

theorem getD_ok {o : Option Ty} (h : ∀ t, o = some t → t.Ok) : (o.getD .infer).Ok := by
  cases o with
  | none => trivial
  | some x => exact h x rfl

theorem ret_inj {o o' : Option Ty} (h : ∀ t, o = some t → t.Ok) (h' : ∀ t, o' = some t → t.Ok)
    (he : retText o = retText o') : (o.getD .infer).noEffects = (o'.getD .infer).noEffects := by
  unfold retText at he
  exact (print_inj _ _ [] [] (getD_ok h) (getD_ok h') stop_nil stop_nil (by rw [he])).1

theorem tail_inj {d d' : Decl} (h : d.Ok) (h' : d'.Ok) (he : tailText d = tailText d') :
    allNoEffects (d.effects.getD []) = allNoEffects (d'.effects.getD []) ∧
      (d.result.getD .infer).noEffects = (d'.result.getD .infer).noEffects := by
  have hr := @ret_inj d.result d'.result h.result h'.result
  obtain ⟨n, ps, e, r⟩ := d
  obtain ⟨n', ps', e', r'⟩ := d'
  have ho := h.effects
  have ho' := h'.effects
  rcases e with _ | (_ | ⟨t, ts⟩) <;> rcases e' with _ | (_ | ⟨t', ts'⟩) <;>
    simp only [tailText, List.cons.injEq, true_and, Char.reduceEq, false_and] at he
  · exact ⟨rfl, hr he⟩
  · exact ⟨rfl, hr he⟩
  · exact ⟨rfl, hr he⟩
  · exact ⟨rfl, hr he⟩
  · obtain ⟨h1, h2⟩ := list_inj (t :: ts) (t' :: ts') '}' _ _ (.inr rfl) (ho _ rfl) (ho' _ rfl) he
    simp only [List.cons.injEq, true_and] at h2
    exact ⟨h1, hr h2⟩

theorem label_inj {d d' : Decl} (h : d.Ok) (h' : d'.Ok) (he : label d = label d') :
    d.shown = d'.shown := by
  rw [label_eq, label_eq] at he
  simp only [List.cons.injEq, true_and] at he
  obtain ⟨h1, h2⟩ := span_inj d.name d'.name _ _ h.name.2 h'.name.2 (end_cons (by decide))
    (end_cons (by decide)) he
  simp only [List.cons.injEq, true_and] at h2
  obtain ⟨h3, h4⟩ := params_inj d.params d'.params _ _ h.params h'.params h2
  simp only [List.cons.injEq, true_and] at h4
  obtain ⟨h5, h6⟩ := tail_inj h h' h4
  unfold Decl.shown
  rw [h1, h3, h5, h6]

end Verif.Display
