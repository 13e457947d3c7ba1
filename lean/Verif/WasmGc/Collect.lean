import Verif.WasmGc.Index

/-! What the traversal of `collect_gc_types` leaves in the table of types. -/

namespace Verif.WasmGc

open Spec

/-- A recorded type stays, or is widened to `anyref`. -/
def Sub (a b : Ty) : Prop := a = b ∨ (b = .anyref ∧ anyCompat a = true)

theorem Sub.refl (a : Ty) : Sub a a := .inl rfl

theorem Sub.trans {a b c : Ty} (h : Sub a b) (h' : Sub b c) : Sub a c := by
  rcases h with rfl | ⟨rfl, h⟩
  · exact h'
  · rcases h' with rfl | ⟨rfl, _⟩
    · exact .inr ⟨rfl, h⟩
    · exact .inr ⟨rfl, h⟩

theorem norm_norm (t : Ty) : norm (norm t) = norm t := by
  cases t
  case struct n l =>
    by_cases h : n = "_closure" <;> simp [norm, h]
  all_goals rfl

theorem norm_anyref {t : Ty} (h : norm t = .anyref) : t = .anyref := by
  cases t <;> simp only [norm] at h <;> try contradiction
  · rfl
  · split at h <;> contradiction

def Normed (b : Builder) : Prop := ∀ k F, b.fields k = some F → norm F = F

structure Grows (b b' : Builder) : Prop where
  len : b.len ≤ b'.len
  fields : ∀ k F, b.fields k = some F → ∃ F', b'.fields k = some F' ∧ Sub F F'

theorem Grows.refl (b : Builder) : Grows b b := ⟨Nat.le_refl _, fun _ F h => ⟨F, h, .refl F⟩⟩

theorem Grows.trans {a b c : Builder} (h : Grows a b) (h' : Grows b c) : Grows a c :=
  ⟨Nat.le_trans h.len h'.len, fun k F e => by
    obtain ⟨F', e', s⟩ := h.fields k F e
    obtain ⟨F'', e'', s'⟩ := h'.fields k F' e'
    exact ⟨F'', e'', s.trans s'⟩⟩

theorem recordField_spec {b b' : Builder} {k : Nat} {t : Ty} (h : recordField b k t = some b')
    (hn : Normed b) :
    Normed b' ∧ Grows b b' ∧ b'.len = max b.len (k + 1) ∧
      ∃ F, b'.fields k = some F ∧ Sub (norm t) F := by
  simp only [recordField] at h
  split at h
  · contradiction
  · cases hf : b.fields k with
    | none =>
      simp only [hf, Option.some.injEq] at h
      subst h
      refine ⟨?_, ⟨by simp; omega, ?_⟩, rfl, ⟨norm t, by simp, .refl _⟩⟩
      · intro j F hj
        simp only at hj
        by_cases e : j = k
        · simp only [e, if_true, Option.some.injEq] at hj; rw [← hj]; exact norm_norm t
        · simp only [e, if_false] at hj; exact hn j F hj
      · intro j F hj
        have e : j ≠ k := by rintro rfl; simp [hf] at hj
        exact ⟨F, by simp [e, hj], .refl F⟩
    | some old =>
      simp only [hf] at h
      have ho := hn k old hf
      split at h
      · rename_i hE
        -- the compatible cases
        have key : old = norm t ∨ (old = .anyref ∧ anyCompat (norm t) = true) ∨
            (norm t = .anyref ∧ anyCompat old = true) := by
          simp only [equivGc, norm_norm, ho] at hE
          split at hE
          · rename_i e; exact .inl e
          · split at hE
            · rename_i e; exact .inr (.inl ⟨e, hE⟩)
            · split at hE
              · rename_i e; exact .inr (.inr ⟨e, hE⟩)
              · contradiction
        split at h
        · rename_i hc
          simp only [Option.some.injEq] at h
          subst h
          have hs : Sub old (norm t) := by
            rcases key with e | ⟨e, e'⟩ | ⟨e, e'⟩
            · exact .inl e
            · rcases hc with hc | ⟨hc, _⟩
              · exact .inl (by rw [e, hc])
              · exact absurd e hc
            · exact .inr ⟨e, e'⟩
          refine ⟨?_, ⟨by simp; omega, ?_⟩, rfl, ⟨norm t, by simp, .refl _⟩⟩
          · intro j F hj
            simp only at hj
            by_cases e : j = k
            · simp only [e, if_true, Option.some.injEq] at hj; rw [← hj]; exact norm_norm t
            · simp only [e, if_false] at hj; exact hn j F hj
          · intro j F hj
            by_cases e : j = k
            · subst e
              rw [hf] at hj; simp only [Option.some.injEq] at hj; subst hj
              exact ⟨norm t, by simp, hs⟩
            · exact ⟨F, by simp [e, hj], .refl F⟩
        · rename_i hc
          simp only [Option.some.injEq] at h
          subst h
          refine ⟨hn, ⟨by simp; omega, fun j F hj => ⟨F, hj, .refl F⟩⟩, rfl, ⟨old, hf, ?_⟩⟩
          rcases key with e | ⟨e, e'⟩ | ⟨e, e'⟩
          · exact .inl e.symm
          · exact .inr ⟨e, e'⟩
          · exact absurd (.inl e) hc
      · contradiction

theorem recordFields_spec : ∀ (ts : List Ty) {b b' : Builder} {k : Nat},
    recordFields b k ts = some b' → Normed b →
    Normed b' ∧ Grows b b' ∧ b'.len ≤ max b.len (k + ts.length) ∧
      ∀ j t, ts[j]? = some t → ∃ F, b'.fields (k + j) = some F ∧ Sub (norm t) F
  | [], b, b', k, h, hn => by
    simp only [recordFields, Option.some.injEq] at h
    subst h
    exact ⟨hn, .refl _, by omega, by simp⟩
  | t :: ts, b, b', k, h, hn => by
    simp only [recordFields] at h
    cases h1 : recordField b k t with
    | none => simp [h1] at h
    | some b1 =>
      simp only [h1] at h
      obtain ⟨n1, g1, l1, F, f1, s1⟩ := recordField_spec h1 hn
      obtain ⟨n2, g2, l2, f2⟩ := recordFields_spec ts h n1
      refine ⟨n2, g1.trans g2, by simp only [List.length_cons]; omega, ?_⟩
      intro j t' hj
      cases j with
      | zero =>
        simp only [List.getElem?_cons_zero, Option.some.injEq] at hj
        subst hj
        obtain ⟨F', f', s'⟩ := g2.fields k F f1
        exact ⟨F', f', s1.trans s'⟩
      | succ j =>
        simp only [List.getElem?_cons_succ] at hj
        have := f2 j t' hj
        rwa [show k + 1 + j = k + (j + 1) by omega] at this

theorem lookup_append (t : Ty) (l l' : List (Ty × Nat)) :
    (l ++ l').lookup t = (l.lookup t).or (l'.lookup t) := by
  induction l with
  | nil => simp
  | cons a l ih =>
    obtain ⟨a, i⟩ := a
    rw [List.cons_append, lookup_cons, lookup_cons, ih]
    split <;> simp

theorem register_lookup (map : List (Ty × Nat)) (idx : Nat) (t u : Ty) :
    (register map idx t).lookup u =
      match map.lookup u with
      | some i => some i
      | none => if u = t then some idx else none := by
  unfold register
  cases h : map.lookup t with
  | some j =>
    cases h' : map.lookup u with
    | some i => simp [h']
    | none =>
      have : u ≠ t := by rintro rfl; simp [h] at h'
      simp [h', this]
  | none =>
    simp only [lookup_append, lookup_cons]
    cases h' : map.lookup u <;> simp

/-- Facts that hold at every point of the traversal. -/
structure Inv (D : Decls) (ix : List (Ty × Nat)) (c : Coll) : Prop where
  map : ∀ ty i, c.map.lookup ty = some i → (ty, i) ∈ seeds ∨ ty = .i32 ∨
    ∃ t, Declared t ∧ RefersTo D ty t ∧ ix.lookup t = some i ∧ i - firstUser < c.count
  normed : ∀ j, Normed (c.builders j)
  len : ∀ t i, Declared t → ix.lookup t = some i → (c.builders (i - firstUser)).len ≤ D.arity t

/-- Later states keep what earlier ones know. -/
structure Le (c c' : Coll) : Prop where
  map : ∀ ty i, c.map.lookup ty = some i → c'.map.lookup ty = some i
  count : c.count ≤ c'.count
  builders : ∀ j, Grows (c.builders j) (c'.builders j)

theorem Le.refl (c : Coll) : Le c c := ⟨fun _ _ h => h, Nat.le_refl _, fun _ => .refl _⟩

theorem Le.trans {a b c : Coll} (h : Le a b) (h' : Le b c) : Le a c :=
  ⟨fun ty i e => h'.map ty i (h.map ty i e), Nat.le_trans h.count h'.count,
   fun j => (h.builders j).trans (h'.builders j)⟩

/-- The conditions on an indexed operation that the traversal needs. -/
def IOk (D : Decls) (ix : List (Ty × Nat)) (tys : List Ty) : IOp → Prop
  | .structNew rty idx args =>
    ∃ t, Declared t ∧ RefersTo D rty t ∧ ix.lookup t = some idx ∧ args.length = D.arity t
  | .structGet _ idx r f =>
    ∃ t, Declared t ∧ RefersTo D (tyAt tys r) t ∧ ix.lookup t = some idx ∧ f < D.arity t
  | .structSet idx r _ f =>
    ∃ t, Declared t ∧ RefersTo D (tyAt tys r) t ∧ ix.lookup t = some idx ∧ f < D.arity t
  | .refNull rty _ (some idx) => ∃ t, Declared t ∧ RefersTo D rty t ∧ ix.lookup t = some idx
  | .refCast rty _ (some idx) _ => ∃ t, Declared t ∧ RefersTo D rty t ∧ ix.lookup t = some idx
  | .refTest _ (some idx) _ => ∃ t, Declared t ∧ ix.lookup t = some idx
  | _ => True

/-- A field of index `idx` has been recorded at type `t`. -/
def HasField (c : Coll) (idx k : Nat) (t : Ty) : Prop :=
  k < (c.builders (idx - firstUser)).len ∧
    ∃ F, (c.builders (idx - firstUser)).fields k = some F ∧ Sub (norm t) F

def Known (c : Coll) (ty : Ty) : Prop := ∃ i, c.map.lookup ty = some i

/-- What an operation leaves in the table. -/
def Done (tys : List Ty) (c : Coll) : IOp → Prop
  | .structNew rty idx args =>
    Known c rty ∧ idx - firstUser < c.count ∧
      args.length ≤ (c.builders (idx - firstUser)).len ∧
      ∀ j a, args[j]? = some a → HasField c idx j (tyAt tys a)
  | .structGet rty idx r f =>
    Known c (tyAt tys r) ∧ idx - firstUser < c.count ∧ HasField c idx f rty
  | .structSet idx r v f =>
    Known c (tyAt tys r) ∧ idx - firstUser < c.count ∧ HasField c idx f (tyAt tys v)
  | .refNull rty _ (some idx) => Known c rty ∧ idx - firstUser < c.count
  | .refCast rty _ (some idx) _ => Known c rty ∧ idx - firstUser < c.count
  | .refTest _ (some idx) _ => idx - firstUser < c.count
  | _ => True

theorem Known.mono {c c' : Coll} (h : Le c c') {ty : Ty} (hk : Known c ty) : Known c' ty := by
  obtain ⟨i, hi⟩ := hk; exact ⟨i, h.map _ _ hi⟩

theorem HasField.mono {c c' : Coll} (h : Le c c') {idx k : Nat} {t : Ty} (hk : HasField c idx k t) :
    HasField c' idx k t := by
  obtain ⟨hl, F, hF, s⟩ := hk
  obtain ⟨F', hF', s'⟩ := (h.builders _).fields k F hF
  exact ⟨Nat.lt_of_lt_of_le hl (h.builders _).len, F', hF', s.trans s'⟩

theorem Done.mono {tys : List Ty} {c c' : Coll} (h : Le c c') {op : IOp} (hd : Done tys c op) :
    Done tys c' op := by
  have hc := h.count
  unfold Done at hd ⊢
  split at hd
  · obtain ⟨h1, h2, h3, h4⟩ := hd
    exact ⟨h1.mono h, by omega, Nat.le_trans h3 (h.builders _).len, fun j a e => (h4 j a e).mono h⟩
  · obtain ⟨h1, h2, h3⟩ := hd; exact ⟨h1.mono h, by omega, h3.mono h⟩
  · obtain ⟨h1, h2, h3⟩ := hd; exact ⟨h1.mono h, by omega, h3.mono h⟩
  · obtain ⟨h1, h2⟩ := hd; exact ⟨h1.mono h, by omega⟩
  · obtain ⟨h1, h2⟩ := hd; exact ⟨h1.mono h, by omega⟩
  · exact Nat.lt_of_lt_of_le hd hc
  · trivial

/-- Replacing one builder by a grown one and registering one type. -/
theorem step_inv {D : Decls} {g : List (Fn GOp)} {c : Coll} (hi : Inv D (indices g) c)
    {t : Ty} {idx : Nat} (ht : Declared t) (hl : (indices g).lookup t = some idx) {b : Builder}
    (hb : Normed b) (hg : Grows (getBuilder c idx) b) (hlen : b.len ≤ D.arity t) {ty : Ty}
    (hr : RefersTo D ty t ∨ ty = .i32) :
    let c' : Coll := { setBuilder c idx b with map := register c.map idx ty }
    Inv D (indices g) c' ∧ Le c c' ∧ Known c' ty ∧ idx - firstUser < c'.count ∧
      c'.builders (idx - firstUser) = b := by
  intro c'
  refine ⟨⟨?_, ?_, ?_⟩, ⟨?_, ?_, ?_⟩, ?_, ?_, ?_⟩
  · intro u i hu
    simp only [c', register_lookup] at hu
    cases hm : c.map.lookup u with
    | some j =>
      simp only [hm, Option.some.injEq] at hu
      subst hu
      rcases hi.map u j hm with h | h | ⟨t', h1, h2, h3, h4⟩
      · exact .inl h
      · exact .inr (.inl h)
      · exact .inr (.inr ⟨t', h1, h2, h3, by simp only [c', setBuilder]; omega⟩)
    | none =>
      simp only [hm] at hu
      split at hu
      · rename_i e
        simp only [Option.some.injEq] at hu
        subst hu
        rcases hr with hr | hr
        · exact .inr (.inr ⟨t, ht, e ▸ hr, hl, by simp only [c', setBuilder]; omega⟩)
        · exact .inr (.inl (e.trans hr))
      · contradiction
  · intro j
    simp only [c', setBuilder]
    split
    · exact hb
    · exact hi.normed j
  · intro t' i ht' hl'
    simp only [c', setBuilder]
    split
    · rename_i e
      have h1 := indices_declared ht hl
      have h2 := indices_declared ht' hl'
      have : i = idx := by omega
      subst this
      rw [indices_inj ht' ht hl' hl]
      exact hlen
    · exact hi.len t' i ht' hl'
  · intro u i hu
    simp only [c', register_lookup, hu]
  · simp only [c', setBuilder]; omega
  · intro j
    simp only [c', setBuilder]
    split
    · rename_i e; rw [e]; exact hg
    · exact .refl _
  · simp only [Known, c', register_lookup]
    cases c.map.lookup ty <;> simp
  · simp only [c', setBuilder]; omega
  · simp only [c', setBuilder, if_true]

theorem visit_spec {D : Decls} {g : List (Fn GOp)} {tys : List Ty} {c c' : Coll} {op : IOp}
    (hi : Inv D (indices g) c) (ho : IOk D (indices g) tys op) (hv : visit tys c op = some c') :
    Inv D (indices g) c' ∧ Le c c' ∧ Done tys c' op := by
  cases op with
  | structNew rty idx args =>
    obtain ⟨t, ht, hr, hl, ha⟩ := ho
    have hge := indices_declared ht hl
    have hlt : ¬ idx < firstUser := by omega
    simp only [visit, hlt, if_false] at hv
    split at hv
    · contradiction
    · split at hv
      · rename_i b hb
        simp only [Option.some.injEq] at hv
        have hn : Normed { getBuilder c idx with
            fieldCount := some args.length, len := max (getBuilder c idx).len args.length } :=
          fun k F h => hi.normed _ k F h
        obtain ⟨n2, g2, l2, f2⟩ := recordFields_spec _ hb hn
        have hL := hi.len t idx ht hl
        have hlen : b.len ≤ D.arity t := by
          simp only [List.length_map] at l2
          have : (getBuilder c idx).len ≤ D.arity t := hL
          omega
        have hg : Grows (getBuilder c idx) b :=
          ⟨by have := g2.len; simp only at this; omega, fun k F h => g2.fields k F h⟩
        obtain ⟨i1, le1, k1, c1, b1⟩ := step_inv hi ht hl n2 hg hlen (.inl hr)
        rw [hv] at i1 le1 k1 c1 b1
        refine ⟨i1, le1, k1, c1, ?_, ?_⟩
        · rw [b1]; have := g2.len; simp only at this; omega
        · intro j a hj
          have hjl : j < args.length := (List.getElem?_eq_some_iff.1 hj).1
          refine ⟨by rw [b1]; have := g2.len; simp only at this; omega, ?_⟩
          rw [b1]
          have := f2 j (tyAt tys a) (by simp [hj])
          simpa using this
      · contradiction
  | structGet rty idx r f =>
    obtain ⟨t, ht, hr, hl, ha⟩ := ho
    have hge := indices_declared ht hl
    have hlt : ¬ idx < firstUser := by omega
    simp only [visit, hlt, if_false] at hv
    split at hv
    · rename_i b hb
      simp only [Option.some.injEq] at hv
      obtain ⟨n2, g2, l2, f2⟩ := recordField_spec hb (hi.normed _)
      have hL : (getBuilder c idx).len ≤ D.arity t := hi.len t idx ht hl
      obtain ⟨i1, le1, k1, c1, b1⟩ := step_inv hi ht hl n2 g2 (by omega) (.inl hr)
      rw [hv] at i1 le1 k1 c1 b1
      exact ⟨i1, le1, k1, c1, by rw [b1]; omega, by rw [b1]; exact f2⟩
    · contradiction
  | structSet idx r v f =>
    obtain ⟨t, ht, hr, hl, ha⟩ := ho
    have hge := indices_declared ht hl
    have hlt : ¬ idx < firstUser := by omega
    simp only [visit, hlt, if_false] at hv
    split at hv
    · rename_i b hb
      simp only [Option.some.injEq] at hv
      obtain ⟨n2, g2, l2, f2⟩ := recordField_spec hb (hi.normed _)
      have hL : (getBuilder c idx).len ≤ D.arity t := hi.len t idx ht hl
      obtain ⟨i1, le1, k1, c1, b1⟩ := step_inv hi ht hl n2 g2 (by omega) (.inl hr)
      rw [hv] at i1 le1 k1 c1 b1
      exact ⟨i1, le1, k1, c1, by rw [b1]; omega, by rw [b1]; exact f2⟩
    · contradiction
  | refNull rty tgt idx =>
    cases idx with
    | none => simp only [visit, Option.some.injEq] at hv; subst hv; exact ⟨hi, .refl _, trivial⟩
    | some idx =>
      obtain ⟨t, ht, hr, hl⟩ := ho
      have hge := indices_declared ht hl
      have hlt : ¬ idx < firstUser := by omega
      simp only [visit, visit.visitRef, hlt, if_false, Option.some.injEq] at hv
      obtain ⟨i1, le1, k1, c1, b1⟩ := step_inv hi ht hl (hi.normed (idx - firstUser)) (.refl _)
        (hi.len t idx ht hl) (.inl hr)
      have e : c' = { setBuilder c idx (c.builders (idx - firstUser)) with
          map := register c.map idx rty } := by rw [← hv]; rfl
      rw [e]; exact ⟨i1, le1, k1, c1⟩
  | refCast rty tgt idx r =>
    cases idx with
    | none => simp only [visit, Option.some.injEq] at hv; subst hv; exact ⟨hi, .refl _, trivial⟩
    | some idx =>
      obtain ⟨t, ht, hr, hl⟩ := ho
      have hge := indices_declared ht hl
      have hlt : ¬ idx < firstUser := by omega
      simp only [visit, visit.visitRef, hlt, if_false, Option.some.injEq] at hv
      obtain ⟨i1, le1, k1, c1, b1⟩ := step_inv hi ht hl (hi.normed (idx - firstUser)) (.refl _)
        (hi.len t idx ht hl) (.inl hr)
      have e : c' = { setBuilder c idx (c.builders (idx - firstUser)) with
          map := register c.map idx rty } := by rw [← hv]; rfl
      rw [e]; exact ⟨i1, le1, k1, c1⟩
  | refTest tgt idx r =>
    cases idx with
    | none => simp only [visit, Option.some.injEq] at hv; subst hv; exact ⟨hi, .refl _, trivial⟩
    | some idx =>
      obtain ⟨t, ht, hl⟩ := ho
      have hge := indices_declared ht hl
      have hlt : ¬ idx < firstUser := by omega
      simp only [visit, visit.visitRef, hlt, if_false, Option.some.injEq] at hv
      obtain ⟨i1, le1, k1, c1, b1⟩ := step_inv hi ht hl (hi.normed (idx - firstUser)) (.refl _)
        (hi.len t idx ht hl) (ty := .i32) (.inr rfl)
      have e : c' = { setBuilder c idx (c.builders (idx - firstUser)) with
          map := register c.map idx .i32 } := by rw [← hv]; rfl
      rw [e]; exact ⟨i1, le1, c1⟩
  | const _ | add _ _ | call _ _ _ | ret _ =>
    simp only [visit, Option.some.injEq] at hv; subst hv; exact ⟨hi, .refl _, trivial⟩

theorem visitOps_spec {D : Decls} {g : List (Fn GOp)} {tys : List Ty} : ∀ (ops : List IOp) {c c' : Coll},
    Inv D (indices g) c → (∀ op ∈ ops, IOk D (indices g) tys op) → visitOps tys c ops = some c' →
    Inv D (indices g) c' ∧ Le c c' ∧ ∀ op ∈ ops, Done tys c' op
  | [], c, c', hi, _, h => by
    simp only [visitOps, Option.some.injEq] at h; subst h; exact ⟨hi, .refl _, by simp⟩
  | op :: ops, c, c', hi, ho, h => by
    simp only [visitOps] at h
    cases h1 : visit tys c op with
    | none => simp [h1] at h
    | some c1 =>
      simp only [h1] at h
      obtain ⟨i1, l1, d1⟩ := visit_spec hi (ho op (by simp)) h1
      obtain ⟨i2, l2, d2⟩ := visitOps_spec ops i1 (fun o m => ho o (by simp [m])) h
      refine ⟨i2, l1.trans l2, ?_⟩
      intro o hm
      rcases List.mem_cons.1 hm with rfl | hm
      · exact d1.mono l2
      · exact d2 o hm

theorem visitFns_spec {D : Decls} {g : List (Fn GOp)} : ∀ (fs : List (Fn IOp)) {c c' : Coll},
    Inv D (indices g) c → (∀ f ∈ fs, ∀ op ∈ f.body, IOk D (indices g) (valTys f) op) →
    visitFns c fs = some c' →
    Inv D (indices g) c' ∧ Le c c' ∧ ∀ f ∈ fs, ∀ op ∈ f.body, Done (valTys f) c' op
  | [], c, c', hi, _, h => by
    simp only [visitFns, Option.some.injEq] at h; subst h; exact ⟨hi, .refl _, by simp⟩
  | f :: fs, c, c', hi, ho, h => by
    simp only [visitFns] at h
    cases h1 : visitOps (valTys f) c f.body with
    | none => simp [h1] at h
    | some c1 =>
      simp only [h1] at h
      obtain ⟨i1, l1, d1⟩ := visitOps_spec f.body hi (ho f (by simp)) h1
      obtain ⟨i2, l2, d2⟩ := visitFns_spec fs i1 (fun o m => ho o (by simp [m])) h
      refine ⟨i2, l1.trans l2, ?_⟩
      intro o hm
      rcases List.mem_cons.1 hm with rfl | hm
      · exact fun op h => (d1 op h).mono l2
      · exact d2 o hm

theorem inv_seeds (D : Decls) (ix : List (Ty × Nat)) : Inv D ix { map := seeds } := by
  refine ⟨?_, ?_, ?_⟩
  · intro ty i h
    refine .inl ?_
    simp only [seeds, lookup_cons] at h
    simp only [seeds, List.mem_cons, Prod.mk.injEq]
    repeat' split at h
    all_goals simp_all
  · intro j k F h; simp at h
  · intro t i _ _; simp

end Verif.WasmGc
