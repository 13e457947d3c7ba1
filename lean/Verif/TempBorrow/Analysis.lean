import Verif.TempBorrow.Paths
import Verif.RcInsert.Check

/-!
# What the analysis establishes
-/

namespace Verif.TempBorrow

open Verif.Live Verif.RcInsert

/-- The operation at a place. -/
def IsAt (body : Body) (b i : Nat) (op : Op) : Prop := ∃ blk, body[b]? = some blk ∧ blk.ops[i]? = some op

theorem mem_places {body : Body} {b i : Nat} {op : Op} : (b, i, op) ∈ places body ↔ IsAt body b i op := by
  simp only [places, List.mem_flatMap, List.mem_map]
  constructor
  · rintro ⟨⟨blk, b'⟩, h1, ⟨op', i'⟩, h2, h3⟩
    simp only [Prod.mk.injEq] at h3
    obtain ⟨rfl, rfl, rfl⟩ := h3
    exact ⟨blk, List.mk_mem_zipIdx_iff_getElem?.1 h1, List.mk_mem_zipIdx_iff_getElem?.1 h2⟩
  · rintro ⟨blk, hb, ho⟩
    exact ⟨(blk, b), List.mk_mem_zipIdx_iff_getElem?.2 hb, (op, i), List.mk_mem_zipIdx_iff_getElem?.2 ho, rfl⟩

theorem opAt_iff {body : Body} {b i : Nat} {op : Op} : opAt body b i = some op ↔ IsAt body b i op := by
  simp only [opAt, Option.bind_eq_some_iff, IsAt]

theorem mem_usesOf {body : Body} {v : Nat} {u : Use} :
    u ∈ usesOf body v ↔ IsAt body u.b u.i u.op ∧ u.op.operands[u.j]? = some v := by
  obtain ⟨b, i, j, op⟩ := u
  simp only [usesOf, List.mem_flatMap, List.mem_map, List.mem_filter, beq_iff_eq]
  constructor
  · rintro ⟨⟨b', i', op'⟩, h1, ⟨w, j'⟩, ⟨h2, h3⟩, h4⟩
    simp only [Use.mk.injEq] at h4
    obtain ⟨rfl, rfl, rfl, rfl⟩ := h4
    simp only at h3
    subst h3
    exact ⟨mem_places.1 h1, List.mk_mem_zipIdx_iff_getElem?.1 h2⟩
  · rintro ⟨h1, h2⟩
    exact ⟨(b, i, op), mem_places.2 h1, (v, j), ⟨List.mk_mem_zipIdx_iff_getElem?.2 h2, rfl⟩, rfl⟩

theorem defOf_res {body : Body} {v b i : Nat} (h : defOf body v = some (.res b i)) : ∃ op, IsAt body b i op ∧ v ∈ op.results := by
  simp only [defOf] at h
  split at h
  · cases h
  · simp only [Option.map_eq_some_iff] at h
    obtain ⟨⟨b', i', op⟩, h1, h2⟩ := h
    injection h2 with e1 e2
    simp only at e1 e2
    subst e1 e2
    exact ⟨op, mem_places.1 (List.mem_of_find?_eq_some h1), by simpa using List.find?_some h1⟩

theorem defOf_arg {body : Body} {v b : Nat} (h : defOf body v = some (.arg b)) : ∃ blk, body[b]? = some blk ∧ v ∈ blk.args := by
  simp only [defOf] at h
  split at h
  · rename_i b' hb
    injection h with h
    injection h with h
    subst h
    obtain ⟨h1, h2, -⟩ := List.findIdx?_eq_some_iff_getElem.1 hb
    exact ⟨body[b'], List.getElem?_eq_getElem h1, by simpa using h2⟩
  · simp only [Option.map_eq_some_iff] at h
    obtain ⟨_, -, h⟩ := h
    cases h

/-! ## Collecting uses -/

section
variable {n : Nat} {contract : Nat → Nat → Option Contract} {t : Dominance.Tree n} {lb li : Nat}

/-- The use is one the collector accepts, and goes on with aliases in the set. -/
def GoodUse (contract : Nat → Nat → Option Contract) (t : Dominance.Tree n) (lb li : Nat) (V : List Nat) (u : Use) : Prop :=
  reach t u.b = true ∧ opDom t lb li u.b u.i = true ∧
    ((∃ a, castAlias u = some a ∧ a ∈ V) ∨ (castAlias u = none ∧ useOk contract u = true))

theorem GoodUse.mono {V V' : List Nat} {u : Use} (h : GoodUse contract t lb li V u) (hs : V ⊆ V') :
    GoodUse contract t lb li V' u := by
  obtain ⟨h1, h2, h3⟩ := h
  refine ⟨h1, h2, h3.imp ?_ id⟩
  rintro ⟨a, h, h'⟩
  exact ⟨a, h, hs h'⟩

/-- `y` is a cast of `x`. -/
def CastTo (body : Body) (x y : Nat) : Prop := ∃ u ∈ usesOf body x, castAlias u = some y

/-- From one state of the collector to another. -/
structure Grows (body : Body) (contract : Nat → Nat → Option Contract) (t : Dominance.Tree n) (lb li : Nat)
    (st st' : Collected) (new : List Nat) : Prop where
  visited : st.visited ⊆ st'.visited
  aliases : st.aliases ⊆ st'.aliases
  good : ∀ w ∈ st'.visited, w ∉ st.visited → ∀ u ∈ usesOf body w, GoodUse contract t lb li st'.visited u
  named : ∀ w ∈ st'.visited, w ∈ st.visited ∨ w ∈ new ∨ w ∈ st'.aliases
  chain : ∀ w ∈ st'.visited, w ∈ st.visited ∨ ∃ x ∈ new, Relation.ReflTransGen (CastTo body) x w
  made : ∀ a ∈ st'.aliases, a ∈ st.aliases ∨
    (a ∈ st'.visited ∧ ∃ w ∈ st'.visited, w ∉ st.visited ∧ ∃ u ∈ usesOf body w, castAlias u = some a)

theorem collectUses_spec {body : Body} {rec : Collected → Nat → Option Collected}
    (hrec : ∀ st v st', rec st v = some st' → v ∈ st'.visited ∧ Grows body contract t lb li st st' [v]) :
    ∀ us st st', collectUses rec contract t lb li st us = some st' →
      st.visited ⊆ st'.visited ∧ st.aliases ⊆ st'.aliases ∧
      (∀ u ∈ us, GoodUse contract t lb li st'.visited u) ∧
      (∀ w ∈ st'.visited, w ∉ st.visited → ∀ u ∈ usesOf body w, GoodUse contract t lb li st'.visited u) ∧
      (∀ w ∈ st'.visited, w ∈ st.visited ∨ w ∈ st'.aliases) ∧
      (∀ w ∈ st'.visited, w ∈ st.visited ∨ ∃ u ∈ us, ∃ a, castAlias u = some a ∧ Relation.ReflTransGen (CastTo body) a w) ∧
      (∀ a ∈ st'.aliases, a ∈ st.aliases ∨ (a ∈ st'.visited ∧ ∃ u, castAlias u = some a ∧
        (u ∈ us ∨ ∃ w ∈ st'.visited, w ∉ st.visited ∧ u ∈ usesOf body w))) := by
  intro us
  induction us with
  | nil =>
    intro st st' h
    simp only [collectUses, Option.some.injEq] at h
    subst h
    exact ⟨fun _ h => h, fun _ h => h, by simp, fun w h h' => absurd h h', fun w h => Or.inl h, fun w h => Or.inl h, fun a h => Or.inl h⟩
  | cons u us ih =>
    intro st st' h
    rw [collectUses] at h
    split at h
    · rename_i hc
      rw [Bool.and_eq_true] at hc
      split at h
      · rename_i a ha
        split at h
        · rename_i st1 hr
          obtain ⟨hv, g⟩ := hrec _ _ _ hr
          obtain ⟨i1, i2, i3, i4, i5, i7, i6⟩ := ih st1 st' h
          have ha1 : a ∈ st1.aliases := g.aliases (by simp)
          refine ⟨fun x hx => i1 (g.visited hx), fun x hx => i2 (g.aliases (by simp [hx])), ?_, ?_, ?_, ?_, ?_⟩
          · intro u' hu'
            rcases List.mem_cons.1 hu' with rfl | hu'
            · exact ⟨hc.1, hc.2, Or.inl ⟨a, ha, i1 hv⟩⟩
            · exact i3 u' hu'
          · intro w hw hn u' hu'
            by_cases hw1 : w ∈ st1.visited
            · exact (g.good w hw1 hn u' hu').mono i1
            · exact i4 w hw hw1 u' hu'
          · intro w hw
            rcases i5 w hw with h | h
            · rcases g.named w h with h | h | h
              · exact Or.inl h
              · rw [List.mem_singleton] at h
                subst h
                exact Or.inr (i2 ha1)
              · exact Or.inr (i2 h)
            · exact Or.inr h
          · intro w hw
            rcases i7 w hw with h | ⟨u', hu', h⟩
            · rcases g.chain w h with h | ⟨x, hx, h⟩
              · exact Or.inl h
              · rw [List.mem_singleton] at hx
                subst hx
                exact Or.inr ⟨u, by simp, x, ha, h⟩
            · exact Or.inr ⟨u', List.mem_cons_of_mem _ hu', h⟩
          · intro x hx
            rcases i6 x hx with h | ⟨h, u', h1, h2⟩
            · have key : x = a ∨ x ∈ st.aliases ∨ (x ∈ st1.visited ∧ ∃ w ∈ st1.visited, w ∉ st.visited ∧
                  ∃ u ∈ usesOf body w, castAlias u = some x) := by
                rcases g.made x h with h | h
                · rcases List.mem_append.1 h with h | h
                  · exact Or.inr (Or.inl h)
                  · exact Or.inl (by simpa using h)
                · exact Or.inr (Or.inr h)
              rcases key with rfl | h | ⟨h, w, hw, hn, u', hu', e⟩
              · exact Or.inr ⟨i1 hv, u, ha, Or.inl (by simp)⟩
              · exact Or.inl h
              · exact Or.inr ⟨i1 h, u', e, Or.inr ⟨w, i1 hw, hn, hu'⟩⟩
            · refine Or.inr ⟨h, u', h1, ?_⟩
              rcases h2 with h2 | ⟨w, hw, hn, hu'⟩
              · exact Or.inl (List.mem_cons_of_mem _ h2)
              · exact Or.inr ⟨w, hw, fun hh => hn (g.visited hh), hu'⟩
        · cases h
      · rename_i ha
        split at h
        · rename_i hok
          obtain ⟨i1, i2, i3, i4, i5, i7, i6⟩ := ih _ st' h
          refine ⟨i1, i2, ?_, i4, i5, ?_, ?_⟩
          · intro u' hu'
            rcases List.mem_cons.1 hu' with rfl | hu'
            · exact ⟨hc.1, hc.2, Or.inr ⟨ha, hok⟩⟩
            · exact i3 u' hu'
          · intro w hw
            rcases i7 w hw with h | ⟨u', hu', h⟩
            · exact Or.inl h
            · exact Or.inr ⟨u', List.mem_cons_of_mem _ hu', h⟩
          · intro x hx
            rcases i6 x hx with h | ⟨h, u', h1, h2⟩
            · exact Or.inl h
            · exact Or.inr ⟨h, u', h1, h2.imp (List.mem_cons_of_mem _) id⟩
        · cases h
    · cases h

theorem collect_spec {body : Body} : ∀ k st v st', collect body contract t lb li k st v = some st' →
    v ∈ st'.visited ∧ Grows body contract t lb li st st' [v] := by
  intro k
  induction k with
  | zero => intro st v st' h; cases h
  | succ k ih =>
    intro st v st' h
    rw [collect] at h
    split at h
    · cases h
    · rename_i hv
      obtain ⟨i1, i2, i3, i4, i5, i7, i6⟩ := collectUses_spec ih _ _ _ h
      have hvv : v ∈ st'.visited := i1 (by simp)
      refine ⟨hvv, fun x hx => i1 (by simp [hx]), i2, ?_, ?_, ?_, ?_⟩
      · intro w hw hn u hu
        by_cases e : w = v
        · subst e; exact i3 u hu
        · exact i4 w hw (by simp [e, hn]) u hu
      · intro w hw
        rcases i5 w hw with h | h
        · rcases List.mem_cons.1 h with rfl | h
          · exact Or.inr (Or.inl (by simp))
          · exact Or.inl h
        · exact Or.inr (Or.inr h)
      · intro w hw
        rcases i7 w hw with h | ⟨u, hu, a, e, h⟩
        · rcases List.mem_cons.1 h with rfl | h
          · exact Or.inr ⟨w, by simp, .refl⟩
          · exact Or.inl h
        · exact Or.inr ⟨v, by simp, .head ⟨u, hu, e⟩ h⟩
      · intro a ha
        rcases i6 a ha with h | ⟨h, u, h1, h2⟩
        · exact Or.inl h
        · refine Or.inr ⟨h, ?_⟩
          rcases h2 with h2 | ⟨w, hw, hn, hu⟩
          · exact ⟨v, hvv, by simpa using hv, u, h2, h1⟩
          · exact ⟨w, hw, fun hh => hn (by simp [hh]), u, hu, h1⟩

/-- What is known about a temporary that is not counted. -/
structure Proven (body : Body) (contract : Nat → Nat → Option Contract) (t : Dominance.Tree n) (lb li temp owner : Nat)
    (as V : List Nat) : Prop where
  owner : valueDom body t owner lb li = true
  self : temp ∈ V
  good : ∀ w ∈ V, ∀ u ∈ usesOf body w, GoodUse contract t lb li V u
  named : ∀ w ∈ V, w = temp ∨ w ∈ as
  chain : ∀ w ∈ V, Relation.ReflTransGen (CastTo body) temp w
  made : ∀ a ∈ as, a ∈ V ∧ ∃ w ∈ V, ∃ u ∈ usesOf body w, castAlias u = some a

theorem proven_spec {body : Body} {temp owner : Nat} {as : List Nat}
    (h : proven body contract t lb li temp owner = some as) : ∃ V, Proven body contract t lb li temp owner as V := by
  simp only [proven] at h
  split at h
  · rename_i ho
    split at h
    · rename_i st hs
      split at h
      · injection h with h
        subst h
        obtain ⟨hv, g⟩ := collect_spec _ _ _ _ hs
        refine ⟨st.visited, ho, hv, fun w hw => g.good w hw (by simp), ?_, ?_, ?_⟩
        · intro w hw
          rcases g.named w hw with h | h | h
          · cases h
          · exact Or.inl (by simpa using h)
          · exact Or.inr h
        · intro w hw
          rcases g.chain w hw with h | ⟨x, hx, h⟩
          · cases h
          · rw [List.mem_singleton] at hx
            subst hx
            exact h
        · intro a ha
          rcases g.made a ha with h | ⟨h, w, hw, -, u, hu, e⟩
          · cases h
          · exact ⟨h, w, hw, u, hu, e⟩
      · cases h
    · cases h
  · cases h

end

/-! ## All temporaries -/

section
variable {n : Nat} {inp : Input} {contract : Nat → Nat → Option Contract} {t : Dominance.Tree n}

/-- The load at a place defines a temporary that is not counted. -/
structure TempOf (inp : Input) (contract : Nat → Nat → Option Contract) (t : Dominance.Tree n) (b i : Nat) (op : Op)
    (temp owner : Nat) (as V : List Nat) : Prop where
  at_ : IsAt inp.body b i op
  reached : reach t b = true
  load : op.kind = .load
  results : op.results = [temp]
  any : inp.info.anyref temp = true
  address : ∃ a, op.operands.head? = some a ∧ resolve inp (depth inp.body) [] a = some owner
  proven : Proven inp.body contract t b i temp owner as V

theorem tempAt_spec {b i : Nat} {op : Op} {temp owner : Nat} {as : List Nat} (hat : IsAt inp.body b i op) (hreach : reach t b = true)
    (h : tempAt inp contract t (b, i, op) = some (temp, owner, as)) : ∃ V, TempOf inp contract t b i op temp owner as V := by
  simp only [tempAt] at h
  split at h
  · rename_i hk
    split at h
    · rename_i temp' a hr ha
      split at h
      · rename_i hany
        split at h
        · rename_i o ho
          simp only [Option.map_eq_some_iff] at h
          obtain ⟨as', hp, e⟩ := h
          simp only [Prod.mk.injEq] at e
          obtain ⟨rfl, rfl, rfl⟩ := e
          obtain ⟨V, hV⟩ := proven_spec hp
          exact ⟨V, hat, hreach, hk, hr, hany, ⟨a, ha, ho⟩, hV⟩
        · cases h
      · cases h
    · cases h
  · cases h

theorem fold_spec (xs : List (Nat × Nat × Op)) : ∀ info : TempInfo,
    (∀ v, v ∈ (xs.foldl (tempStep inp contract t) info).borrowed ↔ v ∈ info.borrowed ∨
      ∃ x ∈ xs, reach t x.1 = true ∧ ∃ o as, tempAt inp contract t x = some (v, o, as)) ∧
    (∀ w o, (w, o) ∈ (xs.foldl (tempStep inp contract t) info).deps ↔ (w, o) ∈ info.deps ∨
      ∃ x ∈ xs, reach t x.1 = true ∧ ∃ v as, tempAt inp contract t x = some (v, o, as) ∧ (w = v ∨ w ∈ as)) := by
  induction xs with
  | nil => intro info; simp
  | cons x xs ih =>
    intro info
    obtain ⟨h1, h2⟩ := ih (tempStep inp contract t info x)
    simp only [List.foldl_cons]
    constructor
    · intro v
      rw [h1]
      simp only [tempStep]
      split
      · rename_i hr
        split
        · rename_i temp owner as e
          simp only [List.mem_cons]
          constructor
          · rintro ((rfl | h) | ⟨y, hy, h⟩)
            · exact Or.inr ⟨x, Or.inl rfl, hr, owner, as, e⟩
            · exact Or.inl h
            · exact Or.inr ⟨y, Or.inr hy, h⟩
          · rintro (h | ⟨y, rfl | hy, h⟩)
            · exact Or.inl (Or.inr h)
            · obtain ⟨-, o, as', e'⟩ := h
              rw [e] at e'
              simp only [Option.some.injEq, Prod.mk.injEq] at e'
              exact Or.inl (Or.inl e'.1.symm)
            · exact Or.inr ⟨y, hy, h⟩
        · rename_i e
          simp only [List.mem_cons]
          constructor
          · rintro (h | ⟨y, hy, h⟩)
            · exact Or.inl h
            · exact Or.inr ⟨y, Or.inr hy, h⟩
          · rintro (h | ⟨y, rfl | hy, h⟩)
            · exact Or.inl h
            · obtain ⟨-, o, as', e'⟩ := h
              rw [e] at e'
              cases e'
            · exact Or.inr ⟨y, hy, h⟩
      · rename_i hr
        simp only [List.mem_cons]
        constructor
        · rintro (h | ⟨y, hy, h⟩)
          · exact Or.inl h
          · exact Or.inr ⟨y, Or.inr hy, h⟩
        · rintro (h | ⟨y, rfl | hy, h⟩)
          · exact Or.inl h
          · exact absurd h.1 hr
          · exact Or.inr ⟨y, hy, h⟩
    · intro w o
      rw [h2]
      simp only [tempStep]
      split
      · rename_i hr
        split
        · rename_i temp owner as e
          simp only [List.mem_append, List.mem_reverse, List.mem_map, List.mem_cons, Prod.mk.injEq]
          constructor
          · rintro ((⟨a, ha, rfl, rfl⟩ | ⟨rfl, rfl⟩ | h) | ⟨y, hy, h⟩)
            · exact Or.inr ⟨x, Or.inl rfl, hr, temp, as, e, Or.inr ha⟩
            · exact Or.inr ⟨x, Or.inl rfl, hr, w, as, e, Or.inl rfl⟩
            · exact Or.inl h
            · exact Or.inr ⟨y, Or.inr hy, h⟩
          · rintro (h | ⟨y, rfl | hy, h⟩)
            · exact Or.inl (Or.inr (Or.inr h))
            · obtain ⟨-, v, as', e', h⟩ := h
              rw [e] at e'
              simp only [Option.some.injEq, Prod.mk.injEq] at e'
              obtain ⟨rfl, rfl, rfl⟩ := e'
              rcases h with rfl | h
              · exact Or.inl (Or.inr (Or.inl ⟨rfl, rfl⟩))
              · exact Or.inl (Or.inl ⟨w, h, rfl, rfl⟩)
            · exact Or.inr ⟨y, hy, h⟩
        · rename_i e
          simp only [List.mem_cons]
          constructor
          · rintro (h | ⟨y, hy, h⟩)
            · exact Or.inl h
            · exact Or.inr ⟨y, Or.inr hy, h⟩
          · rintro (h | ⟨y, rfl | hy, h⟩)
            · exact Or.inl h
            · obtain ⟨-, v, as', e', -⟩ := h
              rw [e] at e'
              cases e'
            · exact Or.inr ⟨y, hy, h⟩
      · rename_i hr
        simp only [List.mem_cons]
        constructor
        · rintro (h | ⟨y, hy, h⟩)
          · exact Or.inl h
          · exact Or.inr ⟨y, Or.inr hy, h⟩
        · rintro (h | ⟨y, rfl | hy, h⟩)
          · exact Or.inl h
          · exact absurd h.1 hr
          · exact Or.inr ⟨y, hy, h⟩

theorem mem_borrowed {v : Nat} (h : v ∈ (tempBorrows inp contract t).borrowed) :
    ∃ b i op o as V, TempOf inp contract t b i op v o as V := by
  simp only [tempBorrows] at h
  split at h
  · rcases ((fold_spec (places inp.body) ⟨[], []⟩).1 v).1 h with h | ⟨⟨b, i, op⟩, hx, hr, o, as, e⟩
    · cases h
    · obtain ⟨V, hV⟩ := tempAt_spec (mem_places.1 hx) hr e
      exact ⟨b, i, op, o, as, V, hV⟩
  · cases h

theorem mem_deps {w o : Nat} (h : (w, o) ∈ (tempBorrows inp contract t).deps) :
    ∃ b i op v as V, TempOf inp contract t b i op v o as V ∧ w ∈ V ∧ v ∈ (tempBorrows inp contract t).borrowed := by
  simp only [tempBorrows] at h ⊢
  split at h
  · rename_i hv
    rcases ((fold_spec (places inp.body) ⟨[], []⟩).2 w o).1 h with h | ⟨⟨b, i, op⟩, hx, hr, v, as, e, hw⟩
    · cases h
    · obtain ⟨V, hV⟩ := tempAt_spec (mem_places.1 hx) hr e
      refine ⟨b, i, op, v, as, V, hV, ?_, ?_⟩
      · rcases hw with rfl | hw
        · exact hV.proven.self
        · exact (hV.proven.made w hw).1
      · rw [if_pos hv]
        exact ((fold_spec (places inp.body) ⟨[], []⟩).1 v).2 (Or.inr ⟨_, hx, hr, o, as, e⟩)
  · cases h

theorem lookup_of_mem {e : List (Nat × Nat)} {w o : Nat} (h : (w, o) ∈ e) : ∃ o', e.lookup w = some o' := by
  induction e with
  | nil => cases h
  | cons x e ih =>
    obtain ⟨a, b⟩ := x
    rw [List.lookup_cons]
    split
    · exact ⟨b, rfl⟩
    · rename_i hne
      rcases List.mem_cons.1 h with h | h
      · simp only [Prod.mk.injEq] at h
        simp [h.1] at hne
      · exact ih h

/-- Every name of a temporary that is not counted has an entry. -/
theorem temp_deps {v : Nat} (h : v ∈ (tempBorrows inp contract t).borrowed) :
    ∃ b i op o as V, TempOf inp contract t b i op v o as V ∧
      ∀ w ∈ V, ∃ o', (tempBorrows inp contract t).deps.lookup w = some o' := by
  simp only [tempBorrows] at h ⊢
  split at h
  · rename_i hv
    rcases ((fold_spec (places inp.body) ⟨[], []⟩).1 v).1 h with h | ⟨⟨b, i, op⟩, hx, hr, o, as, e⟩
    · cases h
    · obtain ⟨V, hV⟩ := tempAt_spec (mem_places.1 hx) hr e
      refine ⟨b, i, op, o, as, V, hV, fun w hw => ?_⟩
      rw [if_pos hv]
      exact lookup_of_mem (((fold_spec (places inp.body) ⟨[], []⟩).2 w o).2
        (Or.inr ⟨_, hx, hr, v, as, e, hV.proven.named w hw⟩))
  · cases h

/-! ## Owners -/

theorem inside_of_cast {I : Info} {body : Body} {r v : Nat}
    (h : Relation.TransGen (CastStep I (body.flatMap (·.ops))) r v) : Inside body v r := by
  have one : ∀ a b, CastStep I (body.flatMap (·.ops)) a b → OffsetOf body b a := by
    rintro a b ⟨op, ho, hk, h1, h2, -⟩
    obtain ⟨blk, hb, ho⟩ := List.mem_flatMap.1 ho
    exact ⟨blk, hb, op, ho, Or.inl hk, List.mem_of_mem_head? h2, h1⟩
  induction h with
  | single h => exact .single (one _ _ h)
  | tail _ h ih => exact .head (one _ _ h) ih

theorem resolve_spec (hal : ∀ v p, inp.alias_.lookup v = some p → Inside inp.body v p) : ∀ k vis v o,
    resolve inp k vis v = some o → o ∈ inp.ptrs ∧ Inside inp.body v o := by
  intro k
  induction k with
  | zero => intro vis v o h; cases h
  | succ k ih =>
    intro vis v o h
    rw [resolve] at h
    split at h
    · cases h
    · split at h
      · rename_i hp
        injection h with h
        subst h
        exact ⟨by simpa using hp, .refl⟩
      · split at h
        · rename_i r hr
          obtain ⟨h1, h2⟩ := ih _ _ _ h
          exact ⟨h1, (hal v r hr).trans h2⟩
        · split at h
          · rename_i b i hdef
            split at h
            · rename_i op hop
              split at h
              · rename_i hk
                split at h
                · rename_i x hx
                  obtain ⟨h1, h2⟩ := ih _ _ _ h
                  refine ⟨h1, .head ?_ h2⟩
                  obtain ⟨op', ⟨blk, hb, ho⟩, hv⟩ := defOf_res hdef
                  obtain ⟨blk', hb', ho'⟩ := opAt_iff.1 hop
                  rw [hb] at hb'
                  cases hb'
                  rw [ho] at ho'
                  cases ho'
                  exact ⟨blk, List.mem_of_getElem? hb, op, List.mem_of_getElem? ho, hk, hv, hx⟩
                · cases h
              · cases h
            · cases h
          · cases h

end

end Verif.TempBorrow
