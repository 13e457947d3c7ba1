import Verif.TempBorrow.Spec

/-!
# Paths as functions, and points that come before others on every path
-/

namespace Verif.TempBorrow

open Verif.Live Verif.RcInsert

/-- The first `n + 1` blocks of a path from the entry. -/
def FPath (body : Body) (f : Nat → Nat) (n : Nat) : Prop :=
  f 0 = 0 ∧ ∀ m < n, ∃ blk, body[f m]? = some blk ∧ f (m + 1) ∈ succsOf blk

/-- On every path to `b`, operation `i0` of block `b0` comes before operation `i` of `b`. -/
def DomPt (body : Body) (b0 i0 b i : Nat) : Prop :=
  ∀ f n, FPath body f n → f n = b → ∃ m ≤ n, f m = b0 ∧ Earlier m i0 n i

theorem FPath.mono {body : Body} {f : Nat → Nat} {n m : Nat} (h : FPath body f n) (hm : m ≤ n) : FPath body f m :=
  ⟨h.1, fun k hk => h.2 k (by omega)⟩

theorem Earlier.trans {a b c d e f : Nat} (h : Earlier a b c d) (h' : Earlier c d e f) : Earlier a b e f := by
  unfold Earlier at *
  omega

theorem DomPt.trans {body : Body} {b0 i0 b1 i1 b2 i2 : Nat} (h : DomPt body b0 i0 b1 i1) (h' : DomPt body b1 i1 b2 i2) :
    DomPt body b0 i0 b2 i2 := by
  intro f n hf hn
  obtain ⟨m, hm, e, he⟩ := h' f n hf hn
  obtain ⟨m', hm', e', he'⟩ := h f m (hf.mono hm) e
  exact ⟨m', by omega, e', he'.trans he⟩

theorem path_pathTo {body : Body} {f : Nat → Nat} : ∀ n, FPath body f n → ∀ h : f n < body.length,
    ∃ q, Dominance.PathTo (cfgOf body) ⟨f n, h⟩ q ∧ ∀ x ∈ q, ∃ m ≤ n, f m = x.val := by
  intro n
  induction n with
  | zero =>
    intro hf h
    exact ⟨[⟨f 0, h⟩], .start _ hf.1, by simp⟩
  | succ n ih =>
    intro hf h
    obtain ⟨blk, hb, hs⟩ := hf.2 n (by omega)
    have hlt : f n < body.length := (List.getElem?_eq_some_iff.1 hb).1
    obtain ⟨q, hq, hx⟩ := ih (hf.mono (by omega)) hlt
    refine ⟨_, .step hq ?_, ?_⟩
    · simp only [cfgOf, List.mem_map]
      refine ⟨f (n + 1), ?_, by simp [h]⟩
      have : body[(⟨f n, hlt⟩ : Fin body.length)] = blk := (List.getElem?_eq_some_iff.1 hb).2
      rw [this]
      exact hs
    · intro x hx'
      rcases List.mem_cons.1 hx' with rfl | hx'
      · exact ⟨n + 1, Nat.le_refl _, rfl⟩
      · obtain ⟨m, hm, e⟩ := hx x hx'
        exact ⟨m, by omega, e⟩

section
variable {body : Body} {t : Dominance.Tree body.length}
  (hd : ∀ a b, t.dominates a b = true → Dominance.Dominates (cfgOf body) a b)
include hd

theorem dom_sound {a b : Nat} (h : dom t a b = true) : ∀ f n, FPath body f n → f n = b → ∃ m ≤ n, f m = a := by
  simp only [dom] at h
  split at h
  · rename_i ha
    split at h
    · rename_i hb
      intro f n hf hn
      subst hn
      obtain ⟨q, hq, hx⟩ := path_pathTo n hf hb
      obtain ⟨m, hm, e⟩ := hx _ ((hd _ _ h).2 q hq)
      exact ⟨m, hm, e⟩
    · cases h
  · cases h

theorem opDom_sound {b0 i0 b i : Nat} (h : opDom t b0 i0 b i = true) : DomPt body b0 i0 b i := by
  intro f n hf hn
  simp only [opDom] at h
  split at h
  · rename_i hne
    obtain ⟨m, hm, e⟩ := dom_sound hd h f n hf hn
    refine ⟨m, hm, e, Or.inl ?_⟩
    rcases Nat.lt_or_eq_of_le hm with h | h
    · exact h
    · subst h
      exact absurd (e.symm.trans hn) hne
  · rename_i heq
    simp only [ne_eq, Decidable.not_not] at heq
    exact ⟨n, Nat.le_refl _, hn.trans heq.symm, Or.inr ⟨rfl, by simpa using h⟩⟩

end

/-- The last point of a kind. -/
theorem exists_last {P : Nat → Prop} : ∀ n, (∃ m ≤ n, P m) → ∃ m ≤ n, P m ∧ ∀ m' ≤ n, P m' → m' ≤ m := by
  intro n
  induction n with
  | zero =>
    rintro ⟨m, hm, h⟩
    exact ⟨m, hm, h, fun m' hm' _ => by omega⟩
  | succ n ih =>
    rintro ⟨m, hm, h⟩
    by_cases hp : P (n + 1)
    · exact ⟨n + 1, Nat.le_refl _, hp, fun m' hm' _ => hm'⟩
    · have : m ≠ n + 1 := by rintro rfl; exact hp h
      obtain ⟨k, hk, h1, h2⟩ := ih ⟨m, by omega, h⟩
      refine ⟨k, by omega, h1, fun m' hm' h' => ?_⟩
      have : m' ≠ n + 1 := by rintro rfl; exact hp h'
      exact h2 m' (by omega) h'

theorem exists_first {P : Nat → Prop} {n : Nat} (h : P n) : ∃ m ≤ n, P m ∧ ∀ m' < m, ¬ P m' := by
  induction n using Nat.strongRecOn with
  | _ n ih =>
    by_cases hn : ∃ m < n, P m
    · obtain ⟨m, hm, hp⟩ := hn
      obtain ⟨k, hk, h1, h2⟩ := ih m hm hp
      exact ⟨k, by omega, h1, h2⟩
    · exact ⟨n, Nat.le_refl _, h, fun m' hm' hp => hn ⟨m', hm', hp⟩⟩

/-- A path with a loop left out. -/
theorem FPath.cut {body : Body} {f : Nat → Nat} {n j k : Nat} (hf : FPath body f n) (hjk : j ≤ k) (hk : k ≤ n) (he : f j = f k) :
    FPath body (fun m => if m ≤ j then f m else f (m + k - j)) (j + (n - k)) := by
  refine ⟨by simp [hf.1], fun m hm => ?_⟩
  rcases Nat.lt_trichotomy m j with h | h | h
  · simp only [if_pos (show m ≤ j by omega), if_pos (show m + 1 ≤ j by omega)]
    exact hf.2 m (by omega)
  · subst h
    simp only [if_pos (Nat.le_refl m), if_neg (show ¬ m + 1 ≤ m by omega)]
    rw [he, show m + 1 + k - m = k + 1 by omega]
    exact hf.2 k (by omega)
  · simp only [if_neg (show ¬ m ≤ j by omega), if_neg (show ¬ m + 1 ≤ j by omega)]
    rw [show m + 1 + k - j = (m + k - j) + 1 by omega]
    exact hf.2 _ (by omega)

/-- If `o` is defined before `l` on every path, and `l` comes before `u` on every path, then `o` is not defined again
between the last `l` and `u`. -/
theorem no_redefinition {body : Body} {f : Nat → Nat} {n : Nat} (hf : FPath body f n) {bo io bl il i m : Nat}
    (hu : DomPt body bl il (f n) i) (ho : DomPt body bo io bl il)
    (hlast : ∀ m' ≤ n, f m' = bl ∧ Earlier m' il n i → m' ≤ m) {k : Nat} (hk : f k = bo)
    (h1 : Earlier m il k io) (h2 : Earlier k io n i) : False := by
  have hkn : k ≤ n := by rcases h2 with h | ⟨h, -⟩ <;> omega
  obtain ⟨j, hj, ej, hfirst⟩ := exists_first (P := fun x => f x = bo) hk
  have hc := hf.cut hj hkn (ej.trans hk.symm)
  have hend : (fun m => if m ≤ j then f m else f (m + k - j)) (j + (n - k)) = f n := by
    by_cases h : n = k
    · subst h
      simp only [Nat.sub_self, Nat.add_zero, Nat.le_refl, if_true]
      exact ej.trans hk.symm
    · simp only [if_neg (show ¬ j + (n - k) ≤ j by omega)]
      congr 1
      omega
  obtain ⟨x, hx, ex, hex⟩ := hu _ _ hc hend
  by_cases hxj : x ≤ j
  · rw [if_pos hxj] at ex
    obtain ⟨y, hy, ey, hey⟩ := ho f x (hf.mono (by omega)) ex
    have hyj : ¬ y < j := fun h => hfirst y h ey
    have : y = x ∧ x = j := by omega
    obtain ⟨rfl, rfl⟩ := this
    have hil : io < il := by rcases hey with h | ⟨-, h⟩ <;> omega
    have hbl : f k = bl := by rw [hk, ← ej, ex]
    have hE : Earlier k il n i := by
      rcases h2 with h | ⟨h, -⟩
      · exact Or.inl h
      · refine Or.inr ⟨h, ?_⟩
        rcases hex with h' | ⟨-, h'⟩ <;> omega
    have := hlast k hkn ⟨hbl, hE⟩
    rcases h1 with h | ⟨h, h'⟩ <;> omega
  · rw [if_neg hxj] at ex
    have hE : Earlier (x + k - j) il n i := by
      rcases hex with h | ⟨h, h'⟩
      · exact Or.inl (by omega)
      · exact Or.inr ⟨by omega, h'⟩
    have := hlast (x + k - j) (by omega) ⟨ex, hE⟩
    rcases h1 with h | ⟨h, h'⟩ <;> omega

/-! ## Paths as lists -/

theorem isPath_edges {body : Body} {p : List Nat} (hp : IsPath body p) : p[0]? = some 0 ∧
    ∀ m b s : Nat, p[m]? = some b → p[m + 1]? = some s → ∃ blk, body[b]? = some blk ∧ s ∈ succsOf blk := by
  induction hp with
  | entry => exact ⟨rfl, fun m b s h h' => by simp at h'⟩
  | @step q b s blk hq hb hs ih =>
    have e : q ++ [b, s] = (q ++ [b]) ++ [s] := by simp
    rw [e]
    constructor
    · rw [List.getElem?_append_left (by simp)]
      exact ih.1
    · intro m x y h h'
      by_cases hm : m + 1 < (q ++ [b]).length
      · rw [List.getElem?_append_left hm] at h'
        rw [List.getElem?_append_left (by omega)] at h
        exact ih.2 m x y h h'
      · have h1 : m + 1 < ((q ++ [b]) ++ [s]).length := (List.getElem?_eq_some_iff.1 h').1
        have hm' : m = q.length := by
          simp only [List.length_append, List.length_cons, List.length_nil] at hm h1
          omega
        subst hm'
        simp at h h'
        subst h h'
        exact ⟨blk, hb, hs⟩

/-- The blocks of the path. -/
def blocksOf (p : List Nat) (m : Nat) : Nat := p.getD m 0

theorem blocksOf_eq {p : List Nat} {m b : Nat} (h : p[m]? = some b) : blocksOf p m = b := by simp [blocksOf, h]

theorem blocksOf_get {p : List Nat} {m : Nat} (h : m < p.length) : p[m]? = some (blocksOf p m) := by
  simp [blocksOf, h]

theorem isPath_fpath {body : Body} {p : List Nat} (hp : IsPath body p) {k : Nat} (hk : k < p.length) : FPath body (blocksOf p) k := by
  obtain ⟨h0, he⟩ := isPath_edges hp
  exact ⟨blocksOf_eq h0, fun m hm => he m _ _ (blocksOf_get (by omega)) (blocksOf_get (by omega))⟩

/-- Back to lists. -/
theorem fpath_isPath {body : Body} {f : Nat → Nat} : ∀ n, FPath body f n → IsPath body ((List.range (n + 1)).map f) := by
  intro n
  induction n with
  | zero =>
    intro hf
    have : (List.range (0 + 1)).map f = [0] := by simp [List.range_succ, hf.1]
    rw [this]
    exact .entry
  | succ n ih =>
    intro hf
    obtain ⟨blk, hb, hs⟩ := hf.2 n (by omega)
    have h := ih (hf.mono (by omega))
    rw [List.range_succ, List.map_append, List.range_succ, List.map_append] at *
    simp only [List.map_cons, List.map_nil, List.append_assoc, List.cons_append, List.nil_append] at *
    exact .step h hb hs

end Verif.TempBorrow
