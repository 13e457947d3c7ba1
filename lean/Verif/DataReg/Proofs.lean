import Verif.DataReg.Spec
import Mathlib.Data.List.Nodup
/-!
# Lemmas for C39
-/
namespace Verif.DataReg

/-- Entries lie one after the other from address `a`. -/
def Packed : Nat → List Entry → Prop
  | _, [] => True
  | a, e :: es => e.offset.toNat = a ∧ Packed (a + e.data.length) es

structure Inv (r : Registry) : Prop where
  packed : Packed 0 r.entries
  size : r.currentOffset.toNat = stored r.entries
  map : ∀ d i, r.contentMap d = some i ↔ ∃ e : Entry, r.entries[i]? = some e ∧ e.data = d
  nodup : (r.entries.map Entry.data).Nodup

theorem stored_append (a b : List Entry) : stored (a ++ b) = stored a + stored b := by
  simp [stored]

theorem packed_append {es : List Entry} : ∀ {a : Nat} {es' : List Entry},
    Packed a (es ++ es') ↔ Packed a es ∧ Packed (a + stored es) es' := by
  induction es with
  | nil => intro a es'; simp [Packed, stored]
  | cons e es ih =>
    intro a es'
    simp only [List.cons_append, Packed, ih, stored, List.map_cons, List.sum_cons, Nat.add_assoc]
    exact and_assoc.symm

theorem inv_new : Inv .new := ⟨trivial, rfl, by simp [Registry.new], by simp [Registry.new]⟩

theorem addBytes_spec {r : Registry} (h : Inv r) (d : List UInt8) :
    ∃ r' off es, r.addBytes d = some (r', off, UInt32.ofNat d.length) ∧
      r'.entries = r.entries ++ es ∧ ⟨off, d⟩ ∈ r'.entries ∧
      (stored r'.entries < 2 ^ 32 → Inv r') ∧ (es = [] ∨ es = [⟨off, d⟩]) := by
  unfold Registry.addBytes
  cases hm : r.contentMap d with
  | some i =>
    obtain ⟨e, he, hd⟩ := (h.map d i).mp hm
    simp only [he]
    refine ⟨r, e.offset, [], rfl, by simp, ?_, fun _ => h, Or.inl rfl⟩
    have := List.mem_of_getElem? he
    subst hd
    exact this
  | none =>
    simp only
    refine ⟨_, r.currentOffset, [⟨r.currentOffset, d⟩], rfl, rfl, by simp, ?_, Or.inr rfl⟩
    intro hs
    simp only at hs
    rw [stored_append] at hs
    have hs' : stored r.entries + d.length < 2 ^ 32 := by simpa [stored] using hs
    refine ⟨?_, ?_, ?_, ?_⟩
    · exact packed_append.mpr ⟨h.packed, by simp [Packed, h.size]⟩
    · simp only [stored_append, UInt32.toNat_add, h.size]
      have : (UInt32.ofNat d.length).toNat = d.length := by
        rw [UInt32.toNat_ofNat']; omega
      rw [this]
      simp [stored] at hs' ⊢
      omega
    · intro d' i
      simp only
      by_cases hd : d' = d
      · subst hd
        simp only [if_true, Option.some.injEq]
        constructor
        · rintro rfl; exact ⟨⟨r.currentOffset, d'⟩, by simp, rfl⟩
        · rintro ⟨e, he, hed⟩
          rcases Nat.lt_or_ge i r.entries.length with hi | hi
          · rw [List.getElem?_append_left hi] at he
            have := (h.map d' i).mpr ⟨e, he, hed⟩
            rw [hm] at this; cases this
          · rw [List.getElem?_append_right hi] at he
            have := (List.getElem?_eq_some_iff.mp he).1
            simp at this; omega
      · simp only [hd, if_false, h.map]
        constructor
        · rintro ⟨e, he, hed⟩
          refine ⟨e, ?_, hed⟩
          rw [List.getElem?_append_left (List.getElem?_eq_some_iff.mp he).1]; exact he
        · rintro ⟨e, he, hed⟩
          rcases Nat.lt_or_ge i r.entries.length with hi | hi
          · rw [List.getElem?_append_left hi] at he; exact ⟨e, he, hed⟩
          · rw [List.getElem?_append_right hi] at he
            obtain ⟨h1, h2⟩ := List.getElem?_eq_some_iff.mp he
            simp at h2
            rw [← h2] at hed
            exact absurd hed.symm hd
    · simp only [List.map_append, List.map_cons, List.map_nil]
      rw [List.nodup_append]
      refine ⟨h.nodup, by simp, ?_⟩
      intro a ha b hb hab
      simp at hb
      subst hb hab
      obtain ⟨e, he, rfl⟩ := List.mem_map.mp ha
      obtain ⟨i, hi⟩ := List.getElem?_of_mem he
      have := (h.map e.data i).mpr ⟨e, hi, rfl⟩
      rw [hm] at this; cases this

theorem addAll_spec (ds : List (List UInt8)) : ∀ {r : Registry}, Inv r →
    ∀ {r' res}, r.addAll ds = some (r', res) → stored r'.entries < 2 ^ 32 →
      Inv r' ∧ (∃ es, r'.entries = r.entries ++ es) ∧ res.length = ds.length ∧
      ∀ (k : Nat) d, ds[k]? = some d → ∃ off, res[k]? = some (off, UInt32.ofNat d.length) ∧
        ⟨off, d⟩ ∈ r'.entries := by
  induction ds with
  | nil =>
    intro r h r' res hr hs
    simp only [Registry.addAll, Option.some.injEq, Prod.mk.injEq] at hr
    obtain ⟨rfl, rfl⟩ := hr
    exact ⟨h, ⟨[], by simp⟩, rfl, by simp⟩
  | cons d ds ih =>
    intro r h r' res hr hs
    obtain ⟨r1, off, es, h1, h2, h3, h4, h5⟩ := addBytes_spec h d
    simp only [Registry.addAll, h1] at hr
    cases h6 : r1.addAll ds with
    | none => rw [h6] at hr; cases hr
    | some p =>
      obtain ⟨r2, rest⟩ := p
      rw [h6] at hr
      simp only [Option.some.injEq, Prod.mk.injEq] at hr
      obtain ⟨rfl, rfl⟩ := hr
      -- the registry only grows, so the bound holds now
      have hgrow : ∀ (ds : List (List UInt8)) (r r' : Registry) res, r.addAll ds = some (r', res) →
          ∃ es, r'.entries = r.entries ++ es := by
        intro ds
        induction ds with
        | nil =>
          intro r r' res hr
          simp only [Registry.addAll, Option.some.injEq, Prod.mk.injEq] at hr
          exact ⟨[], by simp [hr.1]⟩
        | cons d ds ih =>
          intro r r' res hr
          simp only [Registry.addAll] at hr
          cases ha : r.addBytes d with
          | none => rw [ha] at hr; cases hr
          | some p =>
            obtain ⟨q, w⟩ := p
            rw [ha] at hr
            simp only at hr
            cases hb : q.addAll ds with
            | none => rw [hb] at hr; cases hr
            | some p =>
              obtain ⟨q', w'⟩ := p
              rw [hb] at hr
              simp only [Option.some.injEq, Prod.mk.injEq] at hr
              obtain ⟨rfl, -⟩ := hr
              obtain ⟨es, hes⟩ := ih q q' w' hb
              have : ∃ es', q.entries = r.entries ++ es' := by
                unfold Registry.addBytes at ha
                simp only at ha
                split at ha
                · split at ha
                  · simp only [Option.some.injEq, Prod.mk.injEq] at ha
                    exact ⟨[], by simp [ha.1]⟩
                  · cases ha
                · simp only [Option.some.injEq, Prod.mk.injEq] at ha
                  exact ⟨_, by rw [← ha.1]⟩
              obtain ⟨es', hes'⟩ := this
              exact ⟨es' ++ es, by rw [hes, hes', List.append_assoc]⟩
      obtain ⟨es2, he2⟩ := hgrow ds r1 r2 rest h6
      have hs1 : stored r1.entries < 2 ^ 32 := by
        rw [he2, stored_append] at hs; omega
      obtain ⟨i1, -, i3, i4⟩ := ih (h4 hs1) h6 hs
      refine ⟨i1, ⟨es ++ es2, by rw [he2, h2, List.append_assoc]⟩, by simp [i3], ?_⟩
      intro k d' hk
      cases k with
      | zero =>
        simp at hk
        subst hk
        exact ⟨off, by simp, by rw [he2]; exact List.mem_append_left _ h3⟩
      | succ k =>
        simp at hk
        obtain ⟨o, ho1, ho2⟩ := i4 k d' hk
        exact ⟨o, by simpa using ho1, ho2⟩

/-- `add_bytes` never panics. -/
theorem addAll_some (ds : List (List UInt8)) : ∀ {r : Registry},
    (∀ d i, r.contentMap d = some i → i < r.entries.length) → (r.addAll ds).isSome := by
  induction ds with
  | nil => intro r _; rfl
  | cons d ds ih =>
    intro r h
    have : ∃ r' o, r.addBytes d = some (r', o) ∧
        ∀ d i, r'.contentMap d = some i → i < r'.entries.length := by
      unfold Registry.addBytes
      cases hm : r.contentMap d with
      | some i =>
        have := h d i hm
        simp only [List.getElem?_eq_getElem this]
        exact ⟨r, _, rfl, h⟩
      | none =>
        refine ⟨_, _, rfl, ?_⟩
        intro d' i
        simp only
        split
        · rintro ⟨⟩; simp
        · intro hi; have := h d' i hi; simp; omega
    obtain ⟨r', o, h1, h2⟩ := this
    have := ih h2
    simp only [Registry.addAll, h1]
    cases h3 : r'.addAll ds with
    | none => rw [h3] at this; cases this
    | some p => simp

/-- Packed entries: each lies in its own part of the address range. -/
theorem packed_at {es : List Entry} : ∀ {a : Nat}, Packed a es → ∀ e ∈ es,
    a ≤ e.offset.toNat ∧ e.offset.toNat + e.data.length ≤ a + stored es := by
  induction es with
  | nil => intro a _ e he; cases he
  | cons x es ih =>
    intro a h e he
    obtain ⟨h1, h2⟩ := h
    simp only [stored, List.map_cons, List.sum_cons]
    rcases List.mem_cons.mp he with rfl | he
    · omega
    · have := ih h2 e he
      simp only [stored] at this
      omega

theorem packed_disjoint {es : List Entry} : ∀ {a : Nat}, Packed a es → (es.map Entry.data).Nodup →
    ∀ e ∈ es, ∀ e' ∈ es, e = e' ∨ e.offset.toNat + e.data.length ≤ e'.offset.toNat ∨
      e'.offset.toNat + e'.data.length ≤ e.offset.toNat := by
  induction es with
  | nil => intro a _ _ e he; cases he
  | cons x es ih =>
    intro a h hn e he e' he'
    obtain ⟨h1, h2⟩ := h
    simp only [List.map_cons, List.nodup_cons] at hn
    rcases List.mem_cons.mp he with k | k <;> rcases List.mem_cons.mp he' with k' | k'
    · exact Or.inl (k.trans k'.symm)
    · have := packed_at h2 e' k'
      subst k
      right; left; omega
    · have := packed_at h2 e k
      subst k'
      right; right; omega
    · exact ih h2 hn.2 e k e' k'

end Verif.DataReg
