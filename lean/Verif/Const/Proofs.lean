import Verif.Const.Spec
import Verif.Rtti.Proofs

/-!
# Helper lemmas about literals
-/
namespace Verif.Const
open Verif.Rtti (Mem storeN loadN addr)

mutual
/-- The literals of an operation, in the order of the walk. -/
def litsOf : Op → List Op
  | .string t => [.string t]
  | .bytes b => [.bytes b]
  | .other _ body => lits body

def lits : List Op → List Op
  | [] => []
  | op :: ops => litsOf op ++ lits ops
end

mutual
theorem walkOp_eq {σ : Type} (f : σ → Op → σ) (hf : ∀ s id body, f s (.other id body) = s) (s : σ) :
    ∀ op, walkOp f s op = (litsOf op).foldl f s
  | .string _ => rfl
  | .bytes _ => rfl
  | .other id body => by rw [walkOp, hf, litsOf, walk_eq f hf s body]

theorem walk_eq {σ : Type} (f : σ → Op → σ) (hf : ∀ s id body, f s (.other id body) = s) (s : σ) :
    ∀ ops, walk f s ops = (lits ops).foldl f s
  | [] => rfl
  | op :: ops => by
    rw [walk, walkOp_eq f hf s op, walk_eq f hf _ ops, lits, List.foldl_append]
end

/-- The content of a literal. -/
def content : Op → List UInt8
  | .string t => utf8 t
  | .bytes b => b
  | .other _ _ => []

def isString : Op → Bool
  | .string _ => true
  | _ => false

mutual
theorem contentsOf_eq : ∀ op, Spec.contentsOf op = (litsOf op).map content
  | .string _ => rfl
  | .bytes _ => rfl
  | .other _ body => by rw [Spec.contentsOf, litsOf, contents_eq body]

theorem contents_eq : ∀ ops, Spec.contents ops = (lits ops).map content
  | [] => rfl
  | op :: ops => by rw [Spec.contents, lits, List.map_append, contentsOf_eq op, contents_eq ops]
end

mutual
theorem hasStringOp_eq : ∀ op, Spec.hasStringOp op = (litsOf op).any isString
  | .string _ => rfl
  | .bytes _ => rfl
  | .other _ body => by rw [Spec.hasStringOp, litsOf, hasString_eq body]

theorem hasString_eq : ∀ ops, Spec.hasString ops = (lits ops).any isString
  | [] => rfl
  | op :: ops => by rw [Spec.hasString, lits, List.any_append, hasStringOp_eq op, hasString_eq ops]
end

mutual
theorem litsOf_lit : ∀ op, ∀ o ∈ litsOf op, ∀ id body, o ≠ .other id body
  | .string _, o, h, _, _ => by simp only [litsOf, List.mem_singleton] at h; simp [h]
  | .bytes _, o, h, _, _ => by simp only [litsOf, List.mem_singleton] at h; simp [h]
  | .other _ body, o, h, id, b => lits_lit body o (by rwa [litsOf] at h) id b

theorem lits_lit : ∀ ops, ∀ o ∈ lits ops, ∀ id body, o ≠ .other id body
  | [], o, h, _, _ => by simp [lits] at h
  | op :: ops, o, h, id, b => by
    rw [lits, List.mem_append] at h
    rcases h with h | h
    · exact litsOf_lit op o h id b
    · exact lits_lit ops o h id b
end

/-! ## The WebAssembly analysis -/

structure WInv (c : WCol) (done : List (List UInt8)) : Prop where
  entry : ∀ (i : Nat) a, c.allocations[i]? = some a →
    a.dataIdx = UInt32.ofNat i ∧ a.len = UInt32.ofNat a.content.length
  nodup : (c.allocations.map (·.content)).Nodup
  seen : ∀ b, (c.seen b).isSome ↔ b ∈ c.allocations.map (·.content)
  all : ∀ b, b ∈ c.allocations.map (·.content) ↔ b ∈ done
  count : c.allocations.length ≤ done.length

theorem WInv.new : WInv .new [] :=
  ⟨by simp [WCol.new], by simp [WCol.new], by simp [WCol.new], by simp [WCol.new], by simp [WCol.new]⟩

theorem WInv.collect {c : WCol} {done : List (List UInt8)} (h : WInv c done) (b : List UInt8) :
    WInv (c.collect b) (done ++ [b]) := by
  unfold WCol.collect
  cases hs : c.seen b with
  | some i =>
    have hb : b ∈ c.allocations.map (·.content) := (h.seen b).1 (by simp [hs])
    refine ⟨h.entry, h.nodup, h.seen, fun x => ?_, ?_⟩
    · rw [h.all x, List.mem_append, List.mem_singleton]
      constructor
      · exact Or.inl
      · rintro (hx | rfl)
        · exact hx
        · exact (h.all _).1 hb
    · have := h.count
      simp only [List.length_append, List.length_singleton]
      omega
  | none =>
    have hb : b ∉ c.allocations.map (·.content) := fun hm => by
      have := (h.seen b).2 hm
      simp [hs] at this
    refine ⟨?_, ?_, ?_, ?_, ?_⟩
    · intro i a ha
      simp only at ha
      rcases Nat.lt_trichotomy i c.allocations.length with hi | hi | hi
      · rw [List.getElem?_append_left hi] at ha
        exact h.entry i a ha
      · subst hi
        simp only [List.getElem?_concat_length, Option.some.injEq] at ha
        subst ha
        exact ⟨rfl, rfl⟩
      · rw [List.getElem?_eq_none (by simp; omega)] at ha
        cases ha
    · simp only [List.map_append, List.map_cons, List.map_nil]
      rw [List.nodup_append]
      refine ⟨h.nodup, by simp, ?_⟩
      intro x hx y hy
      simp only [List.mem_singleton] at hy
      subst hy
      rintro rfl
      exact hb hx
    · intro x
      simp only [List.map_append, List.map_cons, List.map_nil, List.mem_append, List.mem_singleton]
      by_cases hx : x = b
      · simp [hx]
      · simp only [hx, if_false, or_false]
        exact h.seen x
    · intro x
      simp only [List.map_append, List.map_cons, List.map_nil, List.mem_append, List.mem_singleton]
      rw [h.all x]
    · have := h.count
      simp only [List.length_append, List.length_singleton]
      omega

theorem WInv.hasString {c : WCol} {done : List (List UInt8)} (h : WInv c done) (f : Bool) :
    WInv { c with hasString := f } done :=
  ⟨h.entry, h.nodup, h.seen, h.all, h.count⟩

theorem collect_hasString (c : WCol) (b : List UInt8) : (c.collect b).hasString = c.hasString := by
  unfold WCol.collect
  split <;> rfl

theorem wfold : ∀ (os : List Op) (c : WCol) (done : List (List UInt8)), WInv c done →
    (∀ o ∈ os, ∀ id body, o ≠ .other id body) →
    WInv (os.foldl WCol.visit c) (done ++ os.map content) ∧
      (os.foldl WCol.visit c).hasString = (c.hasString || os.any isString)
  | [], c, done, h, _ => by simpa using h
  | o :: os, c, done, h, hl => by
    have hv : WInv (c.visit o) (done ++ [content o]) ∧
        (c.visit o).hasString = (c.hasString || isString o) := by
      cases o with
      | string t =>
        refine ⟨(h.hasString true).collect _, ?_⟩
        simp only [WCol.visit, collect_hasString, isString, Bool.or_true]
      | bytes b =>
        refine ⟨h.collect b, ?_⟩
        simp only [WCol.visit, collect_hasString, isString, Bool.or_false]
      | other id body => exact absurd rfl (hl _ (List.mem_cons_self ..) id body)
    obtain ⟨h1, h2⟩ := wfold os (c.visit o) _ hv.1 (fun x hx => hl x (List.mem_cons_of_mem _ hx))
    refine ⟨by simpa using h1, ?_⟩
    rw [List.foldl_cons, h2, hv.2, List.any_cons, Bool.or_assoc]

theorem analyzeWasm_spec (sty : Bool) (ops : List Op) :
    ∃ c : WCol, WInv c (Spec.contents ops) ∧
      analyzeWasm sty ops = (c.allocations, Spec.hasString ops && sty) := by
  obtain ⟨h1, h2⟩ := wfold (lits ops) .new [] .new (lits_lit ops)
  refine ⟨(lits ops).foldl WCol.visit .new, by simpa [contents_eq] using h1, ?_⟩
  simp only [analyzeWasm]
  rw [walk_eq WCol.visit (fun _ _ _ => rfl), h2, hasString_eq]
  simp [WCol.new]

theorem vfold : ∀ (known : Bool) (os : List Op) (b : Bool),
    os.foldl (checkString known) b = (b && (known || !os.any isString))
  | known, [], b => by simp
  | known, o :: os, b => by
    rw [List.foldl_cons, vfold known os, List.any_cons]
    cases o <;> cases b <;> cases known <;> simp [isString, checkString]

theorem validateWasm_eq (known : Bool) (ops : List Op) :
    validateWasm known ops = (known || !Spec.hasString ops) := by
  rw [validateWasm, walk_eq _ (fun _ _ _ => rfl), vfold, hasString_eq, Bool.true_and]

/-- What the lookup finds. -/
theorem lookup_spec {c : WCol} {done : List (List UInt8)} (h : WInv c done) {b : List UInt8}
    (hb : b ∈ done) : ∃ i : Nat, lookup c.allocations b = some (UInt32.ofNat i, UInt32.ofNat b.length) ∧
      i < c.allocations.length ∧ (c.allocations.map (·.content))[i]? = some b := by
  rw [← h.all] at hb
  obtain ⟨a, ha, rfl⟩ := List.mem_map.1 hb
  unfold lookup
  cases hf : c.allocations.find? fun x => x.content == a.content with
  | none =>
    have := List.find?_eq_none.1 hf a ha
    simp at this
  | some x =>
    have hx := List.find?_some hf
    simp only [beq_iff_eq] at hx
    obtain ⟨i, hi, hxi⟩ := List.getElem_of_mem (List.mem_of_find?_eq_some hf)
    have hxi' : c.allocations[i]? = some x := by rw [List.getElem?_eq_getElem hi, hxi]
    obtain ⟨e1, e2⟩ := h.entry i x hxi'
    refine ⟨i, by simp [e1, e2, hx], hi, ?_⟩
    rw [List.getElem?_map, hxi', Option.map_some, hx]

/-- The instructions for a literal. -/
theorem emitData_runs {segs : List (List UInt8)} {i : Nat} {b : List UInt8} (hi : i < 2 ^ 32)
    (hs : segs[i]? = some b) (hb : b.length < 2 ^ 31) :
    ∃ is, emitData (UInt32.ofNat i) 0 (UInt32.ofNat b.length) = .ok is ∧
      ∀ st, wrun segs is st = some (.bytes b 0 (UInt32.ofNat b.length) :: st) := by
  have hl : (UInt32.ofNat b.length).toNat = b.length := by
    rw [UInt32.toNat_ofNat']; omega
  have hz : (0 : UInt32).toNat = 0 := rfl
  have hx : (UInt32.ofNat i).toNat = i := by
    rw [UInt32.toNat_ofNat']; omega
  unfold emitData
  rw [hl, hz, if_pos (by omega), if_pos hb]
  refine ⟨_, rfl, fun st => ?_⟩
  simp [wrun, wstep, hx, hs, hl]

theorem emitData_long {i : UInt32} {b : List UInt8} (h1 : 2 ^ 31 ≤ b.length) (h2 : b.length < 2 ^ 32) :
    emitData i 0 (UInt32.ofNat b.length) = .error .tooLong := by
  have hl : (UInt32.ofNat b.length).toNat = b.length := by
    rw [UInt32.toNat_ofNat']; omega
  unfold emitData
  rw [hl, if_pos (by decide), if_neg (by omega)]

theorem isText_leaf {b : List UInt8} (h : b.length < 2 ^ 32) :
    Spec.IsText b (.leaf b 0 (UInt32.ofNat b.length)) := by
  have hl : (UInt32.ofNat b.length).toNat = b.length := by rw [UInt32.toNat_ofNat']; omega
  exact ⟨b, 0, _, rfl, by rw [hl]; simp, by rw [Spec.range, hl]; simp⟩

theorem isBytes_bytes {b : List UInt8} (h : b.length < 2 ^ 32) :
    Spec.IsBytes b (.bytes b 0 (UInt32.ofNat b.length)) := by
  have hl : (UInt32.ofNat b.length).toNat = b.length := by rw [UInt32.toNat_ofNat']; omega
  exact ⟨b, 0, _, rfl, by rw [hl]; simp, by rw [Spec.range, hl]; simp⟩

theorem wrun_append (segs : List (List UInt8)) : ∀ (a b : List Instr) (st : List WVal),
    wrun segs (a ++ b) st = (wrun segs a st).bind (wrun segs b)
  | [], b, st => rfl
  | i :: a, b, st => by
    simp only [List.cons_append, wrun]
    cases wstep segs i st with
    | none => rfl
    | some st' => simp only [Option.bind_some]; exact wrun_append segs a b st'

section
variable {c : WCol} {done : List (List UInt8)} (h : WInv c done) (hsmall : done.length < 2 ^ 32)
  (known : Bool)
include h hsmall

mutual
theorem emitWOp_means : ∀ (op : Op), (∀ b ∈ Spec.contentsOf op, b ∈ done) →
    (∀ b ∈ Spec.contentsOf op, b.length < 2 ^ 31) → (Spec.hasStringOp op = true → known = true) →
    ∃ code, emitWOp (lowerWOp c.allocations known op) = .ok code ∧
      Spec.WMeans (c.allocations.map (·.content)) op code
  | .string t, hd, hb, hk => by
    have hm : utf8 t ∈ Spec.contentsOf (.string t) := by simp [Spec.contentsOf]
    obtain ⟨i, h1, h2, h3⟩ := lookup_spec h (hd _ hm)
    have h4 := h.count
    obtain ⟨is, h5, h6⟩ := emitData_runs (show i < 2 ^ 32 by omega) h3 (hb _ hm)
    refine ⟨.instrs (is ++ [.leaf]), ?_, .string ⟨_, isText_leaf (by have := hb _ hm; omega), fun st => ?_⟩⟩
    · simp only [lowerWOp, h1, hk rfl, if_true, emitWOp, h5]
      rfl
    · rw [wrun_append, h6]
      rfl
  | .bytes b, hd, hb, hk => by
    have hm : b ∈ Spec.contentsOf (.bytes b) := by simp [Spec.contentsOf]
    obtain ⟨i, h1, h2, h3⟩ := lookup_spec h (hd _ hm)
    have h4 := h.count
    obtain ⟨is, h5, h6⟩ := emitData_runs (show i < 2 ^ 32 by omega) h3 (hb _ hm)
    refine ⟨.instrs is, ?_, .bytes ⟨_, isBytes_bytes (by have := hb _ hm; omega), h6⟩⟩
    simp only [lowerWOp, h1, emitWOp, h5]
    rfl
  | .other id body, hd, hb, hk => by
    obtain ⟨code, h1, h2⟩ := emitW_means body (by simpa [Spec.contentsOf] using hd)
      (by simpa [Spec.contentsOf] using hb) (by simpa [Spec.hasStringOp] using hk)
    refine ⟨.other id code, ?_, .other h2⟩
    simp only [lowerWOp, emitWOp, h1]
    rfl

theorem emitW_means : ∀ (ops : List Op), (∀ b ∈ Spec.contents ops, b ∈ done) →
    (∀ b ∈ Spec.contents ops, b.length < 2 ^ 31) → (Spec.hasString ops = true → known = true) →
    ∃ code, emitW (lowerW c.allocations known ops) = .ok code ∧
      Spec.WMeansAll (c.allocations.map (·.content)) ops code
  | [], _, _, _ => ⟨[], rfl, .nil⟩
  | op :: ops, hd, hb, hk => by
    simp only [Spec.contents, List.mem_append] at hd hb
    simp only [Spec.hasString, Bool.or_eq_true] at hk
    obtain ⟨code, h1, h2⟩ := emitWOp_means op (fun b hm => hd b (.inl hm)) (fun b hm => hb b (.inl hm))
      (fun hs => hk (.inl hs))
    obtain ⟨codes, h3, h4⟩ := emitW_means ops (fun b hm => hd b (.inr hm)) (fun b hm => hb b (.inr hm))
      (fun hs => hk (.inr hs))
    refine ⟨code :: codes, ?_, .cons h2 h4⟩
    simp only [lowerW, emitW, h1, h3]
    rfl
end

mutual
theorem emitWOp_ok : ∀ (op : Op) (code : WCode), (∀ b ∈ Spec.contentsOf op, b ∈ done) →
    (∀ b ∈ Spec.contentsOf op, b.length < 2 ^ 32) →
    emitWOp (lowerWOp c.allocations known op) = .ok code →
    ∀ b ∈ Spec.contentsOf op, b.length < 2 ^ 31
  | .string t, code, hd, hb, he => by
    intro b hm
    obtain ⟨i, h1, h2, h3⟩ := lookup_spec h (hd _ hm)
    refine Nat.lt_of_not_le fun hle => ?_
    have := emitData_long (i := UInt32.ofNat i) hle (hb _ hm)
    simp only [Spec.contentsOf, List.mem_singleton] at hm
    subst hm
    simp only [lowerWOp, h1] at he
    cases known
    · simp [emitWOp] at he
    · simp only [if_true, emitWOp, this] at he
      cases he
  | .bytes b, code, hd, hb, he => by
    intro b' hm
    obtain ⟨i, h1, h2, h3⟩ := lookup_spec h (hd _ hm)
    refine Nat.lt_of_not_le fun hle => ?_
    have := emitData_long (i := UInt32.ofNat i) hle (hb _ hm)
    simp only [Spec.contentsOf, List.mem_singleton] at hm
    subst hm
    simp only [lowerWOp, h1, emitWOp, this] at he
    cases he
  | .other id body, code, hd, hb, he => by
    simp only [lowerWOp, emitWOp] at he
    cases hw : emitW (lowerW c.allocations known body) with
    | error e => rw [hw] at he; cases he
    | ok cs =>
      rw [Spec.contentsOf] at hd hb ⊢
      exact emitW_ok body cs hd hb hw

theorem emitW_ok : ∀ (ops : List Op) (code : List WCode), (∀ b ∈ Spec.contents ops, b ∈ done) →
    (∀ b ∈ Spec.contents ops, b.length < 2 ^ 32) →
    emitW (lowerW c.allocations known ops) = .ok code →
    ∀ b ∈ Spec.contents ops, b.length < 2 ^ 31
  | [], _, _, _, _ => by simp [Spec.contents]
  | op :: ops, code, hd, hb, he => by
    simp only [Spec.contents, List.mem_append] at hd hb
    simp only [lowerW, emitW] at he
    cases h1 : emitWOp (lowerWOp c.allocations known op) with
    | error e => rw [h1] at he; cases he
    | ok x =>
      rw [h1] at he
      cases h2 : emitW (lowerW c.allocations known ops) with
      | error e => simp only [h2] at he; cases he
      | ok xs =>
        intro b hm
        rw [Spec.contents, List.mem_append] at hm
        rcases hm with hm | hm
        · exact emitWOp_ok op x (fun b hm => hd b (.inl hm)) (fun b hm => hb b (.inl hm)) h1 b hm
        · exact emitW_ok ops xs (fun b hm => hd b (.inr hm)) (fun b hm => hb b (.inr hm)) h2 b hm
end
end

/-! ## The native analysis -/

theorem rodataName_inj {i j : Nat} (h : rodataName i = rodataName j) : i = j := by
  unfold rodataName at h
  have h1 := congrArg String.toList h
  simp only [String.toList_append] at h1
  have h2 := List.append_cancel_left h1
  have h3 : Nat.toDigits 10 i = Nat.toDigits 10 j := by
    have e : ∀ n : Nat, (toString n).toList = Nat.toDigits 10 n := fun n => Nat.toList_repr
    rwa [e, e] at h2
  have h4 := congrArg (fun l => Nat.ofDigitChars 10 l 0) h3
  simpa [Nat.ofDigitChars_toDigits] using h4

structure NInv (c : NCol) (done : List (List UInt8)) : Prop where
  names : c.rodata.map (·.1) = (List.range c.rodata.length).map rodataName
  next : c.nextIdx = UInt32.ofNat c.rodata.length
  nodup : (c.rodata.map (·.2)).Nodup
  seen : ∀ b n, c.seen b = some n ↔ (n, b) ∈ c.rodata
  all : ∀ b, b ∈ c.rodata.map (·.2) ↔ b ∈ done
  count : c.rodata.length ≤ done.length

theorem NInv.new : NInv .new [] :=
  ⟨by simp [NCol.new], rfl, by simp [NCol.new], by simp [NCol.new], by simp [NCol.new], by simp [NCol.new]⟩

theorem NInv.intern {c : NCol} {done : List (List UInt8)} (h : NInv c done)
    (hlt : done.length + 1 < 2 ^ 32) (b : List UInt8) : NInv (c.intern b) (done ++ [b]) := by
  unfold NCol.intern
  cases hs : c.seen b with
  | some n =>
    have hb : b ∈ c.rodata.map (·.2) := List.mem_map.2 ⟨(n, b), (h.seen b n).1 hs, rfl⟩
    refine ⟨h.names, h.next, h.nodup, h.seen, fun x => ?_, ?_⟩
    · rw [h.all x, List.mem_append, List.mem_singleton]
      constructor
      · exact Or.inl
      · rintro (hx | rfl)
        · exact hx
        · exact (h.all _).1 hb
    · have := h.count
      simp only [List.length_append, List.length_singleton]
      omega
  | none =>
    have hb : b ∉ c.rodata.map (·.2) := fun hm => by
      obtain ⟨⟨n, b'⟩, hm', rfl⟩ := List.mem_map.1 hm
      have := (h.seen b' n).2 hm'
      simp [hs] at this
    have hc := h.count
    have hn : c.nextIdx.toNat = c.rodata.length := by
      rw [h.next, UInt32.toNat_ofNat']; omega
    refine ⟨?_, ?_, ?_, ?_, ?_, ?_⟩
    · simp only [List.map_append, List.map_cons, List.map_nil, List.length_append, List.length_singleton,
        List.range_succ, h.names, hn]
    · simp only [List.length_append, List.length_singleton]
      rw [h.next]
      apply UInt32.toNat_inj.1
      rw [UInt32.toNat_add, UInt32.toNat_ofNat', UInt32.toNat_ofNat']
      simp
    · simp only [List.map_append, List.map_cons, List.map_nil]
      rw [List.nodup_append]
      refine ⟨h.nodup, by simp, ?_⟩
      intro x hx y hy
      simp only [List.mem_singleton] at hy
      subst hy
      rintro rfl
      exact hb hx
    · intro x n
      simp only [List.mem_append, List.mem_singleton, Prod.mk.injEq]
      by_cases hx : x = b
      · subst hx
        simp only [if_true, Option.some.injEq]
        constructor
        · rintro rfl; exact .inr ⟨rfl, trivial⟩
        · rintro (hm | ⟨rfl, _⟩)
          · exact absurd (List.mem_map.2 ⟨(n, x), hm, rfl⟩) hb
          · rfl
      · simp only [hx, if_false, and_false, or_false]
        exact h.seen x n
    · intro x
      simp only [List.map_append, List.map_cons, List.map_nil, List.mem_append, List.mem_singleton]
      rw [h.all x]
    · simp only [List.length_append, List.length_singleton]
      omega

theorem NInv.hasString {c : NCol} {done : List (List UInt8)} (h : NInv c done) (f : Bool) :
    NInv { c with hasString := f } done :=
  ⟨h.names, h.next, h.nodup, h.seen, h.all, h.count⟩

theorem intern_hasString (c : NCol) (b : List UInt8) : (c.intern b).hasString = c.hasString := by
  unfold NCol.intern
  split <;> rfl

theorem nfold : ∀ (os : List Op) (c : NCol) (done : List (List UInt8)), NInv c done →
    done.length + os.length < 2 ^ 32 → (∀ o ∈ os, ∀ id body, o ≠ .other id body) →
    NInv (os.foldl NCol.visit c) (done ++ os.map content) ∧
      (os.foldl NCol.visit c).hasString = (c.hasString || os.any isString)
  | [], c, done, h, _, _ => by simpa using h
  | o :: os, c, done, h, hc, hl => by
    simp only [List.length_cons] at hc
    have hv : NInv (c.visit o) (done ++ [content o]) ∧
        (c.visit o).hasString = (c.hasString || isString o) := by
      cases o with
      | string t =>
        refine ⟨(h.intern (by omega) _).hasString true, ?_⟩
        simp only [NCol.visit, isString, Bool.or_true]
      | bytes b =>
        refine ⟨h.intern (by omega) b, ?_⟩
        simp only [NCol.visit, intern_hasString, isString, Bool.or_false]
      | other id body => exact absurd rfl (hl _ (List.mem_cons_self ..) id body)
    obtain ⟨h1, h2⟩ := nfold os (c.visit o) _ hv.1
      (by simp only [List.length_append, List.length_singleton]; omega)
      (fun x hx => hl x (List.mem_cons_of_mem _ hx))
    refine ⟨by simpa using h1, ?_⟩
    rw [List.foldl_cons, h2, hv.2, List.any_cons, Bool.or_assoc]

/-- The state of the collector at the end. -/
theorem native_col (ops : List Op) (hs : (Spec.contents ops).length < 2 ^ 32) :
    NInv (walk NCol.visit NCol.new ops) (Spec.contents ops) ∧
      (walk NCol.visit NCol.new ops).hasString = Spec.hasString ops := by
  rw [contents_eq, List.length_map] at hs
  obtain ⟨h1, h2⟩ := nfold (lits ops) .new [] .new (by simpa using hs) (lits_lit ops)
  rw [walk_eq NCol.visit (fun _ _ _ => rfl), contents_eq, hasString_eq]
  exact ⟨by simpa using h1, by simpa [NCol.new] using h2⟩

/-! ## Running the code of a literal -/

/-- The memory after the code. -/
def after (m : Mem) (a d len : Nat) : Mem :=
  storeN (storeN (storeN (storeN m a 1 4) (a + 4) 0 4) (a + 8) d 8) (a + 16) len 8

theorem emit_runs {img : Image} {rodata : List (String × List UInt8)} {sym : String} {d len : Nat} {m : Mem}
    (hs : symbolAddr img rodata sym = some d) (ha : allocFn ∉ img.funcs) (hd : d < 2 ^ 64)
    (hl : len < 2 ^ 64) (hb : img.allocate 24 m + 24 ≤ 2 ^ 64) (rest : List Clif) :
    ∃ s, s.mem = after m (img.allocate 24 m) d len ∧ s.regs 9 = some (.word (img.allocate 24 m + 8)) ∧
      nsteps img rodata ⟨fun _ => none, m⟩ (emitBytesAlloc sym len ++ rest) = nsteps img rodata s rest := by
  have h1 : addr (img.allocate 24 m) 0 = img.allocate 24 m := by unfold addr; omega
  have h2 : addr (img.allocate 24 m) 4 = img.allocate 24 m + 4 := by unfold addr; omega
  have h3 : addr (img.allocate 24 m) 8 = img.allocate 24 m + 8 := by unfold addr; omega
  have h4 : addr (img.allocate 24 m + 8) 0 = img.allocate 24 m + 8 := by unfold addr; omega
  have h5 : addr (img.allocate 24 m + 8) 8 = img.allocate 24 m + 16 := by unfold addr; omega
  have h6 : addr (img.allocate 24 m) (8 : Nat) = img.allocate 24 m + 8 := by unfold addr; omega
  have h7 : addr (img.allocate 24 m + 8) (0 : Nat) = img.allocate 24 m + 8 := by unfold addr; omega
  have hlm : len % 18446744073709551616 = len := Nat.mod_eq_of_lt hl
  refine ⟨⟨fun x => if x = 9 then some (.word (img.allocate 24 m + 8)) else
    if x = 8 then some (.word 0) else if x = 7 then some (.word (img.allocate 24 m + 8)) else
    if x = 6 then some (.word 8) else if x = 5 then some (.word 0) else if x = 4 then some (.word 1) else
    if x = 3 then some (.word (img.allocate 24 m)) else if x = 2 then some (.word 24) else
    if x = 1 then some (.word len) else if x = 0 then some (.word d) else none,
    after m (img.allocate 24 m) d len⟩, rfl, rfl, ?_⟩
  simp [emitBytesAlloc, nsteps, nstep, hs, NState.set, NState.word, callFn, ha, headerSize, refcountOffset,
    rttiOffset, hlm, h1, h2, h3, h4, h5, h6, h7, after]

theorem after_other {m : Mem} {a d len x : Nat} (h : x < a ∨ a + 24 ≤ x) : after m a d len x = m x := by
  unfold after
  rw [Rtti.storeN_other (by omega), Rtti.storeN_other (by omega), Rtti.storeN_other (by omega),
    Rtti.storeN_other (by omega)]

theorem load_after {m : Mem} {a v n b w k : Nat} (h : b + k ≤ a ∨ a + n ≤ b) (hw : loadN m b k = w) :
    loadN (storeN m a v n) b k = w := by
  rw [← hw]
  exact Rtti.loadN_congr _ _ fun x h1 h2 => Rtti.storeN_other (by omega)

theorem after_len {m : Mem} {a d len : Nat} (hl : len < 2 ^ 64) : loadN (after m a d len) (a + 16) 8 = len :=
  Rtti.loadN_storeN _ _ _ _ (by omega)

theorem after_ptr {m : Mem} {a d len : Nat} (hd : d < 2 ^ 64) : loadN (after m a d len) (a + 8) 8 = d :=
  load_after (by omega) (Rtti.loadN_storeN _ _ _ _ (by omega))

theorem after_rtti {m : Mem} {a d len : Nat} : loadN (after m a d len) (a + 4) 4 = 0 :=
  load_after (by omega) (load_after (by omega) (Rtti.loadN_storeN _ _ _ _ (by omega)))

theorem after_count {m : Mem} {a d len : Nat} : loadN (after m a d len) a 4 = 1 :=
  load_after (by omega) (load_after (by omega) (load_after (by omega)
    (Rtti.loadN_storeN _ _ _ _ (by omega))))

/-- The code of a literal, when no function of the program has a name of the compiler. -/
theorem makes {img : Image} {rodata : List (String × List UInt8)} {i : Nat} {c : List UInt8}
    (hn : Spec.NoClash img) (hm : (rodataName i, c) ∈ rodata) {m : Mem} (hL : Spec.Loaded img rodata m)
    (hA : Spec.GoodAlloc img rodata m) (rest : List Clif) :
    ∃ s p, s.regs 9 = some (.word p) ∧
      nsteps img rodata ⟨fun _ => none, m⟩ (emitBytesAlloc (rodataName i) c.length ++ rest) =
        nsteps img rodata s rest ∧
      Spec.BytesAt s.mem p c ∧ Spec.NewObject m s.mem p ∧ Spec.Loaded img rodata s.mem := by
  obtain ⟨l1, l2, l3⟩ := hL _ _ hm
  have hne : rodataName i ≠ allocFn := by
    intro he
    have h1 := congrArg (fun s => s.toList.drop 10) he
    simp [rodataName, allocFn] at h1
  have hs : symbolAddr img rodata (rodataName i) = some (img.dataAt (rodataName i)) := by
    have h1 : rodataName i ∉ img.funcs := hn.2 i
    have h2 : rodataName i ∈ rodata.map (·.1) := List.mem_map.2 ⟨_, hm, rfl⟩
    unfold symbolAddr
    rw [if_neg (by simp [h1, hne]), if_pos (by simpa using h2)]
  obtain ⟨s, h1, h2, h3⟩ := emit_runs hs hn.1 l2 (show c.length < 2 ^ 64 by
    rcases Nat.lt_or_ge c.length (2 ^ 64) with h | h
    · exact h
    · exact absurd (hA.2 _ _ hm) (by have := hA.1; omega)) hA.1 rest
  have hlen : c.length < 2 ^ 64 := by
    have := hA.2 _ _ hm
    have := hA.1
    omega
  have hL' : Spec.Loaded img rodata s.mem := by
    intro n c' hc
    obtain ⟨q1, q2, q3⟩ := hL n c' hc
    refine ⟨q1, q2, fun k hk => ?_⟩
    rw [h1, after_other, q3 k hk]
    have := hA.2 n c' hc
    omega
  refine ⟨s, _, h2, h3, ⟨?_, ?_⟩, ⟨by omega, ?_, ?_, ?_⟩, hL'⟩
  · rw [h1, Nat.add_assoc]
    exact after_len hlen
  · intro k hk
    have hp : loadN s.mem (img.allocate 24 m + 8) 8 = img.dataAt (rodataName i) := by
      rw [h1]; exact after_ptr l2
    rw [hp]
    exact (hL' _ _ hm).2.2 k hk
  · rw [h1, Nat.add_sub_cancel]
    exact after_count
  · rw [h1, show img.allocate 24 m + 8 - 4 = img.allocate 24 m + 4 by omega]
    exact after_rtti
  · intro x hx
    rw [h1]
    exact after_other (by omega)

/-- A name that was seen is a name for data. -/
theorem seen_name {c : NCol} {done : List (List UInt8)} (h : NInv c done) {b : List UInt8} (hb : b ∈ done) :
    ∃ i : Nat, c.seen b = some (rodataName i) ∧ (rodataName i, b) ∈ c.rodata := by
  rw [← h.all] at hb
  obtain ⟨⟨n, b'⟩, hm, rfl⟩ := List.mem_map.1 hb
  have hn : n ∈ c.rodata.map (·.1) := List.mem_map.2 ⟨_, hm, rfl⟩
  rw [h.names] at hn
  obtain ⟨i, _, rfl⟩ := List.mem_map.1 hn
  exact ⟨i, (h.seen _ _).2 hm, hm⟩

section
variable {c : NCol} {done : List (List UInt8)} (h : NInv c done) (known : Bool)
include h

mutual
theorem lowerNOp_means {img : Image} (hn : Spec.NoClash img) : ∀ (op : Op),
    (∀ b ∈ Spec.contentsOf op, b ∈ done) → (Spec.hasStringOp op = true → known = true) →
    Spec.NMeans img c.rodata op (lowerNOp c.seen known op)
  | .string t, hd, hk => by
    obtain ⟨i, h1, h2⟩ := seen_name h (hd (utf8 t) (by simp [Spec.contentsOf]))
    rw [lowerNOp, h1]
    simp only [hk rfl, if_true]
    refine .string fun m hL hA => ?_
    obtain ⟨s, p, h3, h4, h5, h6, h7⟩ := makes hn h2 hL hA [.leaf 10 9]
    refine ⟨p, s.mem, ?_, h5, h6, h7⟩
    rw [nrun, h4]
    simp [nsteps, nstep, NState.word, h3, NState.set]
  | .bytes b, hd, hk => by
    obtain ⟨i, h1, h2⟩ := seen_name h (hd b (by simp [Spec.contentsOf]))
    rw [lowerNOp, h1]
    refine .bytes fun m hL hA => ?_
    obtain ⟨s, p, h3, h4, h5, h6, h7⟩ := makes hn h2 hL hA []
    refine ⟨p, s.mem, ?_, h5, h6, h7⟩
    rw [List.append_nil] at h4
    rw [nrun, h4]
    simp [nsteps, h3]
  | .other id body, hd, hk => by
    rw [lowerNOp]
    exact .other (lowerN_means hn body (by simpa [Spec.contentsOf] using hd)
      (by simpa [Spec.hasStringOp] using hk))

theorem lowerN_means {img : Image} (hn : Spec.NoClash img) : ∀ (ops : List Op),
    (∀ b ∈ Spec.contents ops, b ∈ done) → (Spec.hasString ops = true → known = true) →
    Spec.NMeansAll img c.rodata ops (lowerN c.seen known ops)
  | [], _, _ => .nil
  | op :: ops, hd, hk => by
    simp only [Spec.contents, List.mem_append] at hd
    simp only [Spec.hasString, Bool.or_eq_true] at hk
    rw [lowerN]
    exact .cons (lowerNOp_means hn op (fun b hm => hd b (.inl hm)) (fun hs => hk (.inl hs)))
      (lowerN_means hn ops (fun b hm => hd b (.inr hm)) (fun hs => hk (.inr hs)))
end

mutual
theorem kept_op : ∀ (op : Op), (∀ b ∈ Spec.contentsOf op, b ∈ done) →
    (lowerNOp c.seen known op).anyKept = (!known && Spec.hasStringOp op)
  | .string t, hd => by
    obtain ⟨i, h1, h2⟩ := seen_name h (hd (utf8 t) (by simp [Spec.contentsOf]))
    rw [lowerNOp, h1]
    cases known <;> rfl
  | .bytes b, hd => by
    obtain ⟨i, h1, h2⟩ := seen_name h (hd b (by simp [Spec.contentsOf]))
    rw [lowerNOp, h1]
    cases known <;> rfl
  | .other id body, hd => by
    rw [lowerNOp, NCode.anyKept, Spec.hasStringOp]
    exact kept_ops body (by simpa [Spec.contentsOf] using hd)

theorem kept_ops : ∀ (ops : List Op), (∀ b ∈ Spec.contents ops, b ∈ done) →
    anyKeptL (lowerN c.seen known ops) = (!known && Spec.hasString ops)
  | [], _ => by simp [lowerN, anyKeptL, Spec.hasString]
  | op :: ops, hd => by
    simp only [Spec.contents, List.mem_append] at hd
    rw [lowerN, anyKeptL, kept_op op (fun b hm => hd b (.inl hm)), kept_ops ops (fun b hm => hd b (.inr hm)),
      Spec.hasString]
    cases known <;> simp
end
end

/-- When a module compiles and what comes out. -/
theorem compileNative_eq (sty : Bool) (ops : List Op) (hs : (Spec.contents ops).length < 2 ^ 32) :
    compileNative sty ops = if Spec.hasString ops && !sty then .error .leftOver else
      .ok ((walk NCol.visit NCol.new ops).rodata, lowerN (walk NCol.visit NCol.new ops).seen
        (Spec.hasString ops && sty) ops) := by
  obtain ⟨h1, h2⟩ := native_col ops hs
  simp only [compileNative]
  rw [kept_ops h1 _ ops (fun _ h => h), h2]
  cases Spec.hasString ops <;> cases sty <;> rfl

end Verif.Const
