import Verif.Fields.Step
/-!
# C89: values of declared types come back unchanged on the native target
-/
namespace Verif.Fields
open Verif.Layout Verif.Rtti

theorem step_ok {idx : Decl → UInt32} {a : Nat} (ha : a < 2 ^ 63) {m0 : Mem} {Γ : Nat → Option Ty} {σ σ' : AState}
    {s : CState} (hs : Shape Γ σ s) {act : Act} (hok : ActOk Γ act) (h : astep σ act = some σ') :
    StepOk idx a m0 Γ σ σ' s act := by
  cases act with
  | const d ty v => cases h; exact const_ok hs d ty v hok
  | new d decl k args =>
    obtain ⟨hd, tys, h1, h2⟩ := hok
    simp only [astep, Option.bind_eq_some_iff, Option.some.injEq] at h
    obtain ⟨vals, hv, rfl⟩ := h
    exact new_ok ha hs hd h1 h2 hv
  | get d r name fields i ty =>
    obtain ⟨hd, f, h1, h2⟩ := hok
    simp only [astep, Option.bind_eq_some_iff] at h
    obtain ⟨o, ho, h⟩ := h
    split at h
    · rename_i hdecl
      simp only [Option.map_eq_some_iff] at h
      obtain ⟨v, hv, rfl⟩ := h
      exact get_ok hs hd h1 h2 ho hdecl hv
    · cases h
  | set r v name fields i =>
    obtain ⟨hd, f, u, h1, h2, h3⟩ := hok
    simp only [astep, Option.bind_eq_some_iff] at h
    obtain ⟨o, ho, x, hx, h⟩ := h
    split at h
    · rename_i hdecl
      cases h
      exact set_ok hs hd h1 h2 h3 ho hx hdecl.1 hdecl.2
    · cases h
  | is d r name variants tag =>
    obtain ⟨hd, h1⟩ := hok
    simp only [astep, Option.bind_eq_some_iff] at h
    obtain ⟨o, ho, h⟩ := h
    split at h
    · rename_i hdecl
      simp only [Option.map_eq_some_iff] at h
      obtain ⟨v, hv, rfl⟩ := h
      exact is_ok hs hd h1 ho hdecl hv
    · cases h
  | vget d r name variants tag i ty =>
    obtain ⟨hd, h1⟩ := hok
    simp only [astep, Option.bind_eq_some_iff] at h
    obtain ⟨o, ho, h⟩ := h
    split at h
    · rename_i hdecl
      simp only [Option.map_eq_some_iff] at h
      obtain ⟨v, hv, rfl⟩ := h
      exact vget_ok hs hd h1 ho hdecl.1 hdecl.2 hv
    · cases h
  | null d => cases h; exact null_ok hs d
  | isNull d r ty =>
    simp only [astep] at h
    split at h
    · rename_i hv
      cases h
      exact isNull_ok hs d r hok hv (Or.inl ⟨rfl, rfl⟩)
    · rename_i id hv
      cases h
      exact isNull_ok hs d r hok hv (Or.inr ⟨id, rfl, rfl⟩)
    · cases h
  | cast d r =>
    simp only [astep, Option.map_eq_some_iff] at h
    obtain ⟨v, hv, rfl⟩ := h
    exact cast_ok hs d r hv

theorem run_ok {idx : Decl → UInt32} {addrs : Nat → Nat} (ha : ∀ i, addrs i < 2 ^ 63) {m0 : Mem} :
    ∀ {p : List Act} {Γ : Nat → Option Ty} {σ σ' : AState} {s : CState}, Shape Γ σ s → ProgramOk Γ p →
      arun σ p = some σ' → ∃ s', crun idx addrs s p = some s' ∧ s'.blocks.length = σ'.heap.length ∧
        (∀ d v, σ'.regs d = some v → ∃ r, s'.regs d = some r) ∧ (∃ more, s'.blocks = s.blocks ++ more) ∧
        (Separate s'.blocks → Holds idx m0 σ s → Holds idx m0 σ' s')
  | [], Γ, σ, σ', s, hs, _, h => by
    cases h
    refine ⟨s, rfl, hs.blocks, fun d v hv => ?_, ⟨[], by simp⟩, fun _ hh => hh⟩
    obtain ⟨r, h1, _⟩ := hs.types d v hv
    exact ⟨r, h1⟩
  | act :: p, Γ, σ, σ', s, hs, hp, h => by
    simp only [arun, Option.bind_eq_some_iff] at h
    obtain ⟨σ1, h1, h2⟩ := h
    obtain ⟨s1, c1, c2, ⟨m1, c3⟩, c4⟩ := step_ok (idx := idx) (m0 := m0) (ha s.blocks.length) hs hp.1 h1
    obtain ⟨s2, e1, e2, e3, ⟨m2, e4⟩, e5⟩ := run_ok (idx := idx) ha (m0 := m0) c2 hp.2 h2
    refine ⟨s2, by rw [crun, c1, Option.bind_some, e1], e2, e3, ⟨m1 ++ m2, by rw [e4, c3, List.append_assoc]⟩,
      fun hsep hh => e5 hsep (c4 ?_ hh)⟩
    rw [e4] at hsep
    exact (List.pairwise_append.mp hsep).1

/-- C89, for well-typed programs. Take any sequence of operations on values of declared types that makes
sense on plain objects, in which a value is stored into a field, and a struct's field is read, with the
width of the field. The compiled operations run to the end, wherever the allocator puts the blocks. If the
blocks do not overlap, then at the end every value is the one computed on plain objects: what was last
stored in a field is what is read from it, a variant test tells the variant the value was built with, null
is null and references are not. Each object still has count 1 and its type's index, and memory outside the
blocks is untouched.

What is missing: struct reads of another width, which record expressions with a base contain
(`C89_update_violated`). -/
theorem C89_values_partial (idx : Decl → UInt32) (addrs : Nat → Nat) (ha : ∀ i, addrs i < 2 ^ 63) (m0 : Mem)
    (p : List Act) (hp : ProgramOk (fun _ => none) p) (σ : AState) (h : arun .init p = some σ) :
    ∃ s, crun idx addrs (.init m0) p = some s ∧ (Separate s.blocks → Agrees idx m0 σ s) := by
  obtain ⟨s, h1, h2, h3, _, h4⟩ := run_ok (idx := idx) (m0 := m0) ha (s := .init m0)
    ⟨rfl, fun d v hv => by cases hv⟩ hp h
  refine ⟨s, h1, fun hsep => ?_⟩
  have hh := h4 hsep (Holds.mk (fun d v r (hv : AState.init.regs d = some v) => by simp [AState.init] at hv)
    (fun id o b (ho : AState.init.heap[id]? = some o) => by simp [AState.init] at ho) (fun _ _ => rfl))
  refine ⟨h2, fun d v hv => ?_, fun id o b ho hb => ?_, hh.outside⟩
  · obtain ⟨r, hr⟩ := h3 d v hv
    exact ⟨r, hr, hh.values d v r hv hr⟩
  · have := hh.objs id o b ho hb
    exact ⟨by rw [this.size]; omega, this.count, this.index⟩

/-! ## A program -/

def int : Ty := ⟨"tribute_rt", "int"⟩
def float : Ty := ⟨"tribute_rt", "float"⟩
def list : Ty := ⟨"adt", "List"⟩

/-- `struct Point { x: Int, w: Float, y: Int }` -/
def pointFields : List (String × Ty) := [("x", int), ("w", float), ("y", int)]
/-- `enum List { Nil, Cons(Int, List) }` -/
def listVariants : List (String × List Ty) := [("Nil", []), ("Cons", [int, list])]

/-- Build a point, change a field and read it and its neighbour; build a list of one element, take it
apart; test its end for null. -/
def sample : List Act :=
  [ .const 0 int 7, .const 1 float 4611686018427387904, .const 2 int 9,
    .new 3 (.struct "Point" pointFields) 0 [0, 1, 2],
    .set 3 2 "Point" pointFields 0,
    .get 4 3 "Point" pointFields 0 int,
    .get 5 3 "Point" pointFields 1 float,
    .null 6,
    .new 7 (.enum "List" listVariants) 1 [4, 6],
    .is 8 7 "List" listVariants "Cons",
    .is 9 7 "List" listVariants "Nil",
    .vget 10 7 "List" listVariants "Cons" 0 int,
    .vget 11 7 "List" listVariants "Cons" 1 list,
    .isNull 12 11 ⟨"core", "i1"⟩,
    .isNull 13 7 ⟨"core", "i1"⟩ ]

theorem sample_ok : ProgramOk (fun _ => none) sample := by
  have s1 : Sized (.struct "Point" pointFields) := by show _ < _; decide
  have s2 : Sized (.enum "List" listVariants) := ⟨by decide, by decide, by decide⟩
  simp only [sample, ProgramOk, ActOk, typed, resultTy]
  refine ⟨by decide, by decide, by decide, ⟨s1, _, rfl, ?_⟩, ⟨s1, _, _, rfl, rfl, by decide⟩,
    ⟨s1, _, rfl, by decide⟩, ⟨s1, _, rfl, by decide⟩, trivial, ⟨s2, _, rfl, ?_⟩, ⟨s2, by decide⟩, ⟨s2, by decide⟩,
    ⟨s2, ("Cons", [int, list]), by decide, rfl, by decide⟩, ⟨s2, ("Cons", [int, list]), by decide, rfl, by decide⟩,
    by unfold isInteger; decide, by unfold isInteger; decide, trivial⟩
  · exact .cons ⟨_, rfl, by decide⟩ (.cons ⟨_, rfl, by decide⟩ (.cons ⟨_, rfl, by decide⟩ .nil))
  · exact .cons ⟨_, rfl, by decide⟩ (.cons ⟨_, rfl, by decide⟩ .nil)

example : ∃ σ, arun .init sample = some σ ∧ σ.regs 4 = some (.word 9) ∧
    σ.regs 5 = some (.word 4611686018427387904) ∧ σ.regs 8 = some (.word 1) ∧ σ.regs 9 = some (.word 0) ∧
    σ.regs 10 = some (.word 9) ∧ σ.regs 11 = some .null ∧ σ.regs 12 = some (.word 1) ∧
    σ.regs 13 = some (.word 0) := ⟨_, rfl, rfl, rfl, rfl, rfl, rfl, rfl, rfl, rfl⟩

/-- The same program on the machine, the second block below the first. -/
example : ((crun (fun _ => 40) (fun i => 100000 - 32 * i) (.init fun _ => 255) sample).map fun s =>
    (s.blocks, [4, 5, 8, 9, 10, 11, 12, 13].map fun d => (s.regs d).map (·.val))) =
    some ([(100000, 32), (99968, 32)],
      [some 9, some 4611686018427387904, some 1, some 0, some 9, some 0, some 1, some 0]) := by
  decide +kernel

/-! ## Record expressions with a base -/

/-- The record a record expression with a base denotes: the given fields, the others from the base. -/
def updated (given : String → Option Nat) (regs : Nat → Option Val) : List String → List Val → List Val → Prop
  | [], [], [] => True
  | f :: fs, b :: bs, v :: vs =>
    (match given f with
      | some r => regs r = some v
      | none => v = b) ∧ updated given regs fs bs vs
  | _, _, _ => False

theorem spread_run {name : String} {fields : List (String × Ty)} {given : String → Option Nat} {base : Nat} {id : Nat}
    {o : Obj} (hdecl : o.decl = .struct name fields) :
    ∀ (fs : List String) (bs : List Val) (i next : Nat) (σ : AState), σ.regs base = some (.ref id) →
      σ.heap[id]? = some o → bs = o.fields.drop i → fs.length = bs.length → base < next →
      (∀ f r, given f = some r → r < next ∧ (σ.regs r).isSome) →
      ∃ σ' vals, arun σ (spreadFields name fields given base i next fs).1 = some σ' ∧ σ'.heap = σ.heap ∧
        (∀ n, n < next → σ'.regs n = σ.regs n) ∧
        (spreadFields name fields given base i next fs).2.mapM σ'.regs = some vals ∧
        updated given σ.regs fs bs vals
  | [], [], i, next, σ, _, _, _, _, _, _ => ⟨σ, [], rfl, rfl, fun _ _ => rfl, rfl, trivial⟩
  | [], _ :: _, _, _, _, _, _, _, hl, _, _ => by simp at hl
  | _ :: _, [], _, _, _, _, _, _, hl, _, _ => by simp at hl
  | f :: fs, b :: bs, i, next, σ, hb, ho, hbs, hl, hn, hg => by
    have hbs' : bs = o.fields.drop (i + 1) := by
      have := congrArg List.tail hbs
      simpa using this
    have hi : o.fields[i]? = some b := by
      have := congrArg (fun l => l[0]?) hbs
      simpa using this.symm
    cases hgf : given f with
    | some r =>
      obtain ⟨hr1, hr2⟩ := hg f r hgf
      obtain ⟨v, hv⟩ := Option.isSome_iff_exists.mp hr2
      obtain ⟨σ', vals, h1, h2, h3, h4, h5⟩ := spread_run (given := given) (base := base) hdecl fs bs (i + 1) next σ
        hb ho hbs' (by simpa using hl) hn hg
      refine ⟨σ', v :: vals, ?_, h2, h3, ?_, ?_⟩
      · simp only [spreadFields, hgf]; exact h1
      · simp only [spreadFields, hgf, List.mapM_cons, h3 r hr1, hv, h4]; rfl
      · simp only [updated, hgf]; exact ⟨hv, h5⟩
    | none =>
      have hne : ∀ n, n < next → n ≠ next := fun n h => by omega
      obtain ⟨σ', vals, h1, h2, h3, h4, h5⟩ := spread_run (given := given) (base := base) hdecl fs bs (i + 1)
        (next + 1) (σ.bindReg next b) (by simp [AState.bindReg, hne base hn, hb]) ho hbs' (by simpa using hl)
        (by omega) (fun f' r' h => by
          obtain ⟨q1, q2⟩ := hg f' r' h
          exact ⟨by omega, by simp [AState.bindReg, hne r' q1, q2]⟩)
      refine ⟨σ', b :: vals, ?_, h2, fun n hlt => ?_, ?_, ?_⟩
      · have hstep : astep σ (.get next base name fields i ⟨"tribute_rt", "anyref"⟩) = some (σ.bindReg next b) := by
          simp [astep, AState.deref, hb, ho, hdecl, hi]
        simp only [spreadFields, hgf, arun, hstep, Option.bind_some]
        exact h1
      · rw [h3 n (by omega)]; simp [AState.bindReg, hne n hlt]
      · have : σ'.regs next = some b := by rw [h3 next (by omega)]; simp [AState.bindReg]
        simp only [spreadFields, hgf, List.mapM_cons, this, h4]; rfl
      · simp only [updated, hgf]
        refine ⟨trivial, ?_⟩
        have key : ∀ (fs : List String) (bs vs : List Val), updated given (σ.bindReg next b).regs fs bs vs →
            updated given σ.regs fs bs vs := by
          intro fs
          induction fs with
          | nil =>
            intro bs vs h
            cases bs with
            | nil =>
              cases vs with
              | nil => trivial
              | cons => exact h
            | cons => exact h
          | cons g gs ih =>
            intro bs vs h
            cases bs with
            | nil => exact h
            | cons b' bs =>
              cases vs with
              | nil => exact h
              | cons v' vs =>
                refine ⟨?_, ih bs vs h.2⟩
                have := h.1
                cases hgg : given g with
                | none => simp only [hgg] at this ⊢; exact this
                | some r =>
                  simp only [hgg] at this ⊢
                  simp only [AState.bindReg, hne r (hg g r hgg).1, if_false] at this
                  exact this
        exact key fs bs vals h5

theorem spread_ok {name : String} {fields : List (String × Ty)} (hd : Sized (.struct name fields))
    {given : String → Option Nat} {base : Nat} :
    ∀ (fs : List (String × Ty)) (i next : Nat) (Γ : Nat → Option Ty), fs = fields.drop i →
      (∀ f r, given f = some r → r < next) →
      (∀ f ∈ fs, match given f.1 with
        | some r => ∃ u, Γ r = some u ∧ SameSize u f.2
        | none => fieldSize nativeConv f.2 = 8) →
      ∀ rest, (∀ Γ', (∀ n, n < next → Γ' n = Γ n) →
          List.Forall₂ (fun r t => ∃ u, Γ' r = some u ∧ SameSize u t)
            (spreadFields name fields given base i next (fs.map (·.1))).2 (fs.map (·.2)) → ProgramOk Γ' rest) →
        ProgramOk Γ ((spreadFields name fields given base i next (fs.map (·.1))).1 ++ rest)
  | [], i, next, Γ, _, _, _, rest, hr => hr Γ (fun _ _ => rfl) .nil
  | f :: fs, i, next, Γ, hfs, hlt, hg, rest, hr => by
    have hfs' : fs = fields.drop (i + 1) := by
      have := congrArg List.tail hfs
      simpa using this
    have hi : fields[i]? = some f := by
      have := congrArg (fun l => l[0]?) hfs
      simpa using this.symm
    have hf := hg f List.mem_cons_self
    have hg' := fun f' h => hg f' (List.mem_cons_of_mem _ h)
    cases hgf : given f.1 with
    | some r =>
      simp only [hgf] at hf
      obtain ⟨u, hu1, hu2⟩ := hf
      simp only [List.map_cons, spreadFields, hgf] at hr ⊢
      refine spread_ok hd fs (i + 1) next Γ hfs' hlt hg' rest fun Γ' h1 h2 => hr Γ' h1 (.cons ⟨u, ?_, hu2⟩ h2)
      rw [h1 r (hlt _ r hgf)]; exact hu1
    | none =>
      simp only [hgf] at hf
      simp only [List.map_cons, spreadFields, hgf, List.cons_append] at hr ⊢
      refine ⟨⟨hd, f, hi, ?_⟩, ?_⟩
      · show fieldSize nativeConv ⟨"tribute_rt", "anyref"⟩ = _
        rw [hf]; decide
      · simp only [typed, resultTy]
        refine spread_ok hd fs (i + 1) (next + 1) _ hfs' (fun f r h => by have := hlt f r h; omega)
          (fun f' h => ?_) rest fun Γ' h1 h2 => hr Γ' (fun n hn => ?_) (.cons ⟨⟨"tribute_rt", "anyref"⟩, ?_, ?_⟩ h2)
        · have := hg' f' h
          split at this
          · rename_i r hr'
            obtain ⟨u, h1, h2⟩ := this
            refine ⟨u, ?_, h2⟩
            have := hlt _ r hr'
            rw [if_neg (by omega)]; exact h1
          · exact this
        · rw [h1 n (by omega), if_neg (by omega)]
        · rw [h1 next (by omega), if_pos rfl]
        · show fieldSize nativeConv ⟨"tribute_rt", "anyref"⟩ = _
          rw [hf]; decide

/-- C89, for record expressions with a base whose copied fields are all eight bytes wide: the expression
is a well-typed program, which makes a new object with the given fields and the base's others.

What is missing: narrower copied fields, for which it fails (`C89_update_violated`). -/
theorem C89_update_partial (Γ : Nat → Option Ty) (σ : AState) (d base next : Nat) (name : String)
    (fields : List (String × Ty)) (hd : Sized (.struct name fields)) (given : String → Option Nat) (id : Nat) (o : Obj)
    (hb : σ.regs base = some (.ref id)) (ho : σ.heap[id]? = some o) (hdecl : o.decl = .struct name fields)
    (hlen : o.fields.length = fields.length) (hbn : base < next)
    (hgiven : ∀ f r, given f = some r → r < next ∧ (σ.regs r).isSome)
    (hw : ∀ f ∈ fields, match given f.1 with
        | some r => ∃ u, Γ r = some u ∧ SameSize u f.2
        | none => fieldSize nativeConv f.2 = 8) :
    ProgramOk Γ (recordUpdate d name fields given base next) ∧
    ∃ σ' vals, arun σ (recordUpdate d name fields given base next) = some σ' ∧
      σ'.heap = σ.heap ++ [⟨.struct name fields, 0, vals⟩] ∧ σ'.regs d = some (.ref σ.heap.length) ∧
      updated given σ.regs (fields.map (·.1)) o.fields vals := by
  constructor
  · refine spread_ok hd fields 0 next Γ rfl (fun f r h => (hgiven f r h).1) hw _ fun Γ' h1 h2 => ?_
    exact ⟨⟨hd, _, rfl, h2⟩, trivial⟩
  · obtain ⟨σ', vals, h1, h2, h3, h4, h5⟩ := spread_run (given := given) (base := base) hdecl (fields.map (·.1))
      o.fields 0 next σ hb ho (by simp) (by simp [hlen]) hbn hgiven
    have happ : ∀ (p q : List Act) (σ : AState), arun σ (p ++ q) = (arun σ p).bind fun σ' => arun σ' q := by
      intro p
      induction p with
      | nil => intro q σ; rfl
      | cons a p ih =>
        intro q σ
        simp only [List.cons_append, arun]
        cases astep σ a with
        | none => rfl
        | some σ1 => exact ih q σ1
    refine ⟨({ σ' with heap := σ'.heap ++ [⟨.struct name fields, 0, vals⟩] } : AState).bindReg d
      (.ref σ'.heap.length), vals, ?_, ?_, ?_, h5⟩
    · simp only [recordUpdate, happ, h1, Option.bind_some, arun, astep, h4]
    · simp [AState.bindReg, h2]
    · simp [AState.bindReg, h2]

/-- `struct Pair { a: List, b: Float, c: List }`: replacing the float. -/
example : (∀ f ∈ [("a", list), ("b", float), ("c", list)],
    match (fun f => if f = "b" then some 1 else none : String → Option Nat) f.1 with
      | some r => ∃ u, (fun n => if n = 1 then some float else none : Nat → Option Ty) r = some u ∧ SameSize u f.2
      | none => fieldSize nativeConv f.2 = 8) := by
  intro f hf
  simp only [List.mem_cons, List.not_mem_nil, or_false] at hf
  rcases hf with rfl | rfl | rfl
  · show fieldSize nativeConv list = 8; decide
  · exact ⟨float, rfl, rfl⟩
  · show fieldSize nativeConv list = 8; decide

/-- `struct Point { x: Int, y: Int }` -/
def xy : List (String × Ty) := [("x", int), ("y", int)]

/-- `let p = Point { x: 1, y: 2 }; let q = Point { x: 100, ..p }` -/
def update : List Act :=
  [.const 0 int 1, .const 1 int 2, .new 2 (.struct "Point" xy) 0 [0, 1], .const 3 int 100] ++
    recordUpdate 4 "Point" xy (fun f => if f = "x" then some 3 else none) 2 5

/-- C89 is false of record expressions with a base: the copied fields are read and stored as eight bytes,
whatever their types. With two `Int` fields, the store of the copied field ends four bytes after the end of
the new object: the blocks do not overlap and lie below 2^63, and on plain objects the program makes sense,
but the object that lies behind the new one — here the base — loses its count. -/
theorem C89_update_violated :
    (∃ σ, arun .init update = some σ ∧ σ.heap[1]? = some ⟨.struct "Point" xy, 0, [.word 100, .word 2]⟩) ∧
    (crun (fun _ => 40) (fun i => 1016 - 16 * i) (.init fun _ => 0) update).map (fun s =>
      (s.blocks, loadN s.mem 1016 4)) = some ([(1016, 16), (1000, 16)], 0) ∧
    Separate [(1016, 16), (1000, 16)] ∧
    ¬ ∃ s σ, crun (fun _ => 40) (fun i => 1016 - 16 * i) (.init fun _ => 0) update = some s ∧
      arun .init update = some σ ∧ Agrees (fun _ => 40) (fun _ => 0) σ s := by
  have h2 : (crun (fun _ => 40) (fun i => 1016 - 16 * i) (.init fun _ => 0) update).map (fun s =>
      (s.blocks, loadN s.mem 1016 4)) = some ([(1016, 16), (1000, 16)], 0) := by decide +kernel
  refine ⟨⟨_, rfl, rfl⟩, h2, by simp [Separate], ?_⟩
  rintro ⟨s, σ, hs, hσ, hag⟩
  rw [hs] at h2
  simp only [Option.map_some, Option.some.injEq, Prod.mk.injEq] at h2
  have ho : ∃ o, σ.heap[0]? = some o := by
    have : arun .init update = some _ := rfl
    rw [this] at hσ
    cases hσ
    exact ⟨_, rfl⟩
  obtain ⟨o, ho⟩ := ho
  have := (hag.headers 0 o (1016, 16) ho (by rw [h2.1]; rfl)).2.1
  simp only at this
  omega

end Verif.Fields
