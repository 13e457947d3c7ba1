import Verif.Report.Proofs

/-
C95: when the compiler finds an error it says so, ends with a failure status and writes no program;
when it finds none, it writes a program that does what the source says.
C96: reports come in a fixed order and mark the text they are about.
-/

namespace Verif.Report

open Spec

/-! ### C95 -/

/-- Whatever the target: an error that the front end found is reported, the status is a failure and
nothing is written. -/
theorem C95_frontError (target : Target) (front : Front) (backend : Backend) (written : Bool)
    (d : Diag) (hd : d ∈ front.diags) (he : d.severity = .error) :
    (compileFile target front backend written).status = 1 ∧
    (compileFile target front backend written).output = none ∧
    d ∈ (compileFile target front backend written).reports := by
  have ha : front.diags.any Diag.isError = true :=
    List.any_eq_true.mpr ⟨d, hd, by simp [Diag.isError, he]⟩
  have hne : front.diags ≠ [] := List.ne_nil_of_mem hd
  have hm : d ∈ sortDiags front.diags := (sortDiags_perm _).mem_iff.mpr hd
  have hsn : sortDiags front.diags ≠ [] := List.ne_nil_of_mem hm
  cases target <;>
    simp [compileFile, compileBinary, ha, reportDiagnostics, hne, collectDiagnostics, hsn, hm]

/-- Checking only: every error is reported, also those found while lowering. -/
theorem C95_check (front : Front) (backend : Backend) (written : Bool) (d : Diag)
    (hd : d ∈ front.diags ∨
      (∀ x ∈ front.diags, x.severity ≠ .error) ∧ d ∈ (lowerMain front.main).diags) :
    (compileFile .check front backend written).status = 1 ∧
    (compileFile .check front backend written).output = none ∧
    d ∈ (compileFile .check front backend written).reports := by
  have hm : d ∈ collectDiagnostics front := by
    unfold collectDiagnostics
    split
    · next ha =>
      obtain ⟨x, hx, he⟩ := List.any_eq_true.mp ha
      rcases hd with hd | ⟨hn, _⟩
      · exact hd
      · exact absurd (by simpa [Diag.isError] using he) (hn x hx)
    · rcases hd with hd | ⟨_, hd⟩
      · exact List.mem_append_left _ hd
      · exact List.mem_append_right _ hd
  have hm' : d ∈ sortDiags (collectDiagnostics front) := (sortDiags_perm _).mem_iff.mpr hm
  simp [compileFile, List.ne_nil_of_mem hm', hm']

/-- Compiling a program with nothing wrong in it, without warnings, succeeds, and what is written
does what the source says. Missing from the full property: programs with errors that only lowering
finds; see the two theorems below. -/
theorem C95_sound_partial (target : Target) (htarget : target ≠ .check) (front : Front)
    (backend : Backend) (hfront : ∀ d ∈ front.diags, d.severity ≠ .error)
    (hbackend : ∀ p, backend p = none) (hsound : Sound [] front.main) :
    (∀ d, ¬ Found front d) ∧
    ∃ p, compileFile target front backend true = ⟨0, some p, []⟩ ∧
      ∀ w : World, ∃ o, eval w [] front.main [] = some o ∧ run w p = some o := by
  have ha : front.diags.any Diag.isError = false := by
    rw [List.any_eq_false]
    intro x hx
    simpa [Diag.isError] using hfront x hx
  refine ⟨fun d hd => ?_, (lowerMain front.main).ops, ?_, fun w => (lowerMain_sound w _ hsound).2⟩
  · have hn := (lowerMain_sound (fun _ => .unit) front.main hsound).1
    rcases hd.2 with h | h
    · exact hfront d h hd.1
    · rw [hn] at h; simp at h
  · cases target
    case check => exact absurd rfl htarget
    all_goals simp only [compileFile, compileBinary, ha, hbackend, Bool.false_eq_true, if_false, if_true]

/-- Checking a program with nothing wrong in it succeeds if there are no warnings either. -/
theorem C95_checkSound_partial (front : Front) (backend : Backend) (written : Bool)
    (hfront : front.diags = []) (hsound : Sound [] front.main) :
    compileFile .check front backend written = ⟨0, none, []⟩ := by
  have hn := (lowerMain_sound (fun _ => .unit) front.main hsound).1
  simp [compileFile, collectDiagnostics, hfront, hn, sortDiags]

/-- A program that calls a function on a literal, and goes on. -/
def bigLiteral (f : String) (n : Nat) : Expr :=
  .block [.expr (.call f [.nat ⟨10, 20⟩ n])] (.call "done" [])

/-- The property fails. Whatever literal above the range a program passes to a function, the
compiler finds the error, but ends with success, prints nothing and writes a program, from which the
call is missing. -/
theorem C95_literal_violated (target : Target) (htarget : target ≠ .check) (backend : Backend)
    (hbackend : ∀ p, backend p = none) (f : String) (n : Nat) (hn : 2 ^ 30 ≤ n) :
    (∃ d, Found ⟨[], bigLiteral f n⟩ d) ∧
    ∃ p, compileFile target ⟨[], bigLiteral f n⟩ backend true = ⟨0, some p, []⟩ ∧
      ∀ w : World,
        eval w [] (bigLiteral f n) [] =
          some (w [(f, [.int n]), ("done", [])], [(f, [.int n]), ("done", [])]) ∧
        run w p = some (w [("done", [])], [("done", [])]) := by
  have hx : i31Max < (n : Int) := by simp only [i31Max]; omega
  have hlow : (lowerMain (bigLiteral f n)) =
      { next := 1, ops := [.call 0 "done" [], .ret 0],
        diags := [{ severity := .error, phase := .lowering, span := ⟨10, 20⟩,
                    message := "natural number literal exceeds i31 range" }] } := by
    simp [lowerMain, bigLiteral, lower, lowerStmts, lowerArgs, hx, St.report, St.emit]
  refine ⟨⟨⟨.error, .lowering, ⟨10, 20⟩, "natural number literal exceeds i31 range", [], none⟩, rfl, .inr ?_⟩, [.call 0 "done" [], .ret 0], ?_, fun w => ⟨?_, ?_⟩⟩
  · simp only [hlow]; exact List.mem_singleton.mpr rfl
  · cases target <;> simp_all [compileFile, compileBinary]
  · simp [bigLiteral, eval, evalStmts, evalArgs]
  · simp [run, exec]

/-- A program that passes a record on, with one of its two fields left out. -/
def missingField : Expr :=
  .call "show" [.record ⟨5, 15⟩ ["x", "y"] [.mk "x" (.nat ⟨9, 10⟩ 1)]]

/-- The property fails. A record expression without one of the fields is an error, but the program
is compiled without a word and passes the unit value on instead. -/
theorem C95_field_violated (target : Target) (htarget : target ≠ .check) (backend : Backend)
    (hbackend : ∀ p, backend p = none) :
    (∃ d, Found ⟨[], missingField⟩ d) ∧
    ∃ p, compileFile target ⟨[], missingField⟩ backend true = ⟨0, some p, []⟩ ∧
      ∀ w : World, run w p = some (w [("show", [.unit])], [("show", [.unit])]) := by
  have hlow : (lowerMain missingField) =
      { next := 3, ops := [.const 0 1, .unit 1, .call 2 "show" [1], .ret 2],
        diags := [{ severity := .error, phase := .lowering, span := ⟨5, 15⟩,
                    message := "missing field" }] } := by
    simp [lowerMain, missingField, lower, lowerFields, lowerArgs, St.report, St.emit, assemble,
      i31Max, List.lookup]
  refine ⟨⟨⟨.error, .lowering, ⟨5, 15⟩, "missing field", [], none⟩, rfl, .inr ?_⟩, [.const 0 1, .unit 1, .call 2 "show" [1], .ret 2], ?_, fun w => ?_⟩
  · simp only [hlow]; exact List.mem_singleton.mpr rfl
  · cases target <;> simp_all [compileFile, compileBinary]
  · simp [run, exec]

/-- The property fails the other way round for checking only: a warning, without any error, ends
with a failure status; compiling the same program succeeds and does not show the warning. -/
theorem C95_warning_violated (backend : Backend) (hbackend : ∀ p, backend p = none) (d : Diag)
    (hd : d.severity = .warning) (e : Expr) (hsound : Sound [] e) :
    (∀ x, ¬ Found ⟨[d], e⟩ x) ∧
    compileFile .check ⟨[d], e⟩ backend true = ⟨1, none, [d]⟩ ∧
    ∃ p, compileFile .native ⟨[d], e⟩ backend true = ⟨0, some p, []⟩ := by
  have hf : ∀ x ∈ (Front.mk [d] e).diags, x.severity ≠ .error := by
    intro x hx
    simp only [List.mem_singleton] at hx
    subst hx
    simp [hd]
  obtain ⟨h1, p, h2, -⟩ := C95_sound_partial .native (by simp) ⟨[d], e⟩ backend hf hbackend hsound
  refine ⟨h1, ?_, p, h2⟩
  have hn := (lowerMain_sound (fun _ => .unit) e hsound).1
  simp [compileFile, collectDiagnostics, Diag.isError, hd, hn, sortDiags, insertDiag]

/-! Cases. -/

/-- An error of the type checker. -/
def typeError : Diag :=
  { severity := .error, phase := .typeChecking, span := ⟨3, 4⟩, message := "type mismatch" }

/-- A warning. -/
def aWarning : Diag :=
  { severity := .warning, phase := .typeChecking, span := ⟨3, 4⟩,
    message := "exhaustiveness check: unable to verify all cases are covered" }

-- the hypotheses of C95_frontError
example : typeError ∈ (Front.mk [aWarning, typeError] .nil).diags ∧ typeError.severity = .error := by
  decide

-- and what it gives
example : compileFile .wasm ⟨[aWarning, typeError], .nil⟩ (fun _ => none) true =
    ⟨1, none, [aWarning, typeError]⟩ := by decide +kernel

-- C95_check on an error found while lowering
example : (lowerMain (bigLiteral "print" 5000000000)).diags.length = 1 := by
  simp [lowerMain, bigLiteral, lower, lowerStmts, lowerArgs, St.report, St.emit, i31Max]

/-- `let p = Point { y: f(2), x: 1 }; show(p)`. -/
def soundProgram : Expr :=
  .block
    [.bind 0 (.record ⟨0, 9⟩ ["x", "y"]
      [.mk "y" (.call "f" [.nat ⟨0, 1⟩ 2]), .mk "x" (.int ⟨2, 4⟩ (-1))])]
    (.call "show" [.var 0])

-- the hypotheses of C95_sound_partial, C95_checkSound_partial and C95_warning_violated
theorem soundProgram_sound : Sound [] soundProgram := by
  simp [soundProgram, Sound, SoundArgs, SoundStmts, SoundFields, fieldNames, scopeAfter]
  intro f
  tauto

example : ∃ p, compileFile .native ⟨[aWarning], soundProgram⟩ (fun _ => none) true =
    ⟨0, some p, []⟩ :=
  let ⟨_, p, h, _⟩ := C95_sound_partial .native (by simp) ⟨[aWarning], soundProgram⟩ (fun _ => none)
    (by simp [aWarning]) (fun _ => rfl) soundProgram_sound
  ⟨p, h⟩

-- what it means: `f(2)` first, then `show`, with the fields in declared order
example (w : World) : eval w [] soundProgram [] =
    some (w [("f", [.int 2]), ("show", [.record [.int (-1), w [("f", [.int 2])]]])],
      [("f", [.int 2]), ("show", [.record [.int (-1), w [("f", [.int 2])]]])]) := by
  simp [soundProgram, eval, evalArgs, evalStmts, evalFields, arrange, List.lookup]

-- an instance of C95_literal_violated
example : ∃ d, Found ⟨[], bigLiteral "print" 5000000000⟩ d :=
  (C95_literal_violated .native (by simp) (fun _ => none) (fun _ => rfl) "print" 5000000000
    (by decide)).1

-- the largest literal is fine
example : Sound [] (bigLiteral "print" 1073741823) := by
  simp [bigLiteral, Sound, SoundArgs, SoundStmts]

/-! ### C96 -/

/-- The reports are a rearrangement of diagnostics found, in order of phase, place and text. -/
theorem C96_sorted (target : Target) (front : Front) (backend : Backend) (written : Bool) :
    (compileFile target front backend written).reports.Pairwise Before := by
  rw [before_eq]
  have h : ∀ l, (reportDiagnostics front l).Pairwise BeforeR := by
    intro l
    unfold reportDiagnostics
    split <;> exact sortDiags_sorted _
  unfold compileFile
  cases target
  case check =>
    simp only
    split
    · exact .nil
    · exact sortDiags_sorted _
  all_goals
    simp only
    split
    · split <;> exact .nil
    · exact h _

/-- The order in which the front end came across its errors does not show: the reports have the
same phases, places and texts, in the same order. -/
theorem C96_stable (target : Target) (ds ds' : List Diag) (e : Expr) (backend : Backend)
    (written : Bool) (hp : List.Perm ds ds') :
    (compileFile target ⟨ds, e⟩ backend written).reports.map key =
      (compileFile target ⟨ds', e⟩ backend written).reports.map key := by
  have hany : ds.any Diag.isError = ds'.any Diag.isError := by
    rw [Bool.eq_iff_iff, List.any_eq_true, List.any_eq_true]
    constructor
    · rintro ⟨x, hx, h⟩; exact ⟨x, hp.mem_iff.mp hx, h⟩
    · rintro ⟨x, hx, h⟩; exact ⟨x, hp.mem_iff.mpr hx, h⟩
  have hsort : ∀ l l' : List Diag, List.Perm l l' →
      (sortDiags l).map key = (sortDiags l').map key := fun l l' h =>
    key_of_keyR <| sorted_keys _ _ ((sortDiags_perm l).trans (h.trans (sortDiags_perm l').symm))
      (sortDiags_sorted _) (sortDiags_sorted _)
  have hcol : List.Perm (collectDiagnostics ⟨ds, e⟩) (collectDiagnostics ⟨ds', e⟩) := by
    unfold collectDiagnostics
    simp only [hany]
    split
    · exact hp
    · exact hp.append_right _
  have hrep : ∀ l l' : List Diag, List.Perm l l' →
      (reportDiagnostics ⟨ds, e⟩ l).map key = (reportDiagnostics ⟨ds', e⟩ l').map key := by
    intro l l' h
    have hnil : l = [] ↔ l' = [] := by
      constructor
      · rintro rfl; exact List.nil_perm.mp h
      · rintro rfl; exact List.perm_nil.mp h
    unfold reportDiagnostics
    by_cases hl : l = []
    · rw [if_neg (by simpa using hl), if_neg (by simpa using hnil.mp hl)]
      exact hsort _ _ hcol
    · rw [if_pos hl, if_pos (fun h' => hl (hnil.mpr h'))]
      exact hsort _ _ h
  have hbin : (compileFile .native ⟨ds, e⟩ backend written).reports.map key =
      (compileFile .native ⟨ds', e⟩ backend written).reports.map key := by
    unfold compileFile compileBinary
    simp only [hany]
    by_cases ha : ds'.any Diag.isError = true
    · simp only [ha, if_true]
      exact hrep _ _ hp
    · simp only [ha, if_false, Bool.false_eq_true]
      cases backend (lowerMain e).ops with
      | none => simp only
      | some msg =>
        simp only
        exact hrep _ _ ((hp.append_right _).append_right _)
  cases target
  case native => exact hbin
  case wasm => exact hbin
  case check =>
    have hk := hsort _ _ hcol
    unfold compileFile
    simp only
    by_cases hl : sortDiags (collectDiagnostics ⟨ds, e⟩) = []
    · have hl' : sortDiags (collectDiagnostics ⟨ds', e⟩) = [] := by
        rw [hl] at hk
        simpa using hk.symm
      simp [hl, hl']
    · have hl' : ¬ sortDiags (collectDiagnostics ⟨ds', e⟩) = [] := by
        intro h
        rw [h] at hk
        exact hl (by simpa using hk)
      simp only [hl, hl', if_false]
      exact hk

/-- In a source that is ASCII up to the end of the span, the text at the span is underlined, and the
line shown is its line. Missing from the full property: other sources; see below. -/
theorem C96_marks_partial (text pre s : List Char) (d : Diag) (hat : At text pre s d.span)
    (hs : s ≠ []) (hpre : Ascii pre) (hascii : Ascii s) :
    underlined text d = s ∧
    shownLine text d = (pre.filter (· = '\n')).length + 1 := by
  obtain ⟨post, rfl, h1, h2⟩ := hat
  rw [ascii_bytes pre hpre] at h1 h2
  rw [ascii_bytes s hascii] at h2
  have hl : 0 < s.length := List.length_pos_iff.mpr hs
  have hmax : max d.span.stop (d.span.start + 1) - d.span.start = s.length := by omega
  constructor
  · simp only [underlined, markedRange, indexType, normalizeSpan, hmax]
    rw [← h1, List.append_assoc, List.drop_left, List.take_left]
  · simp only [shownLine, markedRange, indexType, normalizeSpan]
    rw [← h1, List.append_assoc, List.take_left]

/-- The property fails: the marks start where the text starts exactly if everything before it is
ASCII; otherwise they start later, by the number of extra bytes. -/
theorem C96_marks_violated (text pre s : List Char) (d : Diag) (hat : At text pre s d.span) :
    (markedRange text (normalizeSpan d.span)).1 = pre.length + (bytes pre - pre.length) ∧
    ((markedRange text (normalizeSpan d.span)).1 = pre.length ↔ Ascii pre) := by
  obtain ⟨post, rfl, h1, h2⟩ := hat
  have hg := bytes_ge pre
  have hi := bytes_eq_iff pre
  simp only [markedRange, indexType, normalizeSpan, ← h1]
  exact ⟨by omega, hi⟩

/-! Cases. -/

/-- `é` in a comment, and an error in the line after it. -/
def accented : List Char := "// café\nfoo\nbar\n".toList

/-- The error is at `foo`. -/
def fooError : Diag :=
  { severity := .error, phase := .nameResolution, span := ⟨9, 12⟩, message := "unresolved name" }

-- the span is that of `foo`
example : At accented "// café\n".toList "foo".toList fooError.span :=
  ⟨"\nbar\n".toList, by decide, by decide, by decide⟩

-- but `oo` and the end of the line are underlined
example : underlined accented fooError = "oo\n".toList := by decide

-- with enough such characters, the report shows another line
example : underlined "// ééééé\nfoo\nbar\n".toList
    { fooError with span := ⟨14, 17⟩ } = "ar\n".toList ∧
    shownLine "// ééééé\nfoo\nbar\n".toList { fooError with span := ⟨14, 17⟩ } = 3 := by decide

-- the hypotheses of C96_marks_partial
example : At "foo\nbar\n".toList "foo\n".toList "bar".toList ⟨4, 7⟩ ∧ Ascii "foo\n".toList ∧
    Ascii "bar".toList :=
  ⟨⟨"\n".toList, by decide, by decide, by decide⟩, by unfold Ascii; decide, by unfold Ascii; decide⟩

-- C96_stable: two errors in either order
example : (compileFile .native ⟨[typeError, fooError], .nil⟩ (fun _ => none) true).reports =
    (compileFile .native ⟨[fooError, typeError], .nil⟩ (fun _ => none) true).reports := by
  decide +kernel

end Verif.Report
