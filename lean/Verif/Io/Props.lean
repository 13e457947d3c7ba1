import Verif.Io.Proofs
/-!
# Properties C02, C03, C04: standard output and standard input
-/
namespace Verif.Io

/-! ## C02 -/

/-- C02.  Whatever the operating system answers, after `write_all` of `bytes`:
* each system call offers exactly the bytes not yet taken (so no byte is offered again after it
  was taken, and none is skipped);
* the bytes taken are a prefix of `bytes`;
* a report of success means all of `bytes` were taken, exactly once and in order;
* a report of failure means the last system call failed for good;
* when the call is still blocked, taken bytes and remaining bytes make up `bytes`. -/
theorem C02_write_all_exact (bytes : List Byte) (sched : List WriteRes)
    (cs : List Call) (o : WriteOutcome) (s : List WriteRes)
    (h : writeAllWith bytes sched = (cs, o, s)) :
    (∀ i (hi : i < cs.length), cs[i].offered = bytes.drop (accepted (cs.take i)).length) ∧
    accepted cs <+: bytes ∧
    (o = .returned true → accepted cs = bytes) ∧
    (o = .returned false → ∃ c, cs.getLast? = some c ∧ ¬ c.progress) ∧
    (∀ r, o = .blocked r → bytes = accepted cs ++ r ∧ r ≠ []) := by
  obtain ⟨h1, h2, h3, h4, h5⟩ := writeAll_spec bytes sched cs o s h
  exact ⟨h1, h2, fun e => (h3 e).1, h4, fun r hr => ⟨(h5 r hr).1, (h5 r hr).2.1⟩⟩

/-- The printed text is "hello"; the OS takes 2 bytes, is interrupted, then takes 3. -/
example : writeAllWith [104, 101, 108, 108, 111] [.ok 2, .err EINTR, .ok 3] =
    ([⟨[104, 101, 108, 108, 111], .ok 2⟩, ⟨[108, 108, 111], .err 4⟩, ⟨[108, 108, 111], .ok 3⟩],
      .returned true, []) := by decide

/-- C02, success side: if the OS keeps making progress (each answer is an interruption or takes
at least one and at most the offered bytes) for long enough, everything is written.  `k` bounds
how many of the answers may be interruptions. -/
theorem C02_write_all_succeeds (bytes : List Byte) (sched : List WriteRes)
    (hprog : ∀ r ∈ sched, r = .err EINTR ∨ r = .ok 1)
    (hlen : bytes.length ≤ (sched.filter (· = .ok 1)).length) :
    ∃ cs s, writeAllWith bytes sched = (cs, .returned true, s) ∧ accepted cs = bytes := by
  induction sched generalizing bytes with
  | nil =>
    have : bytes = [] := by simpa using hlen
    subst this
    exact ⟨[], [], by simp [writeAllWith], rfl⟩
  | cons r sched ih =>
    cases bytes with
    | nil => exact ⟨[], r :: sched, by simp [writeAllWith], rfl⟩
    | cons b bytes =>
      rcases hprog r (by simp) with rfl | rfl
      · obtain ⟨cs, s, h1, h2⟩ := ih (b :: bytes) (fun r hr => hprog r (by simp [hr]))
          (by simpa using hlen)
        refine ⟨⟨b :: bytes, .err EINTR⟩ :: cs, s, by simp [writeAllWith, h1], ?_⟩
        simp [accepted_cons, Call.accepted, h2]
      · obtain ⟨cs, s, h1, h2⟩ := ih bytes (fun r hr => hprog r (by simp [hr]))
          (by simpa using hlen)
        refine ⟨⟨b :: bytes, .ok 1⟩ :: cs, s, by simp [writeAllWith, h1], ?_⟩
        simp [accepted_cons, Call.accepted, h2]

example : ∃ cs s, writeAllWith [104, 105] [.ok 1, .err EINTR, .ok 1, .ok 1] =
    (cs, .returned true, s) ∧ accepted cs = [104, 105] :=
  C02_write_all_succeeds _ _ (by simp) (by decide)

/-- C02 for `print` (no newline): the bytes that reach the OS are a prefix of the text, all of it
on success. -/
theorem C02_print_exact (bytes : List Byte) (newline : Nat) (hn : newline ≠ 1)
    (sched : List WriteRes) (cs : List Call) (o : WriteOutcome) (s : List WriteRes)
    (h : ioWrite bytes newline sched = (cs, o, s)) :
    accepted cs <+: bytes ∧ (o = .returned true → accepted cs = bytes) := by
  unfold ioWrite bytesPrint at h
  by_cases hb : bytes.length > 0
  · simp only [hb, if_true] at h
    split at h
    · simp at h; obtain ⟨rfl, rfl, rfl⟩ := h
      rename_i _ _ _ _ heq
      obtain ⟨_, h2, _⟩ := C02_write_all_exact _ _ _ _ _ heq
      exact ⟨h2, by simp⟩
    · simp [hn] at h; obtain ⟨rfl, rfl, rfl⟩ := h
      rename_i _ _ _ _ heq
      obtain ⟨_, h2, h3, _⟩ := C02_write_all_exact _ _ _ _ _ heq
      exact ⟨h2, h3⟩
  · have : bytes = [] := by simpa using hb
    subst this
    simp [hn] at h
    obtain ⟨rfl, rfl, rfl⟩ := h
    simp [accepted]

example : ioWrite [104, 105] 0 [.ok 1, .ok 1] =
    ([⟨[104, 105], .ok 1⟩, ⟨[105], .ok 1⟩], .returned true, []) := by decide

/-- C02 for `print_line`, provided no system call fails for good while the text itself is being
written: the bytes that reach the OS are a prefix of the text followed by a newline, all of it on
success.  Missing: the failure case, where it is false (`C02_print_line_violated`). -/
theorem C02_print_line_partial (bytes : List Byte) (sched : List WriteRes)
    (cs : List Call) (o : WriteOutcome) (s : List WriteRes)
    (h : ioWrite bytes 1 sched = (cs, o, s))
    (hok : (writeAllWith bytes sched).2.1 ≠ .returned false) :
    accepted cs <+: bytes ++ [10] ∧ (o = .returned true → accepted cs = bytes ++ [10]) := by
  have key : bytesPrint bytes sched = writeAllWith bytes sched := by
    unfold bytesPrint
    by_cases hb : bytes.length > 0
    · simp [hb]
    · have : bytes = [] := by simpa using hb
      subst this; unfold writeAllWith; simp
  unfold ioWrite at h
  rw [key] at h
  match hw : writeAllWith bytes sched with
  | (cs1, .blocked r, s1) =>
    rw [hw] at h; simp at h; obtain ⟨rfl, rfl, rfl⟩ := h
    obtain ⟨_, h2, _⟩ := C02_write_all_exact _ _ _ _ _ hw
    exact ⟨h2.trans (by simp), by simp⟩
  | (cs1, .returned false, s1) => rw [hw] at hok; simp at hok
  | (cs1, .returned true, s1) =>
    rw [hw] at h
    obtain ⟨_, _, h3, _⟩ := C02_write_all_exact _ _ _ _ _ hw
    have h3 := h3 rfl
    match hw2 : writeAllWith [10] s1 with
    | (cs2, o2, s2) =>
      simp [hw2] at h
      obtain ⟨rfl, rfl, rfl⟩ := h
      obtain ⟨_, g2, g3, _⟩ := C02_write_all_exact _ _ _ _ _ hw2
      rw [accepted_append, h3]
      exact ⟨(List.prefix_append_right_inj bytes).mpr g2, fun e => by rw [g3 e]⟩

example : ioWrite [104, 105] 1 [.ok 1, .err EINTR, .ok 1, .ok 1] =
    ([⟨[104, 105], .ok 1⟩, ⟨[105], .err 4⟩, ⟨[105], .ok 1⟩, ⟨[10], .ok 1⟩], .returned true, []) ∧
    (writeAllWith [104, 105] [.ok 1, .err EINTR, .ok 1, .ok 1]).2.1 ≠ .returned false := by decide

/-- C02 is false for `print_line` when writing the text fails: `print_line("hi")` with the OS
taking one byte, failing with an error (28 = ENOSPC), then working again, emits "h\n", which is not
a prefix of "hi\n", and reports success. -/
theorem C02_print_line_violated :
    ∃ bytes sched cs s, ioWrite bytes 1 sched = (cs, .returned true, s) ∧
      ¬ accepted cs <+: bytes ++ [10] :=
  ⟨[104, 105], [.ok 1, .err 28, .ok 1], _, _, rfl, by decide⟩

/-! ## C03 -/

/-- C03, one call: if the remaining input has a complete line, end-of-file or error at its front
(`SpecLine`), then `read_line` returns it and leaves exactly the rest, for every chunking and
every placement of interruptions. -/
theorem C03_read_line_spec {b : StdinBuffer} {evs : List Event} (hb : BufOk b) (hk : KernelOk evs)
    {r : LineResult} {rest : List Item} (h : SpecLine (content b evs) r rest) :
    ∃ b' evs', readLine b evs = some (r, b', evs') ∧ content b' evs' = rest ∧ BufOk b' ∧
      KernelOk evs' :=
  readLine_complete hb hk h

/-- C03.  Standard input is the byte string `input`, then end-of-file (reported at least `n`
times); the kernel delivers it in arbitrary non-empty chunks with arbitrary interruptions (`evs`).
Then `n` calls of `read_line` return the lines of `input`, one after the other, and then
end-of-file for ever. -/
theorem C03_read_lines_of_file (input : List Byte) (evs : List Event) (n k : Nat)
    (hk : KernelOk evs) (hev : items evs = input.map .byte ++ List.replicate k .eof)
    (hn : n ≤ k) :
    readLines StdinBuffer.new evs n =
      some (((linesOf input).map lineOf ++ List.replicate n LineResult.endOfFile).take n) :=
  readLines_file n k input _ _ new_ok hk (by rw [content_new, hev]) hn

/-- C03: two deliveries of the same input give the same results. -/
theorem C03_chunk_independence (evs₁ evs₂ : List Event) (n k : Nat) (input : List Byte)
    (hk₁ : KernelOk evs₁) (hk₂ : KernelOk evs₂)
    (h₁ : items evs₁ = input.map .byte ++ List.replicate k .eof)
    (h₂ : items evs₂ = input.map .byte ++ List.replicate k .eof) (hn : n ≤ k) :
    readLines StdinBuffer.new evs₁ n = readLines StdinBuffer.new evs₂ n := by
  rw [C03_read_lines_of_file input evs₁ n k hk₁ h₁ hn, C03_read_lines_of_file input evs₂ n k hk₂ h₂ hn]

/-- The specification of lines is what one expects: joining the lines, with "\n" after the
terminated ones, gives back the input; only the last line may be unterminated; no line contains
a newline. -/
theorem C03_linesOf_sound (input : List Byte) :
    (linesOf input).flatMap (fun l => l.1 ++ if l.2 then [10] else []) = input ∧
    (∀ l ∈ linesOf input, 10 ∉ l.1) ∧
    (∀ l ∈ linesOf input, l.2 = false → l.1 ≠ []) ∧
    (∀ l ∈ (linesOf input).dropLast, l.2 = true) := by
  induction input with
  | nil => simp [linesOf]
  | cons b rest ih =>
    obtain ⟨h1, h2, h3, h4⟩ := ih
    simp only [linesOf]
    split
    · rename_i hb
      subst hb
      refine ⟨by simpa using h1, by simpa using h2, by simpa using h3, ?_⟩
      intro l hl
      cases hr : linesOf rest with
      | nil => simp [hr] at hl
      | cons a as =>
        rw [hr] at hl h4
        simp only [List.dropLast_cons_cons, List.mem_cons] at hl
        rcases hl with rfl | hl
        · rfl
        · exact h4 l hl
    · rename_i hb
      split
      · rename_i hr
        have : rest = [] := linesOf_eq_nil.mp hr
        subst this
        simp; exact fun e => hb e.symm
      · rename_i l t ls hr
        rw [hr] at h1 h2 h3 h4
        refine ⟨by simpa using h1, ?_, ?_, ?_⟩
        · intro x hx
          simp only [List.mem_cons] at hx
          rcases hx with rfl | hx
          · have := h2 (l, t) (by simp)
            simp [this]; exact fun e => hb e.symm
          · exact h2 x (by simp [hx])
        · intro x hx hf
          simp only [List.mem_cons] at hx
          rcases hx with rfl | hx
          · simp
          · exact h3 x (by simp [hx]) hf
        · intro x hx
          cases ls with
          | nil => simp at hx
          | cons a as =>
            simp only [List.dropLast_cons_cons, List.mem_cons] at hx h4
            rcases hx with rfl | hx
            · exact h4 (l, t) (by simp)
            · exact h4 x (Or.inr hx)

/-- "ab\r\nc" then end of file, with "\r" and "\n" in different reads and interruptions. -/
def sampleEvents : List Event :=
  [.chunk [97], .interrupted, .chunk [98, 13], .interrupted, .chunk [10, 99], .endOfFile, .endOfFile,
   .endOfFile]

example : KernelOk sampleEvents ∧
    items sampleEvents = ([97, 98, 13, 10, 99] : List Byte).map .byte ++ List.replicate 3 .eof ∧
    linesOf [97, 98, 13, 10, 99] = [([97, 98, 13], true), ([99], false)] := by
  refine ⟨?_, by decide, by decide⟩
  intro c hc
  simp [sampleEvents] at hc
  rcases hc with rfl | rfl | rfl <;> simp [stdinBufferSize]

example : SpecLine (content StdinBuffer.new sampleEvents)
    (classify [97, 98]) (.byte 99 :: [.eof, .eof, .eof]) :=
  SpecLine.newline [97, 98, 13] _ (by decide)

/-! ## C04 -/

/-- C04: the validator accepts exactly the concatenations of UTF-8 encodings of Unicode scalar
values. -/
theorem C04_validation_exact (bytes : List Byte) : fromUtf8Ok bytes = true ↔ IsUtf8 bytes :=
  fromUtf8Ok_iff bytes

/-- C04: whatever happens on standard input, a line returned by `read_line` is valid UTF-8. -/
theorem C04_line_is_utf8 {b : StdinBuffer} {evs : List Event} (hb : BufOk b) (hk : KernelOk evs)
    {bytes : List Byte} {b' : StdinBuffer} {evs' : List Event}
    (h : readLine b evs = some (.line bytes, b', evs')) : IsUtf8 bytes := by
  have := ((readLineLoop_spec [] b evs hb hk (by simp)).1 _ _ _ h).1
  obtain ⟨t, i, _, _, _, hr⟩ := this.shape
  cases i <;> simp only [classify] at hr
  · split at hr <;> simp at hr
    subst hr; assumption
  · split at hr
    · simp at hr
    · split at hr <;> simp at hr
      subst hr; assumption
  · simp at hr

/-- C04: `read_line` reports the encoding error exactly when the input starts with a line (text
up to a newline, or non-empty text up to end-of-file) that is not valid UTF-8. -/
theorem C04_invalid_encoding_iff {b : StdinBuffer} {evs : List Event} (hb : BufOk b)
    (hk : KernelOk evs) {r : LineResult} {b' : StdinBuffer} {evs' : List Event}
    (h : readLine b evs = some (r, b', evs')) :
    r = .invalidEncoding ↔
      ∃ (text : List Byte) (rest : List Item), 10 ∉ text ∧
        ((content b evs = text.map .byte ++ .byte 10 :: rest ∧ ¬ IsUtf8 (stripCr text)) ∨
         (content b evs = text.map .byte ++ .eof :: rest ∧ ¬ IsUtf8 text)) := by
  have hs := ((readLineLoop_spec [] b evs hb hk (by simp)).1 _ _ _ h).1
  simp only [List.map_nil, List.nil_append] at hs
  constructor
  · rintro rfl
    obtain ⟨t, i, h1, h2, h3, hr⟩ := hs.shape
    cases i with
    | byte x =>
      have := h2 x rfl
      subst this
      simp only [classify] at hr
      split at hr <;> simp at hr
      exact ⟨t, _, h1, Or.inl ⟨h3, by assumption⟩⟩
    | eof =>
      simp only [classify] at hr
      split at hr
      · simp at hr
      · split at hr <;> simp at hr
        exact ⟨t, _, h1, Or.inr ⟨h3, by assumption⟩⟩
    | error c => simp at hr
  · rintro ⟨t, rest, h1, ⟨h2, h3⟩ | ⟨h2, h3⟩⟩
    · rw [h2] at hs
      have := (hs.det (.newline t rest h1)).1
      rw [this]; simp [classify, h3]
    · rw [h2] at hs
      have hne : t ≠ [] := by
        rintro rfl
        exact h3 ⟨[], rfl⟩
      have := (hs.det (.lastLine t rest h1 hne)).1
      rw [this]; simp [classify, h3]

/-- C04: a system error carries the code the OS reported, and is returned exactly when the OS
reports an error before the end of a line. -/
theorem C04_system_error_iff {b : StdinBuffer} {evs : List Event} (hb : BufOk b)
    (hk : KernelOk evs) {r : LineResult} {b' : StdinBuffer} {evs' : List Event} (code : Int)
    (h : readLine b evs = some (r, b', evs')) :
    r = .system code ↔
      ∃ (text : List Byte) (rest : List Item), 10 ∉ text ∧ content b evs = text.map .byte ++ .error code :: rest := by
  have hs := ((readLineLoop_spec [] b evs hb hk (by simp)).1 _ _ _ h).1
  simp only [List.map_nil, List.nil_append] at hs
  constructor
  · rintro rfl
    obtain ⟨t, i, h1, h2, h3, hr⟩ := hs.shape
    cases i with
    | byte x => simp only [classify] at hr; split at hr <;> simp at hr
    | eof =>
      simp only [classify] at hr
      split at hr
      · simp at hr
      · split at hr <;> simp at hr
    | error c => simp at hr; subst hr; exact ⟨t, _, h1, h3⟩
  · rintro ⟨t, rest, h1, h2⟩
    rw [h2] at hs
    exact (hs.det (.error t code rest h1)).1

/-- The hypotheses of the C04 theorems are met with each kind of result: "é" split over two reads
is a line, a lone continuation byte and an overlong encoding are encoding errors, and an error in
the middle of a line is a system error. -/
example : ∃ b evs, readLine StdinBuffer.new [.chunk [0xC3], .chunk [0xA9, 10]] =
    some (.line [0xC3, 0xA9], b, evs) := by
  have h : SpecLine (content StdinBuffer.new [.chunk [0xC3], .chunk [0xA9, 10]])
      (classify (stripCr [0xC3, 0xA9])) [] := .newline [0xC3, 0xA9] _ (by decide)
  obtain ⟨b, evs, h, _⟩ := readLine_complete new_ok (by
    intro c hc; simp at hc; rcases hc with rfl | rfl <;> decide) h
  exact ⟨b, evs, h.trans (by rw [← lineResult_eq]; rfl)⟩

example : ∃ b evs, readLine StdinBuffer.new [.chunk [0xC0, 0x80], .endOfFile] =
    some (.invalidEncoding, b, evs) := by
  have h : SpecLine (content StdinBuffer.new [.chunk [0xC0, 0x80], .endOfFile])
      (classify [0xC0, 0x80]) [] := .lastLine [0xC0, 0x80] _ (by decide) (by decide)
  obtain ⟨b, evs, h, _⟩ := readLine_complete new_ok (by
    intro c hc; simp at hc; subst hc; decide) h
  exact ⟨b, evs, h.trans (by rw [← lineResult_eq]; rfl)⟩

example : ∃ b evs, readLine StdinBuffer.new [.chunk [97], .error 5] =
    some (.system 5, b, evs) := by
  have h : SpecLine (content StdinBuffer.new [.chunk [97], .error 5]) (.system 5) [] :=
    .error [97] 5 _ (by decide)
  obtain ⟨b, evs, h, _⟩ := readLine_complete new_ok (by
    intro c hc; simp at hc; subst hc; decide) h
  exact ⟨b, evs, h⟩

end Verif.Io
