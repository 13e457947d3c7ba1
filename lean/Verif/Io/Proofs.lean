import Verif.Io.Spec
/-! Helper lemmas for the I/O model. -/
namespace Verif.Io

/-! ## Output -/

theorem accepted_cons (c : Call) (cs : List Call) : accepted (c :: cs) = c.accepted ++ accepted cs := by
  simp [accepted]

theorem accepted_append (a b : List Call) : accepted (a ++ b) = accepted a ++ accepted b := by
  simp [accepted]

/-- Everything we need about `write_all_with` in one induction. -/
theorem writeAll_spec (bytes : List Byte) (sched : List WriteRes) :
    ∀ cs o s, writeAllWith bytes sched = (cs, o, s) →
      (∀ i (h : i < cs.length), cs[i].offered = bytes.drop (accepted (cs.take i)).length) ∧
      accepted cs <+: bytes ∧
      (o = .returned true → accepted cs = bytes ∧ ∀ c ∈ cs, c.progress) ∧
      (o = .returned false → ∃ c, cs.getLast? = some c ∧ ¬ c.progress) ∧
      (∀ r, o = .blocked r → bytes = accepted cs ++ r ∧ r ≠ [] ∧ s = [] ∧ ∀ c ∈ cs, c.progress) := by
  fun_induction writeAllWith bytes sched with
  | case1 remaining sched he =>
    intro cs o s h
    simp at h he
    obtain ⟨rfl, rfl, rfl⟩ := h
    subst he
    refine ⟨by simp, by simp [accepted], by simp [accepted], by simp, by simp⟩
  | case2 remaining he =>
    intro cs o s h
    simp at h he
    obtain ⟨rfl, rfl, rfl⟩ := h
    refine ⟨by simp, by simp [accepted], by simp, by simp, ?_⟩
    intro r hr; simp at hr; subst hr; simp [accepted, he]
  | case3 remaining rest he =>
    intro cs o s h
    simp at h he
    obtain ⟨rfl, rfl, rfl⟩ := h
    refine ⟨?_, ?_, by simp, ?_, by simp⟩
    · intro i hi; have : i = 0 := by simpa using hi
      subst this; simp [accepted]
    · simp [accepted, Call.accepted]
    · intro _; exact ⟨_, rfl, by simp [Call.progress]⟩
  | case4 remaining rest he written hw hle cs' o' s' hrec ih =>
    intro cs o s h
    simp at h he
    obtain ⟨rfl, rfl, rfl⟩ := h
    obtain ⟨h1, h2, h3, h4, h5⟩ := ih cs' o' s' hrec
    have hacc : accepted ({ offered := remaining, result := WriteRes.ok written } :: cs')
        = remaining.take written ++ accepted cs' := by simp [accepted_cons, Call.accepted]
    have hprog : Call.progress ⟨remaining, WriteRes.ok written⟩ :=
      Or.inr ⟨written, rfl, Nat.pos_of_ne_zero (fun h => hw h), hle⟩
    refine ⟨?_, ?_, ?_, ?_, ?_⟩
    · intro i hi
      cases i with
      | zero => simp [accepted]
      | succ i =>
        simp at hi
        simp only [List.getElem_cons_succ, List.take_succ_cons]
        rw [h1 i hi, accepted_cons]
        simp [Call.accepted, List.drop_drop, Nat.min_eq_left hle]
    · rw [hacc]
      obtain ⟨t, ht⟩ := h2
      exact ⟨t, by rw [List.append_assoc, ht, List.take_append_drop]⟩
    · intro ho
      obtain ⟨ha, hp⟩ := h3 ho
      refine ⟨by rw [hacc, ha, List.take_append_drop], ?_⟩
      intro c hc
      rcases List.mem_cons.mp hc with rfl | hc
      · exact hprog
      · exact hp c hc
    · intro ho
      obtain ⟨c, hc, hn⟩ := h4 ho
      refine ⟨c, ?_, hn⟩
      cases cs' with
      | nil => simp at hc
      | cons a l => simpa using hc
    · intro r hr
      obtain ⟨hb, hne, hs, hp⟩ := h5 r hr
      refine ⟨?_, hne, hs, ?_⟩
      · rw [hacc, List.append_assoc, ← hb, List.take_append_drop]
      · intro c hc
        rcases List.mem_cons.mp hc with rfl | hc
        · exact hprog
        · exact hp c hc
  | case5 remaining rest he written hw hle =>
    intro cs o s h
    simp at h he
    obtain ⟨rfl, rfl, rfl⟩ := h
    refine ⟨?_, ?_, by simp, ?_, by simp⟩
    · intro i hi; have : i = 0 := by simpa using hi
      subst this; simp [accepted]
    · simp [accepted, Call.accepted]; exact List.take_prefix _ _
    · intro _
      refine ⟨_, rfl, ?_⟩
      simp [Call.progress]; omega
  | case6 remaining rest he cs' o' s' hrec ih =>
    intro cs o s h
    simp at h he
    obtain ⟨rfl, rfl, rfl⟩ := h
    obtain ⟨h1, h2, h3, h4, h5⟩ := ih cs' o' s' hrec
    have hacc : accepted ({ offered := remaining, result := WriteRes.err EINTR } :: cs')
        = accepted cs' := by simp [accepted_cons, Call.accepted]
    have hprog : Call.progress ⟨remaining, WriteRes.err EINTR⟩ := Or.inl rfl
    refine ⟨?_, ?_, ?_, ?_, ?_⟩
    · intro i hi
      cases i with
      | zero => simp [accepted]
      | succ i =>
        simp at hi
        simp only [List.getElem_cons_succ, List.take_succ_cons]
        rw [h1 i hi, accepted_cons]
        simp [Call.accepted]
    · rw [hacc]; exact h2
    · intro ho
      obtain ⟨ha, hp⟩ := h3 ho
      refine ⟨by rw [hacc, ha], ?_⟩
      intro c hc
      rcases List.mem_cons.mp hc with rfl | hc
      · exact hprog
      · exact hp c hc
    · intro ho
      obtain ⟨c, hc, hn⟩ := h4 ho
      refine ⟨c, ?_, hn⟩
      cases cs' with
      | nil => simp at hc
      | cons a l => simpa using hc
    · intro r hr
      obtain ⟨hb, hne, hs, hp⟩ := h5 r hr
      refine ⟨by rw [hacc, ← hb], hne, hs, ?_⟩
      intro c hc
      rcases List.mem_cons.mp hc with rfl | hc
      · exact hprog
      · exact hp c hc
  | case7 remaining rest he code hc =>
    intro cs o s h
    simp at h he
    obtain ⟨rfl, rfl, rfl⟩ := h
    refine ⟨?_, ?_, by simp, ?_, by simp⟩
    · intro i hi; have : i = 0 := by simpa using hi
      subst this; simp [accepted]
    · simp [accepted, Call.accepted]
    · intro _
      exact ⟨_, rfl, by simp [Call.progress, hc]⟩

/-! ## UTF-8 -/

theorem ofNat_toNat_lt {n : Nat} (h : n < 256) : (UInt8.ofNat n).toNat = n := by
  simp; omega

/-- Numeric reading of the validation automaton. -/
theorem fromUtf8Ok_cons (b0 : Byte) (rest : List Byte) :
    fromUtf8Ok (b0 :: rest) =
    (if b0.toNat < 0x80 then fromUtf8Ok rest
    else if 0xC2 ≤ b0.toNat ∧ b0.toNat ≤ 0xDF then
      match rest with
      | b1 :: rest => decide (0x80 ≤ b1.toNat ∧ b1.toNat ≤ 0xBF) && fromUtf8Ok rest
      | _ => false
    else if 0xE0 ≤ b0.toNat ∧ b0.toNat ≤ 0xEF then
      match rest with
      | b1 :: b2 :: rest =>
        decide ((0x80 ≤ b1.toNat ∧ b1.toNat ≤ 0xBF) ∧ (b0.toNat = 0xE0 → 0xA0 ≤ b1.toNat) ∧
          (b0.toNat = 0xED → b1.toNat ≤ 0x9F) ∧ (0x80 ≤ b2.toNat ∧ b2.toNat ≤ 0xBF))
          && fromUtf8Ok rest
      | _ => false
    else if 0xF0 ≤ b0.toNat ∧ b0.toNat ≤ 0xF4 then
      match rest with
      | b1 :: b2 :: b3 :: rest =>
        decide ((0x80 ≤ b1.toNat ∧ b1.toNat ≤ 0xBF) ∧ (b0.toNat = 0xF0 → 0x90 ≤ b1.toNat) ∧
          (b0.toNat = 0xF4 → b1.toNat ≤ 0x8F) ∧ (0x80 ≤ b2.toNat ∧ b2.toNat ≤ 0xBF) ∧
          (0x80 ≤ b3.toNat ∧ b3.toNat ≤ 0xBF)) && fromUtf8Ok rest
      | _ => false
    else false) := by
  rw [fromUtf8Ok.eq_def]
  simp only [UInt8.lt_iff_toNat_lt, UInt8.le_iff_toNat_le, isCont, Bool.and_eq_true,
    decide_eq_true_eq, ← UInt8.toNat_inj]
  simp only [show (0x80 : UInt8).toNat = 0x80 from rfl, show (0xC2 : UInt8).toNat = 0xC2 from rfl,
    show (0xDF : UInt8).toNat = 0xDF from rfl, show (0xE0 : UInt8).toNat = 0xE0 from rfl,
    show (0xEF : UInt8).toNat = 0xEF from rfl, show (0xF0 : UInt8).toNat = 0xF0 from rfl,
    show (0xF4 : UInt8).toNat = 0xF4 from rfl, show (0xBF : UInt8).toNat = 0xBF from rfl,
    show (0xA0 : UInt8).toNat = 0xA0 from rfl, show (0xED : UInt8).toNat = 0xED from rfl,
    show (0x9F : UInt8).toNat = 0x9F from rfl, show (0x90 : UInt8).toNat = 0x90 from rfl,
    show (0x8F : UInt8).toNat = 0x8F from rfl]
  split
  · rfl
  split
  · split <;> simp
  split
  · split
    · rename_i b1 b2 r
      congr 1
      rw [Bool.eq_iff_iff]
      split
      · simp; omega
      · split
        · simp; omega
        · simp; omega
    · split
      · simp_all
      · rfl
  split
  · split
    · rename_i b1 b2 b3 r
      congr 1
      rw [Bool.eq_iff_iff]
      split
      · simp; omega
      · split
        · simp; omega
        · simp; omega
    · split
      · rename_i b1 b2 b3 r hx
        exact (hx b1 b2 b3 r rfl).elim
      · rfl
  · rfl

theorem encode_ok (c : Char) (rest : List Byte) :
    fromUtf8Ok (String.utf8EncodeChar c ++ rest) = fromUtf8Ok rest := by
  have hv := c.valid
  simp only [UInt32.isValidChar, Nat.isValidChar] at hv
  unfold String.utf8EncodeChar
  generalize c.val.toNat = v at hv
  simp only
  split
  · simp [fromUtf8Ok_cons]; intro h; omega
  split
  · simp only [List.cons_append, List.nil_append, fromUtf8Ok_cons,
      ofNat_toNat_lt (show v / 64 % 0x20 + 0xc0 < 256 by omega),
      ofNat_toNat_lt (show v % 0x40 + 0x80 < 256 by omega)]
    rw [if_neg (by omega), if_pos (by omega)]
    rw [decide_eq_true (by omega)]; simp
  split
  · simp only [List.cons_append, List.nil_append, fromUtf8Ok_cons,
      ofNat_toNat_lt (show v / 4096 % 0x10 + 0xe0 < 256 by omega),
      ofNat_toNat_lt (show v / 64 % 0x40 + 0x80 < 256 by omega),
      ofNat_toNat_lt (show v % 0x40 + 0x80 < 256 by omega)]
    rw [if_neg (by omega), if_neg (by omega), if_pos (by omega)]
    rw [decide_eq_true (by omega)]; simp
  · simp only [List.cons_append, List.nil_append, fromUtf8Ok_cons,
      ofNat_toNat_lt (show v / 262144 % 0x08 + 0xf0 < 256 by omega),
      ofNat_toNat_lt (show v / 4096 % 0x40 + 0x80 < 256 by omega),
      ofNat_toNat_lt (show v / 64 % 0x40 + 0x80 < 256 by omega),
      ofNat_toNat_lt (show v % 0x40 + 0x80 < 256 by omega)]
    rw [if_neg (by omega), if_neg (by omega), if_neg (by omega), if_pos (by omega)]
    rw [decide_eq_true (by omega)]; simp

theorem byte_eq {b : Byte} {n : Nat} (h : b.toNat = n) : UInt8.ofNat n = b := by
  subst h; simp

theorem mkChar_val {v : Nat} (h : v.isValidChar) : (Char.ofNat v).val.toNat = v := by
  simp only [Char.ofNat, h, dite_true, Char.ofNatAux, UInt32.toNat]
  rfl

theorem encode_exists (v : Nat) (h : v < 0xd800 ∨ 0xdfff < v ∧ v < 0x110000) {l : List Byte}
    (hl : l = if v ≤ 0x7f then [UInt8.ofNat v]
      else if v ≤ 0x7ff then [UInt8.ofNat (v / 64 % 0x20 + 0xc0), UInt8.ofNat (v % 0x40 + 0x80)]
      else if v ≤ 0xffff then [UInt8.ofNat (v / 4096 % 0x10 + 0xe0),
        UInt8.ofNat (v / 64 % 0x40 + 0x80), UInt8.ofNat (v % 0x40 + 0x80)]
      else [UInt8.ofNat (v / 262144 % 0x08 + 0xf0), UInt8.ofNat (v / 4096 % 0x40 + 0x80),
        UInt8.ofNat (v / 64 % 0x40 + 0x80), UInt8.ofNat (v % 0x40 + 0x80)]) :
    ∃ c, String.utf8EncodeChar c = l := by
  refine ⟨Char.ofNat v, ?_⟩
  rw [hl]
  unfold String.utf8EncodeChar
  simp only [mkChar_val (v := v) h]

theorem isUtf8_cons {l rest : List Byte} (h : ∃ c, String.utf8EncodeChar c = l) (hr : IsUtf8 rest) :
    IsUtf8 (l ++ rest) := by
  obtain ⟨c, rfl⟩ := h
  obtain ⟨cs, rfl⟩ := hr
  exact ⟨c :: cs, by simp⟩

theorem fromUtf8Ok_iff (bytes : List Byte) : fromUtf8Ok bytes = true ↔ IsUtf8 bytes := by
  constructor
  · induction hn : bytes.length using Nat.strongRecOn generalizing bytes with
    | _ n ih =>
      subst hn
      intro h
      match bytes, h with
      | [], _ => exact ⟨[], rfl⟩
      | b0 :: rest, h =>
        rw [fromUtf8Ok_cons] at h
        have hb0 := b0.toNat_lt
        split at h
        · have hr := ih _ (by simp) rest rfl h
          refine isUtf8_cons (l := [b0]) (encode_exists b0.toNat (by omega) ?_) hr
          rw [if_pos (by omega)]; simp
        split at h
        · match rest, h with
          | b1 :: rest, h =>
            simp only [Bool.and_eq_true, decide_eq_true_eq] at h
            have hr := ih _ (by simp; omega) rest rfl h.2
            refine isUtf8_cons (l := [b0, b1])
              (encode_exists ((b0.toNat - 0xc0) * 64 + (b1.toNat - 0x80)) (by omega) ?_) hr
            rw [if_neg (by omega), if_pos (by omega)]
            rw [byte_eq (b := b0) (by omega), byte_eq (b := b1) (by omega)]
        split at h
        · match rest, h with
          | b1 :: b2 :: rest, h =>
            simp only [Bool.and_eq_true, decide_eq_true_eq] at h
            have hr := ih _ (by simp; omega) rest rfl h.2
            refine isUtf8_cons (l := [b0, b1, b2])
              (encode_exists ((b0.toNat - 0xe0) * 4096 + (b1.toNat - 0x80) * 64 + (b2.toNat - 0x80))
                (by omega) ?_) hr
            rw [if_neg (by omega), if_neg (by omega), if_pos (by omega)]
            rw [byte_eq (b := b0) (by omega), byte_eq (b := b1) (by omega),
              byte_eq (b := b2) (by omega)]
        split at h
        · match rest, h with
          | b1 :: b2 :: b3 :: rest, h =>
            simp only [Bool.and_eq_true, decide_eq_true_eq] at h
            have hr := ih _ (by simp; omega) rest rfl h.2
            refine isUtf8_cons (l := [b0, b1, b2, b3])
              (encode_exists ((b0.toNat - 0xf0) * 262144 + (b1.toNat - 0x80) * 4096
                + (b2.toNat - 0x80) * 64 + (b3.toNat - 0x80)) (by omega) ?_) hr
            rw [if_neg (by omega), if_neg (by omega), if_neg (by omega)]
            rw [byte_eq (b := b0) (by omega), byte_eq (b := b1) (by omega),
              byte_eq (b := b2) (by omega), byte_eq (b := b3) (by omega)]
        · simp at h
  · rintro ⟨cs, rfl⟩
    induction cs with
    | nil => rfl
    | cons c cs ih => rw [List.flatMap_cons, encode_ok, ih]

theorem lineResult_eq (bytes : List Byte) : lineResult bytes = classify bytes := by
  unfold lineResult classify
  by_cases h : IsUtf8 bytes
  · simp [h, (fromUtf8Ok_iff bytes).mpr h]
  · have : ¬ fromUtf8Ok bytes = true := fun e => h ((fromUtf8Ok_iff bytes).mp e)
    simp [h, this]

/-! ## Input -/

/-- The buffer array has its fixed size and the valid length fits. -/
structure BufOk (b : StdinBuffer) : Prop where
  size : b.bytes.length = stdinBufferSize
  len : b.length ≤ stdinBufferSize

/-- Bytes already read from the kernel but not yet handed to the program. -/
def buffered (b : StdinBuffer) : List Byte := (b.bytes.take b.length).drop b.position

/-- All input still to be seen by the program. -/
def content (b : StdinBuffer) (evs : List Event) : List Item :=
  (buffered b).map .byte ++ items evs

theorem new_ok : BufOk StdinBuffer.new := ⟨by simp [StdinBuffer.new], by simp [StdinBuffer.new]⟩

theorem content_new (evs : List Event) : content StdinBuffer.new evs = items evs := by
  simp [content, buffered, StdinBuffer.new]

theorem KernelOk.tail {e : Event} {evs : List Event} (h : KernelOk (e :: evs)) : KernelOk evs :=
  fun c hc => h c (List.mem_cons_of_mem _ hc)

/-- One `read_byte` against the abstract input. -/
theorem readByte_spec {b : StdinBuffer} {evs : List Event} (hb : BufOk b) (hk : KernelOk evs) :
    match readByte b evs with
    | none => content b evs = []
    | some (.byte x, b', evs') =>
        content b evs = .byte x :: content b' evs' ∧ BufOk b' ∧ KernelOk evs'
    | some (.endOfFile, b', evs') => content b evs = .eof :: content b' evs' ∧ BufOk b' ∧ KernelOk evs'
    | some (.interrupted, b', evs') => content b evs = content b' evs' ∧ BufOk b' ∧ KernelOk evs'
    | some (.error c, b', evs') =>
        content b evs = .error c :: content b' evs' ∧ BufOk b' ∧ KernelOk evs' := by
  have hs := hb.size
  have hl := hb.len
  unfold readByte
  by_cases hp : b.position < b.length
  · have hlt : b.position < b.bytes.length := by omega
    simp only [hp, if_true, List.getElem?_eq_getElem hlt]
    refine ⟨?_, ⟨hs, hl⟩, hk⟩
    simp only [content, buffered]
    have hlt' : b.position < (b.bytes.take b.length).length := by simp; omega
    rw [List.drop_eq_getElem_cons hlt']
    simp
  · simp only [hp, if_false]
    have hemp : buffered b = [] := by
      simp only [buffered]
      apply List.drop_eq_nil_of_le
      simp; omega
    match evs with
    | [] => simp [content, hemp, items]
    | .chunk c :: rest =>
      obtain ⟨hc0, hc1⟩ := hk c (by simp)
      have hfl : (fill b.bytes c).length = stdinBufferSize := by
        simp [fill, hs]; omega
      cases c with
      | nil => simp at hc0
      | cons x c =>
        have h0 : (fill b.bytes (x :: c))[0]? = some x := by simp [fill]
        simp only [h0]
        refine ⟨?_, ⟨hfl, by simpa using hc1⟩, hk.tail⟩
        rw [content, hemp]; simp [content, items, buffered, fill]
    | .endOfFile :: rest => exact ⟨by simp [content, hemp, items], hb, hk.tail⟩
    | .interrupted :: rest => exact ⟨by simp [content, hemp, items], hb, hk.tail⟩
    | .error _ :: rest => exact ⟨by simp [content, hemp, items], hb, hk.tail⟩

/-- The reading loop against the specification; `acc` is the part of the line already taken. -/
theorem readLineLoop_spec (acc : List Byte) (b : StdinBuffer) (evs : List Event)
    (hb : BufOk b) (hk : KernelOk evs) (hacc : 10 ∉ acc) :
    (∀ r b' evs', readLineLoop acc b evs = some (r, b', evs') →
      SpecLine (acc.map .byte ++ content b evs) r (content b' evs') ∧ BufOk b' ∧ KernelOk evs') ∧
    (readLineLoop acc b evs = none →
      ∃ text : List Byte, content b evs = text.map .byte ∧ 10 ∉ text) := by
  fun_induction readLineLoop acc b evs with
  | case1 acc b evs h =>
    have := readByte_spec hb hk
    rw [h] at this
    exact ⟨by simp, fun _ => ⟨[], by simpa using this, by simp⟩⟩
  | case2 acc b evs b' evs' acc' h =>
    have hsp := readByte_spec hb hk
    rw [h] at hsp
    obtain ⟨hc, hb', hk'⟩ := hsp
    refine ⟨?_, by simp⟩
    intro r b1 evs1 heq
    simp only [Option.some.injEq, Prod.mk.injEq] at heq
    obtain ⟨rfl, rfl, rfl⟩ := heq
    rw [hc]
    rw [lineResult_eq]
    exact ⟨.newline acc _ hacc, hb', hk'⟩
  | case3 acc b evs x b' evs' h hx ih =>
    have hsp := readByte_spec hb hk
    rw [h] at hsp
    obtain ⟨hc, hb', hk'⟩ := hsp
    have hacc' : 10 ∉ acc ++ [x] := by
      simp [hacc]; exact fun h => hx h.symm
    obtain ⟨h1, h2⟩ := ih hb' hk' hacc'
    refine ⟨?_, ?_⟩
    · intro r b1 evs1 heq
      have := h1 r b1 evs1 heq
      rw [hc]
      simpa using this
    · intro hn
      obtain ⟨t, ht, ht'⟩ := h2 hn
      refine ⟨x :: t, by rw [hc, ht]; rfl, ?_⟩
      simp [ht']; exact fun h => hx h.symm
  | case4 acc b evs b' evs' h he =>
    have hsp := readByte_spec hb hk
    rw [h] at hsp
    obtain ⟨hc, hb', hk'⟩ := hsp
    refine ⟨?_, by simp⟩
    intro r b1 evs1 heq
    simp only [Option.some.injEq, Prod.mk.injEq] at heq
    obtain ⟨rfl, rfl, rfl⟩ := heq
    have : acc = [] := by simpa using he
    subst this
    rw [hc]
    exact ⟨.eof _, hb', hk'⟩
  | case5 acc b evs b' evs' h he =>
    have hsp := readByte_spec hb hk
    rw [h] at hsp
    obtain ⟨hc, hb', hk'⟩ := hsp
    refine ⟨?_, by simp⟩
    intro r b1 evs1 heq
    simp only [Option.some.injEq, Prod.mk.injEq] at heq
    obtain ⟨rfl, rfl, rfl⟩ := heq
    have : acc ≠ [] := by simpa using he
    rw [hc]
    rw [lineResult_eq]
    exact ⟨.lastLine acc _ hacc this, hb', hk'⟩
  | case6 acc b evs b' evs' h ih =>
    have hsp := readByte_spec hb hk
    rw [h] at hsp
    obtain ⟨hc, hb', hk'⟩ := hsp
    rw [hc]
    exact ih hb' hk' hacc
  | case7 acc b evs code b' evs' h =>
    have hsp := readByte_spec hb hk
    rw [h] at hsp
    obtain ⟨hc, hb', hk'⟩ := hsp
    refine ⟨?_, by simp⟩
    intro r b1 evs1 heq
    simp only [Option.some.injEq, Prod.mk.injEq] at heq
    obtain ⟨rfl, rfl, rfl⟩ := heq
    rw [hc]
    exact ⟨.error acc code _ hacc, hb', hk'⟩

/-- A list of bytes without newline followed by a non-byte or newline item splits uniquely. -/
theorem split_unique {t₁ t₂ : List Byte} {i₁ i₂ : Item} {r₁ r₂ : List Item}
    (h₁ : 10 ∉ t₁) (h₂ : 10 ∉ t₂)
    (s₁ : ∀ b, i₁ = .byte b → b = 10) (s₂ : ∀ b, i₂ = .byte b → b = 10)
    (h : t₁.map .byte ++ i₁ :: r₁ = t₂.map .byte ++ i₂ :: r₂) : t₁ = t₂ ∧ i₁ = i₂ ∧ r₁ = r₂ := by
  induction t₁ generalizing t₂ with
  | nil =>
    cases t₂ with
    | nil => simpa using h
    | cons b t =>
      simp at h h₂
      exact absurd (s₁ b h.1).symm h₂.1
  | cons a t ih =>
    cases t₂ with
    | nil =>
      simp at h h₁
      exact absurd (s₂ a h.1.symm).symm h₁.1
    | cons b t' =>
      simp at h h₁ h₂
      obtain ⟨rfl, h⟩ := h
      obtain ⟨e1, e2, e3⟩ := ih h₁.2 h₂.2 h
      exact ⟨by rw [e1], e2, e3⟩

theorem SpecLine.shape {l : List Item} {r : LineResult} {rest : List Item} (h : SpecLine l r rest) :
    ∃ (t : List Byte) (i : Item), 10 ∉ t ∧ (∀ b, i = .byte b → b = 10) ∧
      l = t.map .byte ++ i :: rest ∧
      r = (match i with
        | .byte _ => classify (stripCr t)
        | .eof => if t = [] then .endOfFile else classify t
        | .error c => .system c) := by
  cases h with
  | newline text _ h => exact ⟨text, .byte 10, h, by simp, rfl, rfl⟩
  | eof _ => exact ⟨[], .eof, by simp, by simp, rfl, rfl⟩
  | lastLine text _ h hn => exact ⟨text, .eof, h, by simp, rfl, by simp [hn]⟩
  | error text c _ h => exact ⟨text, .error c, h, by simp, rfl, rfl⟩

theorem SpecLine.det {l : List Item} {r₁ r₂ : LineResult} {s₁ s₂ : List Item}
    (h₁ : SpecLine l r₁ s₁) (h₂ : SpecLine l r₂ s₂) : r₁ = r₂ ∧ s₁ = s₂ := by
  obtain ⟨t₁, i₁, a₁, b₁, c₁, d₁⟩ := h₁.shape
  obtain ⟨t₂, i₂, a₂, b₂, c₂, d₂⟩ := h₂.shape
  obtain ⟨rfl, rfl, rfl⟩ := split_unique a₁ a₂ b₁ b₂ (c₁ ▸ c₂)
  exact ⟨by rw [d₁, d₂], rfl⟩

/-- If the specification has an answer, `readLine` gives it. -/
theorem readLine_complete {b : StdinBuffer} {evs : List Event} (hb : BufOk b) (hk : KernelOk evs)
    {r : LineResult} {rest : List Item} (h : SpecLine (content b evs) r rest) :
    ∃ b' evs', readLine b evs = some (r, b', evs') ∧ content b' evs' = rest ∧ BufOk b' ∧
      KernelOk evs' := by
  obtain ⟨h1, h2⟩ := readLineLoop_spec [] b evs hb hk (by simp)
  cases hr : readLineLoop [] b evs with
  | none =>
    obtain ⟨t, ht, hn⟩ := h2 hr
    obtain ⟨t', i, ha, hi, hc, _⟩ := h.shape
    exfalso
    rw [ht] at hc
    have hmem : i ∈ t.map Item.byte := by rw [hc]; simp
    obtain ⟨x, hx, rfl⟩ := List.mem_map.mp hmem
    have := hi x rfl
    subst this
    exact hn hx
  | some p =>
    obtain ⟨r', b', evs'⟩ := p
    obtain ⟨hs, hb', hk'⟩ := h1 r' b' evs' hr
    obtain ⟨rfl, he⟩ := SpecLine.det (by simpa using hs) h
    exact ⟨b', evs', hr, he, hb', hk'⟩

theorem linesOf_eq_nil {l : List Byte} : linesOf l = [] ↔ l = [] := by
  cases l with
  | nil => simp [linesOf]
  | cons b l =>
    simp only [linesOf]
    split
    · simp
    · split <;> simp

theorem linesOf_newline (t rest : List Byte) (h : 10 ∉ t) :
    linesOf (t ++ 10 :: rest) = (t, true) :: linesOf rest := by
  induction t with
  | nil => simp [linesOf]
  | cons a t ih =>
    simp at h
    have ha : a ≠ 10 := fun e => h.1 e.symm
    simp [linesOf, ha, ih h.2]

theorem linesOf_last (t : List Byte) (h : 10 ∉ t) (hn : t ≠ []) : linesOf t = [(t, false)] := by
  induction t with
  | nil => simp at hn
  | cons a t ih =>
    simp at h
    have ha : a ≠ 10 := fun e => h.1 e.symm
    by_cases ht : t = []
    · subst ht; simp [linesOf, ha]
    · simp [linesOf, ha, ih h.2 ht]

theorem split_newline (l : List Byte) : 10 ∉ l ∨ ∃ t rest, l = t ++ 10 :: rest ∧ 10 ∉ t := by
  induction l with
  | nil => simp
  | cons a l ih =>
    by_cases ha : a = 10
    · subst ha; exact Or.inr ⟨[], l, rfl, by simp⟩
    · rcases ih with h | ⟨t, rest, rfl, ht⟩
      · left; simp [h]; exact fun e => ha e.symm
      · exact Or.inr ⟨a :: t, rest, rfl, by simp [ht]; exact fun e => ha e.symm⟩

theorem readLines_file (n : Nat) : ∀ (k : Nat) (input : List Byte) (b : StdinBuffer) (evs : List Event),
    BufOk b → KernelOk evs → content b evs = input.map .byte ++ List.replicate k .eof → n ≤ k →
    readLines b evs n =
      some (((linesOf input).map lineOf ++ List.replicate n LineResult.endOfFile).take n) := by
  induction n with
  | zero => intros; simp [readLines]
  | succ n ih =>
    intro k input b evs hb hk hc hnk
    obtain ⟨k, rfl⟩ : ∃ k', k = k' + 1 := ⟨k - 1, by omega⟩
    have hnk' : n ≤ k := by omega
    rcases split_newline input with hno | ⟨t, rest, rfl, ht⟩
    · by_cases hemp : input = []
      · subst hemp
        have hs : SpecLine (content b evs) .endOfFile (List.replicate k .eof) := by
          rw [hc]; simp [List.replicate_succ]; exact .eof _
        obtain ⟨b', evs', hr, hc', hb', hk'⟩ := readLine_complete hb hk hs
        have := ih k [] b' evs' hb' hk' (by simpa using hc') hnk'
        simp only [readLines, hr, Option.bind_eq_bind, Option.bind_some, this]
        simp [linesOf, List.replicate_succ]
      · have hs : SpecLine (content b evs) (classify input) (List.replicate k .eof) := by
          rw [hc]; simp only [List.replicate_succ]; exact .lastLine input _ hno hemp
        obtain ⟨b', evs', hr, hc', hb', hk'⟩ := readLine_complete hb hk hs
        have := ih k [] b' evs' hb' hk' (by simpa using hc') hnk'
        simp only [readLines, hr, Option.bind_eq_bind, Option.bind_some, this]
        rw [linesOf_last input hno hemp]
        simp only [linesOf, List.map_nil, List.map_cons, List.nil_append, List.cons_append, lineOf,
          List.take_succ_cons]
        simp only [List.take_replicate]
        simp
    · have hs : SpecLine (content b evs) (classify (stripCr t))
          (rest.map .byte ++ List.replicate (k + 1) .eof) := by
        rw [hc]; simp only [List.map_append, List.map_cons, List.append_assoc, List.cons_append]
        exact .newline t _ ht
      obtain ⟨b', evs', hr, hc', hb', hk'⟩ := readLine_complete hb hk hs
      have := ih (k + 1) rest b' evs' hb' hk' hc' (by omega)
      simp only [readLines, hr, Option.bind_eq_bind, Option.bind_some, this]
      rw [linesOf_newline t rest ht]
      simp only [List.map_cons, lineOf, if_true, List.cons_append, List.take_succ_cons]
      congr 2
      rw [List.replicate_succ', ← List.append_assoc]
      rw [List.take_append_of_le_length (l₂ := [_])]
      simp

end Verif.Io
