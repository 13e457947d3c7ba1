import Verif.WasmIo.Drain
import Verif.Io.Props
/-!
# Property C88: standard output on WebAssembly

`print` and `print_line` on WebAssembly call `__tribute_wasi_write` with the bytes of the text and a flag
for the newline. The theorems are about every `Bytes` value, every content, size and limit of the
memory, every place at which the helper's own memory starts, and every sequence of answers of the host.
-/
namespace Verif.WasmIo

/-- A memory of one page that may grow, and a host with these answers. -/
def demoWorld (sched : List HostRes) : World := ⟨fun _ => 7, 1, 100, sched, []⟩

/-- Five bytes, of which the three in the middle are printed. -/
def demoData : List Byte := [1, 72, 105, 33, 2]

theorem demo_valid : ValidBytes demoData 1 3 := ⟨by decide, by decide⟩

theorem demo_fits (sched : List HostRes) : Fits (demoWorld sched) (layout 0).scratch (3 + 1) := by
  constructor <;> simp [demoWorld, layout]

/-- C88, output. However a call of `print` or `print_line` ends or waits:
* what the host took is the beginning of the text (with its newline);
* each call of the host offers exactly the bytes that are left, and at least one;
* the answers used are the first ones of the host, and after the first one without progress there is no
  further call;
* if the call returned and the host made progress each time, the host has taken the whole text;
* if it waits, something is left to write, and the host made progress each time.

Missing: that a call that returns has written the text, which is false (`C88_violated`). -/
theorem C88_output_partial {base : Nat} {d : List Byte} {o len nl : Nat} {w w' : World} {e : End}
    (hb : ValidBytes d o len) (hnl : nl ≤ 1) (ha : (layout base).scratch < 2 ^ 32)
    (hc : w.calls = []) (h : EndsIn base d o len nl w e w') :
    accepted w'.calls <+: wanted d o len nl ∧
    (∀ i c, w'.calls[i]? = some c →
      c.offered ≠ [] ∧ accepted (w'.calls.take i) ++ c.offered = wanted d o len nl) ∧
    w'.calls.map (·.result) ++ w'.sched = w.sched ∧
    (∀ i c, w'.calls[i]? = some c → i + 1 < w'.calls.length → c.progress) ∧
    (e = .returned → (∀ c ∈ w'.calls, c.progress) → accepted w'.calls = wanted d o len nl) ∧
    (e = .waiting → w'.sched = [] ∧ accepted w'.calls ≠ wanted d o len nl ∧
      ∀ c ∈ w'.calls, c.progress) := by
  by_cases hf : Fits w (layout base).scratch (len + nl)
  · obtain ⟨_, _, _, h1, h2, h3⟩ := ends_fit hb hnl hf h
    rw [hc, List.nil_append] at h1
    rw [h1, h2]
    refine ⟨drain_prefix _ _, drain_offers _ _, drain_sched _ _, drain_stop _ _, ?_, ?_⟩
    · intro he hp
      refine drain_all _ _ ?_ hp
      cases hd : (drain (wanted d o len nl) w.sched).2.1 with
      | true => rfl
      | false => rw [hd, he] at h3; cases h3
    · intro he
      refine drain_waits _ _ ?_
      cases hd : (drain (wanted d o len nl) w.sched).2.1 with
      | false => rfl
      | true => rw [hd, he] at h3; cases h3
  · obtain ⟨rfl, rfl⟩ := ends_unique h (ends_trap hb hnl ha hf)
    rw [hc]
    simp [accepted]

/-- The whole text, in three calls with an interruption. -/
example : ∃ w', EndsIn 0 demoData 1 3 1 (demoWorld [.wrote 1, .errno interrupted, .wrote 3]) .returned w' ∧
    (∀ c ∈ w'.calls, c.progress) ∧ accepted w'.calls = [72, 105, 33, 10] := by
  obtain ⟨w', h⟩ := ends_exists (base := 0) (nl := 1) demo_valid (by omega)
    (demo_fits [.wrote 1, .errno interrupted, .wrote 3])
  rw [if_pos (by decide)] at h
  obtain ⟨_, _, _, h1, _, _⟩ := ends_fit demo_valid (by omega) (demo_fits _) h
  have h2 : w'.calls = [⟨[72, 105, 33, 10], .wrote 1⟩, ⟨[105, 33, 10], .errno interrupted⟩,
      ⟨[105, 33, 10], .wrote 3⟩] := h1.trans (by decide)
  refine ⟨w', h, ?_, by rw [h2]; decide⟩
  rw [h2]
  intro c hc
  simp only [List.mem_cons, List.not_mem_nil, or_false] at hc
  rcases hc with rfl | rfl | rfl
  · exact .inr ⟨1, rfl, by omega⟩
  · exact .inl rfl
  · exact .inr ⟨3, rfl, by omega⟩

/-- C88, every call ends: for every `Bytes` value there is exactly one way in which a call ends or waits.
It traps exactly when there is no room for the text, and it never does what no valid module does (such as
reading outside the array of the value, or taking an integer for a reference). -/
theorem C88_ends {base : Nat} {d : List Byte} {o len nl : Nat} (w : World)
    (hb : ValidBytes d o len) (hnl : nl ≤ 1) (ha : (layout base).scratch < 2 ^ 32) :
    (∃ e w', EndsIn base d o len nl w e w' ∧
      (e = .trapped ↔ ¬ Fits w (layout base).scratch (len + nl))) ∧
    ∀ e₁ e₂ w₁ w₂, EndsIn base d o len nl w e₁ w₁ → EndsIn base d o len nl w e₂ w₂ →
      e₁ = e₂ ∧ w₁ = w₂ := by
  refine ⟨?_, fun _ _ _ _ h₁ h₂ => ends_unique h₁ h₂⟩
  by_cases hf : Fits w (layout base).scratch (len + nl)
  · obtain ⟨w', h⟩ := ends_exists hb hnl hf
    refine ⟨_, w', h, ?_⟩
    cases (drain (wanted d o len nl) w.sched).2.1 <;> simp [hf]
  · exact ⟨_, w, ends_trap hb hnl ha hf, by simp [hf]⟩

example : ∃ e w', EndsIn 0 demoData 1 3 1 (demoWorld []) e w' :=
  let ⟨e, w', h, _⟩ := (C88_ends (base := 0) (demoWorld []) demo_valid (nl := 1) (by omega) (by decide)).1
  ⟨e, w', h⟩

/-- C88, memory: a call changes only its own places of the memory, from the start of its area to the end
of the text, and only lets the memory grow, up to what the text needs. -/
theorem C88_memory {base : Nat} {d : List Byte} {o len nl : Nat} {w w' : World} {e : End}
    (hb : ValidBytes d o len) (hnl : nl ≤ 1) (ha : (layout base).scratch < 2 ^ 32)
    (h : EndsIn base d o len nl w e w') :
    (∀ x, x < base ∨ (layout base).scratch + (len + nl) ≤ x → w'.mem x = w.mem x) ∧
    w.pages ≤ w'.pages ∧
    (w.pages < w'.pages → (w'.pages - 1) * 65536 < (layout base).scratch + (len + nl) ∧
      w'.pages ≤ min w.limit 65536) := by
  by_cases hf : Fits w (layout base).scratch (len + nl)
  · obtain ⟨h1, h2, _⟩ := ends_fit hb hnl hf h
    have hpos : 0 < (layout base).scratch + (len + nl) := by
      have := (layout_ok base).nwritten; omega
    have hle := (pagesFor_le (k := max w.pages (min w.limit 65536)) hpos).mpr hf.2
    refine ⟨fun x hx => h1 x ?_, by omega, fun hlt => ⟨?_, by omega⟩⟩
    · have : base ≤ (layout base).iovec := by simp [layout]; omega
      omega
    · have hp : w'.pages = pagesFor ((layout base).scratch + (len + nl)) := by omega
      rw [hp]
      unfold pagesFor
      omega
  · obtain ⟨rfl, rfl⟩ := ends_unique h (ends_trap hb hnl ha hf)
    exact ⟨fun _ _ => rfl, Nat.le_refl _, fun h => absurd h (Nat.lt_irrefl _)⟩

/-- A text of two pages: the memory grows from one page to three. -/
example (d : List Byte) (hl : d.length = 131072) :
    ∃ w', EndsIn 0 d 0 131072 0 (demoWorld [.wrote 131072]) .returned w' ∧ w'.pages = 3 := by
  have hb : ValidBytes d 0 131072 := ⟨by omega, by omega⟩
  have hf : Fits (demoWorld [.wrote 131072]) (layout 0).scratch (131072 + 0) := by
    constructor <;> simp [demoWorld, layout]
  obtain ⟨w', h⟩ := ends_exists (base := 0) (nl := 0) hb (by omega) hf
  have hw : wanted d 0 131072 0 = d := by simp [wanted, ← hl]
  have hd : (drain (wanted d 0 131072 0) (demoWorld [.wrote 131072]).sched).2.1 = true := by
    rw [hw]
    have : d.drop 131072 = [] := List.drop_eq_nil_of_le (by omega)
    cases d with
    | nil => rfl
    | cons b bs =>
      rw [demoWorld, drain, if_neg (by simp)]
      simp only []
      rw [if_neg (by omega), this]
      rfl
  rw [hd, if_pos rfl] at h
  obtain ⟨_, h2, _⟩ := ends_fit hb (by omega) hf h
  exact ⟨w', h, h2.trans (by simp [demoWorld, layout, pagesFor])⟩

/-- C88, no room: a text for which the memory is too small, or that does not fit into the address space,
traps, and nothing has been written or changed. -/
theorem C88_no_room {base : Nat} {d : List Byte} {o len nl : Nat} {w : World}
    (hb : ValidBytes d o len) (hnl : nl ≤ 1) (ha : (layout base).scratch < 2 ^ 32)
    (hf : ¬ Fits w (layout base).scratch (len + nl)) :
    EndsIn base d o len nl w .trapped w := ends_trap hb hnl ha hf

/-- A memory that may not grow, and a text of one page. -/
example : EndsIn 0 (List.replicate 65536 1) 0 65536 1 ⟨fun _ => 0, 1, 1, [.wrote 9], []⟩ .trapped
    ⟨fun _ => 0, 1, 1, [.wrote 9], []⟩ :=
  C88_no_room ⟨by rw [List.length_replicate]; omega, by rw [List.length_replicate]; omega⟩ (by omega)
    (by decide) (fun h => absurd h.2 (by simp [layout]))

/-- C88 is false when the host reports an error: for every non-empty text and every error other than an
interruption, the call returns as if nothing had happened, nothing has been written, and what the program
can see is the same as after success. -/
theorem C88_violated {base : Nat} {d : List Byte} {o len nl : Nat} (w : World) (e : Fin 76)
    (hb : ValidBytes d o len) (hnl : nl ≤ 1) (hf : Fits w (layout base).scratch (len + nl))
    (hc : w.calls = []) (hs : w.sched = [.errno e]) (he : e ≠ interrupted)
    (ht : wanted d o len nl ≠ []) :
    ∃ w', EndsIn base d o len nl w .returned w' ∧ accepted w'.calls = [] ∧
      accepted w'.calls ≠ wanted d o len nl := by
  have he' : e.val ≠ 26 := fun h => he (Fin.ext h)
  have hd : drain (wanted d o len nl) w.sched = ([⟨wanted d o len nl, .errno e⟩], true, []) := by
    rw [hs]
    cases hw : wanted d o len nl with
    | nil => exact absurd hw ht
    | cons b bs => simp [drain, he']
  obtain ⟨w', h⟩ := ends_exists hb hnl hf
  rw [hd, if_pos rfl] at h
  obtain ⟨_, _, _, h1, _⟩ := ends_fit hb hnl hf h
  rw [hd, hc] at h1
  have : accepted w'.calls = [] := by rw [h1]; rfl
  exact ⟨w', h, this, by rw [this]; exact ht.symm⟩

example : ∃ w', EndsIn 0 demoData 1 3 1 (demoWorld [.errno 50]) .returned w' ∧ accepted w'.calls = [] :=
  let ⟨w', h1, h2, _⟩ := C88_violated (base := 0) (demoWorld [.errno 50]) 50 demo_valid (nl := 1) (by omega)
    (demo_fits _) rfl rfl (by decide) (by decide)
  ⟨w', h1, h2⟩

/-- C88, the targets agree: for a host that never claims to have taken more than it was offered, the calls
are those that the native runtime makes when it writes the same bytes and gets the same answers, and it
waits exactly when the native runtime does. -/
theorem C88_same_as_native {base : Nat} {d : List Byte} {o len nl : Nat} {w w' : World} {e : End}
    (hb : ValidBytes d o len) (hnl : nl ≤ 1) (hf : Fits w (layout base).scratch (len + nl))
    (hc : w.calls = []) (hl : ∀ c ∈ w'.calls, c.lawful) (h : EndsIn base d o len nl w e w') :
    w'.calls.map Call.native =
      (Io.writeAllWith (wanted d o len nl) (w.sched.map toNative)).1 ∧
    (e = .waiting ↔
      ∃ r, (Io.writeAllWith (wanted d o len nl) (w.sched.map toNative)).2.1 = .blocked r) := by
  obtain ⟨_, _, _, h1, _, h3⟩ := ends_fit hb hnl hf h
  rw [hc, List.nil_append] at h1
  rw [h1] at hl ⊢
  obtain ⟨g1, g2⟩ := drain_native _ _ hl
  refine ⟨g1, ?_⟩
  rw [← g2, h3]
  cases (drain (wanted d o len nl) w.sched).2.1 <;> simp

/-- C88, `print` on both targets: without a newline the native runtime makes exactly these calls. -/
theorem C88_print_same_as_native {base : Nat} {d : List Byte} {o len : Nat} {w w' : World} {e : End}
    (hb : ValidBytes d o len) (hf : Fits w (layout base).scratch len)
    (hc : w.calls = []) (hl : ∀ c ∈ w'.calls, c.lawful) (h : EndsIn base d o len 0 w e w') :
    w'.calls.map Call.native = (Io.ioWrite ((d.drop o).take len) 0 (w.sched.map toNative)).1 := by
  rw [(C88_same_as_native hb (by omega) hf hc hl h).1]
  have hw : wanted d o len 0 = (d.drop o).take len := by simp [wanted]
  rw [hw]
  unfold Io.ioWrite Io.bytesPrint
  cases ht : (d.drop o).take len with
  | nil => unfold Io.writeAllWith; simp
  | cons b bs =>
    rw [if_pos (by simp)]
    rcases Io.writeAllWith (b :: bs) (w.sched.map toNative) with ⟨cs, _ | _, s⟩ <;> simp

/-- C88, `print_line` on both targets: when the host makes progress each time and both calls return, the
same bytes have been written, although the native runtime writes text and newline separately. -/
theorem C88_print_line_same_as_native {base : Nat} {d : List Byte} {o len : Nat} {w w' : World}
    (hb : ValidBytes d o len) (ha : (layout base).scratch < 2 ^ 32) (hc : w.calls = [])
    (hp : ∀ c ∈ w'.calls, c.progress) (h : EndsIn base d o len 1 w .returned w')
    (sched : List Io.WriteRes) (cs : List Io.Call) (s : List Io.WriteRes)
    (hn : Io.ioWrite ((d.drop o).take len) 1 sched = (cs, .returned true, s))
    (hok : (Io.writeAllWith ((d.drop o).take len) sched).2.1 ≠ .returned false) :
    Io.accepted cs = accepted w'.calls := by
  rw [(Io.C02_print_line_partial _ _ _ _ _ hn hok).2 rfl]
  obtain ⟨_, _, _, _, h5, _⟩ := C88_output_partial hb (by omega) ha hc h
  rw [h5 rfl hp]
  simp [wanted]

example : Io.ioWrite ((demoData.drop 1).take 3) 1 [.ok 3, .ok 1] =
    ([⟨[72, 105, 33], .ok 3⟩, ⟨[10], .ok 1⟩], .returned true, []) := by decide

end Verif.WasmIo
