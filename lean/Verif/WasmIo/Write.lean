import Verif.WasmIo.Loops
/-! The write loop and the whole function. -/
namespace Verif.WasmIo
open Instr

/-- What the loop does with the bytes that are left: the calls, whether it ends, and what the host has
not been asked yet. -/
def drain (rest : List Byte) : List HostRes → List Call × Bool × List HostRes
  | [] => ([], rest.isEmpty, [])
  | r :: sched =>
    if rest.isEmpty then ([], true, r :: sched) else
    match r with
    | .wrote k =>
      if k = 0 then ([⟨rest, .wrote k⟩], true, sched) else
      let t := drain (rest.drop k) sched
      (⟨rest, .wrote k⟩ :: t.1, t.2)
    | .errno e =>
      if e.val = 26 then
        let t := drain rest sched
        (⟨rest, .errno e⟩ :: t.1, t.2)
      else ([⟨rest, .errno e⟩], true, sched)

/-- The places of the layout do not overlap. -/
structure Layout.Ok (a : Layout) : Prop where
  iovec : a.iovec + 8 ≤ a.nwritten
  nwritten : a.nwritten + 4 ≤ a.scratch

theorem layout_ok (base : Nat) : (layout base).Ok := by
  constructor <;> simp [layout]

/-- Outside the places used by the function, memory is the same. -/
def Agree (a : Layout) (m m' : Nat → Byte) : Prop :=
  ∀ x, x < a.iovec ∨ a.scratch ≤ x → m' x = m x

theorem Agree.trans {a : Layout} {m m' m'' : Nat → Byte} (h : Agree a m m') (h' : Agree a m' m'') :
    Agree a m m'' := fun x hx => (h' x hx).trans (h x hx)

attribute [local irreducible] wadd wsub two32 getWord setWord

theorem write_done (n : Nat) (a : Layout) (l : Nat → V) (w : World) {d : List Byte} {o len nl sc i : Nat}
    (f : Facts l d o len nl sc) (h : l 38 = .i32 i) (hi : len + nl ≤ i) :
    ∃ l', execs n (writeBody a) [] ⟨l, w⟩ = some (.branch 1 ⟨l', w⟩) := by
  have c : decide (i ≥ len + nl) = true := decide_eq_true hi
  exact ⟨_, by run [writeBody, writeCall, List.cons_append, h, f.h5, c]; rfl⟩

/-- The memory when the host is called. -/
def callMem (a : Layout) (m : Nat → Byte) (ptr k : Nat) : Nat → Byte :=
  setWord (setWord m a.iovec ptr) (a.iovec + 4) k

theorem write_call (n : Nat) (a : Layout) (l : Nat → V) (w : World) {d : List Byte} {o len nl sc i : Nat}
    (f : Facts l d o len nl sc) (h : l 38 = .i32 i) (hi : i < len + nl) (ha : a.Ok)
    (hs : a.scratch + (len + nl) < two32) (hw : a.scratch + (len + nl) ≤ w.pages * 65536) :
    ∃ l', execs n (writeCall a) [] ⟨l, w⟩ =
        some (.next [.i32 a.nwritten, .i32 1, .i32 a.iovec, .i32 1]
          ⟨l', { w with mem := callMem a w.mem (a.scratch + i) (len + nl - i) }⟩) ∧
      l' 46 = .i32 a.nwritten ∧ l' 38 = .i32 i ∧ Keeps l l' := by
  have c : decide (i ≥ len + nl) = false := by simp; omega
  have e1 : wadd a.scratch i = a.scratch + i := by
    unfold wadd; exact Nat.mod_eq_of_lt (by omega)
  have e2 : wsub (len + nl) i = len + nl - i := by
    unfold wsub; rw [show len + nl + two32 - i = len + nl - i + two32 by omega, Nat.add_mod_right]
    exact Nat.mod_eq_of_lt (by omega)
  have h1 := ha.iovec
  have h2 := ha.nwritten
  have hw1 : w.has (a.iovec + 0) 4 = true := by simp [World.has]; omega
  have hw2 : ∀ m, World.has { w with mem := m } (a.iovec + 4) 4 = true := by
    intro m; simp [World.has]; omega
  refine ⟨_, by
    run [writeCall, h, f.h5, c, e1, e2, run_store _ _ _ _ _ _ _ _ hw1,
      run_store _ _ _ _ _ _ _ _ (hw2 _), Nat.add_zero]
    rfl, by simp [upd_get], by simp [upd_get, h], fun j hj => ?_⟩
  simp [upd_get, show j ≠ 39 by omega, show j ≠ 40 by omega, show j ≠ 41 by omega,
    show j ≠ 42 by omega, show j ≠ 43 by omega, show j ≠ 44 by omega, show j ≠ 45 by omega,
    show j ≠ 46 by omega]

theorem callMem_agree (a : Layout) (m : Nat → Byte) (ptr k : Nat) (ha : a.Ok) :
    Agree a m (callMem a m ptr k) := by
  have h1 := ha.iovec
  have h2 := ha.nwritten
  intro x hx
  rw [callMem, setWord_out _ _ _ _ (by omega), setWord_out _ _ _ _ (by omega)]

theorem callMem_ptr (a : Layout) (m : Nat → Byte) (ptr k : Nat) (h : ptr < two32) :
    getWord (callMem a m ptr k) a.iovec = ptr := by
  rw [callMem, getWord_congr (m := setWord m a.iovec ptr), getWord_setWord _ _ _ h]
  intro x _ _
  rw [setWord_out _ _ _ _ (by omega)]

theorem callMem_len (a : Layout) (m : Nat → Byte) (ptr k : Nat) (h : k < two32) :
    getWord (callMem a m ptr k) (a.iovec + 4) = k := by
  rw [callMem, getWord_setWord _ _ _ h]

/-- One call of the host. -/
theorem fdWrite_call (a : Layout) (w : World) {i t : Nat} (hi : i < t) (ha : a.Ok)
    (hs : a.scratch + t < two32) (hw : a.scratch + t ≤ w.pages * 65536) :
    fdWrite { w with mem := callMem a w.mem (a.scratch + i) (t - i) } 1 a.iovec 1 a.nwritten =
      (let rest := readBytes w.mem (a.scratch + i) (t - i)
       let w1 := { w with mem := callMem a w.mem (a.scratch + i) (t - i) }
       match w.sched with
       | [] => some (none, w1)
       | .wrote k :: sched =>
         some (some 0, { w1 with
           mem := setWord w1.mem a.nwritten (min k (t - i)), sched := sched
           calls := w.calls ++ [⟨rest, .wrote k⟩] })
       | .errno e :: sched =>
         some (some (e.val + 1), { w1 with
           sched := sched, calls := w.calls ++ [⟨rest, .errno e⟩] })) := by
  have h1 := ha.iovec
  have h2 := ha.nwritten
  have g1 : World.has { w with mem := callMem a w.mem (a.scratch + i) (t - i) } a.iovec 8 = true := by
    simp [World.has]; omega
  have g2 : World.has { w with mem := callMem a w.mem (a.scratch + i) (t - i) } a.nwritten 4 = true := by
    simp [World.has]; omega
  have g3 : World.has { w with mem := callMem a w.mem (a.scratch + i) (t - i) } (a.scratch + i) (t - i)
      = true := by
    simp [World.has]; omega
  have g4 : readBytes (callMem a w.mem (a.scratch + i) (t - i)) (a.scratch + i) (t - i) =
      readBytes w.mem (a.scratch + i) (t - i) :=
    readBytes_congr fun x _ _ => callMem_agree a w.mem _ _ ha x (by omega)
  unfold fdWrite
  rw [if_pos ⟨rfl, rfl, g1, g2⟩]
  simp only [callMem_ptr a w.mem (a.scratch + i) (t - i) (by omega),
    callMem_len a w.mem (a.scratch + i) (t - i) (by omega), g3, if_true, g4]
  rcases w.sched with _ | ⟨_ | _, _⟩ <;> rfl

theorem run_fdWrite (n : Nat) (is : List Instr) (st : List V) (l : Nat → V) (w w' : World)
    {fd iovs k nw r : Nat} (h : fdWrite w fd iovs k nw = some (some r, w')) :
    execs n (prim .fdWrite :: is) (.i32 nw :: .i32 k :: .i32 iovs :: .i32 fd :: st) ⟨l, w⟩ =
      execs n is (.i32 r :: st) ⟨l, w'⟩ := by
  rw [execs, exec]; simp only [step, h]

theorem run_fdWait (n : Nat) (is : List Instr) (st : List V) (l : Nat → V) (w w' : World)
    {fd iovs k nw : Nat} (h : fdWrite w fd iovs k nw = some (none, w')) :
    execs n (prim .fdWrite :: is) (.i32 nw :: .i32 k :: .i32 iovs :: .i32 fd :: st) ⟨l, w⟩ =
      some (.waiting ⟨l, w'⟩) := by
  rw [execs, exec]; simp only [step, h]

/-! After the call. -/

theorem done_progress (n : Nat) (a : Layout) (l : Nat → V) (w : World) {i k : Nat}
    (h46 : l 46 = .i32 a.nwritten) (h38 : l 38 = .i32 i) (hw : w.has a.nwritten 4 = true)
    (hk : getWord w.mem a.nwritten = k) (h0 : 0 < k) (hs : i + k < two32) :
    ∃ l', execs n writeDone [.i32 0] ⟨l, w⟩ = some (.branch 0 ⟨l', w⟩) ∧ l' 38 = .i32 (i + k) ∧
      Keeps l l' := by
  have e : wadd i k = i + k := by unfold wadd; exact Nat.mod_eq_of_lt hs
  have hw' : w.has (a.nwritten + 0) 4 = true := hw
  have c : decide (k = 0) = false := by simp; omega
  refine ⟨_, by
    run [writeDone, h46, h38, decide_true, run_load _ _ _ _ _ _ _ hw', Nat.add_zero, hk, c, e]
    rfl, by simp [upd_get], fun j hj => ?_⟩
  simp [upd_get, show j ≠ 47 by omega, show j ≠ 48 by omega, show j ≠ 49 by omega,
    show j ≠ 50 by omega, show j ≠ 51 by omega, show j ≠ 52 by omega, show j ≠ 38 by omega]

theorem done_zero (n : Nat) (a : Layout) (l : Nat → V) (w : World)
    (h46 : l 46 = .i32 a.nwritten) (hw : w.has a.nwritten 4 = true) (hk : getWord w.mem a.nwritten = 0) :
    ∃ l', execs n writeDone [.i32 0] ⟨l, w⟩ = some (.branch 1 ⟨l', w⟩) := by
  have hw' : w.has (a.nwritten + 0) 4 = true := hw
  exact ⟨_, by
    run [writeDone, h46, decide_true, run_load _ _ _ _ _ _ _ hw', Nat.add_zero, hk]
    rfl⟩

theorem done_again (n : Nat) (l : Nat → V) (w : World) {i : Nat} (h38 : l 38 = .i32 i) :
    ∃ l', execs n writeDone [.i32 27] ⟨l, w⟩ = some (.branch 0 ⟨l', w⟩) ∧ l' 38 = .i32 i ∧
      Keeps l l' := by
  have c : decide ((27 : Nat) = 0) = false := rfl
  refine ⟨_, by
    run [writeDone, c, decide_true]
    rfl, by simp [upd_get, h38], fun j hj => ?_⟩
  simp [upd_get, show j ≠ 47 by omega, show j ≠ 48 by omega, show j ≠ 49 by omega,
    show j ≠ 53 by omega, show j ≠ 54 by omega]

theorem done_error (n : Nat) (l : Nat → V) (w : World) {e : Nat} (h0 : e ≠ 0) (h : e ≠ 27) :
    ∃ l', execs n writeDone [.i32 e] ⟨l, w⟩ = some (.branch 1 ⟨l', w⟩) := by
  have c : decide (e = 0) = false := by simp [h0]
  have c' : decide (e = 27) = false := by simp [h]
  exact ⟨_, by
    run [writeDone, c, c']
    rfl⟩

/-! ## The loop -/

theorem write_loop (n : Nat) (a : Layout) {d : List Byte} {o len nl sc : Nat} (ha : a.Ok)
    (hs : a.scratch + (len + nl) < two32) :
    ∀ (sched : List HostRes) (i k : Nat) (l : Nat → V) (w : World), i ≤ len + nl → w.sched = sched →
      sched.length < k → Facts l d o len nl sc → l 38 = .i32 i →
      a.scratch + (len + nl) ≤ w.pages * 65536 →
      ∃ l' m', Agree a w.mem m' ∧
        rounds (fun s => execs n (writeBody a) [] s) [] k ⟨l, w⟩ =
          (let t := drain (readBytes w.mem (a.scratch + i) (len + nl - i)) sched
           let s' : St := ⟨l', { w with mem := m', sched := t.2.2, calls := w.calls ++ t.1 }⟩
           some (if t.2.1 then .branch 0 s' else .waiting s')) := by
  intro sched
  have hemp : ∀ (w : World) i, i ≤ len + nl →
      (readBytes w.mem (a.scratch + i) (len + nl - i)).isEmpty = decide (len + nl ≤ i) := by
    intro w i hi
    have hlen := readBytes_length w.mem (a.scratch + i) (len + nl - i)
    cases hr : readBytes w.mem (a.scratch + i) (len + nl - i) with
    | nil => rw [hr, List.length_nil] at hlen; simp; omega
    | cons b bs => rw [hr, List.length_cons] at hlen; simp; omega
  induction sched with
  | nil =>
    intro i k l w hi hsc hk f h hw
    obtain ⟨k, rfl⟩ := Nat.exists_eq_add_of_lt hk
    by_cases hd : len + nl ≤ i
    · obtain ⟨l', hl⟩ := write_done n a l w f h hd
      refine ⟨l', w.mem, fun _ _ => rfl, ?_⟩
      simp only [rounds, hl, drain, hemp w i hi, decide_eq_true hd, if_true, List.append_nil]
      rw [← hsc]
    · obtain ⟨l1, hl, _, _, _⟩ := write_call n a l w f h (by omega) ha hs hw
      refine ⟨l1, _, callMem_agree a w.mem (a.scratch + i) (len + nl - i) ha, ?_⟩
      have hfd := fdWrite_call a w (i := i) (t := len + nl) (by omega) ha hs hw
      rw [hsc] at hfd hl
      have : execs n (writeBody a) [] ⟨l, w⟩ = some (.waiting ⟨l1,
          { w with mem := callMem a w.mem (a.scratch + i) (len + nl - i), sched := [] }⟩) := by
        rw [writeBody, execs_append, hl]
        exact run_fdWait _ _ _ _ _ _ hfd
      simp only [rounds, this, drain, hemp w i hi, decide_eq_false hd, List.append_nil]
      simp [hsc]
  | cons r sched ih =>
    intro i k l w hi hsc hk f h hw
    obtain ⟨k, rfl⟩ := Nat.exists_eq_add_of_lt hk
    by_cases hd : len + nl ≤ i
    · obtain ⟨l', hl⟩ := write_done n a l w f h hd
      refine ⟨l', w.mem, fun _ _ => rfl, ?_⟩
      simp only [rounds, hl, drain, hemp w i hi, decide_eq_true hd, if_true, List.append_nil]
      rw [← hsc]
    · obtain ⟨l1, hl, h46, h38, hkp⟩ := write_call n a l w f h (by omega) ha hs hw
      have hfd := fdWrite_call a w (i := i) (t := len + nl) (by omega) ha hs hw
      rw [hsc] at hfd hl
      have hag := callMem_agree a w.mem (a.scratch + i) (len + nl - i) ha
      have ho1 := ha.iovec
      have ho2 := ha.nwritten
      have hb : ∀ e w' o', fdWrite { w with
            mem := callMem a w.mem (a.scratch + i) (len + nl - i), sched := r :: sched }
            1 a.iovec 1 a.nwritten = some (some e, w') →
          execs n writeDone [.i32 e] ⟨l1, w'⟩ = o' → execs n (writeBody a) [] ⟨l, w⟩ = o' := by
        intro e w' o' he ho'
        rw [writeBody, execs_append, hl]
        exact (run_fdWrite _ _ _ _ _ _ he).trans ho'
      cases r with
      | wrote c =>
        simp only [] at hfd
        have hag2 : Agree a w.mem (setWord (callMem a w.mem (a.scratch + i) (len + nl - i)) a.nwritten
            (min c (len + nl - i))) := by
          intro x hx
          rw [setWord_out _ _ _ _ (by omega), hag x hx]
        by_cases hc : c = 0
        · subst hc
          obtain ⟨l', hl'⟩ := done_zero n a l1
            { w with
              mem := setWord (callMem a w.mem (a.scratch + i) (len + nl - i)) a.nwritten
                (min 0 (len + nl - i))
              sched := sched
              calls := w.calls ++ [⟨readBytes w.mem (a.scratch + i) (len + nl - i), .wrote 0⟩] } h46
            (by simp [World.has]; omega) (by
              rw [getWord_setWord]
              · omega
              · omega)
          refine ⟨l', _, hag2, ?_⟩
          simp only [rounds, hb _ _ _ hfd hl', drain, hemp w i hi, decide_eq_false hd, if_true]
          rfl
        · obtain ⟨l', hl', h38', hkp'⟩ := done_progress n a l1
            { w with
              mem := setWord (callMem a w.mem (a.scratch + i) (len + nl - i)) a.nwritten
                (min c (len + nl - i))
              sched := sched
              calls := w.calls ++ [⟨readBytes w.mem (a.scratch + i) (len + nl - i), .wrote c⟩] } h46 h38
            (by simp [World.has]; omega) (getWord_setWord _ _ _ (by omega)) (by omega) (by omega)
          obtain ⟨l2, m2, hag3, hr⟩ := ih (i + min c (len + nl - i)) (sched.length + 1 + k) l'
            { w with
              mem := setWord (callMem a w.mem (a.scratch + i) (len + nl - i)) a.nwritten
                (min c (len + nl - i))
              sched := sched
              calls := w.calls ++ [⟨readBytes w.mem (a.scratch + i) (len + nl - i), .wrote c⟩] }
            (by omega) rfl (by omega) ((f.keep hkp).keep hkp') h38' hw
          refine ⟨l2, m2, hag2.trans hag3, ?_⟩
          have hrest : readBytes (setWord (callMem a w.mem (a.scratch + i) (len + nl - i)) a.nwritten
                (min c (len + nl - i))) (a.scratch + (i + min c (len + nl - i)))
                (len + nl - (i + min c (len + nl - i))) =
              (readBytes w.mem (a.scratch + i) (len + nl - i)).drop c := by
            rw [readBytes_congr fun x _ _ => hag2 x (by omega), readBytes_drop]
            by_cases hle : c ≤ len + nl - i
            · rw [Nat.min_eq_left hle, show a.scratch + (i + c) = a.scratch + i + c by omega,
                show len + nl - (i + c) = len + nl - i - c by omega]
            · rw [show len + nl - (i + min c (len + nl - i)) = 0 by omega,
                show len + nl - i - c = 0 by omega]
              rfl
          simp only [hrest] at hr
          rw [rounds, hb _ _ _ hfd hl']
          simp only []
          rw [show sched.length + 1 + k = (HostRes.wrote c :: sched).length + k by simp] at hr
          rw [hr]
          simp [drain, hemp w i hi, hd, hc]
      | errno e =>
        simp only [] at hfd
        by_cases hc : e.val = 26
        · obtain ⟨l', hl', h38', hkp'⟩ := done_again n l1
            { w with
              mem := callMem a w.mem (a.scratch + i) (len + nl - i)
              sched := sched
              calls := w.calls ++ [⟨readBytes w.mem (a.scratch + i) (len + nl - i), .errno e⟩] } h38
          obtain ⟨l2, m2, hag3, hr⟩ := ih i (sched.length + 1 + k) l'
            { w with
              mem := callMem a w.mem (a.scratch + i) (len + nl - i)
              sched := sched
              calls := w.calls ++ [⟨readBytes w.mem (a.scratch + i) (len + nl - i), .errno e⟩] }
            (by omega) rfl (by omega) ((f.keep hkp).keep hkp') h38' hw
          refine ⟨l2, m2, hag.trans hag3, ?_⟩
          have hrest : readBytes (callMem a w.mem (a.scratch + i) (len + nl - i)) (a.scratch + i)
                (len + nl - i) = readBytes w.mem (a.scratch + i) (len + nl - i) :=
            readBytes_congr fun x _ _ => hag x (by omega)
          simp only [hrest] at hr
          rw [show (27 : Nat) = e.val + 1 by omega] at hl'
          rw [rounds, hb _ _ _ hfd hl']
          simp only []
          rw [show sched.length + 1 + k = (HostRes.errno e :: sched).length + k by simp] at hr
          rw [hr]
          simp [drain, hemp w i hi, hd, hc]
        · obtain ⟨l', hl'⟩ := done_error n l1
            { w with
              mem := callMem a w.mem (a.scratch + i) (len + nl - i)
              sched := sched
              calls := w.calls ++ [⟨readBytes w.mem (a.scratch + i) (len + nl - i), .errno e⟩] }
            (e := e.val + 1) (by omega) (by omega)
          refine ⟨l', _, hag, ?_⟩
          simp only [rounds, hb _ _ _ hfd hl', drain, hemp w i hi, decide_eq_false hd, if_neg hc, if_true]
          rfl

theorem seg7_ok (n : Nat) (a : Layout) (l : Nat → V) (w : World) {d : List Byte} {o len nl sc : Nat}
    (ha : a.Ok) (hs : a.scratch + (len + nl) < two32) (hn : w.sched.length < n)
    (f : Facts l d o len nl sc) (h : l 25 = .i32 0)
    (hw : a.scratch + (len + nl) ≤ w.pages * 65536) :
    ∃ l' m', Agree a w.mem m' ∧
      execs n (seg7 a ++ [prim .ret]) [] ⟨l, w⟩ =
        (let t := drain (readBytes w.mem a.scratch (len + nl)) w.sched
         let s' : St := ⟨l', { w with mem := m', sched := t.2.2, calls := w.calls ++ t.1 }⟩
         some (if t.2.1 then .ret s' else .waiting s')) := by
  have k0 : Keeps l (upd l 38 (.i32 0)) := fun j hj => by simp [upd_get, show j ≠ 38 by omega]
  obtain ⟨l', m', hag, hr⟩ := write_loop n a (nl := nl) ha hs w.sched 0 n (upd l 38 (.i32 0)) w
    (by omega) rfl hn (f.keep k0) (by simp [upd_get]) hw
  refine ⟨l', m', hag, ?_⟩
  simp only [Nat.add_zero, Nat.sub_zero] at hr ⊢
  cases ht : (drain (readBytes w.mem a.scratch (len + nl)) w.sched).2.1 with
  | true =>
    rw [ht, if_pos rfl] at hr
    have hloop : execs n [loop (writeBody a)] [] ⟨upd l 38 (.i32 0), w⟩ = _ :=
      (show _ = rounds (fun s => execs n (writeBody a) [] s) [] n _ by
        rw [execs, exec, hr]).trans hr
    run [seg7, List.cons_append, List.nil_append, h, hloop]
  | false =>
    rw [ht, if_neg Bool.false_ne_true] at hr
    have hloop : execs n [loop (writeBody a)] [] ⟨upd l 38 (.i32 0), w⟩ = _ :=
      (show _ = rounds (fun s => execs n (writeBody a) [] s) [] n _ by
        rw [execs, exec, hr]).trans hr
    run [seg7, List.cons_append, List.nil_append, h, hloop, Bool.false_eq_true]

/-! ## The function -/

/-- What the function writes. -/
def content (d : List Byte) (o len nl : Nat) : List Byte :=
  (d.drop o).take len ++ if nl = 1 then [10] else []

theorem content_length {d : List Byte} {o len nl : Nat} (hd : o + len ≤ d.length) (hnl : nl ≤ 1) :
    (content d o len nl).length = len + nl := by
  unfold content
  rcases (show nl = 0 ∨ nl = 1 by omega) with rfl | rfl <;> simp <;> omega

theorem helper_run (n : Nat) (a : Layout) (w : World) {d : List Byte} {o len nl : Nat} (ha : a.Ok)
    (hd : o + len ≤ d.length) (hdl : d.length < two32) (hnl : nl ≤ 1)
    (hs : a.scratch + (len + nl) < two32)
    (hw : a.scratch + (len + nl) ≤ max w.pages (min w.limit 65536) * 65536)
    (hn : len < n) (hn' : w.sched.length < n) :
    ∃ l' m', (∀ x, x < a.iovec ∨ a.scratch + (len + nl) ≤ x → m' x = w.mem x) ∧
      callHelper n a d o len nl w =
        (let t := drain (content d o len nl) w.sched
         let s' : St := ⟨l', { w with
          mem := m', pages := max w.pages (pagesFor (a.scratch + (len + nl))), sched := t.2.2,
          calls := w.calls ++ t.1 }⟩
         some (if t.2.1 then .ret s' else .waiting s')) := by
  have hpos : 0 < a.scratch + (len + nl) := by have := ha.nwritten; omega
  have hreq := (pagesFor_le (k := max w.pages (min w.limit 65536)) hpos).mpr hw
  have hcov : a.scratch + (len + nl) ≤ pagesFor (a.scratch + (len + nl)) * 65536 :=
    (pagesFor_le hpos).mp (Nat.le_refl _)
  have hreq32 : pagesFor (a.scratch + (len + nl)) < two32 := by
    unfold pagesFor; unfold two32 at *; omega
  unfold callHelper
  rw [helper_eq]
  obtain ⟨l1, e1, a1, a2, a3, a4, a5⟩ := seg1_ok n (callLocals [.bytes d o len, .i32 nl]) w (o := o)
    rfl rfl (show len + nl < two32 by omega)
  obtain ⟨l2, e2, b8, b9, bk⟩ := seg2_ok n a l1 w a5 hs
  obtain ⟨l3, e3, c16, c17, c18, ck⟩ := seg3_ok n l2 w b9 hpos hs
  obtain ⟨l4, e4, d25, dk⟩ : ∃ l', execs n seg4 [] ⟨l3, w⟩ = some (.next [] ⟨l',
      { w with pages := max w.pages (pagesFor (a.scratch + (len + nl))) }⟩) ∧ l' 25 = .i32 0 ∧
      ∀ i < 10, l' i = l3 i := by
    by_cases hle : pagesFor (a.scratch + (len + nl)) ≤ w.pages
    · obtain ⟨l4, h⟩ := seg4_enough n l3 w c18 hle
      rw [Nat.max_eq_left hle]
      exact ⟨l4, h⟩
    · obtain ⟨l4, h⟩ := seg4_grow n l3 w c16 c17 c18 (by omega) hreq32 (by omega)
      rw [Nat.max_eq_right (by omega)]
      exact ⟨l4, h⟩
  have hg : ∀ i < 8, l4 i = l1 i := fun i hi => by
    rw [dk i (by omega), ck i (by omega), bk i hi]
  have f4 : Facts l4 d o len nl a.scratch :=
    ⟨by rw [hg 1 (by omega), a1], by rw [hg 2 (by omega), a2], by rw [hg 3 (by omega), a3],
      by rw [hg 4 (by omega), a4], by rw [hg 5 (by omega), a5],
      by rw [dk 8 (by omega), ck 8 (by omega), b8]⟩
  have hp : a.scratch + (len + nl) ≤ max w.pages (pagesFor (a.scratch + (len + nl))) * 65536 :=
    Nat.le_trans hcov (Nat.mul_le_mul_right _ (Nat.le_max_right _ _))
  obtain ⟨l5, e5, k5⟩ := seg5_ok n l4
    { w with pages := max w.pages (pagesFor (a.scratch + (len + nl))) } hd (by omega)
    (show a.scratch + len < two32 by omega) hn f4 d25 (Nat.le_trans (by omega) hp)
  have hlen : ((d.drop o).take len).length = len := by simp; omega
  obtain ⟨l6, e6, k6⟩ : ∃ l', execs n seg6 [] ⟨l5, { w with
      pages := max w.pages (pagesFor (a.scratch + (len + nl)))
      mem := setBytes w.mem a.scratch ((d.drop o).take len) }⟩ = some (.next [] ⟨l', { w with
      pages := max w.pages (pagesFor (a.scratch + (len + nl)))
      mem := setBytes w.mem a.scratch (content d o len nl) }⟩) ∧ Keeps l5 l' := by
    rcases (show nl = 0 ∨ nl = 1 by omega) with rfl | rfl
    · obtain ⟨l6, h⟩ := seg6_none n l5 { w with
        pages := max w.pages (pagesFor (a.scratch + (len + 0)))
        mem := setBytes w.mem a.scratch ((d.drop o).take len) } (f4.keep k5)
      refine ⟨l6, ?_⟩
      simpa [content] using h
    · obtain ⟨l6, h⟩ := seg6_newline n l5 { w with
        pages := max w.pages (pagesFor (a.scratch + (len + 1)))
        mem := setBytes w.mem a.scratch ((d.drop o).take len) }
        (by omega) (f4.keep k5) (by simp only [World.has, decide_eq_true_eq]; omega)
      refine ⟨l6, ?_⟩
      rw [content, if_pos rfl, setBytes_append, hlen]
      exact h
  obtain ⟨l7, m7, ag, e7⟩ := seg7_ok n a l6 { w with
      pages := max w.pages (pagesFor (a.scratch + (len + nl)))
      mem := setBytes w.mem a.scratch (content d o len nl) } ha hs hn' ((f4.keep k5).keep k6)
      (by rw [k6 25 (by omega), k5 25 (by omega), d25]) hp
  refine ⟨l7, m7, ?_, ?_⟩
  · intro x hx
    rw [ag x (by omega)]
    exact setBytes_out _ _ _ _ (by rw [content_length hd hnl]; have := ha.iovec; have := ha.nwritten; omega)
  · rw [execs_append, e1]
    simp only []
    rw [execs_append, e2]
    simp only []
    rw [execs_append, e3]
    simp only []
    rw [execs_append, e4]
    simp only []
    rw [execs_append, e5]
    simp only []
    rw [execs_append, e6]
    simp only []
    rw [e7]
    have hrd := readBytes_setBytes w.mem a.scratch (content d o len nl)
    rw [content_length hd hnl] at hrd
    simp only [hrd]

theorem helper_trap (n : Nat) (a : Layout) (w : World) {d : List Byte} {o len nl : Nat} (ha : a.Ok)
    (hd : o + len ≤ d.length) (hdl : d.length < two32) (hnl : nl ≤ 1) (hsc : a.scratch < two32)
    (h : ¬ (a.scratch + (len + nl) < two32 ∧
      a.scratch + (len + nl) ≤ max w.pages (min w.limit 65536) * 65536)) :
    ∃ l', callHelper n a d o len nl w = some (.trap ⟨l', w⟩) := by
  have hpos : 0 < a.scratch + (len + nl) := by have := ha.nwritten; omega
  unfold callHelper
  rw [helper_eq]
  have htwo : 2 < two32 := by unfold two32; omega
  by_cases h1 : len + nl < two32
  · obtain ⟨l1, e1, a1, a2, a3, a4, a5⟩ := seg1_ok n (callLocals [.bytes d o len, .i32 nl]) w (o := o)
      rfl rfl h1
    rw [execs_append, e1]
    simp only []
    by_cases h2 : a.scratch + (len + nl) < two32
    · obtain ⟨l2, e2, b8, b9, bk⟩ := seg2_ok n a l1 w a5 h2
      obtain ⟨l3, e3, c16, c17, c18, ck⟩ := seg3_ok n l2 w b9 hpos h2
      have hreq32 : pagesFor (a.scratch + (len + nl)) < two32 := by
        unfold pagesFor; unfold two32 at *; omega
      have hreq : ¬ pagesFor (a.scratch + (len + nl)) ≤ max w.pages (min w.limit 65536) :=
        fun hh => h ⟨h2, (pagesFor_le hpos).mp hh⟩
      obtain ⟨l4, e4⟩ := seg4_trap n l3 w c16 c17 c18 (by omega) hreq32 (by omega)
      refine ⟨l4, ?_⟩
      rw [execs_append, e2]
      simp only []
      rw [execs_append, e3]
      simp only []
      rw [execs_append, e4]
    · obtain ⟨l2, e2⟩ := seg2_trap n a l1 w a5 hsc h1 (by omega)
      exact ⟨l2, by rw [execs_append, e2]⟩
  · obtain ⟨l1, e1⟩ := seg1_trap n (callLocals [.bytes d o len, .i32 nl]) w (o := o) (len := len) (nl := nl)
      rfl rfl (by omega) (by omega) (by omega)
    exact ⟨l1, by rw [execs_append, e1]⟩

end Verif.WasmIo
