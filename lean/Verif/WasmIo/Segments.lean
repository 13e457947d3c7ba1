import Verif.WasmIo.Model
/-! The instructions of the write helper in parts, and what the straight-line parts do. -/
namespace Verif.WasmIo
open Instr

theorem execs_append (n : Nat) (xs ys : List Instr) (st : List V) (s : St) :
    execs n (xs ++ ys) st s =
      match execs n xs st s with
      | some (.next st s) => execs n ys st s
      | r => r := by
  induction xs generalizing st s with
  | nil => simp [execs]
  | cons x xs ih =>
    rw [List.cons_append, execs, execs]
    cases h : exec n x st s with
    | none => rfl
    | some o => cases o <;> simp [ih]

/-- The fields of the value, the number of bytes, and the check for overflow. -/
def seg1 : List Instr :=
  [get 0, prim (.structGet 0), set 2, get 0, prim (.structGet 1), set 3, get 0, prim (.structGet 2),
    set 4, get 4, get 1, prim .add, set 5, get 5, get 4, prim .ltU, set 6, get 6,
    ite [prim .unreachable] []]

/-- The end of the buffer. -/
def seg2 (a : Layout) : List Instr :=
  [prim (.const a.scratch), set 8, get 8, get 5, prim .add, set 9, get 9, get 5, prim .ltU, set 10,
    get 10, ite [prim .unreachable] []]

/-- The number of pages. -/
def seg3 : List Instr :=
  [prim (.const 1), set 12, get 9, get 12, prim .sub, set 13, prim (.const 65536), set 14, get 13,
    get 14, prim .divU, set 15, get 15, get 12, prim .add, set 16, prim .memSize, set 17, get 16,
    get 17, prim .gtU, set 18]

def growBody : List Instr :=
  [get 16, get 17, prim .sub, set 19, get 19, prim .memGrow, set 20, prim (.const 0xffffffff), set 21,
    get 20, get 21, prim .eq, set 22, get 22, ite [prim .unreachable] []]

/-- More memory, and zero. -/
def seg4 : List Instr := [get 18, ite growBody [], prim (.const 0), set 25]

def copyBody : List Instr :=
  [get 26, get 4, prim .geU, set 27, get 27, brIf 1, get 3, get 26, prim .add, set 28, get 2, get 28,
    prim .arrayGetU, set 29, get 8, get 26, prim .add, set 30, get 30, get 29, prim (.store8 0),
    prim (.const 1), set 31, get 26, get 31, prim .add, set 32, get 32, set 26, br 0]

/-- Copying. -/
def seg5 : List Instr := [block [get 25, set 26, loop copyBody]]

/-- The newline. -/
def seg6 : List Instr :=
  [get 8, get 4, prim .add, set 35, get 1,
    ite [prim (.const 10), set 36, get 35, get 36, prim (.store8 0)] []]

def writeCall (a : Layout) : List Instr :=
  [get 38, get 5, prim .geU, set 39, get 39, brIf 1, prim (.const a.scratch), set 40, get 40, get 38,
    prim .add, set 41, get 5, get 38, prim .sub, set 42, prim (.const a.iovec), set 43, get 43, get 41,
    prim (.store 0), get 43, get 42, prim (.store 4), prim (.const 1), set 44, prim (.const 1), set 45,
    prim (.const a.nwritten), set 46, get 44, get 43, get 45, get 46]

def writeDone : List Instr :=
  [set 47, prim (.const 0), set 48, get 47, get 48, prim .eq, set 49, get 49,
    ite [get 46, prim (.load 0), set 50, get 50, get 48, prim .eq, set 51, get 51, brIf 2, get 38,
        get 50, prim .add, set 52, get 52, set 38, br 1]
      [prim (.const 27), set 53, get 47, get 53, prim .eq, set 54, get 54, brIf 1, br 2]]

def writeBody (a : Layout) : List Instr := writeCall a ++ prim .fdWrite :: writeDone

/-- Writing. -/
def seg7 (a : Layout) : List Instr := [block [get 25, set 38, loop (writeBody a)]]

set_option maxRecDepth 20000 in
theorem helper_eq (a : Layout) :
    helper a = seg1 ++ (seg2 a ++ (seg3 ++ (seg4 ++ (seg5 ++ (seg6 ++ (seg7 a ++ [prim .ret])))))) := by
  simp [helper, helperOps, writeHelper, value, fresh, push, effect, i32Const, region, ifOp, trapIf,
    trapIfLess, ensureMemory, loopInBlock, copyLoop, writeLoop, bind, StateT.bind, pure, StateT.pure,
    localsOf, assignOps, assignOp, assign, emitOps, emitOp, loc, yieldCode, List.lookup, seg1, seg2,
    seg3, seg4, seg5, seg6, seg7, growBody, copyBody, writeBody, writeCall, writeDone, pageSize,
    errnoIntr]

/-- What the later parts need to find in the locals. -/
structure Facts (l : Nat → V) (d : List Byte) (o len nl scratch : Nat) : Prop where
  h1 : l 1 = .i32 nl
  h2 : l 2 = .array d
  h3 : l 3 = .i32 o
  h4 : l 4 = .i32 len
  h5 : l 5 = .i32 (len + nl)
  h8 : l 8 = .i32 scratch

/-- Only locals from 25 on differ. -/
def Keeps (l l' : Nat → V) : Prop := ∀ i < 26, l' i = l i

theorem Facts.keep {l l' : Nat → V} {d : List Byte} {o len nl sc : Nat}
    (h : Facts l d o len nl sc) (k : Keeps l l') : Facts l' d o len nl sc :=
  ⟨(k 1 (by omega)).trans h.h1, (k 2 (by omega)).trans h.h2, (k 3 (by omega)).trans h.h3,
    (k 4 (by omega)).trans h.h4, (k 5 (by omega)).trans h.h5, (k 8 (by omega)).trans h.h8⟩

theorem upd_get (l : Nat → V) (i : Nat) (v : V) (j : Nat) :
    upd l i v j = if j = i then v else l j := rfl

theorem ofBool_true : ofBool true = 1 := rfl
theorem ofBool_false : ofBool false = 0 := rfl

/-! One instruction at a time. -/

section
variable (n : Nat) (is : List Instr) (st : List V) (l : Nat → V) (w : World)

theorem run_nil : execs n [] st ⟨l, w⟩ = some (.next st ⟨l, w⟩) := by rw [execs]
theorem run_get (i : Nat) : execs n (get i :: is) st ⟨l, w⟩ = execs n is (l i :: st) ⟨l, w⟩ := by
  rw [execs, exec]
theorem run_set (i : Nat) (v : V) :
    execs n (set i :: is) (v :: st) ⟨l, w⟩ = execs n is st ⟨upd l i v, w⟩ := by
  rw [execs, exec]
theorem run_const (c : Nat) :
    execs n (prim (.const c) :: is) st ⟨l, w⟩ = execs n is (.i32 c :: st) ⟨l, w⟩ := by
  rw [execs, exec]; rfl
theorem run_add (a b : Nat) : execs n (prim .add :: is) (.i32 b :: .i32 a :: st) ⟨l, w⟩ =
    execs n is (.i32 (wadd a b) :: st) ⟨l, w⟩ := by
  rw [execs, exec]; rfl
theorem run_sub (a b : Nat) : execs n (prim .sub :: is) (.i32 b :: .i32 a :: st) ⟨l, w⟩ =
    execs n is (.i32 (wsub a b) :: st) ⟨l, w⟩ := by
  rw [execs, exec]; rfl
theorem run_divU (a b : Nat) (h : b ≠ 0) :
    execs n (prim .divU :: is) (.i32 b :: .i32 a :: st) ⟨l, w⟩ =
      execs n is (.i32 (a / b) :: st) ⟨l, w⟩ := by
  rw [execs, exec]; simp only [step, if_neg h]
theorem run_eq (a b : Nat) : execs n (prim .eq :: is) (.i32 b :: .i32 a :: st) ⟨l, w⟩ =
    execs n is (.i32 (ofBool (decide (a = b))) :: st) ⟨l, w⟩ := by
  rw [execs, exec]; rfl
theorem run_ltU (a b : Nat) : execs n (prim .ltU :: is) (.i32 b :: .i32 a :: st) ⟨l, w⟩ =
    execs n is (.i32 (ofBool (decide (a < b))) :: st) ⟨l, w⟩ := by
  rw [execs, exec]; rfl
theorem run_gtU (a b : Nat) : execs n (prim .gtU :: is) (.i32 b :: .i32 a :: st) ⟨l, w⟩ =
    execs n is (.i32 (ofBool (decide (a > b))) :: st) ⟨l, w⟩ := by
  rw [execs, exec]; rfl
theorem run_geU (a b : Nat) : execs n (prim .geU :: is) (.i32 b :: .i32 a :: st) ⟨l, w⟩ =
    execs n is (.i32 (ofBool (decide (a ≥ b))) :: st) ⟨l, w⟩ := by
  rw [execs, exec]; rfl
theorem run_field0 (d : List Byte) (o k : Nat) :
    execs n (prim (.structGet 0) :: is) (.bytes d o k :: st) ⟨l, w⟩ =
      execs n is (.array d :: st) ⟨l, w⟩ := by
  rw [execs, exec]; rfl
theorem run_field1 (d : List Byte) (o k : Nat) :
    execs n (prim (.structGet 1) :: is) (.bytes d o k :: st) ⟨l, w⟩ =
      execs n is (.i32 o :: st) ⟨l, w⟩ := by
  rw [execs, exec]; rfl
theorem run_field2 (d : List Byte) (o k : Nat) :
    execs n (prim (.structGet 2) :: is) (.bytes d o k :: st) ⟨l, w⟩ =
      execs n is (.i32 k :: st) ⟨l, w⟩ := by
  rw [execs, exec]; rfl
theorem run_arrayGet (d : List Byte) (i : Nat) (b : Byte) (h : d[i]? = some b) :
    execs n (prim .arrayGetU :: is) (.i32 i :: .array d :: st) ⟨l, w⟩ =
      execs n is (.i32 b.toNat :: st) ⟨l, w⟩ := by
  rw [execs, exec]; simp only [step, h]
theorem run_load (off a : Nat) (h : w.has (a + off) 4 = true) :
    execs n (prim (.load off) :: is) (.i32 a :: st) ⟨l, w⟩ =
      execs n is (.i32 (getWord w.mem (a + off)) :: st) ⟨l, w⟩ := by
  rw [execs, exec]; simp only [step, h, if_true]
theorem run_store (off a k : Nat) (h : w.has (a + off) 4 = true) :
    execs n (prim (.store off) :: is) (.i32 k :: .i32 a :: st) ⟨l, w⟩ =
      execs n is st ⟨l, { w with mem := setWord w.mem (a + off) k }⟩ := by
  rw [execs, exec]; simp only [step, h, if_true]
theorem run_store8 (off a k : Nat) (h : w.has (a + off) 1 = true) :
    execs n (prim (.store8 off) :: is) (.i32 k :: .i32 a :: st) ⟨l, w⟩ =
      execs n is st ⟨l, { w with mem := setByte w.mem (a + off) (UInt8.ofNat k) }⟩ := by
  rw [execs, exec]; simp only [step, h, if_true]
theorem run_memSize : execs n (prim .memSize :: is) st ⟨l, w⟩ =
    execs n is (.i32 w.pages :: st) ⟨l, w⟩ := by
  rw [execs, exec]; rfl
theorem run_grow (d : Nat) (h : w.pages + d ≤ min w.limit 65536) :
    execs n (prim .memGrow :: is) (.i32 d :: st) ⟨l, w⟩ =
      execs n is (.i32 w.pages :: st) ⟨l, { w with pages := w.pages + d }⟩ := by
  rw [execs, exec]; simp only [step, if_pos h]
theorem run_noGrow (d : Nat) (h : ¬ w.pages + d ≤ min w.limit 65536) :
    execs n (prim .memGrow :: is) (.i32 d :: st) ⟨l, w⟩ =
      execs n is (.i32 0xffffffff :: st) ⟨l, w⟩ := by
  rw [execs, exec]; simp only [step, if_neg h]
theorem run_unreachable : execs n (prim .unreachable :: is) st ⟨l, w⟩ = some (.trap ⟨l, w⟩) := by
  rw [execs, exec]; rfl
theorem run_ret : execs n (prim .ret :: is) st ⟨l, w⟩ = some (.ret ⟨l, w⟩) := by
  rw [execs, exec]; rfl
theorem run_br (d : Nat) : execs n (br d :: is) st ⟨l, w⟩ = some (.branch d ⟨l, w⟩) := by
  rw [execs, exec]
theorem run_brIf1 (d : Nat) :
    execs n (brIf d :: is) (.i32 1 :: st) ⟨l, w⟩ = some (.branch d ⟨l, w⟩) := by
  rw [execs, exec]; rfl
theorem run_brIf0 (d : Nat) :
    execs n (brIf d :: is) (.i32 0 :: st) ⟨l, w⟩ = execs n is st ⟨l, w⟩ := by
  rw [execs, exec]; rfl

/-- After a block or conditional. -/
def after (n : Nat) (is : List Instr) (st : List V) (r : Option Out) : Option Out :=
  match r.map (leave st) with
  | some (.next st s) => execs n is st s
  | r => r

theorem run_block (b : List Instr) :
    execs n (block b :: is) st ⟨l, w⟩ = after n is st (execs n b [] ⟨l, w⟩) := by
  rw [execs, exec]; rfl
theorem run_ite1 (t e : List Instr) :
    execs n (ite t e :: is) (.i32 1 :: st) ⟨l, w⟩ = after n is st (execs n t [] ⟨l, w⟩) := by
  rw [execs, exec]; rfl
theorem run_ite0 (t e : List Instr) :
    execs n (ite t e :: is) (.i32 0 :: st) ⟨l, w⟩ = after n is st (execs n e [] ⟨l, w⟩) := by
  rw [execs, exec]; rfl
theorem after_next (s : St) : after n is st (some (.next [] s)) = execs n is st s := rfl
theorem after_br0 (s : St) : after n is st (some (.branch 0 s)) = execs n is st s := rfl
theorem after_br (d : Nat) (s : St) :
    after n is st (some (.branch (d + 1) s)) = some (.branch d s) := rfl
theorem after_trap (s : St) : after n is st (some (.trap s)) = some (.trap s) := rfl
theorem after_ret (s : St) : after n is st (some (.ret s)) = some (.ret s) := rfl
theorem after_waiting (s : St) : after n is st (some (.waiting s)) = some (.waiting s) := rfl

end

/-- Run straight-line code. -/
macro "run" "[" ls:Lean.Parser.Tactic.simpLemma,* "]" : tactic =>
  `(tactic| simp only [run_nil, run_get, run_set, run_const, run_add, run_sub, run_eq, run_ltU, run_gtU,
    run_geU, run_field0, run_field1, run_field2, run_memSize, run_unreachable, run_ret, run_br,
    run_brIf1, run_brIf0, run_block, run_ite1, run_ite0, after_next, after_br0, after_br, after_trap,
    after_ret, after_waiting, upd_get, reduceIte, Nat.reduceEqDiff, ofBool_true, ofBool_false, ite_true,
    Nat.reduceAdd, $ls,*])

attribute [local irreducible] wadd wsub two32 getWord setWord

theorem seg1_ok (n : Nat) (l : Nat → V) (w : World) {d : List Byte} {o len nl : Nat}
    (h0 : l 0 = .bytes d o len) (h1 : l 1 = .i32 nl) (hs : len + nl < two32) :
    ∃ l', execs n seg1 [] ⟨l, w⟩ = some (.next [] ⟨l', w⟩) ∧ l' 1 = .i32 nl ∧ l' 2 = .array d ∧
      l' 3 = .i32 o ∧ l' 4 = .i32 len ∧ l' 5 = .i32 (len + nl) := by
  have e : wadd len nl = len + nl := by unfold wadd; exact Nat.mod_eq_of_lt hs
  have c : (decide (len + nl < len)) = false := by simp
  refine ⟨_, by run [seg1, h0, h1, e, c]; rfl, ?_⟩
  simp [upd_get, h1]

theorem seg1_trap (n : Nat) (l : Nat → V) (w : World) {d : List Byte} {o len nl : Nat}
    (h0 : l 0 = .bytes d o len) (h1 : l 1 = .i32 nl) (hlen : len < two32) (hnl : nl < two32)
    (hs : two32 ≤ len + nl) :
    ∃ l', execs n seg1 [] ⟨l, w⟩ = some (.trap ⟨l', w⟩) := by
  obtain ⟨x, e, hx⟩ : ∃ x, wadd len nl = x ∧ x < len := by
    refine ⟨_, rfl, ?_⟩
    unfold wadd
    rw [Nat.mod_eq_sub_mod hs, Nat.mod_eq_of_lt (by omega)]
    omega
  have c : decide (x < len) = true := decide_eq_true hx
  exact ⟨_, by run [seg1, h0, h1, e, c]; rfl⟩

theorem seg2_ok (n : Nat) (a : Layout) (l : Nat → V) (w : World) {t : Nat}
    (h5 : l 5 = .i32 t) (hs : a.scratch + t < two32) :
    ∃ l', execs n (seg2 a) [] ⟨l, w⟩ = some (.next [] ⟨l', w⟩) ∧ l' 8 = .i32 a.scratch ∧
      l' 9 = .i32 (a.scratch + t) ∧ ∀ i < 8, l' i = l i := by
  have e : wadd a.scratch t = a.scratch + t := by unfold wadd; exact Nat.mod_eq_of_lt hs
  have c : (decide (a.scratch + t < t)) = false := by simp
  refine ⟨_, by run [seg2, h5, e, c]; rfl, by simp [upd_get], by simp [upd_get], ?_⟩
  intro i hi
  simp [upd_get, show i ≠ 8 by omega, show i ≠ 9 by omega, show i ≠ 10 by omega]

theorem seg2_trap (n : Nat) (a : Layout) (l : Nat → V) (w : World) {t : Nat}
    (h5 : l 5 = .i32 t) (ha : a.scratch < two32) (ht : t < two32) (hs : two32 ≤ a.scratch + t) :
    ∃ l', execs n (seg2 a) [] ⟨l, w⟩ = some (.trap ⟨l', w⟩) := by
  obtain ⟨x, e, hx⟩ : ∃ x, wadd a.scratch t = x ∧ x < t := by
    refine ⟨_, rfl, ?_⟩
    unfold wadd
    rw [Nat.mod_eq_sub_mod hs, Nat.mod_eq_of_lt (by omega)]
    omega
  have c : decide (x < t) = true := decide_eq_true hx
  exact ⟨_, by run [seg2, h5, e, c]; rfl⟩

/-- Pages that hold `stop` bytes. -/
def pagesFor (stop : Nat) : Nat := (stop - 1) / 65536 + 1

theorem pagesFor_le {stop k : Nat} (h : 0 < stop) : pagesFor stop ≤ k ↔ stop ≤ k * 65536 := by
  unfold pagesFor; omega

theorem seg3_ok (n : Nat) (l : Nat → V) (w : World) {e : Nat} (h9 : l 9 = .i32 e) (he : 0 < e)
    (hs : e < two32) :
    ∃ l', execs n seg3 [] ⟨l, w⟩ = some (.next [] ⟨l', w⟩) ∧ l' 16 = .i32 (pagesFor e) ∧
      l' 17 = .i32 w.pages ∧ l' 18 = .i32 (ofBool (pagesFor e > w.pages)) ∧ ∀ i < 10, l' i = l i := by
  obtain ⟨x, hx, e1⟩ : ∃ x, x = e - 1 ∧ wsub e 1 = x :=
    ⟨_, rfl, by simp only [wsub, two32] at *; omega⟩
  obtain ⟨q, hq, e2⟩ : ∃ q, x / 65536 = q ∧ wadd q 1 = pagesFor e :=
    ⟨_, rfl, by simp only [wadd, two32, pagesFor] at *; omega⟩
  refine ⟨_, by run [seg3, h9, e1, run_divU _ _ _ _ _ _ _ (show 65536 ≠ 0 by decide), hq, e2]; rfl, by simp [upd_get], by simp [upd_get], by simp [upd_get], ?_⟩
  intro i hi
  simp [upd_get, show i ≠ 12 by omega, show i ≠ 13 by omega, show i ≠ 14 by omega, show i ≠ 15 by omega,
    show i ≠ 16 by omega, show i ≠ 17 by omega, show i ≠ 18 by omega]

theorem seg4_enough (n : Nat) (l : Nat → V) (w : World) {req : Nat}
    (h18 : l 18 = .i32 (ofBool (req > w.pages))) (h : req ≤ w.pages) :
    ∃ l', execs n seg4 [] ⟨l, w⟩ = some (.next [] ⟨l', w⟩) ∧ l' 25 = .i32 0 ∧ ∀ i < 10, l' i = l i := by
  have c : decide (req > w.pages) = false := by simp; omega
  rw [c] at h18
  refine ⟨_, by run [seg4, h18]; rfl, by simp [upd_get], ?_⟩
  intro i hi
  simp [upd_get, show i ≠ 25 by omega]

theorem seg4_grow (n : Nat) (l : Nat → V) (w : World) {req : Nat}
    (h16 : l 16 = .i32 req) (h17 : l 17 = .i32 w.pages)
    (h18 : l 18 = .i32 (ofBool (req > w.pages))) (h : w.pages < req) (hr : req < two32)
    (hl : req ≤ min w.limit 65536) :
    ∃ l', execs n seg4 [] ⟨l, w⟩ = some (.next [] ⟨l', { w with pages := req }⟩) ∧ l' 25 = .i32 0 ∧
      ∀ i < 10, l' i = l i := by
  have c : decide (req > w.pages) = true := by simp; omega
  rw [c] at h18
  obtain ⟨x, e, e'⟩ : ∃ x, wsub req w.pages = x ∧ w.pages + x = req :=
    ⟨_, rfl, by simp only [wsub, two32] at *; omega⟩
  have hne : decide (w.pages = 4294967295) = false := by simp; omega
  have hl' : w.pages + x ≤ min w.limit 65536 := e' ▸ hl
  refine ⟨_, by
    run [seg4, growBody, h16, h17, h18, e, run_grow _ _ _ _ _ _ hl', e', hne]
    rfl, by simp [upd_get], ?_⟩
  intro i hi
  simp [upd_get, show i ≠ 25 by omega, show i ≠ 19 by omega, show i ≠ 20 by omega, show i ≠ 21 by omega,
    show i ≠ 22 by omega]

theorem seg4_trap (n : Nat) (l : Nat → V) (w : World) {req : Nat}
    (h16 : l 16 = .i32 req) (h17 : l 17 = .i32 w.pages)
    (h18 : l 18 = .i32 (ofBool (req > w.pages))) (h : w.pages < req) (hr : req < two32)
    (hl : ¬ req ≤ min w.limit 65536) :
    ∃ l', execs n seg4 [] ⟨l, w⟩ = some (.trap ⟨l', w⟩) := by
  have c : decide (req > w.pages) = true := by simp; omega
  rw [c] at h18
  obtain ⟨x, e, e'⟩ : ∃ x, wsub req w.pages = x ∧ w.pages + x = req :=
    ⟨_, rfl, by simp only [wsub, two32] at *; omega⟩
  have hl' : ¬ w.pages + x ≤ min w.limit 65536 := e' ▸ hl
  exact ⟨_, by
    run [seg4, growBody, h16, h17, h18, e, run_noGrow _ _ _ _ _ _ hl', decide_true]
    rfl⟩

end Verif.WasmIo
