import Verif.PreludeOps.Proofs

/-! # C106: intrinsics of the standard library become operations, functions of the program do not -/

namespace Verif.PreludeOps

/-- C106 (lists).  Exactly the calls that mean the intrinsic become `list.prepend`, at any depth and
with the type of their element; its declarations go; everything else stays.  Nothing is left to do
and another run changes nothing. -/
theorem C106_list (ty : Nat → Nat) (ops : List Op) :
    LoweredOps (PrependDecl ops) (PrependBecomes ops ty) ops (lowerList ty ops).1 ∧
      (lowerList ty ops).2 = true ∧
      lowerList ty (lowerList ty ops).1 = ((lowerList ty ops).1, true) := by
  refine ⟨lowerList_lowered ty ops, by rw [lowerList_eq], ?_⟩
  have hnone : ∀ n, ¬ IntrinsicDeclared (lowerList ty ops).1 n := by
    rintro n ⟨hp, o', ho', hf, hab⟩
    obtain ⟨o, ho, hR, hE⟩ := (lowerList_lowered ty ops).top.2 o' ho'
    rcases hR with ⟨a, b, r, -, h⟩ | ⟨-, h⟩
    · rw [h] at hf
      have := hf.1
      simp at this
    · rw [h] at hf hab
      exact hE ⟨n, hf, hp, o, ho, hf, hab⟩
  rw [lowerList_eq ty (lowerList ty ops).1, visitOps_keep]
  intro d
  have h1 : prependCall (collect (lowerList ty ops).1) ty d = .keep := by
    rw [prependCall_keep]
    rintro ⟨a, b, r, ⟨n, -, h | h⟩, -⟩
    · exact hnone n h
    · exact hnone _ h.2.2
  have h2 : prependDeclaration (collect (lowerList ty ops).1) d = .keep := by
    rcases prependDeclaration_cases (collect (lowerList ty ops).1) d with h | h
    · obtain ⟨n, -, h⟩ := (prependDecl_iff _ d).1 h
      exact absurd h (hnone n)
    · exact h
  simp [listAction, h1, h2, firstOf]

/-- C106 (a function of the program by the name of the intrinsic).  Without a declaration as the
intrinsic nothing changes, whatever functions are called. -/
theorem C106_ownFunction (ty : Nat → Nat) (ops : List Op)
    (h : ∀ o ∈ ops, o.data.abi ≠ some "intrinsic") : lowerList ty ops = (ops, true) := by
  have hnone : ∀ n, ¬ IntrinsicDeclared ops n := fun n ⟨_, o, ho, _, hab⟩ => h o ho hab
  rw [lowerList_eq, visitOps_keep]
  intro d
  have h1 : prependCall (collect ops) ty d = .keep := by
    rw [prependCall_keep]
    rintro ⟨a, b, r, ⟨n, -, h | h⟩, -⟩
    · exact hnone n h
    · exact hnone _ h.2.2
  have h2 : prependDeclaration (collect ops) d = .keep := by
    rcases prependDeclaration_cases (collect ops) d with h | h
    · obtain ⟨n, -, h⟩ := (prependDecl_iff _ d).1 h
      exact absurd h (hnone n)
    · exact h
  simp [listAction, h1, h2, firstOf]

/-- C106 (input and output).  Calls by the names of the intrinsics with their arguments become
operations, functions by these names go, everything else stays; another run changes nothing. -/
theorem C106_io (ops : List Op) :
    LoweredOps IoDecl IoBecomes ops (lowerIo ops).1 ∧ (lowerIo ops).2 = true ∧
      lowerIo (lowerIo ops).1 = ((lowerIo ops).1, true) := by
  refine ⟨lowerIo_lowered ops, by rw [lowerIo_eq], ?_⟩
  rw [lowerIo_eq, lowerIo_eq, visitOps_idem ioAction_again]

/-- C106 (no dangling references, lists, in part).  If the intrinsic is only referred to by calls
with its arguments, what is referred to afterwards is declared if it was before.  Missing: other
references, for which it is false (`C106_listDangling_violated`). -/
theorem C106_listResolved_partial (ty : Nat → Nat) (ops : List Op)
    (h : ∀ d ∈ opsAll ops, ∀ n ∈ refs d, IntrinsicDeclared ops n → ∃ a b r, PrependCall ops d a b r) :
    ∀ d ∈ opsAll (lowerList ty ops).1, ∀ n ∈ refs d, Declared ops n →
      Declared (lowerList ty ops).1 n := by
  intro d' hd' n hn ⟨o, ho, hf⟩
  obtain ⟨d, hd, hR, -⟩ := (lowerList_lowered ty ops).mem_all d' hd'
  rcases hR with ⟨a, b, r, -, rfl⟩ | ⟨hnc, rfl⟩
  · simp [refs] at hn
  · have hni : ¬ IntrinsicDeclared ops n := fun hi => hnc (h d' hd n hn hi)
    have hE : ¬ PrependDecl ops o.data := by
      rintro ⟨m, hm, hi⟩
      rw [← funcName_iff] at hf hm
      rw [hf] at hm
      cases hm
      exact hni hi
    obtain ⟨o', ho', hR⟩ := (lowerList_lowered ty ops).top.1 o ho hE
    rcases hR with ⟨a, b, r, ⟨⟨m, hm, -⟩, -⟩, -⟩ | ⟨-, heq⟩
    · have := hm.2.1.symm.trans hf.2.1
      simp at this
    · exact ⟨o', ho', by rw [heq]; exact hf⟩

/-- C106 (no dangling references, input and output, in part).  As for lists.  Missing: other
references to the intrinsics, for which it is false (`C106_ioDangling_violated`). -/
theorem C106_ioResolved_partial (ops : List Op)
    (h : ∀ d ∈ opsAll ops, ∀ n ∈ refs d,
      n = "std::io::__tribute_io_write" ∨ n = "std::io::__tribute_io_read_line" → ¬ IoBecomes d d) :
    ∀ d ∈ opsAll (lowerIo ops).1, ∀ n ∈ refs d, Declared ops n → Declared (lowerIo ops).1 n := by
  intro d' hd' n hn ⟨o, ho, hf⟩
  obtain ⟨d, hd, hR, -⟩ := (lowerIo_lowered ops).mem_all d' hd'
  have hrefs : ∀ x y : OpData, IoBecomes x y → y = x ∨ refs y = [] := by
    intro x y hb
    cases hb with
    | write a b r h1 h2 h3 => exact .inr rfl
    | readLine r h1 h2 h3 => exact .inr rfl
    | same h1 h2 => exact .inl rfl
  rcases hrefs d d' hR with rfl | h0
  · have hni : ¬ (n = "std::io::__tribute_io_write" ∨ n = "std::io::__tribute_io_read_line") :=
      fun hi => h d' hd n hn hi hR
    have hE : ¬ IoDecl o.data := by
      rintro (hm | hm)
      · rw [← funcName_iff] at hf hm
        rw [hf] at hm
        cases hm
        exact hni (.inl rfl)
      · rw [← funcName_iff] at hf hm
        rw [hf] at hm
        cases hm
        exact hni (.inr rfl)
    obtain ⟨o', ho', hR'⟩ := (lowerIo_lowered ops).top.1 o ho hE
    have hsame : ∀ x y : OpData, IoBecomes x y → IsFunc x n → IsFunc y n := by
      intro x y hb hx
      cases hb with
      | write a b r h1 h2 h3 =>
        have := h1.2.1.symm.trans hx.2.1
        simp at this
      | readLine r h1 h2 h3 =>
        have := h1.2.1.symm.trans hx.2.1
        simp at this
      | same h1 h2 => exact hx
    exact ⟨o', ho', hsame _ _ hR' hf⟩
  · rw [h0] at hn; simp at hn

/-! ### Where it fails -/

def exFunc (n : String) (abi : Option String) : OpData :=
  { dialect := "func", name := "func", symbols := [("sym_name", n)], abi := abi }
def exCallOf (n : String) (args : List Nat) : OpData :=
  { dialect := "func", name := "call", symbols := [("callee", n)], operands := args, results := [9] }
def exConst (n : String) : OpData :=
  { dialect := "func", name := "constant", symbols := [("func_ref", n)], results := [9] }

/-- A declaration and a function with one operation. -/
def exModule (n : String) (abi : Option String) (d : OpData) : List Op :=
  [.mk (exFunc n abi) [], .mk (exFunc "f" none) [.mk [.mk d []]]]

/-- C106 is false for input and output: a function of the program's own, not declared as an
intrinsic, is dropped for its name, and calls of it become the operation. -/
theorem C106_ioOwnFunction_violated : ∃ ops : List Op,
    (∀ o ∈ ops, o.data.abi ≠ some "intrinsic") ∧
    Declared ops "std::io::__tribute_io_read_line" ∧
    ¬ Declared (lowerIo ops).1 "std::io::__tribute_io_read_line" ∧
    ∃ d ∈ opsAll (lowerIo ops).1, d.dialect = "tribute_io" := by
  refine ⟨exModule readLineName none (exCallOf readLineName []), ?_, ?_, ?_, ?_⟩
  · intro o ho
    simp only [exModule, List.mem_cons, List.not_mem_nil, or_false] at ho
    rcases ho with rfl | rfl <;> simp [Op.data, exFunc]
  · exact ⟨_, List.mem_cons_self, rfl, rfl, rfl⟩
  · rintro ⟨o, ho, hf⟩
    have h : (lowerIo (exModule readLineName none (exCallOf readLineName []))).1 =
        [.mk (exFunc "f" none)
          [.mk [.mk { dialect := "tribute_io", name := "read_line", results := [9] } []]]] := by
      rw [lowerIo_eq]; rfl
    rw [h] at ho
    simp only [List.mem_cons, List.not_mem_nil, or_false] at ho
    subst ho
    have := hf.2.2
    revert this
    decide
  · rw [lowerIo_eq]
    exact ⟨{ dialect := "tribute_io", name := "read_line", results := [9] },
      by decide +kernel, rfl⟩

/-- C106 is false: the intrinsic used as a value leaves a reference to a function that is gone. -/
theorem C106_listDangling_violated : ∃ (ops : List Op) (ty : Nat → Nat) (n : String),
    IntrinsicDeclared ops n ∧ (∃ d ∈ opsAll (lowerList ty ops).1, n ∈ refs d) ∧
      ¬ Declared (lowerList ty ops).1 n := by
  have h : (lowerList (fun _ => 0) (exModule prependName (some "intrinsic") (exConst prependName))).1 =
      [.mk (exFunc "f" none) [.mk [.mk (exConst prependName) []]]] := by
    rw [lowerList_eq]
    have h1 : listAction (collect (exModule prependName (some "intrinsic") (exConst prependName)))
        (fun _ => 0) (exFunc prependName (some "intrinsic")) = .erase := by decide +kernel
    have h2 : listAction (collect (exModule prependName (some "intrinsic") (exConst prependName)))
        (fun _ => 0) (exFunc "f" none) = .keep := by decide +kernel
    have h3 : listAction (collect (exModule prependName (some "intrinsic") (exConst prependName)))
        (fun _ => 0) (exConst prependName) = .keep := by decide +kernel
    generalize collect (exModule prependName (some "intrinsic") (exConst prependName)) = ds at *
    simp [exModule, visitOps, visitOp, visitBlocks, visitBlock, h1, h2, h3]
  refine ⟨exModule prependName (some "intrinsic") (exConst prependName), fun _ => 0, prependName,
    ?_, ?_, ?_⟩
  · exact ⟨.inl rfl, _, List.mem_cons_self, ⟨rfl, rfl, rfl⟩, rfl⟩
  · rw [h]
    exact ⟨exConst prependName, by simp [opsAll, Op.all, blocksAll, Block.all], by simp [refs, exConst]⟩
  · rw [h]
    rintro ⟨o, ho, hf⟩
    simp only [List.mem_cons, List.not_mem_nil, or_false] at ho
    subst ho
    have := hf.2.2
    revert this
    decide

/-- C106 is false: a call with the wrong number of arguments stays, the function it calls does
not. -/
theorem C106_ioDangling_violated : ∃ (ops : List Op) (n : String),
    Declared ops n ∧ (∃ d ∈ opsAll (lowerIo ops).1, n ∈ refs d) ∧ ¬ Declared (lowerIo ops).1 n := by
  have h : (lowerIo (exModule writeName (some "intrinsic") (exCallOf writeName [1]))).1 =
      [.mk (exFunc "f" none) [.mk [.mk (exCallOf writeName [1]) []]]] := by
    rw [lowerIo_eq]; rfl
  refine ⟨exModule writeName (some "intrinsic") (exCallOf writeName [1]), writeName, ?_, ?_, ?_⟩
  · exact ⟨_, List.mem_cons_self, rfl, rfl, rfl⟩
  · rw [h]
    exact ⟨exCallOf writeName [1], by simp [opsAll, Op.all, blocksAll, Block.all],
      by simp [refs, exCallOf]⟩
  · rw [h]
    rintro ⟨o, ho, hf⟩
    simp only [List.mem_cons, List.not_mem_nil, or_false] at ho
    subst ho
    have := hf.2.2
    revert this
    decide

/-! ### Cases -/

/-- A call of an instance of the intrinsic in a function. -/
def exList : List Op :=
  exModule prependName (some "intrinsic") (exCallOf (prependName ++ "$Int") [3, 4])

example : opsAll (lowerList (fun v => v + 10) exList).1 =
    [exFunc "f" none,
      { dialect := "list", name := "prepend", types := [("element_type", 13)], operands := [3, 4], results := [9] }] := by
  decide +kernel

/-- The hypothesis of `C106_listResolved_partial` is met. -/
example : IntrinsicDeclared exList prependName ∧
    ∀ d ∈ opsAll exList, ∀ n ∈ refs d, IntrinsicDeclared exList n →
      ∃ a b r, PrependCall exList d a b r := by
  have hi : IntrinsicDeclared exList prependName :=
    ⟨.inl rfl, _, List.mem_cons_self, ⟨rfl, rfl, rfl⟩, rfl⟩
  refine ⟨hi, ?_⟩
  intro d hd n hn _
  simp only [exList, exModule, opsAll, Op.all, blocksAll, Block.all, List.append_nil,
    List.cons_append, List.nil_append, List.mem_cons, List.not_mem_nil, or_false] at hd
  rcases hd with rfl | rfl | rfl
  · simp [refs, exFunc] at hn
  · simp [refs, exFunc] at hn
  · refine ⟨3, 4, 9, ⟨_, ⟨rfl, rfl, rfl⟩, .inr ⟨.inr ⟨"Int", rfl⟩, ?_, hi⟩⟩, rfl, rfl⟩
    rw [← mem_all]
    decide +kernel

/-- An instance the program declares itself is not the intrinsic. -/
example : opsAll (lowerList (fun v => v)
    (.mk (exFunc (prependName ++ "$Int") none) [] :: exList)).1 =
    [exFunc (prependName ++ "$Int") none, exFunc "f" none, exCallOf (prependName ++ "$Int") [3, 4]] := by
  decide +kernel

/-- `C106_ownFunction`: its hypothesis is met with a call of the function. -/
example : ∀ o ∈ exModule prependName none (exCallOf prependName [3, 4]),
    o.data.abi ≠ some "intrinsic" := by
  intro o ho
  simp only [exModule, List.mem_cons, List.not_mem_nil, or_false] at ho
  rcases ho with rfl | rfl <;> simp [Op.data, exFunc]

example : opsAll (lowerIo (exModule writeName (some "intrinsic") (exCallOf writeName [3, 4]))).1 =
    [exFunc "f" none, { dialect := "tribute_io", name := "write", operands := [3, 4], results := [9] }] := by
  decide +kernel

/-- The hypothesis of `C106_ioResolved_partial` is met. -/
example : ∀ d ∈ opsAll (exModule writeName (some "intrinsic") (exCallOf writeName [3, 4])),
    ∀ n ∈ refs d, n = "std::io::__tribute_io_write" ∨ n = "std::io::__tribute_io_read_line" →
      ¬ IoBecomes d d := by
  intro d hd n hn _ hb
  simp only [exModule, opsAll, Op.all, blocksAll, Block.all, List.append_nil,
    List.cons_append, List.nil_append, List.mem_cons, List.not_mem_nil, or_false] at hd
  rcases hd with rfl | rfl | rfl
  · simp [refs, exFunc] at hn
  · simp [refs, exFunc] at hn
  · have : ∀ y, IoBecomes (exCallOf writeName [3, 4]) y → y.dialect = "tribute_io" := by
      intro y hy
      cases hy with
      | write a b r h1 h2 h3 => rfl
      | readLine r h1 h2 h3 => rfl
      | same h1 h2 => exact absurd ⟨3, 4, 9, ⟨rfl, rfl, rfl⟩, rfl, rfl⟩ h1
    have := this _ hb
    revert this
    decide

end Verif.PreludeOps
