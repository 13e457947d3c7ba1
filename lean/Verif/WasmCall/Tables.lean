import Verif.WasmCall.Spec
import Mathlib.Data.List.Nodup

/-! # Function table, function indices and type section -/

namespace Verif.WasmCall

open Spec

/-! ## Function indices -/

theorem funcIdxFrom_some {xs : List String} {n i : Nat} {f : String}
    (h : funcIdxFrom n xs f = some i) : n ≤ i ∧ xs[i - n]? = some f := by
  induction xs generalizing n with
  | nil => simp [funcIdxFrom] at h
  | cons x xs ih =>
    unfold funcIdxFrom at h
    split at h
    · rename_i j hj
      cases h
      obtain ⟨h1, h2⟩ := ih hj
      refine ⟨by omega, ?_⟩
      have : i - n = (i - (n + 1)) + 1 := by omega
      rw [this]; simpa using h2
    · split at h
      · rename_i hx
        cases h
        subst hx
        simp
      · cases h

theorem funcIdxFrom_mem {xs : List String} {n : Nat} {f : String} (h : f ∈ xs) :
    ∃ i, funcIdxFrom n xs f = some i := by
  induction xs generalizing n with
  | nil => cases h
  | cons x xs ih =>
    unfold funcIdxFrom
    cases h1 : funcIdxFrom (n + 1) xs f with
    | some j => exact ⟨j, rfl⟩
    | none =>
      rcases List.mem_cons.mp h with rfl | h'
      · exact ⟨n, by simp⟩
      · obtain ⟨i, hi⟩ := ih (n := n + 1) h'
        rw [h1] at hi; cases hi

theorem funcIdx_nameAt {m : Mod} {f : String} {i : Nat} (h : funcIdx m f = some i) :
    nameAt m i = some f := by
  have := (funcIdxFrom_some h).2
  simpa [nameAt, names] using this

theorem funcIdx_of_nameAt {m : Mod} {f : String} {i : Nat} (h : nameAt m i = some f) :
    ∃ j, funcIdx m f = some j := by
  apply funcIdxFrom_mem
  exact List.mem_of_getElem? h

theorem nameAt_inj {m : Mod} (hd : (m.imports.map (·.1) ++ m.fns.map (·.name)).Nodup)
    {i j : Nat} {f : String} (hi : nameAt m i = some f) (hj : nameAt m j = some f) : i = j := by
  unfold nameAt at hi hj
  obtain ⟨h1, e1⟩ := List.getElem?_eq_some_iff.mp hi
  obtain ⟨h2, e2⟩ := List.getElem?_eq_some_iff.mp hj
  have := (List.Nodup.getElem_inj_iff hd (hi := h1) (hj := h2)).mp (by rw [e1, e2])
  exact this

/-! ## The function table -/

theorem tableIdx_some {xs : List String} {f : String} {i : Nat} (h : tableIdx xs f = some i) :
    xs[i]? = some f := by
  induction xs generalizing i with
  | nil => cases h
  | cons x xs ih =>
    unfold tableIdx at h
    split at h
    · rename_i hx; cases h; simp [hx]
    · cases h1 : tableIdx xs f with
      | none => simp [h1] at h
      | some j =>
        simp [h1] at h
        subst h
        simpa using ih h1

theorem tableIdx_mem {xs : List String} {f : String} (h : f ∈ xs) :
    ∃ i, tableIdx xs f = some i := by
  induction xs with
  | nil => cases h
  | cons x xs ih =>
    unfold tableIdx
    split
    · exact ⟨0, rfl⟩
    · rename_i hx
      rcases List.mem_cons.mp h with rfl | h'
      · exact absurd rfl hx
      · obtain ⟨i, hi⟩ := ih h'
        exact ⟨i + 1, by simp [hi]⟩

theorem mem_dedup {xs seen : List String} {x : String} :
    x ∈ dedup seen xs ↔ x ∈ xs ∧ x ∉ seen := by
  induction xs generalizing seen with
  | nil => simp [dedup]
  | cons y ys ih =>
    unfold dedup
    split
    · rename_i hy
      rw [ih]
      constructor
      · rintro ⟨h1, h2⟩; exact ⟨List.mem_cons_of_mem _ h1, h2⟩
      · rintro ⟨h1, h2⟩
        rcases List.mem_cons.mp h1 with rfl | h1
        · exact absurd hy h2
        · exact ⟨h1, h2⟩
    · rename_i hy
      rw [List.mem_cons, ih, List.mem_cons, List.mem_cons]
      constructor
      · rintro (rfl | ⟨h1, h2⟩)
        · exact ⟨.inl rfl, hy⟩
        · exact ⟨.inr h1, fun h => h2 (.inr h)⟩
      · rintro ⟨rfl | h1, h2⟩
        · exact .inl rfl
        · by_cases hxy : x = y
          · exact .inl hxy
          · exact .inr ⟨h1, fun h => h.elim hxy h2⟩

theorem dedup_length (xs seen : List String) : (dedup seen xs).length ≤ xs.length := by
  induction xs generalizing seen with
  | nil => simp [dedup]
  | cons y ys ih =>
    unfold dedup
    split
    · exact Nat.le_succ_of_le (ih _)
    · simpa using ih _

theorem mem_insertSorted {x y : String} {l : List String} :
    y ∈ insertSorted x l ↔ y = x ∨ y ∈ l := by
  induction l with
  | nil => simp [insertSorted]
  | cons z zs ih =>
    unfold insertSorted
    split
    · simp
    · simp only [List.mem_cons, ih]; tauto

theorem insertSorted_length (x : String) (l : List String) :
    (insertSorted x l).length = l.length + 1 := by
  induction l with
  | nil => rfl
  | cons z zs ih =>
    unfold insertSorted
    split <;> simp [*]

theorem mem_sortSyms {x : String} {l : List String} : x ∈ sortSyms l ↔ x ∈ l := by
  induction l with
  | nil => simp [sortSyms]
  | cons y ys ih => simp [sortSyms, mem_insertSorted, ih]

theorem sortSyms_length (l : List String) : (sortSyms l).length = l.length := by
  induction l with
  | nil => rfl
  | cons y ys ih => simp [sortSyms, insertSorted_length, ih]

theorem refsIn_length (c : Code) : (refsIn c).length = refCount c := by
  induction c <;> simp_all [refsIn, refCount, Nat.add_assoc]

theorem mem_tableSyms {m : Mod} {f : String} :
    f ∈ tableSyms m ↔ ∃ g ∈ m.fns, f ∈ refsIn g.body := by
  simp [tableSyms, constRefs, mem_sortSyms, mem_dedup]

theorem tableSyms_length (m : Mod) :
    (tableSyms m).length ≤ (m.fns.map fun g => refCount g.body).sum := by
  unfold tableSyms constRefs
  rw [sortSyms_length]
  refine Nat.le_trans (dedup_length _ _) (Nat.le_of_eq ?_)
  simp [List.length_flatMap, refsIn_length]

theorem every_refs {c : Cond} {k : Code} (h : Every c k) {f : String} (hf : f ∈ refsIn k) :
    c.ref f := by
  induction k with
  | const d g k ih =>
    simp only [refsIn, List.mem_cons] at hf
    rcases hf with rfl | hf
    · exact h.1
    · exact ih h.2 hf
  | num d z k ih => exact ih h hf
  | add d a b k ih => exact ih h hf
  | call d r g a k ih => exact ih h.2 hf
  | callInd d r g a k ih => exact ih h.2 hf
  | ifte x t e k iht ihe ihk =>
    simp only [refsIn, List.mem_append] at hf
    rcases hf with (hf | hf) | hf
    · exact iht h.1 hf
    · exact ihe h.2.1 hf
    · exact ihk h.2.2 hf
  | _ => simp [refsIn] at hf

theorem elemIdxs_get {m : Mod} {l : List String} (hl : ∀ f ∈ l, ∃ j, funcIdx m f = some j)
    {i : Nat} {f : String} (h : l[i]? = some f) :
    ∃ j, funcIdx m f = some j ∧ (elemIdxs m l)[i]? = some j := by
  induction l generalizing i with
  | nil => simp at h
  | cons x xs ih =>
    obtain ⟨j, hj⟩ := hl x (by simp)
    cases i with
    | zero =>
      simp at h; subst h
      exact ⟨j, hj, by simp [elemIdxs, hj]⟩
    | succ i =>
      obtain ⟨j', h1, h2⟩ := ih (fun f hf => hl f (List.mem_cons_of_mem _ hf)) (by simpa using h)
      exact ⟨j', h1, by simp [elemIdxs, hj, h2]⟩

/-! ## Registered function types -/

theorem sigIdx_append {a b : List (Sig × Nat)} {s : Sig} :
    sigIdx (a ++ b) s = (sigIdx a s).orElse fun _ => sigIdx b s := by
  induction a with
  | nil => simp [sigIdx]
  | cons p a ih =>
    obtain ⟨t, i⟩ := p
    simp only [List.cons_append, sigIdx]
    split
    · simp
    · exact ih

/-- Every registered type is at its index. -/
def At (base : Nat) (map : List (Sig × Nat)) (all : List Sig) : Prop :=
  ∀ s i, sigIdx map s = some i → ∃ k, i = base + k ∧ all[k]? = some s

theorem At.snoc {base : Nat} {map : List (Sig × Nat)} {all : List Sig} (h : At base map all)
    (s : Sig) : At base (map ++ [(s, base + all.length)]) (all ++ [s]) := by
  intro t i ht
  rw [sigIdx_append] at ht
  cases h1 : sigIdx map t with
  | some j =>
    simp [h1] at ht
    subst ht
    obtain ⟨k, hk, ha⟩ := h t j h1
    refine ⟨k, hk, ?_⟩
    rw [List.getElem?_append_left (List.getElem?_eq_some_iff.mp ha).1]
    exact ha
  | none =>
    simp [h1, sigIdx] at ht
    obtain ⟨rfl, rfl⟩ := ht
    exact ⟨all.length, rfl, by simp⟩

theorem At.mono {base : Nat} {map : List (Sig × Nat)} {all : List Sig} (h : At base map all)
    (more : List Sig) : At base map (all ++ more) := by
  intro t i ht
  obtain ⟨k, hk, ha⟩ := h t i ht
  refine ⟨k, hk, ?_⟩
  rw [List.getElem?_append_left (List.getElem?_eq_some_iff.mp ha).1]
  exact ha

theorem regAt_at {base : Nat} {map : List (Sig × Nat)} {all rest : List Sig}
    (h : At base map all) : At base (regAt (base + all.length) map rest) (all ++ rest) := by
  induction rest generalizing map all with
  | nil => simpa [regAt] using h
  | cons s rest ih =>
    unfold regAt
    have key : ∀ map', At base map' (all ++ [s]) →
        At base (regAt (base + all.length + 1) map' rest) (all ++ s :: rest) := by
      intro map' h'
      have := ih h'
      simpa [Nat.add_assoc] using this
    apply key
    split
    · exact h.mono [s]
    · exact h.snoc s

/-- Invariant of the registry: types at their indices, `decl` the declared types. -/
def RegOk (base : Nat) (decl : List Sig) (r : Reg) : Prop := At base r.map (decl ++ r.added)

theorem register_ok {base : Nat} {decl : List Sig} {r : Reg} (h : RegOk base decl r) (s : Sig) :
    RegOk base decl (register (base + decl.length) r s) := by
  unfold register
  split
  · exact h
  · have := At.snoc h s
    simpa [RegOk, Nat.add_assoc] using this

theorem register_some (first : Nat) (r : Reg) (s : Sig) :
    (sigIdx (register first r s).map s).isSome := by
  unfold register
  split
  · assumption
  · rename_i h
    have h1 : sigIdx r.map s = none := by simpa using h
    simp [sigIdx_append, h1, sigIdx]

theorem register_mono (first : Nat) (r : Reg) (s t : Sig) (h : (sigIdx r.map t).isSome) :
    (sigIdx (register first r s).map t).isSome := by
  unfold register
  split
  · exact h
  · obtain ⟨i, hi⟩ := Option.isSome_iff_exists.mp h
    simp [sigIdx_append, hi]

theorem collect_ok {base : Nat} {decl : List Sig} (ty : Nat → Ty) (ret : Ty) (c : WCode) {r : Reg}
    (h : RegOk base decl r) : RegOk base decl (collect (base + decl.length) ty ret c r) := by
  induction c generalizing r with
  | num d z k ih => exact ih h
  | add d a b k ih => exact ih h
  | call d t f a k ih => exact ih h
  | callInd d t x tb c a k ih => exact ih (register_ok h _)
  | ifte c t e k iht ihe ihk => exact ihk (ihe (iht h))
  | tailInd c a s x tb => exact register_ok h _
  | _ => exact h

theorem collect_mono (first : Nat) (ty : Nat → Ty) (ret : Ty) (c : WCode) {r : Reg} {t : Sig}
    (h : (sigIdx r.map t).isSome) : (sigIdx (collect first ty ret c r).map t).isSome := by
  induction c generalizing r with
  | num d z k ih => exact ih h
  | add d a b k ih => exact ih h
  | call d t f a k ih => exact ih h
  | callInd d t x tb c a k ih => exact ih (register_mono _ _ _ _ h)
  | ifte c t e k iht ihe ihk => exact ihk (ihe (iht h))
  | tailInd c a s x tb => exact register_mono _ _ _ _ h
  | _ => exact h

/-- The function types of all indirect calls of some code. -/
def indSigs (ty : Nat → Ty) (ret : Ty) : WCode → List Sig
  | .num _ _ k | .add _ _ _ k | .call _ _ _ _ k => indSigs ty ret k
  | .callInd _ rty _ _ _ args k => callSig ty ret rty args :: indSigs ty ret k
  | .ifte _ t e k => indSigs ty ret t ++ indSigs ty ret e ++ indSigs ty ret k
  | .tailInd _ _ s _ _ => [s]
  | .fall | .ret _ | .tail _ _ | .unreach => []

theorem collect_all (first : Nat) (ty : Nat → Ty) (ret : Ty) (c : WCode) (r : Reg) :
    ∀ s ∈ indSigs ty ret c, (sigIdx (collect first ty ret c r).map s).isSome := by
  induction c generalizing r with
  | num d z k ih => exact ih r
  | add d a b k ih => exact ih r
  | call d t f a k ih => exact ih r
  | callInd d t x tb c a k ih =>
    intro s hs
    rcases List.mem_cons.mp hs with rfl | hs
    · exact collect_mono _ _ _ k (register_some _ _ _)
    · exact ih _ s hs
  | ifte c t e k iht ihe ihk =>
    intro s hs
    simp only [indSigs, List.mem_append] at hs
    rcases hs with (hs | hs) | hs
    · exact collect_mono _ _ _ k (collect_mono _ _ _ e (iht _ s hs))
    · exact collect_mono _ _ _ k (ihe _ s hs)
    · exact ihk _ s hs
  | tailInd c a s x tb =>
    intro t ht
    simp [indSigs] at ht
    subst ht
    exact register_some _ _ _
  | _ => intro s hs; cases hs

theorem collectFns_ok {base : Nat} {decl : List Sig} (ws : List (Fn WCode)) {r : Reg}
    (h : RegOk base decl r) : RegOk base decl (collectFns (base + decl.length) ws r) := by
  induction ws generalizing r with
  | nil => exact h
  | cons f fs ih => exact ih (collect_ok _ _ _ h)

theorem collectFns_mono (first : Nat) (ws : List (Fn WCode)) {r : Reg} {t : Sig}
    (h : (sigIdx r.map t).isSome) : (sigIdx (collectFns first ws r).map t).isSome := by
  induction ws generalizing r with
  | nil => exact h
  | cons f fs ih => exact ih (collect_mono _ _ _ _ h)

theorem collectFns_all (first : Nat) (ws : List (Fn WCode)) (r : Reg) :
    ∀ f ∈ ws, ∀ s ∈ indSigs f.ty f.sig.result f.body,
      (sigIdx (collectFns first ws r).map s).isSome := by
  induction ws generalizing r with
  | nil => intro f hf; cases hf
  | cons g gs ih =>
    intro f hf s hs
    rcases List.mem_cons.mp hf with rfl | hf
    · exact collectFns_mono _ gs (collect_all _ _ _ _ _ s hs)
    · exact ih _ f hf s hs

theorem registered_ok (m : Mod) (ws : List (Fn WCode)) :
    RegOk (gcCount m) (declSigs m) (registered m ws) := by
  apply collectFns_ok
  have := regAt_at (base := gcCount m) (map := []) (all := []) (rest := declSigs m)
    (by intro s i h; cases h)
  simpa [RegOk] using this

/-- Where the added types come from. -/
theorem register_added {first : Nat} {r : Reg} {s t : Sig}
    (h : t ∈ (register first r s).added) : t ∈ r.added ∨ t = s := by
  unfold register at h
  split at h
  · exact .inl h
  · simpa using h

theorem collect_added {first : Nat} {ty : Nat → Ty} {ret : Ty} {c : WCode} {r : Reg} {t : Sig}
    (h : t ∈ (collect first ty ret c r).added) : t ∈ r.added ∨ t ∈ indSigs ty ret c := by
  induction c generalizing r with
  | num d z k ih => exact ih h
  | add d a b k ih => exact ih h
  | call d t f a k ih => exact ih h
  | callInd d t x tb c a k ih =>
    rcases ih h with h | h
    · rcases register_added h with h | h
      · exact .inl h
      · exact .inr (by simp [indSigs, h])
    · exact .inr (by simp [indSigs, h])
  | ifte c t e k iht ihe ihk =>
    rcases ihk h with h | h
    · rcases ihe h with h | h
      · rcases iht h with h | h
        · exact .inl h
        · exact .inr (by simp [indSigs, h])
      · exact .inr (by simp [indSigs, h])
    · exact .inr (by simp [indSigs, h])
  | tailInd c a s x tb =>
    rcases register_added h with h | h
    · exact .inl h
    · exact .inr (by simp [indSigs, h])
  | _ => exact .inl h

theorem collectFns_added {first : Nat} {ws : List (Fn WCode)} {r : Reg} {t : Sig}
    (h : t ∈ (collectFns first ws r).added) :
    t ∈ r.added ∨ ∃ f ∈ ws, t ∈ indSigs f.ty f.sig.result f.body := by
  induction ws generalizing r with
  | nil => exact .inl h
  | cons g gs ih =>
    rcases ih h with h | ⟨f, hf, h⟩
    · rcases collect_added h with h | h
      · exact .inl h
      · exact .inr ⟨g, by simp, h⟩
    · exact .inr ⟨f, List.mem_cons_of_mem _ hf, h⟩

/-! ## The type section -/

theorem typeDefs_get {gc : List (Ty × Nat)} {ss : List Sig} {ds : List TypeDef}
    (h : typeDefs gc ss = some ds) {k : Nat} {s : Sig} (hs : ss[k]? = some s) :
    ∃ d, typeDef gc s = some d ∧ ds[k]? = some d := by
  induction ss generalizing ds k with
  | nil => simp at hs
  | cons x xs ih =>
    unfold typeDefs at h
    split at h
    · rename_i d ds' h1 h2
      cases h
      cases k with
      | zero => simp at hs; subst hs; exact ⟨d, h1, by simp⟩
      | succ k =>
        obtain ⟨d', h3, h4⟩ := ih h2 (by simpa using hs)
        exact ⟨d', h3, by simpa using h4⟩
    · cases h

theorem valtypes_length {gc : List (Ty × Nat)} {ts : List Ty} {vs : List VT}
    (h : valtypes gc ts = some vs) : vs.length = ts.length := by
  induction ts generalizing vs with
  | nil => cases h; rfl
  | cons t ts ih =>
    unfold valtypes at h
    split at h
    · rename_i h1 h2
      cases h
      simp [ih h2]
    · cases h

/-- Number of WebAssembly results of a result type. -/
def arity (t : Ty) : Nat := if t = .nil then 0 else 1

theorem resultVTs_length {gc : List (Ty × Nat)} {t : Ty} {vs : List VT}
    (h : resultVTs gc t = some vs) : vs.length = arity t := by
  unfold resultVTs at h
  unfold arity
  split at h
  · cases h; simp [*]
  · cases h1 : valtype gc t with
    | none => simp [h1] at h
    | some v => simp [h1] at h; subst h; simp [*]

theorem typeDef_shape {gc : List (Ty × Nat)} {s : Sig} {d : TypeDef} (h : typeDef gc s = some d) :
    ∃ ps rs, d = .func ps rs ∧ ps.length = s.params.length ∧ rs.length = arity s.result := by
  unfold typeDef at h
  split at h
  · rename_i ps rs h1 h2
    cases h
    exact ⟨ps, rs, rfl, valtypes_length h1, resultVTs_length h2⟩
  · cases h

end Verif.WasmCall
