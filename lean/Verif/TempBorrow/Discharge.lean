import Verif.TempBorrow.Held
import Verif.Dominance.Props

/-!
# The conditions of reference-count insertion that the analyses provide
-/

namespace Verif.TempBorrow

open Verif.Live Verif.RcInsert

/-! ## Parameters -/

section
variable {body : Body} {s : Summaries}

/-- A use that the analysis of parameters accepts. -/
def GoodParamUse (s : Summaries) (V : List Nat) (u : Use) : Prop :=
  match paramUse u with
  | .safe => True
  | .alias_ a => a ∈ V
  | .direct => calleeBorrows s u = true
  | .escaping => False

theorem GoodParamUse.mono {V V' : List Nat} {u : Use} (h : GoodParamUse s V u) (hs : V ⊆ V') : GoodParamUse s V' u := by
  unfold GoodParamUse at *
  cases e : paramUse u with
  | safe => trivial
  | alias_ a => rw [e] at h; exact hs h
  | direct => rw [e] at h; exact h
  | escaping => rw [e] at h; exact h

theorem paramUses_spec {rec : List Nat → Nat → Option (List Nat)}
    (hrec : ∀ vis v vis', rec vis v = some vis' → v ∈ vis' ∧ vis ⊆ vis' ∧ ∀ w ∈ vis', w ∉ vis → ∀ u ∈ usesOf body w, GoodParamUse s vis' u) :
    ∀ us vis vis', paramUses rec s vis us = some vis' → vis ⊆ vis' ∧ (∀ u ∈ us, GoodParamUse s vis' u) ∧
      ∀ w ∈ vis', w ∉ vis → ∀ u ∈ usesOf body w, GoodParamUse s vis' u := by
  intro us
  induction us with
  | nil =>
    intro vis vis' h
    simp only [paramUses, Option.some.injEq] at h
    subst h
    exact ⟨fun _ h => h, by simp, fun w h h' => absurd h h'⟩
  | cons u us ih =>
    intro vis vis' h
    rw [paramUses] at h
    split at h
    · rename_i e
      obtain ⟨h1, h2, h3⟩ := ih _ _ h
      refine ⟨h1, fun u' hu' => ?_, h3⟩
      rcases List.mem_cons.1 hu' with rfl | hu'
      · simp [GoodParamUse, e]
      · exact h2 u' hu'
    · rename_i a e
      split at h
      · rename_i vis1 hr
        obtain ⟨g1, g2, g3⟩ := hrec _ _ _ hr
        obtain ⟨h1, h2, h3⟩ := ih _ _ h
        refine ⟨fun x hx => h1 (g2 hx), fun u' hu' => ?_, fun w hw hn u' hu' => ?_⟩
        · rcases List.mem_cons.1 hu' with rfl | hu'
          · simp only [GoodParamUse, e]
            exact h1 g1
          · exact h2 u' hu'
        · by_cases hw1 : w ∈ vis1
          · exact (g3 w hw1 hn u' hu').mono h1
          · exact h3 w hw hw1 u' hu'
      · cases h
    · rename_i e
      split at h
      · rename_i hb
        obtain ⟨h1, h2, h3⟩ := ih _ _ h
        refine ⟨h1, fun u' hu' => ?_, h3⟩
        rcases List.mem_cons.1 hu' with rfl | hu'
        · simp [GoodParamUse, e, hb]
        · exact h2 u' hu'
      · cases h
    · cases h

theorem paramProven_spec : ∀ k vis v vis', paramProven body s k vis v = some vis' →
    v ∈ vis' ∧ vis ⊆ vis' ∧ ∀ w ∈ vis', w ∉ vis → ∀ u ∈ usesOf body w, GoodParamUse s vis' u := by
  intro k
  induction k with
  | zero => intro vis v vis' h; cases h
  | succ k ih =>
    intro vis v vis' h
    rw [paramProven] at h
    split at h
    · rename_i hv
      injection h with h
      subst h
      exact ⟨by simpa using hv, fun _ h => h, fun w h h' => absurd h h'⟩
    · obtain ⟨h1, h2, h3⟩ := paramUses_spec ih _ _ _ h
      refine ⟨h1 (by simp), fun x hx => h1 (by simp [hx]), fun w hw hn u hu => ?_⟩
      by_cases e : w = v
      · subst e; exact h2 u hu
      · exact h3 w hw (by simp [e, hn]) u hu

/-- A borrowed parameter, with the names it has. -/
theorem param_spec {I : Info} {own : Option (List Bool)} {v : Nat} (h : v ∈ paramBorrows I body s own) :
    I.anyref v = true ∧ (∃ blk, body[0]? = some blk ∧ v ∈ blk.args) ∧
      ∃ V, v ∈ V ∧ ∀ w ∈ V, ∀ u ∈ usesOf body w, GoodParamUse s V u := by
  simp only [paramBorrows] at h
  split at h
  · rename_i entry summary he
    simp only [List.mem_map, List.mem_filter, Bool.and_eq_true] at h
    obtain ⟨⟨v', j⟩, ⟨h1, ⟨-, h2⟩, h3⟩, rfl⟩ := h
    refine ⟨h2, ⟨entry, by rw [← List.head?_eq_getElem?]; exact he, ?_⟩, ?_⟩
    · exact List.mem_of_getElem? (List.mk_mem_zipIdx_iff_getElem?.1 h1)
    · obtain ⟨V, hV⟩ := Option.isSome_iff_exists.1 h3
      obtain ⟨g1, -, g3⟩ := paramProven_spec _ _ _ _ hV
      exact ⟨V, g1, fun w hw => g3 w hw (by simp)⟩
  · cases h

/-- Casts are followed. -/
theorem param_step {V : List Nat} (hg : ∀ w ∈ V, ∀ u ∈ usesOf body w, GoodParamUse s V u) {x y : Nat} (hx : x ∈ V) {b i : Nat} {op : Op}
    (hat : IsAt body b i op) (hk : op.kind = .cast) (h1 : op.operands.head? = some x) (h2 : y ∈ op.results) : y ∈ V := by
  have h := hg x hx ⟨b, i, 0, op⟩ (mem_usesOf.2 ⟨hat, by rw [← List.head?_eq_getElem?]; exact h1⟩)
  simp only [GoodParamUse, paramUse, hk] at h
  cases hc : castAlias ⟨b, i, 0, op⟩ with
  | none => simp [hc] at h
  | some a =>
    simp only [hc] at h
    have := (castAlias_spec hc).2.2.1
    simp only at this
    rw [this, List.mem_singleton] at h2
    rw [h2]
    exact h

end

section
variable {c : Config} {I : Info} {body : Body} {t : Dominance.Tree body.length} {s : Summaries} {own : Option (List Bool)}

/-- How the configuration comes about. -/
structure SetUp (c : Config) (I : Info) (body : Body) (t : Dominance.Tree body.length) (s : Summaries) (own : Option (List Bool)) : Prop
    extends Elided c I body t where
  params : c.params = (paramBorrows I body s own).filter (fun v => !c.consumed.contains v)

/-- Sets of names of values: all casts are among them. -/
theorem names_closed {V : List Nat} {body : Body} {J : Info} {r v : Nat} (hr : r ∈ V)
    (hstep : ∀ x y, x ∈ V → ∀ b i op, IsAt body b i op → op.kind = .cast → op.operands.head? = some x → y ∈ op.results → y ∈ V)
    (h : Relation.TransGen (CastStep J (body.flatMap (·.ops))) r v) : v ∈ V := by
  have one : ∀ x y, x ∈ V → CastStep J (body.flatMap (·.ops)) x y → y ∈ V := by
    rintro x y hx ⟨o, ho, hk, h1, h2, -⟩
    obtain ⟨blk, hb, ho⟩ := List.mem_flatMap.1 ho
    obtain ⟨b', hb'⟩ := List.mem_iff_getElem?.1 hb
    obtain ⟨i', hi'⟩ := List.mem_iff_getElem?.1 ho
    exact hstep x y hx b' i' o ⟨blk, hb', hi'⟩ hk h1 (List.mem_of_mem_head? h2)
  induction h with
  | single h => exact one _ _ hr h
  | tail _ h ih => exact one _ _ ih h

/-- A value that an operation returns or passes on is not one of the uncounted ones. -/
theorem not_borrowed (S : SetUp c I body t s own) (hcasts : CastsInOrder (body.flatMap (·.ops)))
    (hct : ∀ b i op, IsAt body b i op → (op.kind = .cast ∨ op.kind = .ret ∨ op.kind = .jump) → c.contract b i = none)
    {b i : Nat} {op : Op} (hat : IsAt body b i op) (hk : op.kind = .ret ∨ op.kind = .jump) {v : Nat} (hv : v ∈ op.operands) :
    rootOf c.inp v ∉ c.params ∧ rootOf c.inp v ∉ c.temps ∧ c.inp.deps.lookup v = none := by
  obtain ⟨j, hj⟩ := List.mem_iff_getElem?.1 hv
  have hroot : ∀ V : List Nat, rootOf c.inp v ∈ V →
      (∀ x y, x ∈ V → ∀ b i op, IsAt body b i op → op.kind = .cast → op.operands.head? = some x → y ∈ op.results → y ∈ V) → v ∈ V := by
    intro V hr hstep
    simp only [rootOf] at hr
    cases ha : c.inp.alias_.lookup v with
    | none => rw [ha] at hr; exact hr
    | some r =>
      rw [ha] at hr
      rw [S.alias] at ha
      exact names_closed hr hstep ((C21_casts hcasts v r).1 ha).2
  have hct' : ∀ b i op, IsAt body b i op → op.kind = .cast → c.contract b i = none := fun b i op h hk => hct b i op h (Or.inl hk)
  have htemp : ∀ lb li ld v' o as V, Temp I body c.contract t lb li ld v' o as V → v ∉ V := by
    intro lb li ld v' o as V hT hvV
    obtain ⟨-, -, hg⟩ := hT.proven.good v hvV ⟨b, i, j, op⟩ (mem_usesOf.2 ⟨hat, hj⟩)
    rcases hg with ⟨a, ea, -⟩ | ⟨-, hok⟩
    · have := (castAlias_spec ea).1
      simp only at this
      rcases hk with hk | hk <;> rw [hk] at this <;> cases this
    · have hn := hct b i op hat (Or.inr hk)
      rcases hk with hk | hk <;> simp [useOk, hk, hn] at hok
  refine ⟨fun h => ?_, fun h => ?_, ?_⟩
  · rw [S.params] at h
    obtain ⟨-, -, V, hV, hg⟩ := param_spec (List.mem_filter.1 h).1
    have := hg v (hroot V hV (fun x y hx b i op h1 h2 h3 h4 => param_step hg hx h1 h2 h3 h4)) ⟨b, i, j, op⟩ (mem_usesOf.2 ⟨hat, hj⟩)
    rcases hk with hk | hk <;> simp [GoodParamUse, paramUse, hk] at this
  · rw [S.temps] at h
    obtain ⟨lb, li, ld, o, as, V, hT⟩ := mem_borrowed h
    exact htemp _ _ _ _ _ _ _ hT (hroot V hT.proven.self (fun x y hx b i op h1 h2 h3 h4 => temp_step hT hct' hx h1 h2 h3 h4))
  · cases e : c.inp.deps.lookup v with
    | none => rfl
    | some o =>
      rw [S.deps] at e
      obtain ⟨lb, li, ld, v', as, V, hT, hw, -⟩ := mem_deps (lookup_mem' e)
      exact absurd hw (htemp _ _ _ _ _ _ _ hT)

theorem trans_nil {inp : Input} (h : inp.deps = []) {v o : Nat} (ht : Relation.TransGen (BorrowsFrom inp) v o) : False := by
  obtain ⟨x, -, hx⟩ := Relation.TransGen.tail'_iff.1 ht
  simp [BorrowsFrom, h] at hx

/-- Borrowing makes nothing live at the entry. -/
theorem reaches_plain (E : Elided c I body t) (hs : Ssa body) {v b i : Nat} (h : ReachesUse c.inp v b i) : ∀ f n, FPath body f n → f n = b →
    (∀ m ≤ n, ∀ blk, body[f m]? = some blk → v ∉ blk.args) →
    (∀ m j op, Earlier m j n i → IsAt body (f m) j op → v ∉ op.results) →
    ReachesUse { c.inp with deps := [] } v b i := by
  have hbody := E.code
  induction h with
  | @use b i blk op hb ho hu =>
    intro f n hf hn hargs hres
    refine .use hb ho ?_
    obtain ⟨w, hw, h | h | h⟩ := hu
    · exact ⟨w, hw, Or.inl h⟩
    · exact ⟨w, hw, Or.inr (Or.inl h)⟩
    · exfalso
      rw [hbody] at hb
      rcases trans_before E.dom hs E.deps ⟨blk, hb, ho⟩ hw h with ⟨eb, heb, ha⟩ | ⟨b0, i0, op0, h1, h2, h3⟩
      · exact hargs 0 (Nat.zero_le _) eb (by rw [hf.1]; exact heb) ha
      · obtain ⟨m, hm, e, hE⟩ := h3 f n hf hn
        exact hres m i0 op0 hE (by rw [e]; exact h1) h2
  | @next b i blk op hb ho hn' _ ih =>
    intro f n hf hn hargs hres
    refine .next hb ho hn' (ih f n hf hn hargs ?_)
    intro m j op' hE hat
    by_cases h : m = n ∧ j = i
    · obtain ⟨rfl, rfl⟩ := h
      obtain ⟨blk', hb', ho'⟩ := hat
      rw [hbody] at hb
      rw [hn, hb] at hb'
      cases hb'
      rw [ho] at ho'
      cases ho'
      exact hn'
    · refine hres m j op' ?_ hat
      have hE' : m < n ∨ (m = n ∧ j < i + 1) := hE
      show m < n ∨ (m = n ∧ j < i)
      omega
  | @edge b s blk op nb hb hl hsucc hnb hargs' _ ih =>
    intro f n hf hn hargs hres
    refine .edge hb hl hsucc hnb hargs' (ih (fun m => if m ≤ n then f m else s) (n + 1) ?_ (by simp) ?_ ?_)
    · refine ⟨by simp [hf.1], fun m hm => ?_⟩
      by_cases h : m = n
      · subst h
        simp only [Nat.le_refl, if_true, if_neg (show ¬ m + 1 ≤ m by omega)]
        rw [hn]
        rw [hbody] at hb
        exact ⟨blk, hb, by simp only [succsOf, hl]; exact hsucc⟩
      · simp only [if_pos (show m ≤ n by omega), if_pos (show m + 1 ≤ n by omega)]
        exact hf.2 m (by omega)
    · intro m hm mb hmb
      by_cases h : m ≤ n
      · simp only [if_pos h] at hmb
        exact hargs m h mb hmb
      · simp only [if_neg h] at hmb
        rw [hbody] at hnb
        rw [hnb] at hmb
        cases hmb
        exact hargs'
    · intro m j op' hE hat
      have hE' : m < n + 1 ∨ (m = n + 1 ∧ j < 0) := hE
      have hm : m ≤ n := by omega
      simp only [if_pos hm] at hat
      by_cases h : m < n
      · exact hres m j op' (Or.inl h) hat
      · have : m = n := by omega
        subst this
        obtain ⟨mb, h1, h2⟩ := hat
        rw [hbody] at hb
        rw [hn, hb] at h1
        cases h1
        exact hres m j op' (Or.inr ⟨rfl, (List.getElem?_eq_some_iff.1 h2).1⟩) ⟨blk, by rw [hn]; exact hb, h2⟩

theorem jump_moved (hc : Plain c) {b i : Nat} {op : Op} (hat : At c b i op) (hk : op.kind = .jump) {v : Nat} (hv : v ∈ moved c b i op) :
    v ∈ op.operands := by
  simp only [moved, List.mem_append] at hv
  rcases hv with hv | hv
  · simp only [movedPlain, hk] at hv
    split at hv
    · simp only [List.mem_map, List.mem_filter] at hv
      obtain ⟨⟨x, y⟩, ⟨h1, -⟩, rfl⟩ := hv
      exact (List.of_mem_zip h1).1
    · cases hv
  · simp only [movedCall] at hv
    split at hv
    · rename_i ct hct
      rcases hc.contracts b i op ct hat hct with ⟨-, h | h⟩ | ⟨-, h | h⟩ <;> (rw [hk] at h; cases h)
    · cases hv

theorem plain_regular (S : SetUp c I body t s own) (hP : Plain c) : Regular c := by
  have hbody := S.code
  have hs : Ssa body := by have := hP.ssa; rw [hbody] at this; exact this
  have hcasts := hP.casts
  rw [hbody] at hcasts
  have hct : ∀ b i op, IsAt body b i op → (op.kind = .cast ∨ op.kind = .ret ∨ op.kind = .jump) → c.contract b i = none := by
    intro b i op hat hkind
    cases h : c.contract b i with
    | none => rfl
    | some ct =>
      rcases hP.contracts b i op ct (by rw [At, hbody]; exact hat) h with ⟨-, h | h⟩ | ⟨-, h | h⟩ <;>
        (rw [h] at hkind; rcases hkind with h | h | h <;> cases h)
  have howned : ∀ b i op, At c b i op → (op.kind = .ret ∨ op.kind = .jump) → ∀ v ∈ op.operands, rootOf c.inp v ∈ c.inp.ptrs →
      c.interm (rootOf c.inp v) = false → Owned c (rootOf c.inp v) := by
    intro b i op hat hk v hv hp hi
    obtain ⟨h1, h2, -⟩ := not_borrowed S hcasts hct (by rw [At, hbody] at hat; exact hat) hk hv
    exact ⟨hp, h1, h2, hi⟩
  refine ⟨hP.args, hP.loads, hP.casts, ?_, ?_, hP.last, ?_, ?_, hP.branch, hP.succs, hP.tail, hP.contracts, hP.interm_local⟩
  · intro w o h
    rw [S.deps] at h
    obtain ⟨lb, li, ld, v', as, V, hT, hw, -⟩ := mem_deps (lookup_mem' h)
    obtain ⟨a, -, hres⟩ := hT.address
    rw [S.ptrs]
    exact (resolve_spec (fun v p h => inside_of_cast ((C21_casts hcasts v p).1 h).2) _ _ _ _ hres).1
  · rintro v hv ⟨blk, hb, ha, h⟩
    refine hP.entry v hv ⟨blk, hb, ha, ?_⟩
    refine reaches_plain S.toElided hs h (fun _ => 0) 0 ⟨rfl, fun m hm => by omega⟩ rfl ?_ ?_
    · intro m _ eb heb
      rw [hbody, heb] at hb
      cases hb
      exact ha
    · intro m j op hE _
      rcases hE with h | ⟨-, h⟩ <;> omega
  · intro b i op hat hk
    obtain ⟨h1, h2⟩ := hP.ret b i op hat hk
    exact ⟨h1, fun v hv hp => howned b i op hat (Or.inl hk) v hv hp (h2 v hv hp)⟩
  · intro b i op hat hk
    obtain ⟨h1, h2, h3⟩ := hP.jump b i op hat hk
    exact ⟨h1, h2, fun v hv hp => ⟨howned b i op hat (Or.inr hk) v (jump_moved hP hat hk hv) hp (h3 v hv hp).1, (h3 v hv hp).2⟩⟩

theorem plain_tidy (S : SetUp c I body t s own) (hP : Plain c) (hT : PlainTidy c) : Tidy c := by
  have hbody := S.code
  have hs : Ssa body := by have := hP.ssa; rw [hbody] at this; exact this
  have hcasts := hP.casts
  rw [hbody] at hcasts
  have hct : ∀ b i op, IsAt body b i op → (op.kind = .cast ∨ op.kind = .ret ∨ op.kind = .jump) → c.contract b i = none := by
    intro b i op hat hkind
    cases h : c.contract b i with
    | none => rfl
    | some ct =>
      rcases hP.contracts b i op ct (by rw [At, hbody]; exact hat) h with ⟨-, h | h⟩ | ⟨-, h | h⟩ <;>
        (rw [h] at hkind; rcases hkind with h | h | h <;> cases h)
  have hr := plain_regular S hP
  refine ⟨hP.ssa, hP.first, ?_, ?_, hT.interm, hT.ends, hT.noResults, ?_, hT.jumpTypes⟩
  · intro v hv
    rw [S.params, List.mem_filter] at hv
    obtain ⟨h1, ⟨blk, hb, ha⟩, -⟩ := param_spec hv.1
    refine ⟨by simpa using hv.2, ?_, blk, by rw [hbody]; exact hb, ha⟩
    obtain ⟨l, hl⟩ := C21_terminates I body (infoOf I body c.contract t).deps
    rw [← S.inp] at hl
    have F := facts S.inp hr hl
    have hinfo : c.inp.info = I := by rw [S.inp]; rfl
    exact F.argPtrs blk (by rw [hbody]; exact List.mem_of_getElem? hb) v ha (by rw [hinfo]; exact h1)
  · intro v hv
    rw [S.temps] at hv
    obtain ⟨b, i, op, o, as, V, hT⟩ := mem_borrowed hv
    have hinfo : c.inp.info = I := by rw [S.inp]; rfl
    exact ⟨by rw [hinfo]; exact hT.any, b, i, op, by rw [At, hbody]; exact hT.at_, hT.load, by simp [hT.results]⟩
  · intro b i op hat hk v hv
    exact (not_borrowed S hcasts hct (by rw [At, hbody] at hat; exact hat) hk hv).2.2

end

end Verif.TempBorrow
