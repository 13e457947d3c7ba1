import Verif.Solver.Rows
import Mathlib.Data.List.Dedup

/-!
# The solver terminates on the fragment
-/

namespace Verif.Solver
open Verif.Types

mutual
/-- Number of nodes, arguments of abilities not counted. -/
def Ty.size : Ty → Nat
  | .uni _ => 1
  | .node _ ks _ _ => 1 + Ty.sizeL ks
def Ty.sizeL : List Ty → Nat
  | [] => 0
  | t :: ts => Ty.size t + Ty.sizeL ts
end

theorem size_mem {t : Ty} {ts : List Ty} (h : t ∈ ts) : Ty.size t ≤ Ty.sizeL ts := by
  induction ts with
  | nil => cases h
  | cons u ts ih =>
    simp only [Ty.sizeL]
    rcases List.mem_cons.mp h with rfl | h
    · omega
    · have := ih h; omega

/-! ## Variables in use -/

/-- The type variables a state talks about are all in `U`. -/
def Within (U : List UVar) (σ : TLog) : Prop :=
  ∀ v t, (v, t) ∈ σ → v ∈ U ∧ ∀ w, Occurs w t → w ∈ U

/-- How many variables of `U` are still unbound. -/
def unboundIn (U : List UVar) (σ : TLog) : Nat := (U.filter (fun v => (σ.lookup v).isNone)).length

theorem unboundIn_cons {U : List UVar} {σ : TLog} {v : UVar} (t : Ty) (hv : v ∈ U)
    (hl : σ.lookup v = none) : unboundIn U ((v, t) :: σ) < unboundIn U σ := by
  unfold unboundIn
  have hpred : ∀ w, (((v, t) :: σ).lookup w).isNone = (decide (w ≠ v) && (σ.lookup w).isNone) := by
    intro w
    rw [List.lookup_cons]
    by_cases h : w = v
    · subst h; simp
    · rw [beq_eq_false_iff_ne.mpr h]; simp [h]
  have e1 : U.filter (fun w => (((v, t) :: σ).lookup w).isNone)
      = (U.filter (fun w => (σ.lookup w).isNone)).filter (fun w => decide (w ≠ v)) := by
    rw [List.filter_filter]
    exact List.filter_congr (fun w _ => hpred w)
  rw [e1]
  have hm : v ∈ U.filter (fun w => (σ.lookup w).isNone) := List.mem_filter.mpr ⟨hv, by simp [hl]⟩
  generalize U.filter (fun w => (σ.lookup w).isNone) = L at hm
  have : ∃ x ∈ L, ¬ (decide (x ≠ v)) = true := ⟨v, hm, by simp⟩
  exact List.length_filter_lt_length_iff_exists.mpr this

/-- `σ'` is `σ`, or has fewer variables of `U` unbound. -/
def Less (U : List UVar) (σ σ' : TLog) : Prop := σ' = σ ∨ unboundIn U σ' < unboundIn U σ

theorem Less.trans {U : List UVar} {a b c : TLog} (h1 : Less U a b) (h2 : Less U b c) : Less U a c := by
  rcases h1 with rfl | h1
  · exact h2
  · rcases h2 with rfl | h2
    · exact Or.inr h1
    · exact Or.inr (Nat.lt_trans h2 h1)

theorem apply_within {U : List UVar} {σ : TLog} (hσ : Within U σ) {N : Nat}
    (hS : ∀ v t, (v, t) ∈ σ → Simple N t) (n : Nat) {t t' : Ty} (ht : Simple N t)
    (hU : ∀ w, Occurs w t → w ∈ U) (h : apply σ [] n t = some t') : ∀ w, Occurs w t' → w ∈ U := by
  induction n generalizing t t' with
  | zero => simp [apply] at h
  | succ n ih =>
    cases t with
    | uni v =>
      simp only [apply] at h
      cases hl : σ.lookup v with
      | none => simp [hl] at h; subst h; exact hU
      | some s =>
        simp only [hl] at h
        exact ih (hS v s (lookup_mem hl)) (hσ v s (lookup_mem hl)).2 h
    | node hd ks es r =>
      rw [simple_node] at ht
      simp only [apply, rowApply_nil, mapArgs_simple ht.2.1] at h
      cases hk : mapO (apply σ [] n) ks with
      | none => simp [hk] at h
      | some ks' =>
        simp [hk] at h
        subst h
        intro w hw
        rcases occurs_node.mp hw with ⟨k, hkm, hwk⟩ | ⟨e, he, a, ha, hwa⟩
        · obtain ⟨k0, hk0, hk1⟩ := Forall₂_right (mapO_some hk) k hkm
          exact ih (ht.1 k0 hk0) (fun w hw => hU w (occurs_node.mpr (Or.inl ⟨k0, hk0, hw⟩))) hk1 w hwk
        · rw [ht.2.1 e he] at ha; cases ha

/-! ## A type without bound variables is not changed -/

theorem apply_self {σ : TLog} {N : Nat} (n : Nat) {t t' : Ty} (ht : Simple N t)
    (hu : ∀ w, Occurs w t → σ.lookup w = none) (h : apply σ [] n t = some t') : t' = t := by
  induction n generalizing t t' with
  | zero => simp [apply] at h
  | succ n ih =>
    cases t with
    | uni v =>
      simp only [apply, hu v (by simp [Occurs])] at h
      simpa using h.symm
    | node hd ks es r =>
      rw [simple_node] at ht
      simp only [apply, rowApply_nil, mapArgs_simple ht.2.1] at h
      cases hk : mapO (apply σ [] n) ks with
      | none => simp [hk] at h
      | some ks' =>
        simp [hk] at h
        subst h
        have : ks' = ks := by
          have hf := mapO_some hk
          clear hk
          have hP : ∀ k ∈ ks, ∀ k', apply σ [] n k = some k' → k' = k := fun k hk k' hk' =>
            ih (ht.1 k hk) (fun w hw => hu w (occurs_node.mpr (Or.inl ⟨k, hk, hw⟩))) hk'
          clear ht ih hu
          induction hf with
          | nil => rfl
          | cons hab _ ih =>
            rw [hP _ (.head _) _ hab, ih (fun k hk => hP k (.tail _ hk))]
        rw [this]

/-! ## Unification -/

/-- What a terminating call gives: an answer, and a state that keeps everything needed to go
on. -/
def Done (U : List UVar) (st : St) (f : Nat → Res) : Prop :=
  ∃ n b st', f n = some (b, st') ∧ Inv st' ∧ st.next ≤ st'.next ∧ Within U st'.σ ∧
    Less U st.σ st'.σ

theorem bindVar_done {U : List UVar} {st : St} (h : Inv st) (hW : Within U st.σ) {v : UVar} {t : Ty}
    (hv : st.σ.lookup v = none) (hvU : v ∈ U) (ht : Simple st.next t)
    (hf : ∀ w, Occurs w t → st.σ.lookup w = none) (htU : ∀ w, Occurs w t → w ∈ U) :
    Done U st (fun n => bindVar n v t st) := by
  have htot : ∃ n b, occursIn v st.ρ n t = some b := by
    have hR : ∀ v r, (v, r) ∈ st.ρ → SimpleRow st.next r := fun v r hm => (h.frag.2 v r hm).2
    clear hf htU
    induction t using Ty.ind with
    | hu w => exact ⟨1, w == v, by simp [occursIn]⟩
    | hn hd ks es r ihk _ =>
      rw [simple_node] at ht
      have : ∃ n b, anyO (occursIn v st.ρ n) ks = some b := by
        have hk : ∀ k ∈ ks, ∃ n b, occursIn v st.ρ n k = some b := fun k hk => ihk k hk (ht.1 k hk)
        clear ihk ht
        induction ks with
        | nil => exact ⟨0, false, rfl⟩
        | cons k ks ih =>
          obtain ⟨n1, b1, h1⟩ := hk k (.head _)
          obtain ⟨n2, b2, h2⟩ := ih (fun k hk' => hk k (.tail _ hk'))
          have h1' := le_mono (fun n => occursIn_le v st.ρ n k) (Nat.le_max_left n1 n2) _ h1
          have h2' := le_mono (fun n => anyO_mono (occursIn_le v st.ρ n) ks) (Nat.le_max_right n1 n2) _ h2
          cases b1 with
          | true => exact ⟨max n1 n2, true, by simp only [anyO, h1']⟩
          | false => exact ⟨max n1 n2, b2, by simp only [anyO, h1']; exact h2'⟩
      obtain ⟨n, b, hb⟩ := this
      have hr := rowApply_simple hR _ ht.2
      refine ⟨n + 1, b, ?_⟩
      simp only [occursIn, hb, anyArgs_simple hr.1, orO]
      cases b <;> rfl
  obtain ⟨n, b, hb⟩ := htot
  cases b with
  | true =>
    exact ⟨n, false, st, by simp [bindVar, hb], h, Nat.le_refl _, hW, Or.inl rfl⟩
  | false =>
    refine ⟨n, true, { st with σ := (v, t) :: st.σ }, by simp [bindVar, hb],
      h.bindT hv ht (occursIn_false hb) hf, Nat.le_refl _, ?_, Or.inr (unboundIn_cons t hvU hv)⟩
    intro w s hm
    rcases List.mem_cons.mp hm with hm | hm
    · cases hm; exact ⟨hvU, htU⟩
    · exact hW w s hm

theorem unifyL_done {U : List UVar} (n0 : Nat) (P : St → Prop)
    (hP : ∀ s s', P s → Less U s.σ s'.σ → P s')
    {as bs : List Ty} {st : St} (hp : P st)
    (hu : ∀ a ∈ as, ∀ b ∈ bs, ∀ s, P s → Inv s → st.next ≤ s.next → Within U s.σ →
      Done U s (fun n => unify n a b s))
    (h : Inv st) (hW : Within U st.σ) (hn0 : n0 ≤ st.next) :
    Done U st (fun n => unifyL (unify n) as bs st) := by
  induction as generalizing bs st with
  | nil => exact ⟨0, true, st, by simp [unifyL], h, Nat.le_refl _, hW, Or.inl rfl⟩
  | cons a as ih =>
    cases bs with
    | nil => exact ⟨0, true, st, by simp [unifyL], h, Nat.le_refl _, hW, Or.inl rfl⟩
    | cons b bs =>
      obtain ⟨n1, r1, s1, h1, i1, j1, w1, l1⟩ := hu a (.head _) b (.head _) st hp h (Nat.le_refl _) hW
      cases r1 with
      | false => exact ⟨n1, false, s1, by simp only [unifyL, h1, andThen], i1, j1, w1, l1⟩
      | true =>
        obtain ⟨n2, r2, s2, h2, i2, j2, w2, l2⟩ := ih (bs := bs) (st := s1) (hP _ _ hp l1)
          (fun x hx y hy s hs hi hle hw => hu x (.tail _ hx) y (.tail _ hy) s hs hi (Nat.le_trans j1 hle) hw)
          i1 w1 (Nat.le_trans hn0 j1)
        refine ⟨max n1 n2, r2, s2, ?_, i2, Nat.le_trans j1 j2, w2, l1.trans l2⟩
        have h1' := le_mono (fun n => unify_le n a b st) (Nat.le_max_left n1 n2) _ h1
        have h2' := le_mono (fun n => unifyL_le (fun a b st => unify_le n a b st) as bs s1)
          (Nat.le_max_right n1 n2) _ h2
        simp only [unifyL, h1', andThen]
        exact h2'

theorem Within.ofLess {U : List UVar} {σ : TLog} (h : Within U σ) {v : UVar} {t : Ty}
    (hm : (v, t) ∈ σ) : v ∈ U := (h v t hm).1

/-- What `unify` does with the two types after substitution. -/
def unifyStep (m : Nat) (a b : Ty) (st : St) : Res :=
  if a = b then some (true, st) else match a, b with
    | .uni v, b => bindVar m v b st
    | a, .uni v => bindVar m v a st
    | .node h ks es r, .node h' ks' es' r' =>
      if Head.quantified h ∨ Head.quantified h' then some (false, st)
      else if h = .error ∨ h' = .error then some (true, st)
      else if h = .never ∨ h' = .never then some (true, st)
      else unifyNodes m (fun σ => unifiable σ m) (unify m) h h' ks ks' ⟨es, r⟩ ⟨es', r'⟩ st

theorem unify_step {m : Nat} {t1 t2 a b : Ty} {st : St} (ha : apply st.σ [] m t1 = some a)
    (hb : apply st.σ [] m t2 = some b) : unify (m + 1) t1 t2 st = unifyStep m a b st := by
  rw [unify, ha, hb]
  rfl

theorem unify_done (U : List UVar) : ∀ k s (st : St) (t1 t2 : Ty), unboundIn U st.σ ≤ k → Inv st →
    Within U st.σ → Simple st.next t1 → Simple st.next t2 →
    (∀ w, Occurs w t1 → w ∈ U) → (∀ w, Occurs w t2 → w ∈ U) →
    (∀ n a b, apply st.σ [] n t1 = some a → apply st.σ [] n t2 = some b →
      Ty.size a + Ty.size b ≤ s) →
    Done U st (fun n => unify n t1 t2 st) := by
  intro k
  induction k using Nat.strongRecOn with
  | _ k ihk =>
  intro s
  induction s using Nat.strongRecOn with
  | _ s ihs =>
  intro st t1 t2 hk h hW s1 s2 hU1 hU2 hsz
  obtain ⟨n1, a, ha⟩ := apply_total h (Nat.le_refl _) [] (by simp) t1 s1
  obtain ⟨n2, b, hb⟩ := apply_total h (Nat.le_refl _) [] (by simp) t2 s2
  have ha := apply_mono_le (Nat.le_max_left n1 n2) ha
  have hb := apply_mono_le (Nat.le_max_right n1 n2) hb
  generalize max n1 n2 = n at ha hb
  have hsz := hsz n a b ha hb
  have sa : Simple st.next a := apply_simple h.frag.1 (by simp) n s1 ha
  have sb : Simple st.next b := apply_simple h.frag.1 (by simp) n s2 hb
  have ua : ∀ w, Occurs w a → st.σ.lookup w = none := fun w hw => apply_unbound n ha hw
  have ub : ∀ w, Occurs w b → st.σ.lookup w = none := fun w hw => apply_unbound n hb hw
  have wa := apply_within hW h.frag.1 n s1 hU1 ha
  have wb := apply_within hW h.frag.1 n s2 hU2 hb
  clear hU1 hU2 s1 s2
  have step : ∀ m, n ≤ m → unify (m + 1) t1 t2 st = unifyStep m a b st := by
    intro m hm
    exact unify_step (apply_mono_le hm ha) (apply_mono_le hm hb)
  unfold unifyStep at step
  clear ha hb
  by_cases he : a = b
  · exact ⟨n + 1, true, st, by simp only [step n (Nat.le_refl _), he, if_true], h, Nat.le_refl _, hW, Or.inl rfl⟩
  simp only [he, if_false] at step
  cases a with
  | uni v =>
    obtain ⟨m, r, st', hm, hrest⟩ := bindVar_done (t := b) h hW (ua v (by simp [Occurs]))
      (wa v (by simp [Occurs])) sb ub wb
    refine ⟨max n m + 1, r, st', ?_, hrest⟩
    show unify (max n m + 1) t1 t2 st = _
    rw [step _ (Nat.le_max_left n m)]
    exact le_mono (fun n => bindVar_le n v b st) (Nat.le_max_right n m) _ hm
  | node hd ks es r =>
    cases b with
    | uni v =>
      obtain ⟨m, r', st', hm, hrest⟩ := bindVar_done (t := .node hd ks es r) h hW (ub v (by simp [Occurs]))
        (wb v (by simp [Occurs])) sa ua wa
      refine ⟨max n m + 1, r', st', ?_, hrest⟩
      show unify (max n m + 1) t1 t2 st = _
      rw [step _ (Nat.le_max_left n m)]
      exact le_mono (fun n => bindVar_le n v (.node hd ks es r) st) (Nat.le_max_right n m) _ hm
    | node hd' ks' es' r' =>
      simp only at step
      by_cases hq : Head.quantified hd = true ∨ Head.quantified hd' = true
      · exact ⟨n + 1, false, st, by simp only [step n (Nat.le_refl _), if_pos hq], h, Nat.le_refl _, hW, Or.inl rfl⟩
      simp only [if_neg hq] at step
      by_cases hE : hd = .error ∨ hd' = .error
      · exact ⟨n + 1, true, st, by simp only [step n (Nat.le_refl _), if_pos hE], h, Nat.le_refl _, hW, Or.inl rfl⟩
      simp only [if_neg hE] at step
      by_cases hN : hd = .never ∨ hd' = .never
      · exact ⟨n + 1, true, st, by simp only [step n (Nat.le_refl _), if_pos hN], h, Nat.le_refl _, hW, Or.inl rfl⟩
      simp only [if_neg hN] at step
      rw [simple_node] at sa sb
      simp only [Ty.size] at hsz
      -- the children
      have kids : ∀ as bs : List Ty, (∀ x ∈ as, x ∈ ks) → (∀ x ∈ bs, x ∈ ks') →
          Done U st (fun n => unifyL (unify n) as bs st) := by
        intro as bs hA hB
        refine unifyL_done 0 (fun c => Less U st.σ c.σ) (fun s s' h1 h2 => h1.trans h2) (Or.inl rfl) ?_ h hW
          (Nat.zero_le _)
        intro x hx y hy c hc hi hle hw
        have hx := hA x hx
        have hy := hB y hy
        have sx : Simple c.next x := (sa.1 x hx).mono hle
        have sy : Simple c.next y := (sb.1 y hy).mono hle
        have wx : ∀ w, Occurs w x → w ∈ U := fun w hw => wa w (occurs_node.mpr (Or.inl ⟨x, hx, hw⟩))
        have wy : ∀ w, Occurs w y → w ∈ U := fun w hw => wb w (occurs_node.mpr (Or.inl ⟨y, hy, hw⟩))
        have lx := size_mem hx
        have ly := size_mem hy
        rcases hc with hc | hc
        · refine ihs (Ty.size x + Ty.size y) (by omega) c x y (by rw [hc]; exact hk) hi hw sx sy wx wy ?_
          intro n a b h1 h2
          rw [hc] at h1 h2
          rw [apply_self n (sa.1 x hx) (fun w hw => ua w (occurs_node.mpr (Or.inl ⟨x, hx, hw⟩))) h1,
            apply_self n (sb.1 y hy) (fun w hw => ub w (occurs_node.mpr (Or.inl ⟨y, hy, hw⟩))) h2]
          exact Nat.le_refl _
        · obtain ⟨m1, x', hx'⟩ := apply_total hi (Nat.le_refl _) [] (by simp) x sx
          obtain ⟨m2, y', hy'⟩ := apply_total hi (Nat.le_refl _) [] (by simp) y sy
          refine ihk (unboundIn U c.σ) (by omega) (Ty.size x' + Ty.size y') c x y (Nat.le_refl _) hi hw sx sy
            wx wy ?_
          intro n a b h1 h2
          have e1 : a = x' := by
            have p1 := apply_mono_le (Nat.le_max_left n m1) h1
            have p2 := apply_mono_le (Nat.le_max_right n m1) hx'
            rw [p1] at p2; simpa using p2
          have e2 : b = y' := by
            have p1 := apply_mono_le (Nat.le_max_left n m2) h2
            have p2 := apply_mono_le (Nat.le_max_right n m2) hy'
            rw [p1] at p2; simpa using p2
          rw [e1, e2]
          exact Nat.le_refl _
      by_cases hsh : sameHead hd hd' = false
      · exact ⟨n + 1, false, st, by simp only [step n (Nat.le_refl _), unifyNodes, if_pos hsh], h,
          Nat.le_refl _, hW, Or.inl rfl⟩
      by_cases hlen : ks.length = ks'.length
      · obtain ⟨m, b, st', hm, i', j', w', l'⟩ := kids ks ks' (fun _ h => h) (fun _ h => h)
        have hm' := le_mono (fun n => unifyL_le (fun a b st => unify_le n a b st) ks ks' st)
          (Nat.le_max_right n m) _ hm
        cases b with
        | false =>
          refine ⟨max n m + 1, false, st', ?_, i', j', w', l'⟩
          simp only [step _ (Nat.le_max_left n m), unifyNodes, if_neg hsh, hlen, ne_eq, not_true_eq_false,
            if_false, hm', andThen]
        | true =>
          obtain ⟨b2, st2, h2, hσ, _⟩ := unifyRowsWith_exact (p := fun σ => unifiable σ (max n m))
            (u := unify (max n m)) (n := max n m) i' (sa.2.mono j') (sb.2.mono j')
          have inv2 := unifyRowsWith_inv i' (sa.2.mono j') (sb.2.mono j') h2
          refine ⟨max n m + 1, b2, st2, ?_, inv2.1, Nat.le_trans j' inv2.2, by rw [hσ]; exact w',
            by rw [hσ]; exact l'⟩
          simp only [step _ (Nat.le_max_left n m), unifyNodes, if_neg hsh, hlen, ne_eq, not_true_eq_false,
            if_false, hm', andThen]
          exact h2
      · by_cases happ : hd = .app
        · obtain ⟨m, b, st', hm, i', j', w', l'⟩ := kids (ks.take 1) (ks'.take 1)
            (fun _ h => List.mem_of_mem_take h) (fun _ h => List.mem_of_mem_take h)
          have hm' := le_mono (fun n => unifyL_le (fun a b st => unify_le n a b st) (ks.take 1) (ks'.take 1) st)
            (Nat.le_max_right n m) _ hm
          refine ⟨max n m + 1, false, st', ?_, i', j', w', l'⟩
          simp only [step _ (Nat.le_max_left n m), unifyNodes, if_neg hsh, hlen, ne_eq, not_false_eq_true,
            if_true, if_pos happ, hm']
          cases b <;> rfl
        · refine ⟨n + 1, false, st, ?_, h, Nat.le_refl _, hW, Or.inl rfl⟩
          simp only [step n (Nat.le_refl _), unifyNodes, if_neg hsh, hlen, ne_eq, not_false_eq_true,
            if_true, if_neg happ]

/-! ## Constraint sets -/

mutual
/-- The type variables of a type. -/
def Ty.vars : Ty → List UVar
  | .uni v => [v]
  | .node _ ks es _ => Ty.varsL ks ++ Eff.varsL es
def Eff.vars : Eff → List UVar
  | .mk _ as => Ty.varsL as
def Ty.varsL : List Ty → List UVar
  | [] => []
  | t :: ts => Ty.vars t ++ Ty.varsL ts
def Eff.varsL : List Eff → List UVar
  | [] => []
  | t :: ts => Eff.vars t ++ Eff.varsL ts
end

theorem varsL_mem {v : UVar} {ts : List Ty} : v ∈ Ty.varsL ts ↔ ∃ t ∈ ts, v ∈ Ty.vars t := by
  induction ts with
  | nil => simp [Ty.varsL]
  | cons t ts ih => simp [Ty.varsL, ih]

theorem eVarsL_mem {v : UVar} {es : List Eff} : v ∈ Eff.varsL es ↔ ∃ e ∈ es, v ∈ Eff.vars e := by
  induction es with
  | nil => simp [Eff.varsL]
  | cons t ts ih => simp [Eff.varsL, ih]

theorem occurs_vars {v : UVar} {t : Ty} (h : Occurs v t) : v ∈ Ty.vars t := by
  induction t using Ty.ind with
  | hu w => simp [Occurs] at h; simp [Ty.vars, h]
  | hn hd ks es r ihk ihe =>
    simp only [Ty.vars, List.mem_append]
    rcases occurs_node.mp h with ⟨k, hk, hv⟩ | ⟨e, he, a, ha, hv⟩
    · exact Or.inl (varsL_mem.mpr ⟨k, hk, ihk k hk hv⟩)
    · refine Or.inr (eVarsL_mem.mpr ⟨e, he, ?_⟩)
      cases e with
      | mk ab as => exact varsL_mem.mpr ⟨a, ha, ihe _ he a ha hv⟩

/-- Every constraint in the fragment is answered. -/
theorem solveCon_total {st : St} (h : Inv st) {c : Con} (hc : ConBelow st.next c) :
    ∃ n b st', solveCon n c st = some (b, st') := by
  cases c with
  | req a b =>
    obtain ⟨b, st', hb, _⟩ := unifyRowsWith_exact (p := fun σ => unifiable σ 0) (u := unify 0) (n := 0) h
      hc.1 hc.2
    exact ⟨0, b, st', hb⟩
  | teq a b =>
    let U := Ty.vars a ++ Ty.vars b ++ st.σ.flatMap (fun p => p.1 :: Ty.vars p.2)
    have hW : Within U st.σ := by
      intro v t hm
      have hsub : ∀ w ∈ v :: Ty.vars t, w ∈ U := fun w hw =>
        List.mem_append_right _ (List.mem_flatMap.mpr ⟨(v, t), hm, hw⟩)
      exact ⟨hsub v (.head _), fun w hw => hsub w (.tail _ (occurs_vars hw))⟩
    obtain ⟨m1, x', hx'⟩ := apply_total h (Nat.le_refl _) [] (by simp) a hc.1
    obtain ⟨m2, y', hy'⟩ := apply_total h (Nat.le_refl _) [] (by simp) b hc.2
    obtain ⟨n, r, st', hr, _⟩ := unify_done U (unboundIn U st.σ) (Ty.size x' + Ty.size y') st a b
      (Nat.le_refl _) h hW hc.1 hc.2
      (fun w hw => List.mem_append_left _ (List.mem_append_left _ (occurs_vars hw)))
      (fun w hw => List.mem_append_left _ (List.mem_append_right _ (occurs_vars hw)))
      (by
        intro n a b h1 h2
        have e1 : a = x' := by
          have p1 := apply_mono_le (Nat.le_max_left n m1) h1
          have p2 := apply_mono_le (Nat.le_max_right n m1) hx'
          rw [p1] at p2; simpa using p2
        have e2 : b = y' := by
          have p1 := apply_mono_le (Nat.le_max_left n m2) h2
          have p2 := apply_mono_le (Nat.le_max_right n m2) hy'
          rw [p1] at p2; simpa using p2
        rw [e1, e2]
        exact Nat.le_refl _)
    exact ⟨n, r, st', hr⟩

theorem solveLoop_total {cs : List Con} {st : St} (h : Inv st) (hc : ∀ c ∈ cs, ConBelow st.next c) :
    ∃ n bs st', solveLoop n cs st = some (bs, st') := by
  induction cs generalizing st with
  | nil => exact ⟨0, [], st, rfl⟩
  | cons c cs ih =>
    obtain ⟨n1, b, s1, h1⟩ := solveCon_total h (hc c (.head _))
    obtain ⟨i1, j1⟩ := solveCon_inv h (hc c (.head _)) h1
    obtain ⟨n2, bs, s2, h2⟩ := ih i1 (fun c hc' => (hc c (.tail _ hc')).mono j1)
    refine ⟨max n1 n2, b :: bs, s2, ?_⟩
    have h1' := le_mono (fun n => solveCon_le n c st) (Nat.le_max_left n1 n2) _ h1
    have h2' := le_mono (fun n => solveLoop_le n cs s1) (Nat.le_max_right n1 n2) _ h2
    simp only [solveLoop, h1', h2']

end Verif.Solver
