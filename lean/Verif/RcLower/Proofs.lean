import Verif.RcLower.Spec
import Mathlib.Logic.Relation
/-!
# Helper lemmas: bisimulation between the block and its lowering
-/
namespace Verif.RcLower

theorem upd_same {α β : Type} [DecidableEq α] (f : α → β) (k : α) (b : β) : upd f k b k = b := by
  simp [upd]
theorem upd_ne {α β : Type} [DecidableEq α] (f : α → β) {k x : α} (b : β) (h : x ≠ k) :
    upd f k b x = f x := by simp [upd, h]
theorem upd_upd {α β : Type} [DecidableEq α] (f : α → β) (k : α) (a b : β) :
    upd (upd f k a) k b = upd f k b := by
  funext x; by_cases h : x = k <;> simp [upd, h]

/-! ## A general principle -/

/-- Private steps. -/
inductive Taus {T : Type} (M : Machine T) : T → T → Prop
  | refl {t} : Taus M t t
  | step {t t' t''} : M.priv t = some t' → Taus M t' t'' → Taus M t t''

theorem Taus.trans {T : Type} {M : Machine T} {a b c : T} (h : Taus M a b) (h' : Taus M b c) :
    Taus M a c := by
  induction h with
  | refl => exact h'
  | step h1 _ ih => exact .step h1 (ih h')

theorem Run.taus {T ι : Type} [DecidableEq ι] {M : Machine T} {ts : ι → T} {i : ι} {h tr ts' h'}
    {a b : T} (ht : Taus M a b) : ts i = a → Run M (upd ts i b) h tr ts' h' → Run M ts h tr ts' h' := by
  induction ht generalizing ts with
  | refl =>
    intro he hr
    subst he
    have : upd ts i (ts i) = ts := by
      funext x; by_cases hx : x = i
      · subst hx; simp [upd]
      · simp [upd, hx]
    rw [this] at hr; exact hr
  | @step t t' t'' h1 h2 ih =>
    intro he hr
    refine .tau (i := i) (t := t') (by rw [he]; exact h1) ?_
    exact ih (upd_same _ _ _) (by rw [upd_upd]; exact hr)

/-- One direction of a weak simulation between kinds of threads. -/
structure Sim {T U : Type} (M : Machine T) (N : Machine U) (R : T → U → Prop) : Prop where
  priv : ∀ t u t', R t u → M.priv t = some t' → R t' u
  shared : ∀ t u h e t' h', R t u → M.shared h t = some (e, t', h') →
    ∃ u1 u', Taus N u u1 ∧ N.shared h u1 = some (e, u', h') ∧ R t' u'
  done : ∀ t u, R t u → M.done t → ∃ u', Taus N u u' ∧ N.done u' ∧ R t u'

theorem Sim.run {T U ι : Type} [DecidableEq ι] {M : Machine T} {N : Machine U} {R : T → U → Prop}
    (S : Sim M N R) {ts : ι → T} {h tr ts' h'} (hr : Run M ts h tr ts' h') :
    ∀ us : ι → U, (∀ i, R (ts i) (us i)) →
      ∃ us', Run N us h tr us' h' ∧ ∀ i, R (ts' i) (us' i) := by
  induction hr with
  | nil => exact fun us hR => ⟨us, .nil, hR⟩
  | @tau ts h i t tr ts' h' h1 h2 ih =>
    intro us hR
    refine ih us ?_
    intro j
    by_cases hj : j = i
    · subst hj; rw [upd_same]; exact S.priv _ _ _ (hR j) h1
    · rw [upd_ne _ _ hj]; exact hR j
  | @vis ts h i e t h1 tr ts' h' hv h2 ih =>
    intro us hR
    obtain ⟨u1, u', ht, hs, hR'⟩ := S.shared _ _ _ _ _ _ (hR i) hv
    obtain ⟨us', hr', hR''⟩ := ih (upd us i u') (by
      intro j
      by_cases hj : j = i
      · subst hj; rw [upd_same, upd_same]; exact hR'
      · rw [upd_ne _ _ hj, upd_ne _ _ hj]; exact hR j)
    refine ⟨us', Run.taus (i := i) ht rfl (.vis (i := i) (by rw [upd_same]; exact hs) ?_), hR''⟩
    rw [upd_upd]; exact hr'

/-! ## Lowered code -/

theorem lowerBlock_keys (ops : List Op) : ∀ (ρ : Nat → Val) (k : Nat),
    (∀ e ∈ (lowerBlock ρ k ops).blocks, k ≤ e.1) ∧
    ((lowerBlock ρ k ops).blocks.map Prod.fst).Nodup := by
  induction ops with
  | nil => intro ρ k; simp [lowerBlock]
  | cons o ops ih =>
    intro ρ k
    cases o with
    | other d id args => exact ih ρ k
    | retain d s =>
      obtain ⟨h1, h2⟩ := ih (upd ρ d (ρ s)) (k + 10)
      have hlt : ∀ x, x < k + 10 → x ∉ ((lowerBlock (upd ρ d (ρ s)) (k + 10) ops).blocks.map Prod.fst) := by
        intro x hx hm
        obtain ⟨e, he, rfl⟩ := List.mem_map.mp hm
        have := h1 e he; omega
      constructor
      · intro e he
        simp only [lowerBlock, List.mem_cons] at he
        rcases he with rfl | rfl | he
        · simp
        · simp
        · have := h1 e he; omega
      · simp only [lowerBlock, List.map_cons, List.nodup_cons, List.mem_cons, not_or]
        exact ⟨⟨by omega, hlt _ (by omega)⟩, hlt _ (by omega), h2⟩
    | release s size =>
      obtain ⟨h1, h2⟩ := ih ρ (k + 10)
      have hlt : ∀ x, x < k + 10 → x ∉ ((lowerBlock ρ (k + 10) ops).blocks.map Prod.fst) := by
        intro x hx hm
        obtain ⟨e, he, rfl⟩ := List.mem_map.mp hm
        have := h1 e he; omega
      constructor
      · intro e he
        simp only [lowerBlock, List.mem_cons] at he
        rcases he with rfl | rfl | rfl | he
        · simp
        · simp
        · simp
        · have := h1 e he; omega
      · simp only [lowerBlock, List.map_cons, List.nodup_cons, List.mem_cons, not_or]
        exact ⟨⟨by omega, by omega, hlt _ (by omega)⟩, ⟨by omega, hlt _ (by omega)⟩, hlt _ (by omega), h2⟩

theorem lookup_of_mem : ∀ (l : List (Nat × List COp)), (l.map Prod.fst).Nodup →
    ∀ x c, (x, c) ∈ l → l.lookup x = some c
  | [], _, x, c, h => by simp at h
  | (y, d) :: l, hn, x, c, h => by
    simp only [List.map_cons, List.nodup_cons] at hn
    rcases List.mem_cons.mp h with h | h
    · cases h; simp [List.lookup]
    · have hne : x ≠ y := fun he => hn.1 (he ▸ List.mem_map.mpr ⟨(x, c), h, rfl⟩)
      have : (x == y) = false := by simp [hne]
      simp only [List.lookup, this]
      exact lookup_of_mem l hn.2 x c h

theorem ssa_tail {o : Op} {ops : List Op} (h : SSA (o :: ops)) : SSA ops := by
  intro before o' after he d hd
  obtain ⟨h1, h2⟩ := h (o :: before) o' after (by simp [he]) d hd
  exact ⟨h1, fun x hx => h2 x (by simp [hx])⟩

/-- A later definition is not used by the first operation. -/
theorem ssa_later {o : Op} {ops : List Op} (h : SSA (o :: ops)) {x : Op} (hx : x ∈ ops) {d : Nat}
    (hd : x.dst = some d) : d ∉ o.uses ∧ o.dst ≠ some d := by
  obtain ⟨a, b, rfl⟩ := List.append_of_mem hx
  exact (h (o :: a) x b (by simp) d hd).2 o (by simp)

/-- Current names are right: `ρ` gives every original value a name holding it, and a name that is
still going to be defined stands for itself only. -/
structure Names (ops : List Op) (ρ : Nat → Val) (env : Nat → Word) (e : Val → Word) : Prop where
  val : ∀ v, e (ρ v) = env v
  orig : ∀ v, ∃ n, ρ v = .orig n
  fresh : ∀ o ∈ ops, ∀ d, o.dst = some d → ∀ v, ρ v = .orig d → v = d

theorem Names.tmp {ops ρ env e} (h : Names ops ρ env e) (k : Nat) (w : Word) :
    Names ops ρ env (upd e (.tmp k) w) := by
  refine ⟨fun v => ?_, h.orig, h.fresh⟩
  obtain ⟨n, hn⟩ := h.orig v
  rw [upd_ne _ _ (by rw [hn]; simp), h.val]

theorem Names.tail {o ops ρ env e} (h : Names (o :: ops) ρ env e) : Names ops ρ env e :=
  ⟨h.val, h.orig, fun x hx => h.fresh x (by simp [hx])⟩

theorem Names.retain {d s ops ρ env e} (hs : SSA (.retain d s :: ops))
    (h : Names (.retain d s :: ops) ρ env e) :
    Names ops (upd ρ d (ρ s)) (upd env d (env s)) e := by
  refine ⟨fun v => ?_, fun v => ?_, ?_⟩
  · by_cases hv : v = d
    · subst hv; rw [upd_same, upd_same, h.val]
    · rw [upd_ne _ _ hv, upd_ne _ _ hv, h.val]
  · by_cases hv : v = d
    · subst hv; rw [upd_same]; exact h.orig s
    · rw [upd_ne _ _ hv]; exact h.orig v
  · intro x hx c hc v hv
    by_cases hvd : v = d
    · subst hvd
      rw [upd_same] at hv
      have := h.fresh x (by simp [hx]) c hc s hv
      subst this
      exact absurd (by simp [Op.uses]) (ssa_later hs hx hc).1
    · rw [upd_ne _ _ hvd] at hv
      exact h.fresh x (by simp [hx]) c hc v hv

theorem Names.other {d id args ops ρ env e} (w : Word) (hs : SSA (.other d id args :: ops))
    (hρ : ρ d = .orig d) (h : Names (.other d id args :: ops) ρ env e) :
    Names ops ρ (upd env d w) (upd e (.orig d) w) := by
  refine ⟨fun v => ?_, h.orig, fun x hx => h.fresh x (by simp [hx])⟩
  by_cases hv : v = d
  · subst hv; rw [hρ, upd_same, upd_same]
  · rw [upd_ne _ _ hv]
    have : ρ v ≠ .orig d := fun hc => hv (h.fresh (.other d id args) (by simp) d rfl v hc)
    rw [upd_ne _ _ this, h.val]

/-- The two threads are at the same operation. -/
structure Boundary (ops : List Op) (ρ : Nat → Val) (k : Nat) (s : SThread) (l : LThread) : Prop where
  prog : s.prog = ops
  pending : s.pending = none
  code : l.code = (lowerBlock ρ k ops).code
  blocks : ∀ x c, (x, c) ∈ (lowerBlock ρ k ops).blocks → l.blocks.lookup x = some c
  names : Names ops ρ s.env l.env
  self : ∀ o ∈ ops, ∀ d, o.dst = some d → ρ d = .orig d
  ssa : SSA ops

/-- Both threads are about to do the same visible thing, or are at their end. -/
inductive Canon : SThread → LThread → Prop
  | done {s l} : s.prog = [] → s.pending = none → l.code = [] → Canon s l
  | other {s l ops ρ k d id args} : Boundary (.other d id args :: ops) ρ k s l → Canon s l
  | retain {s l} {d p : Nat} {ops ρ k} {o a one : Nat} {skip : Nat} {c : List COp} :
      s.prog = .retain d p :: ops → s.pending = none → s.env p ≠ 0 →
      l.code = [.rmwAdd (.tmp o) (.tmp a) (.tmp one), .jump skip] →
      l.env (.tmp a) = s.env p - 8 → l.env (.tmp one) = 1 → l.blocks.lookup skip = some c →
      Boundary ops (upd ρ d (ρ p)) k { s with prog := ops, env := upd s.env d (s.env p) }
        { l with code := c } → Canon s l
  | release {s l} {p : Nat} {size : Word} {ops ρ k j} {skip free : Nat} {c : List COp} :
      s.prog = .release p size :: ops → s.pending = none → s.env p ≠ 0 →
      l.code = [.rmwSub (.tmp (j+3)) (.tmp (j+1)) (.tmp (j+2)), .icmpEq (.tmp (j+4)) (.tmp (j+3)) (.tmp (j+2)),
        .brif (.tmp (j+4)) free skip] →
      l.env (.tmp (j+1)) = s.env p - 8 → l.env (.tmp (j+2)) = 1 → l.blocks.lookup skip = some c →
      l.blocks.lookup free = some (genDeepReleaseCall (j+5) (ρ p) size skip) →
      Boundary ops ρ k { s with prog := ops } { l with code := c } → Canon s l
  | destroy {s l} {p size : Word} {ops ρ k} {x : Val} {y : Nat} {skip : Nat} {c : List COp} :
      s.pending = some (p, size) →
      l.code = [.callDeepRelease x (.tmp y), .jump skip] → l.env x = p → l.env (.tmp y) = size →
      l.blocks.lookup skip = some c →
      Boundary ops ρ k { s with pending := none } { l with code := c } → Canon s l

/-- Related threads: both can be run privately to a common point. -/
def Rel (act : Effect) (s : SThread) (l : LThread) : Prop :=
  ∃ s' l', Taus (source act) s s' ∧ Taus (lowered act) l l' ∧ Canon s' l'

theorem Rel.left {act s s' l} (h : s.priv = some s') (hr : Rel act s' l) : Rel act s l := by
  obtain ⟨a, b, h1, h2, h3⟩ := hr
  exact ⟨a, b, .step h h1, h2, h3⟩

theorem Rel.right {act s l l'} (h : l.priv = some l') (hr : Rel act s l') : Rel act s l := by
  obtain ⟨a, b, h1, h2, h3⟩ := hr
  exact ⟨a, b, h1, .step h h2, h3⟩

theorem Rel.canon {act s l} (h : Canon s l) : Rel act s l := ⟨s, l, .refl, .refl, h⟩

theorem Rel.iconst {act s d n rest e bs} (h : Rel act s ⟨rest, upd e d n, bs⟩) :
    Rel act s ⟨.iconst d n :: rest, e, bs⟩ := Rel.right rfl h
theorem Rel.icmp {act s d a b rest e bs}
    (h : Rel act s ⟨rest, upd e d (if e a = e b then 1 else 0), bs⟩) :
    Rel act s ⟨.icmpEq d a b :: rest, e, bs⟩ := Rel.right rfl h
theorem Rel.isub {act s d a b rest e bs} (h : Rel act s ⟨rest, upd e d (e a - e b), bs⟩) :
    Rel act s ⟨.isub d a b :: rest, e, bs⟩ := Rel.right rfl h
theorem Rel.brifT {act s c x y rest e} {bs : List (Nat × List COp)} {code} (hc : e c ≠ 0)
    (hb : bs.lookup x = some code) (h : Rel act s ⟨code, e, bs⟩) :
    Rel act s ⟨.brif c x y :: rest, e, bs⟩ :=
  Rel.right (by unfold LThread.priv; simp only; rw [if_pos hc, hb]; rfl) h
theorem Rel.brifF {act s c x y rest e} {bs : List (Nat × List COp)} {code} (hc : e c = 0)
    (hb : bs.lookup y = some code) (h : Rel act s ⟨code, e, bs⟩) :
    Rel act s ⟨.brif c x y :: rest, e, bs⟩ := Rel.right (by simp [LThread.priv, hc, hb]) h
theorem Rel.jump {act s x rest e} {bs : List (Nat × List COp)} {code}
    (hb : bs.lookup x = some code) (h : Rel act s ⟨code, e, bs⟩) :
    Rel act s ⟨.jump x :: rest, e, bs⟩ := Rel.right (by simp [LThread.priv, hb]) h

theorem Boundary.env {ops ρ k s l} (h : Boundary ops ρ k s l) (j : Nat) (w : Word) :
    Boundary ops ρ k s { l with env := upd l.env (.tmp j) w } :=
  ⟨h.prog, h.pending, h.code, h.blocks, h.names.tmp j w, h.self, h.ssa⟩

/-- From the start of an operation both threads get to a common point. -/
theorem boundary_rel (act : Effect) : ∀ (ops : List Op) (ρ : Nat → Val) (k : Nat) (s : SThread)
    (l : LThread), Boundary ops ρ k s l → Rel act s l
  | [], ρ, k, s, l, h => Rel.canon (.done h.prog h.pending (by rw [h.code]; rfl))
  | .other d id args :: ops, ρ, k, s, l, h => Rel.canon (.other h)
  | .retain d p :: ops, ρ, k, s, l, h => by
    obtain ⟨n, hn⟩ := h.names.orig p
    have hb1 := h.blocks (k+1) (genRetainRcOps (k+2) (ρ p) ++ [.jump k]) (by simp [lowerBlock])
    have hb2 := h.blocks k (lowerBlock (upd ρ d (ρ p)) (k + 10) ops).code (by simp [lowerBlock])
    have hval := h.names.val p
    rw [hn] at hval
    have hc := h.code
    simp only [lowerBlock] at hc
    have hB : ∀ e : Val → Word, (∀ n, e (.orig n) = l.env (.orig n)) →
        Boundary ops (upd ρ d (ρ p)) (k+10)
          { s with prog := ops, env := upd s.env d (s.env p) }
          { l with code := (lowerBlock (upd ρ d (ρ p)) (k + 10) ops).code, env := e } := by
      intro e he
      have hN := h.names.retain h.ssa
      refine ⟨rfl, h.pending, rfl, fun x c hx => h.blocks x c (by simp [lowerBlock, hx]), ?_, ?_, ssa_tail h.ssa⟩
      · refine ⟨fun v => ?_, hN.orig, hN.fresh⟩
        obtain ⟨m, hm⟩ := hN.orig v
        show e _ = _
        rw [hm, he, ← hm]; exact hN.val v
      · intro o ho c hc'
        have : c ≠ d := fun hcd => (ssa_later h.ssa ho hc').2 (by simp [Op.dst, hcd])
        rw [upd_ne _ _ this]; exact h.self o (by simp [ho]) c hc'
    -- null check
    obtain ⟨code, e, bs⟩ := l
    simp only at hc hb1 hb2 hval hB
    subst hc
    refine Rel.iconst (Rel.icmp ?_)
    by_cases hz : s.env p = 0
    · refine Rel.left (s' := { s with prog := ops, env := upd s.env d (s.env p) })
        (by unfold SThread.priv; rw [h.prog, h.pending]; simp [hz]) ?_
      refine Rel.brifT ?_ hb2 (boundary_rel act ops _ _ _ _ (hB _ ?_))
      · simp [upd, hn, hval, hz]
      · intro m; simp [upd]
    · have hz' : ¬ s.env p = 0#64 := hz
      refine Rel.brifF ?_ hb1 ?_
      · simp [upd, hn, hval, hz']
      refine Rel.iconst (Rel.isub (Rel.iconst ?_))
      refine Rel.canon (.retain (c := (lowerBlock (upd ρ d (ρ p)) (k + 10) ops).code) (ρ := ρ) (k := k + 10) h.prog h.pending hz rfl ?_ ?_ hb2 ?_)
      · simp [upd, hn, hval, headerSize]
      · simp [upd]
      · exact hB _ (fun m => by simp [upd])
  | .release p size :: ops, ρ, k, s, l, h => by
    obtain ⟨n, hn⟩ := h.names.orig p
    have hb1 := h.blocks (k+1) (genReleaseDecrement (k+2) (ρ p) ++ [.brif (.tmp (k+6)) (k+2) k]) (by simp [lowerBlock])
    have hb2 := h.blocks k (lowerBlock ρ (k + 10) ops).code (by simp [lowerBlock])
    have hb3 := h.blocks (k+2) (genDeepReleaseCall (k+7) (ρ p) size k) (by simp [lowerBlock])
    have hval := h.names.val p
    rw [hn] at hval
    have hc := h.code
    simp only [lowerBlock] at hc
    have hB : ∀ e : Val → Word, (∀ n, e (.orig n) = l.env (.orig n)) →
        Boundary ops ρ (k+10) { s with prog := ops }
          { l with code := (lowerBlock ρ (k + 10) ops).code, env := e } := by
      intro e he
      have hN := h.names.tail
      refine ⟨rfl, h.pending, rfl, fun x c hx => h.blocks x c (by simp [lowerBlock, hx]), ?_, ?_, ssa_tail h.ssa⟩
      · refine ⟨fun v => ?_, hN.orig, hN.fresh⟩
        obtain ⟨m, hm⟩ := hN.orig v
        show e _ = _
        rw [hm, he, ← hm]; exact hN.val v
      · exact fun o ho c hc' => h.self o (by simp [ho]) c hc'
    obtain ⟨code, e, bs⟩ := l
    simp only at hc hb1 hb2 hb3 hval hB
    subst hc
    refine Rel.iconst (Rel.icmp ?_)
    by_cases hz : s.env p = 0
    · refine Rel.left (s' := { s with prog := ops })
        (by unfold SThread.priv; rw [h.prog, h.pending]; simp [hz]) ?_
      refine Rel.brifT ?_ hb2 (boundary_rel act ops _ _ _ _ (hB _ ?_))
      · simp [upd, hn, hval, hz]
      · intro m; simp [upd]
    · have hz' : ¬ s.env p = 0#64 := hz
      refine Rel.brifF ?_ hb1 ?_
      · simp [upd, hn, hval, hz']
      refine Rel.iconst (Rel.isub (Rel.iconst ?_))
      refine Rel.canon (.release (c := (lowerBlock ρ (k + 10) ops).code) (ρ := ρ) (k := k + 10) (j := k + 2) h.prog h.pending hz rfl ?_ ?_ hb2 hb3 ?_)
      · simp [upd, hn, hval, headerSize]
      · simp [upd]
      · exact hB _ (fun m => by simp [upd])

/-! ## The two simulations -/

theorem taus_none {T : Type} {M : Machine T} {a b : T} (h : Taus M a b) (hn : M.priv a = none) :
    a = b := by
  cases h with
  | refl => rfl
  | step h1 _ => rw [hn] at h1; cases h1

theorem taus_step {T : Type} {M : Machine T} {a b c : T} (h : Taus M a b) (hn : M.priv b = none)
    (hs : M.priv a = some c) : Taus M c b := by
  cases h with
  | refl => rw [hn] at hs; cases hs
  | step h1 h2 => rw [hs] at h1; cases h1; exact h2

theorem canon_priv {s l} (h : Canon s l) : s.priv = none ∧ l.priv = none := by
  cases h with
  | done h1 h2 h3 => simp [SThread.priv, LThread.priv, h1, h2, h3]
  | other h =>
    have := h.code
    simp only [lowerBlock] at this
    simp [SThread.priv, LThread.priv, h.prog, h.pending, this]
  | retain h1 h2 h3 h4 =>
    exact ⟨by unfold SThread.priv; rw [h1, h2]; simp only; rw [if_neg h3], by simp [LThread.priv, h4]⟩
  | release h1 h2 h3 h4 =>
    exact ⟨by unfold SThread.priv; rw [h1, h2]; simp only; rw [if_neg h3], by simp [LThread.priv, h4]⟩
  | destroy h1 h2 =>
    constructor
    · unfold SThread.priv; rw [h1]
    · simp [LThread.priv, h2]

theorem s_shared_priv {act h} {s : SThread} {r} (hs : s.shared act h = some r) : s.priv = none := by
  obtain ⟨prog, env, pend⟩ := s
  cases pend with
  | some x => rfl
  | none =>
    match prog with
    | [] => rfl
    | .retain d p :: rest =>
      simp only [SThread.shared] at hs
      split at hs
      · cases hs
      · simp [SThread.priv]; assumption
    | .release p sz :: rest =>
      simp only [SThread.shared] at hs
      split at hs
      · cases hs
      · simp [SThread.priv]; assumption
    | .other .. :: rest => rfl

theorem l_shared_priv {act h} {l : LThread} {r} (hs : l.shared act h = some r) : l.priv = none := by
  obtain ⟨code, env, bs⟩ := l
  match code with
  | [] => rfl
  | .iconst .. :: _ => simp [LThread.shared] at hs
  | .icmpEq .. :: _ => simp [LThread.shared] at hs
  | .isub .. :: _ => simp [LThread.shared] at hs
  | .brif .. :: _ => simp [LThread.shared] at hs
  | .jump .. :: _ => simp [LThread.shared] at hs
  | .rmwAdd .. :: _ => rfl
  | .rmwSub .. :: _ => rfl
  | .callDeepRelease .. :: _ => rfl
  | .other .. :: _ => rfl

/-- At a common point, both threads do the same thing. -/
theorem canon_shared (act : Effect) (h : Heap) {s l} (hc : Canon s l) :
    (s.shared act h = none ∧ l.shared act h = none) ∨
    ∃ e s' l' h', s.shared act h = some (e, s', h') ∧ l.shared act h = some (e, l', h') ∧ Rel act s' l' := by
  cases hc with
  | done h1 h2 h3 => left; simp [SThread.shared, LThread.shared, h1, h2, h3]
  | @other ops ρ k d id args hB =>
    right
    have hcode := hB.code
    simp only [lowerBlock] at hcode
    have hargs : (args.map ρ).map l.env = args.map s.env := by
      rw [List.map_map]; apply List.map_congr_left; intro v _; exact hB.names.val v
    refine ⟨.op id (args.map s.env) (act id (args.map s.env) h).1,
      { s with prog := ops, env := upd s.env d (act id (args.map s.env) h).1 },
      { l with code := (lowerBlock ρ k ops).code, env := upd l.env (.orig d) (act id (args.map s.env) h).1 },
      (act id (args.map s.env) h).2, ?_, ?_, ?_⟩
    · simp [SThread.shared, hB.prog, hB.pending]
    · simp only [LThread.shared, hcode, hargs]
    · apply boundary_rel act ops ρ k
      exact ⟨rfl, hB.pending, rfl, hB.blocks, Names.other _ hB.ssa (hB.self (.other d id args) (by simp) d rfl) hB.names,
        fun o ho => hB.self o (by simp [ho]), ssa_tail hB.ssa⟩
  | @retain d p ops ρ k o a one skip c h1 h2 h3 h4 h5 h6 h7 hB =>
    right
    refine ⟨.retain (s.env p), { s with prog := ops, env := upd s.env d (s.env p) },
      { l with code := [.jump skip], env := upd l.env (.tmp o) ((h (s.env p - 8)).setWidth 64) },
      upd h (s.env p - 8) (h (s.env p - 8) + 1), ?_, ?_, ?_⟩
    · simp only [SThread.shared, h1, h2]
      rw [if_neg h3]
    · simp only [LThread.shared, h4, h5, h6, BitVec.sub_add_cancel]
      rfl
    · refine Rel.jump h7 (boundary_rel act ops (upd ρ d (ρ p)) k _ _ ?_)
      exact Boundary.env hB _ _
  | @release p size ops ρ k j skip free c h1 h2 h3 h4 h5 h6 h7 h8 hB =>
    right
    refine ⟨.release (s.env p),
      { s with prog := ops, pending := if h (s.env p - 8) = 1 then some (s.env p, size) else none },
      { l with
        code := [.icmpEq (.tmp (j+4)) (.tmp (j+3)) (.tmp (j+2)), .brif (.tmp (j+4)) free skip]
        env := upd l.env (.tmp (j+3)) ((h (s.env p - 8)).setWidth 64) },
      upd h (s.env p - 8) (h (s.env p - 8) - 1), ?_, ?_, ?_⟩
    · simp only [SThread.shared, h1, h2]
      rw [if_neg h3]
    · simp only [LThread.shared, h4, h5, h6, BitVec.sub_add_cancel]
      rfl
    · refine Rel.icmp ?_
      have hone : upd l.env (.tmp (j+3)) (BitVec.setWidth 64 (h (s.env p - 8))) (.tmp (j+2)) = 1 := by
        simp [upd, h6]
      have hold : upd l.env (.tmp (j+3)) (BitVec.setWidth 64 (h (s.env p - 8))) (.tmp (j+3)) =
          BitVec.setWidth 64 (h (s.env p - 8)) := upd_same _ _ _
      rw [hone, hold]
      have hiff : BitVec.setWidth 64 (h (s.env p - 8)) = 1 ↔ h (s.env p - 8) = 1 := by
        constructor
        · intro he
          have := congrArg BitVec.toNat he
          apply BitVec.eq_of_toNat_eq
          simp at this ⊢
          omega
        · intro he; rw [he]; rfl
      by_cases hl : h (s.env p - 8) = 1
      · rw [if_pos (hiff.2 hl), if_pos hl]
        refine Rel.brifT (by simp [upd]) h8 (Rel.iconst ?_)
        obtain ⟨n, hn⟩ := hB.names.orig p
        refine Rel.canon (.destroy (ops := ops) (ρ := ρ) (k := k) (c := c) rfl rfl ?_ (upd_same _ _ _) h7 ?_)
        · have := hB.names.val p
          rw [hn] at this ⊢
          simpa [upd] using this
        · have := ((hB.env (j+3) (BitVec.setWidth 64 (h (s.env p - 8)))).env (j+4) 1).env (j+5) size
          exact ⟨this.prog, rfl, this.code, this.blocks, this.names, this.self, this.ssa⟩
      · rw [if_neg (fun he => hl (hiff.1 he)), if_neg hl]
        refine Rel.brifF (by simp [upd]) h7 (boundary_rel act ops ρ k _ _ ?_)
        have := (hB.env (j+3) (BitVec.setWidth 64 (h (s.env p - 8)))).env (j+4) 0
        exact ⟨this.prog, rfl, this.code, this.blocks, this.names, this.self, this.ssa⟩
  | @destroy p size ops ρ k x y skip c h1 h2 h3 h4 h5 hB =>
    right
    refine ⟨.destroy p size, { s with pending := none }, { l with code := [.jump skip] }, h, ?_, ?_, ?_⟩
    · simp only [SThread.shared, h1]
    · simp only [LThread.shared, h2, h3, h4]
    · exact Rel.jump h5 (boundary_rel act ops ρ k _ _ hB)

theorem canon_done {s l} (h : Canon s l) : s.done ↔ l.done := by
  cases h with
  | done h1 h2 h3 => simp [SThread.done, LThread.done, h1, h2, h3]
  | other h =>
    have := h.code
    simp only [lowerBlock] at this
    simp [SThread.done, LThread.done, h.prog, this]
  | retain h1 h2 h3 h4 => simp [SThread.done, LThread.done, h1, h4]
  | release h1 h2 h3 h4 => simp [SThread.done, LThread.done, h1, h4]
  | destroy h1 h2 => simp [SThread.done, LThread.done, h1, h2]

theorem s_done_priv {s : SThread} (h : s.done) : s.priv = none := by
  obtain ⟨h1, h2⟩ := h; simp [SThread.priv, h1, h2]

theorem l_done_priv {l : LThread} (h : l.done) : l.priv = none := by
  have : l.code = [] := h
  simp [LThread.priv, this]

theorem sim_down (act : Effect) : Sim (source act) (lowered act) (Rel act) := by
  constructor
  · rintro s l s' ⟨a, b, h1, h2, hc⟩ hp
    exact ⟨a, b, taus_step h1 (canon_priv hc).1 hp, h2, hc⟩
  · rintro s l h e s' h' ⟨a, b, h1, h2, hc⟩ hs
    have := taus_none h1 (s_shared_priv hs)
    subst this
    rcases canon_shared act h hc with ⟨hn, _⟩ | ⟨e', s'', l'', h'', e1, e2, e3⟩
    · have hs' : s.shared act h = some (e, s', h') := hs
      rw [hn] at hs'; cases hs'
    · have hs' : s.shared act h = some (e, s', h') := hs
      rw [e1] at hs'; cases hs'
      exact ⟨b, l'', h2, e2, e3⟩
  · rintro s l ⟨a, b, h1, h2, hc⟩ hd
    have := taus_none h1 (s_done_priv hd)
    subst this
    exact ⟨b, h2, (canon_done hc).1 hd, s, b, .refl, .refl, hc⟩

theorem sim_up (act : Effect) : Sim (lowered act) (source act) (fun l s => Rel act s l) := by
  constructor
  · rintro l s l' ⟨a, b, h1, h2, hc⟩ hp
    exact ⟨a, b, h1, taus_step h2 (canon_priv hc).2 hp, hc⟩
  · rintro l s h e l' h' ⟨a, b, h1, h2, hc⟩ hs
    have := taus_none h2 (l_shared_priv hs)
    subst this
    have hs' : l.shared act h = some (e, l', h') := hs
    rcases canon_shared act h hc with ⟨_, hn⟩ | ⟨e', s'', l'', h'', e1, e2, e3⟩
    · rw [hn] at hs'; cases hs'
    · rw [e2] at hs'; cases hs'
      exact ⟨a, s'', h1, e1, e3⟩
  · rintro l s ⟨a, b, h1, h2, hc⟩ hd
    have := taus_none h2 (l_done_priv hd)
    subst this
    exact ⟨a, h1, (canon_done hc).2 hd, a, l, .refl, .refl, hc⟩

theorem start_rel (act : Effect) (ops : List Op) (env : Nat → Word) (hs : SSA ops) :
    Rel act (SThread.start ops env) (LThread.start ops env) := by
  apply boundary_rel act ops .orig 0
  refine ⟨rfl, rfl, rfl, ?_, ⟨fun v => rfl, fun v => ⟨v, rfl⟩, ?_⟩, fun _ _ _ _ => rfl, hs⟩
  · intro x c hx
    exact lookup_of_mem _ (lowerBlock_keys ops .orig 0).2 x c hx
  · intro o _ d _ v hv; simpa using hv

/-- Finishing a pool: every thread that is at its end on one side can be brought to its end on the
other, without events, one thread after the other (the pool is finite). -/
theorem finish_pool {T U ι : Type} [DecidableEq ι] {M : Machine T} {N : Machine U} {R : T → U → Prop}
    (S : Sim M N R) (ts : ι → T) (hd : ∀ i, M.done (ts i)) (l : List ι) : ∀ (us : ι → U) (h : Heap),
    (∀ i, R (ts i) (us i)) → (∀ i, i ∈ l ∨ N.done (us i)) →
    ∃ us', Run N us h [] us' h ∧ ∀ i, N.done (us' i) := by
  induction l with
  | nil => intro us h _ hl; exact ⟨us, .nil, fun i => (hl i).resolve_left (by simp)⟩
  | cons a l ih =>
    intro us h hR hl
    obtain ⟨u', ht, hdu, hR'⟩ := S.done _ _ (hR a) (hd a)
    obtain ⟨us', hr, hd'⟩ := ih (upd us a u') h (by
      intro i
      by_cases hi : i = a
      · subst hi; rw [upd_same]; exact hR'
      · rw [upd_ne _ _ hi]; exact hR i) (by
      intro i
      by_cases hi : i = a
      · subst hi; right; rw [upd_same]; exact hdu
      · rw [upd_ne _ _ hi]
        rcases hl i with h' | h'
        · left; rcases List.mem_cons.mp h' with h'' | h''
          · exact absurd h'' hi
          · exact h''
        · exact Or.inr h')
    exact ⟨us', Run.taus (i := a) ht rfl hr, hd'⟩

theorem Run.append {T ι : Type} [DecidableEq ι] {M : Machine T} {ts : ι → T} {h tr ts1 h1 tr' ts2 h2}
    (hr : Run M ts h tr ts1 h1) (hr' : Run M ts1 h1 tr' ts2 h2) : Run M ts h (tr ++ tr') ts2 h2 := by
  induction hr with
  | nil => exact hr'
  | tau h1 _ ih => exact .tau h1 (ih hr')
  | vis h1 _ ih => exact .vis h1 (ih hr')

theorem complete_of_sim {T U ι : Type} [DecidableEq ι] {M : Machine T} {N : Machine U}
    {R : T → U → Prop} (S : Sim M N R) (threads : List ι) (hall : ∀ i, i ∈ threads) {ts : ι → T}
    {us : ι → U} {h tr h'} (hR : ∀ i, R (ts i) (us i)) (hc : Complete M ts h tr h') :
    Complete N us h tr h' := by
  obtain ⟨ts', hr, hd⟩ := hc
  obtain ⟨us', hr', hR'⟩ := S.run hr us hR
  obtain ⟨us'', hr'', hd''⟩ := finish_pool S ts' hd threads us' h' hR' (fun i => Or.inl (hall i))
  exact ⟨us'', by simpa using hr'.append hr'', hd''⟩

/-! ## Counting -/

variable {ι : Type} [DecidableEq ι]

/-- Count after one event. -/
def stepRefs (p : Word) (n : Nat) : Event → Nat
  | .retain q => if q = p then n + 1 else n
  | .release q => if q = p then n - 1 else n
  | _ => n

theorem refsAfter_cons (p : Word) (n : Nat) (i : ι) (e : Event) (tr : List (ι × Event)) :
    refsAfter p n ((i, e) :: tr) = refsAfter p (stepRefs p n e) tr := by
  cases e <;> rfl

theorem disciplined_cons {p : Word} {n : Nat} {i : ι} {e : Event} {tr : List (ι × Event)}
    (h : Disciplined p n ((i, e) :: tr)) :
    (e = .retain p → 0 < n ∧ n + 1 < 2 ^ 32) ∧ (e = .release p → 0 < n) ∧
    Disciplined p (stepRefs p n e) tr := by
  have h0 := h [] i e tr rfl
  refine ⟨h0.1, h0.2, ?_⟩
  intro before j e' after he
  have := h ((i, e) :: before) j e' after (by simp [he])
  rwa [refsAfter_cons] at this

/-- An event that does not touch `p`. -/
theorem stepRefs_untouched {p : Word} {n : Nat} {e : Event} (h : touches p e = false) :
    stepRefs p n e = n := by
  cases e <;> simp_all [touches, stepRefs]

theorem refs_untouched {p : Word} : ∀ {n : Nat} {tr : List (ι × Event)},
    (∀ x ∈ tr, touches p x.2 = false) → refsAfter p n tr = n
  | n, [], _ => rfl
  | n, (i, e) :: tr, h => by
    rw [refsAfter_cons, stepRefs_untouched (h (i, e) (by simp))]
    exact refs_untouched (fun x hx => h x (by simp [hx]))

/-- What a step of a source thread does to the count of `p` and to its pending destructor. -/
theorem source_step {act : Effect} {p : Word} (hact : ∀ id args h, (act id args h).2 (p - 8) = h (p - 8))
    {h h' : Heap} {t t' : SThread} {e : Event} (hs : t.shared act h = some (e, t', h')) :
    (e = .retain p → h' (p - 8) = h (p - 8) + 1 ∧ t.pending = none ∧ t'.pending = none) ∧
    (e = .release p → h' (p - 8) = h (p - 8) - 1 ∧ t.pending = none ∧
      ((h (p - 8) = 1 ∧ ∃ sz, t'.pending = some (p, sz)) ∨ (h (p - 8) ≠ 1 ∧ t'.pending = none))) ∧
    (touches p e = false → h' (p - 8) = h (p - 8) ∧
      (isDestroy p e = true ↔ ∃ sz, t.pending = some (p, sz)) ∧ ¬ ∃ sz, t'.pending = some (p, sz)) := by
  obtain ⟨prog, env, pend⟩ := t
  cases pend with
  | some x =>
    obtain ⟨q, size⟩ := x
    simp only [SThread.shared, Option.some.injEq, Prod.mk.injEq] at hs
    obtain ⟨rfl, rfl, rfl⟩ := hs
    refine ⟨by simp, by simp, fun _ => ⟨rfl, by simp [isDestroy], by simp⟩⟩
  | none =>
    have hinj : ∀ q : Word, q ≠ p → p - 8 ≠ q - 8 := by
      intro q hq he
      apply hq
      have := congrArg (· + 8) he
      simpa [BitVec.sub_add_cancel] using this.symm
    match prog with
    | [] => simp [SThread.shared] at hs
    | .retain d v :: rest =>
      simp only [SThread.shared] at hs
      split at hs
      · cases hs
      · simp only [Option.some.injEq, Prod.mk.injEq] at hs
        obtain ⟨rfl, rfl, rfl⟩ := hs
        refine ⟨?_, by simp, ?_⟩
        · intro he
          simp only [Event.retain.injEq] at he
          rw [he]
          exact ⟨upd_same _ _ _, rfl, rfl⟩
        · intro ht
          simp [touches] at ht
          exact ⟨upd_ne _ _ (hinj _ ht), by simp [isDestroy], by simp⟩
    | .release v sz :: rest =>
      simp only [SThread.shared] at hs
      split at hs
      · cases hs
      · simp only [Option.some.injEq, Prod.mk.injEq] at hs
        obtain ⟨rfl, rfl, rfl⟩ := hs
        refine ⟨by simp, ?_, ?_⟩
        · intro he
          simp only [Event.release.injEq] at he
          rw [he]
          refine ⟨upd_same _ _ _, rfl, ?_⟩
          by_cases h1 : h (p - 8) = 1
          · left; exact ⟨h1, sz, if_pos h1⟩
          · right; exact ⟨h1, if_neg h1⟩
        · intro ht
          simp [touches] at ht
          refine ⟨upd_ne _ _ (hinj _ ht), by simp [isDestroy], ?_⟩
          rintro ⟨sz', hp⟩
          simp only at hp
          split at hp
          · simp at hp; exact ht hp.1
          · cases hp
    | .other d id args :: rest =>
      simp only [SThread.shared, Option.some.injEq, Prod.mk.injEq] at hs
      obtain ⟨rfl, rfl, rfl⟩ := hs
      exact ⟨by simp, by simp, fun _ => ⟨hact _ _ _, by simp [isDestroy], by simp⟩⟩

theorem source_priv {t t' : SThread} (h : t.priv = some t') : t.pending = none ∧ t'.pending = none := by
  obtain ⟨prog, env, pend⟩ := t
  cases pend with
  | some x => simp [SThread.priv] at h
  | none =>
    match prog with
    | [] => simp [SThread.priv] at h
    | .retain d v :: rest =>
      simp only [SThread.priv] at h
      split at h
      · cases h; exact ⟨rfl, rfl⟩
      · cases h
    | .release v sz :: rest =>
      simp only [SThread.priv] at h
      split at h
      · cases h; exact ⟨rfl, rfl⟩
      · cases h
    | .other .. :: rest => simp [SThread.priv] at h

/-- A thread is about to destroy `p`. -/
def Dying (p : Word) (t : SThread) : Prop := ∃ sz, t.pending = some (p, sz)

theorem touches_iff {p : Word} {e : Event} : touches p e = true ↔ (e = .retain p ∨ e = .release p) := by
  cases e <;> simp [touches]

theorem dead_untouched {p : Word} {i : ι} {e : Event} {tr : List (ι × Event)}
    (h : Disciplined p 0 ((i, e) :: tr)) : touches p e = false ∧ Disciplined p 0 tr := by
  obtain ⟨h1, h2, h3⟩ := disciplined_cons h
  have : touches p e = false := by
    rw [← Bool.not_eq_true, touches_iff]
    rintro (he | he)
    · exact absurd (h1 he).1 (by omega)
    · exact absurd (h2 he) (by omega)
  rw [stepRefs_untouched this] at h3
  exact ⟨this, h3⟩

theorem run_dead {act : Effect} {p : Word} (hact : ∀ id args h, (act id args h).2 (p - 8) = h (p - 8))
    {ts : ι → SThread} {h tr ts' h'} (hr : Run (source act) ts h tr ts' h') :
    (∀ i, ¬ Dying p (ts i)) → Disciplined p 0 tr →
    h' (p - 8) = h (p - 8) ∧ (∀ x ∈ tr, touches p x.2 = false ∧ isDestroy p x.2 = false) := by
  induction hr with
  | nil => intro _ _; simp
  | @tau ts h i t tr ts' h' h1 h2 ih =>
    intro hd hD
    refine ih ?_ hD
    intro j
    by_cases hj : j = i
    · subst hj; rw [upd_same]; rintro ⟨sz, hs⟩
      rw [(source_priv h1).2] at hs; cases hs
    · rw [upd_ne _ _ hj]; exact hd j
  | @vis ts h i e t h1 tr ts' h' hv h2 ih =>
    intro hd hD
    obtain ⟨ht, hD'⟩ := dead_untouched hD
    obtain ⟨e1, e2, e3⟩ := (source_step hact hv).2.2 ht
    obtain ⟨i1, i2⟩ := ih (by
      intro j
      by_cases hj : j = i
      · subst hj; rw [upd_same]; exact e3
      · rw [upd_ne _ _ hj]; exact hd j) hD'
    refine ⟨i1.trans e1, ?_⟩
    intro x hx
    rcases List.mem_cons.mp hx with rfl | hx
    · refine ⟨ht, ?_⟩
      rw [← Bool.not_eq_true, e2]; exact hd i
    · exact i2 x hx

theorem run_dying {act : Effect} {p : Word} (hact : ∀ id args h, (act id args h).2 (p - 8) = h (p - 8))
    {ts : ι → SThread} {h tr ts' h'} (hr : Run (source act) ts h tr ts' h') : ∀ k : ι,
    Dying p (ts k) → (∀ i, i ≠ k → ¬ Dying p (ts i)) → Disciplined p 0 tr → (∀ i, ¬ Dying p (ts' i)) →
    h' (p - 8) = h (p - 8) ∧ (∀ x ∈ tr, touches p x.2 = false) ∧
      tr.countP (fun x => isDestroy p x.2) = 1 := by
  induction hr with
  | nil => intro k hk _ _ hend; exact absurd hk (hend k)
  | @tau ts h i t tr ts' h' h1 h2 ih =>
    intro k hk ho hD hend
    have hik : i ≠ k := by
      rintro rfl
      obtain ⟨sz, hs⟩ := hk
      have := (source_priv h1).1
      rw [hs] at this; cases this
    refine ih k (by rw [upd_ne _ _ hik.symm]; exact hk) ?_ hD hend
    intro j hj
    by_cases hji : j = i
    · subst hji; rw [upd_same]; rintro ⟨sz, hs⟩
      rw [(source_priv h1).2] at hs; cases hs
    · rw [upd_ne _ _ hji]; exact ho j hj
  | @vis ts h i e t h1 tr ts' h' hv h2 ih =>
    intro k hk ho hD hend
    obtain ⟨ht, hD'⟩ := dead_untouched hD
    obtain ⟨e1, e2, e3⟩ := (source_step hact hv).2.2 ht
    by_cases hik : i = k
    · subst hik
      obtain ⟨i1, i2⟩ := run_dead hact h2 (by
        intro j
        by_cases hj : j = i
        · subst hj; rw [upd_same]; exact e3
        · rw [upd_ne _ _ hj]; exact ho j hj) hD'
      refine ⟨i1.trans e1, ?_, ?_⟩
      · intro x hx
        rcases List.mem_cons.mp hx with rfl | hx
        · exact ht
        · exact (i2 x hx).1
      · rw [List.countP_cons]
        have : tr.countP (fun x => isDestroy p x.2) = 0 := by
          rw [List.countP_eq_zero]; intro x hx; simp [(i2 x hx).2]
        rw [this, if_pos (e2.2 hk)]
    · obtain ⟨i1, i2, i3⟩ := ih k (by rw [upd_ne _ _ (Ne.symm hik)]; exact hk) (by
        intro j hj
        by_cases hji : j = i
        · subst hji; rw [upd_same]; exact e3
        · rw [upd_ne _ _ hji]; exact ho j hj) hD' hend
      refine ⟨i1.trans e1, ?_, ?_⟩
      · intro x hx
        rcases List.mem_cons.mp hx with rfl | hx
        · exact ht
        · exact i2 x hx
      · rw [List.countP_cons, i3, if_neg]
        rw [e2]; exact ho i hik

/-- Nothing happens to an object after its destruction. -/
def AfterLast (p : Word) (n : Nat) (tr : List (ι × Event)) : Prop :=
  ∀ a i e b, tr = a ++ (i, e) :: b → isDestroy p e = true →
    refsAfter p n a = 0 ∧ ∀ x ∈ b, touches p x.2 = false

theorem afterLast_cons {p : Word} {n : Nat} {i : ι} {e : Event} {tr : List (ι × Event)}
    (h1 : isDestroy p e = false) (h2 : AfterLast p (stepRefs p n e) tr) :
    AfterLast p n ((i, e) :: tr) := by
  intro a j e' b he hd
  cases a with
  | nil => simp at he; rw [← he.1.2, h1] at hd; cases hd
  | cons x a =>
    simp at he
    obtain ⟨rfl, rfl⟩ := he
    rw [refsAfter_cons]
    exact h2 a j e' b rfl hd

theorem isDestroy_of_touches {p : Word} {e : Event} (h : touches p e = true) : isDestroy p e = false := by
  cases e <;> simp_all [touches, isDestroy]

theorem run_alive {act : Effect} {p : Word} (hact : ∀ id args h, (act id args h).2 (p - 8) = h (p - 8))
    {ts : ι → SThread} {h tr ts' h'} (hr : Run (source act) ts h tr ts' h') : ∀ n : Nat, 0 < n →
    n < 2 ^ 32 → h (p - 8) = BitVec.ofNat 32 n → (∀ i, ¬ Dying p (ts i)) → Disciplined p n tr →
    (∀ i, ¬ Dying p (ts' i)) →
    h' (p - 8) = BitVec.ofNat 32 (refsAfter p n tr) ∧
      tr.countP (fun x => isDestroy p x.2) = (if refsAfter p n tr = 0 then 1 else 0) ∧
      AfterLast p n tr := by
  induction hr with
  | nil =>
    intro n hn _ hh _ _ _
    have hn0 : n ≠ 0 := by omega
    refine ⟨hh, by simp [refsAfter, hn0], ?_⟩
    intro a i e b he; simp at he
  | @tau ts h i t tr ts' h' h1 h2 ih =>
    intro n hn hlt hh hd hD hend
    refine ih n hn hlt hh ?_ hD hend
    intro j
    by_cases hj : j = i
    · subst hj; rw [upd_same]; rintro ⟨sz, hs⟩
      rw [(source_priv h1).2] at hs; cases hs
    · rw [upd_ne _ _ hj]; exact hd j
  | @vis ts h i e t h1 tr ts' h' hv h2 ih =>
    intro n hn hlt hh hd hD hend
    obtain ⟨d1, d2, hD'⟩ := disciplined_cons hD
    obtain ⟨s1, s2, s3⟩ := source_step hact hv
    cases ht : touches p e with
    | false =>
      obtain ⟨e1, e2, e3⟩ := s3 ht
      have hnd : isDestroy p e = false := by
        rw [← Bool.not_eq_true, e2]; exact hd i
      rw [stepRefs_untouched ht] at hD'
      obtain ⟨i1, i2, i3⟩ := ih n hn hlt (e1.trans hh) (by
        intro j
        by_cases hj : j = i
        · subst hj; rw [upd_same]; exact e3
        · rw [upd_ne _ _ hj]; exact hd j) hD' hend
      rw [refsAfter_cons, stepRefs_untouched ht]
      refine ⟨i1, ?_, afterLast_cons hnd (by rw [stepRefs_untouched ht]; exact i3)⟩
      rw [List.countP_cons, i2, if_neg (c := isDestroy p _ = true) (by simp [hnd]), Nat.add_zero]
    | true =>
      have hnd := isDestroy_of_touches ht
      rcases touches_iff.1 ht with rfl | rfl
      · obtain ⟨e1, e2, e3⟩ := s1 rfl
        have hst : stepRefs p n (.retain p) = n + 1 := by simp [stepRefs]
        rw [hst] at hD'
        obtain ⟨i1, i2, i3⟩ := ih (n + 1) (by omega) (d1 rfl).2 (by
            rw [e1, hh]; apply BitVec.eq_of_toNat_eq; simp) (by
          intro j
          by_cases hj : j = i
          · subst hj; rw [upd_same]; rintro ⟨sz, hs⟩; rw [e3] at hs; cases hs
          · rw [upd_ne _ _ hj]; exact hd j) hD' hend
        rw [refsAfter_cons, hst]
        refine ⟨i1, ?_, afterLast_cons hnd (by rw [hst]; exact i3)⟩
        rw [List.countP_cons, i2, if_neg (c := isDestroy p _ = true) (by simp [hnd]), Nat.add_zero]
      · obtain ⟨e1, e2, e3⟩ := s2 rfl
        have hst : stepRefs p n (.release p) = n - 1 := by simp [stepRefs]
        rw [hst] at hD'
        rw [refsAfter_cons, hst]
        have hone : h (p - 8) = 1 ↔ n = 1 := by
          rw [hh]
          constructor
          · intro he
            have := congrArg BitVec.toNat he
            simp at this
            omega
          · rintro rfl; rfl
        have hdec : h1 (p - 8) = BitVec.ofNat 32 (n - 1) := by
          rw [e1, hh]
          apply BitVec.eq_of_toNat_eq
          simp
          omega
        rcases e3 with ⟨h1', sz, hp⟩ | ⟨h1', hp⟩
        · have hn1 := hone.1 h1'
          subst hn1
          obtain ⟨i1, i2, i3⟩ := run_dying hact h2 i (by rw [upd_same]; exact ⟨sz, hp⟩) (by
            intro j hj; rw [upd_ne _ _ hj]; exact hd j) hD' hend
          have hr0 : refsAfter p (1 - 1) tr = 0 := refs_untouched i2
          refine ⟨by rw [i1, hdec, hr0], ?_, ?_⟩
          · rw [List.countP_cons, i3, if_neg (c := isDestroy p _ = true) (by simp [hnd]), if_pos hr0]
          · refine afterLast_cons hnd ?_
            rw [hst]
            intro a j e' b he hde
            refine ⟨?_, fun x hx => i2 x (by rw [he]; simp [hx])⟩
            exact refs_untouched (fun x hx => i2 x (by rw [he]; simp [hx]))
        · have hn1 : n ≠ 1 := fun hc => h1' (hone.2 hc)
          obtain ⟨i1, i2, i3⟩ := ih (n - 1) (by omega) (by omega) hdec (by
            intro j
            by_cases hj : j = i
            · subst hj; rw [upd_same]; rintro ⟨sz, hs⟩; rw [hp] at hs; cases hs
            · rw [upd_ne _ _ hj]; exact hd j) hD' hend
          refine ⟨i1, ?_, afterLast_cons hnd (by rw [hst]; exact i3)⟩
          rw [List.countP_cons, i2, if_neg (c := isDestroy p _ = true) (by simp [hnd]), Nat.add_zero]

end Verif.RcLower
