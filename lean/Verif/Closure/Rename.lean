import Verif.Closure.Run
import Mathlib.Data.List.Nodup
import Mathlib.Tactic.Tauto
/-!
# Renamed and cloned code
-/
namespace Verif.Closure
open Verif.CallConv (Conv)

/-- `omega` on value references. -/
macro "vomega" : tactic => `(tactic| ((try dsimp only [Var] at *); omega))

/-- The names `f` gives to the values in scope. -/
def pm (S : List Var) (f : Map) : PMap := fun v => if v ∈ S then some (f v) else none

theorem pm_mem {S : List Var} {f : Map} {v : Var} (h : v ∈ S) : pm S f v = some (f v) := by simp [pm, h]

theorem pm_some {S : List Var} {f : Map} {v v' : Var} (h : pm S f v = some v') : v ∈ S ∧ f v = v' := by
  unfold pm at h
  split at h
  · next hv => exact ⟨hv, Option.some.inj h⟩
  · cases h

theorem pm_congr {S S' : List Var} {f g : Map} (hS : ∀ v, v ∈ S ↔ v ∈ S') (hf : ∀ v ∈ S, f v = g v) :
    pm S f = pm S' g := by
  funext v
  by_cases hv : v ∈ S
  · rw [pm_mem hv, pm_mem ((hS v).mp hv), hf v hv]
  · have : v ∉ S' := fun h => hv ((hS v).mpr h)
    simp [pm, hv, this]

theorem pm_upd {S : List Var} {f : Map} {r r' : Var} : (pm S f).upd r r' = pm (r :: S) (f.set r r') := by
  funext v
  by_cases h : v = r
  · simp [PMap.upd, pm, h, Map.set]
  · simp [PMap.upd, pm, h, Map.set]

theorem pm_updAll {f : Map} : ∀ {xs ys : List Var} {S : List Var} {f : Map}, xs.length = ys.length →
    (pm S f).updAll xs ys = pm (xs ++ S) (f.setAll xs ys) := by
  intro xs
  induction xs with
  | nil => intro ys S f _; simp [PMap.updAll, Map.setAll]
  | cons x xs ih =>
    intro ys S f hl
    cases ys with
    | nil => simp at hl
    | cons y ys =>
      simp only [PMap.updAll, Map.setAll]
      rw [pm_upd, ih (by simpa using hl)]
      exact pm_congr (by intro v; simp; tauto) (fun _ _ => rfl)

theorem pm_only {S l : List Var} {f : Map} (h : ∀ v ∈ l, v ∈ S) : (pm S f).only l = pm l f := by
  funext v
  by_cases hv : v ∈ l
  · simp [PMap.only, pm, hv, h v hv]
  · simp [PMap.only, pm, hv]

theorem pm_nil {f : Map} : pm [] f = PMap.none := by funext v; simp [pm, PMap.none]

theorem pm_map {S args : List Var} {f : Map} (h : ∀ a ∈ args, a ∈ S) : args.map (pm S f) = (args.map f).map some := by
  rw [List.map_map]
  exact List.map_congr_left (fun a ha => pm_mem (h a ha))

/-- Different values in scope have different names. -/
def InjOn (S : List Var) (f : Map) : Prop := ∀ v ∈ S, ∀ w ∈ S, f v = f w → v = w

theorem pm_inj {S : List Var} {f : Map} (h : InjOn S f) : (pm S f).Inj := by
  intro v w y h1 h2
  obtain ⟨a, b⟩ := pm_some h1
  obtain ⟨c, d⟩ := pm_some h2
  exact h v a w c (by rw [b, d])

theorem set_same (m : Map) (x y : Var) : m.set x y x = y := by simp [Map.set]
theorem set_ne {m : Map} {x y v : Var} (h : v ≠ x) : m.set x y v = m v := by simp [Map.set, h]

theorem setAll_not {m : Map} {v : Var} : ∀ {xs ys : List Var} {m : Map}, v ∉ xs → m.setAll xs ys v = m v := by
  intro xs
  induction xs with
  | nil => intro ys m _; simp [Map.setAll]
  | cons x xs ih =>
    intro ys m h
    simp only [List.mem_cons, not_or] at h
    cases ys with
    | nil => simp [Map.setAll]
    | cons y ys => simp only [Map.setAll]; rw [ih h.2, set_ne h.1]

theorem setAll_get : ∀ {xs ys : List Var} {m : Map} {i : Nat} {x y : Var}, xs.Nodup → xs[i]? = some x →
    ys[i]? = some y → m.setAll xs ys x = y := by
  intro xs
  induction xs with
  | nil => intro ys m i x y _ h; simp at h
  | cons a xs ih =>
    intro ys m i x y hn hx hy
    rw [List.nodup_cons] at hn
    cases ys with
    | nil => simp at hy
    | cons b ys =>
      simp only [Map.setAll]
      cases i with
      | zero =>
        simp only [List.getElem?_cons_zero, Option.some.injEq] at hx hy
        subst hx; subst hy
        rw [setAll_not (m := m) hn.1, set_same]
      | succ i => exact ih hn.2 (by simpa using hx) (by simpa using hy)

/-- A value set among others gets one of the new names. -/
theorem setAll_mem : ∀ {xs ys : List Var} {m : Map} {x : Var}, xs.length = ys.length → x ∈ xs →
    ∃ i : Nat, xs[i]? = some x ∧ ys[i]? = some (m.setAll xs ys x) := by
  intro xs
  induction xs with
  | nil => intro ys m x _ h; simp at h
  | cons a xs ih =>
    intro ys m x hl hx
    cases ys with
    | nil => simp at hl
    | cons b ys =>
      simp only [Map.setAll]
      by_cases h : x ∈ xs
      · obtain ⟨i, h1, h2⟩ := ih (m := m.set a b) (by simpa using hl) h
        exact ⟨i + 1, by simpa using h1, by simpa using h2⟩
      · have : x = a := by simpa [h] using hx
        subst this
        rw [setAll_not (m := m) h, set_same]
        exact ⟨0, by simp, by simp⟩

theorem setAll_self {m : Map} : ∀ {xs : List Var} {v : Var} {m : Map}, v ∈ xs → m.setAll xs xs v = v := by
  intro xs v m hv
  obtain ⟨i, h1, h2⟩ := setAll_mem (m := m) rfl hv
  rw [h1] at h2
  exact (Option.some.inj h2).symm

/-- Renaming the keys of a map by names that tell them apart. -/
theorem setAll_map {f : Map} {v : Var} : ∀ {xs ys : List Var} {m m' : Map}, (∀ x ∈ xs, f v = f x → v = x) →
    m (f v) = m' v → m.setAll (xs.map f) ys (f v) = m'.setAll xs ys v := by
  intro xs
  induction xs with
  | nil => intro ys m m' _ h; simpa [Map.setAll] using h
  | cons x xs ih =>
    intro ys m m' hx h
    cases ys with
    | nil => simpa [Map.setAll] using h
    | cons y ys =>
      simp only [List.map_cons, Map.setAll]
      apply ih (fun z hz => hx z (by simp [hz]))
      by_cases hv : v = x
      · subst hv; rw [set_same, set_same]
      · rw [set_ne hv, set_ne (fun e => hv (hx x (by simp) e)), h]

theorem mem_fst_zip {xs : List Var} {ts : List Ty} (h : xs.length = ts.length) : (xs.zip ts).map Prod.fst = xs := by
  rw [List.map_fst_zip]; vomega

theorem mem_snd_zip {xs : List Var} {ts : List Ty} (h : xs.length = ts.length) : (xs.zip ts).map Prod.snd = ts := by
  rw [List.map_snd_zip]; vomega

theorem firstEvidence_mem {ps : List (Var × Ty)} {e : Var} (h : firstEvidence ps = some e) : e ∈ ps.map Prod.fst := by
  cases ps with
  | nil => cases h
  | cons p r =>
    obtain ⟨v, t⟩ := p
    simp only [firstEvidence] at h
    split at h
    · cases h; simp
    · cases h

theorem innerEv_mem {slot : Slot} {re : Option Var} {ps : List (Var × Ty)} {e : Var} (h : innerEv slot re ps = some e) :
    e ∈ ps.map Prod.fst ∨ re = some e ∧ slot = .legacy := by
  cases slot with
  | legacy => right; exact ⟨h, rfl⟩
  | «at» c i => cases i with
    | zero => cases h
    | succ i => left; exact firstEvidence_mem h

theorem firstEvidence_zip {ps : List (Var × Ty)} {ys : List Var} {f : Map} (hl : ys.length = ps.length)
    (hn : (ps.map Prod.fst).Nodup) {e : Var} (h : firstEvidence ps = some e) :
    firstEvidence (ys.zip (ps.map Prod.snd)) = some (f.setAll (ps.map Prod.fst) ys e) := by
  cases ps with
  | nil => cases h
  | cons p r =>
    obtain ⟨v, t⟩ := p
    cases ys with
    | nil => simp at hl
    | cons y ys =>
      simp only [firstEvidence] at h
      split at h
      · next ht =>
        cases h
        simp only [List.map_cons, List.zip_cons_cons, firstEvidence, ht, if_true]
        have := setAll_get (m := f) (ys := y :: ys) (i := 0) (x := e) (y := y) hn (by simp) (by simp)
        rw [List.map_cons] at this
        rw [this]
      · cases h

/-- The evidence an untagged lambda takes, under renaming. -/
theorem rebinds_map {slot : Slot} {E E' : Option Var} {caps S : List Var} {f : Map} (hf : InjOn S f)
    (hcaps : ∀ a ∈ caps, a ∈ S) (hES : ∀ e, E = some e → e ∈ S) (hE : ∀ e, E = some e → E' = some (f e))
    {e : Var} (h : rebinds slot E caps = some e) : rebinds slot E' (caps.map f) = some (f e) := by
  obtain ⟨rfl, rfl, hc⟩ := rebinds_some h
  rw [hE e rfl]
  simp only [rebinds]
  rw [if_neg]
  intro hm
  obtain ⟨a, h1, h2⟩ := List.mem_map.mp hm
  exact hc (hf a (hcaps a h1) e (hES e rfl) h2 ▸ h1)

/-- The scope inside a lambda. -/
def inner (slot : Slot) (E : Option Var) (caps : List Var) (ps : List (Var × Ty)) : List Var :=
  ps.map Prod.fst ++ (caps ++ (rebinds slot E caps).toList)

theorem rebinds_mem {slot : Slot} {E : Option Var} {caps S : List Var} (hcaps : ∀ a ∈ caps, a ∈ S)
    (hES : ∀ e, E = some e → e ∈ S) : ∀ v ∈ caps ++ (rebinds slot E caps).toList, v ∈ S := by
  intro v hv
  rcases List.mem_append.mp hv with h | h
  · exact hcaps v h
  · exact hES v (rebinds_some (Option.mem_toList.mp h)).2.1

theorem set_comp {S : List Var} {f g : Map} {r n : Var} (hr : ∀ v ∈ S, f v ≠ r) :
    ∀ v ∈ r :: S, (g.set r n) ((f.set r r) v) = (Map.set (fun x => g (f x)) r n) v := by
  intro v hv
  by_cases h : v = r
  · subst h; rw [set_same, set_same, set_same]
  · have hvS : v ∈ S := by simpa [h] using hv
    rw [set_ne h, set_ne h, set_ne (hr v hvS)]

/-- `f` moves only to references from `n₀` on. -/
def Moves (n₀ : Nat) (f : Map) : Prop := ∀ v, f v = v ∨ n₀ ≤ f v

theorem Moves.set {n₀ : Nat} {f : Map} (h : Moves n₀ f) (r : Var) : Moves n₀ (f.set r r) := by
  intro v
  by_cases e : v = r
  · left; rw [e, set_same]
  · rw [set_ne e]; exact h v

theorem Moves.setTo {n₀ : Nat} {f : Map} (h : Moves n₀ f) {r r' : Var} (hr : n₀ ≤ r') : Moves n₀ (f.set r r') := by
  intro v
  by_cases e : v = r
  · right; rw [e, set_same]; exact hr
  · rw [set_ne e]; exact h v

theorem Moves.setAll {n₀ : Nat} {f : Map} (h : Moves n₀ f) (xs : List Var) : Moves n₀ (f.setAll xs xs) := by
  intro v
  by_cases e : v ∈ xs
  · left; exact setAll_self (m := f) e
  · rw [setAll_not (m := f) e]; exact h v

theorem Moves.not {n₀ : Nat} {f : Map} (h : Moves n₀ f) {S : List Var} {r : Var} (hr : r < n₀) (hS : r ∉ S) :
    ∀ v ∈ S, f v ≠ r := by
  intro v hv e
  rcases h v with h1 | h1
  · rw [h1] at e; exact hS (e ▸ hv)
  · vomega

theorem moves_id (n₀ : Nat) : Moves n₀ id := fun _ => .inl rfl

theorem injOn_cons {S : List Var} {f : Map} {r r' : Var} (hf : InjOn S f) (hr : ∀ v ∈ S, f v ≠ r') :
    InjOn (r :: S) (f.set r r') := by
  intro v hv w hw h
  by_cases h1 : v = r <;> by_cases h2 : w = r
  · rw [h1, h2]
  · exfalso
    rw [h1, set_same, set_ne h2] at h
    exact hr w (by simpa [h2] using hw) h.symm
  · exfalso
    rw [h2, set_same, set_ne h1] at h
    exact hr v (by simpa [h1] using hv) h
  · rw [set_ne h1, set_ne h2] at h
    exact hf v (by simpa [h1] using hv) w (by simpa [h2] using hw) h

theorem injOn_append {S xs ys : List Var} {f : Map} (hf : InjOn S f) (hl : xs.length = ys.length)
    (hys : ys.Nodup) (hd : ∀ v ∈ S, f v ∉ ys) :
    InjOn (xs ++ S) (f.setAll xs ys) := by
  intro v hv w hw h
  by_cases h1 : v ∈ xs <;> by_cases h2 : w ∈ xs
  · obtain ⟨i, a1, a2⟩ := setAll_mem (m := f) hl h1
    obtain ⟨j, b1, b2⟩ := setAll_mem (m := f) hl h2
    rw [← h] at b2
    obtain ⟨hi, ei⟩ := List.getElem?_eq_some_iff.mp a2
    obtain ⟨hj, ej⟩ := List.getElem?_eq_some_iff.mp b2
    have hij : i = j := (hys.getElem_inj_iff (hi := hi) (hj := hj)).mp (by rw [ei, ej])
    subst hij
    rw [a1] at b1
    exact Option.some.inj b1
  · exfalso
    have hwS : w ∈ S := by simpa [h2] using hw
    obtain ⟨i, a1, a2⟩ := setAll_mem (m := f) hl h1
    rw [h, setAll_not (m := f) h2] at a2
    exact hd w hwS (List.mem_of_getElem? a2)
  · exfalso
    have hvS : v ∈ S := by simpa [h1] using hv
    obtain ⟨i, a1, a2⟩ := setAll_mem (m := f) hl h2
    rw [← h, setAll_not (m := f) h1] at a2
    exact hd v hvS (List.mem_of_getElem? a2)
  · rw [setAll_not (m := f) h1, setAll_not (m := f) h2] at h
    exact hf v (by simpa [h1] using hv) w (by simpa [h2] using hw) h

theorem injOn_mono {S T : List Var} {f : Map} (hf : InjOn S f) (h : ∀ v ∈ T, v ∈ S) : InjOn T f :=
  fun v hv w hw e => hf v (h v hv) w (h w hw) e

theorem injOn_congr {S : List Var} {f g : Map} (hf : InjOn S f) (h : ∀ v ∈ S, f v = g v) : InjOn S g :=
  fun v hv w hw e => hf v hv w hw (by rw [h v hv, h w hw, e])

theorem clone_mono : ∀ (c : Code) (m : Map) (n : Nat), n ≤ (clone m n c).2
  | .ret _, _, _ => Nat.le_refl _
  | .tail _ _ _, _, _ => Nat.le_refl _
  | .op _ _ _ k, m, n => by
    simp only [clone]
    exact Nat.le_trans (by vomega) (clone_mono k _ _)
  | .cond r _ t e k, m, n => by
    simp only [clone]
    have h1 := clone_mono t m n
    have h2 := clone_mono e m (clone m n t).2
    have h3 := clone_mono k (m.set r (clone m (clone m n t).2 e).2) ((clone m (clone m n t).2 e).2 + 1)
    exact Nat.le_trans (Nat.le_trans h1 h2) (Nat.le_trans (by vomega) h3)
  | .lambda _ _ _ _ ps body k, m, n => by
    simp only [clone]
    have h1 := clone_mono body (m.setAll (ps.map Prod.fst) (List.range' n ps.length)) (n + ps.length)
    refine Nat.le_trans (Nat.le_trans (by vomega) h1) (Nat.le_trans ?_ (clone_mono k _ _))
    vomega

/-- A clone of renamed code is the code, up to names. -/
theorem alpha_clone (q : Prog) {n₀ : Nat} : ∀ (c : Code) {E E' : Option Var} {S : List Var} {f g : Map} {n : Nat},
    Scoped E S c → Below n₀ c → Moves n₀ f → InjOn S (fun v => g (f v)) → (∀ v ∈ S, g (f v) < n) →
    (∀ e, E = some e → e ∈ S) → (∀ e, E = some e → E' = some (g (f e))) →
    Alpha q E E' (pm S (fun v => g (f v))) c (clone g n (renameUses f c)).1
  | .ret x, E, E', S, f, g, n, hs, _, _, _, _, _, _ => .ret (pm_mem hs)
  | .tail conv site args, E, E', S, f, g, n, hs, _, _, _, _, _, _ => by
    simp only [renameUses, clone, List.map_map]
    exact .tail (by rw [pm_map hs]; rfl)
  | .op r o args k, E, E', S, f, g, n, hs, hb, hm, hi, hn, hES, hE => by
    obtain ⟨ha, hr, hk⟩ := hs
    obtain ⟨_, hb2, hb3⟩ := hb
    simp only [renameUses, clone, List.map_map]
    have hne := hm.not hb2 hr
    refine .op (by rw [pm_map ha]; rfl) ?_ ?_
    · intro v hv
      obtain ⟨h1, h2⟩ := pm_some hv
      have := hn v h1; vomega
    · rw [pm_upd, ← pm_congr (fun _ => Iff.rfl) (set_comp (g := g) (n := n) hne)]
      have hi2 : InjOn (r :: S) (fun v => (g.set r n) ((f.set r r) v)) :=
        injOn_congr (injOn_cons hi (fun v hv => Nat.ne_of_lt (hn v hv))) (fun v hv => (set_comp hne v hv).symm)
      refine alpha_clone q k hk hb3 (hm.set r) hi2 ?_ (fun e h => by simp [hES e h]) ?_
      · intro v hv
        rw [set_comp hne v hv]
        by_cases h : v = r
        · rw [h, set_same]; vomega
        · rw [set_ne h]; have := hn v (by simpa [h] using hv); vomega
      · intro e h
        rw [set_comp hne e (by simp [hES e h]), set_ne (ne_of_mem_of_not_mem (hES e h) hr)]
        exact hE e h
  | .cond r c t e k, E, E', S, f, g, n, hs, hb, hm, hi, hn, hES, hE => by
    obtain ⟨hc, ht, he, hr, hk⟩ := hs
    obtain ⟨_, hbt, hbe, hb2, hb3⟩ := hb
    simp only [renameUses, clone]
    have hne := hm.not hb2 hr
    have l1 := clone_mono (renameUses f t) g n
    have l2 := clone_mono (renameUses f e) g (clone g n (renameUses f t)).2
    refine .cond (pm_mem hc) (alpha_clone q t ht hbt hm hi hn hES hE)
      (alpha_clone q e he hbe hm hi (fun v hv => Nat.lt_of_lt_of_le (hn v hv) l1) hES hE) ?_ ?_
    · intro v hv
      obtain ⟨h1, h2⟩ := pm_some hv
      have := hn v h1; vomega
    · rw [pm_upd, ← pm_congr (fun _ => Iff.rfl) (set_comp (g := g) hne)]
      have hlt : ∀ v ∈ S, g (f v) < (clone g (clone g n (renameUses f t)).2 (renameUses f e)).2 :=
        fun v hv => Nat.lt_of_lt_of_le (hn v hv) (Nat.le_trans l1 l2)
      refine alpha_clone q k hk hb3 (hm.set r) (injOn_congr (injOn_cons hi (fun v hv => Nat.ne_of_lt (hlt v hv)))
        (fun v hv => (set_comp hne v hv).symm)) ?_ (fun e h => by simp [hES e h]) ?_
      · intro v hv
        rw [set_comp hne v hv]
        by_cases h : v = r
        · rw [h, set_same]; vomega
        · rw [set_ne h]; have := hlt v (by simpa [h] using hv); vomega
      · intro e h
        rw [set_comp hne e (by simp [hES e h]), set_ne (ne_of_mem_of_not_mem (hES e h) hr)]
        exact hE e h
  | .lambda r caps conv ty ps body k, E, E', S, f, g, n, hs, hb, hm, hi, hn, hES, hE => by
    obtain ⟨hcaps, hr, hk, slot, hslot, hps, hdis, hbody⟩ := hs
    obtain ⟨_, hb2, hb3, hbps, hbb⟩ := hb
    simp only [renameUses, clone, List.map_map]
    have hne := hm.not hb2 hr
    have l1 := clone_mono (renameUses (f.setAll (ps.map Prod.fst) (ps.map Prod.fst)) body)
      (g.setAll (ps.map Prod.fst) (List.range' n ps.length)) (n + ps.length)
    have hsub := rebinds_mem (slot := slot) hcaps hES
    have hlen : (List.range' n ps.length).length = (ps.map Prod.fst).length := by simp
    have hrb : ∀ {e}, rebinds slot E caps = some e → rebinds slot E' (caps.map (g ∘ f)) = some (g (f e)) :=
      fun h => rebinds_map (f := fun v => g (f v)) hi hcaps hES hE h
    -- the names inside the lambda
    have hcomp : ∀ v ∈ ps.map Prod.fst ++ (caps ++ (rebinds slot E caps).toList),
        (g.setAll (ps.map Prod.fst) (List.range' n ps.length)) ((f.setAll (ps.map Prod.fst) (ps.map Prod.fst)) v)
          = (Map.setAll (fun x => g (f x)) (ps.map Prod.fst) (List.range' n ps.length)) v := by
      intro v hv
      by_cases hvp : v ∈ ps.map Prod.fst
      · rw [setAll_self (m := f) hvp]
        obtain ⟨i, h1, h2⟩ := setAll_mem (m := g) (ys := List.range' n ps.length) (by simp) hvp
        rw [setAll_get (m := fun x => g (f x)) hps h1 h2]
      · have hv2 := (List.mem_append.mp hv).resolve_left hvp
        rw [setAll_not (m := f) hvp, setAll_not (m := fun x => g (f x)) hvp, setAll_not (m := g)]
        intro hin
        exact hm.not (S := caps ++ (rebinds slot E caps).toList) (hbps _ hin) (hdis _ hin) v hv2 rfl
    have hfr : ∀ v ∈ caps ++ (rebinds slot E caps).toList, g (f v) ∉ List.range' n ps.length := by
      intro v hv hin
      have := hn v (hsub v hv)
      simp only [List.mem_range'_1] at hin
      vomega
    refine .lambda slot hslot (by rw [pm_map hcaps]; rfl) (pm_inj hi) ?_ ?_ hps ?_ ?_ ?_ ?_ ?_
    · intro e h
      exact ⟨g (f e), hE e h, pm_mem (hES e h)⟩
    · rw [mem_snd_zip (by simp)]
    · rw [mem_fst_zip (by simp)]
      exact List.nodup_range'
    · intro y hy v hv
      rw [mem_fst_zip (by simp)] at hy
      rw [pm_only hsub] at hv
      obtain ⟨h1, h2⟩ := pm_some hv
      exact hfr v h1 (h2 ▸ hy)
    · rw [pm_only hsub, mem_fst_zip (by simp), pm_updAll (f := id) (by simp),
        ← pm_congr (fun _ => Iff.rfl) hcomp]
      have hin := injOn_append (f := fun v => g (f v)) (injOn_mono hi hsub) (xs := ps.map Prod.fst)
        (ys := List.range' n ps.length) (by simp) List.nodup_range' hfr
      refine alpha_clone q body hbody hbb (hm.setAll _) (injOn_congr hin (fun v hv => (hcomp v hv).symm)) ?_ ?_ ?_
      · intro v hv
        rw [hcomp v hv]
        by_cases hvp : v ∈ ps.map Prod.fst
        · obtain ⟨i, h1, h2⟩ := setAll_mem (m := fun x => g (f x)) (ys := List.range' n ps.length) (by simp) hvp
          have := List.mem_of_getElem? h2
          simp only [List.mem_range'_1] at this
          vomega
        · rw [setAll_not (m := fun x => g (f x)) hvp]
          have := hn v (hsub v ((List.mem_append.mp hv).resolve_left hvp))
          vomega
      · intro e he
        rcases innerEv_mem he with h | ⟨h, _⟩
        · simp [h]
        · simp [h]
      · intro e he
        have hmem : e ∈ ps.map Prod.fst ++ (caps ++ (rebinds slot E caps).toList) := by
          rcases innerEv_mem he with h | ⟨h, _⟩
          · simp [h]
          · simp [h]
        rw [hcomp e hmem]
        cases slot with
        | legacy =>
          simp only [innerEv] at he ⊢
          rw [hrb he, setAll_not (m := fun x => g (f x))]
          intro hin
          exact hdis e hin (by simp [he])
        | «at» c i =>
          cases i with
          | zero => cases he
          | succ i =>
            simp only [innerEv] at he ⊢
            exact firstEvidence_zip (by simp) hps he
    · intro v hv
      obtain ⟨h1, h2⟩ := pm_some hv
      have := hn v h1; vomega
    · rw [pm_upd, ← pm_congr (fun _ => Iff.rfl) (set_comp (g := g) hne)]
      have hlt : ∀ v ∈ S, g (f v) < (clone (g.setAll (ps.map Prod.fst) (List.range' n ps.length)) (n + ps.length)
          (renameUses (f.setAll (ps.map Prod.fst) (ps.map Prod.fst)) body)).2 :=
        fun v hv => by have := hn v hv; vomega
      refine alpha_clone q k hk hb3 (hm.set r) (injOn_congr (injOn_cons hi (fun v hv => Nat.ne_of_lt (hlt v hv)))
        (fun v hv => (set_comp hne v hv).symm)) ?_ (fun e h => by simp [hES e h]) ?_
      · intro v hv
        rw [set_comp hne v hv]
        by_cases h : v = r
        · rw [h, set_same]; vomega
        · rw [set_ne h]; have := hlt v (by simpa [h] using hv); vomega
      · intro e h
        rw [set_comp hne e (by simp [hES e h]), set_ne (ne_of_mem_of_not_mem (hES e h) hr)]
        exact hE e h

end Verif.Closure
