import Verif.Closure.Lift
/-!
# The function made from a lambda is the lambda
-/
namespace Verif.Closure
open Verif.CallConv (Conv)

/-- The reference of the evidence; a closure without evidence of its own gets an unused one. -/
def lev (n len : Nat) (slot : Slot) (ncaps : Nat) : Var :=
  match slot with
  | .at _ _ => n + lcount slot len + 1 + ncaps
  | .legacy => n

theorem lparams_range {n len : Nat} {slot : Slot} (hi : ∀ c i, slot = .at c i → i ≤ len) {y : Var}
    (hy : y ∈ lparams n slot len) : n ≤ y ∧ y < n + lcount slot len ∧ y ≠ lenv n slot ∧ (slot = .legacy → n < y) := by
  cases slot with
  | legacy =>
    simp only [lparams, List.mem_range'_1] at hy
    simp only [lcount, lenv]
    refine ⟨?_, ?_, ?_, fun _ => ?_⟩ <;> vomega
  | «at» c i =>
    have := hi c i rfl
    simp only [lparams, List.mem_map, List.mem_range] at hy
    obtain ⟨k, hk, rfl⟩ := hy
    simp only [lcount, lenv]
    split
    · refine ⟨?_, ?_, ?_, fun h => by cases h⟩ <;> vomega
    · refine ⟨?_, ?_, ?_, fun h => by cases h⟩ <;> vomega

theorem lparams_nodup (n len : Nat) (slot : Slot) : (lparams n slot len).Nodup := by
  cases slot with
  | legacy => exact List.nodup_range'
  | «at» c i =>
    refine List.Nodup.map_on ?_ List.nodup_range
    intro x _ y _ h
    split at h <;> split at h <;> vomega

theorem lenv_lt {n len : Nat} {slot : Slot} (hi : ∀ c i, slot = .at c i → i ≤ len) :
    n ≤ lenv n slot ∧ lenv n slot < n + lcount slot len := by
  cases slot with
  | legacy => simp only [lenv, lcount]; constructor <;> vomega
  | «at» c i => have := hi c i rfl; simp only [lenv, lcount]; constructor <;> vomega

theorem lifted_nodup {n len k : Nat} {slot : Slot} (hi : ∀ c i, slot = .at c i → i ≤ len) :
    (lev n len slot k :: lenv n slot :: (n + lcount slot len) ::
      (lparams n slot len ++ List.range' (n + lcount slot len + 1) k)).Nodup := by
  obtain ⟨e1, e2⟩ := lenv_lt (n := n) hi
  have hp : ∀ y ∈ lparams n slot len, _ := fun y hy => lparams_range hi hy
  have hg : ∀ y ∈ List.range' (n + lcount slot len + 1) k, n + lcount slot len + 1 ≤ y ∧ y < n + lcount slot len + 1 + k := by
    intro y hy; simpa only [List.mem_range'_1] using hy
  have hev : lev n len slot k ≠ lenv n slot ∧ lev n len slot k ≠ n + lcount slot len ∧
      (∀ y ∈ lparams n slot len, lev n len slot k ≠ y) ∧
      (∀ y ∈ List.range' (n + lcount slot len + 1) k, lev n len slot k ≠ y) := by
    cases slot with
    | legacy =>
      simp only [lev]
      refine ⟨?_, ?_, ?_, ?_⟩
      · simp only [lenv]; vomega
      · simp only [lcount]; vomega
      · intro y hy; have := (hp y hy).2.2.2 rfl; vomega
      · intro y hy; have := hg y hy; vomega
    | «at» c i =>
      simp only [lev]
      refine ⟨?_, ?_, ?_, ?_⟩
      · vomega
      · vomega
      · intro y hy; have := hp y hy; vomega
      · intro y hy; have := hg y hy; vomega
  rw [List.nodup_cons, List.nodup_cons, List.nodup_cons, List.nodup_append]
  refine ⟨?_, ?_, ?_, lparams_nodup n len slot, List.nodup_range', ?_⟩
  · simp only [List.mem_cons, List.mem_append, not_or]
    exact ⟨hev.1, hev.2.1, fun h => hev.2.2.1 _ h rfl, fun h => hev.2.2.2 _ h rfl⟩
  · simp only [List.mem_cons, List.mem_append, not_or]
    refine ⟨by vomega, fun h => (hp _ h).2.2.1 rfl, fun h => ?_⟩
    have := hg _ h; vomega
  · simp only [List.mem_append, not_or]
    refine ⟨fun h => ?_, fun h => ?_⟩
    · have := hp _ h; vomega
    · have := hg _ h; vomega
  · intro a ha b hb
    have := hp a ha
    have := hg b hb
    vomega

theorem liftFun_ev {n len : Nat} {slot : Slot} {E : Option Var} {caps caps0 : List Var} {ps ps' gs : List Var} {k : Nat} :
    liftFun (rebinds slot E caps0) caps ps n ps' gs = liftFun (rebinds slot E caps0) caps ps (lev n len slot k) ps' gs := by
  cases slot with
  | legacy => rfl
  | «at» c i => rw [rebinds_at]; rfl

theorem mem_insertAt {α : Type} {a x : α} : ∀ {i : Nat} {l : List α}, x ∈ insertAt i a l ↔ x = a ∨ x ∈ l := by
  intro i
  induction i with
  | zero => intro l; simp [insertAt]
  | succ i ih =>
    intro l
    cases l with
    | nil => simp [insertAt]
    | cons b l => simp only [insertAt, List.mem_cons, ih]; tauto

theorem nodup_insertAt {α : Type} {a : α} : ∀ {i : Nat} {l : List α}, a ∉ l → l.Nodup → (insertAt i a l).Nodup := by
  intro i
  induction i with
  | zero => intro l h1 h2; exact List.nodup_cons.mpr ⟨h1, h2⟩
  | succ i ih =>
    intro l h1 h2
    cases l with
    | nil => simp [insertAt]
    | cons b l =>
      simp only [List.mem_cons, not_or] at h1
      rw [List.nodup_cons] at h2
      simp only [insertAt]
      rw [List.nodup_cons, mem_insertAt]
      exact ⟨fun h => h.elim (fun e => h1.1 e.symm) h2.1, ih h1.2 h2.2⟩

/-- The parameters of a lifted function. -/
theorem physParams_fst {slot : Slot} {evv envv : Var} {ps' : List Var} {ts : List Ty} (hl : ps'.length = ts.length) :
    (physParams slot evv envv (ps'.zip ts)).map Prod.fst =
      match slot with
      | .at _ i => insertAt i envv ps'
      | .legacy => evv :: envv :: ps' := by
  cases slot with
  | legacy => simp only [physParams, List.map_cons]; rw [mem_fst_zip hl]
  | «at» c i => simp only [physParams]; rw [insertAt_map, mem_fst_zip hl]

theorem scoped_loads {E : Option Var} {cst : Var} {k : Code} : ∀ {gs : List Var} {i : Nat} {S : List Var}, cst ∈ S →
    gs.Nodup → (∀ g ∈ gs, g ∉ S) → Scoped E (gs.reverse ++ S) k → Scoped E S (loads cst i gs k) := by
  intro gs
  induction gs with
  | nil => intro i S _ _ _ h; simpa [loads] using h
  | cons g gs ih =>
    intro i S hc hn hd h
    rw [List.nodup_cons] at hn
    refine ⟨by simpa using hc, hd g (by simp), ih (by simp [hc]) hn.2 ?_ (by simpa using h)⟩
    intro x hx
    simp only [List.mem_cons, not_or]
    exact ⟨fun e => hn.1 (e ▸ hx), hd x (by simp [hx])⟩

theorem below_loads {cst : Var} {k : Code} {n : Nat} (hc : cst < n) (hk : Below n k) : ∀ {gs : List Var} {i : Nat},
    (∀ g ∈ gs, g < n) → Below n (loads cst i gs k) := by
  intro gs
  induction gs with
  | nil => intro i _; simpa [loads] using hk
  | cons g gs ih =>
    intro i h
    exact ⟨by simpa using hc, h g (by simp), ih (fun x hx => h x (by simp [hx]))⟩

theorem lift_ok (q : Prog) {n₀ n : Nat} {slot : Slot} {E : Option Var} {S caps : List Var} {ps : List (Var × Ty)}
    {body : Code} {m : Map} (hn : n₀ ≤ n) (hm : Moves n₀ m) (hi : InjOn S m)
    (hE : ∀ e, E = some e → e ∈ S ∧ m e = e) (hcaps : ∀ a ∈ caps, a ∈ S) (hps : (ps.map Prod.fst).Nodup)
    (hdis : ∀ x ∈ ps.map Prod.fst, x ∉ caps ++ (rebinds slot E caps).toList)
    (hbody : Scoped (innerEv slot (rebinds slot E caps) ps)
      (ps.map Prod.fst ++ (caps ++ (rebinds slot E caps).toList)) body)
    (hbps : ∀ x ∈ ps.map Prod.fst, x < n₀) (hbb : Below n₀ body)
    (hslot : ∀ c i, slot = .at c i → i ≤ ps.length) :
    let l := lift n slot (implicitEvidence slot E (caps.map m)) (caps.map m) ps
      (renameUses (m.setAll (ps.map Prod.fst) (ps.map Prod.fst)) body)
    n ≤ l.2 ∧ l.1.WF l.2 ∧ ∃ evv envv cst ps' gs body', Lifted slot caps ps l.1 evv envv cst ps' gs body' ∧
      Alpha q (innerEv slot (rebinds slot E caps) ps) (firstEvidence l.1.params)
        (liftMap (rebinds slot E caps) caps (ps.map Prod.fst) evv ps' gs) body body' := by
  have hrb := rebinds_rename (slot := slot) hi hcaps hE
  rw [implicitEvidence_eq, hrb]
  -- names
  generalize hre : rebinds slot E caps = re at *
  generalize hf : m.setAll (ps.map Prod.fst) (ps.map Prod.fst) = f at *
  rw [lift_eq _ _ _ _ _ _ hslot]
  intro l
  have hre2 : re = rebinds slot E caps := hre.symm
  let ps' := lparams n slot ps.length
  let n₁ := n + lcount slot ps.length
  let gs := List.range' (n₁ + 1) (caps.map m).length
  let evv := lev n ps.length slot caps.length
  let start := if caps.map m = [] then n₁ else n₁ + 1 + (caps.map m).length
  let G := liftFun re (caps.map m) (ps.map Prod.fst) n ps' gs
  have hl1 : ps'.length = ps.length := lparams_length _ _ _
  have hl1' : (ps.map Prod.fst).length = ps'.length := by rw [hl1]; simp
  have hl2 : gs.length = caps.length := by simp [gs]
  have hG : G = liftFun re (caps.map m) (ps.map Prod.fst) evv ps' gs := by
    show liftFun re (caps.map m) (ps.map Prod.fst) n ps' gs = _
    rw [hre2]; exact liftFun_ev
  have hnod : (evv :: lenv n slot :: n₁ :: (ps' ++ gs)).Nodup := by
    have := lifted_nodup (n := n) (len := ps.length) (k := caps.length) hslot
    simpa [evv, ps', n₁, gs] using this
  have hnod2 : (evv :: (ps' ++ gs)).Nodup := by
    simp only [List.nodup_cons, List.mem_cons, not_or] at hnod ⊢
    exact ⟨hnod.1.2.2, hnod.2.2.2⟩
  -- the scope of the lambda, renamed
  have hfps : ∀ x ∈ ps.map Prod.fst, f x = x := by
    intro x hx; rw [← hf]; exact setAll_self (m := m) hx
  have hfcaps : caps.map f = caps.map m := by
    apply List.map_congr_left
    intro a ha
    rw [← hf, setAll_not (m := m)]
    intro h
    exact hdis a h (by simp [ha])
  have hinn := innerEv_inner (f := m) hE (by rw [hre]; exact hdis)
  rw [hre, hf] at hinn
  have hinj : InjOn (ps.map Prod.fst ++ (caps ++ re.toList)) f := by
    have := injOn_inner (l := caps ++ re.toList) hi hm (by
      rw [hre2]; exact rebinds_mem hcaps (fun e h => (hE e h).1)) hps hdis hbps
    rw [hf] at this; exact this
  have himp : ∀ e, re = some e → f e = e := by
    intro e he
    have h1 : E = some e := (rebinds_some (hre2 ▸ he)).2.1
    rw [← hf, setAll_not (m := m) (fun h => hdis e h (by simp [he]))]
    exact (hE e h1).2
  have hmv : Moves n₀ f := by rw [← hf]; exact hm.setAll _
  have hsc := scope_inner (slot := slot) (E := E) (caps := caps) (ps := ps) hm hE (by rw [hre]; exact hdis)
  rw [hre, hf] at hsc
  have hscoped := scoped_rename body hbody hbb hmv hinj hinn hsc
  -- the map of the clone
  have hcomp : ∀ v ∈ ps.map Prod.fst ++ (caps ++ re.toList),
      G (f v) = liftFun re caps (ps.map Prod.fst) evv ps' gs v := by
    intro v hv
    rw [hG, ← hfcaps]
    exact liftFun_comp hl2.symm hinj hfps himp v hv
  obtain ⟨gi, gr⟩ := liftFun_injOn (imp := re) (caps := caps.map m) hl1' (by simp [gs]) hnod2
  obtain ⟨li, lr⟩ := liftFun_injOn (imp := re) (caps := caps) hl1' hl2.symm hnod2
  rw [← hG] at gi gr
  have hperm1 : ∀ v, v ∈ ps.map Prod.fst ++ (caps ++ re.toList) ↔ v ∈ caps ++ (re.toList ++ ps.map Prod.fst) := by
    intro v; simp only [List.mem_append]; tauto
  have hperm2 : ∀ v, v ∈ ps.map Prod.fst ++ (caps.map m ++ re.toList) → v ∈ caps.map m ++ (re.toList ++ ps.map Prod.fst) := by
    intro v; simp only [List.mem_append]; tauto
  have hgst : ∀ y ∈ gs, n₁ + 1 ≤ y ∧ y < start := by
    intro y hy
    have hy' : n₁ + 1 ≤ y ∧ y < n₁ + 1 + (caps.map m).length := by simpa only [gs, List.mem_range'_1] using hy
    have : caps.map m ≠ [] := by
      intro h; rw [h] at hy'; simp at hy'; vomega
    simp only [start, this, if_false]
    vomega
  have hst : n₁ ≤ start := by simp only [start]; split <;> vomega
  have hstlt : ∀ v, v ∈ evv :: (ps' ++ gs) → (v = evv → slot = .legacy) → v < start := by
    intro v hv hle
    rcases List.mem_cons.mp hv with h | h
    · have := hle h
      subst h
      simp only [evv, this, lev]
      simp only [n₁, this, lcount] at hst
      vomega
    · rcases List.mem_append.mp h with h | h
      · have := (lparams_range (n := n) hslot h).2.1
        simp only [n₁] at hst; vomega
      · exact (hgst v h).2
  -- values in scope are below `start`
  have hnoev : ∀ v ∈ caps.map m ++ (re.toList ++ ps.map Prod.fst), G v = evv → slot = .legacy := by
    intro v hv h
    cases hs : slot with
    | legacy => rfl
    | «at» c i =>
      exfalso
      have hnone : re = none := by rw [hre2, hs]; exact rebinds_at
      rw [hG, hnone] at h
      rw [hnone] at hv
      have h3 : (evv :: (ps' ++ gs)).Nodup := hnod2
      rw [List.nodup_cons] at h3
      apply h3.1
      by_cases hc : v ∈ caps.map m
      · obtain ⟨i, _, hh⟩ := setAll_mem (m := setOpt (Map.setAll id (ps.map Prod.fst) ps') none evv) (ys := gs) (by simp [gs]) hc
        unfold liftFun at h
        rw [h] at hh
        exact List.mem_append_right _ (List.mem_of_getElem? hh)
      · unfold liftFun at h
        rw [setAll_not (m := setOpt (Map.setAll id (ps.map Prod.fst) ps') none evv) hc] at h
        have hv2 : v ∈ ps.map Prod.fst := by
          rcases List.mem_append.mp hv with h | h
          · exact absurd h hc
          · simpa using h
        obtain ⟨i, _, hh⟩ := setAll_mem (m := id) hl1' hv2
        simp only [setOpt] at h
        rw [h] at hh
        exact List.mem_append_left _ (List.mem_of_getElem? hh)
  have hGlt : ∀ v ∈ caps.map m ++ (re.toList ++ ps.map Prod.fst), G v < start :=
    fun v hv => hstlt _ (gr v hv) (hnoev v hv)
  -- evidence
  have hfe : ∀ e, innerEv slot re ps = some e → firstEvidence (physParams slot n (lenv n slot) (ps'.zip (ps.map Prod.snd)))
      = some (G e) := by
    intro e he
    have hGe : ∀ e, e ∉ caps.map m → G e = setOpt (Map.setAll id (ps.map Prod.fst) ps') re n e := by
      intro e h
      show liftFun re (caps.map m) (ps.map Prod.fst) n ps' gs e = _
      unfold liftFun
      rw [setAll_not (m := setOpt (Map.setAll id (ps.map Prod.fst) ps') re n) h]
    have hnotc : e ∉ caps.map m := by
      intro h
      rw [← hfcaps] at h
      obtain ⟨a, ha, h2⟩ := List.mem_map.mp h
      have h3 := hinn e he
      have : a = e := hinj a (by simp [ha]) e h3.1 (by rw [h2, h3.2])
      subst this
      rcases innerEv_mem he with h | ⟨h, _⟩
      · exact hdis a h (by simp [ha])
      · exact (rebinds_some (hre2 ▸ h)).2.2 ha
    rw [hGe e hnotc]
    cases hs : slot with
    | legacy =>
      rw [hs] at he
      simp only [innerEv] at he
      rw [he]
      simp [physParams, firstEvidence, setOpt, set_same]
    | «at» c i =>
      rw [hs] at he
      have hnone : re = none := by rw [hre2, hs]; exact rebinds_at
      cases i with
      | zero => cases he
      | succ i =>
        simp only [innerEv] at he
        rw [hnone]
        simp only [setOpt, physParams]
        have := firstEvidence_zip (f := id) hl1 hps he
        rw [← this]
        cases hz : ps'.zip (ps.map Prod.snd) with
        | nil =>
          rw [hz] at this; cases this
        | cons a b => simp [insertAt, firstEvidence]
  have hfe2 : ∀ e, firstEvidence (physParams slot n (lenv n slot) (ps'.zip (ps.map Prod.snd))) = some e →
      e ∈ (physParams slot n (lenv n slot) (ps'.zip (ps.map Prod.snd))).map Prod.fst :=
    fun e he => firstEvidence_mem he
  -- parameters
  have hpar := physParams_fst (slot := slot) (evv := n) (envv := lenv n slot) (ps' := ps') (ts := ps.map Prod.snd) (by rw [hl1]; simp)
  have hparm : ∀ x, x ∈ (physParams slot n (lenv n slot) (ps'.zip (ps.map Prod.snd))).map Prod.fst ↔
      (slot = .legacy ∧ x = n) ∨ x = lenv n slot ∨ x ∈ ps' := by
    intro x
    rw [hpar]
    cases slot with
    | legacy => simp
    | «at» c i => simp [mem_insertAt]
  have henv := lenv_lt (n := n) hslot
  have hparlt : ∀ x ∈ (physParams slot n (lenv n slot) (ps'.zip (ps.map Prod.snd))).map Prod.fst, x < n₁ := by
    intro x hx
    rcases (hparm x).mp hx with ⟨h1, h2⟩ | h | h
    · subst h2; vomega
    · rw [h]; exact henv.2
    · exact (lparams_range (n := n) hslot h).2.1
  have hparnod : ((physParams slot n (lenv n slot) (ps'.zip (ps.map Prod.snd))).map Prod.fst).Nodup := by
    rw [hpar]
    have h3 : lenv n slot ∉ ps' := fun h => (lparams_range (n := n) hslot h).2.2.1 rfl
    cases hs : slot with
    | «at» c i => exact nodup_insertAt (by rw [← hs]; exact h3) (lparams_nodup _ _ _)
    | legacy =>
      simp only [List.nodup_cons, List.mem_cons, not_or]
      refine ⟨⟨?_, ?_⟩, by rw [← hs]; exact h3, lparams_nodup _ _ _⟩
      · simp only [lenv]; vomega
      · intro h
        have := (lparams_range (n := n) hslot h).2.2.2 hs
        vomega
  have hmono := clone_mono (renameUses f body) G start
  have hnl : n ≤ (clone G start (renameUses f body)).2 := by vomega
  -- assembling
  refine ⟨hnl, ⟨hparnod, fun x hx => ?_, ?_, ?_⟩, evv, lenv n slot, n₁, ps', gs, (clone G start (renameUses f body)).1, ?_, ?_⟩
  · have := hparlt x hx
    show x < (clone G start (renameUses f body)).2
    vomega
  · show Scoped _ _ (entry (caps.map m) n₁ (lenv n slot) gs (clone G start (renameUses f body)).1)
    have himage : ∀ v ∈ ps.map Prod.fst ++ (caps.map m ++ re.toList),
        G v ∈ gs ∨ G v ∈ (physParams slot n (lenv n slot) (ps'.zip (ps.map Prod.snd))).map Prod.fst := by
      intro v hv
      have h1 := gr v (hperm2 v hv)
      rcases List.mem_cons.mp h1 with h | h
      · right
        have h2 := hnoev v (hperm2 v hv) h
        rw [hparm]; left
        exact ⟨h2, by rw [h]; simp only [evv, h2, lev]⟩
      · rcases List.mem_append.mp h with h | h
        · right; rw [hparm]; right; right; exact h
        · left; exact h
    have hfee : ∀ e, innerEv slot re ps = some e → f e = e := fun e he => (hinn e he).2
    have hmem : ∀ e, innerEv slot re ps = some e → e ∈ ps.map Prod.fst ++ (caps.map m ++ re.toList) := by
      intro e he
      rcases innerEv_mem he with h | ⟨h, _⟩
      · exact List.mem_append_left _ h
      · exact List.mem_append_right _ (List.mem_append_right _ (by rw [h]; simp))
    unfold entry
    split
    · next hc =>
      have hgs : gs = [] := by simp [gs, hc]
      refine scoped_clone _ hscoped (injOn_mono gi hperm2) ⟨?_, ?_⟩ ⟨fun e he => ⟨hmem e he, hfe e he⟩, hfe2⟩
      · intro v hv
        rcases himage v hv with h | h
        · rw [hgs] at h; simp at h
        · exact h
      · intro y hy; have := hparlt y hy; vomega
    · next hc =>
      have hn1 : n₁ ∉ (physParams slot n (lenv n slot) (ps'.zip (ps.map Prod.snd))).map Prod.fst :=
        fun h => Nat.lt_irrefl _ (hparlt _ h)
      refine ⟨?_, hn1, scoped_loads (by simp) List.nodup_range' ?_ ?_⟩
      · intro a ha
        simp only [List.mem_singleton] at ha
        rw [ha, hparm]; right; left; rfl
      · intro g hg
        have := (hgst g hg).1
        simp only [List.mem_cons, not_or]
        refine ⟨by vomega, fun h => ?_⟩
        have := hparlt g h
        vomega
      · refine scoped_clone _ hscoped (injOn_mono gi hperm2) ⟨?_, ?_⟩ ⟨fun e he => ⟨hmem e he, hfe e he⟩, fun e he => ?_⟩
        · intro v hv
          rcases himage v hv with h | h
          · exact List.mem_append_left _ (List.mem_reverse.mpr h)
          · exact List.mem_append_right _ (List.mem_cons_of_mem _ h)
        · intro y hy
          rcases List.mem_append.mp hy with h | h
          · exact (hgst y (List.mem_reverse.mp h)).2
          · rcases List.mem_cons.mp h with h | h
            · rw [h]; simp only [start, hc, if_false]; vomega
            · have := hparlt y h; vomega
        · exact List.mem_append_right _ (List.mem_cons_of_mem _ (hfe2 e he))
  · show Below (clone G start (renameUses f body)).2 (entry (caps.map m) n₁ (lenv n slot) gs (clone G start (renameUses f body)).1)
    have hb := below_clone (renameUses f body) (g := G) (n := start) hscoped
      (fun v hv => hGlt v (hperm2 v hv)) (fun e he => by
        rcases innerEv_mem he with h | ⟨h, _⟩
        · exact List.mem_append_left _ h
        · exact List.mem_append_right _ (List.mem_append_right _ (by rw [h]; simp)))
    unfold entry
    split
    · exact hb
    · next hc =>
      have hs1 : n₁ < start := by simp only [start, hc, if_false]; vomega
      refine ⟨?_, by vomega, below_loads (by vomega) hb (fun g hg => ?_)⟩
      · intro a ha
        simp only [List.mem_singleton] at ha
        rw [ha]; have := henv.2; simp only [n₁] at hst; vomega
      · have := (hgst g hg).2; vomega
  · refine ⟨hl1, hl2, hslot, hnod, ?_, ?_⟩
    · show physParams slot n (lenv n slot) (ps'.zip (ps.map Prod.snd)) = _
      cases hs : slot with
      | legacy => simp only [physParams, evv, hs, lev]
      | «at» c i => rfl
    · show entry (caps.map m) n₁ (lenv n slot) gs (clone G start (renameUses f body)).1 = entry caps n₁ (lenv n slot) gs _
      simp only [entry, List.map_eq_nil_iff]
  · show Alpha q _ (firstEvidence (physParams slot n (lenv n slot) (ps'.zip (ps.map Prod.snd)))) _ _ _
    rw [liftMap_eq hl1' hl2.symm, ← pm_congr hperm1 hcomp]
    refine alpha_clone q body hbody hbb hmv ?_ ?_ (fun e he => (hinn e he).1) (fun e he => ?_)
    · exact injOn_congr (injOn_mono li (fun v hv => (hperm1 v).mp hv)) (fun v hv => (hcomp v hv).symm)
    · intro v hv
      exact hGlt _ (hperm2 _ (hsc.image v hv))
    · rw [(hinn e he).2]; exact hfe e he

end Verif.Closure
