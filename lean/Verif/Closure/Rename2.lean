import Verif.Closure.Rename
/-!
# Renamed and cloned code is well-formed; renamed code is the code up to names
-/
namespace Verif.Closure
open Verif.CallConv (Conv)

/-! ## Renaming -/

theorem rebinds_rename {slot : Slot} {E : Option Var} {caps S : List Var} {f : Map} (hf : InjOn S f)
    (hcaps : ∀ a ∈ caps, a ∈ S) (hE : ∀ e, E = some e → e ∈ S ∧ f e = e) :
    rebinds slot E (caps.map f) = rebinds slot E caps := by
  cases slot with
  | «at» c i => rw [rebinds_at, rebinds_at]
  | legacy =>
    cases E with
    | none => rfl
    | some e =>
      obtain ⟨h1, h2⟩ := hE e rfl
      have : e ∈ caps.map f ↔ e ∈ caps := by
        constructor
        · intro h
          obtain ⟨a, ha, hh⟩ := List.mem_map.mp h
          have : a = e := hf a (hcaps a ha) e h1 (by rw [hh, h2])
          exact this ▸ ha
        · intro h
          exact List.mem_map.mpr ⟨e, h, h2⟩
      simp only [rebinds, this]

theorem injOn_inner {n₀ : Nat} {S : List Var} {f : Map} {xs l : List Var} (hf : InjOn S f) (hm : Moves n₀ f)
    (hl : ∀ v ∈ l, v ∈ S) (hn : xs.Nodup) (hd : ∀ x ∈ xs, x ∉ l) (hb : ∀ x ∈ xs, x < n₀) :
    InjOn (xs ++ l) (f.setAll xs xs) := by
  refine injOn_append (injOn_mono hf hl) rfl hn ?_
  intro v hv h
  exact hm.not (hb _ h) (hd _ h) v hv rfl

theorem innerEv_inner {slot : Slot} {E : Option Var} {caps S : List Var} {ps : List (Var × Ty)} {f : Map}
    (hE : ∀ e, E = some e → e ∈ S ∧ f e = e)
    (hd : ∀ x ∈ ps.map Prod.fst, x ∉ caps ++ (rebinds slot E caps).toList) :
    ∀ e, innerEv slot (rebinds slot E caps) ps = some e →
      e ∈ ps.map Prod.fst ++ (caps ++ (rebinds slot E caps).toList) ∧
      f.setAll (ps.map Prod.fst) (ps.map Prod.fst) e = e := by
  intro e he
  rcases innerEv_mem he with h | ⟨h, _⟩
  · exact ⟨by simp [h], setAll_self (m := f) h⟩
  · refine ⟨by simp [h], ?_⟩
    rw [setAll_not (m := f) (fun hh => hd e hh (by simp [h]))]
    exact (hE e (rebinds_some h).2.1).2

/-- Renamed code is the code, up to names. -/
theorem alpha_rename (q : Prog) {n₀ : Nat} : ∀ (c : Code) {E : Option Var} {S : List Var} {f : Map},
    Scoped E S c → Below n₀ c → Moves n₀ f → InjOn S f → (∀ e, E = some e → e ∈ S ∧ f e = e) →
    Alpha q E E (pm S f) c (renameUses f c)
  | .ret x, E, S, f, hs, _, _, _, _ => .ret (pm_mem hs)
  | .tail conv site args, E, S, f, hs, _, _, _, _ => .tail (pm_map hs)
  | .op r o args k, E, S, f, hs, hb, hm, hi, hE => by
    obtain ⟨ha, hr, hk⟩ := hs
    obtain ⟨_, hb2, hb3⟩ := hb
    have hne := hm.not hb2 hr
    refine .op (pm_map ha) (fun v hv => hne v (pm_some hv).1 (pm_some hv).2) ?_
    rw [pm_upd]
    exact alpha_rename q k hk hb3 (hm.set r) (injOn_cons hi hne) (fun e h =>
      ⟨by simp [(hE e h).1], by rw [set_ne (ne_of_mem_of_not_mem (hE e h).1 hr)]; exact (hE e h).2⟩)
  | .cond r c t e k, E, S, f, hs, hb, hm, hi, hE => by
    obtain ⟨hc, ht, he, hr, hk⟩ := hs
    obtain ⟨_, hbt, hbe, hb2, hb3⟩ := hb
    have hne := hm.not hb2 hr
    refine .cond (pm_mem hc) (alpha_rename q t ht hbt hm hi hE) (alpha_rename q e he hbe hm hi hE)
      (fun v hv => hne v (pm_some hv).1 (pm_some hv).2) ?_
    rw [pm_upd]
    exact alpha_rename q k hk hb3 (hm.set r) (injOn_cons hi hne) (fun e h =>
      ⟨by simp [(hE e h).1], by rw [set_ne (ne_of_mem_of_not_mem (hE e h).1 hr)]; exact (hE e h).2⟩)
  | .lambda r caps conv ty ps body k, E, S, f, hs, hb, hm, hi, hE => by
    obtain ⟨hcaps, hr, hk, slot, hslot, hps, hdis, hbody⟩ := hs
    obtain ⟨_, hb2, hb3, hbps, hbb⟩ := hb
    have hne := hm.not hb2 hr
    have hsub := rebinds_mem (slot := slot) hcaps (fun e h => (hE e h).1)
    refine .lambda slot hslot (pm_map hcaps) (pm_inj hi) ?_ rfl hps hps ?_ ?_
      (fun v hv => hne v (pm_some hv).1 (pm_some hv).2) ?_
    · intro e h
      exact ⟨e, h, by rw [pm_mem (hE e h).1, (hE e h).2]⟩
    · intro y hy v hv
      rw [pm_only hsub] at hv
      obtain ⟨h1, h2⟩ := pm_some hv
      exact hm.not (hbps y hy) (hdis y hy) v h1 h2
    · rw [rebinds_rename hi hcaps hE, pm_only hsub, pm_updAll (f := id) rfl]
      exact alpha_rename q body hbody hbb (hm.setAll _) (injOn_inner hi hm hsub hps hdis hbps) (innerEv_inner hE hdis)
    · rw [pm_upd]
      exact alpha_rename q k hk hb3 (hm.set r) (injOn_cons hi hne) (fun e h =>
        ⟨by simp [(hE e h).1], by rw [set_ne (ne_of_mem_of_not_mem (hE e h).1 hr)]; exact (hE e h).2⟩)

/-- The scope `S'` has the renamed values of `S`, and besides `S` only new references. -/
structure Scope' (n₀ : Nat) (S S' : List Var) (f : Map) : Prop where
  image : ∀ v ∈ S, f v ∈ S'
  only : ∀ y ∈ S', y ∈ S ∨ n₀ ≤ y

theorem Scope'.cons {n₀ : Nat} {S S' : List Var} {f : Map} (h : Scope' n₀ S S' f) (r : Var) :
    Scope' n₀ (r :: S) (r :: S') (f.set r r) := by
  constructor
  · intro v hv
    by_cases e : v = r
    · rw [e, set_same]; simp
    · rw [set_ne e]; simp [h.image v (by simpa [e] using hv)]
  · intro y hy
    rcases List.mem_cons.mp hy with e | hy
    · left; simp [e]
    · rcases h.only y hy with h | h
      · left; simp [h]
      · right; exact h

theorem Scope'.not {n₀ : Nat} {S S' : List Var} {f : Map} (h : Scope' n₀ S S' f) {r : Var} (hr : r ∉ S) (hb : r < n₀) :
    r ∉ S' := by
  intro hm
  rcases h.only r hm with h | h
  · exact hr h
  · vomega

theorem scope_inner {n₀ : Nat} {S : List Var} {f : Map} {E : Option Var} {caps : List Var} {slot : Slot}
    {ps : List (Var × Ty)} (hm : Moves n₀ f) (hE : ∀ e, E = some e → e ∈ S ∧ f e = e)
    (hd : ∀ x ∈ ps.map Prod.fst, x ∉ caps ++ (rebinds slot E caps).toList) :
    Scope' n₀ (ps.map Prod.fst ++ (caps ++ (rebinds slot E caps).toList))
      (ps.map Prod.fst ++ (caps.map f ++ (rebinds slot E caps).toList))
      (f.setAll (ps.map Prod.fst) (ps.map Prod.fst)) := by
  constructor
  · intro v hv
    by_cases h : v ∈ ps.map Prod.fst
    · rw [setAll_self (m := f) h]; exact List.mem_append_left _ h
    · rw [setAll_not (m := f) h]
      have := (List.mem_append.mp hv).resolve_left h
      rcases List.mem_append.mp this with h1 | h1
      · exact List.mem_append_right _ (List.mem_append_left _ (List.mem_map.mpr ⟨v, h1, rfl⟩))
      · have h2 := (hE v (rebinds_some (Option.mem_toList.mp h1)).2.1).2
        rw [h2]
        exact List.mem_append_right _ (List.mem_append_right _ h1)
  · intro y hy
    rcases List.mem_append.mp hy with h | h
    · left; exact List.mem_append_left _ h
    · rcases List.mem_append.mp h with h | h
      · obtain ⟨a, ha, rfl⟩ := List.mem_map.mp h
        rcases hm a with h1 | h1
        · left; rw [h1]; exact List.mem_append_right _ (List.mem_append_left _ ha)
        · right; exact h1
      · left; exact List.mem_append_right _ (List.mem_append_right _ h)

theorem scoped_rename {n₀ : Nat} : ∀ (c : Code) {E : Option Var} {S S' : List Var} {f : Map},
    Scoped E S c → Below n₀ c → Moves n₀ f → InjOn S f → (∀ e, E = some e → e ∈ S ∧ f e = e) →
    Scope' n₀ S S' f → Scoped E S' (renameUses f c)
  | .ret x, E, S, S', f, hs, _, _, _, _, hS => hS.image x hs
  | .tail conv site args, E, S, S', f, hs, _, _, _, _, hS => by
    intro a ha
    obtain ⟨b, hb, rfl⟩ := List.mem_map.mp ha
    exact hS.image b (hs b hb)
  | .op r o args k, E, S, S', f, hs, hb, hm, hi, hE, hS => by
    obtain ⟨ha, hr, hk⟩ := hs
    obtain ⟨_, hb2, hb3⟩ := hb
    refine ⟨?_, hS.not hr hb2, ?_⟩
    · intro a ha'
      obtain ⟨b, hb, rfl⟩ := List.mem_map.mp ha'
      exact hS.image b (ha b hb)
    · exact scoped_rename k hk hb3 (hm.set r) (injOn_cons hi (hm.not hb2 hr)) (fun e h =>
        ⟨by simp [(hE e h).1], by rw [set_ne (ne_of_mem_of_not_mem (hE e h).1 hr)]; exact (hE e h).2⟩) (hS.cons r)
  | .cond r c t e k, E, S, S', f, hs, hb, hm, hi, hE, hS => by
    obtain ⟨hc, ht, he, hr, hk⟩ := hs
    obtain ⟨_, hbt, hbe, hb2, hb3⟩ := hb
    refine ⟨hS.image c hc, scoped_rename t ht hbt hm hi hE hS, scoped_rename e he hbe hm hi hE hS, hS.not hr hb2, ?_⟩
    exact scoped_rename k hk hb3 (hm.set r) (injOn_cons hi (hm.not hb2 hr)) (fun e h =>
      ⟨by simp [(hE e h).1], by rw [set_ne (ne_of_mem_of_not_mem (hE e h).1 hr)]; exact (hE e h).2⟩) (hS.cons r)
  | .lambda r caps conv ty ps body k, E, S, S', f, hs, hb, hm, hi, hE, hS => by
    obtain ⟨hcaps, hr, hk, slot, hslot, hps, hdis, hbody⟩ := hs
    obtain ⟨_, hb2, hb3, hbps, hbb⟩ := hb
    have hsub := rebinds_mem (slot := slot) hcaps (fun e h => (hE e h).1)
    have hrb := rebinds_rename (slot := slot) hi hcaps hE
    refine ⟨?_, hS.not hr hb2, ?_, slot, hslot, hps, ?_, ?_⟩
    · intro a ha'
      obtain ⟨b, hb, rfl⟩ := List.mem_map.mp ha'
      exact hS.image b (hcaps b hb)
    · exact scoped_rename k hk hb3 (hm.set r) (injOn_cons hi (hm.not hb2 hr)) (fun e h =>
        ⟨by simp [(hE e h).1], by rw [set_ne (ne_of_mem_of_not_mem (hE e h).1 hr)]; exact (hE e h).2⟩) (hS.cons r)
    · rw [hrb]
      intro x hx h
      have h1 := hdis x hx
      rcases List.mem_append.mp h with h | h
      · obtain ⟨a, ha, e⟩ := List.mem_map.mp h
        exact hm.not (S := caps ++ (rebinds slot E caps).toList) (hbps x hx) h1 a (by simp [ha]) e
      · exact h1 (by simp [h])
    · rw [hrb]
      exact scoped_rename body hbody hbb (hm.setAll _) (injOn_inner hi hm hsub hps hdis hbps)
        (innerEv_inner hE hdis) (scope_inner (S := S) hm hE hdis)

theorem below_mono {n n' : Nat} (h : n ≤ n') : ∀ (c : Code), Below n c → Below n' c
  | .ret x, hb => Nat.lt_of_lt_of_le hb h
  | .tail _ _ _, hb => fun a ha => Nat.lt_of_lt_of_le (hb a ha) h
  | .op _ _ _ k, hb => ⟨fun a ha => Nat.lt_of_lt_of_le (hb.1 a ha) h, Nat.lt_of_lt_of_le hb.2.1 h, below_mono h k hb.2.2⟩
  | .cond _ _ t e k, hb => ⟨Nat.lt_of_lt_of_le hb.1 h, below_mono h t hb.2.1, below_mono h e hb.2.2.1,
      Nat.lt_of_lt_of_le hb.2.2.2.1 h, below_mono h k hb.2.2.2.2⟩
  | .lambda _ _ _ _ _ body k, hb => ⟨fun a ha => Nat.lt_of_lt_of_le (hb.1 a ha) h, Nat.lt_of_lt_of_le hb.2.1 h,
      below_mono h k hb.2.2.1, fun a ha => Nat.lt_of_lt_of_le (hb.2.2.2.1 a ha) h, below_mono h body hb.2.2.2.2⟩

theorem below_rename {n n' : Nat} (hn : n ≤ n') : ∀ (c : Code) {f : Map}, Below n c → (∀ v, v < n → f v < n') →
    Below n' (renameUses f c)
  | .ret x, f, hb, hf => hf x hb
  | .tail _ _ args, f, hb, hf => by
    intro a ha
    obtain ⟨b, h1, rfl⟩ := List.mem_map.mp ha
    exact hf b (hb b h1)
  | .op r _ args k, f, hb, hf => by
    refine ⟨?_, Nat.lt_of_lt_of_le hb.2.1 hn, below_rename hn k hb.2.2 (below_set hn hb.2.1 hf)⟩
    intro a ha
    obtain ⟨b, h1, rfl⟩ := List.mem_map.mp ha
    exact hf b (hb.1 b h1)
  | .cond r c t e k, f, hb, hf =>
    ⟨hf c hb.1, below_rename hn t hb.2.1 hf, below_rename hn e hb.2.2.1 hf, Nat.lt_of_lt_of_le hb.2.2.2.1 hn,
      below_rename hn k hb.2.2.2.2 (below_set hn hb.2.2.2.1 hf)⟩
  | .lambda r caps _ _ ps body k, f, hb, hf => by
    refine ⟨?_, Nat.lt_of_lt_of_le hb.2.1 hn, below_rename hn k hb.2.2.1 (below_set hn hb.2.1 hf),
      fun a ha => Nat.lt_of_lt_of_le (hb.2.2.2.1 a ha) hn, below_rename hn body hb.2.2.2.2 ?_⟩
    · intro a ha
      obtain ⟨b, h1, rfl⟩ := List.mem_map.mp ha
      exact hf b (hb.1 b h1)
    · intro v hv
      by_cases h : v ∈ ps.map Prod.fst
      · rw [setAll_self (m := f) h]; exact Nat.lt_of_lt_of_le hv hn
      · rw [setAll_not (m := f) h]; exact hf v hv
where
  below_set {n n' : Nat} (hn : n ≤ n') {r : Var} {f : Map} (hr : r < n) (hf : ∀ v, v < n → f v < n') :
      ∀ v, v < n → f.set r r v < n' := by
    intro v hv
    by_cases h : v = r
    · rw [h, set_same]; exact Nat.lt_of_lt_of_le hr hn
    · rw [set_ne h]; exact hf v hv

/-! ## Cloning -/

/-- The scope of a clone. -/
structure CScope (n : Nat) (S S' : List Var) (g : Map) : Prop where
  image : ∀ v ∈ S, g v ∈ S'
  lt : ∀ y ∈ S', y < n

theorem CScope.cons {n n' : Nat} {S S' : List Var} {g : Map} (h : CScope n S S' g) (r : Var) (hn : n ≤ n') :
    CScope (n' + 1) (r :: S) (n' :: S') (g.set r n') := by
  constructor
  · intro v hv
    by_cases e : v = r
    · rw [e, set_same]; simp
    · rw [set_ne e]; simp [h.image v (by simpa [e] using hv)]
  · intro y hy
    rcases List.mem_cons.mp hy with e | hy
    · vomega
    · have := h.lt y hy; vomega

theorem CScope.mono {n n' : Nat} {S S' : List Var} {g : Map} (h : CScope n S S' g) (hn : n ≤ n') : CScope n' S S' g :=
  ⟨h.image, fun y hy => Nat.lt_of_lt_of_le (h.lt y hy) hn⟩

/-- How the evidence is called in a clone. -/
structure CEv (E E' : Option Var) (S S' : List Var) (g : Map) : Prop where
  src : ∀ e, E = some e → e ∈ S ∧ E' = some (g e)
  dst : ∀ e, E' = some e → e ∈ S'

theorem CEv.cons {E E' : Option Var} {S S' : List Var} {g : Map} (h : CEv E E' S S' g) {r r' : Var} (hr : r ∉ S) :
    CEv E E' (r :: S) (r' :: S') (g.set r r') :=
  ⟨fun e he => ⟨by simp [(h.src e he).1], by
    rw [set_ne (ne_of_mem_of_not_mem (h.src e he).1 hr)]; exact (h.src e he).2⟩, fun e he => by simp [h.dst e he]⟩

theorem injOn_clone {n n' : Nat} {S S' : List Var} {g : Map} (hi : InjOn S g) (h : CScope n S S' g) (hn : n ≤ n') (r : Var) :
    InjOn (r :: S) (g.set r n') :=
  injOn_cons hi (fun v hv => Nat.ne_of_lt (Nat.lt_of_lt_of_le (h.lt _ (h.image v hv)) hn))

theorem rebinds_dst {slot : Slot} {E' : Option Var} {caps : List Var} {e : Var}
    (h : e ∈ (rebinds slot E' caps).toList) : E' = some e := (rebinds_some (Option.mem_toList.mp h)).2.1

theorem clone_inner {n : Nat} {E E' : Option Var} {S S' : List Var} {g : Map} {caps : List Var} {slot : Slot}
    {ps : List (Var × Ty)} (hi : InjOn S g) (hS : CScope n S S' g) (hE : CEv E E' S S' g)
    (hcaps : ∀ a ∈ caps, a ∈ S) (hps : (ps.map Prod.fst).Nodup)
    (hd : ∀ x ∈ ps.map Prod.fst, x ∉ caps ++ (rebinds slot E caps).toList) :
    let ps' := List.range' n ps.length
    let g' := g.setAll (ps.map Prod.fst) ps'
    let Sin := ps.map Prod.fst ++ (caps ++ (rebinds slot E caps).toList)
    let Sin' := ps' ++ (caps.map g ++ (rebinds slot E' (caps.map g)).toList)
    InjOn Sin g' ∧ CScope (n + ps.length) Sin Sin' g' ∧
      CEv (innerEv slot (rebinds slot E caps) ps)
        (innerEv slot (rebinds slot E' (caps.map g)) (ps'.zip (ps.map Prod.snd))) Sin Sin' g' ∧
      ∀ x ∈ ps', x ∉ caps.map g ++ (rebinds slot E' (caps.map g)).toList := by
  intro ps' g' Sin Sin'
  have hl : (ps.map Prod.fst).length = ps'.length := by simp [ps']
  have hsub := rebinds_mem (slot := slot) hcaps (fun e h => (hE.src e h).1)
  have hrb : ∀ {e}, rebinds slot E caps = some e → rebinds slot E' (caps.map g) = some (g e) :=
    fun h => rebinds_map hi hcaps (fun e h => (hE.src e h).1) (fun e h => (hE.src e h).2) h
  have hlt : ∀ y ∈ caps.map g ++ (rebinds slot E' (caps.map g)).toList, y < n := by
    intro y hy
    rcases List.mem_append.mp hy with h | h
    · obtain ⟨a, ha, rfl⟩ := List.mem_map.mp h
      exact hS.lt _ (hS.image a (hcaps a ha))
    · exact hS.lt _ (hE.dst y (rebinds_dst h))
  have hin : ∀ v ∈ caps ++ (rebinds slot E caps).toList, g v ∈ caps.map g ++ (rebinds slot E' (caps.map g)).toList := by
    intro v hv
    rcases List.mem_append.mp hv with h | h
    · exact List.mem_append_left _ (List.mem_map.mpr ⟨v, h, rfl⟩)
    · exact List.mem_append_right _ (by rw [hrb (Option.mem_toList.mp h)]; simp)
  have hdis : ∀ x ∈ ps', x ∉ caps.map g ++ (rebinds slot E' (caps.map g)).toList := by
    intro x hx h
    have h1 := hlt x h
    simp only [ps', List.mem_range'_1] at hx
    vomega
  refine ⟨injOn_append (injOn_mono hi hsub) hl List.nodup_range' ?_, ⟨?_, ?_⟩, ⟨?_, ?_⟩, hdis⟩
  · intro v hv h
    exact hdis _ h (hin v hv)
  · intro v hv
    by_cases h : v ∈ ps.map Prod.fst
    · obtain ⟨i, _, h2⟩ := setAll_mem (m := g) hl h
      exact List.mem_append_left _ (List.mem_of_getElem? h2)
    · simp only [g']
      rw [setAll_not (m := g) h]
      exact List.mem_append_right _ (hin v ((List.mem_append.mp hv).resolve_left h))
  · intro y hy
    rcases List.mem_append.mp hy with h | h
    · simp only [ps', List.mem_range'_1] at h; vomega
    · have := hlt y h; vomega
  · intro e he
    rcases innerEv_mem he with h | ⟨h, hl⟩
    · refine ⟨List.mem_append_left _ h, ?_⟩
      cases slot with
      | legacy =>
        exfalso
        simp only [innerEv] at he
        exact hd e h (by simp [he])
      | «at» c i =>
        cases i with
        | zero => cases he
        | succ i => exact firstEvidence_zip (f := g) (by simp [ps']) hps he
    · refine ⟨List.mem_append_right _ (by simp [h]), ?_⟩
      subst hl
      simp only [innerEv, g']
      rw [hrb h, setAll_not (m := g)]
      intro hh
      exact hd e hh (by simp [h])
  · intro e he
    rcases innerEv_mem he with h | ⟨h, _⟩
    · rw [mem_fst_zip (by simp [ps'])] at h
      exact List.mem_append_left _ h
    · exact List.mem_append_right _ (List.mem_append_right _ (by rw [h]; simp))

theorem scoped_clone : ∀ (c : Code) {E E' : Option Var} {S S' : List Var} {g : Map} {n : Nat},
    Scoped E S c → InjOn S g → CScope n S S' g → CEv E E' S S' g → Scoped E' S' (clone g n c).1
  | .ret x, E, E', S, S', g, n, hs, _, hS, _ => hS.image x hs
  | .tail conv site args, E, E', S, S', g, n, hs, _, hS, _ => by
    intro a ha
    obtain ⟨b, hb, rfl⟩ := List.mem_map.mp ha
    exact hS.image b (hs b hb)
  | .op r o args k, E, E', S, S', g, n, hs, hi, hS, hE => by
    obtain ⟨ha, hr, hk⟩ := hs
    refine ⟨?_, fun h => Nat.lt_irrefl n (hS.lt n h), ?_⟩
    · intro a ha'
      obtain ⟨b, hb, rfl⟩ := List.mem_map.mp ha'
      exact hS.image b (ha b hb)
    · exact scoped_clone k hk (injOn_clone hi hS (Nat.le_refl _) r) (hS.cons r (Nat.le_refl _)) (hE.cons hr)
  | .cond r c t e k, E, E', S, S', g, n, hs, hi, hS, hE => by
    obtain ⟨hc, ht, he, hr, hk⟩ := hs
    have l1 := clone_mono t g n
    have l2 := clone_mono e g (clone g n t).2
    simp only [clone]
    refine ⟨hS.image c hc, scoped_clone t ht hi hS hE, scoped_clone e he hi (hS.mono l1) hE, ?_, ?_⟩
    · intro h
      have := hS.lt _ h
      vomega
    · exact scoped_clone k hk (injOn_clone hi hS (by vomega) r) (hS.cons r (by vomega)) (hE.cons hr)
  | .lambda r caps conv ty ps body k, E, E', S, S', g, n, hs, hi, hS, hE => by
    obtain ⟨hcaps, hr, hk, slot, hslot, hps, hdis, hbody⟩ := hs
    have l1 := clone_mono body (g.setAll (ps.map Prod.fst) (List.range' n ps.length)) (n + ps.length)
    obtain ⟨h1, h2, h3, h4⟩ := clone_inner (slot := slot) hi hS hE hcaps hps hdis
    simp only [clone]
    refine ⟨?_, ?_, ?_, slot, hslot, ?_, ?_, ?_⟩
    · intro a ha'
      obtain ⟨b, hb, rfl⟩ := List.mem_map.mp ha'
      exact hS.image b (hcaps b hb)
    · intro h
      have := hS.lt _ h
      vomega
    · exact scoped_clone k hk (injOn_clone hi hS (by vomega) r) (hS.cons r (by vomega)) (hE.cons hr)
    · rw [mem_fst_zip (by simp)]; exact List.nodup_range'
    · rw [mem_fst_zip (by simp)]; exact h4
    · rw [mem_fst_zip (by simp)]
      exact scoped_clone body hbody h1 h2 h3

theorem below_clone : ∀ (c : Code) {E : Option Var} {S : List Var} {g : Map} {n : Nat},
    Scoped E S c → (∀ v ∈ S, g v < n) → (∀ e, E = some e → e ∈ S) → Below (clone g n c).2 (clone g n c).1
  | .ret x, E, S, g, n, hs, hS, _ => hS x hs
  | .tail conv site args, E, S, g, n, hs, hS, _ => by
    intro a ha
    obtain ⟨b, hb, rfl⟩ := List.mem_map.mp ha
    exact hS b (hs b hb)
  | .op r o args k, E, S, g, n, hs, hS, hE => by
    obtain ⟨ha, hr, hk⟩ := hs
    have l1 := clone_mono k (g.set r n) (n + 1)
    simp only [clone]
    refine ⟨?_, by vomega, below_clone k hk ?_ (fun e h => by simp [hE e h])⟩
    · intro a ha'
      obtain ⟨b, hb, rfl⟩ := List.mem_map.mp ha'
      have := hS b (ha b hb)
      vomega
    · exact lt_set hS (Nat.le_refl _)
  | .cond r c t e k, E, S, g, n, hs, hS, hE => by
    obtain ⟨hc, ht, he, hr, hk⟩ := hs
    have l1 := clone_mono t g n
    have l2 := clone_mono e g (clone g n t).2
    have l3 := clone_mono k (g.set r (clone g (clone g n t).2 e).2) ((clone g (clone g n t).2 e).2 + 1)
    simp only [clone]
    have := hS c hc
    refine ⟨by vomega, below_mono (by vomega) _ (below_clone t ht hS hE),
      below_mono (by vomega) _ (below_clone e he (fun v hv => Nat.lt_of_lt_of_le (hS v hv) l1) hE), by vomega,
      below_clone k hk ?_ (fun e h => by simp [hE e h])⟩
    exact lt_set hS (by vomega)
  | .lambda r caps conv ty ps body k, E, S, g, n, hs, hS, hE => by
    obtain ⟨hcaps, hr, hk, slot, hslot, hps, hdis, hbody⟩ := hs
    have l1 := clone_mono body (g.setAll (ps.map Prod.fst) (List.range' n ps.length)) (n + ps.length)
    have l2 := clone_mono k (g.set r (clone (g.setAll (ps.map Prod.fst) (List.range' n ps.length)) (n + ps.length) body).2)
      ((clone (g.setAll (ps.map Prod.fst) (List.range' n ps.length)) (n + ps.length) body).2 + 1)
    have hsub := rebinds_mem (slot := slot) hcaps hE
    simp only [clone]
    refine ⟨?_, by vomega, below_clone k hk (lt_set hS (by vomega)) (fun e h => by simp [hE e h]), ?_, ?_⟩
    · intro a ha'
      obtain ⟨b, hb, rfl⟩ := List.mem_map.mp ha'
      have := hS b (hcaps b hb)
      vomega
    · rw [mem_fst_zip (by simp)]
      intro x hx
      simp only [List.mem_range'_1] at hx
      vomega
    · refine below_mono (by vomega) _ (below_clone body hbody ?_ ?_)
      · intro v hv
        by_cases h : v ∈ ps.map Prod.fst
        · obtain ⟨i, _, h2⟩ := setAll_mem (m := g) (ys := List.range' n ps.length) (by simp) h
          have := List.mem_of_getElem? h2
          simp only [List.mem_range'_1] at this
          vomega
        · rw [setAll_not (m := g) h]
          have := hS v (hsub v ((List.mem_append.mp hv).resolve_left h))
          vomega
      · intro e he
        rcases innerEv_mem he with h | ⟨h, _⟩
        · exact List.mem_append_left _ h
        · exact List.mem_append_right _ (List.mem_append_right _ (by rw [h]; simp))
where
  lt_set {S : List Var} {g : Map} {n n' : Nat} {r : Var} (hS : ∀ v ∈ S, g v < n) (hn : n ≤ n') :
      ∀ v ∈ r :: S, g.set r n' v < n' + 1 := by
    intro v hv
    by_cases h : v = r
    · rw [h, set_same]; vomega
    · rw [set_ne h]
      have := hS v (by simpa [h] using hv)
      vomega

end Verif.Closure
