import Verif.ModEnv.Spec
/-!
# Lemmas on the names a module declares
-/
namespace Verif.ModEnv

/-! ## Tables -/

theorem lookup_cons {α β : Type} [BEq α] [LawfulBEq α] [DecidableEq α] (k k' : α) (v : β) (l : List (α × β)) :
    ((k', v) :: l).lookup k = if k = k' then some v else l.lookup k := by
  by_cases h : k = k'
  · subst h; simp
  · have : (k == k') = false := by simpa using h
    simp [List.lookup_cons, h, this]

theorem lookup_append {α β : Type} [BEq α] [LawfulBEq α] (k : α) (l l' : List (α × β)) :
    (l ++ l').lookup k = (l.lookup k).or (l'.lookup k) := by
  induction l with
  | nil => simp
  | cons a l ih =>
    obtain ⟨a, v⟩ := a
    simp only [List.cons_append, List.lookup_cons]
    cases k == a <;> simp [ih]

theorem lookup_none {α β : Type} [BEq α] [LawfulBEq α] (k : α) (l : List (α × β))
    (h : ∀ d ∈ l, d.1 ≠ k) : l.lookup k = none := by
  induction l with
  | nil => rfl
  | cons a l ih =>
    obtain ⟨a, v⟩ := a
    have : (k == a) = false := by
      simpa using fun e : k = a => h (a, v) (by simp) e.symm
    simp only [List.lookup_cons, this]
    exact ih fun d hd => h d (by simp [hd])

theorem lookup_map {α β γ : Type} [BEq α] [LawfulBEq α] [BEq γ] [LawfulBEq γ] (f : α → γ)
    (hf : ∀ a a', f a = f a' → a = a') (k : α) (l : List (α × β)) :
    (l.map fun d => (f d.1, d.2)).lookup (f k) = l.lookup k := by
  induction l with
  | nil => rfl
  | cons a l ih =>
    obtain ⟨a, v⟩ := a
    have : (f k == f a) = (k == a) := by
      by_cases h : k = a
      · subst h; simp
      · have h' : f k ≠ f a := fun e => h (hf _ _ e)
        simp [h, h']
    simp only [List.map_cons, List.lookup_cons, this, ih]

/-! ## Environments -/

/-- The namespace entries from `e` to `e'` that may have changed have a first segment in `hs`. -/
def NsFrame (hs : List Symbol) (e e' : Env) : Prop :=
  ∀ n x, (∀ h, n.head? = some h → h ∉ hs) → e'.ns.lookup (n, x) = e.ns.lookup (n, x)

def DefFrame (xs : List Symbol) (e e' : Env) : Prop :=
  ∀ x, x ∉ xs → e'.defs.lookup x = e.defs.lookup x

theorem NsFrame.refl (hs e) : NsFrame hs e e := fun _ _ _ => rfl
theorem DefFrame.refl (xs e) : DefFrame xs e e := fun _ _ => rfl

theorem NsFrame.trans {hs hs' e e' e''} (h : NsFrame hs e e') (h' : NsFrame hs' e' e'') :
    NsFrame (hs ++ hs') e e'' := fun n x hn =>
  (h' n x fun k hk hk' => hn k hk (by simp [hk'])).trans (h n x fun k hk hk' => hn k hk (by simp [hk']))

theorem DefFrame.trans {xs xs' e e' e''} (h : DefFrame xs e e') (h' : DefFrame xs' e' e'') :
    DefFrame (xs ++ xs') e e'' := fun x hx =>
  (h' x fun k => hx (by simp [k])).trans (h x fun k => hx (by simp [k]))

theorem NsFrame.mono {hs hs' e e'} (h : NsFrame hs e e') (hh : ∀ x ∈ hs, x ∈ hs') : NsFrame hs' e e' :=
  fun n x hn => h n x fun k hk hk' => hn k hk (hh _ hk')

theorem DefFrame.mono {xs xs' e e'} (h : DefFrame xs e e') (hh : ∀ x ∈ xs, x ∈ xs') : DefFrame xs' e e' :=
  fun x hx => h x fun k => hx (hh _ k)

@[simp] theorem lookup_member (e : Env) (n n' x x' b) :
    (e.member n x b).ns.lookup (n', x') = if n' = n ∧ x' = x then some b else e.ns.lookup (n', x') := by
  unfold Env.member
  simp only [lookup_cons, Prod.mk.injEq]

@[simp] theorem defs_member (e : Env) (n x b) : (e.member n x b).defs = e.defs := rfl
@[simp] theorem ns_define (e : Env) (x b) : (e.define x b).ns = e.ns := rfl
@[simp] theorem ns_import (e : Env) (x b) : (e.import_ x b).ns = e.ns := rfl
@[simp] theorem defs_import (e : Env) (x b) : (e.import_ x b).defs = e.defs := rfl

@[simp] theorem lookup_define (e : Env) (x x' b) :
    (e.define x b).defs.lookup x' = if x' = x then some b else e.defs.lookup x' := by
  unfold Env.define
  simp only [lookup_cons]

theorem lookup_absent (e : Env) (n n' x x' b) :
    (e.memberIfAbsent n x b).ns.lookup (n', x') =
      if n' = n ∧ x' = x then (e.ns.lookup (n', x')).or (some b) else e.ns.lookup (n', x') := by
  unfold Env.memberIfAbsent Env.lookupQualified
  cases h : e.ns.lookup (n, x) with
  | some c =>
    by_cases hh : n' = n ∧ x' = x
    · obtain ⟨rfl, rfl⟩ := hh; simp [h]
    · simp [hh]
  | none =>
    by_cases hh : n' = n ∧ x' = x
    · obtain ⟨rfl, rfl⟩ := hh; simp [h]
    · simp [hh]

theorem absent_keeps {e : Env} {n n' x x' b c} (h : e.ns.lookup (n', x') = some c) :
    (e.memberIfAbsent n x b).ns.lookup (n', x') = some c := by
  rw [lookup_absent]; split <;> simp [h]

@[simp] theorem defs_absent (e : Env) (n x b) : (e.memberIfAbsent n x b).defs = e.defs := by
  unfold Env.memberIfAbsent; split <;> rfl

/-! ## Members of one item -/

theorem fields_defs (pre s) : ∀ fs e, (fieldsOf pre s fs e).defs = e.defs
  | [], _ => rfl
  | f :: fs, e => by rw [fieldsOf, fields_defs pre s fs]; rfl

theorem fields_frame (pre s) : ∀ fs e, NsFrame [s] e (fieldsOf pre s fs e)
  | [], e => .refl _ _
  | f :: fs, e => by
    intro n x hn
    rw [fieldsOf, fields_frame pre s fs _ n x hn, lookup_member, if_neg]
    rintro ⟨rfl, _⟩
    exact hn s rfl (by simp)

theorem fields_other (pre s x) : ∀ fs e, x ∉ fs →
    (fieldsOf pre s fs e).ns.lookup ([s], x) = e.ns.lookup ([s], x)
  | [], _, _ => rfl
  | f :: fs, e, h => by
    simp only [List.mem_cons, not_or] at h
    rw [fieldsOf, fields_other pre s x fs _ h.2, lookup_member, if_neg (by simp [h.1])]

theorem fields_own (pre s f) : ∀ fs e, fs.Nodup → f ∈ fs →
    (fieldsOf pre s fs e).ns.lookup ([s], f) = some (.function (pre ++ [s, f]))
  | [], _, _, h => by simp at h
  | g :: fs, e, hd, h => by
    rw [fieldsOf]
    simp only [List.nodup_cons] at hd
    by_cases hg : f ∈ fs
    · exact fields_own pre s f fs _ hd.2 hg
    · have : f = g := by simpa [hg] using h
      subst this
      rw [fields_other pre s f fs _ hg]; simp

theorem ops_defs (pre s) : ∀ fs e, (opsOf pre s fs e).defs = e.defs
  | [], _ => rfl
  | f :: fs, e => by rw [opsOf, ops_defs pre s fs]; rfl

theorem ops_frame (pre s) : ∀ fs e, NsFrame [s] e (opsOf pre s fs e)
  | [], e => .refl _ _
  | f :: fs, e => by
    intro n x hn
    rw [opsOf, ops_frame pre s fs _ n x hn, lookup_member, if_neg]
    rintro ⟨rfl, _⟩
    exact hn s rfl (by simp)

theorem ops_other (pre s x) : ∀ fs e, x ∉ fs →
    (opsOf pre s fs e).ns.lookup ([s], x) = e.ns.lookup ([s], x)
  | [], _, _ => rfl
  | f :: fs, e, h => by
    simp only [List.mem_cons, not_or] at h
    rw [opsOf, ops_other pre s x fs _ h.2, lookup_member, if_neg (by simp [h.1])]

theorem ops_own (pre s f) : ∀ fs e, fs.Nodup → f ∈ fs →
    (opsOf pre s fs e).ns.lookup ([s], f) = some (.abilityOp (pre ++ [s]) f)
  | [], _, _, h => by simp at h
  | g :: fs, e, hd, h => by
    rw [opsOf]
    simp only [List.nodup_cons] at hd
    by_cases hg : f ∈ fs
    · exact ops_own pre s f fs _ hd.2 hg
    · have : f = g := by simpa [hg] using h
      subst this
      rw [ops_other pre s f fs _ hg]; simp

theorem variants_frame (pre t) : ∀ vs e, NsFrame [t] e (variantsOf pre t vs e)
  | [], e => .refl _ _
  | (v, k) :: vs, e => by
    intro n x hn
    rw [variantsOf, variants_frame pre t vs _ n x hn, ns_define, lookup_member, if_neg]
    rintro ⟨rfl, _⟩
    exact hn t rfl (by simp)

theorem variants_defs (pre t) : ∀ vs e, DefFrame (vs.map (·.1)) e (variantsOf pre t vs e)
  | [], e => .refl _ _
  | (v, k) :: vs, e => by
    intro x hx
    simp only [List.map_cons, List.mem_cons, not_or] at hx
    rw [variantsOf, variants_defs pre t vs _ x hx.2, lookup_define, if_neg hx.1]; rfl

theorem variants_other (pre t x) : ∀ vs e, x ∉ vs.map (·.1) →
    (variantsOf pre t vs e).ns.lookup ([t], x) = e.ns.lookup ([t], x)
  | [], _, _ => rfl
  | (v, k) :: vs, e, h => by
    simp only [List.map_cons, List.mem_cons, not_or] at h
    rw [variantsOf, variants_other pre t x vs _ h.2, ns_define, lookup_member, if_neg (by simp [h.1])]

theorem variants_own (pre t v k) : ∀ vs e, (vs.map (·.1)).Nodup → (v, k) ∈ vs →
    (variantsOf pre t vs e).ns.lookup ([t], v) = some (.constructor (pre ++ [v]) (some v) k) ∧
    (variantsOf pre t vs e).defs.lookup v = some (.constructor (pre ++ [v]) (some v) k)
  | [], _, _, h => by simp at h
  | (w, j) :: vs, e, hd, h => by
    rw [variantsOf]
    simp only [List.map_cons, List.nodup_cons] at hd
    rcases List.mem_cons.mp h with h | h
    · cases h
      rw [variants_other pre t _ vs _ hd.1, variants_defs pre t vs _ _ hd.1]
      simp
    · exact variants_own pre t v k vs _ hd.2 h

/-! ## Modules -/

theorem spaces_defs (m) : ∀ l e, (spacesOf m l e).defs = e.defs
  | [], _ => rfl
  | (([], _), _) :: l, e => by rw [spacesOf]; exact spaces_defs m l e; simp
  | (([n], _), _) :: l, e => by rw [spacesOf, defs_absent]; exact spaces_defs m l e
  | ((_ :: _ :: _, _), _) :: l, e => by rw [spacesOf]; exact spaces_defs m l e; simp

theorem spaces_other (m n x) (hn : n ≠ [m]) : ∀ l e,
    (spacesOf m l e).ns.lookup (n, x) = e.ns.lookup (n, x)
  | [], _ => rfl
  | (([], _), _) :: l, e => by rw [spacesOf]; exact spaces_other m n x hn l e; simp
  | (([k], _), _) :: l, e => by
    rw [spacesOf, lookup_absent, if_neg (by simp [hn])]; exact spaces_other m n x hn l e
  | ((_ :: _ :: _, _), _) :: l, e => by rw [spacesOf]; exact spaces_other m n x hn l e; simp

theorem spaces_keeps (m n x c) : ∀ l e, e.ns.lookup (n, x) = some c →
    (spacesOf m l e).ns.lookup (n, x) = some c
  | [], _, h => h
  | (([], _), _) :: l, e, h => by rw [spacesOf]; exact spaces_keeps m n x c l e h; simp
  | (([k], _), _) :: l, e, h => by
    rw [spacesOf]; exact absent_keeps (spaces_keeps m n x c l e h)
  | ((_ :: _ :: _, _), _) :: l, e, h => by rw [spacesOf]; exact spaces_keeps m n x c l e h; simp

theorem transfer_defs (m inner e) : (transfer m inner e).defs = e.defs := by
  unfold transfer; simp only [defs_import, spaces_defs]

theorem transfer_frame (m inner e) : NsFrame [m] e (transfer m inner e) := by
  intro n x hn
  have hm : n ≠ [m] := by rintro rfl; exact hn m rfl (by simp)
  unfold transfer
  simp only [ns_import]
  rw [spaces_other m n x hm, lookup_append, lookup_append, lookup_none, lookup_none]
  · rfl
  · intro d hd
    obtain ⟨d', _, rfl⟩ := List.mem_map.mp hd
    intro h; exact hm (congrArg Prod.fst h).symm
  · intro d hd
    obtain ⟨d', _, rfl⟩ := List.mem_map.mp hd
    intro h
    have := congrArg Prod.fst h
    simp only at this
    subst this
    exact hn m rfl (by simp)

/-- Members of members. -/
theorem transfer_deep {m inner e n x b} (hn : n ≠ []) (h : inner.ns.lookup (n, x) = some b) :
    (transfer m inner e).ns.lookup (m :: n, x) = some b := by
  unfold transfer
  simp only [ns_import]
  rw [spaces_other m _ x (by simpa using hn), lookup_append]
  have := lookup_map (fun p : Path × Symbol => (m :: p.1, p.2)) (by
    rintro ⟨a, b⟩ ⟨c, d⟩ h; simpa using h) (n, x) inner.ns
  simp only at this
  rw [this, h]; rfl

theorem transfer_here {m inner e x b} (hi : ∀ d ∈ inner.ns, d.1.1 ≠ [])
    (h : inner.defs.lookup x = some b) : (transfer m inner e).ns.lookup ([m], x) = some b := by
  unfold transfer
  simp only [ns_import]
  apply spaces_keeps
  rw [lookup_append, lookup_none _ (inner.ns.map _), lookup_append]
  · have := lookup_map (fun y : Symbol => (([m] : Path), y)) (by intro a b h; simpa using h) x inner.defs
    rw [this, h]; rfl
  · intro d hd
    obtain ⟨d', hd', rfl⟩ := List.mem_map.mp hd
    intro h'
    have := congrArg Prod.fst h'
    simp only [List.cons.injEq, true_and] at this
    exact hi d' hd' this

/-! ## No entry lies in the empty path -/

def NsOk (e : Env) : Prop := ∀ d ∈ e.ns, d.1.1 ≠ []

theorem ok_member {e : Env} {n x b} (h : NsOk e) (hn : n ≠ []) : NsOk (e.member n x b) := by
  intro d hd
  rcases List.mem_cons.mp hd with rfl | hd
  · exact hn
  · exact h d hd

theorem ok_absent {e : Env} {n x b} (h : NsOk e) (hn : n ≠ []) : NsOk (e.memberIfAbsent n x b) := by
  unfold Env.memberIfAbsent; split
  · exact h
  · exact ok_member h hn

theorem ok_fields (pre s) : ∀ fs e, NsOk e → NsOk (fieldsOf pre s fs e)
  | [], _, h => h
  | _ :: fs, _, h => by rw [fieldsOf]; exact ok_fields pre s fs _ (ok_member h (by simp))

theorem ok_ops (pre s) : ∀ fs e, NsOk e → NsOk (opsOf pre s fs e)
  | [], _, h => h
  | _ :: fs, _, h => by rw [opsOf]; exact ok_ops pre s fs _ (ok_member h (by simp))

theorem ok_variants (pre s) : ∀ fs e, NsOk e → NsOk (variantsOf pre s fs e)
  | [], _, h => h
  | _ :: fs, e, h => by
    rw [variantsOf]
    refine ok_variants pre s fs _ ?_
    show NsOk (e.member _ _ _)
    exact ok_member h (by simp)

theorem ok_spaces (m) : ∀ l e, NsOk e → NsOk (spacesOf m l e)
  | [], _, h => h
  | (([], _), _) :: l, e, h => by rw [spacesOf]; exact ok_spaces m l e h; simp
  | (([n], _), _) :: l, e, h => by
    rw [spacesOf]; exact ok_absent (ok_spaces m l e h) (by simp)
  | ((_ :: _ :: _, _), _) :: l, e, h => by rw [spacesOf]; exact ok_spaces m l e h; simp

theorem ok_collect (pre : Path) (d : Item) (e : Env) (h : NsOk e) : NsOk (collect pre d e) := by
  cases d with
  | func x => exact h
  | struct_ x fs => rw [collect]; exact ok_fields _ _ _ _ h
  | enum t vs => rw [collect]; exact ok_variants _ _ _ _ h
  | ability a os => rw [collect]; exact ok_ops _ _ _ _ h
  | use p r => rw [collect]; split <;> exact h
  | mod m body =>
    rw [collect]
    unfold transfer
    refine ok_spaces m _ _ ?_
    intro d hd
    simp only [List.mem_append, List.mem_map] at hd
    rcases hd with ⟨d', _, rfl⟩ | ⟨d', _, rfl⟩ | hd
    · simp
    · simp
    · exact h d hd

theorem ok_collectAll (pre : Path) : ∀ (ds : Items) (e : Env), NsOk e → NsOk (collectAll pre ds e)
  | .nil, _, h => h
  | .cons d ds, e, h => by rw [collectAll]; exact ok_collectAll pre ds _ (ok_collect pre d e h)

/-! ## Frames -/

theorem collect_frame (pre : Path) (d : Item) (e : Env) :
    NsFrame (spaces d) e (collect pre d e) ∧ DefFrame (bare d) e (collect pre d e) := by
  cases d with
  | func x =>
    refine ⟨fun _ _ _ => rfl, fun y hy => ?_⟩
    rw [collect, lookup_define, if_neg (by simpa [bare] using hy)]
  | struct_ x fs =>
    refine ⟨?_, fun y hy => ?_⟩
    · intro n y hn; rw [collect, fields_frame pre x fs _ n y hn]; rfl
    · rw [collect, fields_defs, lookup_define, lookup_define, if_neg (by simpa [bare] using hy),
        if_neg (by simpa [bare] using hy)]
  | enum t vs =>
    refine ⟨?_, fun y hy => ?_⟩
    · intro n y hn; rw [collect, variants_frame pre t vs _ n y hn]; rfl
    · simp only [bare, List.mem_cons, not_or] at hy
      rw [collect, variants_defs pre t vs _ y hy.2, lookup_define, if_neg hy.1]
  | ability a os =>
    refine ⟨?_, fun y hy => ?_⟩
    · intro n y hn; rw [collect, ops_frame pre a os _ n y hn]; rfl
    · rw [collect, ops_defs, lookup_define, if_neg (by simpa [bare] using hy)]
  | use p r => rw [collect]; split <;> exact ⟨fun _ _ _ => rfl, fun _ _ => rfl⟩
  | mod m body =>
    rw [collect]
    exact ⟨transfer_frame _ _ _, fun y _ => by rw [transfer_defs]⟩

theorem collectAll_frame (pre : Path) : ∀ (ds : Items) (e : Env),
    NsFrame (ds.toList.flatMap spaces) e (collectAll pre ds e) ∧
      DefFrame (ds.toList.flatMap bare) e (collectAll pre ds e)
  | .nil, e => ⟨.refl _ _, .refl _ _⟩
  | .cons d ds, e => by
    have h1 := collect_frame pre d e
    have h2 := collectAll_frame pre ds (collect pre d e)
    exact ⟨h1.1.trans h2.1, h1.2.trans h2.2⟩

/-! ## Each declaration is found -/

/-- The name means `b` in the environment: as a definition, or as a member. -/
def Found (e : Env) (n : Path) (x : Symbol) (b : Binding) : Prop :=
  (n = [] → e.defs.lookup x = some b) ∧ (n ≠ [] → e.ns.lookup (n, x) = some b)

/-- What one item declares. -/
inductive Decl1 : Path → Item → Path → Symbol → Binding → Prop
  | func {pre x} : Decl1 pre (.func x) [] x (.function (pre ++ [x]))
  | struct_ {pre x fs} : Decl1 pre (.struct_ x fs) [] x (.constructor (pre ++ [x]) none fs.length)
  | field {pre x fs f} (hf : f ∈ fs) : Decl1 pre (.struct_ x fs) [x] f (.function (pre ++ [x, f]))
  | enum {pre t vs} : Decl1 pre (.enum t vs) [] t (.typeDef (pre ++ [t]))
  | variant {pre t vs v k} (hv : (v, k) ∈ vs) :
      Decl1 pre (.enum t vs) [t] v (.constructor (pre ++ [v]) (some v) k)
  | bareVariant {pre t vs v k} (hv : (v, k) ∈ vs) :
      Decl1 pre (.enum t vs) [] v (.constructor (pre ++ [v]) (some v) k)
  | ability {pre a os} : Decl1 pre (.ability a os) [] a (.ability (pre ++ [a]))
  | op {pre a os o} (ho : o ∈ os) : Decl1 pre (.ability a os) [a] o (.abilityOp (pre ++ [a]) o)
  | mod {pre m body n x b} (hb : Declared (pre ++ [m]) body n x b) : Decl1 pre (.mod m body) (m :: n) x b

theorem declared_one {pre ds n x b} (h : Declared pre ds n x b) :
    ∃ d ∈ ds.toList, Decl1 pre d n x b := by
  cases h with
  | func h => exact ⟨_, h, .func⟩
  | struct_ h => exact ⟨_, h, .struct_⟩
  | field h hf => exact ⟨_, h, .field hf⟩
  | enum h => exact ⟨_, h, .enum⟩
  | variant h hv => exact ⟨_, h, .variant hv⟩
  | bareVariant h hv => exact ⟨_, h, .bareVariant hv⟩
  | ability h => exact ⟨_, h, .ability⟩
  | op h ho => exact ⟨_, h, .op ho⟩
  | mod h hb => exact ⟨_, h, .mod hb⟩

theorem decl1_names {pre d n x b} (h : Decl1 pre d n x b) :
    (n = [] → x ∈ bare d) ∧ (∀ k, n.head? = some k → k ∈ spaces d) := by
  cases h <;> simp [bare, spaces]
  case bareVariant hv => exact Or.inr ⟨_, hv⟩

mutual
theorem item_found (pre : Path) (d : Item) (e : Env) (hu : d.Unique) (hb : (bare d).Nodup) (n x b)
    (h : Decl1 pre d n x b) : Found (collect pre d e) n x b := by
  match d with
  | .func _ =>
    cases h
    exact ⟨fun _ => by rw [collect]; simp, fun h => absurd rfl h⟩
  | .struct_ _ _ =>
    cases h with
    | struct_ => exact ⟨fun _ => by rw [collect, fields_defs]; simp, fun h => absurd rfl h⟩
    | field hf =>
      refine ⟨fun h => by simp at h, fun _ => ?_⟩
      rw [collect]; exact fields_own _ _ _ _ _ (by simpa [Item.Unique] using hu) hf
  | .enum t vs =>
    simp only [bare, List.nodup_cons] at hb
    cases h with
    | enum =>
      refine ⟨fun _ => ?_, fun h => absurd rfl h⟩
      rw [collect, variants_defs _ _ vs _ _ hb.1]; simp
    | variant hv =>
      refine ⟨fun h => by simp at h, fun _ => ?_⟩
      rw [collect]; exact (variants_own pre t _ _ vs _ hb.2 hv).1
    | bareVariant hv =>
      refine ⟨fun _ => ?_, fun h => absurd rfl h⟩
      rw [collect]; exact (variants_own pre t _ _ vs _ hb.2 hv).2
  | .ability _ _ =>
    cases h with
    | ability => exact ⟨fun _ => by rw [collect, ops_defs]; simp, fun h => absurd rfl h⟩
    | op ho =>
      refine ⟨fun h => by simp at h, fun _ => ?_⟩
      rw [collect]; exact ops_own _ _ _ _ _ (by simpa [Item.Unique] using hu) ho
  | .use _ _ => nomatch h
  | .mod m body =>
    cases h with
    | @mod _ _ n' _ _ hb' =>
      refine ⟨fun h => by simp at h, fun _ => ?_⟩
      simp only [Item.Unique] at hu
      obtain ⟨d', hd', h1⟩ := declared_one hb'
      have := items_found (pre ++ [m]) body .empty hu.1 hu.2.1 hu.2.2 d' hd' _ _ _ h1
      rw [collect]
      by_cases hn : n' = []
      · subst hn
        exact transfer_here (ok_collectAll _ _ _ (by intro d hd; simp [Env.empty] at hd)) (this.1 rfl)
      · exact transfer_deep hn (this.2 hn)
theorem items_found (pre : Path) (ds : Items) (e : Env) (hu : ds.Unique)
    (hb : (ds.toList.flatMap bare).Nodup) (hs : (ds.toList.flatMap spaces).Nodup) (d : Item)
    (hd : d ∈ ds.toList) (n x b) (h : Decl1 pre d n x b) : Found (collectAll pre ds e) n x b := by
  match ds with
  | .nil => simp [Items.toList] at hd
  | .cons d' ds' =>
    simp only [Items.toList, List.mem_cons] at hd
    simp only [Items.Unique] at hu
    simp only [Items.toList, List.flatMap_cons, List.nodup_append] at hb hs
    rw [collectAll]
    rcases hd with hd' | hd
    · rw [hd'] at h
      have h1 := item_found pre d' e hu.1 hb.1 n x b h
      have hn := decl1_names h
      have hf := collectAll_frame pre ds' (collect pre d' e)
      refine ⟨fun hnil => ?_, fun hne => ?_⟩
      · rw [hf.2 x fun hx => hb.2.2 x (hn.1 hnil) x hx rfl]; exact h1.1 hnil
      · rw [hf.1 n x fun k hk hk' => hs.2.2 k (hn.2 k hk) k hk' rfl]; exact h1.2 hne
    · exact items_found pre ds' _ hu.2 hb.2.1 hs.2.1 d hd n x b h
end

/-! ## Constructors -/

def TFrame (ok : Path → Prop) (tb tb' : List (Path × CtorTy)) : Prop :=
  ∀ k, ¬ ok k → tb'.lookup k = tb.lookup k

/-- The identities an item may register. -/
def ids (pre : Path) (d : Item) (k : Path) : Prop :=
  (∃ v ∈ bare d, k = pre ++ [v]) ∨ (∃ m ∈ spaces d, ∃ r ≠ [], k = pre ++ m :: r)

theorem variantTypes_frame (pre t) : ∀ vs tb,
    TFrame (fun k => ∃ v ∈ vs.map (·.1), k = pre ++ [v]) tb (variantTypes pre t vs tb)
  | [], _ => fun _ _ => rfl
  | (v, n) :: vs, tb => by
    intro k hk
    rw [variantTypes, variantTypes_frame pre t vs _ k, lookup_cons, if_neg]
    · rintro rfl; exact hk ⟨v, by simp, rfl⟩
    · rintro ⟨w, hw, rfl⟩; exact hk ⟨w, by simp only [List.map_cons, List.mem_cons]; exact .inr hw, rfl⟩

theorem variantTypes_own (pre t v k) : ∀ vs tb, (vs.map (·.1)).Nodup → (v, k) ∈ vs →
    (variantTypes pre t vs tb).lookup (pre ++ [v]) = some ⟨pre ++ [t], k⟩
  | [], _, _, h => by simp at h
  | (w, j) :: vs, tb, hd, h => by
    rw [variantTypes]
    simp only [List.map_cons, List.nodup_cons] at hd
    rcases List.mem_cons.mp h with h | h
    · cases h
      rw [variantTypes_frame pre t vs _ (pre ++ [v])]
      · simp
      · rintro ⟨w', hw, h⟩
        have : v = w' := by simpa using h
        exact hd.1 (this ▸ hw)
    · exact variantTypes_own pre t v k vs _ hd.2 h

mutual
theorem ctor_frame (pre : Path) (d : Item) (tb) : TFrame (ids pre d) tb (ctorTypes pre d tb) := by
  intro k hk
  match d with
  | .func _ => rfl
  | .ability _ _ => rfl
  | .use _ _ => rfl
  | .struct_ x fs =>
    rw [ctorTypes, lookup_cons, if_neg]
    rintro rfl; exact hk (.inl ⟨x, by simp [bare], rfl⟩)
  | .enum t vs =>
    rw [ctorTypes, variantTypes_frame pre t vs _ k]
    rintro ⟨v, hv, rfl⟩
    exact hk (.inl ⟨v, List.mem_cons_of_mem _ hv, rfl⟩)
  | .mod m body =>
    rw [ctorTypes, ctors_frame (pre ++ [m]) body tb k]
    rintro ⟨d, _, h⟩
    apply hk
    refine .inr ⟨m, by simp [spaces], ?_⟩
    rcases h with ⟨v, _, rfl⟩ | ⟨m', _, r, _, rfl⟩
    · exact ⟨[v], by simp, by simp⟩
    · exact ⟨m' :: r, by simp, by simp⟩
theorem ctors_frame (pre : Path) (ds : Items) (tb) :
    TFrame (fun k => ∃ d ∈ ds.toList, ids pre d k) tb (ctorTypesAll pre ds tb) := by
  intro k hk
  match ds with
  | .nil => rfl
  | .cons d ds' =>
    rw [ctorTypesAll, ctors_frame pre ds' _ k, ctor_frame pre d tb k]
    · exact fun h => hk ⟨d, by simp [Items.toList], h⟩
    · rintro ⟨d', hd', h⟩; exact hk ⟨d', by simp [Items.toList, hd'], h⟩
end

inductive Ctor1 : Path → Item → Path → Symbol → CtorTy → Prop
  | struct_ {pre x fs} : Ctor1 pre (.struct_ x fs) [] x ⟨pre ++ [x], fs.length⟩
  | variant {pre t vs v k} (hv : (v, k) ∈ vs) : Ctor1 pre (.enum t vs) [t] v ⟨pre ++ [t], k⟩
  | mod {pre m body n x b} (hb : Constructs (pre ++ [m]) body n x b) : Ctor1 pre (.mod m body) (m :: n) x b

theorem ctor_one {pre ds n x b} (h : Constructs pre ds n x b) :
    ∃ d ∈ ds.toList, Ctor1 pre d n x b := by
  cases h with
  | struct_ h => exact ⟨_, h, .struct_⟩
  | variant h hv => exact ⟨_, h, .variant hv⟩
  | mod h hb => exact ⟨_, h, .mod hb⟩

/-- `Typed tb pre d n x t`: the item declares at `n`, `x` a constructor whose identity has type `t` in
the table. -/
def Typed (tb : List (Path × CtorTy)) (P : Path → Symbol → Binding → Prop) (K : Path → Prop) (n : Path) (x : Symbol)
    (t : CtorTy) : Prop :=
  ∃ id tag k, P n x (.constructor id tag k) ∧ K id ∧ tb.lookup id = some t ∧ k = t.fields

theorem ids_disjoint {pre d d' k} (hb : ∀ a ∈ bare d, ∀ b ∈ bare d', a ≠ b)
    (hs : ∀ a ∈ spaces d, ∀ b ∈ spaces d', a ≠ b) (h : ids pre d k) (h' : ids pre d' k) : False := by
  rcases h with ⟨v, hv, rfl⟩ | ⟨m, hm, r, hr, rfl⟩
  · rcases h' with ⟨w, hw, h⟩ | ⟨m', _, r', hr', h⟩
    · have : v = w := by simpa using h
      exact hb v hv w hw this
    · have : v = m' ∧ ([] : Path) = r' := by simpa using h
      exact hr' this.2.symm
  · rcases h' with ⟨w, hw, h⟩ | ⟨m', hm', r', hr', h⟩
    · have : m = w ∧ r = [] := by simpa using h
      exact hr this.2
    · have : m = m' ∧ r = r' := by simpa using h
      exact hs m hm m' hm' this.1

mutual
theorem ctor_typed (pre : Path) (d : Item) (tb) (hu : d.Unique) (hb : (bare d).Nodup) (n x t)
    (h : Ctor1 pre d n x t) : Typed (ctorTypes pre d tb) (Decl1 pre d) (ids pre d) n x t := by
  match d with
  | .func _ => nomatch h
  | .ability _ _ => nomatch h
  | .use _ _ => nomatch h
  | .struct_ x fs =>
    cases h
    exact ⟨_, _, _, .struct_, .inl ⟨_, by simp [bare], rfl⟩, by rw [ctorTypes]; simp, rfl⟩
  | .enum t vs =>
    simp only [bare, List.nodup_cons] at hb
    cases h with
    | variant hv =>
      refine ⟨_, _, _, .variant hv, .inl ⟨_, ?_, rfl⟩, ?_, rfl⟩
      · exact List.mem_cons_of_mem _ (List.mem_map.mpr ⟨_, hv, rfl⟩)
      · rw [ctorTypes]; exact variantTypes_own pre t _ _ vs _ hb.2 hv
  | .mod m body =>
    cases h with
    | mod hb' =>
      simp only [Item.Unique] at hu
      obtain ⟨d', hd', h1⟩ := ctor_one hb'
      obtain ⟨id, tag, k, h2, h3, h4, h5⟩ :=
        ctors_typed (pre ++ [m]) body tb hu.1 hu.2.1 hu.2.2 d' hd' _ _ _ h1
      refine ⟨id, tag, k, .mod h2, .inr ⟨m, by simp [spaces], ?_⟩, by rw [ctorTypes]; exact h4, h5⟩
      rcases h3 with ⟨v, _, rfl⟩ | ⟨m', _, r, _, rfl⟩
      · exact ⟨[v], by simp, by simp⟩
      · exact ⟨m' :: r, by simp, by simp⟩
theorem ctors_typed (pre : Path) (ds : Items) (tb) (hu : ds.Unique)
    (hb : (ds.toList.flatMap bare).Nodup) (hs : (ds.toList.flatMap spaces).Nodup) (d : Item)
    (hd : d ∈ ds.toList) (n x t) (h : Ctor1 pre d n x t) :
    Typed (ctorTypesAll pre ds tb) (Declared pre ds) (ids pre d) n x t := by
  match ds with
  | .nil => simp [Items.toList] at hd
  | .cons d' ds' =>
    simp only [Items.toList, List.mem_cons] at hd
    simp only [Items.Unique] at hu
    simp only [Items.toList, List.flatMap_cons, List.nodup_append] at hb hs
    rw [ctorTypesAll]
    rcases hd with hd' | hd
    · rw [hd'] at h ⊢
      obtain ⟨id, tag, k, h2, h3, h4, h5⟩ := ctor_typed pre d' tb hu.1 hb.1 n x t h
      refine ⟨id, tag, k, ?_, h3, ?_, h5⟩
      · have hm : d' ∈ (Items.cons d' ds').toList := by simp [Items.toList]
        generalize Items.cons d' ds' = all at hm
        cases h2 with
        | struct_ => exact .struct_ hm
        | variant hv => exact .variant hm hv
        | bareVariant hv => exact .bareVariant hm hv
        | mod hb => exact .mod hm hb
      · rw [ctors_frame pre ds' _ id, h4]
        rintro ⟨d2, hd2, h'⟩
        exact ids_disjoint
          (fun a ha b hb' => hb.2.2 a ha b (List.mem_flatMap.mpr ⟨d2, hd2, hb'⟩))
          (fun a ha b hb' => hs.2.2 a ha b (List.mem_flatMap.mpr ⟨d2, hd2, hb'⟩)) h3 h'
    · obtain ⟨id, tag, k, h2, h3, h4, h5⟩ := ctors_typed pre ds' (ctorTypes pre d' tb) hu.2 hb.2.1 hs.2.1 d hd n x t h
      refine ⟨id, tag, k, ?_, h3, h4, h5⟩
      have hm : ∀ d, d ∈ ds'.toList → d ∈ (Items.cons d' ds').toList := by
        intro d hd; simp [Items.toList, hd]
      generalize Items.cons d' ds' = all at hm
      clear h
      cases h2 with
      | struct_ h => exact .struct_ (hm _ h)
      | variant h hv => exact .variant (hm _ h) hv
      | bareVariant h hv => exact .bareVariant (hm _ h) hv
      | mod h hb => exact .mod (hm _ h) hb
end

/-! ## Built-in names -/

theorem builtins_defs (e : Env) : (builtins e).defs = e.defs := by
  unfold builtins
  simp only [defs_member, defs_absent]
  unfold Env.importIfAbsent
  split <;> rfl

theorem builtins_ns {e : Env} {n x b} (hne : ¬ (n = ["std", "io"] ∧ x = "Io"))
    (h : e.ns.lookup (n, x) = some b) : (builtins e).ns.lookup (n, x) = some b := by
  unfold builtins
  rw [lookup_member, if_neg hne]
  apply absent_keeps
  unfold Env.importIfAbsent
  split
  · exact h
  · exact h

end Verif.ModEnv
