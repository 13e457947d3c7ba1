import Verif.Scope.Proofs
import Mathlib.Data.List.Forall2
/-!
# Replacing the words of a binder and of its references keeps the meaning
-/
namespace Verif.Scope

open NameEnv (Symbol Binding Env Map lookupLocal)

/-- What is renamed: the binder `i` of name `x`, to `y`, by the edits `T`. -/
structure Job where
  T : Span → Bool
  i : Nat
  x : Symbol
  y : Symbol
  ne : x ≠ y
  blank : y ≠ "_"

structure MapR (J : Job) (m m2 : Map Nat) : Prop where
  other : ∀ z, z ≠ J.x → z ≠ J.y → m2 z = m z
  new : m2 J.y = none ∨ m2 J.y = some J.i
  hit : m J.x = some J.i → m2 J.y = some J.i
  miss : m J.x ≠ some J.i → m2 J.x = m J.x
  only : ∀ z, z ≠ J.x → m z ≠ some J.i

theorem MapR.emp (J : Job) : MapR J .empty .empty :=
  ⟨fun _ _ _ => rfl, .inl rfl, fun h => h, fun _ => rfl, fun _ _ h => nomatch h⟩

theorem look_other {J : Job} {t t2 : List (Map Nat)} (h : List.Forall₂ (MapR J) t t2) {z : Symbol}
    (h1 : z ≠ J.x) (h2 : z ≠ J.y) : lookupLocal t2 z = lookupLocal t z := by
  induction h with
  | nil => rfl
  | cons hm _ ih => simp only [lookupLocal, hm.other z h1 h2, ih]

theorem look_hit {J : Job} {t t2 : List (Map Nat)} (h : List.Forall₂ (MapR J) t t2)
    (hl : lookupLocal t J.x = some J.i) : lookupLocal t2 J.y = some J.i := by
  induction h with
  | nil => cases hl
  | @cons m m2 t t2 hm _ ih =>
    simp only [lookupLocal] at hl ⊢
    cases hx : m J.x with
    | some j =>
      rw [hx] at hl
      cases hl
      rw [hm.hit hx]
    | none =>
      rw [hx] at hl
      rcases hm.new with h | h
      · rw [h]; exact ih hl
      · rw [h]

theorem look_miss {J : Job} {t t2 : List (Map Nat)} (h : List.Forall₂ (MapR J) t t2)
    (hl : lookupLocal t J.x ≠ some J.i) : lookupLocal t2 J.x = lookupLocal t J.x := by
  induction h with
  | nil => rfl
  | @cons m m2 t t2 hm _ ih =>
    simp only [lookupLocal] at hl ⊢
    cases hx : m J.x with
    | some j =>
      rw [hx] at hl
      have : m2 J.x = m J.x := hm.miss (by rw [hx]; exact hl)
      rw [this, hx]
    | none =>
      rw [hx] at hl
      have : m2 J.x = m J.x := hm.miss (by rw [hx]; exact fun h => nomatch h)
      rw [this, hx]
      exact ih hl

theorem look_only {J : Job} {t t2 : List (Map Nat)} (h : List.Forall₂ (MapR J) t t2) {z : Symbol}
    (hz : z ≠ J.x) : lookupLocal t z ≠ some J.i := by
  induction h with
  | nil => exact fun h => nomatch h
  | @cons m m2 t t2 hm _ ih =>
    simp only [lookupLocal]
    have := hm.only z hz
    cases hx : m z with
    | none => exact ih
    | some j => rw [hx] at this; exact this

/-- The two resolutions are in step. -/
structure Sync (J : Job) (s s2 : St) : Prop where
  env : s2.r.env = s.r.env
  path : s2.r.modulePath = s.r.modulePath
  ops : s2.r.effectOps = s.r.effectOps
  next : s2.r.nextId = s.r.nextId
  res : s2.resumes = s.resumes
  rep : s2.reported = s.reported
  scopes : List.Forall₂ (MapR J) s.r.scopes s2.r.scopes

theorem Sync.push {J s s2} (h : Sync J s s2) : Sync J s.push s2.push :=
  ⟨h.env, h.path, h.ops, h.next, h.res, h.rep, .cons (.emp J) h.scopes⟩

theorem tail_rel {J : Job} {t t2 : List (Map Nat)} (h : List.Forall₂ (MapR J) t t2) :
    List.Forall₂ (MapR J) (t.drop 1) (t2.drop 1) := by
  cases h with
  | nil => exact .nil
  | cons _ h => exact h

theorem Sync.pop {J s s2} (h : Sync J s s2) : Sync J s.pop s2.pop := by
  refine ⟨h.env, h.path, h.ops, h.next, h.res, h.rep, ?_⟩
  simp only [St.pop, NameEnv.Resolver.popScope]
  exact tail_rel h.scopes

/-- The binder just made is marked for editing exactly if it is the one to rename. -/
def MarkB (J : Job) (tok : Span) (z : Symbol) (n : Nat) : Prop :=
  J.T tok = decide (n = J.i) ∧ (n = J.i → z = J.x)

theorem ins (m : Map Nat) (k z : Symbol) (v : Nat) :
    m.insert k v z = if z = k then some v else m z := rfl

theorem bind_sim {J s s2} (h : Sync J s s2) {z : Symbol} {tok : Span} (hz : z ≠ J.y)
    (hm : MarkB J tok z s.r.nextId) :
    (s2.bind (put J.T J.y tok z)).1 = (s.bind z).1 ∧
      Sync J (s.bind z).2 (s2.bind (put J.T J.y tok z)).2 ∧
      put J.T J.y tok z = renName J.i J.y (some (s.bind z).1) z := by
  have hid : (s.bind z).1 = s.r.nextId := rfl
  refine ⟨h.next, ?_, ?_⟩
  · refine ⟨h.env, h.path, h.ops, by
      simp only [St.bind, NameEnv.Resolver.bindLocal, h.next], h.res, h.rep, ?_⟩
    simp only [St.bind, NameEnv.Resolver.bindLocal]
    have hs := h.scopes
    rw [h.next]
    generalize s.r.scopes = t0, s2.r.scopes = t20 at hs
    cases hs with
    | nil => exact .nil
    | @cons m m2 t t2 hmr ht =>
      refine .cons ?_ ht
      by_cases hn : s.r.nextId = J.i
      · have hzx := hm.2 hn
        subst hzx
        have ht' : J.T tok = true := by rw [hm.1]; simpa using hn
        simp only [put, ht', if_true]
        have hyx : J.y ≠ J.x := fun e => J.ne e.symm
        refine ⟨?_, ?_, ?_, ?_, ?_⟩ <;> simp only [ins]
        · intro w h1 h2; simp only [h1, h2, if_false]; exact hmr.other w h1 h2
        · right; simp [hn]
        · intro _; simp [hn]
        · intro hc; simp [hn] at hc
        · intro w h1; simp only [h1, if_false]; exact hmr.only w h1
      · have ht' : J.T tok = false := by rw [hm.1]; simpa using hn
        simp only [put, ht', if_false, Bool.false_eq_true]
        have hyz : J.y ≠ z := fun e => hz e.symm
        refine ⟨?_, ?_, ?_, ?_, ?_⟩ <;> simp only [ins]
        · intro w h1 h2
          by_cases hw : w = z
          · simp [hw]
          · simp only [hw, if_false]; exact hmr.other w h1 h2
        · simp only [hyz, if_false]; exact hmr.new
        · intro hc
          simp only [hyz, if_false]
          by_cases hx : J.x = z
          · simp only [hx, if_true, Option.some.injEq] at hc; exact absurd hc hn
          · simp only [hx, if_false] at hc; exact hmr.hit hc
        · intro hc
          by_cases hx : J.x = z
          · simp only [hx, if_true]
          · simp only [hx, if_false] at hc ⊢; exact hmr.miss hc
        · intro w h1
          by_cases hw : w = z
          · simp only [hw, if_true, ne_eq, Option.some.injEq]; exact hn
          · simp only [hw, if_false]; exact hmr.only w h1
  · simp only [put, renName, hid, hm.1, decide_eq_true_eq, Option.some.injEq]

/-- Names that are not renamed. -/
theorem resolveName_same {J s s2} (h : Sync J s s2) (n : NameEnv.Name)
    (hn : ∀ z, n = .simple z → lookupLocal s2.r.scopes z = lookupLocal s.r.scopes z) :
    s2.r.resolveName n = s.r.resolveName n := by
  cases n with
  | simple z => simp only [NameEnv.Resolver.resolveName, hn z rfl, h.env, h.path, h.ops]
  | qualified ns z => simp only [NameEnv.Resolver.resolveName, h.env]

theorem name_same {J s s2} (h : Sync J s s2) (o : Occ)
    (hn : ∀ z, o.name = .simple z → lookupLocal s2.r.scopes z = lookupLocal s.r.scopes z)
    (hi : ∀ z, o.name = .simple z → lookupLocal s.r.scopes z ≠ some J.i) :
    (s2.name o).1 = renRef J.i J.y (s.name o).1 ∧ Sync J (s.name o).2 (s2.name o).2 := by
  have hr := resolveName_same h o.name hn
  have hnl : ∀ k, s.r.resolveName o.name = some (.local_ k) → k ≠ J.i := by
    intro k hk e
    subst e
    rcases ho : o.name with z | ⟨ns, z⟩
    · refine hi z ho ?_
      rw [ho] at hk
      simp only [NameEnv.Resolver.resolveName] at hk
      cases hl : lookupLocal s.r.scopes z with
      | some k => rw [hl] at hk; simp only [Option.some.injEq] at hk; cases hk; rfl
      | none =>
        rw [hl] at hk
        simp only at hk
        split at hk
        · cases hk
        · split at hk
          · cases hk
          · cases he : s.r.effectOps z <;> rw [he] at hk <;> cases hk
    · rw [ho] at hk
      simp only [NameEnv.Resolver.resolveName] at hk
      cases hl : s.r.env.lookupQualified ns z <;> rw [hl] at hk <;> cases hk
  simp only [St.name, hr]
  cases hc : s.r.resolveName o.name with
  | none => exact ⟨rfl, ⟨h.env, h.path, h.ops, h.next, h.res, by simp [h.rep], h.scopes⟩⟩
  | some r =>
    cases r with
    | local_ k => simp [renRef, hnl k hc, h]
    | binding b => refine ⟨?_, h⟩; cases b <;> rfl

/-- The word is not the new name; a field is not the old one. -/
def WordOk (J : Job) (w : Word) : Prop := w.name ≠ .simple J.y ∧ w ≠ .short J.x

def WordsOk (J : Job) (ws : List Word) : Prop := ∀ w ∈ ws, WordOk J w

theorem WordsOk.left {J a b} (h : WordsOk J (a ++ b)) : WordsOk J a :=
  fun w hw => h w (List.mem_append_left _ hw)
theorem WordsOk.right {J a b} (h : WordsOk J (a ++ b)) : WordsOk J b :=
  fun w hw => h w (List.mem_append_right _ hw)

/-- The edits are those of the binder and of the variables that refer to it. -/
structure Marks (J : Job) (bs : List Binder) (ms : List Mention) : Prop where
  binders : ∀ b ∈ bs, ∀ z, b.name = some z → MarkB J b.tok z b.id
  vars : ∀ q ∈ ms, q.var = true → (J.T q.span = true ↔ ∃ z, q.ref = .loc J.i z)
  heads : ∀ q ∈ ms, q.var = false → ∀ z, q.ref ≠ .loc J.i z

theorem Marks.left {J a b c d} (h : Marks J (a ++ b) (c ++ d)) : Marks J a c :=
  ⟨fun x hx => h.binders x (List.mem_append_left _ hx), fun x hx => h.vars x (List.mem_append_left _ hx),
    fun x hx => h.heads x (List.mem_append_left _ hx)⟩
theorem Marks.right {J a b c d} (h : Marks J (a ++ b) (c ++ d)) : Marks J b d :=
  ⟨fun x hx => h.binders x (List.mem_append_right _ hx),
    fun x hx => h.vars x (List.mem_append_right _ hx),
    fun x hx => h.heads x (List.mem_append_right _ hx)⟩

theorem Marks.sub {J a b c d} (h : Marks J a b) (h1 : ∀ x ∈ c, x ∈ a) (h2 : ∀ x ∈ d, x ∈ b) :
    Marks J c d :=
  ⟨fun x hx => h.binders x (h1 x hx), fun x hx => h.vars x (h2 x hx), fun x hx => h.heads x (h2 x hx)⟩

theorem headName_sim {J s s2} (h : Sync J s s2) (o : Occ) (hw : WordOk J (.head o.name))
    (hm : ∀ z, (s.name o).1 ≠ .loc J.i z) :
    (s2.name o).1 = renRef J.i J.y (s.name o).1 ∧ Sync J (s.name o).2 (s2.name o).2 := by
  have hi : ∀ z, o.name = .simple z → lookupLocal s.r.scopes z ≠ some J.i := by
    intro z hz hc
    exact hm z (by simp only [St.name, hz, NameEnv.Resolver.resolveName, hc, last])
  refine name_same h o ?_ hi
  intro z hz
  by_cases hx : z = J.x
  · subst hx; exact look_miss h.scopes (hi _ hz)
  · exact look_other h.scopes hx fun e => hw.1 (by simp only [Word.name]; rw [hz, e])

theorem head_sim {J s s2} (h : Sync J s s2) (o : Option Occ) (hw : WordsOk J (wordsHead o))
    {sp : Span} {ms : List Mention} {bs : List Binder}
    (hm : Marks J bs (mentionHead sp (s.head o).1 ++ ms)) :
    (s2.head o).1 = (s.head o).1.map (renRef J.i J.y) ∧ Sync J (s.head o).2 (s2.head o).2 := by
  cases o with
  | none => exact ⟨rfl, h⟩
  | some o =>
    obtain ⟨h1, h2⟩ := headName_sim h o (hw _ (List.mem_singleton.mpr rfl))
      (hm.heads ⟨sp, (s.name o).1, false⟩
        (List.mem_append_left _ (List.mem_singleton.mpr rfl)) rfl)
    exact ⟨by simp only [St.head, h1, Option.map_some], h2⟩

theorem ability_sim {J s s2} (h : Sync J s s2) (o : Occ) (hw : WordOk J (.head o.name))
    {sp : Span} {ms : List Mention} {bs : List Binder}
    (hm : Marks J bs ([⟨sp, (s.abilityName o).1, false⟩] ++ ms)) :
    (s2.abilityName o).1 = renRef J.i J.y (s.abilityName o).1 ∧
      Sync J (s.abilityName o).2 (s2.abilityName o).2 := by
  have hh := hm.heads ⟨sp, (s.abilityName o).1, false⟩
        (List.mem_append_left _ (List.mem_singleton.mpr rfl)) rfl
  unfold St.abilityName at hh ⊢
  split
  · exact ⟨rfl, h⟩
  · rename_i hne
    rw [if_neg hne] at hh
    exact headName_sim h o hw hh

theorem name_loc {s : St} {o : Occ} {k : Nat} {z : Symbol} (h : (s.name o).1 = .loc k z) :
    o.name = .simple z ∧ lookupLocal s.r.scopes z = some k := by
  simp only [St.name] at h
  cases hr : s.r.resolveName o.name with
  | none => rw [hr] at h; cases h
  | some r =>
    rw [hr] at h
    cases r with
    | binding b => cases b <;> cases h
    | local_ j =>
      simp only [Ref.loc.injEq] at h
      obtain ⟨rfl, h2⟩ := h
      rcases ho : o.name with w | ⟨ns, w⟩
      · rw [ho] at h2 hr
        simp only [last] at h2
        subst h2
        refine ⟨rfl, ?_⟩
        simp only [NameEnv.Resolver.resolveName] at hr
        cases hl : lookupLocal s.r.scopes w with
        | some k => rw [hl] at hr; simp only [Option.some.injEq] at hr; cases hr; rfl
        | none =>
          rw [hl] at hr
          simp only at hr
          split at hr
          · cases hr
          · split at hr
            · cases hr
            · cases he : s.r.effectOps w <;> rw [he] at hr <;> cases hr
      · rw [ho] at hr
        simp only [NameEnv.Resolver.resolveName] at hr
        cases hl : s.r.env.lookupQualified ns w <;> rw [hl] at hr <;> cases hr

theorem var_sim {J s s2} (h : Sync J s s2) (o : Occ) (sp : Span) (hw : WordOk J (.var o.name))
    (hm : J.T sp = true ↔ ∃ z, (s.name o).1 = .loc J.i z) :
    (s2.name (if J.T sp then { o with name := .simple J.y } else o)).1 = renRef J.i J.y (s.name o).1 ∧
      Sync J (s.name o).2 (s2.name (if J.T sp then { o with name := .simple J.y } else o)).2 := by
  classical
  by_cases hl : o.name = .simple J.x ∧ lookupLocal s.r.scopes J.x = some J.i
  · have hn : s.name o = (.loc J.i J.x, s) := by
      simp only [St.name, hl.1, NameEnv.Resolver.resolveName, hl.2, last]
    have ht : J.T sp = true := by rw [hm, hn]; exact ⟨_, rfl⟩
    have hn2 : s2.name { o with name := .simple J.y } = (.loc J.i J.y, s2) := by
      simp only [St.name, NameEnv.Resolver.resolveName, look_hit h.scopes hl.2, last]
    rw [if_pos ht, hn2, hn]
    exact ⟨by simp [renRef], h⟩
  · have hi : ∀ z, o.name = .simple z → lookupLocal s.r.scopes z ≠ some J.i := by
      intro z hz hc
      by_cases hx : z = J.x
      · subst hx; exact hl ⟨hz, hc⟩
      · exact look_only h.scopes hx hc
    have hsame : ∀ z, o.name = .simple z → lookupLocal s2.r.scopes z = lookupLocal s.r.scopes z := by
      intro z hz
      by_cases hx : z = J.x
      · subst hx; exact look_miss h.scopes (hi _ hz)
      · exact look_other h.scopes hx fun e => hw.1 (by simp only [Word.name]; rw [hz, e])
    obtain ⟨h1, h2⟩ := name_same h o hsame hi
    have ht : J.T sp = false := by
      rw [← Bool.not_eq_true, hm]
      rintro ⟨z, hz⟩
      have := name_loc hz
      exact hi _ this.1 this.2
    rw [ht]
    exact ⟨h1, h2⟩

theorem params_sim {J} : ∀ (ps : List Param) (s s2 : St), Sync J s s2 → WordsOk J (wordsParams ps) →
    Marks J (bindersParams (bindParams ps s).1) [] →
    (bindParams (editParams J.T J.y ps) s2).1 = renParams J.i J.y (bindParams ps s).1 ∧
      Sync J (bindParams ps s).2 (bindParams (editParams J.T J.y ps) s2).2
  | [], s, s2, h, _, _ => ⟨rfl, h⟩
  | p :: ps, s, s2, h, hw, hm => by
    have hz : p.name ≠ J.y := fun e =>
      (hw (.binder p.name) (by simp [wordsParams])).1 (by simp only [Word.name]; rw [e])
    have hmb : MarkB J p.tok p.name s.r.nextId :=
      hm.binders _ (List.mem_append_left _ (List.mem_singleton.mpr rfl)) _ rfl
    obtain ⟨h1, h2, h3⟩ := bind_sim h hz hmb
    obtain ⟨h4, h5⟩ := params_sim ps _ _ h2 (fun w hw' => hw w (by
      simp only [wordsParams, List.map_cons] at hw' ⊢; exact List.mem_cons_of_mem _ hw'))
      (hm.sub (fun b hb => List.mem_append_right _ hb) (fun _ h => h))
    refine ⟨?_, h5⟩
    simp only [editParams, renParams, List.map_cons, bindParams] at h4 ⊢
    rw [h4, h1, h3]

mutual
theorem pat_sim {J} : ∀ (p : Pat Occ) (s s2 : St), Sync J s s2 → WordsOk J (wordsPat p) →
    Marks J (bindersPat (resolvePat p s).1) (mentionsPat (resolvePat p s).1) →
    (resolvePat (editPat J.T J.y p) s2).1 = renPat J.i J.y (resolvePat p s).1 ∧
      Sync J (resolvePat p s).2 (resolvePat (editPat J.T J.y p) s2).2
  | .leaf, s, s2, h, _, _ => ⟨rfl, h⟩
  | .bind sp x _, s, s2, h, hw, hm => by
    have hz : x ≠ J.y := fun e =>
      (hw (.binder x) (by simp [wordsPat])).1 (by simp only [Word.name]; rw [e])
    obtain ⟨h1, h2, h3⟩ := bind_sim h hz (hm.binders _ (List.mem_singleton.mpr rfl) _ rfl)
    exact ⟨by simp only [editPat, resolvePat, renPat]; rw [h1, h3], h2⟩
  | .con sp hd ps, s, s2, h, hw, hm => by
    obtain ⟨h1, h2⟩ := head_sim h hd hw.left hm
    obtain ⟨h3, h4⟩ := pats_sim ps _ _ h2 hw.right
      (hm.sub (fun _ h => h) (fun _ h => List.mem_append_right _ h))
    exact ⟨by simp only [editPat, resolvePat, renPat]; rw [h1, h3], h4⟩
  | .short sp x, s, s2, h, hw, hm => by
    have hwx := hw (.short x) (by simp [wordsPat])
    have hz : x ≠ J.y := fun e => hwx.1 (by simp only [Word.name]; rw [e])
    have hmb : MarkB J sp x s.r.nextId := hm.binders _ (List.mem_singleton.mpr rfl) _ rfl
    obtain ⟨h1, h2, h3⟩ := bind_sim h hz hmb
    have hne : s.r.nextId ≠ J.i := fun e => hwx.2 (by rw [hmb.2 e])
    have hp : put J.T J.y sp x = x := by
      simp only [put, hmb.1]; simp [hne]
    refine ⟨?_, h2⟩
    simp only [editPat, resolvePat, renPat]
    rw [h1, h3]
    have hr : renName J.i J.y (some (s.bind x).1) x = x := by rw [← h3, hp]
    rw [hr]
  | .field x p, s, s2, h, hw, hm => by
    obtain ⟨h1, h2⟩ := pat_sim p _ _ h hw hm
    exact ⟨by simp only [editPat, resolvePat, renPat]; rw [h1], h2⟩
  | .listRest sp ps none _, s, s2, h, hw, hm => by
    obtain ⟨h1, h2⟩ := pats_sim ps _ _ h hw.left
      (hm.sub (fun _ h => List.mem_append_left _ h) (fun _ h => h))
    exact ⟨by simp only [editPat, resolvePat, renPat, Option.map_none]; rw [h1], h2⟩
  | .listRest sp ps (some (x, tok)) _, s, s2, h, hw, hm => by
    have hm1 : Marks J (bindersPats (resolvePats ps s).1) (mentionsPats (resolvePats ps s).1) := by
      simp only [resolvePat] at hm
      split at hm
      · exact hm.sub (fun _ h => List.mem_append_left _ h) (fun _ h => h)
      · exact hm.sub (fun _ h => List.mem_append_left _ h) (fun _ h => h)
    obtain ⟨h1, h2⟩ := pats_sim ps _ _ h hw.left hm1
    have hz : x ≠ J.y := fun e =>
      (hw (.binder x) (by simp [wordsPat])).1 (by simp only [Word.name]; rw [e])
    by_cases hx : x = "_"
    · subst hx
      simp only [editPat, resolvePat, renPat, Option.map_some, ne_eq, not_true_eq_false, if_true,
        if_false]
      exact ⟨by rw [h1]; simp [renName], h2⟩
    · have hm' := hm
      simp only [resolvePat, ne_eq, hx, not_false_eq_true, if_true] at hm'
      obtain ⟨h3, h4, h5⟩ := bind_sim h2 hz (tok := tok)
        (hm'.binders _ (List.mem_append_right _ (List.mem_singleton.mpr rfl)) _ rfl)
      have hp : put J.T J.y tok x ≠ "_" := by
        unfold put; split
        · exact J.blank
        · exact hx
      simp only [editPat, resolvePat, renPat, Option.map_some, ne_eq, hx, hp, not_false_eq_true,
        if_true, if_false]
      exact ⟨by rw [h1, h3, h5], h4⟩
  | .asP sp p x tok _, s, s2, h, hw, hm => by
    have hz : x ≠ J.y := fun e =>
      (hw (.binder x) (by simp [wordsPat])).1 (by simp only [Word.name]; rw [e])
    obtain ⟨h1, h2⟩ := pat_sim p _ _ h hw.left
      (hm.sub (fun _ h => List.mem_append_left _ h) (fun _ h => h))
    obtain ⟨h3, h4, h5⟩ := bind_sim h2 hz (tok := tok)
      (hm.binders _ (List.mem_append_right _ (List.mem_singleton.mpr rfl)) _ rfl)
    exact ⟨by simp only [editPat, resolvePat, renPat]; rw [h1, h3, h5], h4⟩
theorem pats_sim {J} : ∀ (ps : Pats Occ) (s s2 : St), Sync J s s2 → WordsOk J (wordsPats ps) →
    Marks J (bindersPats (resolvePats ps s).1) (mentionsPats (resolvePats ps s).1) →
    (resolvePats (editPats J.T J.y ps) s2).1 = renPats J.i J.y (resolvePats ps s).1 ∧
      Sync J (resolvePats ps s).2 (resolvePats (editPats J.T J.y ps) s2).2
  | .nil, s, s2, h, _, _ => ⟨rfl, h⟩
  | .cons p ps, s, s2, h, hw, hm => by
    obtain ⟨h1, h2⟩ := pat_sim p _ _ h hw.left hm.left
    obtain ⟨h3, h4⟩ := pats_sim ps _ _ h2 hw.right hm.right
    exact ⟨by simp only [editPats, resolvePats, renPats]; rw [h1, h3], h4⟩
end

theorem Sync.enter {J s s2} (h : Sync J s s2) : Sync J s.enter s2.enter :=
  ⟨h.env, h.path, h.ops, by simp [St.enter, h.next], by simp [St.enter, h.next, h.res], h.rep, h.scopes⟩

theorem Sync.leave {J s s2} (h : Sync J s s2) : Sync J s.leave s2.leave :=
  ⟨h.env, h.path, h.ops, h.next, by simp [St.leave, h.res], h.rep, h.scopes⟩

mutual
theorem expr_sim {J} : ∀ (e : Expr Occ) (s s2 : St), Sync J s s2 → WordsOk J (wordsExpr e) →
    Marks J (bindersExpr (resolveExpr e s).1) (mentionsExpr (resolveExpr e s).1) →
    (resolveExpr (editExpr J.T J.y e) s2).1 = renExpr J.i J.y (resolveExpr e s).1 ∧
      Sync J (resolveExpr e s).2 (resolveExpr (editExpr J.T J.y e) s2).2
  | .var sp o, s, s2, h, hw, hm => by
    obtain ⟨h1, h2⟩ := var_sim h o sp (hw _ (List.mem_singleton.mpr rfl))
      (hm.vars _ (List.mem_singleton.mpr rfl) rfl)
    exact ⟨by simp only [editExpr, resolveExpr, renExpr]; rw [h1], h2⟩
  | .leaf, s, s2, h, _, _ => ⟨rfl, h⟩
  | .node sp hd kids, s, s2, h, hw, hm => by
    obtain ⟨h1, h2⟩ := head_sim h hd hw.left hm
    obtain ⟨h3, h4⟩ := exprs_sim kids _ _ h2 hw.right
      (hm.sub (fun _ h => h) (fun _ h => List.mem_append_right _ h))
    exact ⟨by simp only [editExpr, resolveExpr, renExpr]; rw [h1, h3], h4⟩
  | .block ss v, s, s2, h, hw, hm => by
    obtain ⟨h1, h2⟩ := stmts_sim ss _ _ h.push hw.left hm.left
    obtain ⟨h3, h4⟩ := expr_sim v _ _ h2 hw.right hm.right
    exact ⟨by simp only [editExpr, resolveExpr, renExpr]; rw [h1, h3], h4.pop⟩
  | .cases e arms, s, s2, h, hw, hm => by
    obtain ⟨h1, h2⟩ := expr_sim e _ _ h hw.left hm.left
    obtain ⟨h3, h4⟩ := arms_sim arms _ _ h2 hw.right hm.right
    exact ⟨by simp only [editExpr, resolveExpr, renExpr]; rw [h1, h3], h4⟩
  | .lam ps b, s, s2, h, hw, hm => by
    obtain ⟨h1, h2⟩ := params_sim ps _ _ h.push hw.left
      (hm.sub (fun _ h => List.mem_append_left _ h) (fun _ h => nomatch h))
    obtain ⟨h3, h4⟩ := expr_sim b _ _ h2 hw.right
      (hm.sub (fun _ h => List.mem_append_right _ h) (fun _ h => h))
    exact ⟨by simp only [editExpr, resolveExpr, renExpr]; rw [h1, h3], h4.pop⟩
  | .resume e id, s, s2, h, hw, hm => by
    obtain ⟨h1, h2⟩ := expr_sim e _ _ h hw hm
    exact ⟨by simp only [editExpr, resolveExpr, renExpr]; rw [h1, h2.res], h2⟩
theorem exprs_sim {J} : ∀ (es : Exprs Occ) (s s2 : St), Sync J s s2 → WordsOk J (wordsExprs es) →
    Marks J (bindersExprs (resolveExprs es s).1) (mentionsExprs (resolveExprs es s).1) →
    (resolveExprs (editExprs J.T J.y es) s2).1 = renExprs J.i J.y (resolveExprs es s).1 ∧
      Sync J (resolveExprs es s).2 (resolveExprs (editExprs J.T J.y es) s2).2
  | .nil, s, s2, h, _, _ => ⟨rfl, h⟩
  | .cons e es, s, s2, h, hw, hm => by
    obtain ⟨h1, h2⟩ := expr_sim e _ _ h hw.left hm.left
    obtain ⟨h3, h4⟩ := exprs_sim es _ _ h2 hw.right hm.right
    exact ⟨by simp only [editExprs, resolveExprs, renExprs]; rw [h1, h3], h4⟩
theorem stmts_sim {J} : ∀ (ss : Stmts Occ) (s s2 : St), Sync J s s2 → WordsOk J (wordsStmts ss) →
    Marks J (bindersStmts (resolveStmts ss s).1) (mentionsStmts (resolveStmts ss s).1) →
    (resolveStmts (editStmts J.T J.y ss) s2).1 = renStmts J.i J.y (resolveStmts ss s).1 ∧
      Sync J (resolveStmts ss s).2 (resolveStmts (editStmts J.T J.y ss) s2).2
  | .nil, s, s2, h, _, _ => ⟨rfl, h⟩
  | .bind p v ss, s, s2, h, hw, hm => by
    obtain ⟨h1, h2⟩ := expr_sim v _ _ h hw.right.left hm.right.left
    obtain ⟨h3, h4⟩ := pat_sim p _ _ h2 hw.left hm.left
    obtain ⟨h5, h6⟩ := stmts_sim ss _ _ h4 hw.right.right hm.right.right
    exact ⟨by simp only [editStmts, resolveStmts, renStmts]; rw [h1, h3, h5], h6⟩
  | .expr e ss, s, s2, h, hw, hm => by
    obtain ⟨h1, h2⟩ := expr_sim e _ _ h hw.left hm.left
    obtain ⟨h3, h4⟩ := stmts_sim ss _ _ h2 hw.right hm.right
    exact ⟨by simp only [editStmts, resolveStmts, renStmts]; rw [h1, h3], h4⟩
theorem arms_sim {J} : ∀ (as : Arms Occ) (s s2 : St), Sync J s s2 → WordsOk J (wordsArms as) →
    Marks J (bindersArms (resolveArms as s).1) (mentionsArms (resolveArms as s).1) →
    (resolveArms (editArms J.T J.y as) s2).1 = renArms J.i J.y (resolveArms as s).1 ∧
      Sync J (resolveArms as s).2 (resolveArms (editArms J.T J.y as) s2).2
  | .nil, s, s2, h, _, _ => ⟨rfl, h⟩
  | .cons sp .plain ps g b rest, s, s2, h, hw, hm => by
    have hw := hw.right
    have hm := hm.right
    obtain ⟨h1, h2⟩ := pats_sim ps _ _ h.push hw.left hm.left
    obtain ⟨h3, h4⟩ := exprs_sim g _ _ h2 hw.right.left hm.right.left
    obtain ⟨h5, h6⟩ := expr_sim b _ _ h4 hw.right.right.left hm.right.right.left
    obtain ⟨h7, h8⟩ := arms_sim rest _ _ h6.pop hw.right.right.right hm.right.right.right
    exact ⟨by simp only [editArms, resolveArms, renArms, renKind]; rw [h1, h3, h5, h7], h8⟩
  | .cons sp (.fn a) ps g b rest, s, s2, h, hw, hm => by
    obtain ⟨k1, k2⟩ := ability_sim h.push a (hw _ (List.mem_append_left _ (List.mem_singleton.mpr rfl))) hm
    have hw := hw.right
    have hm := hm.right
    obtain ⟨h1, h2⟩ := pats_sim ps _ _ k2 hw.left hm.left
    obtain ⟨h3, h4⟩ := exprs_sim g _ _ h2 hw.right.left hm.right.left
    obtain ⟨h5, h6⟩ := expr_sim b _ _ h4 hw.right.right.left hm.right.right.left
    obtain ⟨h7, h8⟩ := arms_sim rest _ _ h6.pop hw.right.right.right hm.right.right.right
    exact ⟨by simp only [editArms, resolveArms, renArms, renKind]; rw [k1, h1, h3, h5, h7], h8⟩
  | .cons sp (.op a o) ps g b rest, s, s2, h, hw, hm => by
    obtain ⟨k1, k2⟩ := ability_sim h.push a (hw _ (List.mem_append_left _ (List.mem_singleton.mpr rfl))) hm
    have hw := hw.right
    have hm := hm.right
    obtain ⟨h1, h2⟩ := pats_sim ps _ _ k2 hw.left hm.left
    obtain ⟨h3, h4⟩ := exprs_sim g _ _ h2.enter hw.right.left hm.right.left
    obtain ⟨h5, h6⟩ := expr_sim b _ _ h4 hw.right.right.left hm.right.right.left
    obtain ⟨h7, h8⟩ := arms_sim rest _ _ h6.leave.pop hw.right.right.right hm.right.right.right
    refine ⟨?_, h8⟩
    have e : (resolveArms (editArms J.T J.y (.cons sp (.op a o) ps g b rest)) s2).1 =
        .cons sp (.op (s2.push.abilityName a).1
            (some (resolvePats (editPats J.T J.y ps) (s2.push.abilityName a).2).2.r.nextId))
          (resolvePats (editPats J.T J.y ps) (s2.push.abilityName a).2).1
          (resolveExprs (editExprs J.T J.y g)
            (resolvePats (editPats J.T J.y ps) (s2.push.abilityName a).2).2.enter).1
          (resolveExpr (editExpr J.T J.y b) (resolveExprs (editExprs J.T J.y g)
            (resolvePats (editPats J.T J.y ps) (s2.push.abilityName a).2).2.enter).2).1
          (resolveArms (editArms J.T J.y rest) (resolveExpr (editExpr J.T J.y b)
            (resolveExprs (editExprs J.T J.y g)
              (resolvePats (editPats J.T J.y ps) (s2.push.abilityName a).2).2.enter).2).2.leave.pop).1 :=
      rfl
    rw [e, k1, h1, h3, h5, h7, h2.next]
    rfl
end

theorem effectOps_env {J s s2} (h : Sync J s s2) (eff : List Symbol) :
    Sync J { s with r := { s.r with effectOps := effectOps s.r.env eff } }
      { s2 with r := { s2.r with effectOps := effectOps s2.r.env eff } } :=
  ⟨h.env, h.path, by simp only [h.env], h.next, h.res, h.rep, h.scopes⟩

theorem noOps {J s s2} (h : Sync J s s2) :
    Sync J { s with r := { s.r with effectOps := .empty } }
      { s2 with r := { s2.r with effectOps := .empty } } :=
  ⟨h.env, h.path, rfl, h.next, h.res, h.rep, h.scopes⟩

mutual
theorem decl_sim {J} : ∀ (d : Decl Occ) (s s2 : St), Sync J s s2 → WordsOk J (wordsDecl d) →
    Marks J (bindersDecl (resolveDecl d s).1) (mentionsDecl (resolveDecl d s).1) →
    (resolveDecl (editDecl J.T J.y d) s2).1 = renDecl J.i J.y (resolveDecl d s).1 ∧
      Sync J (resolveDecl d s).2 (resolveDecl (editDecl J.T J.y d) s2).2
  | .func sp tok x ps eff b, s, s2, h, hw, hm => by
    obtain ⟨h1, h2⟩ := params_sim ps _ _ h.push hw.left
      (hm.sub (fun _ h => List.mem_append_left _ h) (fun _ h => nomatch h))
    obtain ⟨h3, h4⟩ := expr_sim b _ _ (effectOps_env h2 eff) hw.right
      (hm.sub (fun _ h => List.mem_append_right _ h) (fun _ h => h))
    refine ⟨by simp only [editDecl, resolveDecl, renDecl]; rw [h1, h3], ?_⟩
    exact (noOps h4).pop
  | .extern sp tok x ps, s, s2, h, _, _ => ⟨rfl, h⟩
  | .struct_ sp tok x ps, s, s2, h, _, _ => ⟨rfl, h⟩
  | .enum sp tok x ps, s, s2, h, _, _ => ⟨rfl, h⟩
  | .ability sp tok x ps, s, s2, h, _, _ => ⟨rfl, h⟩
  | .use, s, s2, h, _, _ => ⟨rfl, h⟩
  | .mod x ds, s, s2, h, hw, hm => by
    have h' : Sync J { s with r := { s.r with modulePath := s.r.modulePath ++ [x] } }
        { s2 with r := { s2.r with modulePath := s2.r.modulePath ++ [x] } } :=
      ⟨h.env, by simp only [h.path], h.ops, h.next, h.res, h.rep, h.scopes⟩
    obtain ⟨h1, h2⟩ := decls_sim ds _ _ h' hw hm
    refine ⟨by simp only [editDecl, resolveDecl, renDecl]; rw [h1], ?_⟩
    exact ⟨h2.env, by simp only [editDecl, resolveDecl]; rw [h2.path], h2.ops, h2.next, h2.res, h2.rep,
      h2.scopes⟩
theorem decls_sim {J} : ∀ (ds : Decls Occ) (s s2 : St), Sync J s s2 → WordsOk J (wordsDecls ds) →
    Marks J (bindersDecls (resolveDecls ds s).1) (mentionsDecls (resolveDecls ds s).1) →
    (resolveDecls (editDecls J.T J.y ds) s2).1 = renDecls J.i J.y (resolveDecls ds s).1 ∧
      Sync J (resolveDecls ds s).2 (resolveDecls (editDecls J.T J.y ds) s2).2
  | .nil, s, s2, h, _, _ => ⟨rfl, h⟩
  | .cons d ds, s, s2, h, hw, hm => by
    obtain ⟨h1, h2⟩ := decl_sim d _ _ h hw.left hm.left
    obtain ⟨h3, h4⟩ := decls_sim ds _ _ h2 hw.right hm.right
    exact ⟨by simp only [editDecls, resolveDecls, renDecls]; rw [h1, h3], h4⟩
end

theorem module_sim (J : Job) (env : Env) (m : Decls Occ) (hw : WordsOk J (wordsDecls m))
    (hm : Marks J (bindersDecls (resolveModule env m).1) (mentionsDecls (resolveModule env m).1)) :
    resolveModule env (editDecls J.T J.y m) =
      (renDecls J.i J.y (resolveModule env m).1, (resolveModule env m).2) := by
  have h0 : Sync J (.start env) (.start env) :=
    ⟨rfl, rfl, rfl, rfl, rfl, rfl, .cons (.emp J) .nil⟩
  obtain ⟨h1, h2⟩ := decls_sim m _ _ h0 hw hm
  exact Prod.ext h1 h2.rep

end Verif.Scope
