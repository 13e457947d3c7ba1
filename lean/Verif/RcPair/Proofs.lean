import Verif.RcPair.Spec
import Mathlib.Data.List.Nodup

namespace Verif.RcPair

/-! ## The search -/

theorem barrier_false {o : Op} {p r : Nat} (hb : barrier o p r = false)
    (hr : ∀ s, o = .release s → s ≠ p ∧ s ≠ r) : OnlyDereferences p o ∧ OnlyDereferences r o := by
  simp only [barrier, Bool.or_eq_false_iff] at hb
  obtain ⟨h1, h2⟩ := hb
  cases o with
  | retain d s =>
    simp only [operands, escapes, nonEscaping, Bool.not_false, Bool.and_true, Bool.or_false, Bool.or_eq_false_iff,
      beq_eq_false_iff_ne] at h2
    exact ⟨.retain h2.1, .retain h2.2⟩
  | release s => exact ⟨.release (hr s rfl).1, .release (hr s rfl).2⟩
  | load d a off => exact ⟨.load, .load⟩
  | store v a off =>
    simp [operands, escapes, nonEscaping] at h2
    exact ⟨.store h2.1, .store h2.2⟩
  | op f d args caps b =>
    simp only [hasRegions] at h1
    subst h1
    simp only [operands] at h2
    have : ∀ (i : Nat) (l : List Nat), escapes (.op f d args caps false) p r i l = false → p ∉ l ∧ r ∉ l := by
      intro i l
      induction l generalizing i with
      | nil => simp
      | cons v l ih =>
        intro h
        simp only [escapes, nonEscaping, Bool.not_false, Bool.and_true, Bool.or_eq_false_iff, beq_eq_false_iff_ne] at h
        have := ih _ h.2
        simp only [List.mem_cons, not_or]
        exact ⟨⟨fun e => h.1.1 e.symm, this.1⟩, ⟨fun e => h.1.2 e.symm, this.2⟩⟩
    exact ⟨.op (this _ _ h2).1, .op (this _ _ h2).2⟩

theorem barrier_true {o : Op} {p r : Nat} (hb : barrier o p r = true) :
    ¬ (OnlyDereferences p o ∧ OnlyDereferences r o) := by
  rintro ⟨hp, hr⟩
  cases o with
  | retain d s =>
    cases hp; cases hr
    simp_all [barrier, hasRegions, operands, escapes]
  | release s =>
    cases hp; cases hr
    simp_all [barrier, hasRegions, operands, escapes]
  | load d a off => simp_all [barrier, hasRegions, operands, escapes, nonEscaping]
  | store v a off =>
    cases hp; cases hr
    simp_all [barrier, hasRegions, operands, escapes, nonEscaping]
  | op f d args caps b =>
    cases hp with
    | op hp =>
    cases hr with
    | op hr =>
    simp only [barrier, hasRegions, Bool.false_or, operands] at hb
    have : ∀ (i : Nat) (l : List Nat), p ∉ l → r ∉ l → escapes (.op f d args caps false) p r i l = false := by
      intro i l
      induction l generalizing i with
      | nil => simp [escapes]
      | cons v l ih =>
        intro h1 h2
        simp only [List.mem_cons, not_or] at h1 h2
        have e1 : (v == p) = false := by simpa using fun e => h1.1 e.symm
        have e2 : (v == r) = false := by simpa using fun e => h2.1 e.symm
        simp [escapes, e1, e2, ih _ h1.2 h2.2]
    rw [this _ _ hp hr] at hb
    exact Bool.noConfusion hb

theorem dropRelease_spec {p r : Nat} {l l' : List Op} (h : dropRelease p r l = some l') :
    ∃ mid q post, l = mid ++ .release q :: post ∧ (q = p ∨ q = r) ∧ l' = mid ++ post ∧
      ∀ o ∈ mid, OnlyDereferences p o ∧ OnlyDereferences r o := by
  induction l generalizing l' with
  | nil => simp [dropRelease] at h
  | cons o l ih =>
    unfold dropRelease at h
    by_cases hm : isReleaseOf p r o = true
    · rw [if_pos hm] at h
      cases o with
      | release s =>
        simp only [isReleaseOf, Bool.or_eq_true, beq_iff_eq] at hm
        cases h
        exact ⟨[], s, _, rfl, hm, rfl, by simp⟩
      | _ => simp [isReleaseOf] at hm
    · rw [if_neg hm] at h
      by_cases hb : barrier o p r = true
      · rw [if_pos hb] at h; cases h
      · rw [if_neg hb] at h
        cases hd : dropRelease p r l with
        | none => rw [hd] at h; cases h
        | some m =>
          rw [hd] at h
          cases h
          obtain ⟨mid, q, post, e1, e2, e3, e4⟩ := ih hd
          have ho : OnlyDereferences p o ∧ OnlyDereferences r o := by
            apply barrier_false (by simpa using hb)
            rintro s rfl
            simpa [isReleaseOf, not_or] using hm
          refine ⟨o :: mid, q, post, by rw [e1]; rfl, e2, by rw [e3]; rfl, ?_⟩
          intro o' ho'
          rcases List.mem_cons.1 ho' with rfl | ho'
          · exact ho
          · exact e4 _ ho'

theorem dropRelease_none {p r : Nat} {l : List Op} (h : dropRelease p r l = none) {mid : List Op} {q : Nat}
    {post : List Op} (e : l = mid ++ .release q :: post) (hq : q = p ∨ q = r)
    (hm : ∀ o ∈ mid, OnlyDereferences p o ∧ OnlyDereferences r o) : False := by
  induction mid generalizing l with
  | nil =>
    subst e
    unfold dropRelease at h
    have : isReleaseOf p r (.release q) = true := by simpa [isReleaseOf] using hq
    simp [this] at h
  | cons o mid ih =>
    subst e
    have ho := hm o (by simp)
    simp only [List.cons_append] at h
    unfold dropRelease at h
    have hb : barrier o p r = false := by
      cases hb : barrier o p r with
      | false => rfl
      | true => exact absurd ho (barrier_true hb)
    have hnm : ¬ isReleaseOf p r o = true := by
      cases o with
      | release s =>
        obtain ⟨h1, h2⟩ := ho
        cases h1; cases h2
        simp_all [isReleaseOf]
      | _ => simp [isReleaseOf]
    rw [if_neg hnm, hb] at h
    simp only [Bool.false_eq_true, if_false, Option.map_eq_none_iff] at h
    exact ih h rfl (fun o ho => hm o (List.mem_cons_of_mem _ ho))

theorem eliminateOne_spec {before ops ops' : List Op} {r p : Nat} (h : eliminateOne before ops = some (ops', r, p)) :
    ∃ pre mid q post, ops = pre ++ .retain r p :: (mid ++ .release q :: post) ∧ (q = p ∨ q = r) ∧
      ops' = (before ++ pre ++ mid ++ post).map (rename r p) ∧
      ∀ o ∈ mid, OnlyDereferences p o ∧ OnlyDereferences r o := by
  induction ops generalizing before with
  | nil => simp [eliminateOne] at h
  | cons o ops ih =>
    have skip : eliminateOne (before ++ [o]) ops = some (ops', r, p) →
        ∃ pre mid q post, o :: ops = pre ++ .retain r p :: (mid ++ .release q :: post) ∧ (q = p ∨ q = r) ∧
          ops' = (before ++ pre ++ mid ++ post).map (rename r p) ∧
          ∀ o ∈ mid, OnlyDereferences p o ∧ OnlyDereferences r o := by
      intro h
      obtain ⟨pre, mid, q, post, e1, e2, e3, e4⟩ := ih h
      exact ⟨o :: pre, mid, q, post, by rw [e1]; rfl, e2, by rw [e3]; simp, e4⟩
    unfold eliminateOne at h
    cases o with
    | retain r' p' =>
      simp only at h
      cases hd : dropRelease p' r' ops with
      | none => rw [hd] at h; exact skip h
      | some l' =>
        rw [hd] at h
        simp only [Option.some.injEq, Prod.mk.injEq] at h
        obtain ⟨h1, rfl, rfl⟩ := h
        obtain ⟨mid, q, post, e1, e2, e3, e4⟩ := dropRelease_spec hd
        exact ⟨[], mid, q, post, by rw [e1]; rfl, e2, by rw [← h1, e3]; simp, e4⟩
    | _ => exact skip h

theorem eliminateOne_none {before ops : List Op} (h : eliminateOne before ops = none) {pre mid post : List Op}
    {r p q : Nat} (e : ops = pre ++ .retain r p :: (mid ++ .release q :: post)) (hq : q = p ∨ q = r)
    (hm : ∀ o ∈ mid, OnlyDereferences p o ∧ OnlyDereferences r o) : False := by
  induction pre generalizing before ops with
  | nil =>
    subst e
    simp only [List.nil_append] at h
    unfold eliminateOne at h
    simp only at h
    cases hd : dropRelease p r (mid ++ .release q :: post) with
    | none => exact dropRelease_none hd rfl hq hm
    | some l' => rw [hd] at h; cases h
  | cons o pre ih =>
    subst e
    simp only [List.cons_append] at h
    unfold eliminateOne at h
    cases o with
    | retain r' p' =>
      simp only at h
      cases hd : dropRelease p' r' (pre ++ .retain r p :: (mid ++ .release q :: post)) with
      | none => rw [hd] at h; exact ih h rfl
      | some l' => rw [hd] at h; cases h
    | _ => exact ih h rfl

theorem eliminateOne_length {ops ops' : List Op} {r p : Nat} (h : eliminateOne [] ops = some (ops', r, p)) :
    ops'.length + 2 = ops.length := by
  obtain ⟨pre, mid, q, post, e1, -, e3, -⟩ := eliminateOne_spec h
  rw [e1, e3]
  simp
  omega

theorem eliminateN_done (n : Nat) (ops : List Op) (h : ops.length ≤ n) :
    eliminateOne [] (eliminateN n ops).1 = none := by
  induction n generalizing ops with
  | zero =>
    have : ops = [] := List.eq_nil_of_length_eq_zero (by omega)
    subst this; rfl
  | succ n ih =>
    unfold eliminateN
    cases he : eliminateOne [] ops with
    | none => simpa using he
    | some x =>
      obtain ⟨ops', r, p⟩ := x
      have := eliminateOne_length he
      exact ih ops' (by omega)

/-! ## The heap -/

theorem lookup_modify (h : Heap) (a : Nat) (f : Obj → Obj) (b : Nat) :
    (modify h a f).lookup b = (h.lookup b).map (fun o => if b = a then f o else o) := by
  induction h with
  | nil => rfl
  | cons e h ih =>
    obtain ⟨c, o⟩ := e
    simp only [modify, List.map_cons] at ih ⊢
    by_cases hc : c = a
    · subst hc
      simp only [if_true, List.lookup_cons]
      by_cases hbc : b = c
      · subst hbc; simp
      · have : (b == c) = false := by simpa using hbc
        simp only [this]
        exact ih
    · simp only [if_neg hc, List.lookup_cons]
      by_cases hbc : b = c
      · subst hbc; simp [hc]
      · have : (b == c) = false := by simpa using hbc
        simp only [this]
        exact ih

theorem lookup_del (h : Heap) (a b : Nat) : (del h a).lookup b = if b = a then none else h.lookup b := by
  induction h with
  | nil => simp [del]
  | cons e h ih =>
    obtain ⟨c, o⟩ := e
    simp only [del, List.filter_cons] at ih ⊢
    by_cases hc : c = a
    · subst hc
      simp only [bne_self_eq_false, Bool.false_eq_true, if_false, ih, List.lookup_cons]
      by_cases hbc : b = c
      · simp [hbc]
      · have : (b == c) = false := by simpa using hbc
        simp [hbc, this]
    · have h2 : (c != a) = true := by simpa using hc
      simp only [h2, if_true, List.lookup_cons]
      by_cases hbc : b = c
      · subst hbc; simp [hc]
      · have : (b == c) = false := by simpa using hbc
        simp only [this]
        exact ih

theorem shape_modify_count (h : Heap) (a : Nat) (g : Nat → Nat) :
    shape (modify h a (fun o => { o with count := g o.count })) = shape h := by
  simp only [shape, modify, List.map_map]
  apply List.map_congr_left
  intro e _
  simp only [Function.comp]
  split <;> rfl

theorem modify_comm (h : Heap) {a b : Nat} (f g : Obj → Obj) (hab : a ≠ b) :
    modify (modify h a f) b g = modify (modify h b g) a f := by
  simp only [modify, List.map_map]
  apply List.map_congr_left
  intro e _
  simp only [Function.comp]
  by_cases h1 : e.1 = a
  · simp [h1, hab]
  · by_cases h2 : e.1 = b
    · simp [h2, hab.symm]
    · simp [h1, h2]

theorem modify_modify (h : Heap) (a : Nat) (f g : Obj → Obj) :
    modify (modify h a f) a g = modify h a (fun o => g (f o)) := by
  simp only [modify, List.map_map]
  apply List.map_congr_left
  intro e _
  simp only [Function.comp]
  by_cases h1 : e.1 = a <;> simp [h1]

theorem modify_congr {h : Heap} {a : Nat} {f g : Obj → Obj} (hfg : ∀ e ∈ h, e.1 = a → f e.2 = g e.2) :
    modify h a f = modify h a g := by
  simp only [modify]
  apply List.map_congr_left
  intro e he
  by_cases h1 : e.1 = a
  · simp only [if_pos h1, hfg e he h1]
  · simp only [if_neg h1]

theorem del_modify (h : Heap) {a b : Nat} (f : Obj → Obj) (hab : a ≠ b) :
    del (modify h a f) b = modify (del h b) a f := by
  induction h with
  | nil => rfl
  | cons e h ih =>
    obtain ⟨c, o⟩ := e
    simp only [modify, del, List.map_cons, List.filter_cons] at ih ⊢
    by_cases hc : c = a
    · subst hc
      have : (c != b) = true := by simpa using hab
      simp only [if_true, this, ih, List.map_cons]
    · simp only [if_neg hc]
      by_cases hcb : (c != b) = true
      · simp only [hcb, if_true, List.map_cons, if_neg hc, ih]
      · simp only [hcb, if_false, ih, Bool.false_eq_true]

/-- One reference fewer. -/
def dec (h : Heap) (a : Nat) : Heap := modify h a (fun o => { o with count := o.count - 1 })

theorem shape_dec (h : Heap) (a : Nat) : shape (dec h a) = shape h := shape_modify_count h a (· - 1)

theorem releaseAll_nil (h : Heap) : releaseAll h [] = some h := by
  unfold releaseAll; rfl

theorem releaseAll_cons (h : Heap) (a : Nat) (w : List Nat) : releaseAll h (a :: w) =
    match h.lookup a with
    | none => none
    | some o => if o.count ≤ 1 then releaseAll (del h a) (refs o.fields ++ w) else releaseAll (dec h a) w := by
  conv => lhs; unfold releaseAll
  simp only [dec]
  split
  · rename_i hl; rw [hl]
  · rename_i hl; rw [hl]

/-- An induction principle for `releaseAll`. -/
theorem releaseAll_ind (P : Heap → List Nat → Heap → Prop) (hnil : ∀ h, P h [] h)
    (hfree : ∀ h a w o h', h.lookup a = some o → o.count ≤ 1 → P (del h a) (refs o.fields ++ w) h' → P h (a :: w) h')
    (hdec : ∀ h a w o h', h.lookup a = some o → ¬ o.count ≤ 1 → P (dec h a) w h' → P h (a :: w) h')
    (h : Heap) (w : List Nat) : ∀ h', releaseAll h w = some h' → P h w h' := by
  induction h, w using releaseAll.induct with
  | case1 h =>
    intro h' e
    rw [releaseAll_nil] at e
    cases e
    exact hnil h
  | case2 h a w hl =>
    intro h' e
    rw [releaseAll_cons, hl] at e
    cases e
  | case3 h a w o hl hc ih =>
    intro h' e
    rw [releaseAll_cons, hl] at e
    simp only [if_pos hc] at e
    exact hfree h a w o h' hl hc (ih h' e)
  | case4 h a w o hl hc ih =>
    intro h' e
    rw [releaseAll_cons, hl] at e
    simp only [if_neg hc] at e
    exact hdec h a w o h' hl hc (ih h' e)

theorem countOf_del (h : Heap) (a b : Nat) : countOf (del h a) b = if b = a then 0 else countOf h b := by
  simp only [countOf, lookup_del]
  by_cases hb : b = a <;> simp [hb]

theorem countOf_modify (h : Heap) (a : Nat) (f : Obj → Obj) (b : Nat) :
    countOf (modify h a f) b = match h.lookup b with
      | some o => if b = a then (f o).count else o.count
      | none => 0 := by
  simp only [countOf, lookup_modify]
  cases h.lookup b with
  | none => rfl
  | some o => by_cases hb : b = a <;> simp [hb]

theorem countOf_dec (h : Heap) (a b : Nat) : countOf (dec h a) b = if b = a then countOf h b - 1 else countOf h b := by
  rw [dec, countOf_modify]
  simp only [countOf]
  cases h.lookup b with
  | none => by_cases hb : b = a <;> simp [hb]
  | some o => by_cases hb : b = a <;> simp [hb]

theorem releaseAll_count {h : Heap} {w : List Nat} {h' : Heap} (e : releaseAll h w = some h') (b : Nat) :
    countOf h' b ≤ countOf h b := by
  refine releaseAll_ind (fun h _ h' => countOf h' b ≤ countOf h b) (fun _ => Nat.le_refl _) ?_ ?_ h w h' e
  · intro h a w o h' _ _ ih
    rw [countOf_del] at ih
    split at ih <;> omega
  · intro h a w o h' _ _ ih
    rw [countOf_dec] at ih
    split at ih <;> omega

theorem releaseAll_dec {h : Heap} {w : List Nat} {h' : Heap} (e : releaseAll h w = some h') {a : Nat}
    (h2 : 2 ≤ countOf h' a) : releaseAll (dec h a) w = some (dec h' a) := by
  have key := releaseAll_ind (fun h w h' => countOf h' a ≤ countOf h a ∧
    (2 ≤ countOf h' a → releaseAll (dec h a) w = some (dec h' a))) ?_ ?_ ?_ h w h' e
  · exact key.2 h2
  · intro h
    exact ⟨Nat.le_refl _, fun _ => releaseAll_nil _⟩
  · intro h b w o h' hl hc ih
    rw [countOf_del] at ih
    refine ⟨by split at ih <;> omega, ?_⟩
    intro h2
    have hab : a ≠ b := by
      rintro rfl
      rw [if_pos rfl] at ih
      omega
    rw [releaseAll_cons, dec, lookup_modify, hl]
    simp only [Option.map_some, if_neg hab.symm, if_pos hc]
    rw [del_modify _ _ hab]
    exact ih.2 h2
  · intro h b w o h' hl hc ih
    rw [countOf_dec] at ih
    refine ⟨by split at ih <;> omega, ?_⟩
    intro h2
    by_cases hab : a = b
    · subst hab
      rw [if_pos rfl] at ih
      have ho : countOf h a = o.count := by simp [countOf, hl]
      rw [releaseAll_cons]
      have hl' : (dec h a).lookup a = some { o with count := o.count - 1 } := by
        rw [dec, lookup_modify, hl]; simp
      rw [hl']
      simp only
      rw [if_neg (by omega)]
      exact ih.2 h2
    · rw [releaseAll_cons, dec, lookup_modify, hl]
      have hba : ¬ b = a := fun h => hab h.symm
      simp only [Option.map_some, if_neg hba, if_neg hc]
      have := ih.2 h2
      unfold dec at this ⊢
      rw [modify_comm _ _ _ hab]
      exact this

/-! ### Heaps stay well-formed -/

theorem map_fst_modify (h : Heap) (a : Nat) (f : Obj → Obj) : (modify h a f).map Prod.fst = h.map Prod.fst := by
  simp only [modify, List.map_map]
  apply List.map_congr_left
  intro e _
  simp only [Function.comp]
  split <;> rfl

theorem mem_lookup {h : Heap} (hn : (h.map Prod.fst).Nodup) {e : Nat × Obj} (he : e ∈ h) :
    h.lookup e.1 = some e.2 := by
  induction h with
  | nil => simp at he
  | cons x h ih =>
    obtain ⟨c, o⟩ := x
    simp only [List.map_cons, List.nodup_cons] at hn
    rw [List.lookup_cons]
    rcases List.mem_cons.1 he with rfl | he
    · simp
    · have : e.1 ≠ c := by
        rintro hc
        exact hn.1 (hc ▸ List.mem_map_of_mem he)
      have : (e.1 == c) = false := by simpa using this
      simp only [this]
      exact ih hn.2 he

theorem HeapOk.modify {h : Heap} (hk : HeapOk h) {a : Nat} {f : Obj → Obj}
    (hf : ∀ o, h.lookup a = some o → 1 ≤ (f o).count) : HeapOk (modify h a f) := by
  refine ⟨by rw [map_fst_modify]; exact hk.1, ?_⟩
  intro e he
  simp only [RcPair.modify, List.mem_map] at he
  obtain ⟨e', he', rfl⟩ := he
  by_cases h1 : e'.1 = a
  · rw [if_pos h1]
    exact hf _ (h1 ▸ mem_lookup hk.1 he')
  · rw [if_neg h1]
    exact hk.2 _ he'

theorem HeapOk.del {h : Heap} (hk : HeapOk h) (a : Nat) : HeapOk (del h a) := by
  refine ⟨?_, fun e he => hk.2 e (List.mem_filter.1 he).1⟩
  exact hk.1.sublist (List.Sublist.map _ List.filter_sublist)

theorem releaseAll_ok {h : Heap} {w : List Nat} {h' : Heap} (e : releaseAll h w = some h') (hk : HeapOk h) :
    HeapOk h' := by
  refine releaseAll_ind (fun h _ h' => HeapOk h → HeapOk h') (fun _ h => h) ?_ ?_ h w h' e hk
  · intro h a w o h' _ _ ih hk
    exact ih (hk.del a)
  · intro h a w o h' hl hc ih hk
    apply ih
    apply hk.modify
    intro o' ho'
    rw [hl] at ho'
    cases ho'
    simp only
    omega

theorem lookup_none {h : Heap} {a : Nat} (hl : h.lookup a = none) : a ∉ h.map Prod.fst := by
  induction h with
  | nil => simp
  | cons e h ih =>
    obtain ⟨c, o⟩ := e
    rw [List.lookup_cons] at hl
    by_cases hac : a = c
    · subst hac; simp at hl
    · have : (a == c) = false := by simpa using hac
      rw [this] at hl
      simp only [List.map_cons, List.mem_cons, not_or]
      exact ⟨hac, ih hl⟩

theorem lookup_mem {h : Heap} {a : Nat} {o : Obj} (ho : h.lookup a = some o) : ∃ e ∈ h, e.2 = o := by
  induction h with
  | nil => simp at ho
  | cons x h ih =>
    obtain ⟨c, o'⟩ := x
    rw [List.lookup_cons] at ho
    split at ho
    · cases ho; exact ⟨_, List.mem_cons_self, rfl⟩
    · obtain ⟨e, he, h2⟩ := ih ho
      exact ⟨e, List.mem_cons_of_mem _ he, h2⟩

theorem act_ok {h : Heap} {x : Act} {h' : Heap} (e : act h x = some h') (hk : HeapOk h) : HeapOk h' := by
  cases x with
  | retain a =>
    simp only [act] at e
    split at e
    · cases e
      exact hk.modify (fun o _ => by simp)
    · cases e
  | release a => exact releaseAll_ok e hk
  | touch a =>
    simp only [act] at e
    split at e
    · cases e; exact hk
    · cases e
  | store a off v =>
    simp only [act] at e
    split at e
    · cases e
      apply hk.modify
      intro o ho
      have hm := lookup_mem ho
      obtain ⟨e, he, rfl⟩ := hm
      exact hk.2 e he
    · cases e
  | alloc a fields =>
    simp only [act] at e
    split at e
    · cases e
    · rename_i hn
      cases e
      have hl : h.lookup a = none := by
        cases hl : h.lookup a with
        | none => rfl
        | some o => rw [hl] at hn; exact absurd rfl hn
      refine ⟨?_, ?_⟩
      · simp only [List.map_cons, List.nodup_cons]
        exact ⟨lookup_none hl, hk.1⟩
      · intro e he
        rcases List.mem_cons.1 he with rfl | he
        · simp
        · exact hk.2 e he

theorem acts_ok {xs : List Act} {h h' : Heap} (e : acts h xs = some h') (hk : HeapOk h) : HeapOk h' := by
  induction xs generalizing h with
  | nil => cases e; exact hk
  | cons x xs ih =>
    simp only [acts] at e
    cases hx : act h x with
    | none => rw [hx] at e; cases e
    | some h1 => rw [hx] at e; exact ih e (act_ok hx hk)

theorem step_ok {W : World} {st st' : State} {o : Op} (e : step W st o = some st') (hk : HeapOk st.heap) :
    HeapOk st'.heap := by
  simp only [step] at e
  cases he : effect W st o with
  | none => rw [he] at e; cases e
  | some x =>
    rw [he] at e
    simp only at e
    cases ha : acts st.heap x.1 with
    | none => rw [ha] at e; cases e
    | some h => rw [ha] at e; cases e; exact acts_ok ha hk

theorem run_ok {W : World} {ops : List Op} {st st' : State} (e : run W st ops = some st') (hk : HeapOk st.heap) :
    HeapOk st'.heap := by
  induction ops generalizing st with
  | nil => cases e; exact hk
  | cons o ops ih =>
    simp only [run] at e
    cases hs : step W st o with
    | none => rw [hs] at e; cases e
    | some st1 => rw [hs] at e; exact ih e (step_ok hs hk)

/-! ### One reference fewer -/

theorem isSome_dec (h : Heap) (a b : Nat) : ((dec h a).lookup b).isSome = (h.lookup b).isSome := by
  rw [dec, lookup_modify, Option.isSome_map]

theorem act_dec {h h' : Heap} {x : Act} {a : Nat} (hk : HeapOk h) (e : act h x = some h') (h2 : 2 ≤ countOf h' a) :
    act (dec h a) x = some (dec h' a) := by
  cases x with
  | retain b =>
    simp only [act, isSome_dec] at e ⊢
    split at e
    · rename_i hs
      cases e
      rw [if_pos hs]
      congr 1
      by_cases hab : a = b
      · subst hab
        simp only [dec, modify_modify]
        apply modify_congr
        intro e he _
        have := hk.2 e he
        simp only [Obj.mk.injEq, and_true]
        omega
      · simp only [dec]
        rw [modify_comm _ _ _ hab]
    · cases e
  | release b => exact releaseAll_dec e h2
  | touch b =>
    simp only [act, isSome_dec] at e ⊢
    split at e
    · rename_i hs
      cases e
      rw [if_pos hs]
    · cases e
  | store b off v =>
    simp only [act, isSome_dec] at e ⊢
    split at e
    · rename_i hs
      cases e
      rw [if_pos hs]
      congr 1
      by_cases hab : a = b
      · subst hab
        simp only [dec, modify_modify]
      · simp only [dec]
        rw [modify_comm _ _ _ hab]
    · cases e
  | alloc b fields =>
    simp only [act, isSome_dec] at e ⊢
    split at e
    · cases e
    · rename_i hs
      cases e
      rw [if_neg hs]
      congr 1
      have hab : a ≠ b := by
        rintro rfl
        simp [countOf] at h2
      simp [dec, modify, hab.symm]

theorem acts_dec {xs : List Act} {h h' : Heap} {a : Nat} (hk : HeapOk h) (e : acts h xs = some h')
    (hh : HeldActs 2 a h xs) : acts (dec h a) xs = some (dec h' a) := by
  induction xs generalizing h with
  | nil => cases e; rfl
  | cons x xs ih =>
    simp only [acts] at e ⊢
    cases hx : act h x with
    | none => rw [hx] at e; cases e
    | some h1 =>
      rw [hx] at e
      have := hh h1 hx
      rw [act_dec hk hx this.1]
      exact ih (act_ok hx hk) e this.2

/-! ## Programs with renamed values -/

theorem renVar_self (r p : Nat) : renVar r p p = p := by simp only [renVar]; split <;> rfl

theorem uses_rename (r p : Nat) (o : Op) : uses (rename r p o) = (uses o).map (renVar r p) := by
  cases o <;> simp [rename, uses]

theorem defs_rename (r p : Nat) (o : Op) : defs (rename r p o) = defs o := by
  cases o <;> rfl

/-- Environments that agree up to the new name. -/
def EnvRen (r p : Nat) (env env' : Env) : Prop := ∀ x, env x = env' (renVar r p x)

theorem EnvRen.map {r p : Nat} {env env' : Env} (h : EnvRen r p env env') (l : List Nat) :
    (l.map (renVar r p)).map env' = l.map env := by
  rw [List.map_map]
  apply List.map_congr_left
  intro x _
  exact (h x).symm

theorem EnvRen.set {r p : Nat} {env env' : Env} (h : EnvRen r p env env') {d : Nat} (hr : d ≠ r) (hp : d ≠ p)
    (v : Val) : EnvRen r p (setEnv env d v) (setEnv env' d v) := by
  intro x
  simp only [setEnv]
  by_cases hx : x = d
  · subst hx
    simp [renVar, hr]
  · have : renVar r p x ≠ d := by
      simp only [renVar]
      split
      · exact fun h => hp h.symm
      · exact hx
    rw [if_neg hx, if_neg this]
    exact h x

/-- What the renamed operation does is what the operation does. -/
theorem effect_rename {W : World} {r p : Nat} {st st' : State} {o : Op} (hE : EnvRen r p st.env st'.env)
    (hs : shape st.heap = shape st'.heap) (hl : ∀ a, (st.heap.lookup a).map Obj.fields = (st'.heap.lookup a).map Obj.fields)
    (hr : r ∉ defs o) (hp : p ∉ defs o) {x : List Act × Env} (he : effect W st o = some x) :
    ∃ env', effect W st' (rename r p o) = some (x.1, env') ∧ EnvRen r p x.2 env' := by
  cases o with
  | retain d s =>
    simp only [defs, List.mem_singleton] at hr hp
    simp only [effect, rename] at he ⊢
    rw [← hE s]
    cases hv : st.env s with
    | ref a =>
      rw [hv] at he; cases he
      exact ⟨_, rfl, hE.set (Ne.symm hr) (Ne.symm hp) _⟩
    | int n =>
      rw [hv] at he
      cases n with
      | zero => cases he; exact ⟨_, rfl, hE.set (Ne.symm hr) (Ne.symm hp) _⟩
      | succ n => cases he
  | release s =>
    simp only [effect, rename] at he ⊢
    rw [← hE s]
    cases hv : st.env s with
    | ref a => rw [hv] at he; cases he; exact ⟨_, rfl, hE⟩
    | int n =>
      rw [hv] at he
      cases n with
      | zero => cases he; exact ⟨_, rfl, hE⟩
      | succ n => cases he
  | load d a off =>
    simp only [defs, List.mem_singleton] at hr hp
    simp only [effect, rename] at he ⊢
    rw [← hE a]
    cases hv : st.env a with
    | int n => rw [hv] at he; cases he
    | ref y =>
      rw [hv] at he
      simp only at he ⊢
      have hly := hl y
      cases h1 : st.heap.lookup y with
      | none => rw [h1] at he; cases he
      | some ob =>
        rw [h1] at he hly
        cases h2 : st'.heap.lookup y with
        | none => rw [h2] at hly; cases hly
        | some ob' =>
          rw [h2] at hly
          simp only [Option.map_some, Option.some.injEq] at hly
          cases he
          simp only [← hly]
          exact ⟨_, rfl, hE.set (Ne.symm hr) (Ne.symm hp) _⟩
  | store v a off =>
    simp only [effect, rename] at he ⊢
    rw [← hE a, ← hE v]
    cases hv : st.env a with
    | int n => rw [hv] at he; cases he
    | ref y => rw [hv] at he; cases he; exact ⟨_, rfl, hE⟩
  | op f d args caps b =>
    simp only [defs, List.mem_singleton] at hr hp
    simp only [effect, rename] at he ⊢
    rw [hE.map, hE.map, ← hs]
    cases he
    exact ⟨_, rfl, hE.set (Ne.symm hr) (Ne.symm hp) _⟩

theorem dec_fields (h : Heap) (a b : Nat) : (h.lookup b).map Obj.fields = ((dec h a).lookup b).map Obj.fields := by
  rw [dec, lookup_modify]
  cases h.lookup b with
  | none => rfl
  | some o => simp only [Option.map_some]; split <;> rfl

theorem run_append {W : World} {st : State} {l1 l2 : List Op} :
    run W st (l1 ++ l2) = (run W st l1).bind (fun st' => run W st' l2) := by
  induction l1 generalizing st with
  | nil => rfl
  | cons o l1 ih =>
    simp only [List.cons_append, run]
    cases step W st o with
    | none => rfl
    | some st1 => exact ih

/-- Between the retain and the release. -/
theorem run_mid {W : World} {r p a : Nat} {mid : List Op} {st st' st1 : State} (hE : EnvRen r p st.env st'.env)
    (hk : HeapOk st.heap) (hh : st'.heap = dec st.heap a) (hr : ∀ o ∈ mid, r ∉ defs o) (hp : ∀ o ∈ mid, p ∉ defs o)
    (hheld : Held W 2 a st mid) (he : run W st mid = some st1) :
    ∃ st1', run W st' (mid.map (rename r p)) = some st1' ∧ EnvRen r p st1.env st1'.env ∧ st1'.heap = dec st1.heap a := by
  induction mid generalizing st st' with
  | nil => cases he; exact ⟨_, rfl, hE, hh⟩
  | cons o mid ih =>
    simp only [run, List.map_cons] at he ⊢
    cases hs : step W st o with
    | none => rw [hs] at he; cases he
    | some st2 =>
      rw [hs] at he
      have hs' := hs
      simp only [step] at hs
      cases hx : effect W st o with
      | none => rw [hx] at hs; cases hs
      | some x =>
        rw [hx] at hs
        simp only at hs
        cases ha : acts st.heap x.1 with
        | none => rw [ha] at hs; cases hs
        | some h1 =>
          rw [ha] at hs
          cases hs
          obtain ⟨env', e1, e2⟩ := effect_rename hE (by rw [hh, shape_dec]) (by rw [hh]; exact dec_fields _ _)
            (hr o (by simp)) (hp o (by simp)) hx
          have e3 := acts_dec hk ha (hheld.1 x hx)
          have : step W st' (rename r p o) = some ⟨env', dec h1 a⟩ := by
            simp only [step, e1, hh, e3, Option.map_some]
          rw [this]
          exact ih e2 (acts_ok ha hk) rfl (fun o ho => hr o (List.mem_cons_of_mem _ ho))
            (fun o ho => hp o (List.mem_cons_of_mem _ ho)) (hheld.2 _ hs') he

/-- With equal heaps. -/
theorem run_same {W : World} {r p : Nat} {l : List Op} {st st' st1 : State} (hE : EnvRen r p st.env st'.env)
    (hh : st'.heap = st.heap) (hr : ∀ o ∈ l, r ∉ defs o) (hp : ∀ o ∈ l, p ∉ defs o)
    (he : run W st l = some st1) :
    ∃ st1', run W st' (l.map (rename r p)) = some st1' ∧ EnvRen r p st1.env st1'.env ∧ st1'.heap = st1.heap := by
  induction l generalizing st st' with
  | nil => cases he; exact ⟨_, rfl, hE, hh⟩
  | cons o mid ih =>
    simp only [run, List.map_cons] at he ⊢
    cases hs : step W st o with
    | none => rw [hs] at he; cases he
    | some st2 =>
      rw [hs] at he
      simp only [step] at hs
      cases hx : effect W st o with
      | none => rw [hx] at hs; cases hs
      | some x =>
        rw [hx] at hs
        simp only at hs
        cases ha : acts st.heap x.1 with
        | none => rw [ha] at hs; cases hs
        | some h1 =>
          rw [ha] at hs
          cases hs
          obtain ⟨env', e1, e2⟩ := effect_rename hE (by rw [hh]) (by rw [hh]; exact fun _ => rfl)
            (hr o (by simp)) (hp o (by simp)) hx
          have : step W st' (rename r p o) = some ⟨env', h1⟩ := by
            simp only [step, e1, hh, ha, Option.map_some]
          rw [this]
          exact ih (st := ⟨x.2, h1⟩) e2 rfl (fun o ho => hr o (List.mem_cons_of_mem _ ho))
            (fun o ho => hp o (List.mem_cons_of_mem _ ho)) he

theorem rename_of_not_used {r p : Nat} {o : Op} (h : r ∉ uses o) : rename r p o = o := by
  cases o with
  | retain d s => simp only [uses, List.mem_singleton] at h; simp [rename, renVar, Ne.symm h]
  | release s => simp only [uses, List.mem_singleton] at h; simp [rename, renVar, Ne.symm h]
  | load d a off => simp only [uses, List.mem_singleton] at h; simp [rename, renVar, Ne.symm h]
  | store v a off =>
    simp only [uses, List.mem_cons, List.not_mem_nil, or_false, not_or] at h
    simp [rename, renVar, Ne.symm h.1, Ne.symm h.2]
  | op f d args caps b =>
    simp only [uses, List.mem_append, not_or] at h
    have : ∀ l : List Nat, r ∉ l → l.map (renVar r p) = l := by
      intro l hl
      conv => rhs; rw [← List.map_id l]
      apply List.map_congr_left
      intro x hx
      have : x ≠ r := fun e => hl (e ▸ hx)
      simp [renVar, this]
    simp [rename, this _ h.1, this _ h.2]

/-- What the order of definitions gives for the pair. -/
theorem SSA.pair {pre l : List Op} {r p : Nat} (h : SSA (pre ++ .retain r p :: l)) :
    r ≠ p ∧ (∀ o ∈ pre, r ∉ uses o ∧ r ∉ defs o) ∧ (∀ o ∈ l, r ∉ defs o) ∧ (∀ o ∈ l, p ∉ defs o) := by
  obtain ⟨h1, h2⟩ := h
  rw [List.pairwise_append] at h1
  obtain ⟨h1a, h1b, h1c⟩ := h1
  rw [List.pairwise_cons] at h1b
  refine ⟨?_, ?_, ?_, ?_⟩
  · have := h2 (.retain r p) (by simp) r (by simp [defs])
    simpa [uses] using this
  · intro o ho
    exact h1c o ho _ List.mem_cons_self r (by simp [defs])
  · intro o ho hr
    exact (h1b.1 o ho r hr).2 (by simp [defs])
  · intro o ho hp
    exact (h1b.1 o ho p hp).1 (by simp [uses])

theorem SSA.sub {l l' : List Op} (h : SSA l) (hs : l'.Sublist l) : SSA l' :=
  ⟨h.1.sublist hs, fun o ho => h.2 o (hs.subset ho)⟩

/-- The block stays well-formed. -/
theorem SSA.removes {pre mid post : List Op} {r p q : Nat}
    (h : SSA (pre ++ .retain r p :: (mid ++ .release q :: post))) : SSA ((pre ++ mid ++ post).map (rename r p)) := by
  obtain ⟨hrp, hpre, hr, hp⟩ := h.pair
  have hsub : SSA (pre ++ (mid ++ post)) := by
    apply h.sub
    apply List.Sublist.append_left
    apply List.Sublist.cons
    apply List.Sublist.append_left
    exact List.Sublist.cons _ (List.Sublist.refl _)
  have hpre' : pre.map (rename r p) = pre := by
    conv => rhs; rw [← List.map_id pre]
    apply List.map_congr_left
    intro o ho
    exact rename_of_not_used (hpre o ho).1
  have hp' : ∀ o ∈ mid ++ post, p ∉ defs o := by
    intro o ho
    apply hp
    rcases List.mem_append.1 ho with ho | ho <;> simp [ho]
  rw [List.append_assoc, List.map_append, hpre']
  have key : ∀ o1 o2, (∀ d ∈ defs o2, d ∉ uses o1 ∧ d ∉ defs o1) → p ∉ defs o2 →
      ∀ d ∈ defs o2, d ∉ uses (rename r p o1) ∧ d ∉ defs o1 := by
    intro o1 o2 h12 hp2 d hd
    refine ⟨?_, (h12 d hd).2⟩
    rw [uses_rename]
    intro hm
    obtain ⟨x, hx, hxd⟩ := List.mem_map.1 hm
    simp only [renVar] at hxd
    split at hxd
    · exact hp2 (hxd ▸ hd)
    · exact (h12 d hd).1 (hxd ▸ hx)
  obtain ⟨s1, s2⟩ := hsub
  rw [List.pairwise_append] at s1
  refine ⟨?_, ?_⟩
  · rw [List.pairwise_append]
    refine ⟨s1.1, ?_, ?_⟩
    · rw [List.pairwise_map]
      refine s1.2.1.imp_of_mem ?_
      intro o1 o2 _ h2 h12
      rw [defs_rename, defs_rename]
      exact key o1 o2 h12 (hp' o2 h2)
    · intro o1 h1 o2 h2
      obtain ⟨o2', h2', rfl⟩ := List.mem_map.1 h2
      rw [defs_rename]
      exact s1.2.2 o1 h1 o2' h2'
  · intro o ho
    rcases List.mem_append.1 ho with ho | ho
    · exact s2 o (List.mem_append_left _ ho)
    · obtain ⟨o', ho', rfl⟩ := List.mem_map.1 ho
      rw [defs_rename]
      have := s2 o' (List.mem_append_right _ ho')
      intro d hd
      rw [uses_rename]
      intro hm
      obtain ⟨x, hx, hxd⟩ := List.mem_map.1 hm
      simp only [renVar] at hxd
      split at hxd
      · exact hp' o' ho' (hxd ▸ hd)
      · exact this d hd (hxd ▸ hx)

theorem env_kept {W : World} {p : Nat} {l : List Op} {s s' : State} (hd : ∀ o ∈ l, p ∉ defs o)
    (h : run W s l = some s') : s'.env p = s.env p := by
  have key : ∀ (l : List Op) (s s' : State), (∀ o ∈ l, p ∉ defs o) → run W s l = some s' → s'.env p = s.env p := by
    intro l
    induction l with
    | nil => intro s s' _ h; cases h; rfl
    | cons o l ih =>
      intro s s' hd h
      simp only [run] at h
      cases hs : step W s o with
      | none => rw [hs] at h; cases h
      | some s1 =>
        rw [hs] at h
        rw [ih s1 s' (fun o ho => hd o (List.mem_cons_of_mem _ ho)) h]
        have hdo := hd o (by simp)
        simp only [step] at hs
        cases hx : effect W s o with
        | none => rw [hx] at hs; cases hs
        | some x =>
          rw [hx] at hs
          simp only at hs
          cases ha : acts s.heap x.1 with
          | none => rw [ha] at hs; cases hs
          | some h1 =>
            rw [ha] at hs
            cases hs
            simp only
            cases o with
            | retain d sv =>
              simp only [defs, List.mem_singleton] at hdo
              simp only [effect] at hx
              split at hx <;> cases hx <;> simp [setEnv, hdo]
            | release sv =>
              simp only [effect] at hx
              split at hx <;> cases hx <;> rfl
            | load d av off =>
              simp only [defs, List.mem_singleton] at hdo
              simp only [effect] at hx
              split at hx
              · split at hx <;> cases hx
                simp [setEnv, hdo]
              · cases hx
            | store v av off =>
              simp only [effect] at hx
              split at hx <;> cases hx
              rfl
            | op f d args caps b =>
              simp only [defs, List.mem_singleton] at hdo
              simp only [effect] at hx
              cases hx
              simp [setEnv, hdo]
  exact key l s s' hd h

theorem held_count {W : World} {a : Nat} {l : List Op} {s s' : State} (hc : 2 ≤ countOf s.heap a) (hh : Held W 2 a s l)
    (h : run W s l = some s') : 2 ≤ countOf s'.heap a := by
  have key : ∀ (l : List Op) (s s' : State), 2 ≤ countOf s.heap a → Held W 2 a s l → run W s l = some s' →
      2 ≤ countOf s'.heap a := by
    intro l
    induction l with
    | nil => intro s s' hc _ h; cases h; exact hc
    | cons o l ih =>
      intro s s' hc hh h
      simp only [run] at h
      cases hs : step W s o with
      | none => rw [hs] at h; cases h
      | some s1 =>
        rw [hs] at h
        refine ih s1 s' ?_ (hh.2 s1 hs) h
        simp only [step] at hs
        cases hx : effect W s o with
        | none => rw [hx] at hs; cases hs
        | some x =>
          rw [hx] at hs
          simp only at hs
          cases ha : acts s.heap x.1 with
          | none => rw [ha] at hs; cases hs
          | some h1 =>
            rw [ha] at hs
            cases hs
            simp only
            have hha := hh.1 x hx
            have : ∀ (xs : List Act) (h h' : Heap), 2 ≤ countOf h a → HeldActs 2 a h xs → acts h xs = some h' →
                2 ≤ countOf h' a := by
              intro xs
              induction xs with
              | nil => intro h h' hc _ e; cases e; exact hc
              | cons y ys ihy =>
                intro h h' hc hh e
                simp only [acts] at e
                cases hy : act h y with
                | none => rw [hy] at e; cases e
                | some h2 =>
                  rw [hy] at e
                  exact ihy h2 h' (hh h2 hy).1 (hh h2 hy).2 e
            exact this _ _ _ hc hha ha
  exact key l s s' hc hh h

/-- Removing an unneeded pair. -/
theorem remove_pair {W : World} {st st' : State} {pre mid post : List Op} {r p q : Nat} (hk : HeapOk st.heap)
    (hssa : SSA (pre ++ .retain r p :: (mid ++ .release q :: post))) (hq : q = p ∨ q = r)
    (hun : PairUnneeded W st pre r p mid)
    (hrun : run W st (pre ++ .retain r p :: (mid ++ .release q :: post)) = some st') :
    ∃ st'', run W st ((pre ++ mid ++ post).map (rename r p)) = some st'' ∧ EnvRen r p st'.env st''.env ∧
      st''.heap = st'.heap := by
  obtain ⟨hrp, hpre, hr, hp⟩ := hssa.pair
  have hpre' : pre.map (rename r p) = pre := by
    conv => rhs; rw [← List.map_id pre]
    apply List.map_congr_left
    intro o ho
    exact rename_of_not_used (hpre o ho).1
  rw [List.append_assoc, List.map_append, hpre', List.map_append]
  rw [run_append] at hrun ⊢
  cases h1 : run W st pre with
  | none => rw [h1] at hrun; cases hrun
  | some st1 =>
  rw [h1] at hrun
  simp only [Option.bind_some] at hrun ⊢
  have hk1 := run_ok h1 hk
  simp only [run] at hrun
  cases h2 : step W st1 (.retain r p) with
  | none => rw [h2] at hrun; cases hrun
  | some st2 =>
  rw [h2] at hrun
  simp only at hrun
  rw [run_append] at hrun ⊢
  cases h3 : run W st2 mid with
  | none => rw [h3] at hrun; cases hrun
  | some st3 =>
  rw [h3] at hrun
  simp only [Option.bind_some, run] at hrun
  have hrm : ∀ o ∈ mid, r ∉ defs o := fun o ho => hr o (by simp [ho])
  have hpm : ∀ o ∈ mid, p ∉ defs o := fun o ho => hp o (by simp [ho])
  have hrq : ∀ o ∈ post, r ∉ defs o := fun o ho => hr o (by simp [ho])
  have hpq : ∀ o ∈ post, p ∉ defs o := fun o ho => hp o (by simp [ho])
  have h2' := h2
  simp only [step, effect] at h2
  have hset : ∀ v, v = st1.env p → EnvRen r p (setEnv st1.env r v) st1.env := by
    rintro v rfl x
    simp only [setEnv, renVar]
    split <;> rfl
  cases hv : st1.env p with
  | ref a =>
    rw [hv] at h2
    simp only [acts, act] at h2
    by_cases hs : (st1.heap.lookup a).isSome = true
    · rw [if_pos hs] at h2
      cases h2
      have hheap : st1.heap = dec (modify st1.heap a (fun o => { o with count := o.count + 1 })) a := by
        rw [dec, modify_modify]
        simp only [Nat.add_sub_cancel]
        simp only [modify]
        conv => lhs; rw [← List.map_id st1.heap]
        apply List.map_congr_left
        intro e _
        split <;> rfl
      have hk2 := step_ok h2' hk1
      obtain ⟨st3', e1, e2, e3⟩ := run_mid (st' := st1) (hset _ hv.symm) hk2 hheap hrm hpm (hun st1 _ h1 h2' a hv) h3
      rw [e1]
      simp only [Option.bind_some]
      -- the value is still the reference
      have hpv : st3'.env p = .ref a := by
        rw [env_kept (by intro o ho; obtain ⟨o', ho', rfl⟩ := List.mem_map.1 ho; rw [defs_rename]; exact hpm o' ho') e1, hv]
      have hqv : st3.env q = .ref a := by
        rw [e2 q]
        rcases hq with rfl | rfl
        · rw [renVar_self]; exact hpv
        · simp only [renVar, if_true]; exact hpv
      cases h4 : step W st3 (.release q) with
      | none => rw [h4] at hrun; cases hrun
      | some st4 =>
        rw [h4] at hrun
        simp only at hrun
        have hcnt : 2 ≤ countOf st3.heap a := by
          have held := hun st1 _ h1 h2' a hv
          refine held_count ?_ held h3
          simp only [countOf_modify]
          cases hl : st1.heap.lookup a with
          | none => rw [hl] at hs; cases hs
          | some ob =>
            have hm : 1 ≤ countOf st1.heap a := by
              obtain ⟨e, he, rfl⟩ := lookup_mem hl
              simp only [countOf, hl]
              exact hk1.2 e he
            simp only [countOf, hl] at hm
            simp only [if_true]
            omega
        have h4' : st4.heap = dec st3.heap a ∧ st4.env = st3.env := by
          simp only [step, effect, hqv, acts, act] at h4
          rw [releaseAll_cons] at h4
          cases hl : st3.heap.lookup a with
          | none => simp [countOf, hl] at hcnt
          | some ob =>
            have : ¬ ob.count ≤ 1 := by simp only [countOf, hl] at hcnt; omega
            rw [hl] at h4
            simp only [if_neg this, releaseAll_nil, Option.map_some, Option.some.injEq] at h4
            subst h4
            exact ⟨rfl, rfl⟩
        refine run_same (st' := st3') ?_ ?_ hrq hpq hrun
        · rw [h4'.2]; exact e2
        · rw [e3, h4'.1]
    · rw [if_neg hs] at h2; cases h2
  | int n =>
    rw [hv] at h2
    cases n with
    | succ n => cases h2
    | zero =>
      simp only [acts, Option.map_some, Option.some.injEq] at h2
      subst h2
      obtain ⟨st3', e1, e2, e3⟩ := run_same (st := ⟨setEnv st1.env r (.int 0), st1.heap⟩) (st' := st1) (hset _ hv.symm) rfl hrm hpm h3
      rw [e1]
      simp only [Option.bind_some]
      cases h4 : step W st3 (.release q) with
      | none => rw [h4] at hrun; cases hrun
      | some st4 =>
        rw [h4] at hrun
        simp only at hrun
        have hpv : st3'.env p = .int 0 := by
          rw [env_kept (by intro o ho; obtain ⟨o', ho', rfl⟩ := List.mem_map.1 ho; rw [defs_rename]; exact hpm o' ho') e1, hv]
        have hqv : st3.env q = .int 0 := by
          rw [e2 q]
          rcases hq with rfl | rfl
          · rw [renVar_self]; exact hpv
          · simp only [renVar, if_true]; exact hpv
        have h4' : st4.heap = st3.heap ∧ st4.env = st3.env := by
          simp only [step, effect, hqv, acts, Option.map_some, Option.some.injEq] at h4
          subst h4
          exact ⟨rfl, rfl⟩
        refine run_same (st' := st3') ?_ ?_ hrq hpq hrun
        · rw [h4'.2]; exact e2
        · rw [e3, h4'.1]

/-! ## The whole pass -/

theorem quiet_acts {xs : List Act} {h : Heap} {a n : Nat} (hx : ∀ b, Act.release b ∉ xs) (hn : n ≤ countOf h a) (h1 : 1 ≤ n) :
    HeldActs n a h xs := by
  induction xs generalizing h with
  | nil => trivial
  | cons x xs ih =>
    intro h' e
    have key : n ≤ countOf h' a := by
      cases x with
      | release b => exact absurd List.mem_cons_self (hx b)
      | retain b =>
        simp only [act] at e
        split at e
        · cases e
          rw [countOf_modify]
          simp only [countOf] at hn
          cases hl : h.lookup a with
          | none => rw [hl] at hn; exact hn
          | some o =>
            rw [hl] at hn
            simp only at hn ⊢
            split <;> omega
        · cases e
      | touch b =>
        simp only [act] at e
        split at e
        · cases e; exact hn
        · cases e
      | store b off v =>
        simp only [act] at e
        split at e
        · cases e
          rw [countOf_modify]
          simp only [countOf] at hn
          cases hl : h.lookup a with
          | none => rw [hl] at hn; exact hn
          | some o =>
            rw [hl] at hn
            simp only at hn ⊢
            split <;> omega
        · cases e
      | alloc b fields =>
        simp only [act] at e
        split at e
        · cases e
        · rename_i hs
          cases e
          simp only [countOf, List.lookup_cons] at hn ⊢
          by_cases hab : a = b
          · subst hab
            cases hl : h.lookup a with
            | none => rw [hl] at hn; simp only at hn; omega
            | some o => rw [hl] at hs; exact absurd rfl hs
          · have : (a == b) = false := by simpa using hab
            rw [this]
            exact hn
    exact ⟨key, ih (fun b hb => hx b (List.mem_cons_of_mem _ hb)) key⟩

theorem acts_held {xs : List Act} {h h' : Heap} {a n : Nat} (hn : n ≤ countOf h a) (hh : HeldActs n a h xs)
    (e : acts h xs = some h') : n ≤ countOf h' a := by
  induction xs generalizing h with
  | nil => cases e; exact hn
  | cons x xs ih =>
    simp only [acts] at e
    cases hx : act h x with
    | none => rw [hx] at e; cases e
    | some h1 => rw [hx] at e; exact ih (hh h1 hx).1 (hh h1 hx).2 e

theorem quiet_held {W : World} {l : List Op} {st : State} {a n : Nat} (hq : ∀ o ∈ l, Quiet W o)
    (hn : n ≤ countOf st.heap a) (h1 : 1 ≤ n) : Held W n a st l := by
  induction l generalizing st with
  | nil => trivial
  | cons o l ih =>
    have hA : ∀ e, effect W st o = some e → HeldActs n a st.heap e.1 := by
      intro e he
      apply quiet_acts _ hn h1
      have hqo := hq o (by simp)
      intro b hb
      cases o with
      | release s => exact hqo
      | retain d s =>
        simp only [effect] at he
        split at he <;> cases he <;> simp at hb
      | load d x off =>
        simp only [effect] at he
        split at he
        · split at he <;> cases he
          simp at hb
        · cases he
      | store v x off =>
        simp only [effect] at he
        split at he <;> cases he
        simp at hb
      | op f d args caps reg =>
        simp only [effect] at he
        cases he
        exact hqo _ _ _ b hb
    refine ⟨hA, ?_⟩
    intro st' hs
    apply ih (fun o ho => hq o (List.mem_cons_of_mem _ ho))
    simp only [step] at hs
    cases hx : effect W st o with
    | none => rw [hx] at hs; cases hs
    | some x =>
      rw [hx] at hs
      simp only at hs
      cases ha : acts st.heap x.1 with
      | none => rw [ha] at hs; cases hs
      | some h2 =>
        rw [ha] at hs
        cases hs
        exact acts_held hn (hA x hx) ha

theorem quiet_unneeded {W : World} {st : State} {pre mid : List Op} {r p : Nat} (hk : HeapOk st.heap)
    (hq : ∀ o ∈ mid, Quiet W o) : PairUnneeded W st pre r p mid := by
  intro st1 st2 h1 h2 a ha
  refine quiet_held hq ?_ (by omega)
  have hk1 := run_ok h1 hk
  simp only [step, effect, ha, acts, act] at h2
  cases hl : st1.heap.lookup a with
  | none => rw [hl] at h2; cases h2
  | some ob =>
    rw [hl] at h2
    simp only [Option.isSome_some, if_true, Option.map_some, Option.some.injEq] at h2
    subst h2
    simp only [countOf_modify, hl, if_true]
    obtain ⟨e, he, rfl⟩ := lookup_mem hl
    have := hk1.2 e he
    show 2 ≤ e.2.count + 1
    omega

theorem eliminateN_ssa {n : Nat} {ops : List Op} (h : SSA ops) : SSA (eliminateN n ops).1 := by
  induction n generalizing ops with
  | zero => exact h
  | succ n ih =>
    unfold eliminateN
    cases he : eliminateOne [] ops with
    | none => exact h
    | some x =>
      obtain ⟨ops', r, p⟩ := x
      obtain ⟨pre, mid, q, post, e1, e2, e3, e4⟩ := eliminateOne_spec he
      apply ih
      rw [e3]
      simp only [List.nil_append]
      rw [e1] at h
      exact h.removes

theorem eliminateN_run {W : World} {st st' : State} {n : Nat} {ops : List Op} (hk : HeapOk st.heap) (hssa : SSA ops)
    (hun : ∀ k ops2 pre r p mid q post, Removes (eliminateN k ops).1 ops2 pre r p mid q post → PairUnneeded W st pre r p mid)
    (hrun : run W st ops = some st') :
    ∃ st'', run W st (eliminateN n ops).1 = some st'' ∧ Agree (renAll (eliminateN n ops).2) st' st'' := by
  induction n generalizing ops st' with
  | zero => exact ⟨st', hrun, rfl, fun _ => rfl⟩
  | succ n ih =>
    have hun0 := hun 0
    have hunS := fun k => hun (k + 1)
    simp only [eliminateN] at hun0 hunS ⊢
    cases he : eliminateOne [] ops with
    | none => exact ⟨st', hrun, rfl, fun _ => rfl⟩
    | some x =>
      obtain ⟨ops', r, p⟩ := x
      simp only [he] at hunS
      obtain ⟨pre, mid, q, post, e1, e2, e3, e4⟩ := eliminateOne_spec he
      simp only [List.nil_append] at e3
      have hu := hun0 ops' pre r p mid q post ⟨e1, e2, e3, e4⟩
      subst e1
      obtain ⟨st1, f1, f2, f3⟩ := remove_pair hk hssa e2 hu hrun
      rw [← e3] at f1
      obtain ⟨st2, g1, g2, g3⟩ := ih (e3 ▸ hssa.removes) hunS f1
      refine ⟨st2, g1, by rw [← f3, g2], ?_⟩
      intro x
      rw [f2 x, g3 (renVar r p x)]
      rfl

/-- A value that occurs nowhere in the block is not brought back. -/
theorem eliminateN_avoids {n : Nat} {ops : List Op} {x : Nat} (h : ∀ o ∈ ops, x ∉ uses o) :
    (∀ o ∈ (eliminateN n ops).1, x ∉ uses o) ∧ ∀ v, v ≠ x → renAll (eliminateN n ops).2 v ≠ x := by
  induction n generalizing ops with
  | zero => exact ⟨h, fun v hv => hv⟩
  | succ n ih =>
    unfold eliminateN
    cases he : eliminateOne [] ops with
    | none => exact ⟨h, fun v hv => hv⟩
    | some y =>
      obtain ⟨ops', r, p⟩ := y
      obtain ⟨pre, mid, q, post, e1, e2, e3, e4⟩ := eliminateOne_spec he
      have hp : p ≠ x := by
        rintro rfl
        exact h (.retain r p) (by rw [e1]; simp) (by simp [uses])
      have h' : ∀ o ∈ ops', x ∉ uses o := by
        intro o ho
        rw [e3] at ho
        obtain ⟨o', ho', rfl⟩ := List.mem_map.1 ho
        have hm : o' ∈ ops := by
          rw [e1]
          simp only [List.nil_append, List.mem_append, List.mem_cons] at ho' ⊢
          rcases ho' with (h | h) | h
          · exact Or.inl h
          · exact Or.inr (Or.inr (Or.inl h))
          · exact Or.inr (Or.inr (Or.inr (Or.inr h)))
        rw [uses_rename]
        intro hx
        obtain ⟨z, hz, hzx⟩ := List.mem_map.1 hx
        simp only [renVar] at hzx
        split at hzx
        · exact hp hzx
        · exact h o' hm (hzx ▸ hz)
      refine ⟨(ih h').1, ?_⟩
      intro v hv
      simp only [renAll]
      apply (ih h').2
      simp only [renVar]
      split
      · exact hp
      · exact hv

theorem eliminateN_gone {n : Nat} {ops : List Op} (hs : SSA ops) {r p : Nat} (h : (r, p) ∈ (eliminateN n ops).2) :
    (∀ o ∈ (eliminateN n ops).1, r ∉ uses o) ∧ ∀ v, renAll (eliminateN n ops).2 v ≠ r := by
  induction n generalizing ops with
  | zero => simp [eliminateN] at h
  | succ n ih =>
    unfold eliminateN at h ⊢
    cases he : eliminateOne [] ops with
    | none => rw [he] at h; simp at h
    | some y =>
      obtain ⟨ops', r', p'⟩ := y
      rw [he] at h
      simp only [List.mem_cons, Prod.mk.injEq] at h
      obtain ⟨pre, mid, q, post, e1, e2, e3, e4⟩ := eliminateOne_spec he
      simp only [List.nil_append] at e3
      rw [e1] at hs
      obtain ⟨hrp, -, -, -⟩ := hs.pair
      rcases h with ⟨rfl, rfl⟩ | h
      · have h' : ∀ o ∈ ops', r ∉ uses o := by
          intro o ho
          rw [e3] at ho
          obtain ⟨o', ho', rfl⟩ := List.mem_map.1 ho
          rw [uses_rename]
          intro hx
          obtain ⟨z, hz, hzx⟩ := List.mem_map.1 hx
          simp only [renVar] at hzx
          split at hzx
          · exact hrp hzx.symm
          · exact absurd hzx (by assumption)
        refine ⟨(eliminateN_avoids h').1, ?_⟩
        intro v
        simp only [renAll]
        apply (eliminateN_avoids h').2
        simp only [renVar]
        split
        · exact hrp.symm
        · assumption
      · have hs' : SSA ops' := e3 ▸ hs.removes
        have := ih hs' h
        exact ⟨this.1, fun v => this.2 _⟩

/-! ## Blocks with one release -/

def isRel : Op → Bool
  | .release _ => true
  | _ => false

/-- At most one release, and the rest gives up no reference. -/
def OneRelease (W : World) (ops : List Op) : Prop := ops.countP isRel ≤ 1 ∧ ∀ o ∈ ops, isRel o = true ∨ Quiet W o

theorem isRel_rename (r p : Nat) (o : Op) : isRel (rename r p o) = isRel o := by cases o <;> rfl

theorem quiet_rename {W : World} (r p : Nat) {o : Op} (h : Quiet W o) : Quiet W (rename r p o) := by
  cases o <;> exact h

theorem OneRelease.removes {W : World} {ops ops2 pre mid post : List Op} {r p q : Nat} (h : OneRelease W ops)
    (hr : Removes ops ops2 pre r p mid q post) : OneRelease W ops2 ∧ ∀ o ∈ mid, Quiet W o := by
  obtain ⟨rfl, -, rfl, -⟩ := hr
  obtain ⟨h1, h2⟩ := h
  simp only [List.countP_append, List.countP_cons, isRel, if_true, Bool.false_eq_true, if_false] at h1
  refine ⟨⟨?_, ?_⟩, ?_⟩
  · rw [List.countP_map]
    have : (isRel ∘ rename r p) = isRel := by funext o; exact isRel_rename r p o
    rw [this]
    simp only [List.countP_append]
    omega
  · intro o ho
    obtain ⟨o', ho', rfl⟩ := List.mem_map.1 ho
    rw [isRel_rename]
    have hm : o' ∈ pre ++ .retain r p :: (mid ++ .release q :: post) := by
      simp only [List.mem_append, List.mem_cons] at ho' ⊢
      rcases ho' with (h | h) | h
      · exact Or.inl h
      · exact Or.inr (Or.inr (Or.inl h))
      · exact Or.inr (Or.inr (Or.inr (Or.inr h)))
    exact (h2 o' hm).imp id (quiet_rename r p)
  · intro o ho
    have hz : mid.countP isRel = 0 := by omega
    rw [List.countP_eq_zero] at hz
    exact (h2 o (by simp [ho])).resolve_left (hz o ho)

theorem OneRelease.unneeded {W : World} {st : State} {ops : List Op} (h : OneRelease W ops) (hk : HeapOk st.heap) :
    ∀ k ops2 pre r p mid q post, Removes (eliminateN k ops).1 ops2 pre r p mid q post →
      PairUnneeded W st pre r p mid := by
  have hall : ∀ k (ops : List Op), OneRelease W ops → OneRelease W (eliminateN k ops).1 := by
    intro k
    induction k with
    | zero => exact fun _ h => h
    | succ k ih =>
      intro ops h
      unfold eliminateN
      cases he : eliminateOne [] ops with
      | none => exact h
      | some x =>
        obtain ⟨ops', r, p⟩ := x
        obtain ⟨pre, mid, q, post, e1, e2, e3, e4⟩ := eliminateOne_spec he
        exact ih _ (h.removes ⟨e1, e2, by simpa using e3, e4⟩).1
  intro k ops2 pre r p mid q post hr
  exact quiet_unneeded hk ((hall k ops h).removes hr).2

end Verif.RcPair
