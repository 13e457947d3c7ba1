import Verif.BackendReady.Spec

/-! # Proofs: what a step of the check establishes -/

namespace Verif.BackendReady

variable {s : Store} {b : Backend}

abbrev carrierName : String := "__tribute_cps_control"

/-- The type is fine, its attributes do not name the carrier, all it mentions is in `v`. -/
def Done (s : Store) (b : Backend) (v : Visited) (x : Place) : Prop :=
  FineAt s b x ∧ (∀ d, s[x.1]? = some d → ¬ Named d.attrs carrierName) ∧ ∀ y, Mentions s x y → y ∈ v

theorem Done.mono {v v' : Visited} {x : Place} (h : Done s b v x) (hs : v ⊆ v') : Done s b v' x :=
  ⟨h.1, h.2.1, fun y hy => hs (h.2.2 y hy)⟩

/-- What a step does: if it succeeds, `N` has been visited, `C` holds, and what was added is done; if
it fails, `F` says why. -/
structure Sound (s : Store) (b : Backend) (f : Step) (N : Place → Prop) (C : Prop) (F : Err → Prop) : Prop where
  ok : ∀ v v', f v = .ok v' → v ⊆ v' ∧ (∀ x, N x → x ∈ v') ∧ C ∧ ∀ x ∈ v', x ∈ v ∨ Done s b v' x
  err : ∀ v e, f v = .error e → F e

theorem Sound.weaken {f : Step} {N N' : Place → Prop} {C C' : Prop} {F F' : Err → Prop}
    (h : Sound s b f N C F) (hN : ∀ x, N' x → N x) (hC : C → C') (hF : ∀ e, F e → F' e) :
    Sound s b f N' C' F' :=
  ⟨fun v v' e => let ⟨a, c, d, g⟩ := h.ok v v' e; ⟨a, fun x hx => c x (hN x hx), hC d, g⟩,
   fun v e he => hF e (h.err v e he)⟩

theorem sound_ok : Sound s b (.ok) (fun _ => False) True (fun _ => False) :=
  ⟨fun v v' h => by
      simp only [Except.ok.injEq] at h
      subst h
      exact ⟨fun _ hx => hx, fun _ hx => hx.elim, trivial, fun x hx => .inl hx⟩,
   fun v e h => by simp at h⟩

theorem sound_reject (bad : Bool) (e : Err) :
    Sound s b (reject bad e) (fun _ => False) (bad = false) (fun e' => bad = true ∧ e' = e) := by
  cases bad with
  | true => exact ⟨fun v v' h => by simp [reject] at h, fun v e' h => by simpa [reject, eq_comm] using h⟩
  | false => exact sound_ok.weaken (f := Except.ok) (fun _ hx => hx) (fun _ => rfl) (fun _ hx => hx.elim)

theorem sound_andThen {f g : Step} {N N' : Place → Prop} {C C' : Prop} {F F' : Err → Prop}
    (h : Sound s b f N C F) (h' : Sound s b g N' C' F') :
    Sound s b (andThen f g) (fun x => N x ∨ N' x) (C ∧ C') (fun e => F e ∨ F' e) := by
  constructor
  · intro v v' e
    unfold andThen at e
    split at e
    · rename_i v1 h1
      obtain ⟨a1, n1, c1, d1⟩ := h.ok _ _ h1
      obtain ⟨a2, n2, c2, d2⟩ := h'.ok _ _ e
      refine ⟨fun x hx => a2 (a1 hx), fun x hx => hx.elim (fun k => a2 (n1 x k)) (n2 x), ⟨c1, c2⟩, ?_⟩
      intro x hx
      rcases d2 x hx with k | k
      · exact (d1 x k).imp_right fun q => q.mono a2
      · exact .inr k
    · simp at e
  · intro v e he
    unfold andThen at he
    split at he
    · exact .inr (h'.err _ _ he)
    · rename_i e1 h1
      simp only [Except.error.injEq] at he
      subst he
      exact .inl (h.err _ _ h1)

theorem sound_each {α : Type} {f : α → Step} {N : α → Place → Prop} {C : α → Prop} {F : α → Err → Prop} :
    ∀ {l : List α}, (∀ a ∈ l, Sound s b (f a) (N a) (C a) (F a)) →
      Sound s b (each f l) (fun x => ∃ a ∈ l, N a x) (∀ a ∈ l, C a) (fun e => ∃ a ∈ l, F a e)
  | [], _ => by
    have := (sound_ok (s := s) (b := b)).weaken (N' := fun x => ∃ a ∈ ([] : List α), N a x)
      (C' := ∀ a ∈ ([] : List α), C a) (F' := fun e => ∃ a ∈ ([] : List α), F a e) (by simp) (by simp) (by simp)
    exact ⟨fun v v' h => this.ok v v' (by simpa [each] using h), fun v e h => by simp [each] at h⟩
  | a :: l, h => by
    have h1 := h a (by simp)
    have h2 := sound_each (l := l) (fun a' ha' => h a' (by simp [ha']))
    have h3 := sound_andThen h1 h2
    have he : ∀ v, each f (a :: l) v = andThen (f a) (each f l) v := fun v => by
      simp only [each, andThen]
    refine Sound.weaken (f := each f (a :: l)) (C := C a ∧ ∀ a ∈ l, C a)
      ⟨fun v v' e => h3.ok v v' (by rw [← he]; exact e), fun v e k => h3.err v e (by rw [← he]; exact k)⟩ ?_ ?_ ?_
    · rintro x ⟨a', ha', hx⟩
      rcases List.mem_cons.mp ha' with rfl | k
      · exact .inl hx
      · exact .inr ⟨a', k, hx⟩
    · rintro ⟨c1, c2⟩ a' ha'
      rcases List.mem_cons.mp ha' with rfl | k
      · exact c1
      · exact c2 a' k
    · rintro e (k | ⟨a', ha', k⟩)
      · exact ⟨a, by simp, k⟩
      · exact ⟨a', by simp [ha'], k⟩

theorem sound_symbol (n : String) : Sound s b (verifySymbol n) (fun _ => False) (n ≠ carrierName)
    (fun e => e = .carrier ∧ n = carrierName) :=
  (sound_reject _ _).weaken (fun _ h => h) (by simp) (fun e h => ⟨h.2, by simpa using h.1⟩)

/-! ## Attributes -/

theorem holds_list {l : List Attr} {x : Attr} (hx : ∀ l', x ≠ .list l') :
    Holds (.list l) x ↔ ∃ a ∈ l, Holds a x := by
  constructor
  · intro h
    cases h with
    | self => exact absurd rfl (hx l)
    | item ha h => exact ⟨_, ha, h⟩
  · rintro ⟨a, ha, h⟩
    exact .item ha h

mutual
theorem sound_attribute {vt : TyRef → Step} {G : TyRef → Err → Prop} : ∀ {a : Attr},
    (∀ t, Holds a (.type t) → Sound s b (vt t) (· = (t, .metadata)) True (G t)) →
    Sound s b (verifyAttribute vt a) (fun x => ∃ t, Holds a (.type t) ∧ x = (t, .metadata))
      (¬ Holds a (.sym carrierName))
      (fun e => (e = .carrier ∧ Holds a (.sym carrierName)) ∨ ∃ t, Holds a (.type t) ∧ G t e)
  | .other, _ => sound_ok.weaken (fun x ⟨t, h, _⟩ => by cases h) (fun _ h => by cases h) (fun _ h => h.elim)
  | .bool _, _ => sound_ok.weaken (fun x ⟨t, h, _⟩ => by cases h) (fun _ h => by cases h) (fun _ h => h.elim)
  | .int _, _ => sound_ok.weaken (fun x ⟨t, h, _⟩ => by cases h) (fun _ h => by cases h) (fun _ h => h.elim)
  | .type t, h => by
    simp only [verifyAttribute]
    refine (h t (.self _)).weaken (fun x ⟨t', k, e⟩ => ?_) (fun _ k => by cases k) (fun e k => .inr ⟨t, .self _, k⟩)
    cases k
    exact e
  | .sym n, _ => by
    simp only [verifyAttribute]
    refine (sound_symbol n).weaken (fun x ⟨t', k, e⟩ => by cases k) (fun h k => ?_) (fun e ⟨k, k'⟩ => .inl ⟨k, ?_⟩)
    · cases k
      exact h rfl
    · subst k'
      exact .self _
  | .list l, h => by
    simp only [verifyAttribute]
    have := sound_attributes (l := l) (fun a ha t ht => h t (.item ha ht))
    refine this.weaken ?_ ?_ ?_
    · rintro x ⟨t, ht, e⟩
      obtain ⟨a, ha, k⟩ := (holds_list (by simp)).mp ht
      exact ⟨a, ha, t, k, e⟩
    · rintro h k
      obtain ⟨a, ha, k⟩ := (holds_list (by simp)).mp k
      exact h a ha k
    · rintro e ⟨a, ha, k | ⟨t, ht, k⟩⟩
      · exact .inl ⟨k.1, .item ha k.2⟩
      · exact .inr ⟨t, .item ha ht, k⟩
theorem sound_attributes {vt : TyRef → Step} {G : TyRef → Err → Prop} : ∀ {l : List Attr},
    (∀ a ∈ l, ∀ t, Holds a (.type t) → Sound s b (vt t) (· = (t, .metadata)) True (G t)) →
    Sound s b (verifyAttributes vt l) (fun x => ∃ a ∈ l, ∃ t, Holds a (.type t) ∧ x = (t, .metadata))
      (∀ a ∈ l, ¬ Holds a (.sym carrierName))
      (fun e => ∃ a ∈ l, (e = .carrier ∧ Holds a (.sym carrierName)) ∨ ∃ t, Holds a (.type t) ∧ G t e)
  | [], _ => by
    simp only [verifyAttributes]
    exact sound_ok.weaken (by simp) (by simp) (by simp)
  | a :: l, h => by
    simp only [verifyAttributes]
    have h1 := sound_attribute (a := a) (h a (by simp))
    have h2 := sound_attributes (l := l) (fun a' ha' => h a' (by simp [ha']))
    refine (sound_andThen h1 h2).weaken ?_ ?_ ?_
    · rintro x ⟨a', ha', k⟩
      rcases List.mem_cons.mp ha' with rfl | q
      · exact .inl k
      · exact .inr ⟨a', q, k⟩
    · rintro ⟨c1, c2⟩ a' ha'
      rcases List.mem_cons.mp ha' with rfl | q
      · exact c1
      · exact c2 a' q
    · rintro e (k | ⟨a', ha', k⟩)
      · exact ⟨a, by simp, k⟩
      · exact ⟨a', by simp [ha'], k⟩
end

theorem sound_attrs {vt : TyRef → Step} {G : TyRef → Err → Prop} {as : Attrs}
    (h : ∀ k a, (k, a) ∈ as → ∀ t, Holds a (.type t) → Sound s b (vt t) (· = (t, .metadata)) True (G t)) :
    Sound s b (verifyAttrs vt as) (fun x => ∃ k a t, (k, a) ∈ as ∧ Holds a (.type t) ∧ x = (t, .metadata))
      (¬ Named as carrierName)
      (fun e => (e = .carrier ∧ Named as carrierName) ∨ ∃ k a t, (k, a) ∈ as ∧ Holds a (.type t) ∧ G t e) := by
  refine (sound_each fun ka hka => sound_andThen (sound_symbol ka.1)
    (sound_attribute (G := G) (fun t ht => h ka.1 ka.2 hka t ht))).weaken ?_ ?_ ?_
  · rintro x ⟨k, a, t, hka, ht, e⟩
    exact ⟨(k, a), hka, .inr ⟨t, ht, e⟩⟩
  · rintro c n
    cases n with
    | key hk => exact (c _ hk).1 rfl
    | sym hk hs => exact (c _ hk).2 hs
  · rintro e ⟨⟨k, a⟩, hka, ⟨k1, k2⟩ | ⟨k1, k2⟩ | ⟨t, ht, k1⟩⟩
    · simp only at k2
      subst k2
      exact .inl ⟨k1, .key hka⟩
    · exact .inl ⟨k1, .sym hka k2⟩
    · exact .inr ⟨k, a, t, hka, ht, k1⟩

/-! ## Types -/

theorem isFunc_iff {d : TypeData} : isFunc d = true ↔ IsCore d "func" := by simp [isFunc, IsCore]
theorem isNil_iff {d : TypeData} : isNil d = true ↔ IsCore d "nil" := by simp [isNil, IsCore]

theorem variant_iff {a : Attrs} : isVariant a = true ↔ a.lookup "is_variant" = some (.bool true) := by
  unfold isVariant get
  split <;> simp_all

theorem adt_iff {d : TypeData} : adtTypeIs d = true ↔ Declared d := by
  simp only [adtTypeIs, Declared, Bool.and_eq_true, beq_iff_eq, Bool.or_eq_true, variant_iff]
  simp [or_assoc]

theorem ref_iff {d : TypeData} : wasmReferenceType d = true ↔ WasmRef d := by
  simp [wasmReferenceType, WasmRef]

theorem value_iff {d : TypeData} : targetValueType b d = true ↔ ValueType b d := by
  cases b with
  | native =>
    simp only [targetValueType, coreTypeIs, ValueType, Scalar, Small, IsCore, Bool.and_eq_true, beq_iff_eq]
    by_cases hc : d.dialect = "core" <;> simp [hc, or_assoc, or_comm, or_left_comm]
  | wasm =>
    simp only [targetValueType, coreTypeIs, ValueType, Scalar, IsCore, Bool.or_eq_true, adt_iff, ref_iff,
      Bool.and_eq_true, beq_iff_eq]
    by_cases hc : d.dialect = "core" <;> simp [hc, or_assoc, or_comm, or_left_comm]

theorem legal_iff {d : TypeData} {sf : Surface} : typeIsLegal b sf d = true ↔ Allowed b d sf := by
  cases sf with
  | value => simp only [typeIsLegal, Allowed, value_iff]
  | result =>
    simp only [typeIsLegal, Allowed, Bool.or_eq_true, value_iff, isNil_iff]
    refine ⟨fun h => h.elim (fun k => ?_) id, .inr⟩
    cases b <;> exact .inl (.inl k)
  | signature => simp only [typeIsLegal, Allowed, isFunc_iff]
  | metadata =>
    simp only [typeIsLegal, Allowed, targetMetadataType, coreTypeIs, Scalar, Small, IsCore, Bool.or_eq_true,
      adt_iff, ref_iff, Bool.and_eq_true, beq_iff_eq]
    by_cases hc : d.dialect = "core" <;> simp [hc, or_assoc, or_comm, or_left_comm]

/-- What can be wrong with a type. -/
def Bad (s : Store) (b : Backend) (y : Place) (e : Err) : Prop :=
  ∃ d, s[y.1]? = some d ∧ ((e = .illegalType y.1 y.2 ∧ ¬ Allowed b d y.2) ∨
    (e = .noResult y.1 ∧ IsCore d "func" ∧ d.params = []) ∨ (e = .carrier ∧ Named d.attrs carrierName))

def TFault (s : Store) (b : Backend) (x : Place) (e : Err) : Prop := ∃ y, Through s x y ∧ Bad s b y e

theorem TFault.step {x y : Place} {e : Err} (h : Mentions s x y) (k : TFault s b y e) : TFault s b x e :=
  let ⟨z, hz, hb⟩ := k; ⟨z, .step h hz, hb⟩

theorem sound_type (wf : ∀ t sf y, Mentions s (t, sf) y → y.1 < t) : ∀ (n : Nat) (sf : Surface) (t : Nat),
    t < n → t < s.length → Sound s b (verifyType s b n sf t) (· = (t, sf)) True (TFault s b (t, sf))
  | 0, _, _, h, _ => absurd h (Nat.not_lt_zero _)
  | n + 1, sf, t, hn, hl => by
    obtain ⟨d, hd⟩ : ∃ d, s[t]? = some d := ⟨s[t], by simp [hl]⟩
    have ih : ∀ y, Mentions s (t, sf) y →
        Sound s b (verifyType s b n y.2 y.1) (· = y) True (TFault s b (t, sf)) := by
      intro y hy
      have hlt : (y.1 : Nat) < t := wf t sf y hy
      exact (sound_type wf n y.2 y.1 (Nat.lt_of_lt_of_le hlt (Nat.lt_succ_iff.mp hn)) (Nat.lt_trans hlt hl)).weaken
        (fun _ h => h) id (fun e k => k.step hy)
    have hA := sound_attrs (s := s) (b := b) (vt := verifyType s b n .metadata)
      (G := fun _ => TFault s b (t, sf)) (as := d.attrs)
      (fun k a hka u hu => ih (u, .metadata) (.attr hd hka hu))
    have hP : Sound s b (if isFunc d then
          match d.params with
          | [] => reject true (.noResult t)
          | r :: ps => andThen (verifyType s b n .result r) (each (verifyType s b n .value) ps)
         else each (verifyType s b n .metadata) d.params)
        (fun x => (IsCore d "func" ∧ ∃ r ps, d.params = r :: ps ∧ (x = (r, .result) ∨ ∃ p ∈ ps, x = (p, .value))) ∨
          (¬ IsCore d "func" ∧ ∃ p ∈ d.params, x = (p, .metadata)))
        (IsCore d "func" → d.params ≠ []) (TFault s b (t, sf)) := by
      by_cases hf : IsCore d "func"
      · rw [if_pos (isFunc_iff.mpr hf)]
        cases hp : d.params with
        | nil =>
          refine (sound_reject _ _).weaken ?_ (by simp) ?_
          · rintro x (⟨_, r, ps, h, _⟩ | ⟨h, _⟩)
            · simp at h
            · exact h hf
          · rintro e ⟨_, rfl⟩
            exact ⟨_, .refl _, d, hd, .inr (.inl ⟨rfl, hf, hp⟩)⟩
        | cons r ps =>
          refine (sound_andThen (ih (r, .result) (.result hd hf hp))
            (sound_each fun p hps => ih (p, .value) (.param hd hf hp hps))).weaken ?_ (by simp) ?_
          · rintro x (⟨_, r', ps', h, k⟩ | ⟨h, _⟩)
            · simp only [List.cons.injEq] at h
              obtain ⟨rfl, rfl⟩ := h
              exact k
            · exact (h hf).elim
          · rintro e (k | ⟨_, _, k⟩) <;> exact k
      · rw [if_neg (fun h => hf (isFunc_iff.mp h))]
        refine (sound_each fun p hp => ih (p, .metadata) (.inside hd hf hp)).weaken ?_ (fun _ h => (hf h).elim) ?_
        · rintro x (⟨h, _⟩ | ⟨_, p, hp, e⟩)
          · exact (hf h).elim
          · exact ⟨p, hp, e⟩
        · rintro e ⟨_, _, k⟩
          exact k
    have hg := sound_andThen hP (sound_andThen hA
      (sound_reject (s := s) (b := b) (sf == .signature && !isFunc d) (.illegalType t sf)))
    constructor
    · intro v v' e
      simp only [verifyType, hd] at e
      split at e
      · rename_i hin
        simp only [Except.ok.injEq] at e
        subst e
        exact ⟨fun _ h => h, fun x hx => hx ▸ hin, trivial, fun x hx => .inl hx⟩
      · split at e
        · simp at e
        · rename_i hleg
          simp only [Bool.not_eq_true', Bool.not_eq_false] at hleg
          obtain ⟨a1, n1, ⟨c1, c2, _⟩, d1⟩ := hg.ok _ _ e
          refine ⟨fun x hx => a1 (List.mem_cons_of_mem _ hx), fun x hx => a1 (by simp [hx]), trivial, ?_⟩
          intro x hx
          rcases d1 x hx with k | k
          · rcases List.mem_cons.mp k with rfl | k
            · refine .inr ⟨⟨d, hd, legal_iff.mp hleg, c1⟩, ?_, ?_⟩
              · intro d' hd'
                simp only [hd, Option.some.injEq] at hd'
                subst hd'
                exact c2
              · intro y hy
                refine n1 y ?_
                cases hy with
                | result h1 h2 h3 =>
                  rw [hd] at h1; cases h1
                  exact .inl (.inl ⟨h2, _, _, h3, .inl rfl⟩)
                | param h1 h2 h3 h4 =>
                  rw [hd] at h1; cases h1
                  exact .inl (.inl ⟨h2, _, _, h3, .inr ⟨_, h4, rfl⟩⟩)
                | inside h1 h2 h3 =>
                  rw [hd] at h1; cases h1
                  exact .inl (.inr ⟨h2, _, h3, rfl⟩)
                | attr h1 h2 h3 =>
                  rw [hd] at h1; cases h1
                  exact .inr (.inl ⟨_, _, _, h2, h3, rfl⟩)
            · exact .inl k
          · exact .inr k
    · intro v e he
      simp only [verifyType, hd] at he
      split at he
      · simp at he
      · split at he
        · rename_i hleg
          simp only [Bool.not_eq_true'] at hleg
          simp only [Except.error.injEq] at he
          subst he
          exact ⟨_, .refl _, d, hd, .inl ⟨rfl, fun h => by simp [legal_iff.mpr h] at hleg⟩⟩
        · rename_i hleg
          simp only [Bool.not_eq_true', Bool.not_eq_false] at hleg
          rcases hg.err _ _ he with k | (⟨k1, k2⟩ | ⟨_, _, _, _, _, k⟩) | ⟨k, rfl⟩
          · exact k
          · exact ⟨_, .refl _, d, hd, .inr (.inr ⟨k1, k2⟩)⟩
          · exact k
          · simp only [Bool.and_eq_true, beq_iff_eq, Bool.not_eq_true'] at k
            obtain ⟨rfl, k⟩ := k
            simp only [typeIsLegal] at hleg
            simp [hleg] at k

end Verif.BackendReady
