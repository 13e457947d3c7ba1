import Verif.ModEnv.Proofs
/-!
# Nothing else is found
-/
namespace Verif.ModEnv

/-- Each name defined in `e'` is as in `e` or one of those of `D`; each member too, or a module. -/
def Adds (e e' : Env) (D : Path → Symbol → Binding → Prop) : Prop :=
  (∀ x b, e'.defs.lookup x = some b → e.defs.lookup x = some b ∨ D [] x b) ∧
  (∀ n x b, e'.ns.lookup (n, x) = some b →
    e.ns.lookup (n, x) = some b ∨ (n ≠ [] ∧ D n x b) ∨ ∃ p, b = .module p)

theorem Adds.refl (e D) : Adds e e D := ⟨fun _ _ h => .inl h, fun _ _ _ h => .inl h⟩

theorem Adds.trans {e e' e'' D} (h : Adds e e' D) (h' : Adds e' e'' D) : Adds e e'' D := by
  refine ⟨fun x b hx => ?_, fun n x b hx => ?_⟩
  · rcases h'.1 x b hx with k | k
    · exact h.1 x b k
    · exact .inr k
  · rcases h'.2 n x b hx with k | k
    · exact h.2 n x b k
    · exact .inr k

theorem Adds.mono {e e' D D'} (h : Adds e e' D) (hD : ∀ n x b, D n x b → D' n x b) : Adds e e' D' :=
  ⟨fun x b hx => (h.1 x b hx).imp_right (hD _ _ _), fun n x b hx =>
    (h.2 n x b hx).imp_right (Or.imp_left (And.imp_right (hD _ _ _)))⟩

theorem adds_define {e : Env} {x b} {D : Path → Symbol → Binding → Prop} (h : D [] x b) :
    Adds e (e.define x b) D := by
  refine ⟨fun y c hy => ?_, fun n y c hy => .inl hy⟩
  rw [lookup_define] at hy
  by_cases hx : y = x
  · subst hx; simp at hy; subst hy; exact .inr h
  · rw [if_neg hx] at hy; exact .inl hy

theorem adds_member {e : Env} {n x b} {D : Path → Symbol → Binding → Prop} (hn : n ≠ []) (h : D n x b) :
    Adds e (e.member n x b) D := by
  refine ⟨fun y c hy => .inl hy, fun m y c hy => ?_⟩
  rw [lookup_member] at hy
  by_cases hx : m = n ∧ y = x
  · obtain ⟨rfl, rfl⟩ := hx; simp at hy; subst hy; exact .inr (.inl ⟨hn, h⟩)
  · rw [if_neg hx] at hy; exact .inl hy

theorem adds_fields {pre s} {D : Path → Symbol → Binding → Prop} : ∀ fs e,
    (∀ f ∈ fs, D [s] f (.function (pre ++ [s, f]))) → Adds e (fieldsOf pre s fs e) D
  | [], e, _ => .refl _ _
  | f :: fs, e, h => by
    rw [fieldsOf]
    exact (adds_member (by simp) (h f (by simp))).trans (adds_fields fs _ fun g hg => h g (by simp [hg]))

theorem adds_ops {pre s} {D : Path → Symbol → Binding → Prop} : ∀ fs e,
    (∀ f ∈ fs, D [s] f (.abilityOp (pre ++ [s]) f)) → Adds e (opsOf pre s fs e) D
  | [], e, _ => .refl _ _
  | f :: fs, e, h => by
    rw [opsOf]
    exact (adds_member (by simp) (h f (by simp))).trans (adds_ops fs _ fun g hg => h g (by simp [hg]))

theorem adds_variants {pre s} {D : Path → Symbol → Binding → Prop} : ∀ vs e,
    (∀ v k, (v, k) ∈ vs → D [s] v (.constructor (pre ++ [v]) (some v) k) ∧
      D [] v (.constructor (pre ++ [v]) (some v) k)) → Adds e (variantsOf pre s vs e) D
  | [], e, _ => .refl _ _
  | (v, k) :: vs, e, h => by
    rw [variantsOf]
    exact ((adds_member (by simp) (h v k (by simp)).1).trans
      (adds_define (h v k (by simp)).2)).trans
      (adds_variants vs _ fun w j hw => h w j (by simp [hw]))

theorem lookup_map_some {α β γ : Type} [BEq α] [LawfulBEq α] [BEq γ] [LawfulBEq γ] (f : α → γ)
    (hf : ∀ a a', f a = f a' → a = a') (k : γ) (b : β) (l : List (α × β))
    (h : (l.map fun d => (f d.1, d.2)).lookup k = some b) : ∃ a, f a = k ∧ l.lookup a = some b := by
  by_cases hk : ∃ a, f a = k
  · obtain ⟨a, rfl⟩ := hk
    rw [lookup_map f hf] at h
    exact ⟨a, rfl, h⟩
  · rw [lookup_none] at h
    · simp at h
    · intro d hd e
      obtain ⟨d', _, rfl⟩ := List.mem_map.mp hd
      exact hk ⟨_, e⟩

theorem spaces_adds {m n x b} : ∀ l e, (spacesOf m l e).ns.lookup (n, x) = some b →
    e.ns.lookup (n, x) = some b ∨ ∃ p, b = .module p
  | [], _, h => .inl h
  | (([], _), _) :: l, e, h => by
    rw [spacesOf] at h
    · exact spaces_adds l e h
    · simp
  | (([k], _), _) :: l, e, h => by
    rw [spacesOf, lookup_absent] at h
    by_cases hk : n = [m] ∧ x = k
    · rw [if_pos hk] at h
      cases h1 : (spacesOf m l e).ns.lookup (n, x) with
      | some c => rw [h1] at h; exact spaces_adds l e (h1.trans h)
      | none => rw [h1] at h; simp at h; exact .inr ⟨_, h.symm⟩
    · rw [if_neg hk] at h; exact spaces_adds l e h
  | ((_ :: _ :: _, _), _) :: l, e, h => by
    rw [spacesOf] at h
    · exact spaces_adds l e h
    · simp

theorem transfer_adds {m} {inner e : Env} {D D' : Path → Symbol → Binding → Prop} (h : Adds .empty inner D)
    (hD : ∀ n x b, D n x b → D' (m :: n) x b) : Adds e (transfer m inner e) D' := by
  refine ⟨fun x b hx => .inl (by rwa [transfer_defs] at hx), fun n x b hx => ?_⟩
  unfold transfer at hx
  simp only [ns_import] at hx
  rcases spaces_adds _ _ hx with hx | hx
  · rw [lookup_append, lookup_append] at hx
    cases h1 : (inner.ns.map fun d => ((m :: d.1.1, d.1.2), d.2)).lookup (n, x) with
    | some c =>
      rw [h1] at hx
      simp at hx; subst hx
      obtain ⟨⟨n', x'⟩, hk, h2⟩ := lookup_map_some (fun p : Path × Symbol => (m :: p.1, p.2)) (by
        rintro ⟨a, b⟩ ⟨c, d⟩ h; simpa using h) _ _ _ h1
      cases hk
      rcases h.2 _ _ _ h2 with h3 | ⟨_, h3⟩ | h3
      · simp [Env.empty] at h3
      · exact .inr (.inl ⟨by simp, hD _ _ _ h3⟩)
      · exact .inr (.inr h3)
    | none =>
      rw [h1, Option.none_or] at hx
      cases h2 : (inner.defs.map fun d => (([m], d.1), d.2)).lookup (n, x) with
      | some c =>
        rw [h2] at hx
        simp at hx; subst hx
        obtain ⟨x', hk, h3⟩ := lookup_map_some (fun y : Symbol => (([m] : Path), y))
          (by intro a b h; simpa using h) _ _ _ h2
        cases hk
        rcases h.1 _ _ h3 with h4 | h4
        · simp [Env.empty] at h4
        · exact .inr (.inl ⟨by simp, hD _ _ _ h4⟩)
      | none => rw [h2] at hx; exact .inl hx
  · exact .inr (.inr hx)

theorem decl1_cons {pre d ds n x b} (h : Decl1 pre d n x b) (hm : d ∈ Items.toList ds) :
    Declared pre ds n x b := by
  cases h with
  | func => exact .func hm
  | struct_ => exact .struct_ hm
  | field hf => exact .field hm hf
  | enum => exact .enum hm
  | variant hv => exact .variant hm hv
  | bareVariant hv => exact .bareVariant hm hv
  | ability => exact .ability hm
  | op ho => exact .op hm ho
  | mod hb => exact .mod hm hb

mutual
theorem item_adds (pre : Path) (d : Item) (e : Env) : Adds e (collect pre d e) (Decl1 pre d) := by
  match d with
  | .func x => rw [collect]; exact adds_define .func
  | .struct_ x fs =>
    rw [collect]
    refine Adds.trans (e' := (e.define x (.typeDef (pre ++ [x]))).define x
      (.constructor (pre ++ [x]) none fs.length)) ?_ (adds_fields fs _ fun f hf => .field hf)
    refine ⟨fun y c hy => ?_, fun n y c hy => .inl hy⟩
    rw [lookup_define, lookup_define] at hy
    by_cases hx : y = x
    · subst hx; simp at hy; subst hy; exact .inr .struct_
    · rw [if_neg hx, if_neg hx] at hy; exact .inl hy
  | .enum t vs =>
    rw [collect]
    exact (adds_define .enum).trans (adds_variants vs _ fun v k hv => ⟨.variant hv, .bareVariant hv⟩)
  | .ability a os =>
    rw [collect]; exact (adds_define .ability).trans (adds_ops os _ fun o ho => .op ho)
  | .use p r => rw [collect]; split <;> exact ⟨fun _ _ h => .inl h, fun _ _ _ h => .inl h⟩
  | .mod m body =>
    rw [collect]
    exact transfer_adds (items_adds (pre ++ [m]) body .empty) fun _ _ _ h => .mod h
theorem items_adds (pre : Path) (ds : Items) (e : Env) : Adds e (collectAll pre ds e) (Declared pre ds) := by
  match ds with
  | .nil => exact .refl _ _
  | .cons d ds' =>
    rw [collectAll]
    refine Adds.trans ((item_adds pre d e).mono fun _ _ _ h => decl1_cons h (by simp [Items.toList]))
      ((items_adds pre ds' _).mono fun _ _ _ h => ?_)
    obtain ⟨d', hd', h1⟩ := declared_one h
    exact decl1_cons h1 (by simp [Items.toList, hd'])
end

theorem builtins_adds {e : Env} {n x b} (h : (builtins e).ns.lookup (n, x) = some b) :
    e.ns.lookup (n, x) = some b ∨ (n, x, b) = (["std", "io"], "Io", .ability ["std", "io", "Io"]) ∨
      (n, x, b) = (["std", "collections"], "List", .typeDef ["std", "collections", "List"]) := by
  unfold builtins at h
  rw [lookup_member] at h
  by_cases h1 : n = ["std", "io"] ∧ x = "Io"
  · rw [if_pos h1] at h
    obtain ⟨rfl, rfl⟩ := h1
    simp at h; subst h; exact .inr (.inl rfl)
  · rw [if_neg h1, lookup_absent] at h
    have hi : (e.importIfAbsent "List" (.typeDef ["std", "collections", "List"])).ns = e.ns := by
      unfold Env.importIfAbsent; split <;> rfl
    rw [hi] at h
    by_cases h2 : n = ["std", "collections"] ∧ x = "List"
    · rw [if_pos h2] at h
      cases h3 : e.ns.lookup (n, x) with
      | some c => rw [h3] at h; exact .inl h
      | none =>
        rw [h3] at h; simp at h; subst h
        obtain ⟨rfl, rfl⟩ := h2
        exact .inr (.inr rfl)
    · rw [if_neg h2] at h; exact .inl h

end Verif.ModEnv
