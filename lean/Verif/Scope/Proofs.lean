import Verif.Scope.Spec
import Mathlib.Data.List.Nodup
/-!
# Resolution follows the rules
-/
namespace Verif.Scope

open NameEnv (Symbol Binding Env Map lookupLocal)

def Agrees (t : List (Map Nat)) (Γ : List (Symbol × Nat)) : Prop :=
  ∀ x, lookupLocal t x = (Γ.find? fun b => b.1 == x).map (·.2)

structure Good (C : Ctx) (ρ : Option Nat) (s : St) (Γ : List (Symbol × Nat)) : Prop where
  env : s.r.env = C.env
  path : s.r.modulePath = C.path
  ops : s.r.effectOps = C.ops
  res : s.resumes.head? = ρ
  ne : s.r.scopes ≠ []
  agrees : Agrees s.r.scopes Γ

/-- The state after a part: ids drawn, scopes, names reported. -/
def St.after (s : St) (n : Nat) (t : List (Map Nat)) (E : List Occ) : St :=
  ⟨{ s.r with nextId := n, scopes := t }, s.resumes, s.reported ++ E⟩

structure Fits (ids : List Nat) (a b : Nat) : Prop where
  le : a ≤ b
  nodup : ids.Nodup
  range : ∀ i ∈ ids, a ≤ i ∧ i < b

theorem Fits.nil (a : Nat) : Fits [] a a := ⟨Nat.le_refl _, List.nodup_nil, by simp⟩

theorem Fits.append {l l' : List Nat} {a b c : Nat} (h : Fits l a b) (h' : Fits l' b c) :
    Fits (l ++ l') a c := by
  refine ⟨Nat.le_trans h.le h'.le, ?_, ?_⟩
  · rw [List.nodup_append]
    refine ⟨h.nodup, h'.nodup, fun x hx y hy e => ?_⟩
    have := h.range x hx
    have := h'.range y hy
    omega
  · intro i hi
    rcases List.mem_append.mp hi with hi | hi
    · have := h.range i hi; have := h'.le; omega
    · have := h'.range i hi; have := h.le; omega

theorem Fits.comm {l l' : List Nat} {a b : Nat} (h : Fits (l ++ l') a b) : Fits (l' ++ l) a b :=
  ⟨h.le, List.nodup_append_comm.mp h.nodup, fun i hi => h.range i (by
    rw [List.mem_append] at hi ⊢; exact hi.symm)⟩

/-- The binder `b` was there before or is one of `bs`. -/
def From (Γ : List (Symbol × Nat)) (bs : List Binder) (b : Symbol × Nat) : Prop :=
  b ∈ Γ ∨ ∃ d ∈ bs, d.name = some b.1 ∧ d.id = b.2

theorem From.mono {Γ bs bs' b} (h : From Γ bs b) (hs : ∀ d ∈ bs, d ∈ bs') : From Γ bs' b := by
  rcases h with h | ⟨d, hd, h⟩
  · exact .inl h
  · exact .inr ⟨d, hs d hd, h⟩

structure Run (Γ : List (Symbol × Nat)) (s : St) (Γ' : List (Symbol × Nat)) (s' : St) (E : List Occ)
    (bs : List Binder) (ls : List LocalRef) : Prop where
  eq : s' = s.after s'.r.nextId s'.r.scopes E
  tail : s'.r.scopes.tail = s.r.scopes.tail
  ne : s'.r.scopes ≠ []
  agrees : Agrees s'.r.scopes Γ'
  fits : Fits (bs.map (·.id)) s.r.nextId s'.r.nextId
  ctx : ∀ b ∈ Γ', From Γ bs b
  refs : ∀ l ∈ ls, From Γ bs (l.name, l.id)

theorem Run.stay {C ρ s Γ} (hg : Good C ρ s Γ) : Run Γ s Γ s [] [] [] :=
  ⟨by simp [St.after], rfl, hg.ne, hg.agrees, .nil _, fun _ h => .inl h, by simp⟩

theorem Run.trans {Γ s Γ' s' E bs ls Γ'' s'' E' bs' ls'} (h : Run Γ s Γ' s' E bs ls)
    (h' : Run Γ' s' Γ'' s'' E' bs' ls') : Run Γ s Γ'' s'' (E ++ E') (bs ++ bs') (ls ++ ls') := by
  have hf : ∀ b, From Γ' bs' b → From Γ (bs ++ bs') b := by
    intro b hb
    rcases hb with hb | ⟨d, hd, hb⟩
    · exact (h.ctx b hb).mono fun d hd => List.mem_append_left _ hd
    · exact .inr ⟨d, List.mem_append_right _ hd, hb⟩
  refine ⟨?_, h'.tail.trans h.tail, h'.ne, h'.agrees, ?_, fun b hb => hf b (h'.ctx b hb), ?_⟩
  · have e := h'.eq
    rw [h.eq] at e
    rw [e]
    simp [St.after]
  · rw [List.map_append]; exact h.fits.append h'.fits
  · intro l hl
    rcases List.mem_append.mp hl with hl | hl
    · exact (h.refs l hl).mono fun d hd => List.mem_append_left _ hd
    · exact hf _ (h'.refs l hl)

theorem Run.reorder {Γ s Γ' s' E bs ls bs' ls'} (h : Run Γ s Γ' s' E bs ls)
    (hb : bs'.Perm bs) (hl : ls'.Perm ls) : Run Γ s Γ' s' E bs' ls' := by
  refine ⟨h.eq, h.tail, h.ne, h.agrees, ?_, ?_, ?_⟩
  · have hp := hb.map (·.id)
    exact ⟨h.fits.le, hp.nodup_iff.mpr h.fits.nodup, fun i hi => h.fits.range i (hp.mem_iff.mp hi)⟩
  · intro b hb'
    exact (h.ctx b hb').mono fun d hd => hb.mem_iff.mpr hd
  · intro l hl'
    exact (h.refs l (hl.mem_iff.mp hl')).mono fun d hd => hb.mem_iff.mpr hd

theorem Run.good {C ρ Γ s Γ' s' E bs ls} (hg : Good C ρ s Γ) (h : Run Γ s Γ' s' E bs ls) :
    Good C ρ s' Γ' := by
  have e := h.eq
  refine ⟨?_, ?_, ?_, ?_, h.ne, h.agrees⟩
  · rw [e]; exact hg.env
  · rw [e]; exact hg.path
  · rw [e]; exact hg.ops
  · rw [e]; exact hg.res

theorem Good.push {C ρ s Γ} (hg : Good C ρ s Γ) : Good C ρ s.push Γ :=
  ⟨hg.env, hg.path, hg.ops, hg.res, by simp [St.push, NameEnv.Resolver.pushScope], fun x => by
    simp only [St.push, NameEnv.Resolver.pushScope, lookupLocal, Map.empty]
    exact hg.agrees x⟩

theorem Run.scope {C ρ Γ s Γ' s' E bs ls} (hg : Good C ρ s Γ) (h : Run Γ s.push Γ' s' E bs ls) :
    Run Γ s Γ s'.pop E bs ls ∧ s'.pop.r.scopes = s.r.scopes := by
  have hsc : s'.pop.r.scopes = s.r.scopes := by
    have : s'.pop.r.scopes = s'.r.scopes.tail := by
      simp [St.pop, NameEnv.Resolver.popScope]
    rw [this, h.tail]
    simp [St.push, NameEnv.Resolver.pushScope]
  refine ⟨⟨?_, by rw [hsc], by rw [hsc]; exact hg.ne, by rw [hsc]; exact hg.agrees, ?_,
    fun _ hb => .inl hb, h.refs⟩, hsc⟩
  · rw [hsc]
    have e := h.eq
    have : s'.pop = ⟨{ s.r with nextId := s'.r.nextId, scopes := s'.r.scopes.drop 1 }, s.resumes,
        s.reported ++ E⟩ := by
      rw [e]
      simp [St.pop, NameEnv.Resolver.popScope, St.after, St.push, NameEnv.Resolver.pushScope]
    rw [this]
    have h2 : s'.r.scopes.drop 1 = s.r.scopes := by
      have := hsc
      simpa [St.pop, NameEnv.Resolver.popScope] using this
    simp [St.after, h2]
  · exact h.fits

theorem find_none {Γ : List (Symbol × Nat)} {x : Symbol}
    (h : (Γ.find? fun b => b.1 == x) = none) : ∀ b ∈ Γ, b.1 ≠ x := by
  intro b hb e
  have := List.find?_eq_none.mp h b hb
  simp [e] at this

theorem report_toRef (o : Occ) (b : Binding) (x : Symbol) : report o (toRef b x) = [] := by
  cases b <;> rfl

theorem localRef_toRef (sp : Span) (b : Binding) (x : Symbol) : localRef sp (toRef b x) = [] := by
  cases b <;> rfl

theorem name_ok {C ρ s Γ} (hg : Good C ρ s Γ) (o : Occ) (sp : Span) :
    Refers C Γ o.name (s.name o).1 ∧
      Run Γ s Γ (s.name o).2 (report o (s.name o).1) [] (localRef sp (s.name o).1) ∧
      (s.name o).2.r.scopes = s.r.scopes := by
  have hrun := Run.stay hg
  rcases ho : o.name with x | ⟨ns, x⟩
  · have hl := hg.agrees x
    cases hf : Γ.find? (fun b => b.1 == x) with
    | some b =>
      rw [hf] at hl
      obtain ⟨y, i⟩ := b
      have hy : y = x := by
        have := List.find?_some hf
        simpa using this
      subst hy
      have hn : s.name o = (.loc i y, s) := by
        simp only [St.name, ho, NameEnv.Resolver.resolveName, hl, Option.map_some, last]
      rw [hn]
      refine ⟨?_, ?_, rfl⟩
      · obtain ⟨h1, Γ₁, Γ₂, he, hb⟩ := List.find?_eq_some_iff_append.mp hf
        exact .local_ he fun b hb' e => by
          have := hb b hb'
          simp [e] at this
      · refine ⟨hrun.eq, hrun.tail, hrun.ne, hrun.agrees, hrun.fits, hrun.ctx, ?_⟩
        intro l hl
        simp only [localRef, List.mem_singleton] at hl
        rw [hl]
        exact .inl (List.mem_of_find?_eq_some hf)
    | none =>
      rw [hf] at hl
      have hglob : C.global x = ((if C.path = [] then none else
          C.env.lookupQualified ("::".intercalate C.path) x).or (C.env.lookup x)).or (C.ops x) := rfl
      have hres : s.r.resolveName (.simple x) = (C.global x).map .binding := by
        simp only [NameEnv.Resolver.resolveName, hl, Option.map_none, hg.env, hg.path, hg.ops, hglob,
          NameEnv.join]
        by_cases hp : C.path = []
        · simp only [hp, List.isEmpty_nil, if_true, Option.none_or]
          cases C.env.lookup x <;> simp
        · have : C.path.isEmpty = false := by simpa using hp
          simp only [this, hp, if_false]
          cases C.env.lookupQualified ("::".intercalate C.path) x <;>
            cases C.env.lookup x <;> simp
      cases hgl : C.global x with
      | some b =>
        rw [hgl] at hres
        have hn : s.name o = (toRef b x, s) := by
          simp only [St.name, ho, hres, Option.map_some, last]
        rw [hn]
        refine ⟨.global (find_none hf) hgl, ?_, rfl⟩
        simp only [report_toRef, localRef_toRef]
        exact hrun
      | none =>
        rw [hgl] at hres
        have hn : s.name o = (.unresolved x, { s with reported := s.reported ++ [o] }) := by
          simp only [St.name, ho, hres, Option.map_none, last]
        rw [hn]
        exact ⟨.missing (find_none hf) hgl,
          ⟨rfl, rfl, hg.ne, hg.agrees, .nil _, fun _ h => .inl h, by simp [localRef]⟩, rfl⟩
  · cases hq : C.env.lookupQualified ns x with
    | some b =>
      have hn : s.name o = (toRef b x, s) := by
        simp only [St.name, ho, NameEnv.Resolver.resolveName, hg.env, hq, Option.map_some, last]
      rw [hn]
      refine ⟨.member hq, ?_, rfl⟩
      simp only [report_toRef, localRef_toRef]
      exact hrun
    | none =>
      have hn : s.name o = (.unresolved x, { s with reported := s.reported ++ [o] }) := by
        simp only [St.name, ho, NameEnv.Resolver.resolveName, hg.env, hq, Option.map_none, last]
      rw [hn]
      exact ⟨.noMember hq,
        ⟨rfl, rfl, hg.ne, hg.agrees, .nil _, fun _ h => .inl h, by simp [localRef]⟩, rfl⟩

theorem head_ok {C ρ s Γ} (hg : Good C ρ s Γ) (o : Option Occ) (sp : Span) :
    ∃ E, HeadR C Γ o (s.head o).1 E ∧
      Run Γ s Γ (s.head o).2 E [] (localHead sp (s.head o).1) ∧
      (s.head o).2.r.scopes = s.r.scopes := by
  cases o with
  | none => exact ⟨[], .none, Run.stay hg, rfl⟩
  | some o =>
    obtain ⟨h1, h2, h3⟩ := name_ok hg o sp
    exact ⟨_, .some h1, h2, h3⟩

theorem ability_ok {C ρ s Γ} (hg : Good C ρ s Γ) (o : Occ) (sp : Span) :
    ∃ E, AbilityR C Γ o (s.abilityName o).1 E ∧
      Run Γ s Γ (s.abilityName o).2 E [] (localRef sp (s.abilityName o).1) ∧
      (s.abilityName o).2.r.scopes = s.r.scopes := by
  by_cases h : o.name = .simple "_"
  · simp only [St.abilityName, h, if_true]
    exact ⟨[], .placeholder h, Run.stay hg, trivial⟩
  · simp only [St.abilityName, h, if_false]
    obtain ⟨h1, h2, h3⟩ := name_ok hg o sp
    exact ⟨_, .name h h1, h2, h3⟩

theorem lookup_bind {s : St} (hs : s.r.scopes ≠ []) (x y : Symbol) :
    lookupLocal (s.bind x).2.r.scopes y = if y = x then some s.r.nextId else
      lookupLocal s.r.scopes y := by
  obtain ⟨t, ts, h⟩ := List.exists_cons_of_ne_nil hs
  simp only [St.bind, NameEnv.Resolver.bindLocal, h, lookupLocal, NameEnv.Map.insert]
  by_cases hy : y = x <;> simp [hy]

theorem bind_ok {C ρ s Γ} (hg : Good C ρ s Γ) (x : Symbol) (sp nd : Span) :
    Run Γ s ((x, (s.bind x).1) :: Γ) (s.bind x).2 [] [⟨some x, sp, nd, (s.bind x).1⟩] [] := by
  have hn : (s.bind x).1 = s.r.nextId := rfl
  obtain ⟨t, ts, h⟩ := List.exists_cons_of_ne_nil hg.ne
  refine ⟨by simp [St.after, St.bind, NameEnv.Resolver.bindLocal], ?_, ?_, ?_, ?_, ?_, by simp⟩
  · simp [St.bind, NameEnv.Resolver.bindLocal, h]
  · simp [St.bind, NameEnv.Resolver.bindLocal, h]
  · intro y
    rw [lookup_bind hg.ne, List.find?_cons]
    by_cases hy : y = x
    · subst hy; simp [hn]
    · have : (x == y) = false := by simpa using fun e => hy e.symm
      simp only [this, if_neg hy]
      exact hg.agrees y
  · simp only [hn, List.map_cons, List.map_nil]
    refine ⟨?_, by simp, ?_⟩
    · simp [St.bind, NameEnv.Resolver.bindLocal]
    · simp [St.bind, NameEnv.Resolver.bindLocal]
  · intro b hb
    rcases List.mem_cons.mp hb with rfl | hb
    · exact .inr ⟨_, List.mem_singleton.mpr rfl, rfl, rfl⟩
    · exact .inl hb

theorem params_ok {C ρ} : ∀ (ps : List Param) (s : St) (Γ : List (Symbol × Nat)), Good C ρ s Γ →
    ∃ Γ', ParamsR Γ ps (bindParams ps s).1 Γ' ∧
      Run Γ s Γ' (bindParams ps s).2 [] (bindersParams (bindParams ps s).1) []
  | [], s, Γ, hg => ⟨Γ, .nil Γ, Run.stay hg⟩
  | p :: ps, s, Γ, hg => by
    have hb := bind_ok hg p.name p.tok p.span
    obtain ⟨Γ', h1, h2⟩ := params_ok ps _ _ (hb.good hg)
    exact ⟨Γ', .cons h1, hb.trans h2⟩

mutual
theorem pat_ok {C ρ} : ∀ (p : Pat Occ) (s : St) (Γ : List (Symbol × Nat)), Good C ρ s Γ →
    ∃ Γ' E, PatR C Γ p (resolvePat p s).1 Γ' E ∧ Run Γ s Γ' (resolvePat p s).2 E
      (bindersPat (resolvePat p s).1) (localsPat (resolvePat p s).1)
  | .leaf, s, Γ, hg => ⟨Γ, [], .leaf, Run.stay hg⟩
  | .bind sp x _, s, Γ, hg => ⟨_, [], .bind, bind_ok hg x sp sp⟩
  | .con sp h ps, s, Γ, hg => by
    obtain ⟨E, h1, h2, _⟩ := head_ok hg h sp
    obtain ⟨Γ', E', h3, h4⟩ := pats_ok ps _ _ (h2.good hg)
    exact ⟨Γ', _, .con h1 h3, h2.trans h4⟩
  | .short sp x, s, Γ, hg => ⟨_, [], .short, bind_ok hg x sp sp⟩
  | .field x p, s, Γ, hg => by
    obtain ⟨Γ', E, h1, h2⟩ := pat_ok p _ _ hg
    exact ⟨Γ', E, .field h1, h2⟩
  | .listRest sp ps none _, s, Γ, hg => by
    obtain ⟨Γ', E, h1, h2⟩ := pats_ok ps _ _ hg
    refine ⟨Γ', E, .listRestNone h1, ?_⟩
    simp only [resolvePat, bindersPat, localsPat, List.append_nil]
    exact h2
  | .listRest sp ps (some (x, tok)) _, s, Γ, hg => by
    obtain ⟨Γ', E, h1, h2⟩ := pats_ok ps _ _ hg
    by_cases hx : x = "_"
    · subst hx
      refine ⟨Γ', E, ?_, ?_⟩
      · simp only [resolvePat]
        exact .listRest_ h1
      · simp only [resolvePat]
        simp only [ne_eq, not_true_eq_false, if_false, bindersPat, localsPat, List.append_nil]
        exact h2
    · have h3 := bind_ok (h2.good hg) x tok sp
      refine ⟨(x, ((resolvePats ps s).2.bind x).1) :: Γ', E, ?_, ?_⟩
      · simp only [resolvePat, ne_eq, hx, not_false_eq_true, if_true]
        exact .listRest h1 hx
      · simp only [resolvePat, ne_eq, hx, not_false_eq_true, if_true, bindersPat, localsPat]
        have := h2.trans h3
        simpa using this
  | .asP sp p x tok _, s, Γ, hg => by
    obtain ⟨Γ', E, h1, h2⟩ := pat_ok p _ _ hg
    have h3 := bind_ok (h2.good hg) x tok sp
    refine ⟨_, E, .asP h1, ?_⟩
    have := h2.trans h3
    simpa [resolvePat, bindersPat, localsPat] using this
theorem pats_ok {C ρ} : ∀ (ps : Pats Occ) (s : St) (Γ : List (Symbol × Nat)), Good C ρ s Γ →
    ∃ Γ' E, PatsR C Γ ps (resolvePats ps s).1 Γ' E ∧ Run Γ s Γ' (resolvePats ps s).2 E
      (bindersPats (resolvePats ps s).1) (localsPats (resolvePats ps s).1)
  | .nil, s, Γ, hg => ⟨Γ, [], .nil, Run.stay hg⟩
  | .cons p ps, s, Γ, hg => by
    obtain ⟨Γ', E, h1, h2⟩ := pat_ok p _ _ hg
    obtain ⟨Γ'', E', h3, h4⟩ := pats_ok ps _ _ (h2.good hg)
    exact ⟨Γ'', _, .cons h1 h3, h2.trans h4⟩
end

/-- The state in the body of an operation arm. -/
def St.enter (s : St) : St :=
  { s with r := { s.r with nextId := s.r.nextId + 1 }, resumes := s.r.nextId :: s.resumes }

def St.leave (s : St) : St := { s with resumes := s.resumes.tail }

theorem Good.enter {C ρ s Γ} (hg : Good C ρ s Γ) : Good C (some s.r.nextId) s.enter Γ :=
  ⟨hg.env, hg.path, hg.ops, rfl, hg.ne, hg.agrees⟩

theorem Run.leave {Γ s Γ' s' E bs ls} (sp : Span) (h : Run Γ s.enter Γ' s' E bs ls) :
    Run Γ s Γ' s'.leave E (⟨none, sp, sp, s.r.nextId⟩ :: bs) ls := by
  have e := h.eq
  refine ⟨?_, h.tail, h.ne, h.agrees, ?_, ?_, ?_⟩
  · rw [e]; simp [St.leave, St.after, St.enter]
  · have hf := h.fits
    have h0 : Fits [s.r.nextId] s.r.nextId (s.r.nextId + 1) :=
      ⟨Nat.le_succ _, by simp, by simp⟩
    exact h0.append hf
  · intro b hb
    exact (h.ctx b hb).mono fun d hd => List.mem_cons_of_mem _ hd
  · intro l hl
    exact (h.refs l hl).mono fun d hd => List.mem_cons_of_mem _ hd

mutual
theorem expr_ok {C} : ∀ (e : Expr Occ) (ρ : Option Nat) (s : St) (Γ : List (Symbol × Nat)),
    Good C ρ s Γ → ∃ E, ExprR C ρ Γ e (resolveExpr e s).1 E ∧ (Run Γ s Γ (resolveExpr e s).2 E
      (bindersExpr (resolveExpr e s).1) (localsExpr (resolveExpr e s).1) ∧
      (resolveExpr e s).2.r.scopes = s.r.scopes)
  | .var sp o, ρ, s, Γ, hg => by
    obtain ⟨h1, h2⟩ := name_ok hg o sp
    exact ⟨_, .var h1, h2⟩
  | .leaf, ρ, s, Γ, hg => ⟨[], .leaf, Run.stay hg, rfl⟩
  | .node sp h kids, ρ, s, Γ, hg => by
    obtain ⟨E, h1, h2, h3⟩ := head_ok hg h sp
    obtain ⟨E', h4, h5, h6⟩ := exprs_ok kids ρ _ _ (h2.good hg)
    exact ⟨_, .node h1 h4, h2.trans h5, h6.trans h3⟩
  | .block ss v, ρ, s, Γ, hg => by
    obtain ⟨Γ', E, h1, h2⟩ := stmts_ok ss ρ _ _ hg.push
    obtain ⟨E', h3, h4, _⟩ := expr_ok v ρ _ _ (h2.good hg.push)
    exact ⟨_, .block h1 h3, (h2.trans h4).scope hg⟩
  | .cases e arms, ρ, s, Γ, hg => by
    obtain ⟨E, h1, h2, h3⟩ := expr_ok e ρ _ _ hg
    obtain ⟨E', h4, h5, h6⟩ := arms_ok arms ρ _ _ (h2.good hg)
    exact ⟨_, .cases h1 h4, h2.trans h5, h6.trans h3⟩
  | .lam ps b, ρ, s, Γ, hg => by
    obtain ⟨Γ', h1, h2⟩ := params_ok ps _ _ hg.push
    obtain ⟨E', h3, h4, _⟩ := expr_ok b ρ _ _ (h2.good hg.push)
    exact ⟨_, .lam h1 h3, (h2.trans h4).scope hg⟩
  | .resume e _, ρ, s, Γ, hg => by
    obtain ⟨E, h1, h2, h3⟩ := expr_ok e ρ _ _ hg
    refine ⟨E, ?_, h2, h3⟩
    have hr : (resolveExpr e s).2.resumes.head? = ρ := (h2.good hg).res
    simp only [resolveExpr, hr]
    exact .resume h1
theorem exprs_ok {C} : ∀ (es : Exprs Occ) (ρ : Option Nat) (s : St) (Γ : List (Symbol × Nat)),
    Good C ρ s Γ → ∃ E, ExprsR C ρ Γ es (resolveExprs es s).1 E ∧ (Run Γ s Γ (resolveExprs es s).2 E
      (bindersExprs (resolveExprs es s).1) (localsExprs (resolveExprs es s).1) ∧
      (resolveExprs es s).2.r.scopes = s.r.scopes)
  | .nil, ρ, s, Γ, hg => ⟨[], .nil, Run.stay hg, rfl⟩
  | .cons e es, ρ, s, Γ, hg => by
    obtain ⟨E, h1, h2, h3⟩ := expr_ok e ρ _ _ hg
    obtain ⟨E', h4, h5, h6⟩ := exprs_ok es ρ _ _ (h2.good hg)
    exact ⟨_, .cons h1 h4, h2.trans h5, h6.trans h3⟩
theorem stmts_ok {C} : ∀ (ss : Stmts Occ) (ρ : Option Nat) (s : St) (Γ : List (Symbol × Nat)),
    Good C ρ s Γ → ∃ Γ' E, StmtsR C ρ Γ ss (resolveStmts ss s).1 Γ' E ∧
      Run Γ s Γ' (resolveStmts ss s).2 E
      (bindersStmts (resolveStmts ss s).1) (localsStmts (resolveStmts ss s).1)
  | .nil, ρ, s, Γ, hg => ⟨Γ, [], .nil, Run.stay hg⟩
  | .bind p v ss, ρ, s, Γ, hg => by
    obtain ⟨E, h1, h2, _⟩ := expr_ok v ρ _ _ hg
    obtain ⟨Γ', E', h3, h4⟩ := pat_ok p _ _ (h2.good hg)
    obtain ⟨Γ'', E'', h5, h6⟩ := stmts_ok ss ρ _ _ (h4.good (h2.good hg))
    refine ⟨Γ'', _, .bind h1 h3 h5, ?_⟩
    refine (h2.trans (h4.trans h6)).reorder ?_ ?_
    · simp only [resolveStmts, bindersStmts]
      rw [← List.append_assoc, ← List.append_assoc]
      exact List.perm_append_comm.append_right _
    · simp only [resolveStmts, localsStmts]
      rw [← List.append_assoc, ← List.append_assoc]
      exact List.perm_append_comm.append_right _
  | .expr e ss, ρ, s, Γ, hg => by
    obtain ⟨E, h1, h2, _⟩ := expr_ok e ρ _ _ hg
    obtain ⟨Γ', E', h3, h4⟩ := stmts_ok ss ρ _ _ (h2.good hg)
    exact ⟨Γ', _, .expr h1 h3, h2.trans h4⟩
theorem arms_ok {C} : ∀ (as : Arms Occ) (ρ : Option Nat) (s : St) (Γ : List (Symbol × Nat)),
    Good C ρ s Γ → ∃ E, ArmsR C ρ Γ as (resolveArms as s).1 E ∧ (Run Γ s Γ (resolveArms as s).2 E
      (bindersArms (resolveArms as s).1) (localsArms (resolveArms as s).1) ∧
      (resolveArms as s).2.r.scopes = s.r.scopes)
  | .nil, ρ, s, Γ, hg => ⟨[], .nil, Run.stay hg, rfl⟩
  | .cons sp .plain ps g b rest, ρ, s, Γ, hg => by
    obtain ⟨Γ', E₁, h1, h2⟩ := pats_ok ps _ _ hg.push
    have g2 := h2.good hg.push
    obtain ⟨E₂, h3, h4, _⟩ := exprs_ok g ρ _ _ g2
    have g4 := h4.good g2
    obtain ⟨E₃, h5, h6, _⟩ := expr_ok b ρ _ _ g4
    obtain ⟨h7, h8⟩ := (h2.trans (h4.trans h6)).scope hg
    obtain ⟨E₄, h9, h10, h11⟩ := arms_ok rest ρ _ _ (h7.good hg)
    refine ⟨_, .plain h1 h3 h5 h9, ?_, h11.trans h8⟩
    have := h7.trans h10
    simpa [resolveArms, bindersArms, localsArms, List.append_assoc] using this
  | .cons sp (.fn a) ps g b rest, ρ, s, Γ, hg => by
    obtain ⟨E₀, k1, k2, _⟩ := ability_ok hg.push a sp
    have g1 := k2.good hg.push
    obtain ⟨Γ', E₁, h1, h2⟩ := pats_ok ps _ _ g1
    have g2 := h2.good g1
    obtain ⟨E₂, h3, h4, _⟩ := exprs_ok g ρ _ _ g2
    have g4 := h4.good g2
    obtain ⟨E₃, h5, h6, _⟩ := expr_ok b ρ _ _ g4
    obtain ⟨h7, h8⟩ := (k2.trans (h2.trans (h4.trans h6))).scope hg
    obtain ⟨E₄, h9, h10, h11⟩ := arms_ok rest ρ _ _ (h7.good hg)
    refine ⟨_, .fn k1 h1 h3 h5 h9, ?_, h11.trans h8⟩
    have := h7.trans h10
    simpa [resolveArms, bindersArms, localsArms, List.append_assoc] using this
  | .cons sp (.op a _) ps g b rest, ρ, s, Γ, hg => by
    obtain ⟨E₀, k1, k2, _⟩ := ability_ok hg.push a sp
    have g1 := k2.good hg.push
    obtain ⟨Γ', E₁, h1, h2⟩ := pats_ok ps _ _ g1
    have g2 := h2.good g1
    obtain ⟨E₂, h3, h4, _⟩ := exprs_ok g _ _ _ g2.enter
    have g4 := h4.good g2.enter
    obtain ⟨E₃, h5, h6, _⟩ := expr_ok b _ _ _ g4
    have hl := (h4.trans h6).leave sp
    obtain ⟨h7, h8⟩ := (k2.trans (h2.trans hl)).scope hg
    obtain ⟨E₄, h9, h10, h11⟩ := arms_ok rest ρ _ _ (h7.good hg)
    refine ⟨_, .op k1 h1 h3 h5 h9, ?_, h11.trans h8⟩
    have := h7.trans h10
    refine (?_ : Run Γ s Γ _ (E₀ ++ (E₁ ++ (E₂ ++ (E₃ ++ E₄)))) _ _)
    rw [show E₀ ++ (E₁ ++ (E₂ ++ (E₃ ++ E₄))) = (E₀ ++ (E₁ ++ (E₂ ++ E₃))) ++ E₄ by
      simp [List.append_assoc]]
    refine this.reorder ?_ ?_
    · simp only [resolveArms, bindersArms, List.nil_append, List.append_assoc, List.cons_append]
      exact List.perm_middle.symm
    · simp only [resolveArms, localsArms, List.append_assoc]
      exact List.Perm.refl _
end

theorem opOnly_none {c : Option Binding} (h : ∀ ab op g, c ≠ some (.abilityOp ab op g)) :
    opOnly c = none := by
  rcases c with _ | c
  · rfl
  · cases c <;> first | rfl | exact absurd rfl (h _ _ _)

theorem effectOps_ok (env : Env) (effects : List Symbol) : OpsOf env effects (effectOps env effects) := by
  intro x b
  simp only [effectOps, NameEnv.Env.lookupQualified]
  induction effects with
  | nil => simp
  | cons a effs ih =>
    rw [List.findSome?_cons]
    by_cases ha : ∃ ab op g, env.namespaces a x = some (.abilityOp ab op g)
    · obtain ⟨ab, op, g, ha⟩ := ha
      simp only [ha, opOnly, Option.some.injEq]
      constructor
      · rintro rfl
        exact ⟨[], a, effs, rfl, ha, ⟨ab, op, g, rfl⟩, by simp⟩
      · rintro ⟨before, a', after, he, h1, h2, h3⟩
        cases before with
        | nil => cases he; rw [ha] at h1; exact Option.some.inj h1
        | cons c before =>
          cases he
          exact absurd ha (h3 a List.mem_cons_self ab op g)
    · have hm : opOnly (env.namespaces a x) = none :=
        opOnly_none fun ab op g hc => ha ⟨ab, op, g, hc⟩
      rw [hm]
      simp only
      rw [ih]
      constructor
      · rintro ⟨before, a', after, he, h1, h2, h3⟩
        refine ⟨a :: before, a', after, by rw [he]; rfl, h1, h2, ?_⟩
        intro c hc ab op g hcc
        rcases List.mem_cons.mp hc with rfl | hc
        · exact ha ⟨ab, op, g, hcc⟩
        · exact h3 c hc ab op g hcc
      · rintro ⟨before, a', after, he, h1, ⟨ab, op, g, h2⟩, h3⟩
        cases before with
        | nil => cases he; exact absurd ⟨ab, op, g, by rw [h1, h2]⟩ ha
        | cons c before =>
          cases he
          exact ⟨before, a', after, rfl, h1, ⟨ab, op, g, h2⟩,
            fun c hc => h3 c (List.mem_cons_of_mem _ hc)⟩

/-- The state between declarations. -/
structure Top (env : Env) (path : List Symbol) (s : St) : Prop where
  env : s.r.env = env
  path : s.r.modulePath = path
  res : s.resumes = []
  scopes : s.r.scopes = [.empty]

/-- What a declaration does. -/
structure TopRun (env : Env) (path : List Symbol) (s s' : St) (E : List Occ) (bs : List Binder)
    (ls : List LocalRef) : Prop where
  top : Top env path s'
  reported : s'.reported = s.reported ++ E
  fits : Fits (bs.map (·.id)) s.r.nextId s'.r.nextId
  refs : ∀ l ∈ ls, From [] bs (l.name, l.id)

theorem TopRun.stay {env path s} (h : Top env path s) : TopRun env path s s [] [] [] :=
  ⟨h, by simp, .nil _, by simp⟩

mutual
theorem decl_ok {env : Env} : ∀ (d : Decl Occ) (path : List Symbol) (s : St), Top env path s →
    ∃ E, DeclR env path d (resolveDecl d s).1 E ∧ TopRun env path s (resolveDecl d s).2 E
      (bindersDecl (resolveDecl d s).1) (localsDecl (resolveDecl d s).1)
  | .func sp tok x ps eff b, path, s, ht => by
    let s0 : St := { s with r := { s.r with effectOps := effectOps env eff } }
    have hg : Good ⟨env, path, s.r.effectOps⟩ none s.push [] := by
      refine ⟨ht.env, ht.path, rfl, by simp [St.push, ht.res],
        by simp [St.push, NameEnv.Resolver.pushScope], ?_⟩
      intro y
      simp [St.push, NameEnv.Resolver.pushScope, ht.scopes, lookupLocal, NameEnv.Map.empty]
    obtain ⟨Γ, h1, h2⟩ := params_ok ps _ _ hg
    have g2 := h2.good hg
    have hg3 : Good ⟨env, path, effectOps env eff⟩ none
        { (bindParams ps s.push).2 with r := { (bindParams ps s.push).2.r with
          effectOps := effectOps (bindParams ps s.push).2.r.env eff } } Γ :=
      ⟨g2.env, g2.path, by rw [g2.env], g2.res, g2.ne, g2.agrees⟩
    obtain ⟨E, h3, h4, h5⟩ := expr_ok b none _ _ hg3
    refine ⟨E, .func (effectOps_ok env eff) h1 h3, ?_⟩
    have g4 := h4.good hg3
    have he2 := h2.eq
    have he4 := h4.eq
    refine ⟨⟨g4.env, g4.path, ?_, ?_⟩, ?_, ?_, ?_⟩
    · have : (resolveDecl (.func sp tok x ps eff b) s).2.resumes = (bindParams ps s.push).2.resumes := by
        simp only [resolveDecl, St.pop]
        rw [he4]; rfl
      rw [this, he2]
      exact ht.res
    · simp only [resolveDecl, St.pop, NameEnv.Resolver.popScope]
      rw [h5]
      simp only
      rw [List.drop_one, h2.tail]
      simpa [St.push, NameEnv.Resolver.pushScope] using ht.scopes
    · have e1 : (resolveDecl (.func sp tok x ps eff b) s).2.reported
          = (bindParams ps s.push).2.reported ++ E := by
        simp only [resolveDecl, St.pop]
        rw [he4]; rfl
      rw [e1, he2]
      simp [St.after, St.push]
    · simp only [resolveDecl, bindersDecl, List.map_append, St.pop, NameEnv.Resolver.popScope]
      exact h2.fits.append h4.fits
    · intro l hl
      simp only [resolveDecl, bindersDecl]
      rcases h4.refs l hl with h | ⟨d, hd, h⟩
      · exact (h2.ctx _ h).mono fun d hd => List.mem_append_left _ hd
      · exact .inr ⟨d, List.mem_append_right _ hd, h⟩
  | .extern sp tok x ps, path, s, ht => ⟨[], .extern, TopRun.stay ht⟩
  | .struct_ sp tok x ps, path, s, ht => ⟨[], .struct_, TopRun.stay ht⟩
  | .enum sp tok x ps, path, s, ht => ⟨[], .enum, TopRun.stay ht⟩
  | .ability sp tok x ps, path, s, ht => ⟨[], .ability, TopRun.stay ht⟩
  | .use, path, s, ht => ⟨[], .use, TopRun.stay ht⟩
  | .mod x ds, path, s, ht => by
    have ht' : Top env (path ++ [x]) { s with r := { s.r with modulePath := s.r.modulePath ++ [x] } } :=
      ⟨ht.env, by simp [ht.path], ht.res, ht.scopes⟩
    obtain ⟨E, h1, h2⟩ := decls_ok ds _ _ ht'
    refine ⟨E, .mod h1, ?_⟩
    refine ⟨⟨h2.top.env, ?_, h2.top.res, h2.top.scopes⟩, h2.reported, h2.fits, h2.refs⟩
    simp only [resolveDecl]
    rw [h2.top.path]
    simp
theorem decls_ok {env : Env} : ∀ (ds : Decls Occ) (path : List Symbol) (s : St), Top env path s →
    ∃ E, DeclsR env path ds (resolveDecls ds s).1 E ∧ TopRun env path s (resolveDecls ds s).2 E
      (bindersDecls (resolveDecls ds s).1) (localsDecls (resolveDecls ds s).1)
  | .nil, path, s, ht => ⟨[], .nil, TopRun.stay ht⟩
  | .cons d ds, path, s, ht => by
    obtain ⟨E, h1, h2⟩ := decl_ok d _ _ ht
    obtain ⟨E', h3, h4⟩ := decls_ok ds _ _ h2.top
    refine ⟨_, .cons h1 h3, h4.top, ?_, ?_, ?_⟩
    · simp only [resolveDecls]
      rw [h4.reported, h2.reported, List.append_assoc]
    · simp only [resolveDecls, bindersDecls, List.map_append]
      exact h2.fits.append h4.fits
    · intro l hl
      simp only [resolveDecls, localsDecls, bindersDecls] at hl ⊢
      rcases List.mem_append.mp hl with hl | hl
      · exact (h2.refs l hl).mono fun d hd => List.mem_append_left _ hd
      · exact (h4.refs l hl).mono fun d hd => List.mem_append_right _ hd
end

theorem start_top (env : Env) : Top env [] (.start env) := ⟨rfl, rfl, rfl, rfl⟩

theorem module_ok (env : Env) (m : Decls Occ) :
    DeclsR env [] m (resolveModule env m).1 (resolveModule env m).2 ∧
    ((bindersDecls (resolveModule env m).1).map (·.id)).Nodup ∧
    ∀ l ∈ localsDecls (resolveModule env m).1, ∃ d ∈ bindersDecls (resolveModule env m).1,
      d.name = some l.name ∧ d.id = l.id := by
  obtain ⟨E, h1, h2⟩ := decls_ok m _ _ (start_top env)
  have hE : (resolveModule env m).2 = E := by
    exact h2.reported
  refine ⟨by rw [hE]; exact h1, h2.fits.nodup, ?_⟩
  intro l hl
  rcases h2.refs l hl with h | h
  · cases h
  · exact h

end Verif.Scope
