import Verif.Report.Spec
import Mathlib.Data.List.Forall2
import Mathlib.Data.List.Perm.Basic
import Mathlib.Tactic.Tauto

namespace Verif.Report

open Spec

/-! ### Lowering -/

/-- The scope of the lowering and the environment of the program agree. -/
def Rel {κ : Type} (env : List (κ × Val)) (c : List (κ × Nat)) (regs : Nat → Option Val) : Prop :=
  List.Forall₂ (fun a b => a.1 = b.1 ∧ regs b.2 = some a.2) env c

theorem Rel.mono {κ : Type} {env : List (κ × Val)} {c : List (κ × Nat)} {regs regs' : Nat → Option Val}
    {n : Nat}
    (h : Rel env c regs) (hb : ∀ p ∈ c, p.2 < n) (hr : ∀ x, x < n → regs' x = regs x) :
    Rel env c regs' := by
  induction h with
  | nil => exact .nil
  | cons h _ ih =>
    refine .cons ⟨h.1, ?_⟩ (ih fun p hp => hb p (List.mem_cons_of_mem _ hp))
    rw [hr _ (hb _ List.mem_cons_self)]; exact h.2

theorem Rel.lookup {κ : Type} [BEq κ] [LawfulBEq κ] {env : List (κ × Val)} {c : List (κ × Nat)}
    {regs : Nat → Option Val}
    (h : Rel env c regs) (x : κ) (hx : x ∈ c.map Prod.fst) :
    ∃ v r, env.lookup x = some v ∧ c.lookup x = some r ∧ regs r = some v ∧ (x, r) ∈ c := by
  induction h with
  | nil => simp at hx
  | @cons a b env' c' h hs ih =>
    obtain ⟨y, v⟩ := a
    obtain ⟨z, r⟩ := b
    obtain ⟨h1, h2⟩ := h
    simp only at h1 h2
    subst h1
    by_cases hxy : x = y
    · subst hxy
      exact ⟨v, r, by simp, by simp, h2, by simp⟩
    · have hx' : x ∈ c'.map Prod.fst := by
        simp only [List.map_cons, List.mem_cons] at hx
        exact hx.resolve_left hxy
      obtain ⟨v', r', e1, e2, e3, e4⟩ := ih hx'
      have hb : (x == y) = false := by simpa using hxy
      exact ⟨v', r', by simp [List.lookup, hb, e1], by simp [List.lookup, hb, e2], e3, by simp [e4]⟩

theorem Rel.append {κ : Type} {e1 e2 : List (κ × Val)} {c1 c2 : List (κ × Nat)}
    {regs : Nat → Option Val} (h1 : Rel e1 c1 regs) (h2 : Rel e2 c2 regs) :
    Rel (e1 ++ e2) (c1 ++ c2) regs := by
  induction h1 with
  | nil => exact h2
  | cons h _ ih => exact .cons h ih

theorem Rel.keys {κ : Type} {env : List (κ × Val)} {c : List (κ × Nat)}
    {regs : Nat → Option Val} (h : Rel env c regs) : env.map Prod.fst = c.map Prod.fst := by
  induction h with
  | nil => rfl
  | cons h _ ih => simp [h.1, ih]

/-- What lowering adds: operations that take registers and trace from one state to another, and no
diagnostics. -/
structure Adds (w : World) (s s' : St) (regs regs' : Nat → Option Val) (t t' : Trace) : Prop where
  next : s.next ≤ s'.next
  diags : s'.diags = s.diags
  ops : ∃ os, s'.ops = s.ops ++ os ∧ ∀ k, exec w (os ++ k) regs t = exec w k regs' t'
  old : ∀ x, x < s.next → regs' x = regs x

theorem Adds.refl (w : World) (s : St) (regs : Nat → Option Val) (t : Trace) :
    Adds w s s regs regs t t :=
  ⟨Nat.le_refl _, rfl, ⟨[], by simp, by simp⟩, fun _ _ => rfl⟩

theorem Adds.trans {w : World} {s1 s2 s3 : St} {r1 r2 r3 : Nat → Option Val} {t1 t2 t3 : Trace}
    (h1 : Adds w s1 s2 r1 r2 t1 t2) (h2 : Adds w s2 s3 r2 r3 t2 t3) : Adds w s1 s3 r1 r3 t1 t3 := by
  obtain ⟨n1, d1, ⟨o1, e1, x1⟩, k1⟩ := h1
  obtain ⟨n2, d2, ⟨o2, e2, x2⟩, k2⟩ := h2
  refine ⟨Nat.le_trans n1 n2, by rw [d2, d1], ⟨o1 ++ o2, by rw [e2, e1]; simp, fun k => ?_⟩,
    fun x hx => ?_⟩
  · rw [List.append_assoc, x1, x2]
  · rw [k2 x (Nat.lt_of_lt_of_le hx n1), k1 x hx]

/-- Pushing an operation. -/
theorem emit_adds {w : World} {s : St} {regs : Nat → Option Val} {t t' : Trace} {op : Nat → Op} {v : Val}
    (h : ∀ k, exec w (op s.next :: k) regs t =
      exec w k (fun x => if x = s.next then some v else regs x) t') :
    ∃ r s' regs', s.emit op = (some r, s') ∧ r < s'.next ∧ regs' r = some v ∧
      Adds w s s' regs regs' t t' := by
  refine ⟨s.next, _, fun x => if x = s.next then some v else regs x, rfl, by simp, by simp,
    ⟨by simp, rfl, ⟨[op s.next], rfl, fun k => by simpa using h k⟩, fun x hx => ?_⟩⟩
  rw [if_neg (Nat.ne_of_lt hx)]

/-- Putting the fields of a record in order. -/
theorem assemble_arrange {mv : List (String × Val)} {m : List (String × Nat)}
    {regs : Nat → Option Val} (h : Rel mv m regs) :
    ∀ order : List String, (∀ f ∈ order, f ∈ m.map Prod.fst) →
      ∃ rs vs, assemble m order = .inr rs ∧ arrange mv order = some vs ∧ rs.mapM regs = some vs
  | [], _ => ⟨[], [], rfl, rfl, rfl⟩
  | f :: fs, hf => by
    obtain ⟨v, r, e1, e2, e3, -⟩ := h.lookup f (hf f List.mem_cons_self)
    obtain ⟨rs, vs, a1, a2, a3⟩ := assemble_arrange h fs fun g hg => hf g (List.mem_cons_of_mem _ hg)
    exact ⟨r :: rs, v :: vs, by simp [assemble, e2, a1], by simp [arrange, e1, a2],
      by simp [List.mapM_cons, e3, a3]⟩

mutual
/-- A sound expression is lowered without diagnostics to operations that do what it means. -/
theorem lower_sound (w : World) : ∀ (e : Expr) (c : Ctx) (env : List (Nat × Val)) (s : St)
    (regs : Nat → Option Val) (t : Trace), Sound (c.map Prod.fst) e → Rel env c regs →
    (∀ p ∈ c, p.2 < s.next) →
    ∃ r s' regs' v t', lower c e s = (some r, s') ∧ eval w env e t = some (v, t') ∧
      r < s'.next ∧ regs' r = some v ∧ Adds w s s' regs regs' t t'
  | .nat sp n, c, env, s, regs, t, hs, _, _ => by
    have hn : ¬ i31Max < (n : Int) := by
      simp only [Sound] at hs; simp only [i31Max]; omega
    obtain ⟨r, s', regs', h1, h2, h3, h4⟩ :=
      emit_adds (w := w) (s := s) (regs := regs) (t := t) (t' := t) (op := fun d => .const d n)
        (v := .int n) (fun k => rfl)
    exact ⟨r, s', regs', .int n, t, by rw [lower, if_neg hn]; exact h1, by rw [eval], h2, h3, h4⟩
  | .int sp n, c, env, s, regs, t, hs, _, _ => by
    have hn : i31Min ≤ n ∧ n ≤ i31Max := by
      simp only [Sound] at hs; simp only [i31Max, i31Min]; omega
    obtain ⟨r, s', regs', h1, h2, h3, h4⟩ :=
      emit_adds (w := w) (s := s) (regs := regs) (t := t) (t' := t) (op := fun d => .const d n)
        (v := .int n) (fun k => rfl)
    exact ⟨r, s', regs', .int n, t, by rw [lower, if_pos hn]; exact h1, by rw [eval], h2, h3, h4⟩
  | .nil, c, env, s, regs, t, _, _, _ => by
    obtain ⟨r, s', regs', h1, h2, h3, h4⟩ :=
      emit_adds (w := w) (s := s) (regs := regs) (t := t) (t' := t) (op := fun d => .unit d)
        (v := .unit) (fun k => rfl)
    exact ⟨r, s', regs', .unit, t, by rw [lower]; exact h1, by rw [eval], h2, h3, h4⟩
  | .var x, c, env, s, regs, t, hs, hr, hb => by
    obtain ⟨v, r, e1, e2, e3, e4⟩ := hr.lookup x (by simpa only [Sound] using hs)
    exact ⟨r, s, regs, v, t, by rw [lower, e2], by rw [eval, e1]; rfl, hb _ e4, e3,
      Adds.refl ..⟩
  | .call f args, c, env, s, regs, t, hs, hr, hb => by
    obtain ⟨rs, s1, regs1, vs, t1, h1, h2, h3, h4⟩ :=
      lowerArgs_sound w args c env s regs t (by simpa only [Sound] using hs) hr hb
    obtain ⟨r, s', regs', g1, g2, g3, g4⟩ :=
      emit_adds (w := w) (s := s1) (regs := regs1) (t := t1) (t' := t1 ++ [(f, vs)])
        (op := fun d => .call d f rs) (v := w (t1 ++ [(f, vs)]))
        (fun k => by simp only [exec, h3.1])
    exact ⟨r, s', regs', _, _, by rw [lower, h1]; exact g1, by rw [eval, h2]; rfl, g2, g3,
      h4.trans g4⟩
  | .block ss e, c, env, s, regs, t, hs, hr, hb => by
    have hs' : SoundStmts (c.map Prod.fst) ss ∧ Sound (scopeAfter (c.map Prod.fst) ss) e := by
      simpa only [Sound] using hs
    obtain ⟨c1, s1, regs1, env1, t1, h1, h2, h3, h4, h5, h6⟩ :=
      lowerStmts_sound w ss c env s regs t hs'.1 hr hb
    obtain ⟨r, s', regs', v, t', g1, g2, g3, g4, g5⟩ :=
      lower_sound w e c1 env1 s1 regs1 t1 (by rw [h3]; exact hs'.2) h4 h5
    exact ⟨r, s', regs', v, t', by rw [lower, h1]; exact g1, by rw [eval, h2]; exact g2, g3, g4,
      h6.trans g5⟩
  | .record sp order fields, c, env, s, regs, t, hs, hr, hb => by
    have hs' : SoundFields (c.map Prod.fst) fields ∧ (fieldNames fields).Nodup ∧
        ∀ f, f ∈ order ↔ f ∈ fieldNames fields := by simpa only [Sound] using hs
    obtain ⟨m, s1, regs1, mv, t1, h1, h2, h3, h4, h5, h6⟩ :=
      lowerFields_sound w fields c sp order env [] [] s regs t hs'.1 (by simpa using hs'.2.1)
        (fun f hf => (hs'.2.2 f).mpr hf) hr .nil hb (by simp)
    obtain ⟨rs, vs, a1, a2, a3⟩ := assemble_arrange h4 order fun f hf => by
      rw [h3]; simpa using (hs'.2.2 f).mp hf
    obtain ⟨r, s', regs', g1, g2, g3, g4⟩ :=
      emit_adds (w := w) (s := s1) (regs := regs1) (t := t1) (t' := t1)
        (op := fun d => .structNew d rs) (v := .record vs) (fun k => by simp only [exec, a3])
    exact ⟨r, s', regs', .record vs, t1, by rw [lower, h1]; simp only [a1]; exact g1,
      by rw [eval, h2]; simp [a2], g2, g3, h6.trans g4⟩
theorem lowerArgs_sound (w : World) : ∀ (es : List Expr) (c : Ctx) (env : List (Nat × Val)) (s : St)
    (regs : Nat → Option Val) (t : Trace), SoundArgs (c.map Prod.fst) es → Rel env c regs →
    (∀ p ∈ c, p.2 < s.next) →
    ∃ rs s' regs' vs t', lowerArgs c es s = (some rs, s') ∧
      evalArgs w env es t = some (vs, t') ∧
      (rs.mapM regs' = some vs ∧ ∀ r ∈ rs, r < s'.next) ∧ Adds w s s' regs regs' t t'
  | [], c, env, s, regs, t, _, _, _ =>
    ⟨[], s, regs, [], t, by rw [lowerArgs], by rw [evalArgs], ⟨rfl, by simp⟩, Adds.refl ..⟩
  | e :: es, c, env, s, regs, t, hs, hr, hb => by
    have hs' : Sound (c.map Prod.fst) e ∧ SoundArgs (c.map Prod.fst) es := by
      simpa only [SoundArgs] using hs
    obtain ⟨r, s1, regs1, v, t1, h1, h2, h3, h4, h5⟩ :=
      lower_sound w e c env s regs t hs'.1 hr hb
    obtain ⟨rs, s2, regs2, vs, t2, g1, g2, g3, g4⟩ :=
      lowerArgs_sound w es c env s1 regs1 t1 hs'.2 (hr.mono hb h5.old)
        (fun p hp => Nat.lt_of_lt_of_le (hb p hp) h5.next)
    refine ⟨r :: rs, s2, regs2, v :: vs, t2, by rw [lowerArgs, h1]; simp only [g1],
      by rw [evalArgs, h2]; simp [g2], ⟨?_, ?_⟩, h5.trans g4⟩
    · rw [List.mapM_cons, g4.old r h3, h4, g3.1]; rfl
    · intro x hx
      rcases List.mem_cons.mp hx with rfl | hx
      · exact Nat.lt_of_lt_of_le h3 g4.next
      · exact g3.2 x hx
theorem lowerFields_sound (w : World) : ∀ (fs : List Field) (c : Ctx) (sp : Span)
    (order : List String) (env : List (Nat × Val))
    (m : List (String × Nat)) (mv : List (String × Val)) (s : St)
    (regs : Nat → Option Val) (t : Trace), SoundFields (c.map Prod.fst) fs →
    (m.map Prod.fst ++ fieldNames fs).Nodup → (∀ f ∈ fieldNames fs, f ∈ order) → Rel env c regs →
    Rel mv m regs → (∀ p ∈ c, p.2 < s.next) → (∀ p ∈ m, p.2 < s.next) →
    ∃ m' s' regs' mv' t', lowerFields c sp order m fs s = (some m', s') ∧
      evalFields w env order mv fs t = some (mv', t') ∧
      m'.map Prod.fst = m.map Prod.fst ++ fieldNames fs ∧ Rel mv' m' regs' ∧
      (∀ p ∈ m', p.2 < s'.next) ∧ Adds w s s' regs regs' t t'
  | [], c, sp, order, env, m, mv, s, regs, t, _, _, _, _, hm, _, hmb =>
    ⟨m, s, regs, mv, t, by rw [lowerFields], by rw [evalFields], by simp [fieldNames], hm, hmb,
      Adds.refl ..⟩
  | .mk f e :: fs, c, sp, order, env, m, mv, s, regs, t, hs, hn, ho, hr, hm, hb, hmb => by
    have hs' : Sound (c.map Prod.fst) e ∧ SoundFields (c.map Prod.fst) fs := by
      simpa only [SoundFields] using hs
    have hfo : f ∈ order := ho f (by simp [fieldNames])
    have hnm : f ∉ m.map Prod.fst := by
      intro h
      have := (List.nodup_append.mp hn).2.2 f h f (by simp [fieldNames])
      exact this rfl
    have hl : m.lookup f = none := by
      rw [List.lookup_eq_none_iff]
      intro p hp
      simp only [beq_eq_false_iff_ne, ne_eq, bne_iff_ne]
      rintro rfl
      exact hnm (List.mem_map.mpr ⟨p, hp, rfl⟩)
    have hlv : mv.lookup f = none := by
      rw [List.lookup_eq_none_iff]
      intro p hp
      simp only [beq_eq_false_iff_ne, ne_eq, bne_iff_ne]
      rintro rfl
      exact hnm (hm.keys ▸ List.mem_map.mpr ⟨p, hp, rfl⟩)
    obtain ⟨r, s1, regs1, v, t1, h1, h2, h3, h4, h5⟩ :=
      lower_sound w e c env s regs t hs'.1 hr hb
    obtain ⟨m', s', regs', mv', t', g1, g2, g3, g4, g5, g6⟩ :=
      lowerFields_sound w fs c sp order env (m ++ [(f, r)]) (mv ++ [(f, v)]) s1 regs1 t1 hs'.2
        (by simpa [fieldNames, List.append_assoc] using hn)
        (fun g hg => ho g (by simp [fieldNames, hg]))
        (hr.mono hb h5.old) ((hm.mono hmb h5.old).append (.cons ⟨rfl, h4⟩ .nil))
        (fun p hp => Nat.lt_of_lt_of_le (hb p hp) h5.next)
        (by
          intro p hp
          rcases List.mem_append.mp hp with hp | hp
          · exact Nat.lt_of_lt_of_le (hmb p hp) h5.next
          · simp only [List.mem_singleton] at hp; subst hp; exact h3)
    refine ⟨m', s', regs', mv', t', ?_, ?_, by rw [g3]; simp [fieldNames], g4, g5, h5.trans g6⟩
    · rw [lowerFields, if_neg (by simpa using hfo), if_neg (by simp [hl]), h1]
      exact g1
    · rw [evalFields, if_pos ⟨hfo, hlv⟩, h2]
      exact g2
theorem lowerStmts_sound (w : World) : ∀ (ss : List Stmt) (c : Ctx) (env : List (Nat × Val)) (s : St)
    (regs : Nat → Option Val) (t : Trace), SoundStmts (c.map Prod.fst) ss → Rel env c regs →
    (∀ p ∈ c, p.2 < s.next) →
    ∃ c' s' regs' env' t', lowerStmts c ss s = (c', s') ∧
      evalStmts w env ss t = some (env', t') ∧
      c'.map Prod.fst = scopeAfter (c.map Prod.fst) ss ∧ Rel env' c' regs' ∧
      (∀ p ∈ c', p.2 < s'.next) ∧ Adds w s s' regs regs' t t'
  | [], c, env, s, regs, t, _, hr, hb =>
    ⟨c, s, regs, env, t, by rw [lowerStmts], by rw [evalStmts], by rw [scopeAfter], hr, hb,
      Adds.refl ..⟩
  | .bind x e :: ss, c, env, s, regs, t, hs, hr, hb => by
    have hs' : Sound (c.map Prod.fst) e ∧ SoundStmts (x :: c.map Prod.fst) ss := by
      simpa only [SoundStmts] using hs
    obtain ⟨r, s1, regs1, v, t1, h1, h2, h3, h4, h5⟩ :=
      lower_sound w e c env s regs t hs'.1 hr hb
    obtain ⟨c', s', regs', env', t', g1, g2, g3, g4, g5, g6⟩ :=
      lowerStmts_sound w ss ((x, r) :: c) ((x, v) :: env) s1 regs1 t1 hs'.2
        (.cons ⟨rfl, h4⟩ (hr.mono hb h5.old))
        (by
          intro p hp
          rcases List.mem_cons.mp hp with rfl | hp
          · exact h3
          · exact Nat.lt_of_lt_of_le (hb p hp) h5.next)
    exact ⟨c', s', regs', env', t', by rw [lowerStmts, h1]; exact g1,
      by rw [evalStmts, h2]; exact g2, by rw [scopeAfter, g3]; rfl, g4, g5, h5.trans g6⟩
  | .expr e :: ss, c, env, s, regs, t, hs, hr, hb => by
    have hs' : Sound (c.map Prod.fst) e ∧ SoundStmts (c.map Prod.fst) ss := by
      simpa only [SoundStmts] using hs
    obtain ⟨r, s1, regs1, v, t1, h1, h2, h3, h4, h5⟩ :=
      lower_sound w e c env s regs t hs'.1 hr hb
    obtain ⟨c', s', regs', env', t', g1, g2, g3, g4, g5, g6⟩ :=
      lowerStmts_sound w ss c env s1 regs1 t1 hs'.2
        (hr.mono hb h5.old) (fun p hp => Nat.lt_of_lt_of_le (hb p hp) h5.next)
    exact ⟨c', s', regs', env', t', by rw [lowerStmts, h1]; exact g1,
      by rw [evalStmts, h2]; exact g2, by rw [scopeAfter, g3], g4, g5, h5.trans g6⟩
end

theorem lowerMain_sound (w : World) (e : Expr) (h : Sound [] e) :
    (lowerMain e).diags = [] ∧ ∃ o, eval w [] e [] = some o ∧ run w (lowerMain e).ops = some o := by
  obtain ⟨r, s', regs', v, t', h1, h2, h3, h4, h5⟩ :=
    lower_sound w e [] [] {} (fun _ => none) [] h .nil (by simp)
  obtain ⟨os, ho, hx⟩ := h5.ops
  have hd : s'.diags = [] := h5.diags
  have ho' : s'.ops = os := by simpa using ho
  refine ⟨by rw [lowerMain, h1]; exact hd, (v, t'), h2, ?_⟩
  rw [lowerMain, h1]
  simp only [run, ho', hx, exec, h4, Option.map_some]

/-! ### Order -/

/-- `Before` with the ranks of the program. -/
def BeforeR (a b : Diag) : Prop :=
  a.phase.rank < b.phase.rank ∨ a.phase.rank = b.phase.rank ∧
  (a.span.start < b.span.start ∨ a.span.start = b.span.start ∧
  (a.span.stop < b.span.stop ∨ a.span.stop = b.span.stop ∧ a.message ≤ b.message))

theorem before_eq : Before = BeforeR := by
  funext a b
  unfold Before BeforeR
  have h1 : ∀ ph : Phase, phases.idxOf ph = ph.rank := by intro ph; cases ph <;> rfl
  have h2 : ∀ p q : Phase, p.rank = q.rank → p = q := by
    intro p q; cases p <;> cases q <;> simp [Phase.rank]
  rw [h1, h1]
  apply propext
  constructor
  · rintro (h | ⟨h, r⟩)
    · exact .inl h
    · exact .inr ⟨by rw [h], r⟩
  · rintro (h | ⟨h, r⟩)
    · exact .inl h
    · exact .inr ⟨h2 _ _ h, r⟩

theorem compareLe_iff (a b : Diag) : compareLe a b = true ↔ BeforeR a b := by
  unfold compareLe BeforeR
  split
  · next h => simp only [decide_eq_true_eq]; constructor
              · exact fun h => .inl h
              · rintro (h' | ⟨h', _⟩)
                · exact h'
                · exact absurd h' h
  · next h =>
    have h := Decidable.of_not_not h
    split
    · next g => simp only [decide_eq_true_eq]; constructor
                · exact fun h' => .inr ⟨h, .inl h'⟩
                · rintro (h' | ⟨_, h' | ⟨h', _⟩⟩)
                  · omega
                  · exact h'
                  · exact absurd h' g
    · next g =>
      have g := Decidable.of_not_not g
      split
      · next i => simp only [decide_eq_true_eq]; constructor
                  · exact fun h' => .inr ⟨h, .inr ⟨g, .inl h'⟩⟩
                  · rintro (h' | ⟨_, h' | ⟨_, h' | ⟨h', _⟩⟩⟩)
                    · omega
                    · omega
                    · exact h'
                    · exact absurd h' i
      · next i =>
        have i := Decidable.of_not_not i
        simp only [decide_eq_true_eq]
        constructor
        · exact fun h' => .inr ⟨h, .inr ⟨g, .inr ⟨i, h'⟩⟩⟩
        · rintro (h' | ⟨_, h' | ⟨_, h' | ⟨_, h'⟩⟩⟩)
          · omega
          · omega
          · omega
          · exact h'

theorem before_total (a b : Diag) : BeforeR a b ∨ BeforeR b a := by
  unfold BeforeR
  rcases String.le_total a.message b.message with hm | hm <;>
  rcases Nat.lt_trichotomy a.phase.rank b.phase.rank with h | h | h <;>
  rcases Nat.lt_trichotomy a.span.start b.span.start with g | g | g <;>
  rcases Nat.lt_trichotomy a.span.stop b.span.stop with i | i | i <;> simp [h, g, i, hm]

theorem before_trans {a b c : Diag} (h1 : BeforeR a b) (h2 : BeforeR b c) : BeforeR a c := by
  unfold BeforeR at *
  rcases h1 with h1 | ⟨e1, h1 | ⟨f1, h1 | ⟨g1, h1⟩⟩⟩ <;>
  rcases h2 with h2 | ⟨e2, h2 | ⟨f2, h2 | ⟨g2, h2⟩⟩⟩
  case inr.inr.inr.inr.inr.inr =>
    exact .inr ⟨e1.trans e2, .inr ⟨f1.trans f2, .inr ⟨g1.trans g2, String.le_trans h1 h2⟩⟩⟩
  all_goals first
    | exact .inl (by omega)
    | exact .inr ⟨by omega, .inl (by omega)⟩
    | exact .inr ⟨by omega, .inr ⟨by omega, .inl (by omega)⟩⟩

/-- What the order looks at. -/
def keyR (d : Diag) : Nat × Nat × Nat × String :=
  (d.phase.rank, d.span.start, d.span.stop, d.message)

theorem key_of_keyR {l l' : List Diag} (h : l.map keyR = l'.map keyR) : l.map key = l'.map key := by
  have e : ∀ l : List Diag, l.map keyR = (l.map key).map fun k => (k.1.rank, k.2) := by
    intro l; simp [key, keyR, Function.comp_def]
  rw [e, e] at h
  refine (List.map_inj_right ?_).1 h
  rintro ⟨p, x⟩ ⟨q, y⟩ hxy
  cases p <;> cases q <;> simp [Phase.rank] at hxy ⊢ <;> exact hxy

theorem before_antisymm {a b : Diag} (h1 : BeforeR a b) (h2 : BeforeR b a) : keyR a = keyR b := by
  unfold BeforeR at *
  unfold keyR
  rcases h1 with h1 | ⟨e1, h1 | ⟨f1, h1 | ⟨g1, h1⟩⟩⟩ <;>
  rcases h2 with h2 | ⟨e2, h2 | ⟨f2, h2 | ⟨g2, h2⟩⟩⟩ <;> try omega
  rw [e1, f1, g1, String.le_antisymm h1 h2]

theorem insertDiag_perm (d : Diag) : ∀ l, List.Perm (insertDiag d l) (d :: l)
  | [] => by simp [insertDiag]
  | x :: xs => by
    unfold insertDiag
    split
    · exact .refl _
    · exact ((insertDiag_perm d xs).cons x).trans (.swap d x xs)

theorem sortDiags_perm : ∀ l, List.Perm (sortDiags l) l
  | [] => by simp [sortDiags]
  | d :: ds => (insertDiag_perm d _).trans ((sortDiags_perm ds).cons d)

theorem insertDiag_sorted (d : Diag) : ∀ l, l.Pairwise BeforeR → (insertDiag d l).Pairwise BeforeR
  | [], _ => by simp [insertDiag]
  | x :: xs, h => by
    unfold insertDiag
    have hx := List.pairwise_cons.mp h
    split
    · next hd =>
      rw [compareLe_iff] at hd
      refine List.pairwise_cons.mpr ⟨fun y hy => ?_, h⟩
      rcases List.mem_cons.mp hy with rfl | hy
      · exact hd
      · exact before_trans hd (hx.1 y hy)
    · next hd =>
      rw [compareLe_iff] at hd
      refine List.pairwise_cons.mpr ⟨fun y hy => ?_, insertDiag_sorted d xs hx.2⟩
      rcases List.mem_cons.mp ((insertDiag_perm d xs).mem_iff.mp hy) with rfl | hy
      · exact (before_total x y).resolve_right hd
      · exact hx.1 y hy

theorem sortDiags_sorted : ∀ l, (sortDiags l).Pairwise BeforeR
  | [] => by simp [sortDiags]
  | d :: ds => insertDiag_sorted d _ (sortDiags_sorted ds)

/-- Two sorted arrangements of the same diagnostics look the same. -/
theorem sorted_keys : ∀ l₁ l₂ : List Diag, List.Perm l₁ l₂ → l₁.Pairwise BeforeR →
    l₂.Pairwise BeforeR → l₁.map keyR = l₂.map keyR
  | [], l₂, hp, _, _ => by rw [List.nil_perm.mp hp]
  | a :: l₁, [], hp, _, _ => by simp at hp
  | a :: l₁, b :: l₂, hp, h1, h2 => by
    have h1' := List.pairwise_cons.mp h1
    have h2' := List.pairwise_cons.mp h2
    have hab : keyR a = keyR b := by
      have ha : a ∈ b :: l₂ := hp.mem_iff.mp List.mem_cons_self
      have hb : b ∈ a :: l₁ := hp.mem_iff.mpr List.mem_cons_self
      rcases List.mem_cons.mp ha with rfl | ha
      · rfl
      · rcases List.mem_cons.mp hb with rfl | hb
        · rfl
        · exact before_antisymm (h1'.1 b hb) (h2'.1 a ha)
    -- compare the multisets of keys
    have hk : List.Perm (l₁.map keyR) (l₂.map keyR) := by
      have := hp.map keyR
      simp only [List.map_cons, hab] at this
      exact (List.perm_cons _).mp this
    have hs : ∀ l : List Diag, l.Pairwise BeforeR → (l.map keyR).Pairwise
        (fun x y => x.1 < y.1 ∨ x.1 = y.1 ∧ (x.2.1 < y.2.1 ∨ x.2.1 = y.2.1 ∧
          (x.2.2.1 < y.2.2.1 ∨ x.2.2.1 = y.2.2.1 ∧ x.2.2.2 ≤ y.2.2.2))) := by
      intro l hl
      rw [List.pairwise_map]
      exact hl
    simp only [List.map_cons, hab]
    congr 1
    refine hk.eq_of_pairwise ?_ (hs _ h1'.2) (hs _ h2'.2)
    intro x y _ _ hxy hyx
    obtain ⟨x1, x2, x3, x4⟩ := x
    obtain ⟨y1, y2, y3, y4⟩ := y
    simp only at hxy hyx
    rcases hxy with h1 | ⟨e1, h1 | ⟨f1, h1 | ⟨g1, h1⟩⟩⟩ <;>
    rcases hyx with h2 | ⟨e2, h2 | ⟨f2, h2 | ⟨g2, h2⟩⟩⟩ <;> try omega
    rw [e1, f1, g1, String.le_antisymm h1 h2]

/-! ### Marks -/

theorem ascii_bytes : ∀ s : List Char, Ascii s → bytes s = s.length
  | [], _ => rfl
  | c :: cs, h => by
    have h1 := h c List.mem_cons_self
    have h2 := ascii_bytes cs fun x hx => h x (List.mem_cons_of_mem _ hx)
    simp only [bytes, List.map_cons, List.sum_cons, List.length_cons] at *
    omega

theorem bytes_ge : ∀ s : List Char, s.length ≤ bytes s
  | [] => Nat.le_refl _
  | c :: cs => by
    have h := bytes_ge cs
    have hc := c.utf8Size_pos
    simp only [bytes, List.map_cons, List.sum_cons, List.length_cons] at *
    omega

theorem bytes_eq_iff : ∀ s : List Char, bytes s = s.length ↔ Ascii s
  | [] => by simp [bytes, Ascii]
  | c :: cs => by
    have h := bytes_ge cs
    have ih := bytes_eq_iff cs
    have hc := c.utf8Size_pos
    have e : bytes (c :: cs) = c.utf8Size + bytes cs := by simp [bytes]
    constructor
    · intro hb
      rw [e, List.length_cons] at hb
      intro x hx
      rcases List.mem_cons.mp hx with rfl | hx
      · omega
      · exact ih.mp (by omega) x hx
    · exact ascii_bytes _

end Verif.Report
