import Verif.Effects.Class

/-! Running target code without counting steps. -/

namespace Verif.Effects

variable {W : Type}

def Res.le (r r' : Res W) : Prop := ∀ v w c, r = .ok v w c → r' = .ok v w c

theorem Res.le.refl (r : Res W) : r.le r := fun _ _ _ h => h

theorem Res.le.bad (r : Res W) : Res.le (.bad) r := fun _ _ _ h => nomatch h

theorem Res.le.andThen {r r' : Res W} {f f' : TVal → W → Nat → Res W} (h : r.le r')
    (hf : ∀ v w c, (f v w c).le (f' v w c)) : (r.andThen f).le (r'.andThen f') := by
  intro v w c e
  cases r with
  | ok v1 w1 c1 =>
    rw [h _ _ _ rfl]
    exact hf _ _ _ _ _ _ e
  | bad => nomatch e
  | out => nomatch e

variable (M : Mach W) (P : List (Fn × (List Reg × T)))

theorem run_le (n : Nat) : ∀ E t w c, (run M P n E t w c).le (run M P (n + 1) E t w c) := by
  induction n with
  | zero => intro E t w c v w' c' h; simp [run] at h
  | succ n ih =>
    intro E t w c
    rw [run.eq_def M P (n + 1), run.eq_def M P (n + 1 + 1)]
    cases t <;> dsimp only <;> repeat' split
    all_goals first
      | exact Res.le.refl _
      | exact ih _ _ _ _
      | exact Res.le.andThen (ih _ _ _ _) (fun _ _ _ => ih _ _ _ _)
      | simp_all

theorem run_mono {n m : Nat} (h : n ≤ m) {E t w c v w' c'}
    (hr : run M P n E t w c = .ok v w' c') : run M P m E t w c = .ok v w' c' := by
  induction h with
  | refl => exact hr
  | step _ ih => exact run_le M P _ _ _ _ _ _ _ _ ih

/-- The code runs to a value. -/
def Runs (E : TEnv) (t : T) (w : W) (c : Nat) (v : TVal) (w' : W) (c' : Nat) : Prop :=
  ∃ n, run M P n E t w c = .ok v w' c'

/-- A call of a closure value runs to a value. -/
def Applies (g : TVal) (args : List TVal) (e : Option TVal) (w : W) (c : Nat) (v : TVal) (w' : W)
    (c' : Nat) : Prop :=
  ∃ env ps body E', g = .clo env ps body ∧ frame env ps args e = some E' ∧
    Runs M P E' body w c v w' c'

variable {M P}
variable {E : TEnv} {w w' w1 : W} {c c' c1 : Nat} {v v1 : TVal} {r : Reg} {k : T}

theorem Runs.ret (h : E.lookup r = some v) : Runs M P E (.ret r) w c v w c :=
  ⟨1, by simp [run, h]⟩

theorem Runs.bind {t} (h : Runs M P E t w c v1 w1 c1)
    (h2 : Runs M P ((r, v1) :: E) k w1 c1 v w' c') : Runs M P E (.bind r t k) w c v w' c' := by
  obtain ⟨n, hn⟩ := h
  obtain ⟨m, hm⟩ := h2
  refine ⟨max n m + 1, ?_⟩
  simp only [run, run_mono M P (Nat.le_max_left n m) hn, Res.andThen,
    run_mono M P (Nat.le_max_right n m) hm]

theorem Runs.prim {p rs vs bs b} (h : lookups E rs = some vs) (hb : bases vs = some bs)
    (hp : M.prim p bs w = some (b, w1))
    (h2 : Runs M P ((r, .base b) :: E) k w1 c v w' c') :
    Runs M P E (.prim r p rs k) w c v w' c' := by
  obtain ⟨m, hm⟩ := h2
  exact ⟨m + 1, by simp [run, h, hb, hp, hm]⟩

theorem Runs.lam {caps ps body vs} (h : lookups E caps = some vs)
    (h2 : Runs M P ((r, .clo (caps.zip vs) ps body) :: E) k w c v w' c') :
    Runs M P E (.lam r caps ps body k) w c v w' c' := by
  obtain ⟨m, hm⟩ := h2
  exact ⟨m + 1, by simp [run, h, hm]⟩

theorem Runs.callF {f ev rs vs e ps body E'} (hf : P.lookup f = some (ps, body))
    (he : E.lookup ev = some e) (h : lookups E rs = some vs)
    (hE : frame [] ps vs (some e) = some E')
    (h1 : Runs M P E' body w c v1 w1 c1)
    (h2 : Runs M P ((r, v1) :: E) k w1 c1 v w' c') :
    Runs M P E (.callF r f ev rs k) w c v w' c' := by
  obtain ⟨n, hn⟩ := h1
  obtain ⟨m, hm⟩ := h2
  refine ⟨max n m + 1, ?_⟩
  simp only [run, hf, he, h, hE, run_mono M P (Nat.le_max_left n m) hn, Res.andThen,
    run_mono M P (Nat.le_max_right n m) hm]

theorem Runs.callC {g ev rs vs e gv} (hg : E.lookup g = some gv)
    (he : E.lookup ev = some e) (h : lookups E rs = some vs)
    (h1 : Applies M P gv vs (some e) w c v1 w1 c1)
    (h2 : Runs M P ((r, v1) :: E) k w1 c1 v w' c') :
    Runs M P E (.callC r g ev rs k) w c v w' c' := by
  obtain ⟨env, ps, body, E', rfl, hE, n, hn⟩ := h1
  obtain ⟨m, hm⟩ := h2
  refine ⟨max n m + 1, ?_⟩
  simp only [run, hg, he, h, hE, run_mono M P (Nat.le_max_left n m) hn, Res.andThen,
    run_mono M P (Nat.le_max_right n m) hm]

theorem Runs.callD {g rep rs vs ps body E'} (hg : E.lookup g = some (.clo [] ps body))
    (h : lookups E rs = some vs) (hE : frame [] ps vs none = some E')
    (h1 : Runs M P E' body w c v1 w1 c1)
    (h2 : Runs M P ((r, v1) :: E) k w1 c1 v w' c') :
    Runs M P E (.callD r g rep rs k) w c v w' c' := by
  obtain ⟨n, hn⟩ := h1
  obtain ⟨m, hm⟩ := h2
  refine ⟨max n m + 1, ?_⟩
  simp [run, hg, h, hE, run_mono M P (Nat.le_max_left n m) hn, Res.andThen,
    run_mono M P (Nat.le_max_right n m) hm]

theorem Runs.perform {a o ev kr rs vs ms kv tg tr hd}
    (he : E.lookup ev = some (.ev ms)) (hk : E.lookup kr = some kv) (h : lookups E rs = some vs)
    (hm : ms.lookup a = some (tg, tr, hd))
    (h1 : Applies M P hd [kv, .tag tg, .opi a o, .tup vs] (some (.ev ms)) w c v1 w1 c1)
    (h2 : Runs M P ((r, v1) :: E) k w1 c1 v w' c') :
    Runs M P E (.perform r a o ev kr rs k) w c v w' c' := by
  obtain ⟨env, ps, body, E', rfl, hE, n, hn⟩ := h1
  obtain ⟨m, hm'⟩ := h2
  refine ⟨max n m + 1, ?_⟩
  simp only [run, he, hk, h, hm, hE, run_mono M P (Nat.le_max_left n m) hn, Res.andThen,
    run_mono M P (Nat.le_max_right n m) hm']

theorem Runs.tailop {a o ev rs vs ms tg tr hd}
    (he : E.lookup ev = some (.ev ms)) (h : lookups E rs = some vs)
    (hm : ms.lookup a = some (tg, tr, hd))
    (h1 : Applies M P tr [.opi a o, .tup vs] (some (.ev ms)) w c v1 w1 c1)
    (h2 : Runs M P ((r, v1) :: E) k w1 c1 v w' c') :
    Runs M P E (.tailop r a o ev rs k) w c v w' c' := by
  obtain ⟨env, ps, body, E', rfl, hE, n, hn⟩ := h1
  obtain ⟨m, hm'⟩ := h2
  refine ⟨max n m + 1, ?_⟩
  simp only [run, he, h, hm, hE, run_mono M P (Nat.le_max_left n m) hn, Res.andThen,
    run_mono M P (Nat.le_max_right n m) hm']

theorem Runs.cond {t e b} (h : E.lookup r = some (.base b))
    (h2 : Runs M P E (if b ≠ 0 then t else e) w c v w' c') :
    Runs M P E (.cond r t e) w c v w' c' := by
  obtain ⟨m, hm⟩ := h2
  refine ⟨m + 1, ?_⟩
  by_cases hb : b = 0 <;> simp [run, h, hb] at hm ⊢ <;> exact hm

theorem Runs.normal {x v1} (h : E.lookup x = some v1)
    (h2 : Runs M P ((r, .nrm v1) :: E) k w c v w' c') : Runs M P E (.normal r x k) w c v w' c' := by
  obtain ⟨m, hm⟩ := h2
  exact ⟨m + 1, by simp [run, h, hm]⟩

theorem Runs.escape {o x g v1} (ho : E.lookup o = some (.tag g)) (h : E.lookup x = some v1)
    (h2 : Runs M P ((r, .esc g v1) :: E) k w c v w' c') :
    Runs M P E (.escape r o x k) w c v w' c' := by
  obtain ⟨m, hm⟩ := h2
  exact ⟨m + 1, by simp [run, ho, h, hm]⟩

theorem Runs.caseN_nrm {x t e v1} (h : E.lookup r = some (.nrm v1))
    (h2 : Runs M P ((x, v1) :: E) t w c v w' c') : Runs M P E (.caseN r x t e) w c v w' c' := by
  obtain ⟨m, hm⟩ := h2
  exact ⟨m + 1, by simp [run, h, hm]⟩

theorem Runs.caseN_esc {x t e g v1} (h : E.lookup r = some (.esc g v1))
    (h2 : Runs M P E e w c v w' c') : Runs M P E (.caseN r x t e) w c v w' c' := by
  obtain ⟨m, hm⟩ := h2
  exact ⟨m + 1, by simp [run, h, hm]⟩

theorem Runs.caseE_eq {o x t e g v1} (h : E.lookup r = some (.esc g v1))
    (ho : E.lookup o = some (.tag g))
    (h2 : Runs M P ((x, v1) :: E) t w c v w' c') : Runs M P E (.caseE r o x t e) w c v w' c' := by
  obtain ⟨m, hm⟩ := h2
  exact ⟨m + 1, by simp [run, h, ho, hm]⟩

theorem Runs.caseE_ne {o x t e g g' v1} (h : E.lookup r = some (.esc g v1))
    (ho : E.lookup o = some (.tag g')) (hg : g ≠ g')
    (h2 : Runs M P E e w c v w' c') : Runs M P E (.caseE r o x t e) w c v w' c' := by
  obtain ⟨m, hm⟩ := h2
  exact ⟨m + 1, by simp [run, h, ho, hg, hm]⟩

theorem Runs.freshTag (h2 : Runs M P ((r, .tag c) :: E) k w (c + 1) v w' c') :
    Runs M P E (.freshTag r k) w c v w' c' := by
  obtain ⟨m, hm⟩ := h2
  exact ⟨m + 1, by simp [run, hm]⟩

theorem Runs.extend {ev tg tr hd as ms g vt vh} (h1 : E.lookup ev = some (.ev ms))
    (h3 : E.lookup tg = some (.tag g)) (h4 : E.lookup tr = some vt) (h5 : E.lookup hd = some vh)
    (h2 : Runs M P ((r, .ev (as.foldl (fun ms a => (a, (g, (vt, vh))) :: ms) ms)) :: E) k
      w c v w' c') :
    Runs M P E (.extend r ev tg tr hd as k) w c v w' c' := by
  obtain ⟨m, hm⟩ := h2
  exact ⟨m + 1, by simp only [run, h1, h3, h4, h5]; exact hm⟩

theorem Runs.emptyEv (h2 : Runs M P ((r, .ev []) :: E) k w c v w' c') :
    Runs M P E (.emptyEv r k) w c v w' c' := by
  obtain ⟨m, hm⟩ := h2
  exact ⟨m + 1, by simp [run, hm]⟩

theorem Runs.opcase_eq {a o t e} (h : E.lookup r = some (.opi a o))
    (h2 : Runs M P E t w c v w' c') : Runs M P E (.opcase r a o t e) w c v w' c' := by
  obtain ⟨m, hm⟩ := h2
  exact ⟨m + 1, by simp [run, h, hm]⟩

theorem Runs.opcase_ne {a o a' o' t e} (h : E.lookup r = some (.opi a' o'))
    (hne : ¬ (a' = a ∧ o' = o))
    (h2 : Runs M P E e w c v w' c') : Runs M P E (.opcase r a o t e) w c v w' c' := by
  obtain ⟨m, hm⟩ := h2
  exact ⟨m + 1, by simp [run, h, hne, hm]⟩

theorem Runs.unpack {ps vs} (h : E.lookup r = some (.tup vs)) (hl : ps.length = vs.length)
    (h2 : Runs M P (ps.zip vs ++ E) k w c v w' c') : Runs M P E (.unpack r ps k) w c v w' c' := by
  obtain ⟨m, hm⟩ := h2
  exact ⟨m + 1, by simp [run, h, hl, hm]⟩

/-- Calling the continuation. -/
theorem Runs.inv {kn vn kv e u} (hk : E.lookup (.k kn) = some kv) (he : E.lookup (.ev vn) = some e)
    (hr : E.lookup r = some u) (h1 : Applies M P kv [u] (some e) w c v w' c') :
    Runs M P E (inv kn vn r) w c v w' c' :=
  .callC hk he (by simp [lookups, hr]) h1 (.ret (by simp))

/-- Only a carrier passes a test for `Normal`. -/
theorem Runs.caseN_carrier {x t e u} (h : Runs M P E (.caseN r x t e) w c v w' c')
    (hr : E.lookup r = some u) : (∃ v1, u = .nrm v1) ∨ ∃ g v1, u = .esc g v1 := by
  obtain ⟨n, hn⟩ := h
  cases n with
  | zero => simp [run] at hn
  | succ n =>
    cases u <;> simp [run, hr] at hn ⊢

end Verif.Effects
