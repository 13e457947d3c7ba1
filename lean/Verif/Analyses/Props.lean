import Verif.Analyses.Proofs

/-! # C104: analyses shared by the passes of a phase -/

namespace Verif.Analyses

variable {Ir An : Type} [DecidableEq An] {Res : An → Type}

/-- C104 (requests).  After any history of a phase, a request is answered (it does not panic): by
what was computed at the request since which the analysis is remembered, if there is one, and
otherwise from the program as it is. -/
theorem C104_get (compute : Compute Ir Res) (ir : Ir) (h : List (Event Ir An)) (a : An)
    (t : OpRef) :
    ∃ v, ((run compute ir h).cache.get compute (run compute ir h).ir a t).2 = some v ∧
      (∀ h₁, Since h a t h₁ → v = compute a (irAfter ir h₁) t) ∧
      ((¬ ∃ h₁, Since h a t h₁) → v = compute a (irAfter ir h) t) := by
  obtain ⟨h1, h2⟩ := run_lookup compute ir h a t
  by_cases hg : ∃ h₁, Since h a t h₁
  · obtain ⟨h₀, hs⟩ := hg
    refine ⟨compute a (irAfter ir h₀) t, ?_, fun h₁ hs' => by rw [hs'.unique hs],
      fun hno => absurd ⟨h₀, hs⟩ hno⟩
    simp only [Cache.get, h1 h₀ hs]
    exact downcast_self _ _
  · refine ⟨compute a (irAfter ir h) t, ?_, fun h₁ hs => absurd ⟨h₁, hs⟩ hg, fun _ => rfl⟩
    simp only [Cache.get, h2 hg, run_ir]
    exact downcast_self _ _

/-- C104 (what is cached).  The cache holds exactly what has been asked for and not dropped since;
looking does not panic. -/
theorem C104_cached (compute : Compute Ir Res) (ir : Ir) (h : List (Event Ir An)) (a : An)
    (t : OpRef) (r : Option (Res a)) :
    (run compute ir h).cache.getCached a t = some r ↔
      ∃ h₁, Since h a t h₁ ∧ r = some (compute a (irAfter ir h₁) t) := by
  obtain ⟨h1, h2⟩ := run_lookup compute ir h a t
  by_cases hg : ∃ h₁, Since h a t h₁
  · obtain ⟨h₀, hs⟩ := hg
    simp only [Cache.getCached, h1 h₀ hs, Option.map_some, downcast_self, Option.some.injEq]
    constructor
    · intro hr; exact ⟨h₀, hs, hr.symm⟩
    · rintro ⟨h₁, hs', rfl⟩; rw [hs'.unique hs]
  · simp only [Cache.getCached, h2 hg, Option.map_none]
    constructor
    · intro hr; cases hr
    · rintro ⟨h₁, hs, -⟩; exact absurd ⟨h₁, hs⟩ hg

/-- C104 (freshness).  If every change that matters to an analysis is followed by an invalidation
that covers it, requests are answered for the program as it is. -/
theorem C104_fresh (compute : Compute Ir Res) (ir : Ir) (h : List (Event Ir An)) (a : An)
    (t : OpRef) (hd : Diligent compute ir h a t) :
    ((run compute ir h).cache.get compute (run compute ir h).ir a t).2 =
      some (compute a (irAfter ir h) t) := by
  obtain ⟨v, hv, h1, h2⟩ := C104_get compute ir h a t
  rw [hv]
  by_cases hg : ∃ h₁, Since h a t h₁
  · obtain ⟨h₀, hs⟩ := hg
    rw [h1 h₀ hs]
    obtain ⟨⟨h₃, heq, hn⟩, -⟩ := hs
    subst heq
    rw [irAfter_append, compute_stable compute a t (.get a t :: h₃) (irAfter ir h₀)]
    intro k₁ f k₂ hk
    have := hd (h₀ ++ k₁) f k₂ (by rw [hk]; simp)
    rw [irAfter_append] at this
    rcases this with h | ⟨e, he, hde⟩
    · exact h
    · exfalso
      cases k₁ with
      | nil => simp at hk
      | cons x k₁ =>
        simp only [List.cons_append, List.cons.injEq] at hk
        exact hn e (by rw [hk.2]; simp [he]) hde
  · rw [h2 hg]

/-- C104 (no more work than needed).  An analysis is computed at most once more often than it was
dropped. -/
theorem C104_once (compute : Compute Ir Res) (ir : Ir) (h : List (Event Ir An)) (a : An)
    (t : OpRef) :
    (run compute ir h).computed.count (a, t) ≤ h.countP (fun e => decide (e.drops a t)) + 1 := by
  have := run_count compute ir h a t
  have h2 : (if ((run compute ir h).cache.lookup (a, t)).isSome then 1 else 0) ≤ 1 := by
    split <;> omega
  omega

/-- C104 (size).  The size of the cache is the number of analyses it remembers. -/
theorem C104_len (compute : Compute Ir Res) (ir : Ir) (h : List (Event Ir An))
    (ks : List (An × OpRef)) (hnd : ks.Nodup)
    (hks : ∀ a t, (a, t) ∈ ks ↔ ∃ h₁, Since h a t h₁) :
    (run compute ir h).cache.len = ks.length := by
  have hp : ((run compute ir h).cache.map (·.1)).Perm ks := by
    rw [List.perm_ext_iff_of_nodup (run_nodup compute ir h) hnd]
    rintro ⟨a, t⟩
    rw [hks, ← lookup_isSome]
    obtain ⟨h1, h2⟩ := run_lookup compute ir h a t
    constructor
    · intro hs
      by_contra hno
      rw [h2 hno] at hs
      cases hs
    · rintro ⟨h₁, hs⟩
      rw [h1 h₁ hs]; rfl
  have := hp.length_eq
  simpa [Cache.len] using this

/-- C104 (the inliner).  Whatever else is cached, if the cached call graph is that of the program
(or there is none), the inliner does in every round what it would do with the graph of the program
as it is in that round, reports the changes of all rounds, and leaves everything else in the cache
alone; if rounds without changes leave the program as it is, the graph it leaves is that of the
program. -/
theorem C104_inline (compute : Compute Ir Res) (graph : An) (m : OpRef)
    (round : Res graph → Ir → Ir × Nat) (fuel count : Nat) (ir : Ir) (c : Cache Res)
    (hc : c.lookup (graph, m) = none ∨ c.lookup (graph, m) = some ⟨graph, compute graph ir m⟩)
    (ir' : Ir) (c' : Cache Res) (n : Nat)
    (hr : inlineLoop compute graph m round fuel count ir c = some (ir', c', n)) :
    (∃ k, n = count + k ∧ FreshRounds (compute graph · m) round ir ir' k) ∧
    (∀ a t, (a, t) ≠ (graph, m) → c'.lookup (a, t) = c.lookup (a, t)) ∧
    ((∀ g x, (round g x).2 = 0 → (round g x).1 = x) →
      c'.lookup (graph, m) = some ⟨graph, compute graph ir' m⟩) := by
  induction fuel generalizing count ir c with
  | zero => simp [inlineLoop] at hr
  | succ fuel ih =>
    have hget : (c.get compute ir graph m).2 = some (compute graph ir m) := by
      rcases hc with hc | hc <;> simp only [Cache.get, hc] <;> exact downcast_self _ _
    have hown : (c.get compute ir graph m).1.lookup (graph, m) =
        some ⟨graph, compute graph ir m⟩ := by
      rw [get_lookup, if_pos rfl]
      rcases hc with hc | hc <;> simp [hc]
    have hoth : ∀ a t, (a, t) ≠ (graph, m) →
        (c.get compute ir graph m).1.lookup (a, t) = c.lookup (a, t) := by
      intro a t hne
      rw [get_lookup, if_neg hne]
    rw [inlineLoop] at hr
    rcases hcg : c.get compute ir graph m with ⟨c₁, g⟩
    rw [hcg] at hget hown hoth hr
    simp only at hget hown hoth
    subst hget
    simp only at hr
    split at hr
    · next h0 =>
      simp only [Option.some.injEq, Prod.mk.injEq] at hr
      obtain ⟨rfl, rfl, rfl⟩ := hr
      refine ⟨⟨0, rfl, .done h0⟩, hoth, fun hid => ?_⟩
      rw [hid _ _ h0]
      exact hown
    · next h0 =>
      obtain ⟨⟨k, hk, hf⟩, ho, hlast⟩ := ih _ _ _
        (.inl (by rw [lookup_invalidate, if_pos rfl])) hr
      refine ⟨⟨_, ?_, .more h0 hf⟩, ?_, hlast⟩
      · omega
      · intro a t hne
        rw [ho a t hne, lookup_invalidate, if_neg hne, hoth a t hne]

/-- C104 (the inliner ends).  With enough rounds the loop gives an answer whenever inlining with
fresh graphs does. -/
theorem C104_inlineEnds (compute : Compute Ir Res) (graph : An) (m : OpRef)
    (round : Res graph → Ir → Ir × Nat) (ir ir' : Ir) (k : Nat)
    (hf : FreshRounds (compute graph · m) round ir ir' k) (count : Nat) (c : Cache Res)
    (hc : c.lookup (graph, m) = none ∨ c.lookup (graph, m) = some ⟨graph, compute graph ir m⟩) :
    ∃ fuel c', inlineLoop compute graph m round fuel count ir c = some (ir', c', count + k) := by
  induction hf generalizing count c with
  | @done ir h0 =>
    have hget : (c.get compute ir graph m).2 = some (compute graph ir m) := by
      rcases hc with hc | hc <;> simp only [Cache.get, hc] <;> exact downcast_self _ _
    rcases hcg : c.get compute ir graph m with ⟨c₁, g⟩
    rw [hcg] at hget
    simp only at hget
    subst hget
    exact ⟨1, c₁, by rw [inlineLoop, hcg]; simp [h0]⟩
  | @more ir ir' n h0 _ ih =>
    have hget : (c.get compute ir graph m).2 = some (compute graph ir m) := by
      rcases hc with hc | hc <;> simp only [Cache.get, hc] <;> exact downcast_self _ _
    rcases hcg : c.get compute ir graph m with ⟨c₁, g⟩
    rw [hcg] at hget
    simp only at hget
    subst hget
    obtain ⟨fuel, c', h⟩ := ih (count + (round (compute graph ir m) ir).2)
      (c₁.invalidate graph m) (.inl (by rw [lookup_invalidate, if_pos rfl]))
    refine ⟨fuel + 1, c', ?_⟩
    rw [inlineLoop, hcg]
    simp only [if_neg h0]
    rw [h, Nat.add_assoc]

/-! Cases: the program is a number, analysis `true` is its double, analysis `false` is whether it
exceeds the target. -/

def exRes : Bool → Type
  | true => Nat
  | false => Bool

def exCompute : Compute Nat exRes
  | true, ir, _ => (2 * ir : Nat)
  | false, ir, t => decide (t < ir)

def exHistory : List (Event Nat Bool) :=
  [.get true 0, .edit (· + 1), .get false 0, .invalidate true 0, .get true 0, .edit (· + 5)]

/-- An analysis is remembered since the second request, the first having been dropped. -/
example : Since exHistory true 0 (exHistory.take 4) := by
  refine ⟨⟨[.edit (· + 5)], rfl, by simp [Event.drops]⟩, ?_⟩
  intro h' h'' heq
  have hl := congrArg List.length heq
  simp only [exHistory, List.take, List.length_append, List.length_cons, List.length_nil] at hl
  rcases h' with _ | ⟨x, _ | ⟨y, _ | ⟨z, _ | ⟨w, h'⟩⟩⟩⟩
  · simp only [exHistory, List.take, List.nil_append, List.cons.injEq] at heq
    obtain ⟨-, rfl⟩ := heq
    exact ⟨.invalidate true 0, by simp, rfl, rfl⟩
  all_goals simp [exHistory] at heq

/-- It is stale then (program 6 + 3, twice the program when asked is 8). -/
example : ((run exCompute 3 exHistory).cache.get exCompute (run exCompute 3 exHistory).ir
    true 0).2 = some (8 : Nat) := rfl

/-- Invalidated, it is fresh. -/
example : ((run exCompute 3 (exHistory ++ [.invalidateAll 0])).cache.get exCompute
    (run exCompute 3 (exHistory ++ [.invalidateAll 0])).ir true 0).2 = some (18 : Nat) := rfl

/-- A history that meets the hypothesis of `C104_fresh`: a change that matters, then an
invalidation. -/
example : Diligent exCompute 3 [.get true 0, .edit (· + 1), .invalidate true 0] true 0 := by
  intro h₁ f h₂ heq
  rcases h₁ with _ | ⟨x, _ | ⟨y, _ | ⟨z, h₁⟩⟩⟩
  · simp at heq
  · simp only [List.cons_append, List.nil_append, List.cons.injEq] at heq
    obtain ⟨-, -, rfl⟩ := heq
    exact .inr ⟨.invalidate true 0, by simp, rfl, rfl⟩
  all_goals simp at heq

/-- Two analyses are remembered at the end, of three that were computed. -/
example : (run exCompute 3 exHistory).cache.len = 2 ∧
    (run exCompute 3 exHistory).computed = [(true, 0), (false, 0), (true, 0)] := ⟨rfl, rfl⟩

/-- The inliner on a program of five calls, one inlined per round as long as the graph shows any. -/
example : inlineLoop (Res := fun _ : Unit => Nat) (fun _ (ir : Nat) _ => ir) () 0
    (fun g ir => if g = 0 then (ir, 0) else (ir - 1, 1)) 10 0 5 [] =
    some (0, [(((), 0), ⟨(), 0⟩)], 5) := rfl

end Verif.Analyses
