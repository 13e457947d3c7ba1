import Verif.RcLower.Proofs
/-!
# C24 — lowered retain and release implement the counting discipline
-/
namespace Verif.RcLower

/-- **C24.** Any number of threads running lowered blocks against shared memory produce exactly the
events and final memory that the blocks with atomic retain/release would: null pointers are left
alone, a count changes by exactly one, and the destructor is called (next) exactly when the count was
one. Both directions, for every interleaving and every behaviour of the other operations. -/
theorem C24_lowering (act : Effect) (n : Nat) (blocks : Fin n → List Op) (envs : Fin n → Nat → Word)
    (hssa : ∀ i, SSA (blocks i)) (h h' : Heap) (tr : List (Fin n × Event)) :
    Complete (lowered act) (fun i => LThread.start (blocks i) (envs i)) h tr h' ↔
    Complete (source act) (fun i => SThread.start (blocks i) (envs i)) h tr h' := by
  constructor
  · exact complete_of_sim (sim_up act) (List.finRange n) (List.mem_finRange)
      (fun i => start_rel act _ _ (hssa i))
  · exact complete_of_sim (sim_down act) (List.finRange n) (List.mem_finRange)
      (fun i => start_rel act _ _ (hssa i))

/-- A block that retains an object, uses the result, and releases both references. -/
def sampleBlock : List Op := [.retain 1 0, .other 2 7 [1, 0], .release 1 24, .release 0 24]

example : SSA sampleBlock := by
  intro before o after he d hd
  match before, he with
  | [], he => cases he; cases hd; decide
  | [_], he => cases he; cases hd; decide
  | [_, _], he => cases he; cases hd
  | [_, _, _], he => cases he; cases hd
  | _ :: _ :: _ :: _ :: _, he => simp [sampleBlock] at he

/-- **C24.** Let `p` be an object with `k ≥ 1` references and count `k`, and let any number of
threads run lowered blocks that respect the reference discipline for `p`, while the other
operations leave the count word of `p` alone. Then, in every complete run: the final count is the
number of remaining references; the destructor of `p` is called exactly once if no reference remains
and not at all otherwise; and when it is called there are no references, and none of the threads
touches the count afterwards. -/
theorem C24_destroyed_exactly_once (act : Effect) (n : Nat) (blocks : Fin n → List Op)
    (envs : Fin n → Nat → Word) (hssa : ∀ i, SSA (blocks i)) (h h' : Heap) (tr : List (Fin n × Event))
    (hrun : Complete (lowered act) (fun i => LThread.start (blocks i) (envs i)) h tr h')
    (p : Word) (k : Nat) (hk : 0 < k) (hk' : k < 2 ^ 32) (hcount : h (p - 8) = BitVec.ofNat 32 k)
    (hact : ∀ id args h, (act id args h).2 (p - 8) = h (p - 8)) (hdisc : Disciplined p k tr) :
    h' (p - 8) = BitVec.ofNat 32 (refsAfter p k tr) ∧
    (tr.countP (fun x => isDestroy p x.2) = if refsAfter p k tr = 0 then 1 else 0) ∧
    (∀ a i e b, tr = a ++ (i, e) :: b → isDestroy p e = true →
      refsAfter p k a = 0 ∧ ∀ x ∈ b, touches p x.2 = false) := by
  obtain ⟨ts', hr, hd⟩ := (C24_lowering act n blocks envs hssa h h' tr).1 hrun
  refine run_alive hact hr k hk hk' hcount ?_ hdisc ?_
  · rintro i ⟨sz, hs⟩; cases hs
  · rintro i ⟨sz, hs⟩
    have := (hd i).2
    rw [hs] at this; cases this

/-! A run of two threads sharing an object at address 64: each releases a reference, the second one
destroys it. -/

def noEffect : Effect := fun _ _ h => (0, h)
def twoRefs : Heap := fun a => if a = 56 then 2 else 0
def twoBlocks : Fin 2 → List Op := fun _ => [.release 0 24]
def twoTrace : List (Fin 2 × Event) := [(0, .release 64), (1, .release 64), (1, .destroy 64 24)]

example : Complete (lowered noEffect) (fun i => LThread.start (twoBlocks i) (fun _ => 64)) twoRefs twoTrace
    (upd (upd twoRefs 56 1) 56 0) := by
  rw [C24_lowering]
  · refine ⟨_, .vis (i := 0) (t := ⟨[], fun _ => 64, none⟩) (h1 := upd twoRefs 56 1) ?_ <|
      .vis (i := 1) (t := ⟨[], fun _ => 64, some (64, 24)⟩) (h1 := upd (upd twoRefs 56 1) 56 0) ?_ <|
      .vis (i := 1) (t := ⟨[], fun _ => 64, none⟩) ?_ .nil, ?_⟩
    · rfl
    · rfl
    · rfl
    · intro i; match i with
      | 0 => exact ⟨rfl, rfl⟩
      | 1 => exact ⟨rfl, rfl⟩
  · intro i before o after he d hd
    match before, he with
    | [], he => cases he; cases hd
    | _ :: _, he => simp [twoBlocks] at he

example : Disciplined 64 2 twoTrace ∧ refsAfter 64 2 twoTrace = 0 := by
  refine ⟨?_, by decide⟩
  intro before i e after he
  match before, he with
  | [], he => cases he; decide
  | [_], he => cases he; decide
  | [_, _], he => cases he; decide
  | _ :: _ :: _ :: _, he => simp [twoTrace] at he

end Verif.RcLower
