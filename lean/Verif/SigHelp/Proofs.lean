import Verif.SigHelp.Spec
/- Lemmas for signature help. -/
namespace Verif.SigHelp

open Spec

theorem pathInto_skip {o : Nat} {n : Node} {rest : List Node} (h : n.stop ≤ o) :
    pathInto o (n :: rest) = pathInto o rest := by
  cases n
  simp only [Node.stop] at h
  simp [pathInto, h]

theorem pathInto_enter {o : Nat} {n : Node} {rest : List Node} (h : Has n o) :
    pathInto o (n :: rest) = pathTo o n := by
  cases n
  simp only [Has, Node.start, Node.stop] at h
  simp only [pathInto]
  rw [if_neg (by omega), if_neg (by omega)]

/-- Among ordered children the path goes into the one that contains the offset. -/
theorem pathInto_mem {o : Nat} {kids : List Node} {k : Node}
    (hp : kids.Pairwise (fun a b => a.stop ≤ b.start)) (hk : k ∈ kids)
    (ho : Has k o) : pathInto o kids = pathTo o k := by
  induction kids with
  | nil => cases hk
  | cons n rest ih =>
    rw [List.pairwise_cons] at hp
    rcases List.mem_cons.mp hk with rfl | hk
    · exact pathInto_enter ho
    · have := hp.1 k hk
      rw [pathInto_skip (by have := ho.1; omega)]
      exact ih hp.2 hk

theorem pathTo_eq (o : Nat) (n : Node) : pathTo o n = n :: pathInto o n.kids := by
  cases n
  simp [pathTo, Node.kids]

mutual

/-- Every node on the path lies below the node at its start. -/
theorem path_below (o : Nat) : (n : Node) → ∀ m ∈ pathTo o n, Below o n m
  | .mk k f s e kids, m, hm => by
      rw [pathTo_eq] at hm
      rcases List.mem_cons.mp hm with rfl | hm
      · exact .here
      · obtain ⟨c, hc, ho, hb⟩ := path_into_below o kids m hm
        exact .down hc ho hb

theorem path_into_below (o : Nat) : (kids : List Node) → ∀ m ∈ pathInto o kids,
    ∃ k ∈ kids, Has k o ∧ Below o k m
  | [], m, hm => by simp [pathInto] at hm
  | .mk k f s e ks :: rest, m, hm => by
      have h1 := path_below o (.mk k f s e ks)
      have h2 := path_into_below o rest
      simp only [pathInto] at hm
      split at hm
      · obtain ⟨c, hc, h⟩ := h2 m hm
        exact ⟨c, List.mem_cons_of_mem _ hc, h⟩
      · split at hm
        · cases hm
        · exact ⟨_, List.mem_cons_self, ⟨by simp only [Node.start]; omega,
            by simp only [Node.stop]; omega⟩, h1 m hm⟩

end

theorem lastCall_none {l : List Node} (h : ∀ n ∈ l, n.kind ≠ "call_expression") :
    lastCall l = none := by
  induction l with
  | nil => rfl
  | cons n rest ih =>
    simp [lastCall, ih (fun m hm => h m (List.mem_cons_of_mem _ hm)), h n List.mem_cons_self]

theorem lastCall_mem {l : List Node} {c : Node} (h : lastCall l = some c) :
    c ∈ l ∧ c.kind = "call_expression" := by
  induction l with
  | nil => cases h
  | cons n rest ih =>
    simp only [lastCall] at h
    split at h
    · rename_i d hd
      cases h
      exact ⟨List.mem_cons_of_mem _ (ih hd).1, (ih hd).2⟩
    · split at h
      · cases h
        exact ⟨List.mem_cons_self, by assumption⟩
      · cases h

theorem lastCall_innermost {o : Nat} {root c : Node} (hb : Below o root c)
    (ho : Ordered root) (hc : c.kind = "call_expression")
    (hin : ∀ k ∈ c.kids, Has k o → ∀ m, Below o k m → m.kind ≠ "call_expression") :
    lastCall (pathTo o root) = some c := by
  induction hb with
  | @here n =>
    rw [pathTo_eq]
    have : lastCall (pathInto o n.kids) = none := by
      apply lastCall_none
      intro m hm
      obtain ⟨k, hk, hk', hb⟩ := path_into_below o _ m hm
      exact hin k hk hk' m hb
    simp [lastCall, this, hc]
  | @down n k m hk hko _ ih =>
    cases ho with
    | mk h1 h2 h3 =>
      rw [pathTo_eq]
      simp only [Node.kids] at hk ⊢
      rw [pathInto_mem h1 hk hko]
      simp [lastCall, ih (h3 k hk) hc hin]

theorem childByField_eq {c n : Node} {name : String} (h : Field c name n) :
    childByField c name = some n := by
  unfold childByField
  cases hf : c.kids.find? (fun k => k.field == some name) with
  | none =>
    rw [List.find?_eq_none] at hf
    exact absurd (by simpa using h.2.1) (hf n h.1)
  | some m =>
    have h1 := List.find?_some hf
    have h2 := List.mem_of_find?_eq_some hf
    rw [h.2.2 m h2 (by simpa using h1)]

theorem childByField_none {c : Node} {name : String} (h : ∀ k ∈ c.kids, k.field ≠ some name) :
    childByField c name = none := by
  unfold childByField
  rw [List.find?_eq_none]
  intro k hk
  simpa using h k hk

theorem countCommas_args {o : Nat} {l args : List Node} (ha : Args l args)
    (hp : l.Pairwise (fun a b => a.stop ≤ b.start)) (hs : ∀ n ∈ l, n.start ≤ n.stop)
    {i : Nat} {a : Node} (hi : args[i]? = some a) (ho : a.start ≤ o ∧ o ≤ a.stop) :
    countCommas o l = i := by
  induction ha generalizing i with
  | none => simp at hi
  | @last b close h1 h2 =>
    cases i with
    | succ i => simp at hi
    | zero =>
      simp only [List.getElem?_cons_zero, Option.some.injEq] at hi
      subst hi
      simp only [List.pairwise_cons, List.mem_cons, List.not_mem_nil, or_false, forall_eq] at hp
      have := hp.1
      simp only [countCommas, h1, h2, false_and, if_false]
      split
      · rfl
      · rw [if_pos (by omega)]
  | @more b comma rest args h1 h2 hne h3 ih =>
    have hp0 := hp
    rw [List.pairwise_cons, List.pairwise_cons] at hp
    cases i with
    | zero =>
      simp only [List.getElem?_cons_zero, Option.some.injEq] at hi
      subst hi
      have := hp.1 comma List.mem_cons_self
      simp only [countCommas, h1, false_and, if_false]
      split
      · rfl
      · rw [if_pos (by omega)]
    | succ i =>
      simp only [List.getElem?_cons_succ] at hi
      have hmem : a ∈ rest := by
        have hm : a ∈ args := List.mem_of_getElem? hi
        clear hi ih hp hp0 hs ho
        induction h3 with
        | none => cases hm
        | last => simp only [List.mem_singleton] at hm; subst hm; exact List.mem_cons_self
        | more _ _ _ _ ih =>
          rcases List.mem_cons.mp hm with rfl | hm
          · exact List.mem_cons_self
          · exact List.mem_cons_of_mem _ (List.mem_cons_of_mem _ (ih hm))
      have hb := hp.1 comma List.mem_cons_self
      have hc := hp.2.1 a hmem
      have hb' := hs b List.mem_cons_self
      have hc' := hs comma (List.mem_cons_of_mem _ List.mem_cons_self)
      have := ih hp.2.2 (fun n hn => hs n (List.mem_cons_of_mem _ (List.mem_cons_of_mem _ hn))) hi
      simp only [countCommas, h1, h2, false_and, if_false, this]
      rw [if_neg (by omega), if_neg (by omega), if_pos ⟨trivial, by omega⟩]
      omega

theorem below_inside {o : Nat} {n m : Node} (h : Below o n m) : Inside n m := by
  induction h with
  | here => exact .here
  | down hk _ _ ih => exact .down hk ih

theorem countCommas_list {o : Nat} {n : Node} {args : List Node} (ho : Ordered n)
    (ha : ArgumentList n args) {i : Nat} {a : Node} (hi : args[i]? = some a)
    (hc : a.start ≤ o ∧ o ≤ a.stop) : countCommas o n.kids = i := by
  obtain ⟨opening, rest, hk, hk', hne, hargs⟩ := ha
  cases ho with
  | mk h1 h2 h3 =>
    simp only [Node.kids] at hk ⊢
    subst hk
    rw [List.pairwise_cons] at h1
    have hm : a ∈ rest := by
      have hm : a ∈ args := List.mem_of_getElem? hi
      clear hi h1 h2 h3 hc
      induction hargs with
      | none => cases hm
      | last => simp only [List.mem_singleton] at hm; subst hm; exact List.mem_cons_self
      | more _ _ _ _ ih =>
        rcases List.mem_cons.mp hm with rfl | hm
        · exact List.mem_cons_self
        · exact List.mem_cons_of_mem _ (List.mem_cons_of_mem _ (ih hm))
    have h4 := h1.1 a hm
    have h5 := h2 opening List.mem_cons_self
    simp only [countCommas, hk', false_and, if_false]
    rw [if_neg (by omega),
      countCommas_args hargs h1.2 (fun n hn => h2 n (List.mem_cons_of_mem _ hn)) hi hc]
    omega

theorem Spec.Ordered.kid {n k : Node} (h : Ordered n) (hk : k ∈ n.kids) : Ordered k := by
  cases h with
  | mk _ _ h3 => exact h3 k hk

theorem ordered_below {o : Nat} {n m : Node} (h : Ordered n) (hb : Below o n m) : Ordered m := by
  induction hb with
  | here => exact h
  | down hk _ _ ih => exact ih (h.kid hk)

end Verif.SigHelp
