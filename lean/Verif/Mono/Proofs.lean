import Verif.Mono.Spec
import Verif.Scheme.Proofs

/-!
# Names of specialisations: lemmas
-/

namespace Verif.Mono
open Verif.Types Verif.Solver

/-- What may follow a complete type. -/
def End (r : List Char) : Prop := r = [] ∨ ∃ c s, r = '$' :: c :: s ∧ c ≠ '0'

/-- What may follow a list of types. -/
def Term (r : List Char) : Prop := r = [] ∨ ∃ s, r = '$' :: '1' :: s

/-- Nothing, or a separator. -/
def Sep (r : List Char) : Prop := r = [] ∨ ∃ s, r = '$' :: s

theorem End.sep {r : List Char} (h : End r) : Sep r := by
  rcases h with h | ⟨c, s, h, _⟩
  · exact Or.inl h
  · exact Or.inr ⟨_, h⟩

theorem Term.fin {r : List Char} (h : Term r) : End r := by
  rcases h with h | ⟨s, h⟩
  · exact Or.inl h
  · exact Or.inr ⟨_, _, h, by decide⟩

theorem split_tok {a b r r' : List Char} (ha : '$' ∉ a) (hb : '$' ∉ b) (hr : Sep r) (hr' : Sep r')
    (h : a ++ r = b ++ r') : a = b ∧ r = r' := by
  induction a generalizing b with
  | nil =>
    cases b with
    | nil => exact ⟨rfl, h⟩
    | cons c b =>
      rcases hr with rfl | ⟨s, rfl⟩
      · simp at h
      · simp only [List.nil_append, List.cons_append, List.cons.injEq] at h
        exact absurd (h.1 ▸ List.mem_cons_self) hb
  | cons c a ih =>
    cases b with
    | nil =>
      rcases hr' with rfl | ⟨s, rfl⟩
      · simp at h
      · simp only [List.nil_append, List.cons_append, List.cons.injEq] at h
        exact absurd (h.1 ▸ List.mem_cons_self) ha
    | cons d b =>
      simp only [List.cons_append, List.cons.injEq] at h
      obtain ⟨e1, e2⟩ := ih (fun hm => ha (.tail _ hm)) (fun hm => hb (.tail _ hm)) h.2
      exact ⟨by rw [h.1, e1], e2⟩

/-- The first word of a written type. -/
def tok (nm : Names) : Head → List Char
  | .prim p => primName p
  | .never => "Never".toList
  | .named id _ => nm id
  | .tuple => "Tup".toList
  | .func _ => "Fn".toList
  | _ => []

/-- The heads of concrete types that can be written. -/
def Writable : Head → Prop
  | .prim p => p < 7
  | .never => True
  | .named _ _ => True
  | .tuple => True
  | .func _ => True
  | _ => False

theorem primName_mem (p : Nat) : primName p ∈ reserved.take 7 := by
  rcases p with _ | _ | _ | _ | _ | _ | _ | p
  case succ.succ.succ.succ.succ.succ.succ => exact (by decide : "Nil".toList ∈ reserved.take 7)
  all_goals decide

theorem reserved_ident : ∀ s ∈ reserved, Ident s := by
  intro s hs
  simp only [reserved, List.mem_cons, List.not_mem_nil, or_false] at hs
  rcases hs with rfl | rfl | rfl | rfl | rfl | rfl | rfl | rfl | rfl | rfl <;>
    exact ⟨by decide, by decide, by intro c hc; cases hc; decide⟩

theorem take_reserved {s : List Char} {n : Nat} (h : s ∈ reserved.take n) : s ∈ reserved :=
  List.mem_of_mem_take h

theorem tok_ident {nm : Names} (hg : GoodNames nm) {h : Head} (hw : Writable h) : Ident (tok nm h) := by
  cases h with
  | prim p => exact reserved_ident _ (take_reserved (primName_mem p))
  | never => exact reserved_ident _ (by simp only [tok]; decide)
  | named i n => exact (hg.2 i).1
  | tuple => exact reserved_ident _ (by simp only [tok]; decide)
  | func c => exact reserved_ident _ (by simp only [tok]; decide)
  | error => exact hw.elim
  | bound i => exact hw.elim
  | localBound i j => exact hw.elim
  | app => exact hw.elim
  | cont => exact hw.elim

theorem primName_inj {p q : Nat} (hp : p < 7) (hq : q < 7) (h : primName p = primName q) : p = q := by
  rcases p with _ | _ | _ | _ | _ | _ | _ | p <;> rcases q with _ | _ | _ | _ | _ | _ | _ | q <;>
    first | rfl | (exfalso; revert h; decide) | omega

/-- The head without calling convention and display name. -/
def forgetH : Head → Head
  | .func _ => .func 0
  | .named id _ => .named id 0
  | h => h

theorem forget_node (h : Head) (ks : List Ty) (es : List Eff) (r : Option Nat) :
    forget (.node h ks es r) = .node (forgetH h) (forgetL ks) [] none := by
  cases h <;> rfl

theorem tok_inj {nm : Names} (hg : GoodNames nm) {h h' : Head} (hw : Writable h) (hw' : Writable h')
    (e : tok nm h = tok nm h') : forgetH h = forgetH h' := by
  have prim : ∀ p, primName p ∉ reserved.drop 7 := by
    intro p hm
    have := primName_mem p
    generalize primName p = s at *
    revert s
    decide
  cases h <;> cases h' <;> simp only [Writable] at hw hw' <;> simp only [tok] at e
  case prim.prim p q => rw [primName_inj hw hw' e]
  case prim.never p => exact absurd (e ▸ (by decide : "Never".toList ∈ reserved.drop 7)) (prim p)
  case prim.named p i n => exact absurd (e ▸ take_reserved (primName_mem p)) (hg.2 i).2
  case prim.func p c => exact absurd (e ▸ (by decide : "Fn".toList ∈ reserved.drop 7)) (prim p)
  case prim.tuple p => exact absurd (e ▸ (by decide : "Tup".toList ∈ reserved.drop 7)) (prim p)
  case never.prim p => exact absurd (e ▸ (by decide : "Never".toList ∈ reserved.drop 7)) (prim p)
  case never.never => rfl
  case never.named i n => exact absurd (e ▸ (by decide : "Never".toList ∈ reserved)) (hg.2 i).2
  case never.func => exact absurd e (by decide)
  case never.tuple => exact absurd e (by decide)
  case named.prim i n p => exact absurd (e ▸ take_reserved (primName_mem p)) (hg.2 i).2
  case named.never i n => exact absurd (e ▸ (by decide : "Never".toList ∈ reserved)) (hg.2 i).2
  case named.named i n j m => simp only [forgetH, hg.1 i j e]
  case named.func i n c => exact absurd (e ▸ (by decide : "Fn".toList ∈ reserved)) (hg.2 i).2
  case named.tuple i n => exact absurd (e ▸ (by decide : "Tup".toList ∈ reserved)) (hg.2 i).2
  case func.prim c p => exact absurd (e ▸ (by decide : "Fn".toList ∈ reserved.drop 7)) (prim p)
  case func.never => exact absurd e (by decide)
  case func.named c i n => exact absurd (e ▸ (by decide : "Fn".toList ∈ reserved)) (hg.2 i).2
  case func.func => rfl
  case func.tuple => exact absurd e (by decide)
  case tuple.prim p => exact absurd (e ▸ (by decide : "Tup".toList ∈ reserved.drop 7)) (prim p)
  case tuple.never => exact absurd e (by decide)
  case tuple.named i n => exact absurd (e ▸ (by decide : "Tup".toList ∈ reserved)) (hg.2 i).2
  case tuple.func => exact absurd e (by decide)
  case tuple.tuple => rfl

/-- What follows the first word of a written type. -/
def tailW (nm : Names) (h : Head) (ks : List Ty) : Option (List Char) :=
  match h with
  | .named _ _ => if ks.isEmpty then some []
    else (writeL nm ks).map (fun s => "$0$".toList ++ s ++ "$1".toList)
  | .tuple => (writeL nm ks).map (fun s => "$0$".toList ++ s ++ "$1".toList)
  | .func _ => (writeF nm ks).map (fun s => "$0$".toList ++ s)
  | _ => some []

theorem write_eq {nm : Names} {h : Head} {ks : List Ty} {es : List Eff} {r : Option Nat} {x : List Char}
    (hw : WF (.node h ks es r)) (hc : concrete (.node h ks es r) = true)
    (hx : write nm (.node h ks es r) = some x) :
    Writable h ∧ ∃ t, tailW nm h ks = some t ∧ Sep t ∧ x = tok nm h ++ t := by
  cases h <;> simp only [concrete, Bool.false_eq_true] at hc <;>
    simp only [write, reduceCtorEq, Option.some.injEq] at hx
  case prim p => subst hx; exact ⟨hw.2.1, [], rfl, Or.inl rfl, by simp [tok]⟩
  case never => subst hx; exact ⟨trivial, [], rfl, Or.inl rfl, by simp [tok]⟩
  case named i n =>
    refine ⟨trivial, ?_⟩
    simp only [tailW]
    by_cases hk : ks.isEmpty = true
    · simp only [hk, if_true, Option.some.injEq] at hx ⊢
      subst hx
      exact ⟨[], rfl, Or.inl rfl, by simp [tok]⟩
    · simp only [hk, if_false, Bool.false_eq_true] at hx ⊢
      split at hx
      · simp at hx
      · rename_i s hs
        simp only [Option.some.injEq] at hx
        subst hx
        refine ⟨"$0$".toList ++ s ++ "$1".toList, by simp [hs], Or.inr ⟨_, rfl⟩, by simp [tok, List.append_assoc]⟩
  case tuple =>
    refine ⟨trivial, ?_⟩
    simp only [tailW]
    split at hx
    · simp at hx
    · rename_i s hs
      simp only [Option.some.injEq] at hx
      subst hx
      refine ⟨"$0$".toList ++ s ++ "$1".toList, by simp [hs], Or.inr ⟨_, rfl⟩, by simp [tok, List.append_assoc]⟩
  case func c =>
    refine ⟨trivial, ?_⟩
    simp only [tailW]
    split at hx
    · simp at hx
    · rename_i s hs
      simp only [Option.some.injEq] at hx
      subst hx
      refine ⟨"$0$".toList ++ s, by simp [hs], Or.inr ⟨_, rfl⟩, by simp [tok, List.append_assoc]⟩

/-- A written type starts with a character that is neither `$` nor a digit. -/
theorem write_head {nm : Names} (hg : GoodNames nm) {t : Ty} (hw : WF t) (hc : concrete t = true)
    {x : List Char} (hx : write nm t = some x) :
    ∃ c s, x = c :: s ∧ c ≠ '$' ∧ c.isDigit = false := by
  cases t with
  | uni v => simp [write] at hx
  | node h ks es r =>
    obtain ⟨w, t, _, _, rfl⟩ := write_eq hw hc hx
    obtain ⟨i1, i2, i3⟩ := tok_ident hg w
    cases ht : tok nm h with
    | nil => exact absurd ht i1
    | cons c s =>
      rw [ht] at i2 i3
      exact ⟨c, s ++ t, rfl, fun h => i2 (h ▸ List.mem_cons_self), i3 c rfl⟩

theorem wfl_iff {ts : List Ty} : WFL ts ↔ ∀ t ∈ ts, WF t := by
  induction ts with
  | nil => simp [WFL]
  | cons t ts ih => simp [WFL, ih]

theorem concreteL_iff {ts : List Ty} : concreteL ts = true ↔ ∀ t ∈ ts, concrete t = true := by
  induction ts with
  | nil => simp [concreteL]
  | cons t ts ih => simp [concreteL, ih]

/-- Injectivity at one type. -/
def Inj (nm : Names) (a : Ty) : Prop :=
  ∀ b x y r r', WF b → concrete b = true → write nm a = some x → write nm b = some y →
    End r → End r' → x ++ r = y ++ r' → forget a = forget b ∧ r = r'

section
variable {nm : Names} (hg : GoodNames nm)
include hg

theorem writeT_end {ts : List Ty} {s z : List Char} (hw : ∀ t ∈ ts, WF t)
    (hc : ∀ t ∈ ts, concrete t = true) (hs : writeT nm ts = some s) (hz : Term z) : End (s ++ z) := by
  cases ts with
  | nil => simp [writeT] at hs; subst hs; exact hz.fin
  | cons t ts =>
    rw [writeT] at hs
    split at hs
    · rename_i a b ha hb
      simp only [Option.some.injEq] at hs
      subst hs
      obtain ⟨c, s, rfl, _, h2⟩ := write_head hg (hw t (.head _)) (hc t (.head _)) ha
      exact Or.inr ⟨c, s ++ b ++ z, by simp, fun h => by subst h; exact absurd h2 (by decide)⟩
    · simp at hs

theorem writeT_inj {ts us : List Ty} (hi : ∀ t ∈ ts, Inj nm t) (hw : ∀ t ∈ ts, WF t)
    (hc : ∀ t ∈ ts, concrete t = true) (hw' : ∀ t ∈ us, WF t) (hc' : ∀ t ∈ us, concrete t = true)
    {s s' z z' : List Char} (hs : writeT nm ts = some s) (hs' : writeT nm us = some s')
    (hz : Term z) (hz' : Term z') (h : s ++ z = s' ++ z') : forgetL ts = forgetL us ∧ z = z' := by
  have clash : ∀ {t : Ty} {a b z z' : List Char}, WF t → concrete t = true → write nm t = some a →
      Term z → z = ('$' :: (a ++ b)) ++ z' → False := by
    intro t a b z z' hw hc ha hz h
    obtain ⟨c, s, rfl, _, h2⟩ := write_head hg hw hc ha
    rcases hz with rfl | ⟨s', rfl⟩
    · simp at h
    · simp only [List.cons_append, List.cons.injEq] at h
      rw [← h.2.1] at h2
      exact absurd h2 (by decide)
  induction ts generalizing us s s' with
  | nil =>
    simp [writeT] at hs
    subst hs
    cases us with
    | nil => simp [writeT] at hs'; subst hs'; exact ⟨rfl, h⟩
    | cons u us =>
      rw [writeT] at hs'
      split at hs'
      · rename_i a b ha hb
        simp only [Option.some.injEq] at hs'
        subst hs'
        exact (clash (hw' u (.head _)) (hc' u (.head _)) ha hz h).elim
      · simp at hs'
  | cons t ts ih =>
    rw [writeT] at hs
    split at hs
    · rename_i a b ha hb
      simp only [Option.some.injEq] at hs
      subst hs
      cases us with
      | nil =>
        simp [writeT] at hs'
        subst hs'
        exact (clash (hw t (.head _)) (hc t (.head _)) ha hz' h.symm).elim
      | cons u us =>
        rw [writeT] at hs'
        split at hs'
        · rename_i a' b' ha' hb'
          simp only [Option.some.injEq] at hs'
          subst hs'
          simp only [List.cons_append, List.cons.injEq, true_and, List.append_assoc] at h
          obtain ⟨e1, e2⟩ := hi t (.head _) u a a' (b ++ z) (b' ++ z') (hw' u (.head _)) (hc' u (.head _)) ha ha'
            (writeT_end hg (fun t ht => hw t (.tail _ ht)) (fun t ht => hc t (.tail _ ht)) hb hz)
            (writeT_end hg (fun t ht => hw' t (.tail _ ht)) (fun t ht => hc' t (.tail _ ht)) hb' hz') h
          obtain ⟨e3, e4⟩ := ih (fun t ht => hi t (.tail _ ht)) (fun t ht => hw t (.tail _ ht))
            (fun t ht => hc t (.tail _ ht)) (fun t ht => hw' t (.tail _ ht)) (fun t ht => hc' t (.tail _ ht))
            hb hb' e2
          exact ⟨by simp only [forgetL, e1, e3], e4⟩
        · simp at hs'
    · simp at hs

theorem writeL_inj {ts us : List Ty} (hi : ∀ t ∈ ts, Inj nm t) (hw : ∀ t ∈ ts, WF t)
    (hc : ∀ t ∈ ts, concrete t = true) (hw' : ∀ t ∈ us, WF t) (hc' : ∀ t ∈ us, concrete t = true)
    {s s' r r' : List Char} (hs : writeL nm ts = some s) (hs' : writeL nm us = some s')
    (h : s ++ ("$1".toList ++ r) = s' ++ ("$1".toList ++ r')) : forgetL ts = forgetL us ∧ r = r' := by
  have hT : ∀ r, Term ("$1".toList ++ r) := fun r => Or.inr ⟨r, rfl⟩
  have clash : ∀ {t : Ty} {a b r r' : List Char}, WF t → concrete t = true → write nm t = some a →
      "$1".toList ++ r = (a ++ b) ++ r' → False := by
    intro t a b r r' hw hc ha h
    obtain ⟨c, s, rfl, h1, _⟩ := write_head hg hw hc ha
    simp only [List.cons_append] at h
    exact h1 (by
      have : (("$1".toList ++ r).head?) = some '$' := rfl
      rw [h] at this
      simpa using this)
  cases ts with
  | nil =>
    simp [writeL] at hs
    subst hs
    cases us with
    | nil =>
      simp [writeL] at hs'; subst hs'
      exact ⟨rfl, by simpa using h⟩
    | cons u us =>
      rw [writeL] at hs'
      split at hs'
      · rename_i a b ha hb
        simp only [Option.some.injEq] at hs'
        subst hs'
        exact (clash (hw' u (.head _)) (hc' u (.head _)) ha h).elim
      · simp at hs'
  | cons t ts =>
    rw [writeL] at hs
    split at hs
    · rename_i a b ha hb
      simp only [Option.some.injEq] at hs
      subst hs
      cases us with
      | nil =>
        simp [writeL] at hs'
        subst hs'
        exact (clash (hw t (.head _)) (hc t (.head _)) ha h.symm).elim
      | cons u us =>
        rw [writeL] at hs'
        split at hs'
        · rename_i a' b' ha' hb'
          simp only [Option.some.injEq] at hs'
          subst hs'
          rw [List.append_assoc, List.append_assoc] at h
          obtain ⟨e1, e2⟩ := hi t (.head _) u a a' _ _ (hw' u (.head _)) (hc' u (.head _)) ha ha'
            (writeT_end hg (fun t ht => hw t (.tail _ ht)) (fun t ht => hc t (.tail _ ht)) hb (hT r))
            (writeT_end hg (fun t ht => hw' t (.tail _ ht)) (fun t ht => hc' t (.tail _ ht)) hb' (hT r')) h
          obtain ⟨e3, e4⟩ := writeT_inj hg (fun t ht => hi t (.tail _ ht)) (fun t ht => hw t (.tail _ ht))
            (fun t ht => hc t (.tail _ ht)) (fun t ht => hw' t (.tail _ ht)) (fun t ht => hc' t (.tail _ ht))
            hb hb' (hT r) (hT r') e2
          exact ⟨by simp only [forgetL, e1, e3], by simpa using e4⟩
        · simp at hs'
    · simp at hs

/-- The first character of the rest of a function type, and what it tells. -/
theorem writeFT_head {t : Ty} {ts : List Ty} {s : List Char} (hw : ∀ u ∈ t :: ts, WF u)
    (hc : ∀ u ∈ t :: ts, concrete u = true) (hs : writeFT nm (t :: ts) = some s) :
    ∃ c s', s = '$' :: c :: s' ∧ (ts = [] → c = '1') ∧ (ts ≠ [] → c.isDigit = false) ∧ c ≠ '0' := by
  rw [writeFT] at hs
  split at hs
  · rename_i a b ha hb
    simp only [Option.some.injEq] at hs
    subst hs
    cases ts with
    | nil => exact ⟨'1', '$' :: a, rfl, fun _ => rfl, fun h => (h rfl).elim, by decide⟩
    | cons u us =>
      obtain ⟨c, s, rfl, _, h2⟩ := write_head hg (hw t (.head _)) (hc t (.head _)) ha
      exact ⟨c, s ++ b, by simp, fun h => by simp at h, fun _ => h2,
        fun h => by subst h; exact absurd h2 (by decide)⟩
  · simp at hs

theorem writeFT_inj {ts us : List Ty} (hi : ∀ t ∈ ts, Inj nm t) (hw : ∀ t ∈ ts, WF t)
    (hc : ∀ t ∈ ts, concrete t = true) (hw' : ∀ t ∈ us, WF t) (hc' : ∀ t ∈ us, concrete t = true)
    (hn : ts ≠ []) (hn' : us ≠ [])
    {s s' z z' : List Char} (hs : writeFT nm ts = some s) (hs' : writeFT nm us = some s')
    (hz : End z) (hz' : End z') (h : s ++ z = s' ++ z') : forgetL ts = forgetL us ∧ z = z' := by
  induction ts generalizing us s s' with
  | nil => exact (hn rfl).elim
  | cons t ts ih =>
    cases us with
    | nil => exact (hn' rfl).elim
    | cons u us =>
      obtain ⟨c, s1, e1, e2, e3, _⟩ := writeFT_head hg hw hc hs
      obtain ⟨c', s1', e1', e2', e3', _⟩ := writeFT_head hg hw' hc' hs'
      have hcc : c = c' := by
        rw [e1, e1'] at h
        simp only [List.cons_append, List.cons.injEq, true_and] at h
        exact h.1
      have dig : ('1' : Char).isDigit = true := by decide
      rw [writeFT] at hs hs'
      split at hs
      · rename_i a b ha hb
        split at hs'
        · rename_i a' b' ha' hb'
          simp only [Option.some.injEq] at hs hs'
          subst hs
          subst hs'
          by_cases h1 : ts = []
          · by_cases h2 : us = []
            · subst h1; subst h2
              simp only [List.isEmpty_nil, if_true, List.append_assoc] at h
              have h' := List.append_cancel_left h
              obtain ⟨f1, f2⟩ := hi t (.head _) u a a' z z' (hw' u (.head _)) (hc' u (.head _)) ha ha' hz hz' h'
              exact ⟨by simp only [forgetL, f1], f2⟩
            · have a1 := e2 h1
              have a2 := e3' h2
              rw [← hcc, a1, dig] at a2
              exact absurd a2 (by decide)
          · by_cases h2 : us = []
            · have a1 := e2' h2
              have a2 := e3 h1
              rw [hcc, a1, dig] at a2
              exact absurd a2 (by decide)
            · have g1 : ts.isEmpty = false := by cases ts <;> simp_all
              have g2 : us.isEmpty = false := by cases us <;> simp_all
              simp only [g1, g2, if_false, Bool.false_eq_true, List.cons_append, List.cons.injEq, true_and,
                List.append_assoc] at h
              obtain ⟨t2, ts2, rfl⟩ : ∃ a l, ts = a :: l := by
                cases ts with
                | nil => exact (h1 rfl).elim
                | cons a l => exact ⟨a, l, rfl⟩
              obtain ⟨u2, us2, rfl⟩ : ∃ a l, us = a :: l := by
                cases us with
                | nil => exact (h2 rfl).elim
                | cons a l => exact ⟨a, l, rfl⟩
              obtain ⟨d, w, rfl, _, _, d0⟩ := writeFT_head hg (fun t ht => hw t (.tail _ ht)) (fun t ht => hc t (.tail _ ht)) hb
              obtain ⟨d', w', rfl, _, _, d0'⟩ := writeFT_head hg (fun t ht => hw' t (.tail _ ht)) (fun t ht => hc' t (.tail _ ht)) hb'
              obtain ⟨f1, f2⟩ := hi t (.head _) u a a' _ _ (hw' u (.head _)) (hc' u (.head _)) ha ha'
                (Or.inr ⟨d, w ++ z, rfl, d0⟩) (Or.inr ⟨d', w' ++ z', rfl, d0'⟩) h
              obtain ⟨f3, f4⟩ := ih (fun t ht => hi t (.tail _ ht)) (fun t ht => hw t (.tail _ ht))
                (fun t ht => hc t (.tail _ ht)) (fun t ht => hw' t (.tail _ ht)) (fun t ht => hc' t (.tail _ ht))
                h1 h2 hb hb' f2
              exact ⟨by show _ :: _ = _ :: _; rw [f1, f3], f4⟩
        · simp at hs'
      · simp at hs

theorem writeF_inj {ts us : List Ty} (hi : ∀ t ∈ ts, Inj nm t) (hw : ∀ t ∈ ts, WF t)
    (hc : ∀ t ∈ ts, concrete t = true) (hw' : ∀ t ∈ us, WF t) (hc' : ∀ t ∈ us, concrete t = true)
    {s s' z z' : List Char} (hs : writeF nm ts = some s) (hs' : writeF nm us = some s')
    (hz : End z) (hz' : End z') (h : s ++ z = s' ++ z') : forgetL ts = forgetL us ∧ z = z' := by
  have clash : ∀ {t : Ty} {a b r r' : List Char}, WF t → concrete t = true → write nm t = some a →
      "$1$".toList ++ r = (a ++ b) ++ r' → False := by
    intro t a b r r' hw hc ha h
    obtain ⟨c, s, rfl, h1, _⟩ := write_head hg hw hc ha
    exact h1 (by
      have : (("$1$".toList ++ r).head?) = some '$' := rfl
      rw [h] at this
      simpa using this)
  cases ts with
  | nil => simp [writeF] at hs
  | cons t ts =>
    cases us with
    | nil => simp [writeF] at hs'
    | cons u us =>
      rw [writeF] at hs hs'
      split at hs
      · rename_i a b ha hb
        split at hs'
        · rename_i a' b' ha' hb'
          simp only [Option.some.injEq] at hs hs'
          subst hs
          subst hs'
          by_cases h1 : ts = []
          · subst h1
            simp only [List.isEmpty_nil, if_true] at h
            by_cases h2 : us = []
            · subst h2
              simp only [List.isEmpty_nil, if_true, List.append_assoc] at h
              have h' := List.append_cancel_left h
              obtain ⟨f1, f2⟩ := hi t (.head _) u a a' z z' (hw' u (.head _)) (hc' u (.head _)) ha ha' hz hz' h'
              exact ⟨by simp only [forgetL, f1], f2⟩
            · have g2 : us.isEmpty = false := by cases us <;> simp_all
              simp only [g2, if_false, Bool.false_eq_true] at h
              rw [List.append_assoc "$1$".toList] at h
              exact (clash (hw' u (.head _)) (hc' u (.head _)) ha' h).elim
          · have g1 : ts.isEmpty = false := by cases ts <;> simp_all
            simp only [g1, if_false, Bool.false_eq_true] at h
            by_cases h2 : us = []
            · subst h2
              simp only [List.isEmpty_nil, if_true] at h
              rw [List.append_assoc "$1$".toList] at h
              exact (clash (hw t (.head _)) (hc t (.head _)) ha h.symm).elim
            · have g2 : us.isEmpty = false := by cases us <;> simp_all
              simp only [g2, if_false, Bool.false_eq_true, List.append_assoc] at h
              obtain ⟨t2, ts2, rfl⟩ : ∃ a l, ts = a :: l := by
                cases ts with
                | nil => exact (h1 rfl).elim
                | cons a l => exact ⟨a, l, rfl⟩
              obtain ⟨u2, us2, rfl⟩ : ∃ a l, us = a :: l := by
                cases us with
                | nil => exact (h2 rfl).elim
                | cons a l => exact ⟨a, l, rfl⟩
              obtain ⟨d, w, rfl, _, _, d0⟩ := writeFT_head hg (fun t ht => hw t (.tail _ ht)) (fun t ht => hc t (.tail _ ht)) hb
              obtain ⟨d', w', rfl, _, _, d0'⟩ := writeFT_head hg (fun t ht => hw' t (.tail _ ht)) (fun t ht => hc' t (.tail _ ht)) hb'
              obtain ⟨f1, f2⟩ := hi t (.head _) u a a' _ _ (hw' u (.head _)) (hc' u (.head _)) ha ha'
                (Or.inr ⟨d, w ++ z, rfl, d0⟩) (Or.inr ⟨d', w' ++ z', rfl, d0'⟩) h
              obtain ⟨f3, f4⟩ := writeFT_inj hg (fun t ht => hi t (.tail _ ht)) (fun t ht => hw t (.tail _ ht))
                (fun t ht => hc t (.tail _ ht)) (fun t ht => hw' t (.tail _ ht)) (fun t ht => hc' t (.tail _ ht))
                h1 h2 hb hb' hz hz' f2
              exact ⟨by show _ :: _ = _ :: _; rw [f1, f3], f4⟩
        · simp at hs'
      · simp at hs

theorem write_inj (a : Ty) (hw : WF a) (hc : concrete a = true) : Inj nm a := by
  induction a using Ty.ind with
  | hu v => intro b x y r r' _ _ hx; simp [write] at hx
  | hn h ks es rr ihk _ =>
    intro b x y r r' hwb hcb hx hy hr hr' he
    cases b with
    | uni v => simp [write] at hy
    | node h' ks' es' rr' =>
      obtain ⟨w, t, ht, st, rfl⟩ := write_eq hw hc hx
      obtain ⟨w', t', ht', st', rfl⟩ := write_eq hwb hcb hy
      have sep : ∀ {t r : List Char}, Sep t → Sep r → Sep (t ++ r) := by
        intro t r h1 h2
        rcases h1 with rfl | ⟨s, rfl⟩
        · exact h2
        · exact Or.inr ⟨_, rfl⟩
      rw [List.append_assoc, List.append_assoc] at he
      obtain ⟨e1, e2⟩ := split_tok (tok_ident hg w).2.1 (tok_ident hg w').2.1 (sep st hr.sep) (sep st' hr'.sep) he
      have e3 := tok_inj hg w w' e1
      rw [forget_node, forget_node, e3]
      have kw := wfl_iff.mp hw.1
      have kw' := wfl_iff.mp hwb.1
      have clash : ∀ {r s : List Char}, End r → r = "$0$".toList ++ s → False := by
        intro r s hr h
        rcases hr with rfl | ⟨c, s', rfl, hc⟩
        · simp at h
        · simp at h
          exact hc h.1
      have lists : ∀ {s s' : List Char}, (concreteL ks = true) → (concreteL ks' = true) →
          writeL nm ks = some s → writeL nm ks' = some s' →
          "$0$".toList ++ s ++ "$1".toList ++ r = "$0$".toList ++ s' ++ "$1".toList ++ r' →
          forgetL ks = forgetL ks' ∧ r = r' := by
        intro s s' c1 c2 hs hs' h
        simp only [List.append_assoc] at h
        have h' := List.append_cancel_left h
        exact writeL_inj hg (fun k hk => ihk k hk (kw k hk) (concreteL_iff.mp c1 k hk)) kw (concreteL_iff.mp c1)
          kw' (concreteL_iff.mp c2) hs hs' h'
      cases h <;> cases h' <;> simp only [Writable] at w w' <;> simp only [forgetH, reduceCtorEq] at e3
      case prim.prim p q =>
        simp only [tailW, Option.some.injEq] at ht ht'
        subst ht; subst ht'
        rw [hw.2.2.1, hwb.2.2.1]
        exact ⟨rfl, e2⟩
      case never.never =>
        simp only [tailW, Option.some.injEq] at ht ht'
        subst ht; subst ht'
        rw [hw.2.1, hwb.2.1]
        exact ⟨rfl, e2⟩
      case named.named i n j m =>
        simp only [concrete] at hc hcb
        simp only [tailW] at ht ht'
        by_cases hk : ks.isEmpty = true
        · by_cases hk' : ks'.isEmpty = true
          · simp only [hk, hk', if_true, Option.some.injEq] at ht ht'
            subst ht; subst ht'
            rw [List.isEmpty_iff.mp hk, List.isEmpty_iff.mp hk']
            exact ⟨rfl, e2⟩
          · simp only [hk, if_true, Option.some.injEq] at ht
            simp only [hk', if_false, Bool.false_eq_true, Option.map_eq_some_iff] at ht'
            obtain ⟨s, hs, rfl⟩ := ht'
            subst ht
            rw [List.append_assoc, List.append_assoc] at e2
            exact (clash hr e2).elim
        · by_cases hk' : ks'.isEmpty = true
          · simp only [hk', if_true, Option.some.injEq] at ht'
            simp only [hk, if_false, Bool.false_eq_true, Option.map_eq_some_iff] at ht
            obtain ⟨s, hs, rfl⟩ := ht
            subst ht'
            rw [List.append_assoc, List.append_assoc] at e2
            exact (clash hr' e2.symm).elim
          · simp only [hk, hk', if_false, Bool.false_eq_true, Option.map_eq_some_iff] at ht ht'
            obtain ⟨s, hs, rfl⟩ := ht
            obtain ⟨s', hs', rfl⟩ := ht'
            obtain ⟨f1, f2⟩ := lists hc hcb hs hs' e2
            rw [f1]
            exact ⟨rfl, f2⟩
      case tuple.tuple =>
        simp only [concrete] at hc hcb
        simp only [tailW, Option.map_eq_some_iff] at ht ht'
        obtain ⟨s, hs, rfl⟩ := ht
        obtain ⟨s', hs', rfl⟩ := ht'
        obtain ⟨f1, f2⟩ := lists hc hcb hs hs' e2
        rw [f1]
        exact ⟨rfl, f2⟩
      case func.func =>
        simp only [concrete, Bool.and_eq_true] at hc hcb
        simp only [tailW, Option.map_eq_some_iff] at ht ht'
        obtain ⟨s, hs, rfl⟩ := ht
        obtain ⟨s', hs', rfl⟩ := ht'
        rw [List.append_assoc, List.append_assoc] at e2
        have e2' := List.append_cancel_left e2
        obtain ⟨f1, f2⟩ := writeF_inj hg (fun k hk => ihk k hk (kw k hk) (concreteL_iff.mp hc.1.1 k hk)) kw
          (concreteL_iff.mp hc.1.1) kw' (concreteL_iff.mp hcb.1.1) hs hs' hr hr' e2'
        rw [f1]
        exact ⟨rfl, f2⟩

end

theorem noContL_iff {ts : List Ty} : NoContL ts ↔ ∀ t ∈ ts, NoCont t := by
  induction ts with
  | nil => simp [NoContL]
  | cons t ts ih => simp [NoContL, ih]

theorem writeT_some {nm : Names} {ts : List Ty} (h : ∀ t ∈ ts, ∃ s, write nm t = some s) :
    ∃ s, writeT nm ts = some s := by
  induction ts with
  | nil => exact ⟨[], by simp [writeT]⟩
  | cons t ts ih =>
    obtain ⟨a, ha⟩ := h t (.head _)
    obtain ⟨b, hb⟩ := ih (fun t ht => h t (.tail _ ht))
    exact ⟨'$' :: (a ++ b), by simp [writeT, ha, hb]⟩

theorem writeL_some {nm : Names} {ts : List Ty} (h : ∀ t ∈ ts, ∃ s, write nm t = some s) :
    ∃ s, writeL nm ts = some s := by
  cases ts with
  | nil => exact ⟨[], by simp [writeL]⟩
  | cons t ts =>
    obtain ⟨a, ha⟩ := h t (.head _)
    obtain ⟨b, hb⟩ := writeT_some (fun t ht => h t (.tail _ ht))
    exact ⟨a ++ b, by simp [writeL, ha, hb]⟩

theorem writeFT_some {nm : Names} {ts : List Ty} (h : ∀ t ∈ ts, ∃ s, write nm t = some s) :
    ∃ s, writeFT nm ts = some s := by
  induction ts with
  | nil => exact ⟨[], by simp [writeFT]⟩
  | cons t ts ih =>
    obtain ⟨a, ha⟩ := h t (.head _)
    obtain ⟨b, hb⟩ := ih (fun t ht => h t (.tail _ ht))
    simp only [writeFT, ha, hb]
    exact ⟨_, rfl⟩

theorem writeF_some {nm : Names} {ts : List Ty} (hn : ts ≠ []) (h : ∀ t ∈ ts, ∃ s, write nm t = some s) :
    ∃ s, writeF nm ts = some s := by
  cases ts with
  | nil => exact (hn rfl).elim
  | cons t ts =>
    obtain ⟨a, ha⟩ := h t (.head _)
    obtain ⟨b, hb⟩ := writeFT_some (fun t ht => h t (.tail _ ht))
    simp only [writeF, ha, hb]
    exact ⟨_, rfl⟩

/-- Concrete types without continuations can be written. -/
theorem write_some {nm : Names} (t : Ty) (hw : WF t) (hc : concrete t = true) (hn : NoCont t) :
    ∃ s, write nm t = some s := by
  induction t using Ty.ind with
  | hu v => simp [concrete] at hc
  | hn h ks es r ihk _ =>
    have kw := wfl_iff.mp hw.1
    have kn := noContL_iff.mp hn.2
    have hk : concreteL ks = true → ∀ k ∈ ks, ∃ s, write nm k = some s :=
      fun c k hm => ihk k hm (kw k hm) (concreteL_iff.mp c k hm) (kn k hm)
    cases h <;> simp only [concrete, Bool.false_eq_true, Bool.and_eq_true] at hc
    case prim p => exact ⟨_, by rw [write]⟩
    case never => exact ⟨_, by rw [write]⟩
    case named i n =>
      obtain ⟨s, hs⟩ := writeL_some (hk hc)
      simp only [write, hs]
      split <;> exact ⟨_, rfl⟩
    case tuple =>
      obtain ⟨s, hs⟩ := writeL_some (hk hc)
      simp only [write, hs]
      exact ⟨_, rfl⟩
    case func c =>
      obtain ⟨s, hs⟩ := writeF_some hw.2 (hk hc.1.1)
      simp only [write, hs]
      exact ⟨_, rfl⟩
    case cont => exact (hn.1 rfl).elim

end Verif.Mono
