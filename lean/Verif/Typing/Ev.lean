import Verif.Typing.Spec
import Verif.Scheme.Let
import Verif.Solver.Plain

/-!
# Assignments of erased types to variables: lemmas about the solver
-/

namespace Verif.Typing
open Verif.Types Verif.Solver Verif.Scheme

/-! ## Evaluation -/

theorem evL_eq (δ : UVar → S) (β : List S) (ts : List Ty) : evL δ β ts = ts.map (ev δ β) := by
  induction ts with
  | nil => rfl
  | cons t ts ih => simp [evL, ih]

/-- The head is a quantified variable. -/
def isBound : Head → Bool
  | .bound _ => true
  | _ => false

theorem ev_node {δ : UVar → S} {β : List S} {h : Head} {ks : List Ty} {es : List Eff} {r : Option Nat}
    (hb : isBound h = false) : ev δ β (.node h ks es r) = .node (head h) (ks.map (ev δ β)) := by
  cases h <;> simp_all [ev, evL_eq, isBound]

theorem ev_onTy (δ : UVar → S) (β : List S) (θ : Sub) (t : Ty) :
    ev δ β (θ.onTy t) = ev (fun v => ev δ β (θ.ty v)) β t := by
  induction t using Ty.ind with
  | hu v => simp [Sub.onTy, ev]
  | hn h ks es r ihk ihe =>
    rw [Sub.onTy]
    by_cases hb : isBound h = true
    · cases h <;> simp_all [isBound, ev]
    · have hb : isBound h = false := by simpa using hb
      rw [ev_node hb, ev_node hb, onTyL_eq, List.map_map]
      congr 1
      exact List.map_congr_left (fun k hk => ihk k hk)

theorem ev_congr {δ δ' : UVar → S} {β : List S} (t : Ty) (h : ∀ v, Occurs v t → δ v = δ' v) :
    ev δ β t = ev δ' β t := by
  induction t using Ty.ind with
  | hu v => simp only [ev]; exact h v (by simp [Occurs])
  | hn hd ks es r ihk ihe =>
    by_cases hb : isBound hd = true
    · cases hd <;> simp_all [isBound, ev]
    · have hb : isBound hd = false := by simpa using hb
      rw [ev_node hb, ev_node hb]
      congr 1
      exact List.map_congr_left (fun k hk => ihk k hk (fun v hv => h v (occurs_node.2 (.inl ⟨k, hk, hv⟩))))

/-! ## Types of the fragment -/

theorem okL_iff {m : Nat} {ts : List Ty} : OkL m ts ↔ ∀ t ∈ ts, Ok m t := by
  induction ts with
  | nil => simp [OkL]
  | cons t ts ih => simp [OkL, ih]

theorem ok_node {m : Nat} {h : Head} {ks : List Ty} {es : List Eff} {r : Option Nat} :
    Ok m (.node h ks es r) ↔ OkHead m h ∧ (∀ t ∈ ks, Ok m t) ∧ OkRow ⟨es, r⟩ := by
  simp [Ok, okL_iff, OkRow]

theorem OkHead.mono {m m' : Nat} (hm : m ≤ m') {h : Head} (ho : OkHead m h) : OkHead m' h := by
  cases h <;> simp_all [OkHead]; omega

theorem Ok.mono {m m' : Nat} (hm : m ≤ m') {t : Ty} (h : Ok m t) : Ok m' t := by
  induction t using Ty.ind with
  | hu v => simp [Ok]
  | hn hd ks es r ihk ihe =>
    rw [ok_node] at h ⊢
    exact ⟨h.1.mono hm, fun t ht => ihk t ht (h.2.1 t ht), h.2.2⟩

theorem okHead_zero {h : Head} (ho : OkHead 0 h) : isBound h = false := by
  cases h <;> simp_all [OkHead, isBound]

theorem ev_ok {δ : UVar → S} {β β' : List S} {t : Ty} (h : Ok 0 t) : ev δ β t = ev δ β' t := by
  induction t using Ty.ind with
  | hu v => simp [ev]
  | hn hd ks es r ihk ihe =>
    rw [ok_node] at h
    rw [ev_node (okHead_zero h.1), ev_node (okHead_zero h.1)]
    congr 1
    exact List.map_congr_left (fun k hk => ihk k hk (h.2.1 k hk))

theorem rowVars_node' {h : Head} {ks : List Ty} {es : List Eff} {r : Option Nat} {v : Nat} :
    v ∈ Ty.rowVars (.node h ks es r) ↔
      (∃ t ∈ ks, v ∈ Ty.rowVars t) ∨ v ∈ Eff.rowVarsL es ∨ r = some v := by
  simp [Ty.rowVars, Solver.rowVarsL_mem, Option.mem_def, or_assoc]

theorem Ok.simple {m N : Nat} {t : Ty} (h : Ok m t) (hN : ∀ v ∈ Ty.rowVars t, v < N) : Simple N t := by
  induction t using Ty.ind with
  | hu v => simp [Simple]
  | hn hd ks es r ihk ihe =>
    rw [ok_node] at h
    rw [simple_node]
    refine ⟨fun t ht => ihk t ht (h.2.1 t ht) (fun v hv => hN v (rowVars_node'.2 (.inl ⟨t, ht, hv⟩))), ?_⟩
    exact ⟨h.2.2.1, h.2.2.2, fun v hv => hN v (rowVars_node'.2 (.inr (.inr hv)))⟩

theorem exists_above (vs : List Nat) : ∃ N, ∀ v ∈ vs, v < N := by
  induction vs with
  | nil => exact ⟨0, by simp⟩
  | cons v vs ih =>
    obtain ⟨N, h⟩ := ih
    refine ⟨max N (v + 1), fun w hw => ?_⟩
    rcases List.mem_cons.1 hw with rfl | hw
    · omega
    · have := h w hw; omega

theorem Ok.noWild {m : Nat} {t : Ty} (h : Ok m t) : NoWild t := by
  induction t using Ty.ind with
  | hu v => simp [NoWild]
  | hn hd ks es r ihk ihe =>
    rw [ok_node] at h
    rw [noWild_node]
    refine ⟨?_, ?_, fun t ht => ihk t ht (h.2.1 t ht), fun e he a ha => ?_⟩
    · rintro rfl; exact h.1
    · rintro rfl; exact h.1
    · rw [h.2.2.1 e he] at ha; cases ha

def OkCon : Con → Prop
  | .teq a b => Ok 0 a ∧ Ok 0 b
  | .req a b => OkRow a ∧ OkRow b

theorem OkRow.simple {r : Row} (h : OkRow r) : ∃ N, SimpleRow N r := by
  obtain ⟨es, o⟩ := r
  cases o with
  | none => exact ⟨0, h.1, h.2, by simp⟩
  | some v => exact ⟨v + 1, h.1, h.2, by simp⟩

theorem OkCon.simple {c : Con} (h : OkCon c) : c.Simple := by
  cases c with
  | teq a b =>
    obtain ⟨N, hN⟩ := exists_above (Ty.rowVars a ++ Ty.rowVars b)
    exact ⟨N, h.1.simple (fun v hv => hN v (by simp [hv])), h.2.simple (fun v hv => hN v (by simp [hv]))⟩
  | req a b =>
    obtain ⟨N, hN⟩ := h.1.simple
    obtain ⟨M, hM⟩ := h.2.simple
    exact ⟨max N M, hN.mono (by omega), hM.mono (by omega)⟩

/-- The bindings of the log are in the fragment. -/
def OkLog (σ : TLog) : Prop := ∀ v t, (v, t) ∈ σ → Ok 0 t

theorem rowApply_ok {ρ : RLog} (hρ : ∀ v r, (v, r) ∈ ρ → OkRow r) {r : Row} (h : OkRow r) :
    OkRow (rowApply ρ r) := by
  obtain ⟨N, hN⟩ : ∃ N, ∀ v r, (v, r) ∈ ρ → SimpleRow N r := by
    clear h
    induction ρ with
    | nil => exact ⟨0, by simp⟩
    | cons p ρ ih =>
      obtain ⟨v, s⟩ := p
      obtain ⟨N, hN⟩ := ih (fun v r hm => hρ v r (.tail _ hm))
      obtain ⟨M, hM⟩ := (hρ v s (.head _)).simple
      refine ⟨max N M, fun w q hm => ?_⟩
      rcases List.mem_cons.1 hm with hm | hm
      · cases hm; exact hM.mono (by omega)
      · exact (hN w q hm).mono (by omega)
  obtain ⟨M, hM⟩ := h.simple
  have := rowApply_simple (N := max N M) (fun v r hm => (hN v r hm).mono (by omega)) r (hM.mono (by omega))
  exact ⟨this.1, this.2.1⟩

theorem apply_ok {σ : TLog} {ρ : RLog} (hσ : OkLog σ) (hρ : ∀ v r, (v, r) ∈ ρ → OkRow r) (n : Nat)
    {m : Nat} {t t' : Ty} (ht : Ok m t) (h : apply σ ρ n t = some t') : Ok m t' := by
  induction n generalizing t t' with
  | zero => simp [apply] at h
  | succ n ih =>
    cases t with
    | uni v =>
      simp only [apply] at h
      cases hl : σ.lookup v with
      | none => simp [hl] at h; subst h; simp [Ok]
      | some s => simp only [hl] at h; exact ih ((hσ v s (lookup_mem hl)).mono (Nat.zero_le _)) h
    | node hd ks es r =>
      rw [ok_node] at ht
      have hr := rowApply_ok hρ ht.2.2
      simp only [apply, mapArgs_simple hr.1] at h
      cases hk : mapO (apply σ ρ n) ks with
      | none => simp [hk] at h
      | some ks' =>
        simp [hk] at h
        subst h
        rw [ok_node]
        refine ⟨ht.1, fun t hm => ?_, hr⟩
        obtain ⟨k, hk1, hk2⟩ := Forall₂_right (mapO_some hk) t hm
        exact ih (ht.2.1 k hk1) hk2

/-! ## Assignments that satisfy the bindings -/

/-- Every bound variable stands for what its binding stands for. -/
def EvSat (δ : UVar → S) (σ : TLog) : Prop := ∀ v t, (v, t) ∈ σ → δ v = ev δ [] t

theorem mapO_length {α β : Type} {f : α → Option β} {l : List α} {l' : List β}
    (h : mapO f l = some l') : l.length = l'.length := (mapO_some h).length_eq

theorem apply_ev {δ : UVar → S} {β : List S} {σ : TLog} {ρ : RLog} (hσ : OkLog σ) (hd : EvSat δ σ) (n : Nat)
    {t t' : Ty} (h : apply σ ρ n t = some t') : ev δ β t' = ev δ β t := by
  induction n generalizing t t' with
  | zero => simp [apply] at h
  | succ n ih =>
    cases t with
    | uni v =>
      simp only [apply] at h
      cases hl : σ.lookup v with
      | none => simp [hl] at h; subst h; rfl
      | some s =>
        simp only [hl] at h
        rw [ih h, ev, hd v s (lookup_mem hl)]
        exact ev_ok (hσ v s (lookup_mem hl))
    | node hd ks es r =>
      simp only [apply] at h
      cases hk : mapO (apply σ ρ n) ks with
      | none => simp [hk] at h
      | some ks' =>
        cases he : mapArgs (apply σ ρ n) (rowApply ρ ⟨es, r⟩).effects with
        | none => simp [hk, he] at h
        | some es' =>
          simp [hk, he] at h
          subst h
          by_cases hb : isBound hd = true
          · cases hd <;> simp_all [isBound, ev]
          · have hb : isBound hd = false := by simpa using hb
            rw [ev_node hb, ev_node hb]
            congr 1
            have h2 := mapO_some hk
            clear hk
            induction h2 with
            | nil => rfl
            | cons h1 _ ihl => simp [ih h1, ihl]

/-- The assignment that extends `δ` along the bindings. -/
def extend (σ : TLog) (δ : UVar → S) : UVar → S := fun v => ev δ [] ((chainT σ).ty v)

theorem extend_sat {σ : TLog} (h : Tri Occurs σ) (δ : UVar → S) : EvSat (extend σ δ) σ := by
  intro v t hm
  rw [extend, chainT_solves h v t hm, ev_onTy]
  rfl

theorem extend_unbound {σ : TLog} {δ : UVar → S} {v : UVar} (h : σ.lookup v = none) :
    extend σ δ v = δ v := by
  rw [extend, chainT_unbound σ h, ev]

/-! ## Solving -/

/-- What a constraint asks of an assignment. -/
def conEv (δ : UVar → S) : Con → Prop
  | .teq a b => ev δ [] a = ev δ [] b
  | .req _ _ => True

theorem head_of_sameHead {h h' : Head} (hh : sameHead h h' = true) : head h = head h' := by
  cases h <;> cases h' <;> simp_all [sameHead, head]

theorem sameHead_of_head {h h' : Head} (o : OkHead 0 h) (o' : OkHead 0 h') (hh : head h = head h') :
    sameHead h h' = true := by
  cases h <;> cases h' <;> simp_all [sameHead, head, OkHead]

theorem bindVar_ev {n : Nat} {v : UVar} {t : Ty} {st st' : St} (hσ : OkLog st.σ) (ht : Ok 0 t)
    (h : bindVar n v t st = some (true, st')) :
    OkLog st'.σ ∧ ∀ δ, EvSat δ st'.σ ↔ EvSat δ st.σ ∧ δ v = ev δ [] t := by
  simp only [bindVar] at h
  cases ho : occursIn v st.ρ n t with
  | none => simp [ho] at h
  | some x =>
    cases x with
    | true => simp [ho] at h
    | false =>
      simp [ho] at h
      subst h
      refine ⟨?_, fun δ => ?_⟩
      · intro w s hm
        rcases List.mem_cons.mp hm with hm | hm
        · cases hm; exact ht
        · exact hσ w s hm
      · constructor
        · intro hs
          exact ⟨fun w s hm => hs w s (.tail _ hm), hs v t (.head _)⟩
        · rintro ⟨h1, h2⟩ w s hm
          rcases List.mem_cons.mp hm with hm | hm
          · cases hm; exact h2
          · exact h1 w s hm

/-- What solving an equation does to the set of assignments. -/
def UEv (u : Ty → Ty → St → Res) : Prop :=
  ∀ a b (st st' : St), Solver.Inv st → Simple st.next a → Simple st.next b → Ok 0 a → Ok 0 b → OkLog st.σ →
    u a b st = some (true, st') →
    OkLog st'.σ ∧ ∀ δ, EvSat δ st'.σ ↔ EvSat δ st.σ ∧ ev δ [] a = ev δ [] b

theorem unifyL_ev {n : Nat} (hu : UEv (unify n)) (as bs : List Ty) {st st' : St} (h : Inv st)
    (hl : as.length = bs.length)
    (ha : ∀ t ∈ as, Simple st.next t) (hb : ∀ t ∈ bs, Simple st.next t) (oa : ∀ t ∈ as, Ok 0 t)
    (ob : ∀ t ∈ bs, Ok 0 t) (hσ : OkLog st.σ) (hr : unifyL (unify n) as bs st = some (true, st')) :
    OkLog st'.σ ∧ ∀ δ, EvSat δ st'.σ ↔ EvSat δ st.σ ∧ as.map (ev δ []) = bs.map (ev δ []) := by
  induction as generalizing bs st with
  | nil =>
    cases bs with
    | cons b bs => simp at hl
    | nil => simp [unifyL] at hr; subst hr; exact ⟨hσ, by simp⟩
  | cons a as ih =>
    cases bs with
    | nil => simp at hl
    | cons b bs =>
      simp only [unifyL] at hr
      cases hab : unify n a b st with
      | none => simp [hab, andThen] at hr
      | some x =>
        obtain ⟨f, s⟩ := x
        cases f with
        | false => simp [hab, andThen] at hr
        | true =>
          simp only [hab, andThen] at hr
          obtain ⟨o1, e1⟩ := hu a b st s h (ha a (.head _)) (hb b (.head _)) (oa a (.head _))
            (ob b (.head _)) hσ hab
          obtain ⟨i1, i2⟩ := unify_inv n a b st true s h (ha a (.head _)) (hb b (.head _)) hab
          obtain ⟨o2, e2⟩ := ih bs i1 (by simpa using hl) (fun t ht => (ha t (.tail _ ht)).mono i2)
            (fun t ht => (hb t (.tail _ ht)).mono i2) (fun t ht => oa t (.tail _ ht))
            (fun t ht => ob t (.tail _ ht)) o1 hr
          refine ⟨o2, fun δ => ?_⟩
          rw [e2, e1]
          simp [and_assoc]

theorem unify_ev (n : Nat) : UEv (unify n) := by
  induction n with
  | zero => intro a b st st' _ _ _ _ _ _ hu; simp [unify] at hu
  | succ n ih =>
    intro t1 t2 st st' h s1 s2 p1 p2 hσ hu
    cases ha : apply st.σ [] n t1 with
    | none => simp [unify, ha] at hu
    | some a =>
      cases hb : apply st.σ [] n t2 with
      | none => simp [unify, ha, hb] at hu
      | some b =>
        rw [unify_step ha hb] at hu
        have sa : Simple st.next a := apply_simple h.frag.1 (by simp) n s1 ha
        have sb : Simple st.next b := apply_simple h.frag.1 (by simp) n s2 hb
        have pa : Ok 0 a := apply_ok hσ (by simp) n p1 ha
        have pb : Ok 0 b := apply_ok hσ (by simp) n p2 hb
        suffices OkLog st'.σ ∧ ∀ δ, EvSat δ st'.σ ↔ EvSat δ st.σ ∧ ev δ [] a = ev δ [] b by
          refine ⟨this.1, fun δ => ?_⟩
          rw [this.2]
          constructor
          · rintro ⟨q1, q2⟩
            exact ⟨q1, by rw [← apply_ev hσ q1 n ha, ← apply_ev hσ q1 n hb, q2]⟩
          · rintro ⟨q1, q2⟩
            exact ⟨q1, by rw [apply_ev hσ q1 n ha, apply_ev hσ q1 n hb, q2]⟩
        clear ha hb p1 p2 s1 s2
        simp only [unifyStep] at hu
        split at hu
        · rename_i hab
          simp at hu; subst hu; subst hab
          exact ⟨hσ, by simp⟩
        split at hu
        · exact bindVar_ev hσ pb hu
        · obtain ⟨o, e⟩ := bindVar_ev hσ pa hu
          refine ⟨o, fun δ => ?_⟩
          rw [e, ev, eq_comm (a := δ _)]
        · rename_i hd ks es rr hd' ks' es' rr' _
          split at hu
          · simp at hu
          split at hu
          · rename_i hx
            rw [ok_node] at pa pb
            rcases hx with rfl | rfl
            · exact pa.1.elim
            · exact pb.1.elim
          split at hu
          · rename_i hx
            rw [ok_node] at pa pb
            rcases hx with rfl | rfl
            · exact pa.1.elim
            · exact pb.1.elim
          rw [simple_node] at sa sb
          rw [ok_node] at pa pb
          simp only [unifyNodes] at hu
          split at hu
          · simp at hu
          rename_i hsame
          have hsame : sameHead hd hd' = true := by simpa using hsame
          split at hu
          · split at hu
            · cases hk : unifyL (unify n) (ks.take 1) (ks'.take 1) st with
              | none => simp [hk, andThen] at hu
              | some x =>
                obtain ⟨f, s⟩ := x
                cases f <;> simp [hk, andThen] at hu
            · simp at hu
          · rename_i hlen
            have hlen : ks.length = ks'.length := by simpa using hlen
            cases hk : unifyL (unify n) ks ks' st with
            | none => simp [hk, andThen] at hu
            | some x =>
              obtain ⟨f, s⟩ := x
              cases f with
              | false => simp [hk, andThen] at hu
              | true =>
                simp only [hk, andThen] at hu
                obtain ⟨o1, e1⟩ := unifyL_ev ih ks ks' h hlen sa.1 sb.1 pa.2.1 pb.2.1 hσ hk
                obtain ⟨q2, q3⟩ := unifyL_inv (fun a b st r st' h1 h2 h3 h4 => unify_inv n a b st r st' h1 h2 h3 h4)
                  ks ks' h sa.1 sb.1 hk
                obtain ⟨b2, s2, e2, hσ2, _⟩ := unifyRowsWith_exact (p := fun σ => unifiable σ n)
                  (u := unify n) (n := n) q2 (sa.2.mono q3) (sb.2.mono q3)
                rw [e2] at hu
                simp at hu
                obtain ⟨_, rfl⟩ := hu
                rw [hσ2]
                refine ⟨o1, fun δ => ?_⟩
                rw [e1, ev_node (okHead_zero pa.1), ev_node (okHead_zero pb.1),
                  head_of_sameHead hsame]
                simp

/-- The invariant of the solver's state. -/
structure SInv (st : St) : Prop where
  inv : Inv st
  ok : OkLog st.σ

theorem SInv.init : SInv St.init := ⟨reach_inv .init, by intro v t hm; cases hm⟩

theorem SInv.mono {st : St} (h : SInv st) {N : Nat} (hN : st.next ≤ N) : SInv { st with next := N } :=
  ⟨h.inv.mono hN, h.ok⟩

theorem SInv.rows {st : St} (h : SInv st) : ∀ v r, (v, r) ∈ st.ρ → OkRow r :=
  fun v r hm => ⟨(h.inv.frag.2 v r hm).2.1, (h.inv.frag.2 v r hm).2.2.1⟩

theorem solveLoop_ev {n : Nat} {cs : List Con} {st st' : St} (h : SInv st)
    (hb : ∀ c ∈ cs, ConBelow st.next c) (ho : ∀ c ∈ cs, OkCon c) {bs : List Bool}
    (hs : solveLoop n cs st = some (bs, st')) (ht : false ∉ bs) :
    SInv st' ∧ ∀ δ, EvSat δ st'.σ ↔ EvSat δ st.σ ∧ ∀ c ∈ cs, conEv δ c := by
  induction cs generalizing st bs with
  | nil => simp [solveLoop] at hs; obtain ⟨_, rfl⟩ := hs; exact ⟨h, by simp⟩
  | cons c cs ih =>
    simp only [solveLoop] at hs
    split at hs
    · simp at hs
    · rename_i b1 s1 hcc
      split at hs
      · simp at hs
      · rename_i bs' s2 hl
        simp at hs; obtain ⟨rfl, rfl⟩ := hs
        simp only [List.mem_cons, not_or] at ht
        obtain ⟨i1, i2⟩ := solveCon_inv h.inv (hb c (.head _)) hcc
        have hb1 : b1 = true := by cases b1 <;> simp_all
        subst hb1
        have key : OkLog s1.σ ∧ ∀ δ, EvSat δ s1.σ ↔ EvSat δ st.σ ∧ conEv δ c := by
          have hcb := hb c (.head _)
          have hco := ho c (.head _)
          cases c with
          | teq a b => exact unify_ev n a b st s1 h.inv hcb.1 hcb.2 hco.1 hco.2 h.ok hcc
          | req a b =>
            obtain ⟨b2, s2', e2, hσ2, _⟩ := unifyRowsWith_exact (p := fun σ => unifiable σ n)
              (u := unify n) (n := n) h.inv hcb.1 hcb.2
            have hcc' : unifyRowsWith n (fun σ => unifiable σ n) (unify n) a b st = some (true, s1) := hcc
            rw [e2] at hcc'
            simp at hcc'
            obtain ⟨_, rfl⟩ := hcc'
            rw [hσ2]; exact ⟨h.ok, by simp [conEv]⟩
        obtain ⟨j1, j2⟩ := ih ⟨i1, key.1⟩ (fun x hx => (hb x (.tail _ hx)).mono i2)
          (fun x hx => ho x (.tail _ hx)) hl ht.2
        refine ⟨j1, fun δ => ?_⟩
        rw [j2, key.2]
        simp [and_assoc]

theorem solve_ev {n : Nat} {cs : List Con} {st st' : St} (h : SInv st) (ho : ∀ c ∈ cs, OkCon c)
    {bs : List Bool} (hs : solve n cs st = some (bs, st')) (ht : false ∉ bs) :
    SInv st' ∧ ∀ δ, EvSat δ st'.σ ↔ EvSat δ st.σ ∧ ∀ c ∈ cs, conEv δ c :=
  solveLoop_ev (st := { st with next := reserve st.next (cs.flatMap Con.rowVars) }) ⟨reserved_inv h.inv _, h.ok⟩
    (conBelow_reserved _ (fun c hc => (ho c hc).simple)) ho hs ht

end Verif.Typing
