import Verif.Solver.Total

/-!
# Without `Error` and `Never`, no wildcard ever enters the substitution
-/

namespace Verif.Solver
open Verif.Types

theorem noWildL_iff {ts : List Ty} : NoWildL ts ↔ ∀ t ∈ ts, NoWild t := by
  induction ts with
  | nil => simp [NoWildL]
  | cons t ts ih => simp [NoWildL, ih]

theorem noWildE_iff {es : List Eff} : NoWildE es ↔ ∀ e ∈ es, ∀ a ∈ e.args, NoWild a := by
  induction es with
  | nil => simp [NoWildE]
  | cons e es ih =>
    cases e with
    | mk a as => simp [NoWildE, NoWildEff, noWildL_iff, ih, Eff.args]

theorem noWild_node {h : Head} {ks : List Ty} {es : List Eff} {r : Option Nat} :
    NoWild (.node h ks es r) ↔ h ≠ .error ∧ h ≠ .never ∧ (∀ t ∈ ks, NoWild t) ∧
      ∀ e ∈ es, ∀ a ∈ e.args, NoWild a := by
  simp [NoWild, noWildL_iff, noWildE_iff]

/-- No binding mentions a wildcard. -/
def PlainLog (σ : TLog) : Prop := ∀ v t, (v, t) ∈ σ → NoWild t

theorem apply_noWild {σ : TLog} {ρ : RLog} (hσ : PlainLog σ)
    (hρ : ∀ v r, (v, r) ∈ ρ → ∀ e ∈ r.effects, e.args = []) (n : Nat) {t t' : Ty} (ht : NoWild t)
    (h : apply σ ρ n t = some t') : NoWild t' := by
  induction n generalizing t t' with
  | zero => simp [apply] at h
  | succ n ih =>
    cases t with
    | uni v =>
      simp only [apply] at h
      cases hl : σ.lookup v with
      | none => simp [hl] at h; subst h; simp [NoWild]
      | some s => simp only [hl] at h; exact ih (hσ v s (lookup_mem hl)) h
    | node hd ks es r =>
      rw [noWild_node] at ht
      simp only [apply] at h
      cases hk : mapO (apply σ ρ n) ks with
      | none => simp [hk] at h
      | some ks' =>
        cases he : mapArgs (apply σ ρ n) (rowApply ρ ⟨es, r⟩).effects with
        | none => simp [hk, he] at h
        | some es' =>
          simp [hk, he] at h
          subst h
          rw [noWild_node]
          refine ⟨ht.1, ht.2.1, ?_, ?_⟩
          · intro k hkm
            obtain ⟨k0, hk0, hk1⟩ := Forall₂_right (mapO_some hk) k hkm
            exact ih (ht.2.2.1 k0 hk0) hk1
          · intro e hem a ha
            obtain ⟨e0, he0, hab, hargs⟩ := Forall₂_right (mapArgs_some he) e hem
            obtain ⟨a0, ha0, ha1⟩ := Forall₂_right hargs a ha
            refine ih ?_ ha1
            rcases rowLoop_mem _ _ _ he0 with hm | ⟨v, s, hv, hm⟩
            · exact ht.2.2.2 e0 hm a0 ha0
            · rw [hρ v s hv e0 hm] at ha0; cases ha0

theorem bindVar_plain {n : Nat} {v : UVar} {t : Ty} {st : St} {b : Bool} {st' : St}
    (hσ : PlainLog st.σ) (ht : NoWild t) (h : bindVar n v t st = some (b, st')) : PlainLog st'.σ := by
  simp only [bindVar] at h
  cases ho : occursIn v st.ρ n t with
  | none => simp [ho] at h
  | some x =>
    cases x with
    | true => simp [ho] at h; obtain ⟨_, rfl⟩ := h; exact hσ
    | false =>
      simp [ho] at h
      obtain ⟨_, rfl⟩ := h
      intro w s hm
      rcases List.mem_cons.mp hm with hm | hm
      · cases hm; exact ht
      · exact hσ w s hm

theorem unifyL_plain {n : Nat}
    (hu : ∀ a b st r st', Inv st → Simple st.next a → Simple st.next b → NoWild a → NoWild b →
      PlainLog st.σ → unify n a b st = some (r, st') → PlainLog st'.σ)
    (as bs : List Ty) {st : St} (h : Inv st) (ha : ∀ t ∈ as, Simple st.next t)
    (hb : ∀ t ∈ bs, Simple st.next t) (pa : ∀ t ∈ as, NoWild t) (pb : ∀ t ∈ bs, NoWild t)
    (hσ : PlainLog st.σ) {r : Bool} {st' : St} (hr : unifyL (unify n) as bs st = some (r, st')) :
    PlainLog st'.σ := by
  induction as generalizing bs st with
  | nil => simp [unifyL] at hr; obtain ⟨_, rfl⟩ := hr; exact hσ
  | cons a as ih =>
    cases bs with
    | nil => simp [unifyL] at hr; obtain ⟨_, rfl⟩ := hr; exact hσ
    | cons b bs =>
      simp only [unifyL] at hr
      cases hab : unify n a b st with
      | none => simp [hab, andThen] at hr
      | some x =>
        obtain ⟨f, s⟩ := x
        have hs := hu a b st f s h (ha a (.head _)) (hb b (.head _)) (pa a (.head _)) (pb b (.head _)) hσ hab
        obtain ⟨i1, i2⟩ := unify_inv n a b st f s h (ha a (.head _)) (hb b (.head _)) hab
        cases f with
        | false => simp [hab, andThen] at hr; obtain ⟨_, rfl⟩ := hr; exact hs
        | true =>
          simp only [hab, andThen] at hr
          exact ih bs i1 (fun t ht => (ha t (.tail _ ht)).mono i2) (fun t ht => (hb t (.tail _ ht)).mono i2)
            (fun t ht => pa t (.tail _ ht)) (fun t ht => pb t (.tail _ ht)) hs hr

theorem unify_plain (n : Nat) (t1 t2 : Ty) (st : St) (r : Bool) (st' : St) (h : Inv st)
    (s1 : Simple st.next t1) (s2 : Simple st.next t2) (p1 : NoWild t1) (p2 : NoWild t2)
    (hσ : PlainLog st.σ) (hu : unify n t1 t2 st = some (r, st')) : PlainLog st'.σ := by
  induction n generalizing t1 t2 st r st' with
  | zero => simp [unify] at hu
  | succ n ih =>
    cases ha : apply st.σ [] n t1 with
    | none => simp [unify, ha] at hu
    | some a =>
      cases hb : apply st.σ [] n t2 with
      | none => simp [unify, ha, hb] at hu
      | some b =>
        rw [unify_step ha hb] at hu
        have sa : Simple st.next a := apply_simple h.frag.1 (by simp) n s1 ha
        have sb : Simple st.next b := apply_simple h.frag.1 (by simp) n s2 hb
        have pa : NoWild a := apply_noWild hσ (by simp) n p1 ha
        have pb : NoWild b := apply_noWild hσ (by simp) n p2 hb
        clear ha hb
        simp only [unifyStep] at hu
        split at hu
        · simp at hu; obtain ⟨_, rfl⟩ := hu; exact hσ
        split at hu
        · exact bindVar_plain hσ pb hu
        · exact bindVar_plain hσ pa hu
        · rename_i hd ks es rr hd' ks' es' rr' _
          split at hu
          · simp at hu; obtain ⟨_, rfl⟩ := hu; exact hσ
          split at hu
          · simp at hu; obtain ⟨_, rfl⟩ := hu; exact hσ
          split at hu
          · simp at hu; obtain ⟨_, rfl⟩ := hu; exact hσ
          rw [simple_node] at sa sb
          rw [noWild_node] at pa pb
          have kids : ∀ as bs : List Ty, (∀ x ∈ as, x ∈ ks) → (∀ x ∈ bs, x ∈ ks') → ∀ r s,
              unifyL (unify n) as bs st = some (r, s) → PlainLog s.σ ∧ Inv s ∧ st.next ≤ s.next := by
            intro as bs hA hB r s hr
            refine ⟨unifyL_plain ih as bs h (fun t ht => sa.1 t (hA t ht)) (fun t ht => sb.1 t (hB t ht))
              (fun t ht => pa.2.2.1 t (hA t ht)) (fun t ht => pb.2.2.1 t (hB t ht)) hσ hr, ?_⟩
            exact unifyL_inv (fun a b st r st' h1 h2 h3 h4 => unify_inv n a b st r st' h1 h2 h3 h4) as bs h
              (fun t ht => sa.1 t (hA t ht)) (fun t ht => sb.1 t (hB t ht)) hr
          simp only [unifyNodes] at hu
          split at hu
          · simp at hu; obtain ⟨_, rfl⟩ := hu; exact hσ
          split at hu
          · split at hu
            · cases hk : unifyL (unify n) (ks.take 1) (ks'.take 1) st with
              | none => simp [hk, andThen] at hu
              | some x =>
                obtain ⟨f, s⟩ := x
                have := (kids _ _ (fun _ h => List.mem_of_mem_take h) (fun _ h => List.mem_of_mem_take h) f s hk).1
                cases f <;> simp [hk, andThen] at hu <;> obtain ⟨_, rfl⟩ := hu <;> exact this
            · simp at hu; obtain ⟨_, rfl⟩ := hu; exact hσ
          · cases hk : unifyL (unify n) ks ks' st with
            | none => simp [hk, andThen] at hu
            | some x =>
              obtain ⟨f, s⟩ := x
              obtain ⟨q1, q2, q3⟩ := kids ks ks' (fun _ h => h) (fun _ h => h) f s hk
              cases f with
              | false => simp [hk, andThen] at hu; obtain ⟨_, rfl⟩ := hu; exact q1
              | true =>
                simp only [hk, andThen] at hu
                obtain ⟨b2, s2, e2, hσ2, _⟩ := unifyRowsWith_exact (p := fun σ => unifiable σ n)
                  (u := unify n) (n := n) q2 (sa.2.mono q3) (sb.2.mono q3)
                rw [e2] at hu
                simp at hu
                obtain ⟨_, rfl⟩ := hu
                rw [hσ2]; exact q1

theorem solveLoop_plain {n : Nat} {cs : List Con} {st : St} (h : Inv st)
    (hc : ∀ c ∈ cs, ConBelow st.next c) (hp : ∀ c ∈ cs, c.Plain) (hσ : PlainLog st.σ)
    {bs : List Bool} {st' : St} (hs : solveLoop n cs st = some (bs, st')) : PlainLog st'.σ := by
  induction cs generalizing st bs with
  | nil => simp [solveLoop] at hs; obtain ⟨_, rfl⟩ := hs; exact hσ
  | cons c cs ih =>
    simp only [solveLoop] at hs
    split at hs
    · simp at hs
    · rename_i b1 s1 hcc
      split at hs
      · simp at hs
      · rename_i hl
        simp at hs; obtain ⟨_, rfl⟩ := hs
        obtain ⟨i1, i2⟩ := solveCon_inv h (hc c (.head _)) hcc
        refine ih i1 (fun x hx => (hc x (.tail _ hx)).mono i2) (fun x hx => hp x (.tail _ hx)) ?_ hl
        have hcb := hc c (.head _)
        have hpc := hp c (.head _)
        cases c with
        | teq a b => exact unify_plain n a b st b1 s1 h hcb.1 hcb.2 hpc.2.1 hpc.2.2 hσ hcc
        | req a b =>
          obtain ⟨b2, s2, e2, hσ2, _⟩ := unifyRowsWith_exact (p := fun σ => unifiable σ n)
            (u := unify n) (n := n) h hcb.1 hcb.2
          have hcc' : unifyRowsWith n (fun σ => unifiable σ n) (unify n) a b st = some (b1, s1) := hcc
          rw [e2] at hcc'
          simp at hcc'
          obtain ⟨_, rfl⟩ := hcc'
          rw [hσ2]; exact hσ

theorem Reach.mono {P Q : Con → Prop} (h : ∀ c, P c → Q c) {st : St} (hr : Reach P st) : Reach Q st := by
  induction hr with
  | init => exact .init
  | solve _ hc hs ih => exact .solve ih (fun c hm => h c (hc c hm)) hs
  | fresh _ ih => exact .fresh ih
  | reserve vs _ ih => exact .reserve vs ih

theorem reach_plain {st : St} (h : Reach Con.Plain st) : PlainLog st.σ := by
  induction h with
  | init => intro v t h; simp [St.init] at h
  | solve h hc hs ih =>
    have hi := reach_inv (h.mono (fun c hc => hc.1))
    exact solveLoop_plain (reserved_inv hi _) (conBelow_reserved _ (fun c hm => (hc c hm).1)) hc ih hs
  | fresh h ih => exact ih
  | reserve vs h ih => exact ih

/-- Substitution keeps types free of wildcards. -/
theorem onTy_noWild {θ : Sub} (h1 : ∀ v, NoWild (θ.ty v))
    (h2 : ∀ v, ∀ e ∈ (θ.row v).effects, ∀ a ∈ e.args, NoWild a) {t : Ty} (ht : NoWild t) :
    NoWild (θ.onTy t) := by
  induction t using Ty.ind with
  | hu v => exact h1 v
  | hn hd ks es r ihk ihe =>
    rw [noWild_node] at ht
    simp only [Sub.onTy, onTyL_eq, onEffL_eq]
    rw [noWild_node]
    refine ⟨ht.1, ht.2.1, ?_, ?_⟩
    · intro k hk
      obtain ⟨k0, hk0, rfl⟩ := List.mem_map.mp hk
      exact ihk k0 hk0 (ht.2.2.1 k0 hk0)
    · intro e he a ha
      rcases List.mem_append.mp he with he | he
      · obtain ⟨e0, he0, rfl⟩ := List.mem_map.mp he
        cases e0 with
        | mk ab as =>
          simp only [Sub.onEff, Eff.args, onTyL_eq] at ha
          obtain ⟨a0, ha0, rfl⟩ := List.mem_map.mp ha
          exact ihe _ he0 a0 ha0 (ht.2.2.2 _ he0 a0 ha0)
      · cases r with
        | none => simp [Sub.tail] at he
        | some v => exact h2 v e he a ha

theorem chainR_noArgs {ρ : RLog} (hs : ∀ v r, (v, r) ∈ ρ → ∀ e ∈ r.effects, e.args = []) (v : Nat) :
    ∀ e ∈ ((chainR ρ).row v).effects, e.args = [] := by
  induction ρ generalizing v with
  | nil => simp [chainR, Sub.id]
  | cons p ρ ih =>
    obtain ⟨w, r⟩ := p
    have ih := ih (fun v r hm => hs v r (.tail _ hm))
    intro e he
    have he : e ∈ ((bindR1 w r).onRow ((chainR ρ).row v)).effects := he
    simp only [Sub.onRow, onEffL_simple _ (ih v)] at he
    rcases List.mem_append.mp he with he | he
    · exact ih v e he
    · cases ht : ((chainR ρ).row v).rest with
      | none => simp [ht, Sub.tail] at he
      | some x =>
        simp only [ht, Sub.tail, bindR1] at he
        split at he
        · exact hs w r (.head _) e he
        · simp at he

theorem chainT_noWild {σ : TLog} (h : PlainLog σ) (v : UVar) : NoWild ((chainT σ).ty v) := by
  induction σ generalizing v with
  | nil => simp [chainT, Sub.id, NoWild]
  | cons p σ ih =>
    obtain ⟨w, t⟩ := p
    show NoWild ((bindT1 w t).onTy ((chainT σ).ty v))
    refine onTy_noWild ?_ (by intro v e he; simp [bindT1] at he) (ih (fun v t hm => h v t (.tail _ hm)) v)
    intro x
    simp only [bindT1]
    split
    · exact h w t (.head _)
    · simp [NoWild]

theorem solution_noWild {st : St} (h : Inv st) (hp : PlainLog st.σ) (v : UVar) :
    NoWild ((solution st.σ st.ρ).ty v) := by
  show NoWild ((chainR st.ρ).onTy ((chainT st.σ).ty v))
  refine onTy_noWild (fun w => by rw [chainR_ty]; simp [NoWild]) ?_ (chainT_noWild hp v)
  intro w e he a ha
  rw [chainR_noArgs (fun v r hm => (h.frag.2 v r hm).2.1) w e he] at ha
  cases ha

/-- Types without wildcards that agree have the same size. -/
theorem agree_size (n : Nat) (a b : Ty) (hn : Ty.size a ≤ n) (wa : NoWild a) (wb : NoWild b)
    (h : Agree false (n + 1) a b) : Ty.size a = Ty.size b := by
  have wild : ∀ t : Ty, NoWild t → ¬ Wild t := by
    intro t ht
    cases t with
    | uni v => simp [Wild]
    | node hd ks es r => rw [noWild_node] at ht; cases hd <;> simp [Wild] at ht ⊢
  induction n generalizing a b with
  | zero => cases a <;> simp [Ty.size] at hn
  | succ n ih =>
    rcases h with h | h | h
    · exact absurd h (wild a wa)
    · exact absurd h (wild b wb)
    · cases a with
      | uni v => cases b with
        | uni w => rfl
        | node => exact h.elim
      | node hd ks es r => cases b with
        | uni w => exact h.elim
        | node hd' ks' es' r' =>
          rw [noWild_node] at wa wb
          simp only [Ty.size] at hn ⊢
          have hk := h.2.1
          have w1 := wa.2.2.1
          have w2 := wb.2.2.1
          clear h wa wb
          have : Ty.sizeL ks = Ty.sizeL ks' := by
            have hn : Ty.sizeL ks ≤ n := by omega
            induction hk with
            | nil => rfl
            | cons h1 _ ihl =>
              simp only [Ty.sizeL] at hn ⊢
              rw [ih _ _ (by omega) (w1 _ (.head _)) (w2 _ (.head _)) h1,
                ihl (by omega) (fun t ht => w1 t (.tail _ ht))
                  (fun t ht => w2 t (.tail _ ht)) (by omega)]
          omega

end Verif.Solver
