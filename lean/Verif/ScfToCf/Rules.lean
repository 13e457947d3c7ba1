import Verif.ScfToCf.Ops

/-
The rules of the IR under renaming, redirection and splicing of blocks.
-/
namespace Verif.ScfToCf

/-! ## Lists -/

theorem labelsO_append (a b : List Op) : labelsO (a ++ b) = labelsO a ++ labelsO b := by
  induction a with
  | nil => rfl
  | cons o a ih => simp [labelsO, ih]

theorem labelsB_append (a b : List Block) : labelsB (a ++ b) = labelsB a ++ labelsB b := by
  induction a with
  | nil => rfl
  | cons x a ih => obtain ⟨l, ps, os⟩ := x; simp [labelsB, ih]

theorem defsO_append (a b : List Op) : defsO (a ++ b) = defsO a ++ defsO b := by
  induction a with
  | nil => rfl
  | cons o a ih => simp [defsO, ih]

theorem defsB_append (a b : List Block) : defsB (a ++ b) = defsB a ++ defsB b := by
  induction a with
  | nil => rfl
  | cons x a ih => obtain ⟨l, ps, os⟩ := x; simp [defsB, ih]

theorem usesB_append (a b : List Block) : usesB (a ++ b) = usesB a ++ usesB b := by
  induction a with
  | nil => rfl
  | cons x a ih => obtain ⟨l, ps, os⟩ := x; simp [usesB, ih]

theorem weightO_append (a b : List Op) : weightO (a ++ b) = weightO a + weightO b := by
  induction a with
  | nil => simp [weightO]
  | cons o a ih => simp only [List.cons_append, weightO, ih]; omega

theorem weightB_append (a b : List Block) : weightB (a ++ b) = weightB a + weightB b := by
  induction a with
  | nil => simp [weightB]
  | cons x a ih => obtain ⟨l, ps, os⟩ := x; simp only [List.cons_append, weightB, ih]; omega

theorem scopesB_append (L : List Label) (a b : List Block) :
    scopesB L (a ++ b) ↔ scopesB L a ∧ scopesB L b := by
  induction a with
  | nil => simp [scopesB]
  | cons x a ih => obtain ⟨l, ps, os⟩ := x; simp only [List.cons_append, scopesB, ih, and_assoc]

theorem tidyB_append (a b : List Block) : tidyB (a ++ b) ↔ tidyB a ∧ tidyB b := by
  induction a with
  | nil => simp [tidyB]
  | cons x a ih => obtain ⟨l, ps, os⟩ := x; simp only [List.cons_append, tidyB, ih, and_assoc]

theorem placedO_append (y p : Bool) (a b : List Op) :
    placedO y p (a ++ b) ↔ placedO y p a ∧ placedO y p b := by
  induction a with
  | nil => simp [placedO]
  | cons x a ih => simp only [List.cons_append, placedO, ih, and_assoc]

theorem placedB_append (y p : Bool) (a b : List Block) :
    placedB y p (a ++ b) ↔ placedB y p a ∧ placedB y p b := by
  induction a with
  | nil => simp [placedB]
  | cons x a ih => obtain ⟨l, ps, os⟩ := x; simp only [List.cons_append, placedB, ih, and_assoc]

theorem tidyO_split {before : List Op} {op : Op} {after : List Op}
    (h : tidyO (before ++ op :: after)) :
    tidyO before ∧ (∀ o ∈ before, o.isTerm = false) ∧ op.tidy ∧ tidyO after := by
  induction before with
  | nil => exact ⟨trivial, by simp, h.1, h.2.2⟩
  | cons o os ih =>
    obtain ⟨h1, h2, h3⟩ := h
    obtain ⟨h4, h5, h6⟩ := ih h3
    have ho : o.isTerm = false := by
      cases ht : o.isTerm with
      | false => rfl
      | true => exact absurd (h2 ht) (by simp)
    refine ⟨⟨h1, fun ht => by simp [ho] at ht, h4⟩, ?_, h6⟩
    intro o' ho'
    rcases List.mem_cons.1 ho' with rfl | ho'
    · exact ho
    · exact h5 o' ho'

theorem tidyO_join {before tail : List Op} (h1 : tidyO before) (h2 : ∀ o ∈ before, o.isTerm = false)
    (h3 : tidyO tail) : tidyO (before ++ tail) := by
  induction before with
  | nil => exact h3
  | cons o os ih =>
    refine ⟨h1.1, fun ht => ?_, ih h1.2.2 fun o ho => h2 o (.tail _ ho)⟩
    rw [h2 o (.head _)] at ht
    cases ht

/-! ## More blocks in scope -/

theorem scope_ext {L L' L0 : List Label} (h : ∀ l ∈ L, l ∈ L') : ∀ l ∈ L0 ++ L, l ∈ L0 ++ L' :=
  fun l hl => by
    rcases List.mem_append.1 hl with hl | hl
    · exact List.mem_append.2 (.inl hl)
    · exact List.mem_append.2 (.inr (h l hl))

mutual
theorem scopes_mono {L L' : List Label} (h : ∀ l ∈ L, l ∈ L') : ∀ (o : Op), o.scopes L → o.scopes L'
  | .ite _ _ t e, hs => ⟨scopesB_mono (scope_ext h) t hs.1, scopesB_mono (scope_ext h) e hs.2⟩
  | .loop _ _ b, hs => scopesB_mono (scope_ext h) b hs
  | .switch _ _ cs, hs => scopesC_mono h cs hs
  | .br _ _, hs => h _ hs
  | .condBr _ _ _, hs => ⟨h _ hs.1, h _ hs.2⟩
  | .plain .., _ | .const .., _ | .cmpEq .., _ | .yield .., _ | .cont .., _ | .brk .., _
  | .exit .., _ => trivial
theorem scopesO_mono {L L' : List Label} (h : ∀ l ∈ L, l ∈ L') :
    ∀ (os : List Op), scopesO L os → scopesO L' os
  | [], _ => trivial
  | o :: os, hs => ⟨scopes_mono h o hs.1, scopesO_mono h os hs.2⟩
theorem scopesB_mono {L L' : List Label} (h : ∀ l ∈ L, l ∈ L') :
    ∀ (bs : List Block), scopesB L bs → scopesB L' bs
  | [], _ => trivial
  | .mk _ _ os :: bs, hs => ⟨scopesO_mono h os hs.1, scopesB_mono h bs hs.2⟩
theorem scopesC_mono {L L' : List Label} (h : ∀ l ∈ L, l ∈ L') :
    ∀ (cs : List Case), scopesC L cs → scopesC L' cs
  | [], _ => trivial
  | .mk _ b :: cs, hs => ⟨scopesB_mono (scope_ext h) b hs.1, scopesC_mono h cs hs.2⟩
end

/-! ## Renaming -/

section
variable (f : Value → Value)

mutual
theorem ren_labels : ∀ (o : Op), (o.ren f).labels = o.labels
  | .ite _ _ t e => by simp [Op.ren, Op.labels, renB_labels_all t, renB_labels_all e]
  | .loop _ _ b => by simp [Op.ren, Op.labels, renB_labels_all b]
  | .switch _ _ cs => by simp [Op.ren, Op.labels, renC_labels_all cs]
  | .plain .. | .const .. | .cmpEq .. | .yield .. | .cont .. | .brk .. | .br .. | .condBr ..
  | .exit .. => by simp [Op.ren, Op.labels]
theorem renO_labels : ∀ (os : List Op), labelsO (renO f os) = labelsO os
  | [] => rfl
  | o :: os => by simp [renO, labelsO, ren_labels o, renO_labels os]
theorem renB_labels_all : ∀ (bs : List Block), labelsB (renB f bs) = labelsB bs
  | [] => rfl
  | .mk _ _ os :: bs => by simp [renB, labelsB, renO_labels os, renB_labels_all bs]
theorem renC_labels_all : ∀ (cs : List Case), labelsC (renC f cs) = labelsC cs
  | [] => rfl
  | .mk _ b :: cs => by simp [renC, labelsC, renB_labels_all b, renC_labels_all cs]
end

mutual
theorem ren_weight : ∀ (o : Op), (o.ren f).weight = o.weight
  | .ite _ _ t e => by simp [Op.ren, Op.weight, renB_weight_all t, renB_weight_all e]
  | .loop _ _ b => by simp [Op.ren, Op.weight, renB_weight_all b]
  | .switch _ _ cs => by simp [Op.ren, Op.weight, renC_weight_all cs]
  | .plain .. | .const .. | .cmpEq .. | .yield .. | .cont .. | .brk .. | .br .. | .condBr ..
  | .exit .. => by simp [Op.ren, Op.weight]
theorem renO_weight : ∀ (os : List Op), weightO (renO f os) = weightO os
  | [] => rfl
  | o :: os => by simp [renO, weightO, ren_weight o, renO_weight os]
theorem renB_weight_all : ∀ (bs : List Block), weightB (renB f bs) = weightB bs
  | [] => rfl
  | .mk _ _ os :: bs => by simp [renB, weightB, renO_weight os, renB_weight_all bs]
theorem renC_weight_all : ∀ (cs : List Case), weightC (renC f cs) = weightC cs
  | [] => rfl
  | .mk _ b :: cs => by simp [renC, weightC, renB_weight_all b, renC_weight_all cs]
end

mutual
theorem ren_defs : ∀ (o : Op), (o.ren f).defs = (o.defs).map f
  | .ite _ _ t e => by simp [Op.ren, Op.defs, renB_defs_all t, renB_defs_all e]
  | .loop _ _ b => by simp [Op.ren, Op.defs, renB_defs_all b]
  | .switch _ _ cs => by simp [Op.ren, Op.defs, renC_defs_all cs]
  | .plain .. | .const .. | .cmpEq .. | .yield .. | .cont .. | .brk .. | .br .. | .condBr ..
  | .exit .. => by simp [Op.ren, Op.defs]
theorem renO_defs : ∀ (os : List Op), defsO (renO f os) = (defsO os).map f
  | [] => rfl
  | o :: os => by simp [renO, defsO, ren_defs o, renO_defs os]
theorem renB_defs_all : ∀ (bs : List Block), defsB (renB f bs) = (defsB bs).map f
  | [] => rfl
  | .mk _ _ os :: bs => by simp [renB, defsB, renO_defs os, renB_defs_all bs]
theorem renC_defs_all : ∀ (cs : List Case), defsC (renC f cs) = (defsC cs).map f
  | [] => rfl
  | .mk _ b :: cs => by simp [renC, defsC, renB_defs_all b, renC_defs_all cs]
end

mutual
theorem ren_uses : ∀ (o : Op), (o.ren f).uses = (o.uses).map f
  | .ite _ _ t e => by simp [Op.ren, Op.uses, renB_uses_all t, renB_uses_all e]
  | .loop _ _ b => by simp [Op.ren, Op.uses, renB_uses_all b]
  | .switch _ _ cs => by simp [Op.ren, Op.uses, renC_uses_all cs]
  | .plain .. | .const .. | .cmpEq .. | .yield .. | .cont .. | .brk .. | .br .. | .condBr ..
  | .exit .. => by simp [Op.ren, Op.uses]
theorem renO_uses : ∀ (os : List Op), usesO (renO f os) = (usesO os).map f
  | [] => rfl
  | o :: os => by simp [renO, usesO, ren_uses o, renO_uses os]
theorem renB_uses_all : ∀ (bs : List Block), usesB (renB f bs) = (usesB bs).map f
  | [] => rfl
  | .mk _ _ os :: bs => by simp [renB, usesB, renO_uses os, renB_uses_all bs]
theorem renC_uses_all : ∀ (cs : List Case), usesC (renC f cs) = (usesC cs).map f
  | [] => rfl
  | .mk _ b :: cs => by simp [renC, usesC, renB_uses_all b, renC_uses_all cs]
end

mutual
theorem ren_scopes : ∀ (L : List Label) (o : Op), o.scopes L → (o.ren f).scopes L
  | L, .ite _ _ t e, hs => by
    simp only [Op.ren, Op.scopes, renB_labels]
    exact ⟨renB_scopes _ t hs.1, renB_scopes _ e hs.2⟩
  | L, .loop _ _ b, hs => by
    simp only [Op.ren, Op.scopes, renB_labels]
    exact renB_scopes _ b hs
  | L, .switch _ _ cs, hs => renC_scopes L cs hs
  | _, .br .., hs | _, .condBr .., hs => hs
  | _, .plain .., _ | _, .const .., _ | _, .cmpEq .., _ | _, .yield .., _ | _, .cont .., _
  | _, .brk .., _ | _, .exit .., _ => trivial
theorem renO_scopes : ∀ (L : List Label) (os : List Op), scopesO L os → scopesO L (renO f os)
  | _, [], _ => trivial
  | L, o :: os, hs => ⟨ren_scopes L o hs.1, renO_scopes L os hs.2⟩
theorem renB_scopes : ∀ (L : List Label) (bs : List Block), scopesB L bs → scopesB L (renB f bs)
  | _, [], _ => trivial
  | L, .mk _ _ os :: bs, hs => ⟨renO_scopes L os hs.1, renB_scopes L bs hs.2⟩
theorem renC_scopes : ∀ (L : List Label) (cs : List Case), scopesC L cs → scopesC L (renC f cs)
  | _, [], _ => trivial
  | L, .mk _ b :: cs, hs => by
    simp only [renC, scopesC, renB_labels]
    exact ⟨renB_scopes _ b hs.1, renC_scopes L cs hs.2⟩
end

theorem ren_isTerm (o : Op) : (o.ren f).isTerm = o.isTerm := by cases o <;> rfl

theorem renB_nil {bs : List Block} (h : bs ≠ []) : renB f bs ≠ [] := by
  cases bs with
  | nil => exact absurd rfl h
  | cons b bs => obtain ⟨l, ps, os⟩ := b; simp [renB]

mutual
theorem ren_tidy (hf : ∀ a b, f a = f b → a = b) : ∀ (o : Op), o.tidy → (o.ren f).tidy
  | .ite _ rs t e, ⟨⟨h1, h0⟩, h2, h3, h4, h5⟩ => by
    refine ⟨⟨by simpa using h1, ?_⟩, renB_nil f h2, renB_nil f h3, renB_tidy hf t h4,
      renB_tidy hf e h5⟩
    intro hm
    obtain ⟨w, hw, he⟩ := List.mem_map.1 hm
    exact h0 (hf _ _ he ▸ hw)
  | .loop _ rs b, ⟨⟨h1, h0⟩, h2, h3⟩ => by
    refine ⟨⟨by simpa using h1, ?_⟩, renB_nil f h2, renB_tidy hf b h3⟩
    intro v hv hm
    obtain ⟨u, hu, rfl⟩ := List.mem_map.1 hv
    obtain ⟨w, hw, he⟩ := List.mem_map.1 hm
    exact h0 u hu (hf _ _ he ▸ hw)
  | .switch _ _ cs, ⟨h1, h2⟩ => ⟨by simp [h1], renC_tidy hf cs h2⟩
  | .plain .., _ | .const .., _ | .cmpEq .., _ | .yield .., _ | .cont .., _ | .brk .., _ | .br .., _
  | .condBr .., _ | .exit .., _ => trivial
theorem renO_tidy (hf : ∀ a b, f a = f b → a = b) : ∀ (os : List Op), tidyO os → tidyO (renO f os)
  | [], _ => trivial
  | o :: os, ⟨h1, h2, h3⟩ => ⟨ren_tidy hf o h1, fun ht => by
      rw [ren_isTerm] at ht; rw [h2 ht]; rfl, renO_tidy hf os h3⟩
theorem renB_tidy (hf : ∀ a b, f a = f b → a = b) : ∀ (bs : List Block), tidyB bs → tidyB (renB f bs)
  | [], _ => trivial
  | .mk _ _ os :: bs, ⟨h1, h2⟩ => ⟨renO_tidy hf os h1, renB_tidy hf bs h2⟩
theorem renC_tidy (hf : ∀ a b, f a = f b → a = b) : ∀ (cs : List Case), tidyC cs → tidyC (renC f cs)
  | [], _ => trivial
  | .mk _ b :: cs, ⟨h1, h2, h3⟩ => ⟨renB_nil f h1, renB_tidy hf b h2, renC_tidy hf cs h3⟩
end

mutual
theorem ren_placed : ∀ (y p : Bool) (o : Op), o.placed y p → (o.ren f).placed y p
  | _, p, .ite _ _ t e, hs => ⟨renB_placed _ p t hs.1, renB_placed _ p e hs.2⟩
  | _, _, .loop _ _ b, hs => renB_placed _ _ b hs
  | _, p, .switch _ _ cs, hs => renC_placed p cs hs
  | _, _, .yield .., hs | _, _, .cont .., hs | _, _, .brk .., hs => hs
  | _, _, .plain .., _ | _, _, .const .., _ | _, _, .cmpEq .., _ | _, _, .br .., _
  | _, _, .condBr .., _ | _, _, .exit .., _ => trivial
theorem renO_placed : ∀ (y p : Bool) (os : List Op), placedO y p os → placedO y p (renO f os)
  | _, _, [], _ => trivial
  | y, p, o :: os, hs => ⟨ren_placed y p o hs.1, renO_placed y p os hs.2⟩
theorem renB_placed : ∀ (y p : Bool) (bs : List Block), placedB y p bs → placedB y p (renB f bs)
  | _, _, [], _ => trivial
  | y, p, .mk _ _ os :: bs, hs => ⟨renO_placed y p os hs.1, renB_placed y p bs hs.2⟩
theorem renC_placed : ∀ (p : Bool) (cs : List Case), placedC p cs → placedC p (renC f cs)
  | _, [], _ => trivial
  | p, .mk _ b :: cs, hs => ⟨renB_placed _ p b hs.1, renC_placed p cs hs.2⟩
end

theorem renO_append (a b : List Op) : renO f (a ++ b) = renO f a ++ renO f b := by
  induction a with
  | nil => rfl
  | cons o a ih => simp [renO, ih]

theorem renB_append (a b : List Block) : renB f (a ++ b) = renB f a ++ renB f b := by
  induction a with
  | nil => rfl
  | cons o a ih => obtain ⟨l, ps, os⟩ := o; simp [renB, ih]

end

/-! ## Replacing uses is renaming, where the name is not defined and the new one does not occur -/

section
variable {r x : Value}

theorem swap_use {v : Value} (h : v ≠ x) : (if v = r then x else v) = swap r x v := by
  unfold swap
  by_cases h1 : v = r <;> simp [h1, h]

theorem swap_uses {vs : List Value} (h : x ∉ vs) :
    vs.map (fun v => if v = r then x else v) = vs.map (swap r x) :=
  List.map_congr_left fun v hv => swap_use fun hh => h (hh ▸ hv)

theorem swap_other {v : Value} (h1 : v ≠ r) (h2 : v ≠ x) : swap r x v = v := by
  simp [swap, h1, h2]

theorem swap_others {vs : List Value} (h1 : r ∉ vs) (h2 : x ∉ vs) : vs.map (swap r x) = vs := by
  conv => rhs; rw [← List.map_id vs]
  exact List.map_congr_left fun v hv => swap_other (fun hh => h1 (hh ▸ hv)) fun hh => h2 (hh ▸ hv)

mutual
theorem rauw_ren : ∀ (o : Op), r ∉ o.defs → x ∉ o.defs → x ∉ o.uses → o.rauw r x = o.ren (swap r x)
  | .plain _ as rs, h1, h2, h3 => by
    simp only [Op.defs, Op.uses] at h1 h2 h3
    simp only [Op.rauw, Op.ren, swap_uses h3, swap_others h1 h2]
  | .const _ v, h1, h2, h3 => by
    simp only [Op.defs, List.mem_singleton] at h1 h2
    simp only [Op.rauw, Op.ren, swap_other (Ne.symm h1) (Ne.symm h2)]
  | .cmpEq a b v, h1, h2, h3 => by
    simp only [Op.defs, List.mem_singleton] at h1 h2
    simp only [Op.uses, List.mem_cons, List.not_mem_nil, or_false, not_or] at h3
    simp only [Op.rauw, Op.ren, swap_other (Ne.symm h1) (Ne.symm h2), swap_use (Ne.symm h3.1),
      swap_use (Ne.symm h3.2)]
  | .ite c rs t e, h1, h2, h3 => by
    simp only [Op.defs, List.mem_append, not_or] at h1 h2
    simp only [Op.uses, List.mem_cons, List.mem_append, not_or] at h3
    simp only [Op.rauw, Op.ren, swap_use (Ne.symm h3.1), swap_others h1.1 h2.1,
      rauwB_ren t h1.2.1 h2.2.1 h3.2.1, rauwB_ren e h1.2.2 h2.2.2 h3.2.2]
  | .loop i rs b, h1, h2, h3 => by
    simp only [Op.defs, List.mem_append, not_or] at h1 h2
    simp only [Op.uses, List.mem_append, not_or] at h3
    simp only [Op.rauw, Op.ren, swap_uses h3.1, swap_others h1.1 h2.1, rauwB_ren b h1.2 h2.2 h3.2]
  | .switch d rs cs, h1, h2, h3 => by
    simp only [Op.defs, List.mem_append, not_or] at h1 h2
    simp only [Op.uses, List.mem_cons, not_or] at h3
    simp only [Op.rauw, Op.ren, swap_use (Ne.symm h3.1), swap_others h1.1 h2.1,
      rauwC_ren cs h1.2 h2.2 h3.2]
  | .yield vs, _, _, h3 => by simp only [Op.uses] at h3; simp only [Op.rauw, Op.ren, swap_uses h3]
  | .cont vs, _, _, h3 => by simp only [Op.uses] at h3; simp only [Op.rauw, Op.ren, swap_uses h3]
  | .brk v, _, _, h3 => by
    simp only [Op.uses, List.mem_singleton] at h3
    simp only [Op.rauw, Op.ren, swap_use (Ne.symm h3)]
  | .br as _, _, _, h3 => by simp only [Op.uses] at h3; simp only [Op.rauw, Op.ren, swap_uses h3]
  | .condBr c _ _, _, _, h3 => by
    simp only [Op.uses, List.mem_singleton] at h3
    simp only [Op.rauw, Op.ren, swap_use (Ne.symm h3)]
  | .exit _ as, _, _, h3 => by simp only [Op.uses] at h3; simp only [Op.rauw, Op.ren, swap_uses h3]
theorem rauwO_ren : ∀ (os : List Op), r ∉ defsO os → x ∉ defsO os → x ∉ usesO os →
    rauwO r x os = renO (swap r x) os
  | [], _, _, _ => rfl
  | o :: os, h1, h2, h3 => by
    simp only [defsO, usesO, List.mem_append, not_or] at h1 h2 h3
    simp only [rauwO, renO, rauw_ren o h1.1 h2.1 h3.1, rauwO_ren os h1.2 h2.2 h3.2]
theorem rauwB_ren : ∀ (bs : List Block), r ∉ defsB bs → x ∉ defsB bs → x ∉ usesB bs →
    rauwB r x bs = renB (swap r x) bs
  | [], _, _, _ => rfl
  | .mk _ ps os :: bs, h1, h2, h3 => by
    simp only [defsB, usesB, List.mem_append, not_or] at h1 h2 h3
    simp only [rauwB, renB, swap_others h1.1 h2.1, rauwO_ren os h1.2.1 h2.2.1 h3.1,
      rauwB_ren bs h1.2.2 h2.2.2 h3.2]
theorem rauwC_ren : ∀ (cs : List Case), r ∉ defsC cs → x ∉ defsC cs → x ∉ usesC cs →
    rauwC r x cs = renC (swap r x) cs
  | [], _, _, _ => rfl
  | .mk _ b :: cs, h1, h2, h3 => by
    simp only [defsC, usesC, List.mem_append, not_or] at h1 h2 h3
    simp only [rauwC, renC, rauwB_ren b h1.1 h2.1 h3.1, rauwC_ren cs h1.2 h2.2 h3.2]
end

end

/-! ## Yields replaced -/

section
variable (m : Label) (k : Nat)

theorem redirYO_labels (os : List Op) : labelsO (os.map (redirY m k)) = labelsO os := by
  induction os with
  | nil => rfl
  | cons o os ih =>
    have : (redirY m k o).labels = o.labels := by cases o <;> rfl
    simp [labelsO, ih, this]

theorem redirYB_labels (bs : List Block) : labelsB (bs.map (redirYBlk m k)) = labelsB bs := by
  induction bs with
  | nil => rfl
  | cons b bs ih => obtain ⟨l, ps, os⟩ := b; simp [redirYBlk, labelsB, ih, redirYO_labels]

theorem redirYO_defs (os : List Op) : defsO (os.map (redirY m k)) = defsO os := by
  induction os with
  | nil => rfl
  | cons o os ih =>
    have : (redirY m k o).defs = o.defs := by cases o <;> rfl
    simp [defsO, ih, this]

theorem redirYB_defs (bs : List Block) : defsB (bs.map (redirYBlk m k)) = defsB bs := by
  induction bs with
  | nil => rfl
  | cons b bs ih => obtain ⟨l, ps, os⟩ := b; simp [redirYBlk, defsB, ih, redirYO_defs]

theorem redirYO_weight (os : List Op) : weightO (os.map (redirY m k)) = weightO os := by
  induction os with
  | nil => rfl
  | cons o os ih =>
    have : (redirY m k o).weight = o.weight := by cases o <;> rfl
    simp [weightO, ih, this]

theorem redirYB_weight (bs : List Block) : weightB (bs.map (redirYBlk m k)) = weightB bs := by
  induction bs with
  | nil => rfl
  | cons b bs ih => obtain ⟨l, ps, os⟩ := b; simp [redirYBlk, weightB, ih, redirYO_weight]

theorem redirY_uses (o : Op) : ∀ v ∈ (redirY m k o).uses, v ∈ o.uses := by
  cases o <;> first | exact fun v hv => hv | skip
  exact fun v hv => List.mem_of_mem_take hv

theorem redirYB_uses (bs : List Block) : ∀ v ∈ usesB (bs.map (redirYBlk m k)), v ∈ usesB bs := by
  induction bs with
  | nil => exact fun v hv => hv
  | cons b bs ih =>
    obtain ⟨l, ps, os⟩ := b
    intro v hv
    simp only [List.map_cons, redirYBlk, usesB, List.mem_append] at hv ⊢
    refine hv.imp (fun hw => ?_) (ih v)
    clear ih hv
    induction os with
    | nil => exact hw
    | cons o os ih =>
      simp only [List.map_cons, usesO, List.mem_append] at hw ⊢
      exact hw.imp (redirY_uses m k o v) ih

theorem redirYB_scopes {L : List Label} (hm : m ∈ L) (bs : List Block) (h : scopesB L bs) :
    scopesB L (bs.map (redirYBlk m k)) := by
  induction bs with
  | nil => trivial
  | cons b bs ih =>
    obtain ⟨l, ps, os⟩ := b
    refine ⟨?_, ih h.2⟩
    replace h := h.1
    clear ih
    induction os with
    | nil => trivial
    | cons o os ih =>
      refine ⟨?_, ih h.2⟩
      replace h := h.1
      cases o <;> first | exact h | exact hm

theorem redirYB_tidy (bs : List Block) (h : tidyB bs) : tidyB (bs.map (redirYBlk m k)) := by
  induction bs with
  | nil => trivial
  | cons b bs ih =>
    obtain ⟨l, ps, os⟩ := b
    refine ⟨?_, ih h.2⟩
    replace h := h.1
    clear ih
    induction os with
    | nil => trivial
    | cons o os ih =>
      obtain ⟨h1, h2, h3⟩ := h
      refine ⟨?_, fun ht => ?_, ih h3⟩
      · cases o <;> first | exact h1 | exact trivial
      · have : (redirY m k o).isTerm = o.isTerm := by cases o <;> rfl
        rw [h2 (this ▸ ht)]
        rfl

theorem redirYB_placed {p : Bool} (bs : List Block) (h : placedB true p bs) :
    placedB false p (bs.map (redirYBlk m k)) := by
  induction bs with
  | nil => trivial
  | cons b bs ih =>
    obtain ⟨l, ps, os⟩ := b
    refine ⟨?_, ih h.2⟩
    replace h := h.1
    clear ih
    induction os with
    | nil => trivial
    | cons o os ih =>
      refine ⟨?_, ih h.2⟩
      replace h := h.1
      cases o <;> first | exact h | exact trivial

end

/-! ## Continues and breaks replaced -/

section
variable (h x : Label) (k : Nat)

mutual
theorem redirC_labels : ∀ (o : Op), (o.redirC h x k).labels = o.labels
  | .ite _ _ t e => by simp [Op.redirC, Op.labels, redirCB_labels_all t, redirCB_labels_all e]
  | .switch _ _ cs => by simp [Op.redirC, Op.labels, redirCC_labels_all cs]
  | .plain .. | .const .. | .cmpEq .. | .loop .. | .yield .. | .cont .. | .brk .. | .br ..
  | .condBr .. | .exit .. => by simp [Op.redirC, Op.labels]
theorem redirCO_labels : ∀ (os : List Op), labelsO (redirCO h x k os) = labelsO os
  | [] => rfl
  | o :: os => by simp [redirCO, labelsO, redirC_labels o, redirCO_labels os]
theorem redirCB_labels_all : ∀ (bs : List Block), labelsB (redirCB h x k bs) = labelsB bs
  | [] => rfl
  | .mk _ _ os :: bs => by simp [redirCB, labelsB, redirCO_labels os, redirCB_labels_all bs]
theorem redirCC_labels_all : ∀ (cs : List Case), labelsC (redirCC h x k cs) = labelsC cs
  | [] => rfl
  | .mk _ b :: cs => by simp [redirCC, labelsC, redirCB_labels_all b, redirCC_labels_all cs]
end

mutual
theorem redirC_defs : ∀ (o : Op), (o.redirC h x k).defs = o.defs
  | .ite _ _ t e => by simp [Op.redirC, Op.defs, redirCB_defs_all t, redirCB_defs_all e]
  | .switch _ _ cs => by simp [Op.redirC, Op.defs, redirCC_defs_all cs]
  | .plain .. | .const .. | .cmpEq .. | .loop .. | .yield .. | .cont .. | .brk .. | .br ..
  | .condBr .. | .exit .. => by simp [Op.redirC, Op.defs]
theorem redirCO_defs : ∀ (os : List Op), defsO (redirCO h x k os) = defsO os
  | [] => rfl
  | o :: os => by simp [redirCO, defsO, redirC_defs o, redirCO_defs os]
theorem redirCB_defs_all : ∀ (bs : List Block), defsB (redirCB h x k bs) = defsB bs
  | [] => rfl
  | .mk _ _ os :: bs => by simp [redirCB, defsB, redirCO_defs os, redirCB_defs_all bs]
theorem redirCC_defs_all : ∀ (cs : List Case), defsC (redirCC h x k cs) = defsC cs
  | [] => rfl
  | .mk _ b :: cs => by simp [redirCC, defsC, redirCB_defs_all b, redirCC_defs_all cs]
end

mutual
theorem redirC_weight : ∀ (o : Op), (o.redirC h x k).weight = o.weight
  | .ite _ _ t e => by simp [Op.redirC, Op.weight, redirCB_weight_all t, redirCB_weight_all e]
  | .switch _ _ cs => by simp [Op.redirC, Op.weight, redirCC_weight_all cs]
  | .plain .. | .const .. | .cmpEq .. | .loop .. | .yield .. | .cont .. | .brk .. | .br ..
  | .condBr .. | .exit .. => by simp [Op.redirC, Op.weight]
theorem redirCO_weight : ∀ (os : List Op), weightO (redirCO h x k os) = weightO os
  | [] => rfl
  | o :: os => by simp [redirCO, weightO, redirC_weight o, redirCO_weight os]
theorem redirCB_weight_all : ∀ (bs : List Block), weightB (redirCB h x k bs) = weightB bs
  | [] => rfl
  | .mk _ _ os :: bs => by simp [redirCB, weightB, redirCO_weight os, redirCB_weight_all bs]
theorem redirCC_weight_all : ∀ (cs : List Case), weightC (redirCC h x k cs) = weightC cs
  | [] => rfl
  | .mk _ b :: cs => by simp [redirCC, weightC, redirCB_weight_all b, redirCC_weight_all cs]
end

mutual
theorem redirC_uses : ∀ (o : Op), ∀ v ∈ (o.redirC h x k).uses, v ∈ o.uses
  | .ite _ _ t e, v, hv => by
    simp only [Op.redirC, Op.uses, List.mem_cons, List.mem_append] at hv ⊢
    exact hv.imp id (Or.imp (redirCB_uses t v) (redirCB_uses e v))
  | .switch _ _ cs, v, hv => by
    simp only [Op.redirC, Op.uses, List.mem_cons] at hv ⊢
    exact hv.imp id (redirCC_uses cs v)
  | .brk w, v, hv => by
    simp only [Op.redirC, Op.uses] at hv ⊢
    split at hv
    · exact hv
    · cases hv
  | .plain .., _, hv | .const .., _, hv | .cmpEq .., _, hv | .loop .., _, hv | .yield .., _, hv
  | .cont .., _, hv | .br .., _, hv | .condBr .., _, hv | .exit .., _, hv => hv
theorem redirCO_uses : ∀ (os : List Op), ∀ v ∈ usesO (redirCO h x k os), v ∈ usesO os
  | [], _, hv => hv
  | o :: os, v, hv => by
    simp only [redirCO, usesO, List.mem_append] at hv ⊢
    exact hv.imp (redirC_uses o v) (redirCO_uses os v)
theorem redirCB_uses : ∀ (bs : List Block), ∀ v ∈ usesB (redirCB h x k bs), v ∈ usesB bs
  | [], _, hv => hv
  | .mk _ _ os :: bs, v, hv => by
    simp only [redirCB, usesB, List.mem_append] at hv ⊢
    exact hv.imp (redirCO_uses os v) (redirCB_uses bs v)
theorem redirCC_uses : ∀ (cs : List Case), ∀ v ∈ usesC (redirCC h x k cs), v ∈ usesC cs
  | [], _, hv => hv
  | .mk _ b :: cs, v, hv => by
    simp only [redirCC, usesC, List.mem_append] at hv ⊢
    exact hv.imp (redirCB_uses b v) (redirCC_uses cs v)
end

mutual
theorem redirC_scopes : ∀ {L : List Label} (_ : h ∈ L) (_ : x ∈ L) (o : Op), o.scopes L →
    (o.redirC h x k).scopes L
  | L, h1, h2, .ite _ _ t e, hs => by
    simp only [Op.redirC, Op.scopes, redirCB_labels]
    exact ⟨redirCB_scopes (List.mem_append_right _ h1) (List.mem_append_right _ h2) t hs.1,
      redirCB_scopes (List.mem_append_right _ h1) (List.mem_append_right _ h2) e hs.2⟩
  | L, h1, h2, .switch _ _ cs, hs => redirCC_scopes h1 h2 cs hs
  | _, _, h2, .brk .., _ => h2
  | _, h1, _, .cont .., _ => h1
  | _, _, _, .plain .., hs | _, _, _, .const .., hs | _, _, _, .cmpEq .., hs | _, _, _, .loop .., hs
  | _, _, _, .yield .., hs | _, _, _, .br .., hs | _, _, _, .condBr .., hs
  | _, _, _, .exit .., hs => hs
theorem redirCO_scopes : ∀ {L : List Label} (_ : h ∈ L) (_ : x ∈ L) (os : List Op), scopesO L os →
    scopesO L (redirCO h x k os)
  | _, _, _, [], _ => trivial
  | _, h1, h2, o :: os, hs => ⟨redirC_scopes h1 h2 o hs.1, redirCO_scopes h1 h2 os hs.2⟩
theorem redirCB_scopes : ∀ {L : List Label} (_ : h ∈ L) (_ : x ∈ L) (bs : List Block), scopesB L bs →
    scopesB L (redirCB h x k bs)
  | _, _, _, [], _ => trivial
  | _, h1, h2, .mk _ _ os :: bs, hs => ⟨redirCO_scopes h1 h2 os hs.1, redirCB_scopes h1 h2 bs hs.2⟩
theorem redirCC_scopes : ∀ {L : List Label} (_ : h ∈ L) (_ : x ∈ L) (cs : List Case), scopesC L cs →
    scopesC L (redirCC h x k cs)
  | _, _, _, [], _ => trivial
  | _, h1, h2, .mk _ b :: cs, hs => by
    simp only [redirCC, scopesC, redirCB_labels]
    exact ⟨redirCB_scopes (List.mem_append_right _ h1) (List.mem_append_right _ h2) b hs.1,
      redirCC_scopes h1 h2 cs hs.2⟩
end

theorem redirC_isTerm (o : Op) : (o.redirC h x k).isTerm = o.isTerm := by cases o <;> rfl

theorem redirCB_nil {bs : List Block} (hb : bs ≠ []) : redirCB h x k bs ≠ [] := by
  cases bs with
  | nil => exact absurd rfl hb
  | cons b bs => obtain ⟨l, ps, os⟩ := b; simp [redirCB]

mutual
theorem redirC_tidy : ∀ (o : Op), o.tidy → (o.redirC h x k).tidy
  | .ite _ _ t e, ⟨h1, h2, h3, h4, h5⟩ => ⟨h1, redirCB_nil h x k h2, redirCB_nil h x k h3,
      redirCB_tidy t h4, redirCB_tidy e h5⟩
  | .switch _ _ cs, ⟨h1, h2⟩ => ⟨h1, redirCC_tidy cs h2⟩
  | .loop .., hs => hs
  | .plain .., _ | .const .., _ | .cmpEq .., _ | .yield .., _ | .cont .., _ | .brk .., _ | .br .., _
  | .condBr .., _ | .exit .., _ => trivial
theorem redirCO_tidy : ∀ (os : List Op), tidyO os → tidyO (redirCO h x k os)
  | [], _ => trivial
  | o :: os, ⟨h1, h2, h3⟩ => ⟨redirC_tidy o h1, fun ht => by
      rw [redirC_isTerm] at ht; rw [h2 ht]; rfl, redirCO_tidy os h3⟩
theorem redirCB_tidy : ∀ (bs : List Block), tidyB bs → tidyB (redirCB h x k bs)
  | [], _ => trivial
  | .mk _ _ os :: bs, ⟨h1, h2⟩ => ⟨redirCO_tidy os h1, redirCB_tidy bs h2⟩
theorem redirCC_tidy : ∀ (cs : List Case), tidyC cs → tidyC (redirCC h x k cs)
  | [], _ => trivial
  | .mk _ b :: cs, ⟨h1, h2, h3⟩ => ⟨redirCB_nil h x k h1, redirCB_tidy b h2, redirCC_tidy cs h3⟩
end

mutual
theorem redirC_placed : ∀ (y p : Bool) (o : Op), o.placed y true → (o.redirC h x k).placed y p
  | _, p, .ite _ _ t e, hs => ⟨redirCB_placed _ p t hs.1, redirCB_placed _ p e hs.2⟩
  | _, p, .switch _ _ cs, hs => redirCC_placed p cs hs
  | _, _, .yield .., hs | _, _, .loop .., hs => hs
  | _, _, .plain .., _ | _, _, .const .., _ | _, _, .cmpEq .., _ | _, _, .br .., _
  | _, _, .condBr .., _ | _, _, .exit .., _ | _, _, .cont .., _ | _, _, .brk .., _ => trivial
theorem redirCO_placed : ∀ (y p : Bool) (os : List Op), placedO y true os →
    placedO y p (redirCO h x k os)
  | _, _, [], _ => trivial
  | y, p, o :: os, hs => ⟨redirC_placed y p o hs.1, redirCO_placed y p os hs.2⟩
theorem redirCB_placed : ∀ (y p : Bool) (bs : List Block), placedB y true bs →
    placedB y p (redirCB h x k bs)
  | _, _, [], _ => trivial
  | y, p, .mk _ _ os :: bs, hs => ⟨redirCO_placed y p os hs.1, redirCB_placed y p bs hs.2⟩
theorem redirCC_placed : ∀ (p : Bool) (cs : List Case), placedC true cs → placedC p (redirCC h x k cs)
  | _, [], _ => trivial
  | p, .mk _ b :: cs, hs => ⟨redirCB_placed _ p b hs.1, redirCC_placed p cs hs.2⟩
end

end

end Verif.ScfToCf
