import Verif.TailResume.Spec

namespace Verif.TailResume

theorem usesAll_append (v : Nat) : ∀ xs ys : List Op, usesAll v (xs ++ ys) = usesAll v xs + usesAll v ys
  | [], ys => by simp [usesAll]
  | x :: xs, ys => by simp only [List.cons_append, usesAll, usesAll_append v xs ys]; omega

mutual
theorem run_unused {v : Nat} : ∀ {os : List Op} {tr : List Event}, Run os tr → usesAll v os = 0 →
    ∀ e ∈ tr, ¬ e.mentions v
  | _, _, .nil, _ => by intro e he; cases he
  | _, _, .resume (c := c) (v := w) h, hu => by
    simp only [usesAll, uses] at hu
    have ih := run_unused (v := v) h (by omega)
    have hc : v ∉ [c, w] := List.count_eq_zero.1 (by omega)
    simp only [List.mem_cons, List.not_mem_nil, or_false] at hc
    intro e he
    rcases List.mem_cons.1 he with rfl | he
    · exact hc
    · exact ih e he
  | _, _, .done (ws := ws) h, hu => by
    simp only [usesAll, uses] at hu
    have ih := run_unused (v := v) h (by omega)
    have hc : v ∉ ws := List.count_eq_zero.1 (by omega)
    intro e he
    rcases List.mem_cons.1 he with rfl | he
    · exact hc
    · exact ih e he
  | _, _, .suspend hb h, hu => by
    simp only [usesAll, uses] at hu
    have i1 := runs_unused (v := v) hb (by omega)
    have i2 := run_unused (v := v) h (by omega)
    intro e he
    rcases List.mem_append.1 he with he | he
    · exact i1 e he
    · exact i2 e he
  | _, _, .arm hb h, hu => by
    simp only [usesAll, uses] at hu
    have i1 := runs_unused (v := v) hb (by omega)
    have i2 := run_unused (v := v) h (by omega)
    intro e he
    rcases List.mem_append.1 he with he | he
    · exact i1 e he
    · exact i2 e he
  | _, _, .other (ws := ws) hb h, hu => by
    simp only [usesAll, uses] at hu
    have i1 := runs_unused (v := v) hb (by omega)
    have i2 := run_unused (v := v) h (by omega)
    have hc : v ∉ ws := List.count_eq_zero.1 (by omega)
    intro e he
    rcases List.mem_cons.1 he with rfl | he
    · exact hc
    · rcases List.mem_append.1 he with he | he
      · exact i1 e he
      · exact i2 e he
theorem runs_unused {v : Nat} : ∀ {os : List Op} {tr : List Event}, Runs os tr → usesAll v os = 0 →
    ∀ e ∈ tr, ¬ e.mentions v
  | _, _, .zero _, _ => by intro e he; cases he
  | _, _, .more h hr, hu => by
    have i1 := run_unused (v := v) h hu
    have i2 := runs_unused (v := v) hr hu
    intro e he
    rcases List.mem_append.1 he with he | he
    · exact i1 e he
    · exact i2 e he
end

theorem run_append : ∀ (xs ys : List Op) (tr : List Event), Run (xs ++ ys) tr →
    ∃ t u, tr = t ++ u ∧ Run xs t ∧ Run ys u
  | [], ys, tr, h => ⟨[], tr, rfl, .nil, h⟩
  | x :: xs, ys, tr, h => by
    have ih := run_append xs ys
    rw [List.cons_append] at h
    cases h with
    | resume h =>
      obtain ⟨t, u, rfl, h1, h2⟩ := ih _ h
      exact ⟨_ :: t, u, rfl, .resume h1, h2⟩
    | done h =>
      obtain ⟨t, u, rfl, h1, h2⟩ := ih _ h
      exact ⟨_ :: t, u, rfl, .done h1, h2⟩
    | suspend hb h =>
      obtain ⟨t, u, rfl, h1, h2⟩ := ih _ h
      exact ⟨_ ++ t, u, by rw [List.append_assoc], .suspend hb h1, h2⟩
    | arm hb h =>
      obtain ⟨t, u, rfl, h1, h2⟩ := ih _ h
      exact ⟨_ ++ t, u, by rw [List.append_assoc], .arm hb h1, h2⟩
    | other hb h =>
      obtain ⟨t, u, rfl, h1, h2⟩ := ih _ h
      exact ⟨_ :: (_ ++ t), u, by rw [List.cons_append, List.append_assoc], .other hb h1, h2⟩

/-- The shape of what is converted. -/
theorem isTail_shape {args : List Nat} {body : List Op} (h : isTail args body = true) :
    ∃ k rest pre v r ws, args = k :: rest ∧ body = pre ++ [.resume k v r, .done ws] ∧ r ∈ ws ∧
      usesAll k body = 1 ∧ usesAll r body = 1 := by
  unfold isTail at h
  cases args with
  | nil => cases h
  | cons k rest =>
    simp only at h
    split at h
    · cases h
    · rename_i hk
      split at h
      · rename_i ws c v r pre hb
        simp only [Bool.and_eq_true, decide_eq_true_eq, List.contains_iff_mem] at h
        obtain ⟨⟨rfl, hr⟩, hm⟩ := h
        refine ⟨c, rest, pre.reverse, v, r, ws, rfl, ?_, hm, not_not.1 hk, hr⟩
        have := congrArg List.reverse hb
        rw [List.reverse_reverse] at this
        rw [this]
        simp
      · cases h

theorem shape_isTail {k v r : Nat} {rest ws : List Nat} {pre : List Op} (hm : r ∈ ws)
    (hk : usesAll k (pre ++ [.resume k v r, .done ws]) = 1)
    (hr : usesAll r (pre ++ [.resume k v r, .done ws]) = 1) :
    isTail (k :: rest) (pre ++ [.resume k v r, .done ws]) = true := by
  unfold isTail
  simp only
  rw [if_neg (by rw [hk]; simp)]
  simp only [List.reverse_append, List.reverse_cons, List.reverse_nil, List.nil_append,
    List.singleton_append, List.cons_append]
  simp [hr, hm]

theorem isTail_resumes {args : List Nat} {body : List Op} (h : isTail args body = true) :
    ResumesLast args body := by
  obtain ⟨k, rest, pre, v, r, ws, rfl, rfl, hm, hk, hr⟩ := isTail_shape h
  rw [usesAll_append] at hk hr
  simp only [usesAll, uses, Nat.add_zero] at hk hr
  have h1 : 0 < [k, v].count k := List.count_pos_iff.2 (by simp)
  have h2 : 0 < ws.count r := List.count_pos_iff.2 hm
  refine ⟨k, rest, rfl, v, r, ws, hm, ?_, ?_, ?_⟩
  · rintro rfl
    simp at hk
    omega
  · exact List.count_eq_zero.1 (by omega)
  · intro tr htr
    obtain ⟨t, u, rfl, h3, h4⟩ := run_append _ _ _ htr
    cases h4 with
    | resume h4 =>
      cases h4 with
      | done h4 =>
        cases h4
        exact ⟨t, rfl, fun e he => ⟨run_unused h3 (by omega) e he, run_unused h3 (by omega) e he⟩⟩

mutual
theorem uses_convert (v : Nat) : ∀ o : Op, uses v (convert o) = uses v o
  | .suspend a n args body => by
    have ih := usesAll_convert v body
    rw [convert]
    split <;> simp only [uses, ih]
  | .arm a n args body => by have ih := usesAll_convert v body; simp only [convert, uses, ih]
  | .other ws inner => by have ih := usesAll_convert v inner; simp only [convert, uses, ih]
  | .resume c w r => by simp only [convert]
  | .done ws => by simp only [convert]
theorem usesAll_convert (v : Nat) : ∀ os : List Op, usesAll v (convertAll os) = usesAll v os
  | [] => by simp only [convertAll]
  | o :: os => by
    have i1 := uses_convert v o
    have i2 := usesAll_convert v os
    simp only [convertAll, usesAll, i1, i2]
end

theorem convertAll_map : ∀ os : List Op, convertAll os = os.map convert
  | [] => by simp only [convertAll, List.map_nil]
  | o :: os => by simp only [convertAll, List.map_cons, convertAll_map os]

theorem convert_resume {o : Op} {c v r : Nat} (h : convert o = .resume c v r) : o = .resume c v r := by
  cases o with
  | resume => simpa only [convert] using h
  | suspend a n args body => rw [convert] at h; split at h <;> cases h
  | _ => simp only [convert] at h; cases h

theorem convert_done {o : Op} {ws : List Nat} (h : convert o = .done ws) : o = .done ws := by
  cases o with
  | done => simpa only [convert] using h
  | suspend a n args body => rw [convert] at h; split at h <;> cases h
  | _ => simp only [convert] at h; cases h

theorem isTail_convert (args : List Nat) (body : List Op) :
    isTail args (convertAll body) = isTail args body := by
  rw [Bool.eq_iff_iff]
  constructor
  · intro h
    obtain ⟨k, rest, pre, v, r, ws, rfl, hb, hm, hk, hr⟩ := isTail_shape h
    rw [usesAll_convert] at hk hr
    rw [convertAll_map] at hb
    obtain ⟨p, q, rfl, rfl, hq⟩ := List.map_eq_append_iff.1 hb
    have hl := congrArg List.length hq
    match q, hq, hl with
    | [], _, hl => simp at hl
    | [_], _, hl => simp at hl
    | _ :: _ :: _ :: _, _, hl => simp at hl
    | [x, y], hq, _ =>
      simp only [List.map_cons, List.map_nil, List.cons.injEq, and_true] at hq
      rw [convert_resume hq.1, convert_done hq.2] at hk hr ⊢
      exact shape_isTail hm hk hr
  · intro h
    obtain ⟨k, rest, pre, v, r, ws, rfl, rfl, hm, hk, hr⟩ := isTail_shape h
    rw [← usesAll_convert] at hk hr
    rw [convertAll_map, List.map_append] at hk hr ⊢
    simp only [List.map_cons, List.map_nil, convert] at hk hr ⊢
    exact shape_isTail hm hk hr

mutual
theorem convert_twice : ∀ o : Op, convert (convert o) = convert o
  | .suspend a n args body => by
    have ih := convertAll_twice body
    rw [convert]
    split
    · simp only [convert, ih]
    · rename_i h
      rw [convert, isTail_convert, if_neg h, ih]
  | .arm a n args body => by have ih := convertAll_twice body; simp only [convert, ih]
  | .other ws inner => by have ih := convertAll_twice inner; simp only [convert, ih]
  | .resume c w r => by simp only [convert]
  | .done ws => by simp only [convert]
theorem convertAll_twice : ∀ os : List Op, convertAll (convertAll os) = convertAll os
  | [] => by simp only [convertAll]
  | o :: os => by
    have i1 := convert_twice o
    have i2 := convertAll_twice os
    simp only [convertAll, i1, i2]
end

mutual
theorem run_convert : ∀ {os : List Op} {tr : List Event}, Run os tr → Run (convertAll os) tr
  | _, _, .nil => by simp only [convertAll]; exact .nil
  | _, _, .resume h => by
    have ih := run_convert h
    simp only [convertAll, convert]; exact .resume ih
  | _, _, .done h => by
    have ih := run_convert h
    simp only [convertAll, convert]; exact .done ih
  | _, _, .suspend hb h => by
    have i1 := runs_convert hb
    have i2 := run_convert h
    rw [convertAll, convert]
    split
    · exact .arm i1 i2
    · exact .suspend i1 i2
  | _, _, .arm hb h => by
    have i1 := runs_convert hb
    have i2 := run_convert h
    simp only [convertAll, convert]; exact .arm i1 i2
  | _, _, .other hb h => by
    have i1 := runs_convert hb
    have i2 := run_convert h
    simp only [convertAll, convert]; exact .other i1 i2
theorem runs_convert : ∀ {os : List Op} {tr : List Event}, Runs os tr → Runs (convertAll os) tr
  | _, _, .zero _ => .zero _
  | _, _, .more h hr => .more (run_convert h) (runs_convert hr)
end

theorem runs_mono {xs ys : List Op} (f : ∀ t, Run xs t → Run ys t) :
    ∀ {tr : List Event}, Runs xs tr → Runs ys tr
  | _, .zero _ => .zero _
  | _, .more h hr => .more (f _ h) (runs_mono f hr)

theorem run_back : ∀ (os : List Op) (tr : List Event), Run (convertAll os) tr → Run os tr
  | [], tr, h => by simpa only [convertAll] using h
  | .resume c v r :: os, tr, h => by
    have ih := run_back os
    simp only [convertAll, convert] at h
    cases h with
    | resume h => exact .resume (ih _ h)
  | .done ws :: os, tr, h => by
    have ih := run_back os
    simp only [convertAll, convert] at h
    cases h with
    | done h => exact .done (ih _ h)
  | .suspend a n args body :: os, tr, h => by
    have ih := run_back os
    have ib : ∀ t, Run (convertAll body) t → Run body t := run_back body
    rw [convertAll, convert] at h
    split at h
    · cases h with
      | arm hb h => exact .suspend (runs_mono ib hb) (ih _ h)
    · cases h with
      | suspend hb h => exact .suspend (runs_mono ib hb) (ih _ h)
  | .arm a n args body :: os, tr, h => by
    have ih := run_back os
    have ib : ∀ t, Run (convertAll body) t → Run body t := run_back body
    simp only [convertAll, convert] at h
    cases h with
    | arm hb h => exact .arm (runs_mono ib hb) (ih _ h)
  | .other ws inner :: os, tr, h => by
    have ih := run_back os
    have ib : ∀ t, Run (convertAll inner) t → Run inner t := run_back inner
    simp only [convertAll, convert] at h
    cases h with
    | other hb h => exact .other (runs_mono ib hb) (ih _ h)

theorem resumesLast_convert {args : List Nat} {body : List Op} (h : ResumesLast args body) :
    ResumesLast args (convertAll body) := by
  obtain ⟨k, rest, h1, v, r, ws, h2, h3, h4, h5⟩ := h
  exact ⟨k, rest, h1, v, r, ws, h2, h3, h4, fun tr htr => h5 tr (run_back _ _ htr)⟩

mutual
theorem fit_convert : ∀ o : Op, ArmsFit o → ArmsFit (convert o)
  | .suspend a n args body, h => by
    have ih := fitAll_convert body h
    rw [convert]
    split
    · rename_i ht
      rw [← isTail_convert] at ht
      exact ⟨isTail_resumes ht, ih⟩
    · exact ih
  | .arm a n args body, h => by
    have ih := fitAll_convert body h.2
    rw [convert]
    exact ⟨resumesLast_convert h.1, ih⟩
  | .other ws inner, h => by
    have ih := fitAll_convert inner h
    rw [convert]
    exact ih
  | .resume c w r, _ => by rw [convert]; trivial
  | .done ws, _ => by rw [convert]; trivial
theorem fitAll_convert : ∀ os : List Op, AllArmsFit os → AllArmsFit (convertAll os)
  | [], _ => by rw [convertAll]; trivial
  | o :: os, h => by
    have i1 := fit_convert o h.1
    have i2 := fitAll_convert os h.2
    rw [convertAll]
    exact ⟨i1, i2⟩
end

theorem inside_convert (o : Op) : (convert o).inside = convertAll o.inside := by
  cases o with
  | suspend a n args body => rw [convert]; split <;> rfl
  | resume c v r => simp only [convert, Op.inside, convertAll]
  | done ws => simp only [convert, Op.inside, convertAll]
  | _ => simp only [convert, Op.inside]

theorem convert_suspend {o : Op} {a n : Nat} {args : List Nat} {body : List Op}
    (h : convert o = .suspend a n args body) : isTail args body = false := by
  cases o with
  | suspend a' n' args' body' =>
    rw [convert] at h
    split at h
    · cases h
    · rename_i ht
      simp only [Op.suspend.injEq] at h
      obtain ⟨_, _, rfl, rfl⟩ := h
      rw [isTail_convert]
      simpa using ht
  | _ => simp only [convert] at h; cases h

theorem within_convert {s : Op} {xs : List Op} (h : Within s xs) : ∀ os, xs = convertAll os →
    ∀ a n args body, s = .suspend a n args body → isTail args body = false := by
  induction h with
  | here h =>
    rintro os rfl a n args body rfl
    rw [convertAll_map] at h
    obtain ⟨o, _, ho⟩ := List.mem_map.1 h
    exact convert_suspend ho
  | deeper hx _ ih =>
    rintro os rfl
    rw [convertAll_map] at hx
    obtain ⟨o, _, rfl⟩ := List.mem_map.1 hx
    exact ih o.inside (inside_convert o)

end Verif.TailResume
