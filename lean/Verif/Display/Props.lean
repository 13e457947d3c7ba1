import Verif.Display.Proofs

/-!
# C109: signature help shows different functions differently
-/

namespace Verif.Display

/-- Types that are shown alike are alike, but for the effects of the types of functions in them.
Missing: the effects, which are not shown. -/
theorem C109_types_partial {t t' : Ty} (h : t.Ok) (h' : t'.Ok) (he : print t = print t') :
    t.noEffects = t'.noEffects :=
  (print_inj t t' [] [] h h' stop_nil stop_nil (by rw [he])).1

/-- Functions whose signatures are shown alike have the same name, the same parameters with the same
types, the same effects and the same result, but for the effects of the types of functions in them,
and but for an empty list of effects and none at all. -/
theorem C109_label_partial {d d' : Decl} (h : d.Ok) (h' : d'.Ok) (he : label d = label d') :
    d.name = d'.name ∧ d.params.map Prod.fst = d'.params.map Prod.fst ∧
      d.params.map (fun p => p.2.map Ty.noEffects) = d'.params.map (fun p => p.2.map Ty.noEffects) ∧
      allNoEffects (d.effects.getD []) = allNoEffects (d'.effects.getD []) ∧
      (d.result.getD .infer).noEffects = (d'.result.getD .infer).noEffects := by
  have hs := label_inj h h' he
  unfold Decl.shown at hs
  simp only [Prod.mk.injEq] at hs
  refine ⟨hs.1, ?_, ?_, hs.2.2.1, hs.2.2.2⟩
  · have := congrArg (List.map Prod.fst) hs.2.1
    simpa only [List.map_map, Function.comp_def] using this
  · have := congrArg (List.map Prod.snd) hs.2.1
    simpa only [List.map_map, Function.comp_def] using this

/-- Effects of the type of a function that is a parameter or a result are not shown. -/
theorem C109_effects_violated : ∃ t t' : Ty, t.Ok ∧ t'.Ok ∧ t ≠ t' ∧ print t = print t' := by
  refine ⟨.func [.path [['I']]] none (.path [['I']]),
    .func [.path [['I']]] (some [.path [['S']]]) (.path [['I']]), ?_, ?_, ?_, rfl⟩
  · simp [Ty.Ok, AllOk, IsPath, IsName, nameChar]
  · simp [Ty.Ok, AllOk, IsPath, IsName, nameChar]
  · simp

/-- A function declared to have no effects and one whose effects are inferred are shown alike. -/
theorem C109_pure_violated : ∃ d d' : Decl, d.Ok ∧ d'.Ok ∧ d.effects = some [] ∧ d'.effects = none ∧
    label d = label d' := by
  refine ⟨⟨['f'], [], some [], some (.path [['I']])⟩, ⟨['f'], [], none, some (.path [['I']])⟩,
    ⟨?_, ?_, ?_, ?_⟩, ⟨?_, ?_, ?_, ?_⟩, rfl, rfl, rfl⟩ <;>
    simp [Ty.Ok, AllOk, IsPath, IsName, nameChar]

/-- `fn map(xs: List(a), f: (a) -> b) ->{State(Int)} List(b)`. -/
private def mapDecl : Decl :=
  ⟨"map".toList, [("xs".toList, some (.app ["List".toList] [.path ["a".toList]])),
    ("f".toList, some (.func [.path ["a".toList]] none (.path ["b".toList])))],
    some [.app ["State".toList] [.path ["Int".toList]]],
    some (.app ["List".toList] [.path ["b".toList]])⟩

example : label mapDecl =
    "fn map(xs: List(a), f: (a) -> b) ->{State(Int)} List(b)".toList := by decide +kernel

example : mapDecl.Ok := by
  refine ⟨?_, ?_, ?_, ?_⟩ <;> simp [mapDecl, Ty.Ok, AllOk, IsPath, IsName, nameChar]

end Verif.Display
