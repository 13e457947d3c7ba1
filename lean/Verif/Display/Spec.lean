import Verif.Display.Model

/-!
Which declarations there are, and what is not meant to be seen in what is shown.
-/

namespace Verif.Display

/-- Characters of names: none of those that separate. -/
def nameChar (c : Char) : Bool := !['(', ')', ',', ':', ' ', '-', '>', '?', '{', '}'].contains c

/-- A name is not empty and consists of such characters. -/
def IsName (s : Text) : Prop := s ≠ [] ∧ ∀ c ∈ s, nameChar c = true

/-- A path has at least one part; the blank is not a path. -/
def IsPath (parts : List Text) : Prop :=
  parts ≠ [] ∧ (∀ p ∈ parts, IsName p) ∧ parts ≠ [['_']]

mutual
/-- Types whose names are names. -/
def Ty.Ok : Ty → Prop
  | .path ps => IsPath ps
  | .app ps args => IsPath ps ∧ AllOk args
  | .func params _ result => AllOk params ∧ result.Ok
  | .tuple elems => AllOk elems
  | .infer => True
  | .error => True
def AllOk : List Ty → Prop
  | [] => True
  | t :: ts => t.Ok ∧ AllOk ts
end

mutual
/-- A type without the effects of the types of functions in it. -/
def Ty.noEffects : Ty → Ty
  | .path ps => .path ps
  | .app ps args => .app ps (allNoEffects args)
  | .func params _ result => .func (allNoEffects params) none result.noEffects
  | .tuple elems => .tuple (allNoEffects elems)
  | .infer => .infer
  | .error => .error
def allNoEffects : List Ty → List Ty
  | [] => []
  | t :: ts => t.noEffects :: allNoEffects ts
end

/-- Declarations whose names are names. -/
structure Decl.Ok (d : Decl) : Prop where
  name : IsName d.name
  params : ∀ p ∈ d.params, IsName p.1 ∧ ∀ t, p.2 = some t → t.Ok
  effects : ∀ ts, d.effects = some ts → AllOk ts
  result : ∀ t, d.result = some t → t.Ok

/-- What is the same in declarations that may be shown alike: all but the effects inside types, an
empty list of effects, and a result to be inferred. -/
def Decl.shown (d : Decl) : Text × List (Text × Option Ty) × List Ty × Ty :=
  (d.name, d.params.map (fun p => (p.1, p.2.map Ty.noEffects)),
    allNoEffects (d.effects.getD []), (d.result.getD .infer).noEffects)

end Verif.Display
