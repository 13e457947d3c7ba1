import Verif.Complete.Model

/-!
Which names a declaration brings into scope where it stands, and as what.
-/

namespace Verif.Complete

/-- The declaration declares the name. -/
inductive Declares : Decl → Text → Kind → Prop
  | function (n : Text) : Declares (.function n) n .function
  | struct (n : Text) : Declares (.struct n) n .struct
  | enum (n : Text) (vs : List Text) : Declares (.enum n vs) n .enum
  | variant (n : Text) (vs : List Text) {v : Text} (h : v ∈ vs) : Declares (.enum n vs) v .constructor
  | externFunction (n : Text) : Declares (.externFunction n) n .function
  | ability (n : Text) (ops : List Text) : Declares (.ability n ops) n .ability

/-- The declaration imports the ability of input and output under the name. -/
inductive ImportsIo : Decl → Text → Prop
  | plain : ImportsIo (.use ["std".toList, "io".toList, "Io".toList] none) "Io".toList
  | renamed (n : Text) : ImportsIo (.use ["std".toList, "io".toList, "Io".toList] (some n)) n

/-- Words of the language: the nodes `keyword_…` of the grammar and the capitalised literals, see
astgen/declarations.rs 121 and 720–724 for `keyword_extern` and `keyword_op`. -/
def words : List Text :=
  ["fn", "let", "case", "struct", "enum", "ability", "const", "pub", "use", "mod", "if", "handle",
    "as", "True", "False", "Nil", "extern", "op"].map String.toList

/-- The names a declaration declares or imports, as often as it does. -/
def names : Decl → List Text
  | .function n => [n]
  | .struct n => [n]
  | .enum n vs => n :: vs
  | .externFunction n => [n]
  | .ability n _ => [n]
  | .use path as => if path = ["std".toList, "io".toList, "Io".toList] then [as.getD "Io".toList] else []
  | .module _ _ => []

end Verif.Complete
