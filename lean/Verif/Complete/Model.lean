import Mathlib.Data.List.Basic

/-!
Model of completion: `src/lsp/completion_index.rs` 55–158 and `src/lsp/server.rs` 432–442.

Simplifications: text is a list of characters; of an item its name and its kind are kept, not its
detail; of declarations only what completion looks at.  How the prefix is found is C47.
-/

namespace Verif.Complete

abbrev Text := List Char

/-- completion_index.rs 17–27: `CompletionKind`, without constants and variables, which are never
made. -/
inductive Kind where
  | function | struct | enum | ability | keyword | constructor
  deriving DecidableEq

/-- `Decl`, declarations of a module. -/
inductive Decl where
  | function (name : Text)
  | struct (name : Text)
  | enum (name : Text) (variants : List Text)
  | externFunction (name : Text)
  | ability (name : Text) (operations : List Text)
  | use (path : List Text) (as : Option Text)
  | module (name : Text) (body : List Decl)

/-- completion_index.rs 44–53: `AstCompletionItem`. -/
abbrev Item := Text × Kind

/-- completion_index.rs 56–59: `KEYWORDS`. -/
def keywords : List Text :=
  ["fn", "let", "case", "struct", "enum", "ability", "const", "pub", "use", "mod", "if", "handle",
    "as", "True", "False", "Nil"].map String.toList

/-- completion_index.rs 62–72: `complete_keywords`. -/
def completeKeywords (pre : Text) : List Item :=
  (keywords.filter (fun k => pre.isPrefixOf k)).map (fun k => (k, .keyword))

/-- phases.rs 249–252: `AbilityId::builtin_from_path`, with the name of the ability. -/
def builtin (path : List Text) : Option Text :=
  if path = ["std".toList, "io".toList, "Io".toList] then some "Io".toList else none

/-- completion_index.rs 84–144: what one declaration adds to the items. -/
def add (items : List Item) : Decl → List Item
  | .function name => items ++ [(name, .function)]
  | .struct name => items ++ [(name, .struct)]
  | .enum name variants =>
    items ++ (name, .enum) :: variants.map (fun v => (v, .constructor))
  | .externFunction name => items ++ [(name, .function)]
  | .ability name _ => items ++ [(name, .ability)]
  | .use path as =>
    match builtin path with
    | some ability =>
      let name := as.getD ability
      if items.any (fun i => i.1 = name) then items else items ++ [(name, .ability)]
    | none => items
  | .module _ _ => items

/-- completion_index.rs 76–148: `completion_items`. -/
def completionItems (decls : List Decl) : List Item := decls.foldl add []

/-- server.rs 432–442 and completion_index.rs 151–158: the items offered for a prefix. -/
def complete (decls : List Decl) (pre : Text) : List Item :=
  (completionItems decls).filter (fun i => pre.isPrefixOf i.1) ++ completeKeywords pre

end Verif.Complete
