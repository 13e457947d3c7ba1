import Mathlib.Data.List.Basic

/-!
Model of the documentation shown with signature help: `src/lsp/server.rs` 1187–1270
(`find_doc_comment`, `find_function_node`, `extract_doc_comment`).

Simplifications: of the concrete syntax tree only definitions of functions with their names, comments
with their text and the nesting of nodes are kept; text is a list of characters; a definition of a
function has a name.  Which characters are white space is a parameter.
-/

namespace Verif.DocHelp

abbrev Text := List Char

/-- Nodes of the concrete syntax tree, by `kind()`. -/
inductive Node where
  /-- `function_definition` -/
  | func (name : Text) (kids : List Node)
  /-- `line_doc_comment` -/
  | docLine (text : Text)
  /-- `block_doc_comment` -/
  | docBlock (text : Text)
  /-- `line_comment` and `block_comment` -/
  | comment
  /-- everything else, in particular nested modules -/
  | other (kids : List Node)

mutual
/-- server.rs 1196–1229: `find_function_node`.  A node is found together with its preceding siblings,
nearest first, which is what `prev_sibling` goes through. -/
def find (name : Text) (before : List Node) : Node → Option (List Node)
  | .func n kids => if n = name then some before else findKids name [] kids
  | .other kids => findKids name [] kids
  | _ => none
/-- server.rs 1214–1226: the loop over the children. -/
def findKids (name : Text) (before : List Node) : List Node → Option (List Node)
  | [] => none
  | x :: xs =>
    match find name before x with
    | some r => some r
    | none => findKids name (x :: before) xs
end

/-- `str::trim`. -/
def trim (white : Char → Bool) (t : Text) : Text :=
  ((t.dropWhile white).reverse.dropWhile white).reverse

/-- `str::strip_prefix`. -/
def stripPrefix : Text → Text → Option Text
  | [], t => some t
  | _ :: _, [] => none
  | c :: p, d :: t => if c = d then stripPrefix p t else none

/-- `str::strip_suffix`. -/
def stripSuffix (p t : Text) : Option Text := (stripPrefix p.reverse t.reverse).map List.reverse

/-- server.rs 1246–1247: the text of a line of documentation. -/
def cleanLine (white : Char → Bool) (t : Text) : Text :=
  trim white ((stripPrefix ['/', '/', '/'] t).getD t)

/-- server.rs 1248–1254: the text of a block of documentation. -/
def cleanBlock (white : Char → Bool) (t : Text) : Text :=
  (((stripPrefix ['/', '*', '*'] t).bind (stripSuffix ['*', '/'])).map (trim white)).getD t

/-- server.rs 1236–1261: the loop of `extract_doc_comment`, from the nearest sibling on. -/
def collect (white : Char → Bool) : List Node → List Text
  | .docLine t :: r => cleanLine white t :: collect white r
  | .docBlock t :: r => cleanBlock white t :: collect white r
  | .comment :: r => collect white r
  | _ => []

/-- `join("\n")`. -/
def joinLines : List Text → Text
  | [] => []
  | [x] => x
  | x :: y :: xs => x ++ '\n' :: joinLines (y :: xs)

/-- server.rs 1187–1193 and 1263–1269: `find_doc_comment` on a file with these top-level nodes. -/
def help (white : Char → Bool) (file : List Node) (name : Text) : Option Text :=
  match find name [] (.other file) with
  | none => none
  | some before =>
    let cs := collect white before
    if cs.isEmpty then none else some (joinLines cs.reverse)

end Verif.DocHelp
