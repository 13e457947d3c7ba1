import Mathlib.Data.List.Basic

/-!
Model of how a source file is named inside the compiler: `crates/tribute-front/src/source_file.rs` 44–55
(`path_to_uri`) and `crates/tribute-front/src/astgen/mod.rs` 262–277 (`derive_module_name_from_uri`).

Simplifications: text is a list of characters; paths are valid Unicode; a URI is kept without its
beginning `file://`, which is always the same; the parser of URIs (`fluent_uri`) is modelled by the
grammar of RFC 3986 that it implements, `Path::file_stem` by its documentation on Unix.
-/

namespace Verif.SourcePath

abbrev Text := List Char

/-- RFC 3986: the characters of a path that stand for themselves, with the slash. -/
def pathChar (c : Char) : Bool :=
  c.isAlphanum || ['-', '.', '_', '~', '!', '$', '&', '\'', '(', ')', '*', '+', ',', ';', '=', ':',
    '@', '/'].contains c

def hexDigit (c : Char) : Bool :=
  c.isDigit || ['a', 'b', 'c', 'd', 'e', 'f', 'A', 'B', 'C', 'D', 'E', 'F'].contains c

/-- RFC 3986: characters, the given further ones, and percent signs with two digits. -/
def wellFormed (more : Char → Bool) : Text → Bool
  | [] => true
  | '%' :: a :: b :: r => hexDigit a && hexDigit b && wellFormed more r
  | c :: r => (pathChar c || more c) && wellFormed more r

/-- What is before the query and the fragment. -/
def pathPart (u : Text) : Text := u.takeWhile (fun c => c != '?' && c != '#')

/-- What is after it. -/
def restPart (u : Text) : Text := u.dropWhile (fun c => c != '?' && c != '#')

/-- `Uri::parse_from` on `file://` and this text, which begins with a slash. -/
def parses (u : Text) : Bool :=
  wellFormed (fun _ => false) (pathPart u) &&
    (match restPart u with
    | '?' :: q =>
      wellFormed (fun c => c == '?') (q.takeWhile (· != '#')) &&
        wellFormed (fun c => c == '?') (q.dropWhile (· != '#')).tail
    | _ :: f => wellFormed (fun c => c == '?') f
    | [] => true)

/-- source_file.rs 45–55: `path_to_uri`; `none` is a panic. -/
def pathToUri (path : Text) : Option Text :=
  let u := if path.head? = some '/' then path else '/' :: path
  if parses u then some u else none

/-- Parts of a path between slashes. -/
def parts : Text → List Text
  | [] => [[]]
  | c :: r =>
    if c = '/' then [] :: parts r
    else match parts r with
      | [] => [[c]]
      | x :: xs => (c :: x) :: xs

/-- `Path::file_name`. -/
def fileName (p : Text) : Option Text :=
  match ((parts p).filter (fun x => x ≠ [] && x ≠ ['.'])).getLast? with
  | some n => if n = ['.', '.'] then none else some n
  | none => none

/-- `Path::file_stem`: up to the last dot, unless there is nothing before it. -/
def stem (n : Text) : Text :=
  match n.reverse.dropWhile (· != '.') with
  | [] => n
  | _ :: r => if r = [] then n else r.reverse

/-- astgen/mod.rs 266–275: the name of the module of a URI. -/
def moduleOfUri (u : Text) : Option Text := (fileName (pathPart u)).map stem

/-- What becomes of the path of a file: a panic, or the name of its module if it has one. -/
def moduleOfPath (path : Text) : Option (Option Text) := (pathToUri path).map moduleOfUri

end Verif.SourcePath
