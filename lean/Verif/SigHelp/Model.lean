/-
Model of signature help in the language server.

  /repo/src/lsp/server.rs 665-709     (signature_help)
  /repo/src/lsp/server.rs 1103-1184   (find_enclosing_call, extract_call_info, count_commas_before)
  /repo/src/lsp/completion_index.rs 384-389 (find_signature)

Not modelled: conversion of the position (C40), the doc comment, the formatting of the
label.
-/
namespace Verif.SigHelp

/-- A node of the concrete syntax tree (`tree_sitter::Node`, visible nodes only): its
kind, the field of the parent it fills, its byte range, its children in text order. -/
inductive Node
  | mk (kind : String) (field : Option String) (start stop : Nat) (kids : List Node)

def Node.kind : Node → String
  | .mk k _ _ _ _ => k

def Node.field : Node → Option String
  | .mk _ f _ _ _ => f

def Node.start : Node → Nat
  | .mk _ _ s _ _ => s

def Node.stop : Node → Nat
  | .mk _ _ _ e _ => e

def Node.kids : Node → List Node
  | .mk _ _ _ _ ks => ks

mutual

/-- The nodes from this one down to the one that
`descendant_for_byte_range(offset, offset)` returns (tree-sitter, `lib/src/node.c`:
descend into the first child that ends after the offset, unless it starts after it). -/
def pathTo (offset : Nat) : Node → List Node
  | .mk k f s e kids => .mk k f s e kids :: pathInto offset kids

/-- The loop over the children. -/
def pathInto (offset : Nat) : List Node → List Node
  | [] => []
  | .mk k f s e kids :: rest =>
    if e ≤ offset then pathInto offset rest
    else if offset < s then []
    else pathTo offset (.mk k f s e kids)

end

/-- Walking up from the last node of a path to a call (server.rs 1118-1126): the last
`call_expression` of the path. -/
def lastCall : List Node → Option Node
  | [] => none
  | n :: rest =>
    match lastCall rest with
    | some c => some c
    | none => if n.kind = "call_expression" then some n else none

/-- `child_by_field_name`. -/
def childByField (n : Node) (name : String) : Option Node :=
  n.kids.find? (fun k => k.field == some name)

/-- The loop of `count_commas_before` (server.rs 1164-1181), from the first child on. -/
def countCommas (cursor : Nat) : List Node → Nat
  | [] => 0
  | n :: rest =>
    if cursor ≤ n.start then 0
    else (if n.kind = "," ∧ n.stop ≤ cursor then 1 else 0) + countCommas cursor rest

/-- `CallInfo` (server.rs 1103-1109). -/
structure CallInfo where
  callee : String
  active : Nat
  deriving DecidableEq, Repr

/-- `extract_call_info` (server.rs 1129-1152); `text` is `rope.get_byte_slice`. -/
def extractCallInfo (text : Nat → Nat → Option String) (call : Node) (cursor : Nat) :
    Option CallInfo :=
  match childByField call "function" with
  | none => none
  | some callee =>
    match text callee.start callee.stop with
    | none => none
    | some name =>
      match childByField call "arguments" with
      | none => none
      | some args => some ⟨name, countCommas cursor args.kids⟩

/-- `find_enclosing_call` (server.rs 1112-1127). -/
def findEnclosingCall (text : Nat → Nat → Option String) (root : Node) (offset : Nat) :
    Option CallInfo :=
  match lastCall (pathTo offset root) with
  | none => none
  | some call => extractCallInfo text call offset

/-- `FunctionSignature` (completion_index.rs): the name and the names of the parameters;
types and effects left out. -/
structure Signature where
  name : String
  params : List String
  deriving DecidableEq, Repr

/-- `find_signature` (completion_index.rs 384-389). -/
def findSignature (sigs : List Signature) (name : String) : Option Signature :=
  sigs.find? (fun s => s.name == name)

/-- `signature_help` (server.rs 665-709): the signature shown and the index of the
parameter that is highlighted. -/
def signatureHelp (text : Nat → Nat → Option String) (root : Node) (sigs : List Signature)
    (offset : Nat) : Option (Signature × Nat) :=
  match findEnclosingCall text root offset with
  | none => none
  | some info =>
    match findSignature sigs info.callee with
    | none => none
    | some s => some (s, info.active)

end Verif.SigHelp
