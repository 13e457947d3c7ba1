/-!
# Evidence (runtime ability dispatch)

Model of `crates/tribute-runtime/src/lib.rs` lines 737-900: `Marker`, `Evidence::new`,
`Evidence::lookup`, `Evidence::extend` and the `__tribute_evidence_*` entry points.

Simplifications:
* `i32` ability ids and prompt tags are `Int` (they are only compared and copied);
* the two code pointers are opaque `Nat`s;
* heap handles returned by `Box::into_raw` are indices into a list of evidence objects; the
  code never frees an evidence object, so handles stay valid for ever.
-/
namespace Verif.Evidence

/-- `struct Marker`, lib.rs 751-758. -/
structure Marker where
  abilityId : Int
  promptTag : Int
  trDispatchFn : Nat
  handlerDispatch : Nat
deriving DecidableEq, Repr

/-- `struct Evidence { markers }`, lib.rs 764-767. -/
abbrev Evidence := List Marker

/-- The loop of Rust's `slice::binary_search_by` (called at lib.rs 777 and 796): keep
`base`, halve `size`.  `none` stands for an out-of-bounds access. -/
def bsLoop (ms : List Marker) (k : Int) (base size : Nat) : Option Nat :=
  if size > 1 then
    let half := size / 2
    let mid := base + half
    match ms[mid]? with
    | none => none
    | some m =>
      let base' := if m.abilityId > k then base else mid
      bsLoop ms k base' (size - half)
  else some base
termination_by size

/-- Rust's `slice::binary_search_by_key` specialised to `|m| m.ability_id`
(lib.rs 775-777, 794-797): `ok pos` if found, `error pos` with the insertion point if not. -/
def binarySearch (ms : List Marker) (k : Int) : Option (Except Nat Nat) :=
  if ms.length = 0 then some (.error 0)
  else do
    let base ← bsLoop ms k 0 ms.length
    let m ← ms[base]?
    if m.abilityId = k then some (.ok base)
    else if m.abilityId < k then some (.error (base + 1))
    else some (.error base)

/-- `Evidence::new`, lib.rs 770-774. -/
def Evidence.new : Evidence := []

/-- `Evidence::lookup`, lib.rs 774-790.  `none` is the `unreachable_unchecked` branch
(undefined behaviour in release builds, a failed `debug_assert` in debug builds). -/
def Evidence.lookup (e : Evidence) (k : Int) : Option Marker := do
  match ← binarySearch e k with
  | .ok idx => e[idx]?
  | .error _ => none

/-- `Evidence::extend`, lib.rs 792-809: clone, then replace or insert. -/
def Evidence.extend (e : Evidence) (m : Marker) : Option Evidence := do
  match ← binarySearch e m.abilityId with
  | .ok pos => some (e.set pos m)
  | .error pos => some (e.insertIdx pos m)

/-- Calls a program makes on the evidence API, in order. -/
inductive Op where
  /-- `__tribute_evidence_empty()`, lib.rs 815-818. -/
  | empty
  /-- `__tribute_evidence_extend(ev, ability_id, …)`, lib.rs 846-861. -/
  | extend (ev : Nat) (m : Marker)
deriving DecidableEq, Repr

/-- The evidence objects allocated so far; a handle is an index. -/
abbrev Heap := List Evidence

/-- One call.  `none` = invalid handle or out-of-bounds access (undefined behaviour). -/
def step (h : Heap) : Op → Option Heap
  | .empty => some (h ++ [Evidence.new])
  | .extend ev m => do
    let e ← h[ev]?
    let e' ← e.extend m
    some (h ++ [e'])

/-- Run a history of calls. -/
def run (h : Heap) : List Op → Option Heap
  | [] => some h
  | op :: ops => do run (← step h op) ops

/-- `__tribute_evidence_lookup*` (lib.rs 831-900): read a field of the marker found. -/
def lookupHandle (h : Heap) (ev : Nat) (k : Int) : Option Marker := do
  (← h[ev]?).lookup k

end Verif.Evidence
