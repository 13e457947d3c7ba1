import Verif.LspPos.Model
/-!
# Positions in a document, as the editor sees them

From the Language Server Protocol: lines end with `\n`, `\r\n` or `\r`; a position is a line and a number
of UTF-16 code units in it.
-/
namespace Verif.LspPos

/-- The number of bytes of a text. -/
def bytes (s : Text) : Nat := (s.flatMap String.utf8EncodeChar).length

/-- The number of UTF-16 code units of a text. -/
def units (s : Text) : Nat := (s.map fun c => if c.toNat < 65536 then 1 else 2).sum

/-- A line ends just after character number `i`. -/
def EndsLine (s : Text) (i : Nat) : Prop :=
  s[i]? = some '\n' ∨ (s[i]? = some '\r' ∧ s[i + 1]? ≠ some '\n')

/-- Line number `n` starts at character number `i`. -/
inductive LineStart (s : Text) : Nat → Nat → Prop
  | zero : LineStart s 0 0
  | next {n i j : Nat} : LineStart s n i → i ≤ j → EndsLine s j → (∀ m, i ≤ m → m < j → ¬ EndsLine s m) →
      LineStart s (n + 1) (j + 1)

/-- The position (`n`, `col`) is the one before character number `k`. -/
def At (s : Text) (n col k : Nat) : Prop :=
  ∃ i, LineStart s n i ∧ i ≤ k ∧ k ≤ s.length ∧ (∀ m, i ≤ m → m < k → ¬ EndsLine s m) ∧
    col = units ((s.take k).drop i)

/-- The text uses none of the line terminators known to Unicode only: VT, FF, NEL, LS, PS. -/
def PlainLines (s : Text) : Prop :=
  ∀ c ∈ s, c.toNat ≠ 0x0B ∧ c.toNat ≠ 0x0C ∧ c.toNat ≠ 0x85 ∧ c.toNat ≠ 0x2028 ∧ c.toNat ≠ 0x2029

/-- Every carriage return is followed by a newline. -/
def NoLoneCr (s : Text) : Prop := ∀ i, s[i]? = some '\r' → s[i + 1]? = some '\n'

/-- What a change does to the editor's text: the text between two positions is replaced. -/
inductive Edits : Text → Change → Text → Prop
  | full {s t : Text} : Edits s ⟨none, t⟩ t
  | range {a b c t : Text} {p q : Position} : At (a ++ b ++ c) p.line p.character a.length →
      At (a ++ b ++ c) q.line q.character (a.length + b.length) →
      Edits (a ++ b ++ c) ⟨some (p, q), t⟩ (a ++ t ++ c)

/-- A sequence of changes, on texts of plain lines shorter than 4 GiB. -/
inductive EditsAll : Text → List Change → Text → Prop
  | nil {s : Text} : EditsAll s [] s
  | cons {s s' s'' : Text} {ch : Change} {chs : List Change} : PlainLines s → bytes s < 2 ^ 32 → Edits s ch s' →
      EditsAll s' chs s'' → EditsAll s (ch :: chs) s''

/-- What the editor's documents are after each notification it sends. It changes open documents only. -/
inductive Session : Docs → List Notif → Docs → Prop
  | nil {d : Docs} : Session d [] d
  | opened {d d' : Docs} {u : List Char} {t : Text} {ns : List Notif} :
      Session (fun v => if v = u then some t else d v) ns d' → Session d (.didOpen u t :: ns) d'
  | closed {d d' : Docs} {u : List Char} {ns : List Notif} :
      Session (fun v => if v = u then none else d v) ns d' → Session d (.didClose u :: ns) d'
  | changed {d d' : Docs} {u : List Char} {s s' : Text} {chs : List Change} {ns : List Notif} :
      d u = some s → EditsAll s chs s' → Session (fun v => if v = u then some s' else d v) ns d' →
      Session d (.didChange u chs :: ns) d'

/-- The incremental parser's row and column just after a text: it counts `\n` only, and bytes. -/
def parserPoint (s : Text) : Point :=
  ⟨s.count '\n', bytes ((s.reverse.takeWhile (· != '\n')).reverse)⟩

end Verif.LspPos
