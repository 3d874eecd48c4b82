import Verif.Spec.Ops
import Verif.Spec.Lines

/-!
# Vocabulary of the extent property C57

Where running text has to end, depending on the nodes that are open around it. Definitions used in the
statement only.
-/

namespace Yamd.Spec

open Yamd

/-- A token at the start of a line. -/
def atColumn0 (t : Token) : Prop := t.position.column = 0

/-- A token of a kind and a length in bytes. -/
def tokenIsA (k : TokenKind) (n : Nat) (t : Token) : Prop := t.kind = k ∧ t.stop - t.start = n

/-- `-` opens an unordered, `+` an ordered list. -/
def bulletOf (list : Node) (t : Token) : Prop :=
  (list = .UnorderedList ∧ tokenIsA .Minus 1 t) ∨ (list = .OrderedList ∧ tokenIsA .Plus 1 t)

/-- The tokens start a line with the marker of an item with indentation `n` of the list `list`:
`n` spaces, the bullet, one space. -/
def markerLine (n : Nat) (list : Node) (ts : List Token) : Prop :=
  (n = 0 ∧ ∃ b s r, ts = b :: s :: r ∧ atColumn0 b ∧ bulletOf list b ∧ tokenIsA .Space 1 s) ∨
  (n ≠ 0 ∧ ∃ i b s r, ts = i :: b :: s :: r ∧ atColumn0 i ∧ tokenIsA .Space n i ∧ bulletOf list b ∧ tokenIsA .Space 1 s)

/-- A `%}` at the start of a line. -/
def closerLine (ts : List Token) : Prop := ∃ c r, ts = c :: r ∧ c.kind = .CollapsibleEnd ∧ atColumn0 c

/-- Text under the open nodes `open_` (innermost first) has to end in front of these tokens: at the end
of the input, at a blank line, and

* in a collapsible, at a line `%}` or the line break before it,
* in a highlight, at `!!` at the start of a line,
* in an item on level `l` (so many items are open around it) of a list, at a line that starts with the
  marker of an item on a level from `0` to `l + 1`, which on the level `l` itself has to be an item of the
  same kind of list. -/
def TextEnds (open_ : List Node) (ts : List Token) : Prop :=
  ts = [] ∨
  (∃ t r, ts = t :: r ∧ t.kind = .Terminator) ∨
  (.Collapsible ∈ open_ ∧ (closerLine ts ∨ ∃ t r, ts = t :: r ∧ t.kind = .Eol ∧ closerLine r)) ∨
  (open_.head? = some .Highlight ∧ ∃ t r, ts = t :: r ∧ atColumn0 t ∧ tokenIsA .Bang 2 t) ∨
  (∃ list outer, open_ = .ListItem :: list :: outer ∧ ∃ n other, n ≤ outer.count .ListItem + 1 ∧
    (n = outer.count .ListItem → other = list) ∧ markerLine n other ts)

/-- The text `own` under the open nodes `open_` in front of `rest` is exactly as long as it has to be:
it has to end at its end, and nowhere before. -/
def ExactText (open_ : List Node) (own rest : List Token) : Prop :=
  TextEnds open_ rest ∧ ∀ l1 t l2, own = l1 ++ t :: l2 → ¬ TextEnds open_ (t :: (l2 ++ rest))

/-- Paragraphs and headings. -/
def IsText (n : Node) : Prop := n = .Paragraph ∨ n = .Heading

/-- The source tokens of some ops, each op given with the tokens skipped before it and its own. -/
def entryToks (z : List (Op × List Token × List Token)) : List Token := z.flatMap fun x => x.2.1 ++ x.2.2

end Yamd.Spec
