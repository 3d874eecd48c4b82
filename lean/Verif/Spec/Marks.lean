import Verif.Spec.Extent

/-!
# Vocabulary of the mark properties C58-C60

Which tokens are marks of which node, and when a mark may be left as text. Definitions used in the
statements only.
-/

namespace Yamd.Spec

open Yamd

/-- The marks of the inline nodes that are opened and closed by the same mark: `_`, `~~`, `` ` ``, `*`
and `**`. An escaped mark is a literal token and no mark. -/
def isMark : Node → Token → Prop
  | .Italic, t => tokenIsA .Underscore 1 t
  | .Strikethrough, t => tokenIsA .Tilde 2 t
  | .CodeSpan, t => tokenIsA .Backtick 1 t
  | .Emphasis, t => tokenIsA .Star 1 t
  | .Bold, t => tokenIsA .Star 2 t
  | _, _ => False

/-- The tokens that close a node, whatever stands behind them. (For a destination see C46; an embed is
described in C58 itself.) -/
def closesNode : Node → Token → Prop
  | .Title, t => tokenIsA .RightSquareBracket 1 t
  | .Metadata, t => atColumn0 t ∧ tokenIsA .Minus 3 t
  | .Code, t => atColumn0 t ∧ tokenIsA .Backtick 3 t
  | .Modifier, t => t.kind = .Eol ∨ t.kind = .Terminator
  | .Icon, t => t.kind = .Eol ∨ t.kind = .Terminator
  | n, t => isMark n t

/-- The token `t`, with `rest` behind it up to the end of the paragraph, is no mark of the node `n` that
could be closed. -/
def PairLeft (n : Node) (t : Token) (rest : List Token) : Prop := isMark n t → ∀ u ∈ rest, ¬ isMark n u

/-- `**` stays text only if every later `**` is hidden between the two marks of an italic or a
strikethrough. -/
def BoldLeft (t : Token) (rest : List Token) : Prop :=
  isMark .Bold t → ∀ c u d, rest = c ++ u :: d → isMark .Bold u →
    ∃ n, (n = .Italic ∨ n = .Strikethrough) ∧ ∃ w ∈ c, ∃ w' ∈ d, isMark n w ∧ isMark n w'

/-- `[` stays text only if no `]` follows, or no `(` stands directly behind the first one, or no `)`
follows that. -/
def LinkLeft (t : Token) (rest : List Token) : Prop :=
  tokenIsA .LeftSquareBracket 1 t → ∀ c u p d, rest = c ++ u :: p :: d →
    (∀ x ∈ c, ¬ tokenIsA .RightSquareBracket 1 x) → tokenIsA .RightSquareBracket 1 u → tokenIsA .LeftParenthesis 1 p →
    ∀ x ∈ d, x.kind ≠ .RightParenthesis

/-- A token that is plain text of the node `n`, with `rest` behind it up to the end of the paragraph or
heading it stands in. -/
def LeftAsText : Node → Token → List Token → Prop
  | .Paragraph, t, rest => PairLeft .Italic t rest ∧ PairLeft .Strikethrough t rest ∧ PairLeft .CodeSpan t rest ∧
      PairLeft .Emphasis t rest ∧ BoldLeft t rest ∧ LinkLeft t rest
  | .Bold, t, rest => PairLeft .Italic t rest ∧ PairLeft .Strikethrough t rest
  | .Heading, t, rest => LinkLeft t rest
  | _, _, _ => True

/-- The entries in front of the end of the paragraph or heading. -/
def inText (z : List (Op × List Token × List Token)) : List (Op × List Token × List Token) :=
  z.takeWhile fun x => x.1.kind ≠ .End .Paragraph && x.1.kind ≠ .End .Heading

/-! ### Blocks -/

/-- A code fence: three backticks at the start of a line. -/
def isFence (t : Token) : Prop := atColumn0 t ∧ tokenIsA .Backtick 3 t

/-- `!!` at the start of a line. -/
def isHighlightMark (t : Token) : Prop := atColumn0 t ∧ tokenIsA .Bang 2 t

/-- A collapsible has to end in front of these tokens. -/
def CollapsibleEnds (open_ : List Node) (ts : List Token) : Prop :=
  .Collapsible ∈ open_ ∧ (closerLine ts ∨ ∃ t r, ts = t :: r ∧ t.kind = .Eol ∧ closerLine r)

/-- A closing mark may stand in front of these tokens: at the end of a line or of the text. -/
def LineEnds (open_ : List Node) (ts : List Token) : Prop :=
  TextEnds open_ ts ∨ ∃ t r, ts = t :: r ∧ t.kind = .Eol

/-- A collapsible has to end somewhere in `own`, which stands in front of `rest`. -/
def EndsWithin (open_ : List Node) (own rest : List Token) : Prop :=
  ∃ x t y, own = x ++ t :: y ∧ CollapsibleEnds open_ (t :: (y ++ rest))

/-- `![title](destination)` without a bracket in the title and without parentheses in the destination. -/
def ImageLine (ts : List Token) : Prop := ∃ b o c x p d q, ts = b :: o :: (c ++ x :: p :: (d ++ [q])) ∧
  tokenIsA .Bang 1 b ∧ tokenIsA .LeftSquareBracket 1 o ∧ (∀ t ∈ c, ¬ tokenIsA .RightSquareBracket 1 t) ∧
  tokenIsA .RightSquareBracket 1 x ∧ tokenIsA .LeftParenthesis 1 p ∧
  (∀ t ∈ d, t.kind ≠ .LeftParenthesis ∧ t.kind ≠ .RightParenthesis) ∧ q.kind = .RightParenthesis

/-- Nothing but image lines. -/
inductive ImageLines : List Token → Prop where
  | last (l) : ImageLine l → ImageLines l
  | more (l e r) : ImageLine l → e.kind = .Eol → ImageLines r → ImageLines (l ++ e :: r)

/-- What a paragraph directly in a document cannot look like: `own` are its tokens, `rest` is what
follows. It starts no heading, no list and no thematic break, it consists not only of image lines; when it
starts with a code fence, with `{{` or with a highlight mark and a space or line break, then

* the next fence is not the last thing in its line,
* the `}}` behind the first `|` is not the last thing in its line (or the collapsible around it ends
  before),
* no highlight mark follows (or the collapsible around it ends before). -/
structure BlockLeft (open_ : List Node) (own rest : List Token) : Prop where
  heading : ∀ h s r, own ++ rest = h :: s :: r → atColumn0 h → h.kind = .Hash → h.stop - h.start ≤ 6 → ¬ tokenIsA .Space 1 s
  item : ∀ list, ¬ markerLine 0 list (own ++ rest)
  thematic : ∀ t r, own ++ rest = t :: r → atColumn0 t → ¬ tokenIsA .Minus 5 t
  images : ¬ ImageLines own
  code : ∀ f c u d, own ++ rest = f :: (c ++ u :: d) → isFence f → (∀ x ∈ c, ¬ isFence x) → isFence u → ¬ LineEnds open_ d
  embed : ∀ f l p a c d, own ++ rest = f :: (l ++ p :: (a ++ c :: d)) → atColumn0 f → tokenIsA .LeftCurlyBrace 2 f →
    (∀ t ∈ l, ¬ tokenIsA .Pipe 1 t) → tokenIsA .Pipe 1 p → (∀ t ∈ a, ¬ tokenIsA .RightCurlyBrace 2 t) →
    tokenIsA .RightCurlyBrace 2 c → ¬ LineEnds open_ d ∨ EndsWithin open_ (l ++ p :: (a ++ [c])) d
  highlight : ∀ f s c u d, own ++ rest = f :: s :: (c ++ u :: d) → isHighlightMark f →
    (tokenIsA .Space 1 s ∨ s.kind = .Eol) → isHighlightMark u → EndsWithin open_ (s :: c) (u :: d)

end Yamd.Spec
