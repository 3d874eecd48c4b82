import Verif.Spec.LexProps
import Verif.Model.Parser

/-!
# Vocabulary of the op stream properties C08-C15, C28, C44

Definitions used in the statements only: what a nested op stream is, which node may stand where, and
which tokens of the source an op stands for. Nothing here refers to how the parser works.
-/

namespace Yamd.Spec

open Yamd

/-! ### Nesting -/

/-- Read a stream of op kinds with the stack of open nodes (innermost first). Every `End n` must close
the innermost open node and that node must be `n`; nothing may stay open. `child parent n` says whether
`n` may be opened directly under `parent` (`none` at the outside), `text n` whether a `Value` may stand
directly in `n`. -/
def nested (child : Option Node → Node → Bool) (text : Node → Bool) : List Node → List OpKind → Bool
  | open_, [] => open_.isEmpty
  | open_, .Start n :: r => child open_.head? n && nested child text (n :: open_) r
  | [], .Value :: _ => false
  | p :: open_, .Value :: r => text p && nested child text (p :: open_) r
  | [], .End _ :: _ => false
  | p :: open_, .End n :: r => decide (n = p) && nested child text open_ r

/-- Starts and Ends match like parentheses, with equal nodes. -/
def Balanced (ops : List Op) : Prop :=
  nested (fun _ _ => true) (fun _ => true) [] (ops.map Op.kind) = true

/-- The documented grammar: which node may stand directly under which. -/
def allowedUnder : Option Node → Node → Bool
  | none, n => [.Metadata, .Document].contains n
  | some .Document, n =>
    [.Paragraph, .Heading, .Image, .Images, .Code, .UnorderedList, .OrderedList, .Highlight,
      .ThematicBreak, .Embed, .Collapsible].contains n
  | some .Collapsible, n => [.Modifier, .Document].contains n
  | some .Highlight, n => [.Modifier, .Icon, .Paragraph].contains n
  | some .Code, n => n = .Modifier
  | some .UnorderedList, n => n = .ListItem
  | some .OrderedList, n => n = .ListItem
  | some .ListItem, n => [.Paragraph, .UnorderedList, .OrderedList].contains n
  | some .Images, n => n = .Image
  | some .Image, n => [.Title, .Destination].contains n
  | some .Anchor, n => [.Title, .Destination].contains n
  | some .Heading, n => n = .Anchor
  | some .Paragraph, n =>
    [.Anchor, .Bold, .Italic, .Strikethrough, .CodeSpan, .Emphasis].contains n
  | some .Bold, n => [.Italic, .Strikethrough].contains n
  | some _, _ => false

/-- The nodes in which text (or a separator between blocks) may stand directly. -/
def mayHoldValue : Node → Bool
  | .Anchor | .Collapsible | .Image | .Images | .ListItem | .OrderedList | .UnorderedList => false
  | _ => true

/-- The grammar, as a property of a stream. -/
def Grammatical (ops : List Op) : Prop :=
  nested allowedUnder mayHoldValue [] (ops.map Op.kind) = true

/-- The nodes open at each op of a stream (a node is open at its own Start and End). -/
def openAt : List Node → List OpKind → List (List Node)
  | _, [] => []
  | open_, .Start n :: r => (n :: open_) :: openAt (n :: open_) r
  | open_, .Value :: r => open_ :: openAt open_ r
  | open_, .End _ :: r => open_ :: openAt open_.tail r

/-- How many nodes are open after a stream that began with `d` open nodes; `none` when some `End` finds
nothing open. Only counts: which node an `End` names is not looked at. -/
def depthAfter : Nat → List OpKind → Option Nat
  | d, [] => some d
  | d, .Start _ :: r => depthAfter (d + 1) r
  | d, .Value :: r => depthAfter d r
  | 0, .End _ :: _ => none
  | d + 1, .End _ :: r => depthAfter d r

/-- Equally many Starts and Ends, and never more Ends than Starts so far. -/
def DepthBalanced (ops : List Op) : Prop := depthAfter 0 (ops.map Op.kind) = some 0

/-! ### Which tokens an op stands for -/

/-- The text of a list of tokens. -/
def textOfTokens (input : Str) (ts : List Token) : Str :=
  ts.flatMap (fun t => (textOf input t).getD [])

/-- Each token starts where the one before it stops. -/
def NoGap : List Token → Prop
  | [] => True
  | [_] => True
  | a :: b :: r => a.stop = b.start ∧ NoGap (b :: r)

/-- `content` is the text of exactly the tokens `own` of the source: it resolves to their text without
panicking; it is borrowed (`Span`), with exactly the bytes of the tokens, when these are adjacent in the
source, and allocated only when a backslash was removed between two of them. -/
def Reads (input : Str) (content : Content) (own : List Token) : Prop :=
  content.asStr input = .ok (textOfTokens input own) ∧
  match content with
  | .Span a b =>
    NoGap own ∧ (match own with
      | [] => a = 0 ∧ b = 0
      | t :: r => a = t.start ∧ some b = ((t :: r).getLast?).map Token.stop)
  | .Materialized _ => ∃ t r u, own = t :: r ∧ u ∈ r ∧ u.escaped = true

/-- A way to distribute the tokens of the source, in order, over the ops: to each op `(skipped, own)`.
`own` is what the content of the op reads; `skipped` is empty, except that the single line break before
the `%}` that ends a collapsible may be skipped. -/
structure Segmentation (input : Str) (toks : List Token) (ops : List Op)
    (segs : List (List Token × List Token)) : Prop where
  /-- one entry per op -/
  length : segs.length = ops.length
  /-- every token exactly once, in order -/
  covers : segs.flatMap (fun s => s.1 ++ s.2) = toks
  /-- contents read their own tokens -/
  reads : ∀ x ∈ ops.zip segs, Reads input x.1.content x.2.2
  /-- what may be skipped -/
  skips : ∀ x ∈ ops.zip segs, x.2.1 = [] ∨
    ∃ e c r, x.2.1 = [e] ∧ e.kind = .Eol ∧ x.1.kind = .End .Collapsible ∧
      x.2.2 = c :: r ∧ c.kind = .CollapsibleEnd ∧ c.position.column = 0

/-- The text of an op, nothing when it does not resolve. -/
def opText (input : Str) (op : Op) : Str :=
  match op.content.asStr input with
  | .ok s => s
  | .error _ => []

/-- The non-empty spans of a stream, in order. -/
def spansOf (ops : List Op) : List (Nat × Nat) :=
  ops.filterMap fun op =>
    match op.content with
    | .Span a b => if a < b then some (a, b) else none
    | .Materialized _ => none

/-- The nodes that hold inline text: they end at the first blank line. -/
def isInlineNode : Node → Bool
  | .Paragraph | .Heading | .Bold | .Italic | .Strikethrough | .Emphasis | .CodeSpan | .Anchor
  | .Title | .Destination | .Image | .Images | .ListItem | .UnorderedList | .OrderedList
  | .ThematicBreak | .Icon => true
  | _ => false

/-- A closing or opening mark, possibly with the line break after it. -/
def MarkLine (mark s : Str) : Prop := s = mark ∨ ∃ b, IsBreak b ∧ s = mark ++ b

/-- The documented source text of each delimiter op. Nodes without a delimiter of their own have empty
Starts and Ends; nothing is said about Values. -/
def DelimiterText : OpKind → Str → Prop
  | .Value, _ => True
  | .Start .Bold, s | .End .Bold, s => s = ['*', '*']
  | .Start .Italic, s | .End .Italic, s => s = ['_']
  | .Start .Strikethrough, s | .End .Strikethrough, s => s = ['~', '~']
  | .Start .CodeSpan, s | .End .CodeSpan, s => s = ['`']
  | .Start .Emphasis, s | .End .Emphasis, s => s = ['*']
  | .Start .Title, s => s = ['[']
  | .End .Title, s => s = [']']
  | .Start .Destination, s => s = ['(']
  | .End .Destination, s => s = [')']
  | .Start .Metadata, s | .End .Metadata, s => s = ['-', '-', '-']
  | .Start .Image, s => s = ['!']
  | .End .Image, s => s = [] ∨ IsBreak s
  | .Start .Code, s | .End .Code, s => MarkLine ['`', '`', '`'] s
  | .Start .Embed, s => s = ['{', '{']
  | .End .Embed, s => MarkLine ['}', '}'] s
  | .Start .Heading, s => ∃ n, 1 ≤ n ∧ n ≤ 6 ∧ s = List.replicate n '#' ++ [' ']
  | .Start .ListItem, s => ∃ n m, (m = '-' ∨ m = '+') ∧ s = List.replicate n ' ' ++ [m, ' ']
  | .Start .Highlight, s => s = ['!', '!', ' '] ∨ ∃ b, IsBreak b ∧ s = ['!', '!'] ++ b
  | .End .Highlight, s => MarkLine ['!', '!'] s
  | .Start .Icon, s => s = ['!', ' ']
  | .End .Icon, s => IsBreak s
  | .End .Modifier, s => IsBreak s ∨ ∃ a b, IsBreak a ∧ IsBreak b ∧ s = a ++ b
  | .Start .Collapsible, s =>
    (∃ n, 1 ≤ n ∧ s = ['{', '%'] ++ List.replicate n ' ') ∨ ∃ b, IsBreak b ∧ s = ['{', '%'] ++ b
  | .End .Collapsible, s => MarkLine ['%', '}'] s
  | _, s => s = []

end Yamd.Spec
