import Verif.Model.Nodes
import Verif.Spec.Doc

/-!
# The documents that survive a round trip (C29-C42)

`Display` does not escape everything, so `deserialize (y.to_string()) = y` does not hold for every
document. This file says for which documents it is claimed. All conditions are on the strings and
the shape of the document itself and are computable; nothing here refers to tokens or to the parser.
-/

namespace Yamd.Spec

open Yamd

/-- `s.contains(pat)`. -/
def occurs (pat s : Str) : Bool := decide (pat <:+: s)

/-- `s.starts_with(pat)`. -/
def starts (pat s : Str) : Bool := pat.isPrefixOf s

/-- `s` ends with a line feed or a carriage return. -/
def endsLine (s : Str) : Bool := s.getLast? == some '\n' || s.getLast? == some '\r'

/-- `s` starts with a line break. -/
def startsLine (s : Str) : Bool := starts (cs! "\n") s || starts (cs! "\r\n") s

/-- What surrounds a piece of inline text. -/
structure Place where
  /-- inside a collapsible -/
  inCollapsible : Bool

/-- Inside a collapsible no continuation line starts with `%}`. -/
def noCloseLine (pl : Place) (s : Str) : Bool :=
  !pl.inCollapsible || !occurs (cs! "\n%}") s

/-- `Display` escapes the first of each two line feeds of a body (here a backslash stands for it); a blank line is
left where the others meet, directly or with a carriage return between them. -/
def leftBlank (s : Str) : Bool :=
  occurs (cs! "\n\n") (replace (cs! "\n\n") (cs! "\\\n") s) || occurs (cs! "\n\r\n") (replace (cs! "\n\n") (cs! "\\\n") s)

/-- Plain text as `Display` shows its line feeds: both of each two line feeds are escaped (here backslashes stand for
them). -/
def shownText (s : Str) : Str := replace (cs! "\n\n") (cs! "\\\\") s

/-- In plain text `Display` escapes both line feeds; only a blank line with a carriage return can be left. -/
def leftBlankText (s : Str) : Bool := occurs (cs! "\n\r\n") (replace (cs! "\n\n") (cs! "\\\\") s)

/-- Bodies of italic, emphasis, strikethrough, code span, bold text, anchors, images, headings. -/
def safeBody (pl : Place) (s : Str) : Bool :=
  !leftBlank s && noCloseLine pl s

/-- Plain text of a paragraph: not empty, no blank line left. -/
def safeText (s : Str) : Bool :=
  !s.isEmpty && !leftBlankText s

def safeAnchor (pl : Place) (a : Anchor) : Bool := safeBody pl a.text && safeBody pl a.url

def safeBoldNode (pl : Place) : BoldNode → Bool
  | .text s => !s.isEmpty && safeBody pl s
  | .italic s => safeBody pl s
  | .strikethrough s => !s.isEmpty && safeBody pl s

/-- Two children of a bold that must not be neighbours: they would be read as one. -/
def clashB : BoldNode → BoldNode → Bool
  | .text _, .text _ => true
  | .strikethrough _, .strikethrough _ => true
  | _, _ => false

/-- No two neighbours clash. -/
def noClash {α : Type} (clash : α → α → Bool) : List α → Bool
  | [] => true
  | [_] => true
  | x :: y :: r => !clash x y && noClash clash (y :: r)

def safeNode (pl : Place) : ParagraphNode → Bool
  | .text s => safeText s
  | .italic s => safeBody pl s
  | .strikethrough s => !s.isEmpty && safeBody pl s
  | .emphasis s => !s.isEmpty && safeBody pl s
  | .codeSpan s => !s.isEmpty && safeBody pl s
  | .anchor a => safeAnchor pl a
  | .bold l => !l.isEmpty && l.all (safeBoldNode pl) && noClash clashB l

/-- Two nodes of a paragraph that must not be neighbours: two texts, or two constructs written with
the same delimiter character. -/
def clashP : ParagraphNode → ParagraphNode → Bool
  | .text _, .text _ => true
  | .strikethrough _, .strikethrough _ => true
  | .codeSpan _, .codeSpan _ => true
  | .emphasis _, .emphasis _ => true
  | .emphasis _, .bold _ => true
  | .bold _, .emphasis _ => true
  | .bold _, .bold _ => true
  | _, _ => false

/-- Inline content. -/
def safeInline (pl : Place) (p : Paragraph) : Bool := p.all (safeNode pl) && noClash clashP p

/-- The text a paragraph starts with, when it starts with text. -/
def leadingText : Paragraph → Str
  | .text s :: _ => s
  | _ => []

/-- The text a paragraph ends with, when it ends with text. -/
def trailingText (p : Paragraph) : Str :=
  match p.getLast? with
  | some (.text s) => s
  | _ => []

/-- `n` hashes, two to six, and exactly one space: `Display` does not escape them. -/
def startsHeading (s : Str) : Bool :=
  2 ≤ (s.takeWhile (· == '#')).length && (s.takeWhile (· == '#')).length ≤ 6
    && (s.dropWhile (· == '#')).head? == some ' ' && (s.dropWhile (· == '#')).tail.head? != some ' '

/-- What follows an anchor: nothing, a line break, or a line with `!` before an anchor. -/
def moreImageLines : Paragraph → Bool
  | [] => true
  | [.text s] => s == cs! "\n" || s == cs! "\r\n"
  | .text s :: .anchor _ :: r => (s == cs! "\n!" || s == cs! "\r\n!") && moreImageLines r
  | _ => false

/-- Every line of the paragraph is `!` before an anchor: it reads as images. -/
def imageLines : Paragraph → Bool
  | .text s :: .anchor _ :: r => s == cs! "!" && moreImageLines r
  | _ => false

def safeHeadingNode (pl : Place) : HeadingNode → Bool
  | .text s => !s.isEmpty && safeBody pl s
  | .anchor a => safeAnchor pl a

/-- After a `[` of a heading text an anchor is read: there is a `]`, a `(` right after the first one, and a
`)` anywhere later. `more`: an anchor follows the text, and the characters that are missing are its own. -/
def closesAnchor (more : Bool) (r : Str) : Bool :=
  match r.dropWhile (· != ']') with
  | [] => more
  | _ :: q =>
    match q with
    | [] => false
    | x :: q => x == '(' && (more || q.contains ')')

/-- An anchor would be read in this text of a heading: `Display` does not escape brackets there. -/
def readsAnchor (more : Bool) : Str → Bool
  | [] => false
  | c :: r => (c == '[' && closesAnchor more r) || readsAnchor more r

/-- No anchor would be read in the texts of a heading. -/
def plainHeading : List HeadingNode → Bool
  | [] => true
  | .text s :: l => !readsAnchor (!l.isEmpty) s && plainHeading l
  | .anchor _ :: l => plainHeading l

def clashH : HeadingNode → HeadingNode → Bool
  | .text _, .text _ => true
  | _, _ => false

def leadingHeadingText : List HeadingNode → Str
  | .text s :: _ => s
  | _ => []

def trailingHeadingText (b : List HeadingNode) : Str :=
  match b.getLast? with
  | some (.text s) => s
  | _ => []

def safeImage (pl : Place) (i : Image) : Bool := safeBody pl i.alt && safeBody pl i.src

/-- A title or icon: one line. -/
def safeLine (s : Str) : Bool :=
  !s.contains '\n' && !starts (cs! " ") s && s.getLast? != some '\r'

/-- A paragraph of a highlight. -/
def safeHighlightParagraph (pl : Place) (p : Paragraph) : Bool :=
  !p.isEmpty && safeInline pl p && !endsLine (trailingText p)

/-- The strings of inline content. -/
def inlineStrings (p : Paragraph) : List Str :=
  p.flatMap fun
    | .text s => [s]
    | .italic s => [s]
    | .strikethrough s => [s]
    | .emphasis s => [s]
    | .codeSpan s => [s]
    | .anchor a => [a.text, a.url]
    | .bold l => l.map fun
      | .text s => s
      | .italic s => s
      | .strikethrough s => s

/-- Where the text of a list item stands: the level and the marker of its list, and the markers that
`Display` escapes at the start of its lines: those of the lists around it and its own. -/
structure ItemPlace where
  level : Nat
  own : Char
  escaped : List Char

/-- A line that starts an item and ends this one: at most `level + 1` spaces, a marker, exactly one space. A
marker with the indentation of this list must be the marker of this list; a marker without indentation is
harmless when `Display` escapes it. -/
def startsItem (it : ItemPlace) (line : Str) : Bool :=
  match line.dropWhile (· == ' ') with
  | m :: ' ' :: y =>
    let n := (line.takeWhile (· == ' ')).length
    (m == '-' || m == '+') && n ≤ it.level + 1 && (n != it.level || m == it.own)
      && !(n == 0 && it.escaped.contains m) && y.head? != some ' '
  | _ => false

/-- No line of the text after the first starts an item. -/
def noItemLine (it : ItemPlace) : Str → Bool
  | [] => true
  | c :: r => !(c == '\n' && startsItem it r) && noItemLine it r

/-- The text of a list item. -/
def safeItemText (pl : Place) (it : ItemPlace) (p : Paragraph) : Bool :=
  safeInline pl p && !starts (cs! " ") (leadingText p) && !endsLine (trailingText p)
    && (inlineStrings p).all (noItemLine it)

mutual
/-- The texts of a list; `outer`: the markers of the lists around it. -/
def safeList (pl : Place) (outer : List Char) : YList → Bool
  | .mk ty level items => safeListItems pl ⟨level, ty.marker, outer ++ [ty.marker]⟩ items
def safeListItems (pl : Place) (it : ItemPlace) : List YItem → Bool
  | [] => true
  | i :: r => safeListItem pl it i && safeListItems pl it r
def safeListItem (pl : Place) (it : ItemPlace) : YItem → Bool
  | .mk text none => safeItemText pl it text
  | .mk text (some l) => safeItemText pl it text && safeList pl it.escaped l
end

/-- The block does not end with a line break that is not escaped. -/
def endsClean : YamdNode → Bool
  | .paragraph p => !endsLine (shownText (trailingText p))
  | .heading _ b => !endsLine (trailingHeadingText b)
  | _ => true

/-- The block does not start with a line break that is not escaped. -/
def startsClean : YamdNode → Bool
  | .paragraph p => !startsLine (shownText (leadingText p))
  | _ => true

/-- Blocks that hold no other blocks. -/
def safeLeaf (pl : Place) : YamdNode → Bool
  | .paragraph p =>
    !p.isEmpty && safeInline pl p && !startsHeading (leadingText p) && !imageLines p
  | .heading level b =>
    1 ≤ level && level ≤ 6 && b.all (safeHeadingNode pl) && plainHeading b && noClash clashH b
      && !starts (cs! " ") (leadingHeadingText b)
  | .image i => safeImage pl i
  | .images l => 2 ≤ l.length && l.all (safeImage pl)
  | .code lang code =>
    lang.getLast? != some '\r' && !startsLine (code ++ if code.isEmpty then [] else cs! "\n")
      && code.getLast? != some '\n'
  | .list l => levelsOk 0 l && safeList pl [] l
  | .highlight title icon ps =>
    (match title with | none => true | some t => safeLine t)
      && (match icon with
          | some i => safeLine i
          | none => !starts (cs! "! ") (leadingText (ps.head?.getD [])))
      && !ps.isEmpty && ps.all (safeHighlightParagraph pl) && !startsLine (leadingText (ps.head?.getD []))
  | .thematicBreak => true
  | .embed kind _ => noCloseLine pl kind
  | .collapsible .. => true

mutual
/-- A block that survives the round trip; `inColl` tells whether it is inside a collapsible. -/
def safeBlock (inColl : Bool) : YamdNode → Bool
  | .collapsible title body =>
    safeLine title && safeBlocks true body && body.all endsClean
      && (match body with | [] => true | n :: _ => startsClean n)
  | n => safeLeaf ⟨inColl⟩ n
/-- All blocks of a body survive. -/
def safeBlocks (inColl : Bool) : List YamdNode → Bool
  | [] => true
  | n :: r => safeBlock inColl n && safeBlocks inColl r
end

/-- `s` starts with exactly three dashes. -/
def startsFence (s : Str) : Bool := starts (cs! "---") s && !starts (cs! "----") s

/-- A line of the text after the first starts with exactly three dashes. -/
def fenceLine : Str → Bool
  | [] => false
  | c :: r => (c == '\n' && startsFence r) || fenceLine r

/-- Front matter: trimmed, without backslashes, no line of it starting with exactly three dashes. -/
def safeMetadata (m : Str) : Bool :=
  (trimNl m == m) && !m.contains '\\' && !startsFence m && !fenceLine m

/-- Every block but the last ends without a line break, so that the blank line after it is read. -/
def safeDocument (y : Yamd) : Bool :=
  (match y.metadata with | none => true | some m => safeMetadata m)
    && safeBlocks false y.body && y.body.dropLast.all endsClean

end Yamd.Spec
