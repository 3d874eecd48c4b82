import Verif.Spec.Local
import Verif.Spec.RoundTrip
import Verif.Spec.Doc

/-!
# Blocks that read the same inside a collapsible (C66)

A collapsible ends at the first line that starts with `%}` and does not close a collapsible inside it. Text with
such a line cannot be put into a collapsible as it is. The text of a fenced code block can, because a code block is
read to its closing fence. A collapsible can, unless it is empty: the line break after the title of an empty
collapsible is the line break before a `%}`, where the title is given up when the collapsible is inside another.
-/

namespace Yamd.Spec

open Yamd

/-- No line of the string starts with `%}`. -/
def noEndLine (s : Str) : Bool := !starts (cs! "%}") s && !occurs (cs! "\n%}") s

/-- The strings of the body of a heading. -/
def headingStrings (b : List HeadingNode) : List Str :=
  b.flatMap fun
    | .text s => [s]
    | .anchor a => [a.text, a.url]

/-- The strings of a block, not those of the blocks inside a collapsible. -/
def stringsIn : YamdNode → List Str
  | .paragraph p => inlineStrings p
  | .heading _ b => headingStrings b
  | .image i => [i.alt, i.src]
  | .images l => l.flatMap fun i => [i.alt, i.src]
  | .code lang code => [lang, code]
  | .list l => (itemTexts l).flatMap inlineStrings
  | .highlight t i ps => t.toList ++ i.toList ++ ps.flatMap inlineStrings
  | .thematicBreak => []
  | .embed k a => [k, a]
  | .collapsible t _ => [t]

/-- The block reads the same inside a collapsible. -/
def wrappable : YamdNode → Bool
  | .code _ _ => true
  | .collapsible _ body => !body.isEmpty
  | n => (stringsIn n).all noEndLine

/-- The title of a collapsible: one line, no backslash and no space in front. -/
def plainTitle (t : Str) : Bool :=
  !t.isEmpty && !t.contains '\n' && !t.contains '\r' && !t.contains '\\' && !starts (cs! " ") t

end Yamd.Spec
