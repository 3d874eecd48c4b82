import Verif.Model.Nodes

/-!
# What a line break at the very end of a text does (C73)

A text file usually ends with a line break. `withBreak` says what that last line break does to the blocks
of the document read without it: it is kept by a paragraph or a heading at the end, makes a paragraph of
its own when nothing or a thematic break stands before it, and is dropped after every other block.
-/

namespace Yamd.Spec

open Yamd

/-- The line break goes to the last text of a paragraph. -/
def breakInParagraph : Paragraph → Paragraph
  | [] => [.text ['\n']]
  | [.text s] => [.text (s ++ ['\n'])]
  | x :: r => x :: breakInParagraph r

/-- The line break goes to the last text of a heading. -/
def breakInHeading : List HeadingNode → List HeadingNode
  | [] => [.text ['\n']]
  | [.text s] => [.text (s ++ ['\n'])]
  | x :: r => x :: breakInHeading r

/-- The blocks of a text with a line break put behind it, from the blocks of the text. -/
def withBreak : List YamdNode → List YamdNode
  | [] => [.paragraph [.text ['\n']]]
  | [.paragraph p] => [.paragraph (breakInParagraph p)]
  | [.heading l b] => [.heading l (breakInHeading b)]
  | [.thematicBreak] => [.thematicBreak, .paragraph [.text ['\n']]]
  | [n] => [n]
  | n :: r => n :: withBreak r

end Yamd.Spec
