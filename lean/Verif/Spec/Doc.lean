import Verif.Model.ToYamd
import Verif.Spec.Ops

/-!
# Vocabulary of the document properties C16-C25

What is looked at in a document: all its blocks at any nesting, all its inline bodies, all its strings
in document order. Nothing here refers to how documents are built.
-/

namespace Yamd.Spec

open Yamd

/-! ### Blocks at any depth -/

mutual
/-- A block and, when it is a collapsible, all blocks inside it. -/
def blocksIn : YamdNode → List YamdNode
  | .collapsible t b => .collapsible t b :: blocksOf b
  | n => [n]
/-- All blocks of a body, at any depth, in document order. -/
def blocksOf : List YamdNode → List YamdNode
  | [] => []
  | n :: r => blocksIn n ++ blocksOf r
end

mutual
/-- The texts of the items of a list, at any depth, in document order. -/
def itemTexts : YList → List Paragraph
  | .mk _ _ items => itemsTexts items
/-- The same for a sequence of items. -/
def itemsTexts : List YItem → List Paragraph
  | [] => []
  | i :: r => itemText i ++ itemsTexts r
/-- The same for one item. -/
def itemText : YItem → List Paragraph
  | .mk text none => [text]
  | .mk text (some l) => text :: itemTexts l
end

/-- The paragraphs of a block (not of the blocks inside it): its own text when it is a paragraph, the
paragraphs of a highlight, the texts of the items of a list. -/
def paragraphsIn : YamdNode → List Paragraph
  | .paragraph p => [p]
  | .highlight _ _ ps => ps
  | .list l => itemTexts l
  | _ => []

/-- The paragraphs from which a trailing newline is trimmed: those of list items and highlights. -/
def trimmedParagraphsIn : YamdNode → List Paragraph
  | .highlight _ _ ps => ps
  | .list l => itemTexts l
  | _ => []

/-! ### Lists -/

mutual
/-- The list has the given level and at least one item, and lists inside it are one level deeper. -/
def levelsOk (level : Nat) : YList → Bool
  | .mk _ l items => (l == level) && (!items.isEmpty && itemsLevelsOk level items)
/-- Every list nested in an item of a list of the given level is one level deeper. -/
def itemsLevelsOk (level : Nat) : List YItem → Bool
  | [] => true
  | i :: r => itemLevelsOk level i && itemsLevelsOk level r
/-- The same for one item. -/
def itemLevelsOk (level : Nat) : YItem → Bool
  | .mk _ none => true
  | .mk _ (some l) => levelsOk (level + 1) l
end

/-! ### Inline bodies -/

/-- No two neighbours of a list satisfy `f`. -/
def NoTwoAdjacent {α : Type} (f : α → Bool) (l : List α) : Prop :=
  ∀ l1 a b l2, l = l1 ++ a :: b :: l2 → ¬ (f a = true ∧ f b = true)

def isTextP : ParagraphNode → Bool
  | .text _ => true
  | _ => false

def isTextB : BoldNode → Bool
  | .text _ => true
  | _ => false

def isTextH : HeadingNode → Bool
  | .text _ => true
  | _ => false

/-- Text nodes are not empty and not adjacent; the same inside bold. -/
def NormalParagraph (p : Paragraph) : Prop :=
  ParagraphNode.text [] ∉ p ∧ NoTwoAdjacent isTextP p ∧
  ∀ b, ParagraphNode.bold b ∈ p → BoldNode.text [] ∉ b ∧ NoTwoAdjacent isTextB b

/-- The same for the body of a heading. -/
def NormalHeading (b : List HeadingNode) : Prop :=
  HeadingNode.text [] ∉ b ∧ NoTwoAdjacent isTextH b

/-- No styled node but italic is empty. -/
def NoEmptyStyle (p : Paragraph) : Prop :=
  ParagraphNode.bold [] ∉ p ∧ ParagraphNode.emphasis [] ∉ p ∧ ParagraphNode.strikethrough [] ∉ p ∧
  ParagraphNode.codeSpan [] ∉ p ∧ ∀ b, ParagraphNode.bold b ∈ p → BoldNode.strikethrough [] ∉ b

/-! ### Strings in document order -/

def stringB : BoldNode → Str
  | .italic s | .strikethrough s | .text s => s

def stringP : ParagraphNode → Str
  | .anchor a => a.text ++ a.url
  | .bold b => b.flatMap stringB
  | .italic s | .strikethrough s | .text s | .codeSpan s | .emphasis s => s

def stringH : HeadingNode → Str
  | .text s => s
  | .anchor a => a.text ++ a.url

/-- All characters of the strings of a paragraph. -/
def paragraphString (p : Paragraph) : Str := p.flatMap stringP

mutual
/-- All characters of the strings of a block, in document order. -/
def stringN : YamdNode → Str
  | .paragraph p => paragraphString p
  | .heading _ b => b.flatMap stringH
  | .image i => i.alt ++ i.src
  | .images l => l.flatMap (fun i => i.alt ++ i.src)
  | .code lang code => lang ++ code
  | .list l => (itemTexts l).flatMap paragraphString
  | .highlight t i ps => t.getD [] ++ i.getD [] ++ ps.flatMap paragraphString
  | .thematicBreak => []
  | .embed k a => k ++ a
  | .collapsible t b => t ++ stringsN b
/-- The same for a body. -/
def stringsN : List YamdNode → Str
  | [] => []
  | n :: r => stringN n ++ stringsN r
end

/-- All characters of all strings of a document, in document order. -/
def documentString (y : Yamd) : Str := y.metadata.getD [] ++ stringsN y.body

/-- A line starting with exactly three dashes (as a token). -/
def IsDashFence (t : Token) : Prop := t.kind = .Minus ∧ t.stop - t.start = 3 ∧ t.position.column = 0

end Yamd.Spec
