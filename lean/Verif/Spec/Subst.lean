import Verif.Spec.Ops
import Verif.Model.ToYamd

/-!
# Vocabulary of the substitution properties C45 and C48

Replacing characters of the source, and of the texts of a document.
-/

namespace Yamd.Spec

open Yamd

/-- The characters of the YAMD syntax. -/
def syntaxChars : List Char :=
  ['\n', '\r', '\\', ' ', '~', '*', '{', '}', '%', '-', '#', '>', '!', '`', '+', '[', ']', '(', ')', '_', '|']

/-- A substitution of characters by texts. -/
def subst (φ : Char → Str) (s : Str) : Str := s.flatMap φ

/-- The substitution leaves the syntax alone: syntax characters stay, any other character becomes a
non-empty text without syntax characters. -/
structure Ordinary (φ : Char → Str) : Prop where
  keep : ∀ c ∈ syntaxChars, φ c = [c]
  ordinary : ∀ c, c ∉ syntaxChars → φ c ≠ [] ∧ ∀ d ∈ φ c, d ∉ syntaxChars

/-- Every line feed becomes a carriage return and a line feed. -/
def crlf : Str → Str := subst (fun c => if c = '\n' then ['\r', '\n'] else [c])

/-- No backslash that escapes something stands directly before a line feed. -/
def noEscapedLf : Str → Bool
  | '\\' :: d :: r => d != '\n' && noEscapedLf r
  | _ :: r => noEscapedLf r
  | [] => true

/-! ### Replacing the texts of a document -/

section
variable (g : Str → Str)

def Anchor.mapText (a : Anchor) : Anchor := ⟨g a.text, g a.url⟩
def Image.mapText (i : Image) : Image := ⟨g i.alt, g i.src⟩

def BoldNode.mapText : BoldNode → BoldNode
  | .italic s => .italic (g s)
  | .strikethrough s => .strikethrough (g s)
  | .text s => .text (g s)

def ParagraphNode.mapText : ParagraphNode → ParagraphNode
  | .anchor a => .anchor (Anchor.mapText g a)
  | .bold b => .bold (b.map (BoldNode.mapText g))
  | .italic s => .italic (g s)
  | .strikethrough s => .strikethrough (g s)
  | .text s => .text (g s)
  | .codeSpan s => .codeSpan (g s)
  | .emphasis s => .emphasis (g s)

def HeadingNode.mapText : HeadingNode → HeadingNode
  | .text s => .text (g s)
  | .anchor a => .anchor (Anchor.mapText g a)

mutual
def YList.mapText : YList → YList
  | .mk t l b => .mk t l (YItem.mapTexts b)
def YItem.mapText : YItem → YItem
  | .mk t none => .mk (t.map (ParagraphNode.mapText g)) none
  | .mk t (some n) => .mk (t.map (ParagraphNode.mapText g)) (some (YList.mapText n))
def YItem.mapTexts : List YItem → List YItem
  | [] => []
  | x :: r => YItem.mapText x :: YItem.mapTexts r
end

mutual
/-- The block with every text replaced by `g`. -/
def YamdNode.mapText : YamdNode → YamdNode
  | .paragraph p => .paragraph (p.map (ParagraphNode.mapText g))
  | .heading l b => .heading l (b.map (HeadingNode.mapText g))
  | .image i => .image (Image.mapText g i)
  | .images l => .images (l.map (Image.mapText g))
  | .code l c => .code (g l) (g c)
  | .list l => .list (YList.mapText g l)
  | .highlight t i b => .highlight (t.map g) (i.map g) (b.map (List.map (ParagraphNode.mapText g)))
  | .thematicBreak => .thematicBreak
  | .embed k a => .embed (g k) (g a)
  | .collapsible t b => .collapsible (g t) (YamdNode.mapTexts b)
def YamdNode.mapTexts : List YamdNode → List YamdNode
  | [] => []
  | x :: r => YamdNode.mapText x :: YamdNode.mapTexts r
end

/-- The document with every text (titles, languages, destinations, front matter included) replaced by
`g`. -/
def Yamd.mapText (y : Yamd) : Yamd := ⟨y.metadata.map g, YamdNode.mapTexts g y.body⟩

end

end Yamd.Spec
