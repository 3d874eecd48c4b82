import Verif.Spec.RoundTrip

/-!
# Which documents can be written

`expressible y` lists what a document must satisfy to be the reading of some text; `spell y` is a text for it,
with every character of content behind a backslash. Both are independent of the serializer, which does not
find a text for every expressible document (`Spec/RoundTrip.lean` delimits those it does).
-/

namespace Yamd.Spec
open Yamd

/-- Every character behind a backslash. -/
def hide (s : Str) : Str := s.flatMap fun c => ['\\', c]

def spellAnchor (a : Anchor) : Str := cs! "[" ++ hide a.text ++ cs! "](" ++ hide a.url ++ cs! ")"

def spellB : BoldNode → Str
  | .text s => hide s
  | .italic s => cs! "_" ++ hide s ++ cs! "_"
  | .strikethrough s => cs! "~~" ++ hide s ++ cs! "~~"

def spellP : ParagraphNode → Str
  | .text s => hide s
  | .italic s => cs! "_" ++ hide s ++ cs! "_"
  | .strikethrough s => cs! "~~" ++ hide s ++ cs! "~~"
  | .emphasis s => cs! "*" ++ hide s ++ cs! "*"
  | .codeSpan s => cs! "`" ++ hide s ++ cs! "`"
  | .anchor a => spellAnchor a
  | .bold l => cs! "**" ++ l.flatMap spellB ++ cs! "**"

def spellH : HeadingNode → Str
  | .text s => hide s
  | .anchor a => spellAnchor a

def spellPara (p : Paragraph) : Str := p.flatMap spellP

def spellImage (i : Image) : Str := cs! "![" ++ hide i.alt ++ cs! "](" ++ hide i.src ++ cs! ")"

mutual
def spellList : YList → Str
  | .mk ty level items => spellItems ty level items
def spellItems (ty : ListTypes) (level : Nat) : List YItem → Str
  | [] => []
  | i :: r => spellItem ty level i ++ (if r.isEmpty then [] else cs! "\n") ++ spellItems ty level r
def spellItem (ty : ListTypes) (level : Nat) : YItem → Str
  | .mk p none => List.replicate level ' ' ++ [ty.marker, ' '] ++ spellPara p
  | .mk p (some l) => List.replicate level ' ' ++ [ty.marker, ' '] ++ spellPara p ++ cs! "\n" ++ spellList l
end

/-- a paragraph of a highlight; an empty one is an escaped line break, which is trimmed -/
def spellHl (p : Paragraph) : Str := if p.isEmpty then cs! "\\\n" else spellPara p

def spellLine (pre : Str) : Option Str → Str
  | none => []
  | some s => pre ++ hide s

mutual
def spellBlock : YamdNode → Str
  | .paragraph p => spellPara p
  | .heading level b => List.replicate level '#' ++ cs! " " ++ b.flatMap spellH
  | .image i => spellImage i
  | .images l => joinWith (cs! "\n") (l.map spellImage)
  | .code lang code => cs! "```" ++ hide lang ++ cs! "\n" ++ hide code ++ cs! "\n```"
  | .list l => spellList l
  | .highlight title icon ps => cs! "!!" ++ spellLine (cs! " ") title ++ cs! "\n" ++
      (match icon with | none => [] | some i => cs! "! " ++ hide i ++ cs! "\n") ++
      joinWith (cs! "\n\n") (ps.map spellHl) ++ (if ps.isEmpty then cs! "!!" else cs! "\n!!")
  | .thematicBreak => cs! "-----"
  | .embed kind args => cs! "{{" ++ hide kind ++ cs! "|" ++ hide args ++ cs! "}}"
  | .collapsible title body => cs! "{% " ++ hide title ++ cs! "\n" ++ joinWith (cs! "\n\n") (spellBlocks body) ++ cs! "\n%}"
def spellBlocks : List YamdNode → List Str
  | [] => []
  | n :: r => spellBlock n :: spellBlocks r
end

def spell (y : Yamd) : Str :=
  match y.metadata with
  | none => joinWith (cs! "\n\n") (spellBlocks y.body)
  | some m => cs! "---\n" ++ hide m ++ cs! "\n---\n\n" ++ joinWith (cs! "\n\n") (spellBlocks y.body)

def exprBold : BoldNode → Bool
  | .italic _ => true
  | .text s | .strikethrough s => !s.isEmpty

def exprNode : ParagraphNode → Bool
  | .italic _ => true
  | .anchor _ => true
  | .text s | .strikethrough s | .emphasis s | .codeSpan s => !s.isEmpty
  | .bold l => !l.isEmpty && l.all exprBold && noClash clashB l

def exprPara (p : Paragraph) : Bool := p.all exprNode && noClash clashP p

def exprTrim (p : Paragraph) : Bool := exprPara p && (trailingText p).getLast? != some '\n'

def exprHead : HeadingNode → Bool
  | .text s => !s.isEmpty
  | .anchor _ => true

def exprBlock : YamdNode → Bool
  | .paragraph p => !p.isEmpty && exprPara p
  | .heading level b => 1 ≤ level && level ≤ 6 && b.all exprHead && noClash clashH b
  | .images l => 2 ≤ l.length
  | .code _ code => code.getLast? != some '\n'
  | .list l => levelsOk 0 l && (itemTexts l).all exprTrim
  | .highlight _ _ ps => ps.all exprTrim
  | _ => true

def expressible (y : Yamd) : Bool :=
  (match y.metadata with | none => true | some m => trimNl m == m) && (blocksOf y.body).all exprBlock

end Yamd.Spec
