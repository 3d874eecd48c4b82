import Verif.Model.Parser
import Verif.Model.Nodes

/-!
# Vocabulary of C70 (op streams written by hand)

`opsOf y` is the op stream a caller would write down for the document `y`: a `Start` and an `End` around every node,
in the nesting `src/op/mod.rs` documents, a `Value` for every string. The contents of the delimiters are the ones of
the syntax; `to_yamd` reads none of them but the hashes of a heading.
-/

namespace Yamd.Spec

open Yamd

def startOp (n : Node) (s : Str) : Op := ⟨.Start n, .Materialized s⟩
def endOp (n : Node) (s : Str) : Op := ⟨.End n, .Materialized s⟩
def valueOp (s : Str) : Op := ⟨.Value, .Materialized s⟩

/-- A node around ops. -/
def around (n : Node) (open_ close : Str) (inner : List Op) : List Op := startOp n open_ :: (inner ++ [endOp n close])

def opsOfAnchor (a : Anchor) : List Op :=
  around .Anchor [] [] (around .Title (cs! "[") (cs! "]") [valueOp a.text] ++
    around .Destination (cs! "(") (cs! ")") [valueOp a.url])

def opsOfBoldNode : BoldNode → List Op
  | .italic s => around .Italic (cs! "_") (cs! "_") [valueOp s]
  | .strikethrough s => around .Strikethrough (cs! "~~") (cs! "~~") [valueOp s]
  | .text s => [valueOp s]

def opsOfInline : ParagraphNode → List Op
  | .anchor a => opsOfAnchor a
  | .bold b => around .Bold (cs! "**") (cs! "**") (b.flatMap opsOfBoldNode)
  | .italic s => around .Italic (cs! "_") (cs! "_") [valueOp s]
  | .strikethrough s => around .Strikethrough (cs! "~~") (cs! "~~") [valueOp s]
  | .text s => [valueOp s]
  | .codeSpan s => around .CodeSpan (cs! "`") (cs! "`") [valueOp s]
  | .emphasis s => around .Emphasis (cs! "*") (cs! "*") [valueOp s]

def opsOfParagraph (p : Paragraph) : List Op := around .Paragraph [] [] (p.flatMap opsOfInline)

def opsOfHeadingNode : HeadingNode → List Op
  | .text s => [valueOp s]
  | .anchor a => opsOfAnchor a

def opsOfImage (i : Image) : List Op :=
  around .Image [] [] (around .Title (cs! "![") (cs! "]") [valueOp i.alt] ++
    around .Destination (cs! "(") (cs! ")") [valueOp i.src])

/-- A title or an icon, when there is one. -/
def opsOfOption (n : Node) : Option Str → List Op
  | none => []
  | some s => around n [] [] [valueOp s]

def listNode : ListTypes → Node
  | .Unordered => .UnorderedList
  | .Ordered => .OrderedList

mutual
def opsOfList : YList → List Op
  | .mk t _ items => around (listNode t) [] [] (opsOfItems items)
def opsOfItem : YItem → List Op
  | .mk text none => around .ListItem [] [] (opsOfParagraph text)
  | .mk text (some l) => around .ListItem [] [] (opsOfParagraph text ++ opsOfList l)
def opsOfItems : List YItem → List Op
  | [] => []
  | i :: r => opsOfItem i ++ opsOfItems r
end

mutual
def opsOfNode : YamdNode → List Op
  | .paragraph p => opsOfParagraph p
  | .heading level b => around .Heading (List.replicate level '#' ++ cs! " ") [] (b.flatMap opsOfHeadingNode)
  | .image i => opsOfImage i
  | .images l => around .Images [] [] (l.flatMap opsOfImage)
  | .code lang code => around .Code (cs! "```") (cs! "```") (around .Modifier [] [] [valueOp lang] ++ [valueOp code])
  | .list l => opsOfList l
  | .highlight title icon ps =>
    around .Highlight (cs! "!!") (cs! "!!")
      (opsOfOption .Modifier title ++ opsOfOption .Icon icon ++ ps.flatMap opsOfParagraph)
  | .thematicBreak => around .ThematicBreak (cs! "-----") [] []
  | .embed kind args => around .Embed (cs! "{{") (cs! "}}") [valueOp kind, valueOp (cs! "|"), valueOp args]
  | .collapsible title body =>
    around .Collapsible (cs! "{%") (cs! "%}")
      (around .Modifier [] [] [valueOp title] ++ around .Document [] [] (opsOfNodes body))
def opsOfNodes : List YamdNode → List Op
  | [] => []
  | n :: r => opsOfNode n ++ opsOfNodes r
end

/-- The op stream of a document. -/
def opsOf (y : Yamd) : List Op :=
  opsOfOption .Metadata y.metadata ++ around .Document [] [] (opsOfNodes y.body)

/-! ### What `to_yamd` settles by itself -/

/-- Line feeds at the end of a text that ends a paragraph are dropped, and the text when nothing is left. -/
def dropLastNl : Paragraph → Paragraph
  | [] => []
  | [.text s] => if trimEndNl s = [] then [] else [.text (trimEndNl s)]
  | n :: r => n :: dropLastNl r

mutual
/-- Levels count the lists around, whatever the level field said; the texts of items end without line feeds. -/
def settleList (level : Nat) : YList → YList
  | .mk t _ items => .mk t level (settleItems level items)
def settleItem (level : Nat) : YItem → YItem
  | .mk text none => .mk (dropLastNl text) none
  | .mk text (some l) => .mk (dropLastNl text) (some (settleList (level + 1) l))
def settleItems (level : Nat) : List YItem → List YItem
  | [] => []
  | i :: r => settleItem level i :: settleItems level r
end

mutual
/-- A heading level is a `u8`; code and the paragraphs of a highlight end without line feeds. -/
def settleNode : YamdNode → YamdNode
  | .heading level b => .heading (level % 256) b
  | .code lang code => .code lang (trimEndNl code)
  | .list l => .list (settleList 0 l)
  | .highlight t i ps => .highlight t i (ps.map dropLastNl)
  | .collapsible title body => .collapsible title (settleNodes body)
  | n => n
def settleNodes : List YamdNode → List YamdNode
  | [] => []
  | n :: r => settleNode n :: settleNodes r
end

/-- The document `to_yamd` makes of `opsOf y`. -/
def settle (y : Yamd) : Yamd := ⟨y.metadata.map trimNl, settleNodes y.body⟩

/-! ### What `to_yamd` looks at -/

/-- The ops whose content `to_yamd` reads: values and the starts of headings. -/
def readsContent : OpKind → Prop
  | .Value => True
  | .Start .Heading => True
  | _ => False

/-- Two streams with the same kinds whose values and hashes of headings are the same texts, each in its own source. -/
inductive SameReading (src src' : Str) : List Op → List Op → Prop
  | nil : SameReading src src' [] []
  | cons {o o' : Op} {r r' : List Op} : o.kind = o'.kind →
      (readsContent o.kind → o.content.asStr src = o'.content.asStr src') → SameReading src src' r r' →
      SameReading src src' (o :: r) (o' :: r')

end Yamd.Spec
