import Verif.Ref.Cst
import Verif.Model.ToYamd

/-!
# The document a concrete syntax tree stands for
-/

namespace Yamd.Ref

open Yamd

section
variable (src : Str)

def BoldItem.denote : BoldItem → BoldNode
  | .text ts => .text (textOfToks src ts)
  | .delim d =>
    match d.node with
    | .Italic => .italic (textOfToks src d.body)
    | _ => .strikethrough (textOfToks src d.body)

def Link.denote (l : Link) : Anchor := ⟨textOfToks src l.title.body, textOfToks src l.dest.body⟩

def Inl.denote : Inl → ParagraphNode
  | .text ts => .text (textOfToks src ts)
  | .delim d =>
    match d.node with
    | .Italic => .italic (textOfToks src d.body)
    | .CodeSpan => .codeSpan (textOfToks src d.body)
    | .Emphasis => .emphasis (textOfToks src d.body)
    | _ => .strikethrough (textOfToks src d.body)
  | .bold _ items _ => .bold (items.map (BoldItem.denote src))
  | .anchor l => .anchor (l.denote src)

def paraDenote (l : List Inl) : Paragraph := l.map (Inl.denote src)

def HeadItem.denote : HeadItem → HeadingNode
  | .text ts => .text (textOfToks src ts)
  | .anchor l => .anchor (l.denote src)

def Img.denote (i : Img) : Image := ⟨textOfToks src i.link.title.body, textOfToks src i.link.dest.body⟩

def listType : ListKind → ListTypes
  | .Unordered => .Unordered
  | .Ordered => .Ordered

/-- Wrap items in the list of the first item. -/
def wrapDenote (first : Option ListKind) (level : Nat) (items : List YItem) : Option YList :=
  first.map (fun k => .mk (listType k) level items)

def Items.denote (level : Nat) : Items → List YItem
  | .nil => []
  | .cons _ _ p n r =>
    .mk (ToYamd.trimTrailingNewline (paraDenote src p)) (wrapDenote n.kind (level + 1) (n.denote (level + 1)))
      :: r.denote level

def modDenote : Option Mod → Option Str
  | none => none
  | some m => some (textOfToks src m.body)

def iconDenote : Option IconLine → Option Str
  | none => none
  | some m => some (textOfToks src m.body)

/-- The level of a heading is the number of its hashes. -/
def headLevel (m : List Token) : Nat := ((textOfToks src m).takeWhile (· == '#')).length % 256

def Block.denote : Block → YamdNode
  | .code _ m b _ => .newCode ((modDenote src m).getD []) (trimEndNl (textOfToks src b))
  | .embed _ l _ r _ => .embed (textOfToks src l) (textOfToks src r)
  | .highlight _ m i b _ =>
    .highlight (modDenote src m) (iconDenote src i)
      (b.map fun h => ToYamd.trimTrailingNewline (paraDenote src h.para))
  | .list i => .list (.mk (listType (i.kind.getD .Unordered)) 0 (i.denote src 0))
  | .images [i] => .image (i.denote src)
  | .images l => .images (l.map (Img.denote src))
  | .thematic _ => .thematicBreak
  | .heading m b => .heading (headLevel src m) (b.map (HeadItem.denote src))
  | .para l => .paragraph (paraDenote src l)

def Doc.denote : Doc → List YamdNode
  | .nil => []
  | .term _ r => r.denote
  | .block b r => b.denote src :: r.denote
  | .coll _ m i _ _ r => .collapsible ((modDenote src m).getD []) i.denote :: r.denote

def Top.denote (t : Top) : Yamd :=
  Yamd.new (t.meta?.map (fun d => trimNl (textOfToks src d.body))) (t.doc.denote src)

end

end Yamd.Ref
