import Verif.Model.Blocks

/-!
# Concrete syntax trees

The reference parser (`Ref/Parser.lean`) returns a tree whose leaves are lists of tokens. `toks` reads
the tokens of a tree back, `ops` is the op stream of a tree. The modelled parser is proved to emit
exactly `ops` of the tree the reference parser builds (`Proofs/Refine.lean`).
-/

namespace Yamd.Ref

open Yamd

/-- `&source[range]`, empty when the range is not valid. -/
def sliceD (src : Str) (t : Token) : Str := (slice src t.start t.stop).getD []

/-- The text a list of tokens stands for. -/
def textOfToks (src : Str) (ts : List Token) : Str := ts.flatMap (sliceD src)

/-- The content of a list of tokens: a span, unless a backslash inside it has to be left out. -/
def content (src : Str) (ts : List Token) : Content :=
  match ts with
  | [] => .Span 0 0
  | t :: r =>
    if (t :: r).any (·.escaped) && !(Content.contiguous (t :: r)) then
      .Materialized (textOfToks src (t :: r))
    else .Span t.start (Content.lastStop t r)

/-- An opening token, a body, a closing token. -/
structure Delim where
  node : Node
  opening : Token
  body : List Token
  closing : Token
  deriving DecidableEq, Repr

def Delim.toks (d : Delim) : List Token := d.opening :: (d.body ++ [d.closing])

def Delim.ops (src : Str) (d : Delim) : List Op :=
  [.start d.node (content src [d.opening]), .value (content src d.body),
    .close d.node (content src [d.closing])]

/-- What a bold is made of. -/
inductive BoldItem where
  | text (ts : List Token)
  | delim (d : Delim)
  deriving DecidableEq, Repr

def BoldItem.toks : BoldItem → List Token
  | .text ts => ts
  | .delim d => d.toks

def BoldItem.ops (src : Str) : BoldItem → List Op
  | .text ts => [.value (content src ts)]
  | .delim d => d.ops src

/-- `[title](destination)`. -/
structure Link where
  title : Delim
  dest : Delim
  deriving DecidableEq, Repr

def Link.toks (l : Link) : List Token := l.title.toks ++ l.dest.toks

def Link.ops (src : Str) (l : Link) : List Op := l.title.ops src ++ l.dest.ops src

def anchorOps (src : Str) (l : Link) : List Op :=
  .start .Anchor emptyContent :: (l.ops src ++ [.close .Anchor emptyContent])

/-- What a paragraph is made of. -/
inductive Inl where
  | text (ts : List Token)
  | delim (d : Delim)
  | bold (opening : Token) (items : List BoldItem) (closing : Token)
  | anchor (l : Link)
  deriving DecidableEq, Repr

def Inl.toks : Inl → List Token
  | .text ts => ts
  | .delim d => d.toks
  | .bold o items c => o :: (items.flatMap BoldItem.toks ++ [c])
  | .anchor l => l.toks

def Inl.ops (src : Str) : Inl → List Op
  | .text ts => [.value (content src ts)]
  | .delim d => d.ops src
  | .bold o items c =>
    .start .Bold (content src [o]) ::
      (items.flatMap (BoldItem.ops src) ++ [.close .Bold (content src [c])])
  | .anchor l => anchorOps src l

def paraToks (l : List Inl) : List Token := l.flatMap Inl.toks

def paraOps (src : Str) (l : List Inl) : List Op :=
  .start .Paragraph emptyContent :: (l.flatMap (Inl.ops src) ++ [.close .Paragraph emptyContent])

/-- What a heading is made of. -/
inductive HeadItem where
  | text (ts : List Token)
  | anchor (l : Link)
  deriving DecidableEq, Repr

def HeadItem.toks : HeadItem → List Token
  | .text ts => ts
  | .anchor l => l.toks

def HeadItem.ops (src : Str) : HeadItem → List Op
  | .text ts => [.value (content src ts)]
  | .anchor l => anchorOps src l

/-- An image line; `eol` is its line break, when it has one. -/
structure Img where
  bang : Token
  link : Link
  eol : List Token
  deriving DecidableEq, Repr

def Img.toks (i : Img) : List Token := i.bang :: (i.link.toks ++ i.eol)

def Img.ops (src : Str) (i : Img) : List Op :=
  .start .Image (content src [i.bang]) :: (i.link.ops src ++ [.close .Image (content src i.eol)])

/-- Items of a list: marker kind, marker tokens, text, nested items, following items. -/
inductive Items where
  | nil
  | cons (kind : ListKind) (marker : List Token) (para : List Inl) (nested rest : Items)
  deriving DecidableEq, Repr

def Items.toks : Items → List Token
  | .nil => []
  | .cons _ m p n r => m ++ (paraToks p ++ (n.toks ++ r.toks))

/-- Wrap item ops in the list node of the first item. -/
def wrapList (first : Option ListKind) (ops : List Op) : List Op :=
  match first with
  | none => []
  | some k => .start k.node emptyContent :: (ops ++ [.close k.node emptyContent])

/-- The kind of a list is the kind of its first marker. -/
def Items.kind : Items → Option ListKind
  | .nil => none
  | .cons k .. => some k

def Items.ops (src : Str) : Items → List Op
  | .nil => []
  | .cons _ m p n r =>
    .start .ListItem (content src m) ::
      (paraOps src p ++ (wrapList n.kind (n.ops src) ++ (.close .ListItem emptyContent :: r.ops src)))

/-- Ops of a whole list. -/
def Items.listOps (src : Str) (i : Items) : List Op := wrapList i.kind (i.ops src)

/-- The rest of an opening line, with its line break. -/
structure Mod where
  body : List Token
  eol : Token
  deriving DecidableEq, Repr

def modToks : Option Mod → List Token
  | none => []
  | some m => m.body ++ [m.eol]

def modOps (src : Str) : Option Mod → List Op
  | none => []
  | some m =>
    [.start .Modifier emptyContent, .value (content src m.body), .close .Modifier (content src [m.eol])]

/-- The icon line of a highlight. -/
structure IconLine where
  marker : List Token
  body : List Token
  eol : Token
  deriving DecidableEq, Repr

def iconToks : Option IconLine → List Token
  | none => []
  | some i => i.marker ++ (i.body ++ [i.eol])

def iconOps (src : Str) : Option IconLine → List Op
  | none => []
  | some i =>
    [.start .Icon (content src i.marker), .value (content src i.body),
      .close .Icon (content src [i.eol])]

/-- A paragraph of a highlight with the blank line before it, when there is one. -/
structure HPara where
  term : List Token
  para : List Inl
  deriving DecidableEq, Repr

def HPara.toks (h : HPara) : List Token := h.term ++ paraToks h.para

def termOps (src : Str) : List Token → List Op
  | [] => []
  | t :: r => [.value (content src (t :: r))]

def HPara.ops (src : Str) (h : HPara) : List Op := termOps src h.term ++ paraOps src h.para

/-- Blocks without nested blocks. -/
inductive Block where
  | code (opening : List Token) (mod : Option Mod) (body closing : List Token)
  | embed (opening : Token) (lhs : List Token) (pipe : Token) (rhs closing : List Token)
  | highlight (opening : List Token) (mod : Option Mod) (icon : Option IconLine) (body : List HPara)
      (closing : List Token)
  | list (items : Items)
  | images (l : List Img)
  | thematic (t : Token)
  | heading (marker : List Token) (body : List HeadItem)
  | para (l : List Inl)
  deriving DecidableEq, Repr

def Block.toks : Block → List Token
  | .code o m b c => o ++ (modToks m ++ (b ++ c))
  | .embed o l p r c => o :: (l ++ (p :: (r ++ c)))
  | .highlight o m i b c => o ++ (modToks m ++ (iconToks i ++ (b.flatMap HPara.toks ++ c)))
  | .list i => i.toks
  | .images l => l.flatMap Img.toks
  | .thematic t => [t]
  | .heading m b => m ++ b.flatMap HeadItem.toks
  | .para l => paraToks l

def Block.ops (src : Str) : Block → List Op
  | .code o m b c =>
    .start .Code (content src o) ::
      (modOps src m ++ [.value (content src b), .close .Code (content src c)])
  | .embed o l p r c =>
    [.start .Embed (content src [o]), .value (content src l), .value (content src [p]),
      .value (content src r), .close .Embed (content src c)]
  | .highlight o m i b c =>
    .start .Highlight (content src o) ::
      (modOps src m ++ (iconOps src i ++
        (b.flatMap (HPara.ops src) ++ [.close .Highlight (content src c)])))
  | .list i => i.listOps src
  | .images l =>
    if l.length > 1 then
      .start .Images emptyContent :: (l.flatMap (Img.ops src) ++ [.close .Images emptyContent])
    else l.flatMap (Img.ops src)
  | .thematic t =>
    [.start .ThematicBreak emptyContent, .value (content src [t]), .close .ThematicBreak emptyContent]
  | .heading m b =>
    .start .Heading (content src m) ::
      (b.flatMap (HeadItem.ops src) ++ [.close .Heading emptyContent])
  | .para l => paraOps src l

/-- A document: blank lines, blocks and collapsibles. `skipped` is the line break before the closing
`%}`, for which no op is emitted. -/
inductive Doc where
  | nil
  | term (t : Token) (rest : Doc)
  | block (b : Block) (rest : Doc)
  | coll (opening : List Token) (mod : Option Mod) (inner : Doc) (skipped closing : List Token)
      (rest : Doc)
  deriving DecidableEq, Repr

def Doc.toks : Doc → List Token
  | .nil => []
  | .term t r => t :: r.toks
  | .block b r => b.toks ++ r.toks
  | .coll o m i s c r => o ++ (modToks m ++ (i.toks ++ (s ++ (c ++ r.toks))))

def Doc.ops (src : Str) : Doc → List Op
  | .nil => []
  | .term t r => .value (content src [t]) :: r.ops src
  | .block b r => b.ops src ++ r.ops src
  | .coll o m i _ c r =>
    .start .Collapsible (content src o) ::
      (modOps src m ++ (.start .Document emptyContent ::
        (i.ops src ++ (.close .Document emptyContent ::
          (.close .Collapsible (content src c) :: r.ops src)))))

/-- The whole input: front matter and document. -/
structure Top where
  meta? : Option Delim
  doc : Doc

def Top.toks (t : Top) : List Token :=
  (match t.meta? with | none => [] | some d => d.toks) ++ t.doc.toks

def Top.ops (src : Str) (t : Top) : List Op :=
  (match t.meta? with | none => [] | some d => d.ops src) ++
    (.start .Document emptyContent :: (t.doc.ops src ++ [.close .Document emptyContent]))

end Yamd.Ref
