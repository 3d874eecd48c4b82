import Verif.Model.Basic

/-!
# Model of the AST `src/nodes/*.rs` and its `Display` implementations (`to_string`)

Single-field wrappers (`Italic(String)`, `Paragraph { body }`, ...) are kept as constructor arguments.
Derived impls (serde, Debug, Clone) and the `From` conversions are not modelled.
-/

namespace Yamd

/-- `Anchor`, src/nodes/anchor.rs 37-40. -/
structure Anchor where
  text : Str
  url : Str
  deriving DecidableEq, Repr

/-- `BoldNodes`, src/nodes/bold.rs 11-15. -/
inductive BoldNode where
  | italic (s : Str)
  | strikethrough (s : Str)
  | text (s : Str)
  deriving DecidableEq, Repr

/-- `ParagraphNodes`, src/nodes/paragraph.rs 11-19. -/
inductive ParagraphNode where
  | anchor (a : Anchor)
  | bold (body : List BoldNode)
  | italic (s : Str)
  | strikethrough (s : Str)
  | text (s : Str)
  | codeSpan (s : Str)
  | emphasis (s : Str)
  deriving DecidableEq, Repr

/-- `Paragraph`, src/nodes/paragraph.rs 131-133. -/
abbrev Paragraph := List ParagraphNode

/-- `HeadingNodes`, src/nodes/heading.rs 11-14. -/
inductive HeadingNode where
  | text (s : Str)
  | anchor (a : Anchor)
  deriving DecidableEq, Repr

/-- `Image`, src/nodes/image.rs 38-41. -/
structure Image where
  alt : Str
  src : Str
  deriving DecidableEq, Repr

/-- `ListTypes`, src/nodes/list.rs 10-17. -/
inductive ListTypes where
  | Unordered
  | Ordered
  deriving DecidableEq, Repr

mutual
/-- `List`, src/nodes/list.rs 137-141. -/
inductive YList where
  | mk (listType : ListTypes) (level : Nat) (body : List YItem)
/-- `ListItem`, src/nodes/list_item.rs 31-34. -/
inductive YItem where
  | mk (text : List ParagraphNode) (nestedList : Option YList)
end

/-- `YamdNodes`, src/nodes/yamd.rs 14-25, with the structs it wraps: `Heading` (heading.rs 71-74;
`level: u8` is a `Nat` here, see `ToYamd.extractHeadingLevel` for the cast), `Images`
(images.rs 40-42), `Code` (code.rs 33-36), `Highlight` (highlight.rs 55-59), `Embed`
(embed.rs 29-32), `Collapsible` (collapsible.rs 40-43). -/
inductive YamdNode where
  | paragraph (p : Paragraph)
  | heading (level : Nat) (body : List HeadingNode)
  | image (i : Image)
  | images (body : List Image)
  | code (lang code : Str)
  | list (l : YList)
  | highlight (title icon : Option Str) (body : List Paragraph)
  | thematicBreak
  | embed (kind args : Str)
  | collapsible (title : Str) (body : List YamdNode)

/-- `Yamd`, src/nodes/yamd.rs 254-257. -/
structure Yamd where
  metadata : Option Str
  body : List YamdNode

/-- `Yamd::new`, src/nodes/yamd.rs 260-263. -/
def Yamd.new (metadata : Option Str) (body : List YamdNode) : Yamd :=
  ⟨metadata.map trimNl, body⟩

/-- `Code::new`, src/nodes/code.rs 39-46. -/
def YamdNode.newCode (lang code : Str) : YamdNode := .code lang (trimEndNl code)

/-! ### Equality (`#[derive(PartialEq, Eq)]`), decidable -/

mutual
/-- Derived `PartialEq` of `List`. -/
def YList.decEq : (a b : YList) → Decidable (a = b)
  | .mk t l b, .mk t' l' b' =>
    match _root_.decEq t t', _root_.decEq l l', YItem.decEqs b b' with
    | isTrue h1, isTrue h2, isTrue h3 => isTrue (by rw [h1, h2, h3])
    | isFalse h, _, _ => isFalse (by intro e; injection e with e1 e2 e3; exact h e1)
    | _, isFalse h, _ => isFalse (by intro e; injection e with e1 e2 e3; exact h e2)
    | _, _, isFalse h => isFalse (by intro e; injection e with e1 e2 e3; exact h e3)
/-- Derived `PartialEq` of `ListItem`. -/
def YItem.decEq : (a b : YItem) → Decidable (a = b)
  | .mk t none, .mk t' none =>
    match _root_.decEq t t' with
    | isTrue h1 => isTrue (by rw [h1])
    | isFalse h => isFalse (by intro e; injection e with e1 e2; exact h e1)
  | .mk t (some n), .mk t' (some n') =>
    match _root_.decEq t t', YList.decEq n n' with
    | isTrue h1, isTrue h2 => isTrue (by rw [h1, h2])
    | isFalse h, _ => isFalse (by intro e; injection e with e1 e2; exact h e1)
    | _, isFalse h => isFalse (by intro e; injection e with e1 e2; injection e2 with e2; exact h e2)
  | .mk _ (some _), .mk _ none => isFalse (by intro e; injection e with e1 e2; cases e2)
  | .mk _ none, .mk _ (some _) => isFalse (by intro e; injection e with e1 e2; cases e2)
/-- Element-wise equality of item vectors. -/
def YItem.decEqs : (a b : List YItem) → Decidable (a = b)
  | [], [] => isTrue rfl
  | [], _ :: _ => isFalse (by intro e; cases e)
  | _ :: _, [] => isFalse (by intro e; cases e)
  | x :: r, y :: r' =>
    match YItem.decEq x y, YItem.decEqs r r' with
    | isTrue h1, isTrue h2 => isTrue (by rw [h1, h2])
    | isFalse h, _ => isFalse (by intro e; injection e with e1 e2; exact h e1)
    | _, isFalse h => isFalse (by intro e; injection e with e1 e2; exact h e2)
end

instance : DecidableEq YList := YList.decEq
instance : DecidableEq YItem := YItem.decEq

mutual
/-- Derived `PartialEq` of `YamdNodes`. -/
def YamdNode.decEq : (a b : YamdNode) → Decidable (a = b)
  | .paragraph p, .paragraph q => decidable_of_iff (p = q) (by simp)
  | .heading l b, .heading l' b' => decidable_of_iff (l = l' ∧ b = b') (by simp)
  | .image i, .image j => decidable_of_iff (i = j) (by simp)
  | .images i, .images j => decidable_of_iff (i = j) (by simp)
  | .code l c, .code l' c' => decidable_of_iff (l = l' ∧ c = c') (by simp)
  | .list l, .list l' => decidable_of_iff (l = l') (by simp)
  | .highlight t i b, .highlight t' i' b' =>
    decidable_of_iff (t = t' ∧ i = i' ∧ b = b') (by simp)
  | .thematicBreak, .thematicBreak => isTrue rfl
  | .embed k a, .embed k' a' => decidable_of_iff (k = k' ∧ a = a') (by simp)
  | .collapsible t b, .collapsible t' b' =>
    match _root_.decEq t t', YamdNode.decEqs b b' with
    | isTrue h1, isTrue h2 => isTrue (by rw [h1, h2])
    | isFalse h, _ => isFalse (by intro e; injection e with e1 e2; exact h e1)
    | _, isFalse h => isFalse (by intro e; injection e with e1 e2; exact h e2)
  | .paragraph _, .heading _ _ | .paragraph _, .image _ | .paragraph _, .images _
  | .paragraph _, .code _ _ | .paragraph _, .list _ | .paragraph _, .highlight _ _ _
  | .paragraph _, .thematicBreak | .paragraph _, .embed _ _ | .paragraph _, .collapsible _ _
  | .heading _ _, .paragraph _ | .heading _ _, .image _ | .heading _ _, .images _
  | .heading _ _, .code _ _ | .heading _ _, .list _ | .heading _ _, .highlight _ _ _
  | .heading _ _, .thematicBreak | .heading _ _, .embed _ _ | .heading _ _, .collapsible _ _
  | .image _, .paragraph _ | .image _, .heading _ _ | .image _, .images _
  | .image _, .code _ _ | .image _, .list _ | .image _, .highlight _ _ _
  | .image _, .thematicBreak | .image _, .embed _ _ | .image _, .collapsible _ _
  | .images _, .paragraph _ | .images _, .heading _ _ | .images _, .image _
  | .images _, .code _ _ | .images _, .list _ | .images _, .highlight _ _ _
  | .images _, .thematicBreak | .images _, .embed _ _ | .images _, .collapsible _ _
  | .code _ _, .paragraph _ | .code _ _, .heading _ _ | .code _ _, .image _
  | .code _ _, .images _ | .code _ _, .list _ | .code _ _, .highlight _ _ _
  | .code _ _, .thematicBreak | .code _ _, .embed _ _ | .code _ _, .collapsible _ _
  | .list _, .paragraph _ | .list _, .heading _ _ | .list _, .image _
  | .list _, .images _ | .list _, .code _ _ | .list _, .highlight _ _ _
  | .list _, .thematicBreak | .list _, .embed _ _ | .list _, .collapsible _ _
  | .highlight _ _ _, .paragraph _ | .highlight _ _ _, .heading _ _ | .highlight _ _ _, .image _
  | .highlight _ _ _, .images _ | .highlight _ _ _, .code _ _ | .highlight _ _ _, .list _
  | .highlight _ _ _, .thematicBreak | .highlight _ _ _, .embed _ _
  | .highlight _ _ _, .collapsible _ _
  | .thematicBreak, .paragraph _ | .thematicBreak, .heading _ _ | .thematicBreak, .image _
  | .thematicBreak, .images _ | .thematicBreak, .code _ _ | .thematicBreak, .list _
  | .thematicBreak, .highlight _ _ _ | .thematicBreak, .embed _ _
  | .thematicBreak, .collapsible _ _
  | .embed _ _, .paragraph _ | .embed _ _, .heading _ _ | .embed _ _, .image _
  | .embed _ _, .images _ | .embed _ _, .code _ _ | .embed _ _, .list _
  | .embed _ _, .highlight _ _ _ | .embed _ _, .thematicBreak | .embed _ _, .collapsible _ _
  | .collapsible _ _, .paragraph _ | .collapsible _ _, .heading _ _ | .collapsible _ _, .image _
  | .collapsible _ _, .images _ | .collapsible _ _, .code _ _ | .collapsible _ _, .list _
  | .collapsible _ _, .highlight _ _ _ | .collapsible _ _, .thematicBreak
  | .collapsible _ _, .embed _ _ => isFalse (by intro e; cases e)
/-- Element-wise equality of block vectors. -/
def YamdNode.decEqs : (a b : List YamdNode) → Decidable (a = b)
  | [], [] => isTrue rfl
  | [], _ :: _ => isFalse (by intro e; cases e)
  | _ :: _, [] => isFalse (by intro e; cases e)
  | x :: r, y :: r' =>
    match YamdNode.decEq x y, YamdNode.decEqs r r' with
    | isTrue h1, isTrue h2 => isTrue (by rw [h1, h2])
    | isFalse h, _ => isFalse (by intro e; injection e with e1 e2; exact h e1)
    | _, isFalse h => isFalse (by intro e; injection e with e1 e2; exact h e2)
end

instance : DecidableEq YamdNode := YamdNode.decEq

deriving instance DecidableEq for Yamd

/-! ### Display -/

/-- `Display for Anchor`, src/nodes/anchor.rs 51-68. -/
def Anchor.display (a : Anchor) : Str :=
  cs! "[" ++ replace (cs! "\n\n") (cs! "\\\n\n") (replace (cs! "]") (cs! "\\]")
      (replace (cs! "[") (cs! "\\[") (replace (cs! "\\") (cs! "\\\\") a.text)))
    ++ cs! "](" ++ replace (cs! "\n\n") (cs! "\\\n\n") (replace (cs! ")") (cs! "\\)")
      (replace (cs! "(") (cs! "\\(") (replace (cs! "\\") (cs! "\\\\") a.url)))
    ++ cs! ")"

/-- `Display for Italic`, src/nodes/italic.rs 41-52. -/
def displayItalic (s : Str) : Str :=
  cs! "_" ++ replace (cs! "\n\n") (cs! "\\\n\n") (replace (cs! "_") (cs! "\\_")
    (replace (cs! "\\") (cs! "\\\\") s)) ++ cs! "_"

/-- `Display for Strikethrough`, src/nodes/strikethrough.rs 42-53. -/
def displayStrikethrough (s : Str) : Str :=
  cs! "~~" ++ replace (cs! "\n\n") (cs! "\\\n\n") (replace (cs! "~") (cs! "\\~")
    (replace (cs! "\\") (cs! "\\\\") s)) ++ cs! "~~"

/-- `Display for Emphasis`, src/nodes/emphasis.rs 42-53. -/
def displayEmphasis (s : Str) : Str :=
  cs! "*" ++ replace (cs! "\n\n") (cs! "\\\n\n") (replace (cs! "*") (cs! "\\*")
    (replace (cs! "\\") (cs! "\\\\") s)) ++ cs! "*"

/-- `Display for CodeSpan`, src/nodes/code_span.rs 42-56. -/
def displayCodeSpan (s : Str) : Str :=
  if s = [] then []
  else cs! "`" ++ replace (cs! "\n\n") (cs! "\\\n\n") (replace (cs! "`") (cs! "\\`")
    (replace (cs! "\\") (cs! "\\\\") s)) ++ cs! "`"

/-- `Display for BoldNodes`, src/nodes/bold.rs 35-53. -/
def BoldNode.display : BoldNode → Str
  | .italic s => displayItalic s
  | .strikethrough s => displayStrikethrough s
  | .text t =>
    replace (cs! "\n\n") (cs! "\\\n\n") (replace (cs! "~") (cs! "\\~")
      (replace (cs! "_") (cs! "\\_") (replace (cs! "*") (cs! "\\*")
        (replace (cs! "\\") (cs! "\\\\") t))))

/-- The `has_content` test, src/nodes/bold.rs 115-118. -/
def BoldNode.hasContent : BoldNode → Bool
  | .text t => !t.isEmpty
  | _ => true

/-- `Display for Bold`, src/nodes/bold.rs 113-128. -/
def displayBold (body : List BoldNode) : Str :=
  if body.any BoldNode.hasContent then
    cs! "**" ++ (body.map fun n => replace (cs! "**") (cs! "\\**") n.display).flatten ++ cs! "**"
  else []

/-- `Display for ParagraphNodes::Text`, src/nodes/paragraph.rs 70-82. -/
def displayText (t : Str) : Str :=
  replace (cs! "%}") (cs! "\\%}")
    (replace (cs! "\n\n") (cs! "\\\n\\\n")
      (replace (cs! "{") (cs! "\\{")
        (replace (cs! "[") (cs! "\\[")
          (replace (cs! "`") (cs! "\\`")
            (replace (cs! "~") (cs! "\\~")
              (replace (cs! "_") (cs! "\\_")
                (replace (cs! "*") (cs! "\\*")
                  (replace (cs! "\\") (cs! "\\\\") t))))))))

/-- `Display for ParagraphNodes`, src/nodes/paragraph.rs 63-87. -/
def ParagraphNode.display : ParagraphNode → Str
  | .anchor a => a.display
  | .bold b => displayBold b
  | .italic s => displayItalic s
  | .strikethrough s => displayStrikethrough s
  | .text t => displayText t
  | .codeSpan s => displayCodeSpan s
  | .emphasis s => displayEmphasis s

/-- `Display for Paragraph`, src/nodes/paragraph.rs 157-164 (also the text of a list item,
list_item.rs 45). -/
def displayParagraph (p : Paragraph) : Str := (p.map ParagraphNode.display).flatten

/-- `escape_leading_block_marker`, src/nodes/paragraph.rs 171-182. -/
def escapeLeadingBlockMarker (s : Str) : Str :=
  if (cs! "- ").isPrefixOf s || (cs! "+ ").isPrefixOf s || (cs! "# ").isPrefixOf s
      || (cs! "!!").isPrefixOf s || (cs! "---").isPrefixOf s then '\\' :: s
  else s

/-- `Display for HeadingNodes`, src/nodes/heading.rs 28-43. -/
def HeadingNode.display : HeadingNode → Str
  | .text t => replace (cs! "#") (cs! "\\#") (replace (cs! "\n\n") (cs! "\\\n\n")
      (replace (cs! "\\") (cs! "\\\\") t))
  | .anchor a => a.display

/-- `Display for Heading`, src/nodes/heading.rs 82-87. -/
def displayHeading (level : Nat) (body : List HeadingNode) : Str :=
  List.replicate level '#' ++ ' ' :: (body.map HeadingNode.display).flatten

/-- `Display for Image`, src/nodes/image.rs 52-68. -/
def Image.display (i : Image) : Str :=
  cs! "![" ++ replace (cs! "\n\n") (cs! "\\\n\n") (replace (cs! "]") (cs! "\\]")
      (replace (cs! "\\") (cs! "\\\\") i.alt))
    ++ cs! "](" ++ replace (cs! "\n\n") (cs! "\\\n\n") (replace (cs! ")") (cs! "\\)")
      (replace (cs! "(") (cs! "\\(") (replace (cs! "\\") (cs! "\\\\") i.src)))
    ++ cs! ")"

/-- `Display for Images`, src/nodes/images.rs 50-62. -/
def displayImages (body : List Image) : Str := joinWith (cs! "\n") (body.map Image.display)

/-- `Display for Code`, src/nodes/code.rs 49-61. -/
def displayCode (lang code : Str) : Str :=
  cs! "```" ++ replace (cs! "\n") (cs! "\\\n") (replace (cs! "`") (cs! "\\`")
      (replace (cs! "\\") (cs! "\\\\") lang))
    ++ '\n' :: replace (cs! "```") (cs! "\\```") (replace (cs! "\\") (cs! "\\\\") code)
    ++ cs! "\n```"

/-- `Display for Embed`, src/nodes/embed.rs 43-59. -/
def displayEmbed (kind args : Str) : Str :=
  cs! "{{" ++ replace (cs! "|") (cs! "\\|") (replace (cs! "{") (cs! "\\{")
      (replace (cs! "\\") (cs! "\\\\") kind))
    ++ '|' :: replace (cs! "}") (cs! "\\}") (replace (cs! "%") (cs! "\\%")
      (replace (cs! "{") (cs! "\\{") (replace (cs! "\\") (cs! "\\\\") args)))
    ++ cs! "}}"

/-- `Display for Highlight`, src/nodes/highlight.rs 75-96. -/
def displayHighlight (title icon : Option Str) (body : List Paragraph) : Str :=
  cs! "!!" ++ (match title with
      | none => []
      | some t => ' ' :: replace (cs! "\\") (cs! "\\\\") t)
    ++ '\n' :: (match icon with
      | none => []
      | some i => cs! "! " ++ replace (cs! "\\") (cs! "\\\\") i ++ cs! "\n")
    ++ joinWith (cs! "\n\n") (body.map fun p =>
        escapeLeadingBlockMarker (replace (cs! "!!") (cs! "\\!!") (displayParagraph p)))
    ++ cs! "\n!!"

/-- `Display for ListTypes`, src/nodes/list.rs 19-26. -/
def ListTypes.marker : ListTypes → Char
  | .Unordered => '-'
  | .Ordered => '+'

mutual
/-- `Display for List`, src/nodes/list.rs 153-174. -/
def YList.display : YList → Str
  | .mk ty level body => joinWith (cs! "\n") (YList.displayItems ty level body)
/-- The iteration over the items, src/nodes/list.rs 162-170. -/
def YList.displayItems (ty : ListTypes) (level : Nat) : List YItem → List Str
  | [] => []
  | i :: r =>
    (List.replicate level ' ' ++ ty.marker :: ' ' ::
        replace ['\n', ty.marker, ' '] ['\n', '\\', ty.marker, ' '] (YItem.display i))
      :: YList.displayItems ty level r
/-- `Display for ListItem`, src/nodes/list_item.rs 43-51. -/
def YItem.display : YItem → Str
  | .mk text nested =>
    match nested with
    | some l => displayParagraph text ++ '\n' :: YList.display l
    | none => displayParagraph text
end

mutual
/-- `Display for YamdNodes`, src/nodes/yamd.rs 87-102, with `ThematicBreak`
(thematic_break.rs 30-34) and `Collapsible` (collapsible.rs 54-70). -/
def YamdNode.display : YamdNode → Str
  | .paragraph p => displayParagraph p
  | .heading level body => displayHeading level body
  | .image i => i.display
  | .images b => displayImages b
  | .code lang c => displayCode lang c
  | .list l => l.display
  | .highlight t i b => displayHighlight t i b
  | .thematicBreak => cs! "-----"
  | .embed k a => displayEmbed k a
  | .collapsible title body =>
    cs! "{% " ++ replace (cs! "%}") (cs! "\\%}") (replace (cs! "\\") (cs! "\\\\") title)
      ++ '\n' :: joinWith (cs! "\n\n") (displayBlocks body) ++ cs! "\n%}"
/-- The iteration over a body with `escape_leading_block_marker` on paragraphs,
src/nodes/collapsible.rs 60-66 and src/nodes/yamd.rs 268-275. -/
def displayBlocks : List YamdNode → List Str
  | [] => []
  | n :: r =>
    (match n with
      | .paragraph p => escapeLeadingBlockMarker (displayParagraph p)
      | other => YamdNode.display other) :: displayBlocks r
end

/-- `Display for Yamd`, src/nodes/yamd.rs 266-285. -/
def Yamd.display (y : Yamd) : Str :=
  let body := joinWith (cs! "\n\n") (displayBlocks y.body)
  match y.metadata with
  | some m =>
    let sep := if m.getLast? = some '\n' then [] else cs! "\n"
    cs! "---\n" ++ m ++ sep ++ cs! "---\n\n" ++ body
  | none => body

end Yamd
