import Verif.Model.Parser
import Verif.Model.Nodes

/-!
# Model of the `serde` feature: what `#[derive(Serialize, Deserialize)]` generates

The crate only writes the attributes; the code is generated by `serde_derive`. The model is the documented
behaviour of that code, for self-describing formats (JSON, YAML, MessagePack with names, ...):

* a struct with named fields is written as a map with one entry per field, in the order of declaration; it is read
  from a map in any order, unknown keys are ignored, a known key that occurs twice is an error, a missing key is an
  error unless the field is an `Option` (then `None`); or from a sequence with one element per field;
* a one-field tuple struct (`Italic(String)`, ...) is its field;
* `#[serde(tag = "type", content = "value")]`: a map with the entries `type` (the name of the variant) and `value`
  (absent for a unit variant); read in any order, unknown keys ignored, or from a sequence of the two;
* an enum of unit variants without attributes is the name of the variant; it is also read from a map with the name as
  its only key and a null value.

Simplified: numbers that are not natural numbers do not occur in any value written and are one constructor `other`
together with booleans, floats and bytes (never accepted); variant names given by index are not accepted (JSON does
not); the error is not modelled, only that there is one.
-/

namespace Yamd.Serde

/-- The self-describing data of serde: null (unit, `None`), numbers, strings, sequences, maps; everything else. -/
inductive Value where
  | null
  | other
  | num (n : Nat)
  | str (s : Str)
  | seq (vs : List Value)
  | map (es : List (Str × Value))

/-! ### Writing -/

/-- Derived `Serialize` for `Option<String>` (fields of `Yamd` and `Highlight`, src/nodes/yamd.rs 255,
src/nodes/highlight.rs 56-57). -/
def ofOption : Option Str → Value
  | none => .null
  | some s => .str s

/-- An adjacently tagged newtype variant (`tag = "type", content = "value"`). -/
def tagged (name : Str) (v : Value) : Value := .map [(cs! "type", .str name), (cs! "value", v)]

/-- `Anchor`, src/nodes/anchor.rs 36-40. -/
def ofAnchor (a : Anchor) : Value := .map [(cs! "text", .str a.text), (cs! "url", .str a.url)]

/-- `BoldNodes`, src/nodes/bold.rs 9-15 (`Italic` and `Strikethrough` are newtype structs). -/
def ofBoldNode : BoldNode → Value
  | .italic s => tagged (cs! "Italic") (.str s)
  | .strikethrough s => tagged (cs! "Strikethrough") (.str s)
  | .text s => tagged (cs! "Text") (.str s)

/-- `ParagraphNodes`, src/nodes/paragraph.rs 9-19; `Bold`, src/nodes/bold.rs 94-97. -/
def ofParagraphNode : ParagraphNode → Value
  | .anchor a => tagged (cs! "Anchor") (ofAnchor a)
  | .bold b => tagged (cs! "Bold") (.map [(cs! "body", .seq (b.map ofBoldNode))])
  | .italic s => tagged (cs! "Italic") (.str s)
  | .strikethrough s => tagged (cs! "Strikethrough") (.str s)
  | .text s => tagged (cs! "Text") (.str s)
  | .codeSpan s => tagged (cs! "CodeSpan") (.str s)
  | .emphasis s => tagged (cs! "Emphasis") (.str s)

/-- `Paragraph`, src/nodes/paragraph.rs 130-133. -/
def ofParagraph (p : Paragraph) : Value := .map [(cs! "body", .seq (p.map ofParagraphNode))]

/-- `HeadingNodes`, src/nodes/heading.rs 9-14. -/
def ofHeadingNode : HeadingNode → Value
  | .text s => tagged (cs! "Text") (.str s)
  | .anchor a => tagged (cs! "Anchor") (ofAnchor a)

/-- `Image`, src/nodes/image.rs 37-41. -/
def ofImage (i : Image) : Value := .map [(cs! "alt", .str i.alt), (cs! "src", .str i.src)]

/-- `ListTypes`, src/nodes/list.rs 9-17. -/
def ofListTypes : ListTypes → Value
  | .Unordered => .str (cs! "Unordered")
  | .Ordered => .str (cs! "Ordered")

mutual
/-- `List`, src/nodes/list.rs 136-141. -/
def ofList : YList → Value
  | .mk t level body =>
    .map [(cs! "list_type", ofListTypes t), (cs! "level", .num level), (cs! "body", .seq (ofItems body))]
/-- `ListItem`, src/nodes/list_item.rs 30-34. -/
def ofItem : YItem → Value
  | .mk text none => .map [(cs! "text", .seq (text.map ofParagraphNode)), (cs! "nested_list", .null)]
  | .mk text (some l) => .map [(cs! "text", .seq (text.map ofParagraphNode)), (cs! "nested_list", ofList l)]
/-- The elements of `List::body`, src/nodes/list.rs 140. -/
def ofItems : List YItem → List Value
  | [] => []
  | i :: r => ofItem i :: ofItems r
end

mutual
/-- `YamdNodes`, src/nodes/yamd.rs 12-25, with `Heading` (heading.rs 70-74), `Images` (images.rs 39-42), `Code`
(code.rs 32-36), `Highlight` (highlight.rs 54-59), `ThematicBreak` (thematic_break.rs 21-22), `Embed` (embed.rs 28-32)
and `Collapsible` (collapsible.rs 39-43). -/
def ofNode : YamdNode → Value
  | .paragraph p => tagged (cs! "Paragraph") (ofParagraph p)
  | .heading level body =>
    tagged (cs! "Heading") (.map [(cs! "level", .num level), (cs! "body", .seq (body.map ofHeadingNode))])
  | .image i => tagged (cs! "Image") (ofImage i)
  | .images body => tagged (cs! "Images") (.map [(cs! "body", .seq (body.map ofImage))])
  | .code lang code => tagged (cs! "Code") (.map [(cs! "lang", .str lang), (cs! "code", .str code)])
  | .list l => tagged (cs! "List") (ofList l)
  | .highlight title icon body =>
    tagged (cs! "Highlight") (.map [(cs! "title", ofOption title), (cs! "icon", ofOption icon),
      (cs! "body", .seq (body.map ofParagraph))])
  | .thematicBreak => tagged (cs! "ThematicBreak") (.map [])
  | .embed kind args => tagged (cs! "Embed") (.map [(cs! "kind", .str kind), (cs! "args", .str args)])
  | .collapsible title body =>
    tagged (cs! "Collapsible") (.map [(cs! "title", .str title), (cs! "body", .seq (ofNodes body))])
/-- The elements of `Collapsible::body` (collapsible.rs 42) and `Yamd::body` (yamd.rs 256). -/
def ofNodes : List YamdNode → List Value
  | [] => []
  | n :: r => ofNode n :: ofNodes r
end

/-- `Yamd`, src/nodes/yamd.rs 253-257. -/
def ofYamd (y : Yamd) : Value :=
  .map [(cs! "metadata", ofOption y.metadata), (cs! "body", .seq (ofNodes y.body))]

/-- The names of the variants of `Node`, src/op/mod.rs 141-167. -/
def nodeName : Node → Str
  | .Anchor => cs! "Anchor" | .Bold => cs! "Bold" | .Code => cs! "Code" | .CodeSpan => cs! "CodeSpan"
  | .Collapsible => cs! "Collapsible" | .Destination => cs! "Destination" | .Document => cs! "Document"
  | .Embed => cs! "Embed" | .Emphasis => cs! "Emphasis" | .Heading => cs! "Heading"
  | .Highlight => cs! "Highlight" | .Icon => cs! "Icon" | .Image => cs! "Image" | .Images => cs! "Images"
  | .Italic => cs! "Italic" | .ListItem => cs! "ListItem" | .Modifier => cs! "Modifier"
  | .Metadata => cs! "Metadata" | .OrderedList => cs! "OrderedList" | .Paragraph => cs! "Paragraph"
  | .Strikethrough => cs! "Strikethrough" | .ThematicBreak => cs! "ThematicBreak" | .Title => cs! "Title"
  | .UnorderedList => cs! "UnorderedList"

/-- All variants of `Node`, src/op/mod.rs 142-167. -/
def allNodes : List Node :=
  [.Anchor, .Bold, .Code, .CodeSpan, .Collapsible, .Destination, .Document, .Embed, .Emphasis, .Heading, .Highlight,
   .Icon, .Image, .Images, .Italic, .ListItem, .Modifier, .Metadata, .OrderedList, .Paragraph, .Strikethrough,
   .ThematicBreak, .Title, .UnorderedList]

/-- `Content`, src/op/mod.rs 55-62; `Range<usize>` is written by serde as a struct with `start` and `end`. -/
def ofContent : Content → Value
  | .Span a b => tagged (cs! "Span") (.map [(cs! "start", .num a), (cs! "end", .num b)])
  | .Materialized s => tagged (cs! "Materialized") (.str s)

/-- `OpKind`, src/op/mod.rs 178-187. -/
def ofOpKind : OpKind → Value
  | .Start n => tagged (cs! "Start") (.str (nodeName n))
  | .End n => tagged (cs! "End") (.str (nodeName n))
  | .Value => .map [(cs! "type", .str (cs! "Value"))]

/-- `Op`, src/op/mod.rs 195-199. -/
def ofOp (o : Op) : Value := .map [(cs! "kind", ofOpKind o.kind), (cs! "content", ofContent o.content)]

/-- `Vec<Op>`, the result of `parse`. -/
def ofOps (ops : List Op) : Value := .seq (ops.map ofOp)

/-! ### Reading -/

/-- The value of a key: an error if the key occurs twice, `some none` if it is missing. -/
def field (k : Str) (es : List (Str × Value)) : Option (Option Value) :=
  match es.filter (fun e => e.1 = k) with
  | [] => some none
  | [e] => some (some e.2)
  | _ => none

/-- A struct with the fields `ks`: the value of each field, from a map or from a sequence. -/
def fields (ks : List Str) : Value → Option (List (Option Value))
  | .map es => ks.mapM (fun k => field k es)
  | .seq vs => if vs.length = ks.length then some (vs.map some) else none
  | _ => none

/-- `String`. -/
def toStr : Value → Option Str
  | .str s => some s
  | _ => none

/-- `u8` (heading.rs 72). -/
def toU8 : Value → Option Nat
  | .num n => if n < 2 ^ 8 then some n else none
  | _ => none

/-- `usize` on a 64-bit target (list.rs 139, the bounds of a range). -/
def toUsize : Value → Option Nat
  | .num n => if n < 2 ^ 64 then some n else none
  | _ => none

/-- `Vec<T>`. -/
def toVec {α : Type} (f : Value → Option α) : Value → Option (List α)
  | .seq vs => vs.mapM f
  | _ => none

/-- A field that must be there. -/
def need {α : Type} (f : Value → Option α) (v : Option Value) : Option α := v.bind f

/-- A field of type `Option<T>`: `None` when it is missing or null. -/
def optional {α : Type} (f : Value → Option α) : Option Value → Option (Option α)
  | none => some none
  | some .null => some none
  | some v => (f v).map some

/-- An adjacently tagged enum: the name of the variant and the value, if there is one. -/
def variant : Value → Option (Str × Option Value)
  | .map es => do
    let t ← field (cs! "type") es
    let v ← field (cs! "value") es
    let name ← need toStr t
    pure (name, v)
  | .seq [.str name, v] => some (name, some v)
  | _ => none

/-- `Anchor`, src/nodes/anchor.rs 36-40. -/
def toAnchor (v : Value) : Option Anchor := do
  match ← fields [cs! "text", cs! "url"] v with
  | [t, u] => pure ⟨← need toStr t, ← need toStr u⟩
  | _ => none

/-- `BoldNodes`, src/nodes/bold.rs 9-15. -/
def toBoldNode (v : Value) : Option BoldNode := do
  let (name, v) ← variant v
  if name = cs! "Italic" then (need toStr v).map .italic
  else if name = cs! "Strikethrough" then (need toStr v).map .strikethrough
  else if name = cs! "Text" then (need toStr v).map .text
  else none

/-- A struct with the only field `body` (`Bold`, bold.rs 94-97; `Paragraph`, paragraph.rs 130-133; `Images`,
images.rs 39-42). -/
def toBody {α : Type} (f : Value → Option α) (v : Value) : Option (List α) := do
  match ← fields [cs! "body"] v with
  | [b] => need (toVec f) b
  | _ => none

/-- `ParagraphNodes`, src/nodes/paragraph.rs 9-19. -/
def toParagraphNode (v : Value) : Option ParagraphNode := do
  let (name, v) ← variant v
  if name = cs! "Anchor" then (need toAnchor v).map .anchor
  else if name = cs! "Bold" then (need (toBody toBoldNode) v).map .bold
  else if name = cs! "Italic" then (need toStr v).map .italic
  else if name = cs! "Strikethrough" then (need toStr v).map .strikethrough
  else if name = cs! "Text" then (need toStr v).map .text
  else if name = cs! "CodeSpan" then (need toStr v).map .codeSpan
  else if name = cs! "Emphasis" then (need toStr v).map .emphasis
  else none

/-- `Paragraph`, src/nodes/paragraph.rs 130-133. -/
def toParagraph : Value → Option Paragraph := toBody toParagraphNode

/-- `HeadingNodes`, src/nodes/heading.rs 9-14. -/
def toHeadingNode (v : Value) : Option HeadingNode := do
  let (name, v) ← variant v
  if name = cs! "Text" then (need toStr v).map .text
  else if name = cs! "Anchor" then (need toAnchor v).map .anchor
  else none

/-- `Image`, src/nodes/image.rs 37-41. -/
def toImage (v : Value) : Option Image := do
  match ← fields [cs! "alt", cs! "src"] v with
  | [a, s] => pure ⟨← need toStr a, ← need toStr s⟩
  | _ => none

/-- An enum of unit variants: its name, or a map from its name to null. -/
def unitVariant : Value → Option Str
  | .str s => some s
  | .map [(s, .null)] => some s
  | _ => none

/-- `ListTypes`, src/nodes/list.rs 9-17. -/
def toListTypes (v : Value) : Option ListTypes := do
  let name ← unitVariant v
  if name = cs! "Unordered" then some .Unordered
  else if name = cs! "Ordered" then some .Ordered
  else none

mutual
/-- `List`, src/nodes/list.rs 136-141. The fuel bounds the nesting. -/
def toList : Nat → Value → Option YList
  | 0, _ => none
  | fuel + 1, v => do
    match ← fields [cs! "list_type", cs! "level", cs! "body"] v with
    | [t, l, b] => pure (.mk (← need toListTypes t) (← need toUsize l) (← need (toVec (toItem fuel)) b))
    | _ => none
/-- `ListItem`, src/nodes/list_item.rs 30-34. -/
def toItem : Nat → Value → Option YItem
  | 0, _ => none
  | fuel + 1, v => do
    match ← fields [cs! "text", cs! "nested_list"] v with
    | [t, n] => pure (.mk (← need (toVec toParagraphNode) t) (← optional (toList fuel) n))
    | _ => none
end

/-- `Heading`, src/nodes/heading.rs 70-74. -/
def toHeading (v : Value) : Option YamdNode := do
  match ← fields [cs! "level", cs! "body"] v with
  | [l, b] => pure (.heading (← need toU8 l) (← need (toVec toHeadingNode) b))
  | _ => none

/-- `Code`, src/nodes/code.rs 32-36 (not through `Code::new`: nothing is trimmed). -/
def toCode (v : Value) : Option YamdNode := do
  match ← fields [cs! "lang", cs! "code"] v with
  | [l, c] => pure (.code (← need toStr l) (← need toStr c))
  | _ => none

/-- `Highlight`, src/nodes/highlight.rs 54-59. -/
def toHighlight (v : Value) : Option YamdNode := do
  match ← fields [cs! "title", cs! "icon", cs! "body"] v with
  | [t, i, b] => pure (.highlight (← optional toStr t) (← optional toStr i) (← need (toVec toParagraph) b))
  | _ => none

/-- `ThematicBreak`, src/nodes/thematic_break.rs 21-22. -/
def toThematicBreak (v : Value) : Option YamdNode := do
  match ← fields [] v with
  | [] => pure .thematicBreak
  | _ => none

/-- `Embed`, src/nodes/embed.rs 28-32. -/
def toEmbed (v : Value) : Option YamdNode := do
  match ← fields [cs! "kind", cs! "args"] v with
  | [k, a] => pure (.embed (← need toStr k) (← need toStr a))
  | _ => none

mutual
/-- `YamdNodes`, src/nodes/yamd.rs 12-25. The fuel bounds the nesting. -/
def toNode : Nat → Value → Option YamdNode
  | 0, _ => none
  | fuel + 1, v => do
    let (name, v) ← variant v
    if name = cs! "Paragraph" then (need toParagraph v).map .paragraph
    else if name = cs! "Heading" then need toHeading v
    else if name = cs! "Image" then (need toImage v).map .image
    else if name = cs! "Images" then (need (toBody toImage) v).map .images
    else if name = cs! "Code" then need toCode v
    else if name = cs! "List" then (need (toList fuel) v).map .list
    else if name = cs! "Highlight" then need toHighlight v
    else if name = cs! "ThematicBreak" then need toThematicBreak v
    else if name = cs! "Embed" then need toEmbed v
    else if name = cs! "Collapsible" then need (toCollapsible fuel) v
    else none
/-- `Collapsible`, src/nodes/collapsible.rs 39-43. -/
def toCollapsible : Nat → Value → Option YamdNode
  | 0, _ => none
  | fuel + 1, v => do
    match ← fields [cs! "title", cs! "body"] v with
    | [t, b] => pure (.collapsible (← need toStr t) (← need (toVec (toNode fuel)) b))
    | _ => none
end

mutual
/-- The depth of a value, an upper bound of the nesting of what is read from it. -/
def Value.depth : Value → Nat
  | .null | .other | .num _ | .str _ => 1
  | .seq vs => depths vs + 1
  | .map es => entryDepths es + 1
/-- The depth of the deepest element. -/
def depths : List Value → Nat
  | [] => 0
  | v :: r => max v.depth (depths r)
/-- The depth of the deepest entry. -/
def entryDepths : List (Str × Value) → Nat
  | [] => 0
  | (_, v) :: r => max v.depth (entryDepths r)
end

/-- `Yamd`, src/nodes/yamd.rs 253-257 (not through `Yamd::new`: nothing is trimmed). -/
def toYamd (v : Value) : Option Yamd := do
  match ← fields [cs! "metadata", cs! "body"] v with
  | [m, b] => pure ⟨← optional toStr m, ← need (toVec (toNode v.depth)) b⟩
  | _ => none

/-- `Node`, src/op/mod.rs 141-167. -/
def toNodeName (v : Value) : Option Node := do
  let name ← unitVariant v
  allNodes.find? (fun n => nodeName n = name)

/-- `Range<usize>` as serde reads it. -/
def toRange (v : Value) : Option (Nat × Nat) := do
  match ← fields [cs! "start", cs! "end"] v with
  | [a, b] => pure (← need toUsize a, ← need toUsize b)
  | _ => none

/-- `Content`, src/op/mod.rs 55-62. -/
def toContent (v : Value) : Option Content := do
  let (name, v) ← variant v
  if name = cs! "Span" then (need toRange v).map (fun r => .Span r.1 r.2)
  else if name = cs! "Materialized" then (need toStr v).map .Materialized
  else none

/-- The value of a unit variant: absent or null. -/
def toUnit : Option Value → Option Unit
  | none => some ()
  | some .null => some ()
  | _ => none

/-- `OpKind`, src/op/mod.rs 178-187. -/
def toOpKind (v : Value) : Option OpKind := do
  let (name, v) ← variant v
  if name = cs! "Start" then (need toNodeName v).map .Start
  else if name = cs! "End" then (need toNodeName v).map .End
  else if name = cs! "Value" then (toUnit v).map (fun _ => .Value)
  else none

/-- `Op`, src/op/mod.rs 195-199. -/
def toOp (v : Value) : Option Op := do
  match ← fields [cs! "kind", cs! "content"] v with
  | [k, c] => pure ⟨← need toOpKind k, ← need toContent c⟩
  | _ => none

/-- `Vec<Op>`. -/
def toOps : Value → Option (List Op) := toVec toOp

end Yamd.Serde
