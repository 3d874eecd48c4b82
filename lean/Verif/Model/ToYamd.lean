import Verif.Model.Nodes
import Verif.Model.Blocks

/-!
# Model of `src/op/to_yamd.rs` and of `deserialize` (`src/lib.rs`)
-/

namespace Yamd

/-- `enum Frame`, src/op/to_yamd.rs 21-106. -/
inductive Frame where
  | Yamd (metadata : Option Str) (body : List YamdNode)
  | Document (children : List YamdNode)
  | Heading (level : Nat) (body : List HeadingNode)
  | Paragraph (body : List ParagraphNode)
  | Bold (body : List BoldNode)
  | Italic (text : Str)
  | Strikethrough (text : Str)
  | CodeSpan (text : Str)
  | Emphasis (text : Str)
  | Anchor (text url : Str)
  | Title (text : Str)
  | Destination (text : Str)
  | Image (alt src : Str)
  | Images (images : List Image)
  | Code (lang code : Str)
  | Modifier (text : Str)
  | Embed (values : List Str)
  | ThematicBreak
  | Highlight (title icon : Option Str) (paragraphs : List Paragraph)
  | Icon (text : Str)
  | Collapsible (title : Str) (body : List YamdNode)
  | UnorderedList (level : Nat) (items : List YItem)
  | OrderedList (level : Nat) (items : List YItem)
  | ListItem (text : List ParagraphNode) (nestedList : Option YList)
  | Metadata (text : Str)

namespace ToYamd

/-- Frames with the top of the stack first (Rust: `Vec<Frame>` with the top last). -/
abbrev Stack := List Frame

/-- Result of one step: `none` is `Err(UnbalancedOpStream)`. -/
abbrev StepResult := Option Stack

/-- `matches!(f, UnorderedList | OrderedList)`. -/
def isListFrame : Frame → Bool
  | .UnorderedList .. => true
  | .OrderedList .. => true
  | _ => false

/-- `count_list_depth`, src/op/to_yamd.rs 179-184. -/
def countListDepth (stack : Stack) : Nat := (stack.filter isListFrame).length

/-- `extract_heading_level`, src/op/to_yamd.rs 447-450 (`as u8` keeps the value modulo 256). -/
def extractHeadingLevel (c : Content) (source : Str) : R Nat := do
  let s ← c.asStr source
  pure ((s.takeWhile (· == '#')).length % 256)

/-- The `OpKind::Start` arm, src/op/to_yamd.rs 215-238, with `Frame::from_node` 109-176 (whose
`unreachable!` arm is for the three kinds handled before it). -/
def onStart (n : Node) (c : Content) (source : Str) (stack : Stack) : R Stack :=
  match n with
  | .Heading => do
    let level ← extractHeadingLevel c source
    pure (.Heading level [] :: stack)
  | .UnorderedList => .ok (.UnorderedList (countListDepth stack) [] :: stack)
  | .OrderedList => .ok (.OrderedList (countListDepth stack) [] :: stack)
  | .Document => .ok (.Document [] :: stack)
  | .Paragraph => .ok (.Paragraph [] :: stack)
  | .Bold => .ok (.Bold [] :: stack)
  | .Italic => .ok (.Italic [] :: stack)
  | .Strikethrough => .ok (.Strikethrough [] :: stack)
  | .CodeSpan => .ok (.CodeSpan [] :: stack)
  | .Emphasis => .ok (.Emphasis [] :: stack)
  | .Anchor => .ok (.Anchor [] [] :: stack)
  | .Title => .ok (.Title [] :: stack)
  | .Destination => .ok (.Destination [] :: stack)
  | .Image => .ok (.Image [] [] :: stack)
  | .Images => .ok (.Images [] :: stack)
  | .Code => .ok (.Code [] [] :: stack)
  | .Modifier => .ok (.Modifier [] :: stack)
  | .Embed => .ok (.Embed [] :: stack)
  | .ThematicBreak => .ok (.ThematicBreak :: stack)
  | .Highlight => .ok (.Highlight none none [] :: stack)
  | .Icon => .ok (.Icon [] :: stack)
  | .Collapsible => .ok (.Collapsible [] [] :: stack)
  | .ListItem => .ok (.ListItem [] none :: stack)
  | .Metadata => .ok (.Metadata [] :: stack)

/-- What a Value does to the top frame, src/op/to_yamd.rs 242-267. -/
def valueInto (text : Str) : Frame → Frame
  | .Heading l b => .Heading l (b ++ [.text text])
  | .Paragraph b => .Paragraph (b ++ [.text text])
  | .Bold b => .Bold (b ++ [.text text])
  | .Italic t => .Italic (t ++ text)
  | .Strikethrough t => .Strikethrough (t ++ text)
  | .CodeSpan t => .CodeSpan (t ++ text)
  | .Emphasis t => .Emphasis (t ++ text)
  | .Title t => .Title (t ++ text)
  | .Destination t => .Destination (t ++ text)
  | .Modifier t => .Modifier (t ++ text)
  | .Icon t => .Icon (t ++ text)
  | .Code l c => .Code l (c ++ text)
  | .Embed vs => .Embed (vs ++ [text])
  | .Metadata t => .Metadata (t ++ text)
  | f => f

/-- The `OpKind::Value` arm, src/op/to_yamd.rs 239-268. -/
def onValue (c : Content) (source : Str) (stack : Stack) : R StepResult := do
  let text ← c.asStr source
  match stack with
  | [] => pure none
  | top :: r => pure (some (valueInto text top :: r))

/-- `trim_trailing_newline_from_text`, src/op/to_yamd.rs 452-461. -/
def trimTrailingNewline (body : List ParagraphNode) : List ParagraphNode :=
  match body.getLast? with
  | some (.text t) =>
    let trimmed := trimEndNl t
    if trimmed = [] then body.dropLast else body.dropLast ++ [.text trimmed]
  | _ => body

/-- `push_yamd_node`, src/op/to_yamd.rs 463-467. -/
def pushYamdNode (stack : Stack) (n : YamdNode) : Stack :=
  match stack with
  | .Document children :: r => .Document (children ++ [n]) :: r
  | s => s

/-- `push_into_paragraph`, src/op/to_yamd.rs 469-473. -/
def pushIntoParagraph (stack : Stack) (n : ParagraphNode) : Stack :=
  match stack with
  | .Paragraph body :: r => .Paragraph (body ++ [n]) :: r
  | s => s

/-- `finish_list`, src/op/to_yamd.rs 475-481. -/
def finishList (stack : Stack) (l : YList) : StepResult :=
  match stack with
  | [] => none
  | .ListItem text _ :: r => some (.ListItem text (some l) :: r)
  | s => some (pushYamdNode s (.list l))

/-- The `(node, frame)` match of the `OpKind::End` arm, src/op/to_yamd.rs 271-435; `stack` is the
stack after the pop. -/
def onEndFrame (n : Node) (frame : Frame) (stack : Stack) : StepResult :=
  match n, frame with
  | .Document, .Document children =>
    match stack with
    | [] => none
    | .Collapsible title _ :: r => some (.Collapsible title children :: r)
    | .Yamd m body :: r => some (.Yamd m (body ++ children) :: r)
    | s => some s
  | .Metadata, .Metadata text =>
    match stack with
    | .Yamd _ body :: r => some (.Yamd (some (trimNl text)) body :: r)
    | s => some s
  | .Heading, .Heading level body => some (pushYamdNode stack (.heading level body))
  | .Paragraph, .Paragraph body =>
    match stack with
    | [] => none
    | .Highlight t i ps :: r => some (.Highlight t i (ps ++ [trimTrailingNewline body]) :: r)
    | .ListItem _ nested :: r => some (.ListItem (trimTrailingNewline body) nested :: r)
    | .Document children :: r => some (.Document (children ++ [.paragraph body]) :: r)
    | s => some s
  | .Bold, .Bold body => some (pushIntoParagraph stack (.bold body))
  | .Italic, .Italic text =>
    match stack with
    | [] => none
    | .Paragraph body :: r => some (.Paragraph (body ++ [.italic text]) :: r)
    | .Bold body :: r => some (.Bold (body ++ [.italic text]) :: r)
    | s => some s
  | .Strikethrough, .Strikethrough text =>
    match stack with
    | [] => none
    | .Paragraph body :: r => some (.Paragraph (body ++ [.strikethrough text]) :: r)
    | .Bold body :: r => some (.Bold (body ++ [.strikethrough text]) :: r)
    | s => some s
  | .CodeSpan, .CodeSpan text => some (pushIntoParagraph stack (.codeSpan text))
  | .Emphasis, .Emphasis text => some (pushIntoParagraph stack (.emphasis text))
  | .Title, .Title text =>
    match stack with
    | [] => none
    | .Anchor _ url :: r => some (.Anchor text url :: r)
    | .Image _ src :: r => some (.Image text src :: r)
    | s => some s
  | .Destination, .Destination text =>
    match stack with
    | [] => none
    | .Anchor t _ :: r => some (.Anchor t text :: r)
    | .Image alt _ :: r => some (.Image alt text :: r)
    | s => some s
  | .Anchor, .Anchor text url =>
    match stack with
    | [] => none
    | .Paragraph body :: r => some (.Paragraph (body ++ [.anchor ⟨text, url⟩]) :: r)
    | .Heading l body :: r => some (.Heading l (body ++ [.anchor ⟨text, url⟩]) :: r)
    | s => some s
  | .Image, .Image alt src =>
    match stack with
    | [] => none
    | .Images images :: r => some (.Images (images ++ [⟨alt, src⟩]) :: r)
    | s => some (pushYamdNode s (.image ⟨alt, src⟩))
  | .Images, .Images images => some (pushYamdNode stack (.images images))
  | .Code, .Code lang code => some (pushYamdNode stack (.newCode lang (trimEndNl code)))
  | .Modifier, .Modifier text =>
    match stack with
    | [] => none
    | .Code _ code :: r => some (.Code text code :: r)
    | .Highlight _ i ps :: r => some (.Highlight (some text) i ps :: r)
    | .Collapsible _ body :: r => some (.Collapsible text body :: r)
    | s => some s
  | .Icon, .Icon text =>
    match stack with
    | .Highlight t _ ps :: r => some (.Highlight t (some text) ps :: r)
    | s => some s
  | .Embed, .Embed values =>
    some (pushYamdNode stack (.embed (values[0]?.getD []) (values[2]?.getD [])))
  | .ThematicBreak, .ThematicBreak => some (pushYamdNode stack .thematicBreak)
  | .Highlight, .Highlight t i ps => some (pushYamdNode stack (.highlight t i ps))
  | .Collapsible, .Collapsible title body => some (pushYamdNode stack (.collapsible title body))
  | .UnorderedList, .UnorderedList level items => finishList stack (.mk .Unordered level items)
  | .OrderedList, .OrderedList level items => finishList stack (.mk .Ordered level items)
  | .ListItem, .ListItem text nested =>
    match stack with
    | .UnorderedList level items :: r => some (.UnorderedList level (items ++ [.mk text nested]) :: r)
    | .OrderedList level items :: r => some (.OrderedList level (items ++ [.mk text nested]) :: r)
    | s => some s
  | _, _ => some stack

/-- The `OpKind::End` arm, src/op/to_yamd.rs 269-436. -/
def onEnd (n : Node) (stack : Stack) : StepResult :=
  match stack with
  | [] => none
  | frame :: r => onEndFrame n frame r

/-- One turn of the loop, src/op/to_yamd.rs 213-438. -/
def step (source : Str) (op : Op) (stack : Stack) : R StepResult :=
  match op.kind with
  | .Start n => do
    let s ← onStart n op.content source stack
    pure (some s)
  | .Value => onValue op.content source stack
  | .End n => .ok (onEnd n stack)

/-- The loop `for op in ops`, src/op/to_yamd.rs 213-438 (`?` returns early). -/
def run (source : Str) : List Op → Stack → R StepResult
  | [], stack => .ok (some stack)
  | op :: r, stack => do
    match ← step source op stack with
    | none => pure none
    | some stack => run source r stack

/-- `match stack.pop()...`, src/op/to_yamd.rs 440-444. -/
def finish (stack : Stack) : Option Yamd :=
  match stack with
  | .Yamd m body :: _ => some (Yamd.new m body)
  | _ => none

end ToYamd

open ToYamd in
/-- `try_to_yamd`, src/op/to_yamd.rs 207-445; `none` is `Err(UnbalancedOpStream)`. -/
def tryToYamd (ops : List Op) (source : Str) : R (Option Yamd) := do
  match ← run source ops [.Yamd none []] with
  | none => pure none
  | some stack => pure (finish stack)

/-- `to_yamd`, src/op/to_yamd.rs 202-204: `expect` panics on `Err`. -/
def toYamd (ops : List Op) (source : Str) : R Yamd := do
  match ← tryToYamd ops source with
  | some y => pure y
  | none => .error .panic

/-- `deserialize`, src/lib.rs 101-104. -/
def deserialize (input : Str) : R Yamd := do
  let ops ← parse input
  toYamd ops input

end Yamd
