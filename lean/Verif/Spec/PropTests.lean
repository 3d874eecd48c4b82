import Verif.Spec.RoundTrip

/-!
# The values of the project's own property tests (C65)

`tests/round_trip_proptest.rs` draws random values from strategies and checks that they survive a round
trip. Each strategy is written here as the set of the values it can draw, without the bounds on lengths
(1 to 5 pieces, 1 to 20 characters, 1 to 5 blocks, ...).
-/

namespace Yamd.Spec

open Yamd

/-- `[a-zA-Z0-9]`. -/
def alnum (c : Char) : Bool := c.isAlphanum

/-- A word `[a-zA-Z0-9]+`. -/
def IsWord (s : Str) : Prop := s ≠ [] ∧ ∀ c ∈ s, alnum c = true

/-- The marks that `arb_inline_text` draws, tests/round_trip_proptest.rs 55-73. -/
def inlinePieces : List Str :=
  [cs! "*", cs! "**", cs! "_", cs! "~~", cs! "`", cs! "```", cs! "#", cs! "!!", cs! "[", cs! "]", cs! "(", cs! ")",
   cs! "|", cs! "}", cs! "{", cs! "%}", cs! "{%", cs! "\\"]

/-- The marks that `arb_text` draws, tests/round_trip_proptest.rs 14-43. -/
def textPieces : List Str :=
  inlinePieces ++ [cs! "\n", cs! "\n- ", cs! "\n+ ", cs! "\n# ", cs! "\n```", cs! "\n!! ", cs! "\n---", cs! "\n{% ",
    cs! "\n%}", cs! "\n\n"]

/-- One or more of the given pieces and words, joined. -/
def Joined (pieces : List Str) (s : Str) : Prop :=
  ∃ l : List Str, l ≠ [] ∧ (∀ p ∈ l, p ∈ pieces ∨ IsWord p) ∧ s = l.flatten

/-- There is a character that is not white space (the strategies draw no other white space). -/
def NotBlank (s : Str) : Prop := ∃ c ∈ s, c ≠ ' ' ∧ c ≠ '\n'

/-- `arb_text`, tests/round_trip_proptest.rs 9-49. -/
def ArbText (s : Str) : Prop :=
  s ≠ [] ∧ ((∀ c ∈ s, alnum c = true ∨ c = ' ') ∨ Joined textPieces s)

/-- `arb_inline_text`, tests/round_trip_proptest.rs 51-84. -/
def ArbInlineText (s : Str) : Prop :=
  NotBlank s ∧ s.head? ≠ some ' ' ∧ (IsWord s ∨ Joined inlinePieces s)

/-- `arb_block_text`, tests/round_trip_proptest.rs 86-90. -/
def ArbBlockText (s : Str) : Prop :=
  ArbText s ∧ NotBlank s ∧ s.getLast? ≠ some '\n' ∧ s.head? ≠ some '\n'

/-- `arb_list_item_text`, tests/round_trip_proptest.rs 92-97. -/
def ArbItemText (s : Str) : Prop := ArbBlockText s ∧ s.head? ≠ some ' '

/-- `arb_url`, tests/round_trip_proptest.rs 99-115: letters, digits, `/:._-`, parentheses and brackets. -/
def ArbUrl (s : Str) : Prop :=
  s ≠ [] ∧ ∀ c ∈ s, alnum c = true ∨ c ∈ cs! "/:._-()[]"

/-- `arb_paragraph_node`, tests/round_trip_proptest.rs 311-321. -/
def ArbParagraphNode : ParagraphNode → Prop
  | .text t => ArbInlineText t
  | .italic t => ArbInlineText t
  | .emphasis t => ArbInlineText t
  | .strikethrough t => ArbInlineText t
  | .codeSpan t => ArbInlineText t
  | .anchor a => ArbInlineText a.text ∧ ArbUrl a.url
  | .bold l => ∃ t, IsWord t ∧ l = [.text t]

/-- An image with a drawn text and destination. -/
def ArbImage (i : Image) : Prop := ArbInlineText i.alt ∧ ArbUrl i.src

/-- `arb_yamd_node`, tests/round_trip_proptest.rs 323-348. The texts of headings are drawn from `heading`. -/
def ArbYamdNode (heading : Str → Prop) : YamdNode → Prop
  | .paragraph p => ∃ n, ArbParagraphNode n ∧ p = [n]
  | .heading level b => 1 ≤ level ∧ level ≤ 6 ∧ ∃ t, heading t ∧ b = [.text t]
  | .image i => ArbImage i
  | .images l => 2 ≤ l.length ∧ ∀ i ∈ l, ArbImage i
  | .code lang code => ∃ c, ArbInlineText lang ∧ ArbBlockText c ∧ code = trimEndNl c
  | .thematicBreak => True
  | .embed kind args => ArbInlineText kind ∧ ArbBlockText args
  | _ => False

/-- The metadata that `arb_yamd` draws, tests/round_trip_proptest.rs 350-356. -/
def ArbMetadata (m : Str) : Prop := NotBlank m ∧ ∀ c ∈ m, alnum c = true ∨ c = ':' ∨ c = ' '

/-- `arb_yamd`, tests/round_trip_proptest.rs 350-360: the arguments of `Yamd::new`. -/
def ArbYamd (heading : Str → Prop) (metadata : Option Str) (body : List YamdNode) : Prop :=
  (∀ m, metadata = some m → ArbMetadata m) ∧ body ≠ [] ∧ ∀ n ∈ body, ArbYamdNode heading n

/-- A heading text that the tests draw and in which no anchor would be read. -/
def ArbHeadingText (t : Str) : Prop := ArbInlineText t ∧ readsAnchor false t = false

end Yamd.Spec
