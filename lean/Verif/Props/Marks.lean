import Verif.Proofs.BlockLeftOps
import Verif.Model.ToYamd

/-!
# C58-C60: marks

Text ends at its first closing mark, and no mark is left as text when what it opens is complete. The
vocabulary is in `Spec/Marks.lean`.
-/

namespace Yamd.Props

open Yamd Yamd.Spec Yamd.Ref Yamd.Lexer

/-- **C58.** Text between marks ends at the first closing mark: no token of a Value closes the node the
Value stands in directly (`closesNode`), and an embed is a kind without `|`, one `|` and arguments without
`}}`. -/
theorem C58_first_closing_mark (input : Str) : ∃ toks ops segs, lex input = .ok toks ∧ parse input = .ok ops ∧
    Segmentation input toks ops segs ∧ ∀ z1 x z2, ops.zip segs = z1 ++ x :: z2 →
      (x.1.kind = .Value → ∀ n, (openAfter [] (z1.map fun y => y.1.kind)).head? = some n →
        ∀ t ∈ x.2.2, ¬ closesNode n t) ∧
      (x.1.kind = .Start .Embed → ∃ kind pipe args close z, z2 = kind :: pipe :: args :: close :: z ∧
        kind.1.kind = .Value ∧ pipe.1.kind = .Value ∧ args.1.kind = .Value ∧ close.1.kind = .End .Embed ∧
        kind.2.1 = [] ∧ pipe.2.1 = [] ∧ args.2.1 = [] ∧
        (∀ t ∈ kind.2.2, ¬ tokenIsA .Pipe 1 t) ∧ (∃ t, pipe.2.2 = [t] ∧ tokenIsA .Pipe 1 t) ∧
        ∀ t ∈ args.2.2, ¬ tokenIsA .RightCurlyBrace 2 t) := by
  obtain ⟨ops, ss, h1, h2, h3⟩ := parse_marks input
  exact ⟨_, ops, ss, lex_eq input, h1, h2, fun z1 x z2 hz =>
    ⟨fun hv n hn => ((h3 z1 x z2 hz).1 hv n hn).1, (h3 z1 x z2 hz).2⟩⟩

/-- The first closing mark closes; an escaped one does not. -/
example : deserialize (cs! "_a ** \\_ b_ c_\n\n{{k|a|b}}\nc}}") = .ok ⟨none, [.paragraph
    [.italic (cs! "a ** _ b"), .text (cs! " c_")], .embed (cs! "k") (cs! "a|b"), .paragraph [.text (cs! "c}}")]]⟩ := by
  decide +kernel

/-- **C59.** No mark is left as text when its partner follows: a token of a Value directly in a paragraph,
in a bold or in a heading opens no inline node that could be closed by a token behind it in that paragraph
or heading (`LeftAsText`). -/
theorem C59_marks_left_as_text (input : Str) : ∃ toks ops segs, lex input = .ok toks ∧ parse input = .ok ops ∧
    Segmentation input toks ops segs ∧ ∀ z1 x z2, ops.zip segs = z1 ++ x :: z2 →
      x.1.kind = .Value → ∀ n, (openAfter [] (z1.map fun y => y.1.kind)).head? = some n →
        ∀ a t b, x.2.2 = a ++ t :: b → LeftAsText n t (b ++ entryToks (inText z2)) := by
  obtain ⟨ops, ss, h1, h2, h3⟩ := parse_marks input
  exact ⟨_, ops, ss, lex_eq input, h1, h2, fun z1 x z2 hz hv n hn => ((h3 z1 x z2 hz).1 hv n hn).2⟩

/-- Text with unpaired marks; the second `**` is hidden in an italic. -/
example : deserialize (cs! "a ** _b ** c_ [d] (e) [f](g * ` ~~\nh] _") = .ok ⟨none, [.paragraph
    [.text (cs! "a ** "), .italic (cs! "b ** c"), .text (cs! " [d] (e) [f](g * ` ~~\nh] _")]]⟩ := by decide +kernel

/-- A hidden `**` is the only exception: a third one behind it pairs up with the first. -/
example : deserialize (cs! "a ** _b ** c_ ** d") = .ok ⟨none, [.paragraph
    [.text (cs! "a "), .bold [.text (cs! " "), .italic (cs! "b ** c"), .text (cs! " ")], .text (cs! " d")]]⟩ := by
  decide +kernel

/-- **C60.** No block mark is left at the start of a paragraph when its block is complete: a paragraph
directly in a document does not look like a heading, a list item, a thematic break or image lines, and a
code block, an embed or a highlight it seems to start is not complete (`BlockLeft`). -/
theorem C60_block_marks_left_as_text (input : Str) : ∃ toks ops segs, lex input = .ok toks ∧ parse input = .ok ops ∧
    Segmentation input toks ops segs ∧
    ∀ z1 s zb e z2, ops.zip segs = z1 ++ s :: (zb ++ e :: z2) → s.1.kind = .Start .Paragraph → e.1.kind = .End .Paragraph →
      (∀ x ∈ zb, x.1.kind ≠ .End .Paragraph) → (openAfter [] (z1.map fun x => x.1.kind)).head? = some .Document →
      BlockLeft (openAfter [] (z1.map fun x => x.1.kind)) (entryToks zb) (entryToks (e :: z2)) := by
  obtain ⟨ops, ss, h1, h2, h3⟩ := parse_blockLeft input
  exact ⟨_, ops, ss, lex_eq input, h1, h2, h3⟩

/-- Paragraphs that start like other blocks, none of them complete. -/
example : deserialize (cs! "#  a\n\n-b\n\n------\n\n![a](b) c\n\n```\nd\n``` e\n\n{{f}}\n\n{{g|h}} i\n\n{%\n!! j\nk\n%}") = .ok ⟨none,
    [.paragraph [.text (cs! "#  a")], .paragraph [.text (cs! "-b")], .paragraph [.text (cs! "------")],
      .paragraph [.text (cs! "!"), .anchor ⟨cs! "a", cs! "b"⟩, .text (cs! " c")],
      .paragraph [.text (cs! "```\nd\n``` e")], .paragraph [.text (cs! "{{f}}")], .paragraph [.text (cs! "{{g|h}} i")],
      .collapsible [] [.paragraph [.text (cs! "!! j\nk")]]]⟩ := by decide +kernel

end Yamd.Props
