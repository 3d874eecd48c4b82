import Verif.Proofs.ExtentOps
import Verif.Props.Ops

/-!
# Line properties C53-C57

Where marks may stand in a line, which titles there are, and which blocks may touch. The vocabulary is
in `Spec/Lines.lean` and `Spec/Extent.lean`.
-/

namespace Yamd.Props

open Yamd Yamd.Lexer Yamd.Spec Yamd.Ref

/-- **C53.** The marks that open a heading, a code block, an embed, a highlight, an icon line, a
collapsible, a list item and front matter, and the marks that close a code block, a highlight, a
collapsible and front matter, stand at the start of a line: at the very start of the input or directly
behind a line feed that is not escaped. A thematic break is exactly `-----`, at the start of a line. -/
theorem C53_marks_start_lines (input : Str) : ∃ ops, parse input = .ok ops ∧
    (∀ op ∈ ops, isLineMark op.kind = true → AtLineStart input op) ∧
    ∀ l1 s v l2, ops = l1 ++ s :: v :: l2 → s.kind = .Start .ThematicBreak →
      v.kind = .Value ∧ AtLineStart input v ∧ opText input v = ['-', '-', '-', '-', '-'] :=
  parse_lineStarts input

/-- A stream with most of the marks. -/
example : (parse (cs! "---\nm\n---\n\n# a\n\n- b\n\n```c\nd\n```\n{{e|f}}\n!! g\n! h\ni\n!!\n{% j\nk\n%}\n-----")).toOption.any
    (fun ops => (ops.filter (fun op => isLineMark op.kind)).length == 12 &&
      ops.any (fun op => op.kind = .Start .ThematicBreak)) = true := by decide +kernel

/-- **C54.** The three backticks that close a code block and the `}}` that closes an embed are the last
of their line, and so is the `)` that closes an image. -/
theorem C54_closers_end_lines (input : Str) : ∃ ops, parse input = .ok ops ∧
    (∀ op ∈ ops, op.kind = .End .Code → ∃ a b, op.content = .Span a b ∧ LineEnd input (a + 3)) ∧
    (∀ op ∈ ops, op.kind = .End .Embed → ∃ a b, op.content = .Span a b ∧ LineEnd input (a + 2)) ∧
    ∀ l1 d e l2, ops = l1 ++ d :: e :: l2 → d.kind = .End .Destination → e.kind = .End .Image →
      ∃ a b, d.content = .Span a b ∧ LineEnd input b :=
  parse_lineEnds input

/-- All three occur. -/
example : (parse (cs! "```c\nd\n```\n{{e|f}}\n![g](h)\n![i](j)")).toOption.any
    (fun ops => ops.any (fun op => op.kind = .End .Code) && ops.any (fun op => op.kind = .End .Embed) &&
      ((ops.zip ops.tail).filter (fun x => x.1.kind = .End .Destination && x.2.kind = .End .Image)).length == 2) = true := by
  decide +kernel

/-- **C54** does not hold of the other closers: text may stand behind the `!!` of a highlight, behind
the `%}` of a collapsible and behind `-----`, and becomes a paragraph of its own. -/
theorem C54_not_for_all_closers :
    ((parse (cs! "!!\na\n!!b")).toOption.map (List.map Op.kind) =
      some [.Start .Document, .Start .Highlight, .Start .Paragraph, .Value, .End .Paragraph, .End .Highlight,
        .Start .Paragraph, .Value, .End .Paragraph, .End .Document]) ∧
    ((parse (cs! "{%\na\n%}b")).toOption.map (List.map Op.kind) =
      some [.Start .Document, .Start .Collapsible, .Start .Document, .Start .Paragraph, .Value, .End .Paragraph,
        .End .Document, .End .Collapsible, .Start .Paragraph, .Value, .End .Paragraph, .End .Document]) ∧
    (parse (cs! "-----b")).toOption.map (List.map Op.kind) =
      some [.Start .Document, .Start .ThematicBreak, .Value, .End .ThematicBreak,
        .Start .Paragraph, .Value, .End .Paragraph, .End .Document] := by decide +kernel

/-- **C55.** A code block, a highlight or a collapsible has a title (a language) exactly when its
opening line does not end with the opening mark; titles and icons are single values of one line: a line
feed in them was written with a backslash. `segs` are the source tokens of each op. -/
theorem C55_titles (input : Str) : ∃ toks ops segs, lex input = .ok toks ∧ parse input = .ok ops ∧
    Segmentation input toks ops segs ∧
    (∀ l1 s v l2, ops = l1 ++ s :: v :: l2 →
      (s.kind = .Start .Code ∨ s.kind = .Start .Highlight ∨ s.kind = .Start .Collapsible) →
      (v.kind = .Start .Modifier ↔ '\n' ∉ opText input s)) ∧
    ∀ z1 s v z2, ops.zip segs = z1 ++ s :: v :: z2 → (s.1.kind = .Start .Modifier ∨ s.1.kind = .Start .Icon) →
      v.1.kind = .Value ∧ ∀ t ∈ v.2.2, t.kind ≠ .Eol ∧ t.kind ≠ .Terminator ∧
        (t.escaped = false → ∀ s, textOf input t = some s → '\n' ∉ s) := by
  obtain ⟨ops, ss, h1, h2, h3, h4⟩ := parse_titles input
  refine ⟨_, ops, ss, lex_eq input, h1, h2, h3, fun z1 s v z2 hz hk => ?_⟩
  obtain ⟨h5, h6⟩ := h4 z1 s v z2 hz hk
  refine ⟨h5, fun t ht => ?_⟩
  have h7 := h6 t ht
  have hmem : t ∈ tokens input := by
    rw [← h2.covers]
    refine List.mem_flatMap.2 ⟨v.2, ?_, List.mem_append.2 (.inr ht)⟩
    have hv : v ∈ ops.zip ss := by rw [hz]; simp
    exact (List.of_mem_zip hv).2
  refine ⟨?_, ?_, fun he s hs => ?_⟩
  · intro hk; simp [isEolOrTerminator, hk] at h7
  · intro hk; simp [isEolOrTerminator, hk] at h7
  · have := lf_none hmem h7 he
    unfold sliceD at this
    rw [show slice input t.start t.stop = some s from hs] at this
    exact this

/-- With and without titles. -/
example : (parse (cs! "```\nd\n```\n!! g\n! h\ni\n!!\n{%\nk\n%}")).toOption.any
    (fun ops => (ops.zip ops.tail).any (fun x => x.1.kind = .Start .Code && x.2.kind = .Value) &&
      (ops.zip ops.tail).any (fun x => x.1.kind = .Start .Highlight && x.2.kind = .Start .Modifier) &&
      (ops.zip ops.tail).any (fun x => x.1.kind = .Start .Collapsible && x.2.kind = .Start .Document)) = true := by
  decide +kernel

/-- **C56.** Two blocks of a document with nothing between them: the first ends itself (code, embed,
highlight, thematic break, collapsible), or it is a list and the second is a list or a paragraph. Any
other two blocks have a blank line (a Value) between them. -/
theorem C56_blank_line_between (input : Str) : ∃ ops, parse input = .ok ops ∧
    ∀ l1 e s l2 a b, ops = l1 ++ e :: s :: l2 → e.kind = .End a → s.kind = .Start b →
      (openAfter [] ((l1 ++ [e]).map Op.kind)).head? = some .Document → mayFollow a b = true := by
  obtain ⟨segs, ss, hp, -, -, -, hs, -⟩ := parse_layout input
  refine ⟨_, hp, fun l1 e s l2 a b he ha hb ho => ?_⟩
  have hk : kindsOf segs = l1.map Op.kind ++ .End a :: .Start b :: l2.map Op.kind := by
    have := congrArg (List.map Op.kind) he
    rw [List.map_map] at this
    rw [show kindsOf segs = segs.map (Op.kind ∘ Seg.op input) from rfl, this]
    simp [ha, hb]
  rw [hk] at hs
  rw [List.map_append, List.map_cons, List.map_nil, ha] at ho
  exact sepd_split hs ho

/-- Blocks that touch. -/
example : (parse (cs! "-----\n# a\n\nb")).toOption.map (List.map Op.kind) =
    some ([.Start .Document, .Start .ThematicBreak, .Value, .End .ThematicBreak] ++
      [.Start .Paragraph, .Value, .End .Paragraph, .Value, .Start .Paragraph, .Value, .End .Paragraph, .End .Document]) := by
  decide +kernel

/-- **C56**, the exceptions of lists: an item of the other kind directly after a list opens a new list,
an item of a level that is not open any more becomes a paragraph. -/
theorem C56_list_exceptions :
    ((parse (cs! "- a\n - b\n+ c")).toOption.map (List.map Op.kind) =
      some [.Start .Document, .Start .UnorderedList, .Start .ListItem, .Start .Paragraph, .Value, .End .Paragraph,
        .Start .UnorderedList, .Start .ListItem, .Start .Paragraph, .Value, .End .Paragraph, .End .ListItem,
        .End .UnorderedList, .End .ListItem, .End .UnorderedList,
        .Start .OrderedList, .Start .ListItem, .Start .Paragraph, .Value, .End .Paragraph, .End .ListItem,
        .End .OrderedList, .End .Document]) ∧
    (parse (cs! "- a\n - b\n  - c\n + d")).toOption.any (fun ops => (ops.map Op.kind).drop 21 =
      [.End .UnorderedList, .Start .Paragraph, .Value, .End .Paragraph, .End .Document]) = true := by
  decide +kernel

/-- **C57.** A paragraph or heading is exactly as long as it has to be: between its Start `s` and its End
`e` stand the source tokens `entryToks zb`; in front of what follows, text under the nodes open at `s` has
to end (`TextEnds`), and it does not have to end in front of any token of the text. -/
theorem C57_text_extent (input : Str) : ∃ toks ops segs, lex input = .ok toks ∧ parse input = .ok ops ∧
    Segmentation input toks ops segs ∧
    ∀ z1 s zb e z2 n, ops.zip segs = z1 ++ s :: (zb ++ e :: z2) → IsText n → s.1.kind = .Start n → e.1.kind = .End n →
      (∀ x ∈ zb, x.1.kind ≠ .End n) →
      ExactText (openAfter [] (z1.map fun x => x.1.kind)) (entryToks zb) (entryToks (e :: z2)) := by
  obtain ⟨ops, ss, h1, h2, h3⟩ := parse_extent input
  exact ⟨_, ops, ss, lex_eq input, h1, h2, h3⟩

/-- Paragraphs in items of two levels, in a highlight and in a collapsible; a line with the other bullet,
a `!!` and a `%}` where they do not end the text. -/
example : (parse (cs! "- a\n+ b\n - c\n!!\n%}\n\n!!\nd\n!!\n{%\ne\n%}")).toOption.any
    (fun ops => ((ops.map Op.kind).take 11 = [.Start .Document, .Start .UnorderedList, .Start .ListItem, .Start .Paragraph, .Value,
        .End .Paragraph, .Start .UnorderedList, .Start .ListItem, .Start .Paragraph, .Value, .End .Paragraph]) &&
      ops.any (fun op => op.kind = .Start .Highlight) && ops.any (fun op => op.kind = .Start .Collapsible)) = true := by
  decide +kernel

end Yamd.Props
