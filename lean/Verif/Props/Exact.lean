import Verif.Proofs.Exact.Front
import Verif.Props.RoundTrip
import Verif.Props.Steady

/-!
# C72: exactly the safe blocks survive

The conditions under which the properties C29 to C37 promise that a block is read back from its own text are
not only sufficient: a paragraph, heading, image, group of images, code block, embed or thematic break that
violates them is not read back, and neither is such a list (if no plain text in it has two line feeds in a row and no
item ends with a carriage return) or such a highlight (if it has paragraphs, none empty, and they satisfy the same two
conditions, and it has an icon or does not start like one), and neither is a collapsible of such blocks, at any depth, if no body in it
starts with a paragraph of line breaks only. So the conditions describe precisely what `Display` and `deserialize` can carry.
-/

namespace Yamd.Props

open Yamd Yamd.Lexer Yamd.Spec Yamd.Ref Yamd.ToYamd Yamd.Round

theorem display_one_paragraph (p : Paragraph) :
    (one (.paragraph p)).display = escapeLeadingBlockMarker (displayParagraph p) := rfl

/-- **C72.** A document with one such block is read back exactly when the block is safe. -/
theorem C72_exact_block (n : YamdNode) (hn : isSimple n = true) : RoundTrips (one n) ↔ safeBlock false n = true := by
  refine ⟨fun h => ?_, one_reads⟩
  cases n with
  | paragraph p => exact para_exact h
  | heading level b => exact heading_exact h
  | image i => exact image_exact h
  | images l => exact images_exact h
  | code lang code => exact code_exact h
  | embed k a => simp [safeBlock, safeLeaf, noCloseLine]
  | thematicBreak => rfl
  | list l => simp [isSimple] at hn
  | highlight t i ps => simp [isSimple] at hn
  | collapsible t b => simp [isSimple] at hn

theorem safeBlocks_all (l : List YamdNode) : safeBlocks false l = true ↔ ∀ n ∈ l, safeBlock false n = true := by
  induction l with
  | nil => simp [safeBlocks]
  | cons n r ih => rw [safeBlocks, Bool.and_eq_true, ih]; simp

/-- **C72.** A document made of such blocks, of lists in which no plain text has two line feeds in a row and no item ends with
a carriage return, of such highlights (`plainHighlight`), and of collapsibles of all these, nested to any depth, whose bodies do not start
with a paragraph of line breaks only, with or without front matter, is read back exactly when its front matter is
trimmed, has no backslash and no line that starts with exactly three dashes, every block is safe and no block but the last
ends with a line break. -/
theorem C72_exact_document (y : Yamd) (hl : ∀ n ∈ y.body, isPlain n = true) :
    RoundTrips y ↔ (∀ m, y.metadata = some m → trimNl m = m ∧ '\\' ∉ m ∧ startsFence m = false ∧ fenceLine m = false) ∧
      (∀ n ∈ y.body, safeBlock false n = true) ∧ ∀ n ∈ y.body.dropLast, endsClean n = true := by
  have hd : safeDocument y = true ↔ (∀ m, y.metadata = some m → trimNl m = m ∧ '\\' ∉ m ∧ startsFence m = false ∧ fenceLine m = false) ∧
      (∀ n ∈ y.body, safeBlock false n = true) ∧ ∀ n ∈ y.body.dropLast, endsClean n = true := by
    obtain ⟨md, l⟩ := y
    cases md <;> simp [safeDocument, safeMetadata, ← safeBlocks_all, and_assoc]
  rw [← hd]
  exact ⟨full_exact (List.all_eq_true.2 hl), C41_documents_round_trip y⟩

/-- **C72.** Front matter alone. -/
theorem C72_front_matter (m : Str) :
    RoundTrips ⟨some m, []⟩ ↔ trimNl m = m ∧ '\\' ∉ m ∧ startsFence m = false ∧ fenceLine m = false := by
  rw [C72_exact_document _ (by simp)]
  simp

/-- Front matter: a longer run of dashes is read back, a backslash or a line of three dashes is not. -/
example : RoundTrips ⟨some (cs! "a\n----\nb: [x]"), [.thematicBreak]⟩ ∧ ¬ RoundTrips ⟨some (cs! "a: \\"), [.thematicBreak]⟩ ∧
    ¬ RoundTrips ⟨some (cs! "a\n---\nb"), []⟩ := by
  rw [C72_exact_document _ (by decide), C72_exact_document _ (by decide), C72_exact_document _ (by decide)]
  simp only [Option.some.injEq, forall_eq']
  decide +kernel

/-- A list between two blocks. -/
example : RoundTrips ⟨some (cs! "t"), [.heading 1 [.text (cs! "h")], .list (.mk .Ordered 0 [.mk [.text (cs! "a\nb")] (some (.mk .Ordered 1
    [.mk [.text (cs! "c\n+ d")] none])), .mk [.bold [.text (cs! "x")]] none]), .thematicBreak]⟩ :=
  (C72_exact_document _ (by decide)).2 (by simp only [Option.some.injEq, forall_eq']; decide +kernel)

/-- The same paragraph is lost before another block and read back at the end of a document. -/
example : ¬ RoundTrips ⟨none, [.paragraph [.text (cs! "a\n")], .thematicBreak]⟩ ∧
    RoundTrips ⟨none, [.thematicBreak, .paragraph [.text (cs! "a\n")]]⟩ := by
  rw [C72_exact_document _ (by decide), C72_exact_document _ (by decide)]
  decide +kernel

example : RoundTrips ⟨none, [.heading 2 [.text (cs! "t")], .paragraph [.text (cs! "\n\nx")], .code (cs! "rs") (cs! "a\n\nb"), .embed (cs! "k") (cs! "v"),
    .images [⟨cs! "a", cs! "b"⟩, ⟨cs! "c", cs! "d"⟩]]⟩ :=
  (C72_exact_document _ (by decide)).2 (by decide +kernel)

/-- **C72.** One text. -/
theorem C72_text (t : Str) :
    RoundTrips (one (.paragraph [.text t])) ↔ t ≠ [] ∧ leftBlankText t = false ∧ startsHeading t = false := by
  rw [C72_exact_block _ rfl]
  simp [safeBlock, safeLeaf, safeInline, safeNode, safeText, noClash, leadingText, imageLines, and_assoc]

/-- **C72.** Italic: also with an empty body. -/
theorem C72_italic (t : Str) : RoundTrips (one (.paragraph [.italic t])) ↔ PlainBody t := by
  rw [C72_exact_block _ rfl]
  simp [safeBlock, safeLeaf, safeInline, safeNode, safeBody, noCloseLine, noClash, leadingText, imageLines, PlainBody, startsHeading]

/-- **C72.** Emphasis, strikethrough and code span: not with an empty body. -/
theorem C72_span (t : Str) :
    (RoundTrips (one (.paragraph [.emphasis t])) ↔ t ≠ [] ∧ PlainBody t) ∧
    (RoundTrips (one (.paragraph [.strikethrough t])) ↔ t ≠ [] ∧ PlainBody t) ∧
    (RoundTrips (one (.paragraph [.codeSpan t])) ↔ t ≠ [] ∧ PlainBody t) := by
  rw [C72_exact_block _ rfl, C72_exact_block _ rfl, C72_exact_block _ rfl]
  simp [safeBlock, safeLeaf, safeInline, safeNode, safeBody, noCloseLine, noClash, leadingText, imageLines, PlainBody, startsHeading]

/-- **C72.** Anchor. -/
theorem C72_anchor (text url : Str) :
    RoundTrips (one (.paragraph [.anchor ⟨text, url⟩])) ↔ PlainBody text ∧ PlainBody url := by
  rw [C72_exact_block _ rfl]
  simp [safeBlock, safeLeaf, safeInline, safeNode, safeAnchor, safeBody, noCloseLine, noClash, leadingText, imageLines, PlainBody,
    startsHeading]

/-- **C72.** One image, and groups of images: a group of one or none is not read back as a group. -/
theorem C72_images (i : Image) (l : List Image) :
    (RoundTrips (one (.image i)) ↔ PlainBody i.alt ∧ PlainBody i.src) ∧
    (RoundTrips (one (.images l)) ↔ 2 ≤ l.length ∧ ∀ i ∈ l, PlainBody i.alt ∧ PlainBody i.src) := by
  rw [C72_exact_block _ rfl, C72_exact_block _ rfl]
  simp [safeBlock, safeLeaf, safeImage, safeBody, noCloseLine, PlainBody]

/-- **C72.** Code. -/
theorem C72_code (lang code : Str) :
    RoundTrips (one (.code lang code)) ↔
      lang.getLast? ≠ some '\r' ∧ ¬ cs! "\n" <+: code ∧ ¬ cs! "\r\n" <+: code ∧ code ≠ cs! "\r" ∧ code.getLast? ≠ some '\n' := by
  refine ⟨fun h => ?_, fun ⟨h1, h2, h3, h4, h5⟩ => C34_code lang code h1 h2 h3 h4 h5⟩
  rw [C72_exact_block _ rfl] at h
  simp only [safeBlock, safeLeaf, Bool.and_eq_true, Bool.not_eq_true', bne_iff_ne, ne_eq, startsLine, starts, Bool.or_eq_false_iff] at h
  obtain ⟨⟨h1, h2, h3⟩, h4⟩ := h
  have ext : ∀ {a : Str}, a ≠ [] → a <+: code → a <+: code ++ if code.isEmpty then [] else cs! "\n" := fun _ h => h.trans ⟨_, rfl⟩
  refine ⟨h1, fun hp => ?_, fun hp => ?_, ?_, h4⟩
  · have := List.isPrefixOf_iff_prefix.2 (ext (by simp) hp)
    rw [h2] at this; simp at this
  · have := List.isPrefixOf_iff_prefix.2 (ext (by simp) hp)
    rw [h3] at this; simp at this
  · rintro rfl
    revert h3; decide

/-- **C72.** A heading with one text. -/
theorem C72_text_heading (level : Nat) (t : Str) :
    RoundTrips (one (.heading level [.text t])) ↔
      1 ≤ level ∧ level ≤ 6 ∧ t ≠ [] ∧ PlainBody t ∧ readsAnchor false t = false ∧ t.head? ≠ some ' ' := by
  rw [C72_exact_block _ rfl]
  have hs : starts (cs! " ") t = false ↔ t.head? ≠ some ' ' := by
    cases t with
    | nil => simp [starts]
    | cons c t => simp only [starts, List.isPrefixOf, Bool.and_true, beq_eq_false_iff_ne, List.head?_cons, ne_eq, Option.some.injEq]; exact ne_comm
  simp [safeBlock, safeLeaf, safeHeadingNode, safeBody, noCloseLine, noClash, leadingHeadingText, plainHeading, PlainBody, hs, and_assoc]

/-! The two sides on concrete blocks. -/

example : RoundTrips (one (.paragraph [.text (cs! "a\n\nb"), .italic (cs! "c_d")])) :=
  (C72_exact_block _ rfl).2 (by decide +kernel)

example : ¬ RoundTrips (one (.paragraph [.text (cs! "a\n\r\nb")])) := by
  rw [C72_text]; decide +kernel

example : ¬ RoundTrips (one (.paragraph [.text (cs! "## a")])) := by
  rw [C72_text]; decide +kernel

example : ¬ RoundTrips (one (.paragraph [.emphasis []])) := by
  rw [(C72_span _).1]; simp

example : ¬ RoundTrips (one (.code (cs! "rust\r") (cs! "x"))) := by
  rw [C72_code]; decide

/-- **C72.** Every kind of block: when the text of the document needs no backslash and has no carriage return, and the document
has none of the shapes of C52, it is read back exactly when it is safe. -/
theorem C72_plain_document (y : Yamd) (hb : '\\' ∉ y.display) (hr : '\r' ∉ y.display) (hs : steadyDocument y = true) :
    RoundTrips y ↔ safeDocument y = true := by
  refine ⟨fun h => ?_, C41_documents_round_trip y⟩
  have h' : deserialize y.display = .ok y := h
  rw [deserialize_eq] at h'
  have e := Except.ok.inj h'
  have := steady_safe hb hr (by rw [e]; exact hs)
  rwa [e] at this

/-- **C72.** One list. -/
theorem C72_plain_list (l : YList) (hb : '\\' ∉ (one (.list l)).display) (hr : '\r' ∉ (one (.list l)).display) :
    RoundTrips (one (.list l)) ↔ safeBlock false (.list l) = true := by
  rw [C72_plain_document _ hb hr (by simp [steadyDocument, one, steadyBlocks, steadyBlock, steadyLeaf])]
  simp [one, safeDocument, safeMetadata, safeBlocks]

/-- A nested list is read back; a list whose items are at the wrong level is not. -/
example : RoundTrips (one (.list (.mk .Unordered 0 [.mk [.text (cs! "a")] (some (.mk .Ordered 1 [.mk [.text (cs! "b")] none]))]))) ∧
    ¬ RoundTrips (one (.list (.mk .Unordered 0 [.mk [.text (cs! "a")] (some (.mk .Ordered 2 [.mk [.text (cs! "b")] none]))]))) := by
  rw [C72_plain_list _ (by decide +kernel) (by decide +kernel), C72_plain_list _ (by decide +kernel) (by decide +kernel)]
  decide +kernel

/-- A highlight in a collapsible, and a collapsible with a list that starts at level one. -/
example : RoundTrips (one (.collapsible (cs! "t") [.highlight none none [[.text (cs! "a")]]])) ∧
    ¬ RoundTrips (one (.collapsible (cs! "t") [.paragraph [.text (cs! "a")], .thematicBreak, .list (.mk .Ordered 1 [.mk [.text (cs! "a")] none])])) := by
  rw [C72_plain_document _ (by decide +kernel) (by decide +kernel) (by decide +kernel),
    C72_plain_document _ (by decide +kernel) (by decide +kernel) (by decide +kernel)]
  decide +kernel

/-- **C72.** One list: it is read back exactly when it has the levels `deserialize` produces and its texts are safe. -/
theorem C72_exact_list (l : YList) (h : plainList l = true) :
    RoundTrips (one (.list l)) ↔ levelsOk 0 l = true ∧ safeList ⟨false⟩ [] l = true := by
  rw [C72_exact_document _ (by simp [one, isPlain, h])]
  simp [one, safeBlock, safeLeaf]

/-- **C72.** An item of one line is read back exactly when it is not empty and does not start with a space. -/
theorem C72_item_line (ty : ListTypes) (s : Str) (hn : '\n' ∉ s) (hr : '\r' ∉ s) :
    RoundTrips (one (.list (.mk ty 0 [.mk [.text s] none]))) ↔ s ≠ [] ∧ s.head? ≠ some ' ' := by
  have hb : occurs (cs! "\n\n") s = false := Ref.occurs_char (c := '\n') (by simp) hn
  have hb2 : leftBlankText s = false := leftBlankText_of (fun h => hn (h.subset (by simp)))
  have hl : ∀ c, c ∉ s → s.getLast? ≠ some c := fun c hc e => hc (List.mem_of_getLast? e)
  have hs : starts (cs! " ") s = false ↔ s.head? ≠ some ' ' := by
    cases s with
    | nil => simp [starts]
    | cons c t => simp only [starts, List.isPrefixOf, Bool.and_true, beq_eq_false_iff_ne, List.head?_cons, ne_eq, Option.some.injEq]; exact ne_comm
  rw [C72_exact_list _ (by simp [plainList, plainItems, plainItem, noBlankText, trailingText, hb, hl _ hr])]
  simp [levelsOk, itemsLevelsOk, itemLevelsOk, safeList, safeListItems, safeListItem, safeItemText, safeInline, safeNode, safeText, hb2, noClash,
    leadingText, trailingText, endsLine, hl _ hn, hl _ hr, inlineStrings, noItem_noNl hn, hs]

/-- A line of the text that would start a nested item is not read back as text; one that is indented deeper, or that starts with the
marker of the list itself (which `Display` escapes), is. -/
example : ¬ RoundTrips (one (.list (.mk .Unordered 0 [.mk [.text (cs! "a\n + b")] none]))) ∧
    RoundTrips (one (.list (.mk .Unordered 0 [.mk [.text (cs! "a\n  + b\n- c\\")] none]))) := by
  rw [C72_exact_list _ (by decide), C72_exact_list _ (by decide)]
  decide +kernel

/-- Without the conditions on the list the equivalence does not hold: this item survives although the safe class excludes texts that end
with a carriage return. -/
theorem C72_not_for_lists :
    RoundTrips (one (.list (.mk .Unordered 0 [.mk [.text (cs! "a\r")] none]))) ∧
      safeBlock false (.list (.mk .Unordered 0 [.mk [.text (cs! "a\r")] none])) = false := by decide +kernel

/-- **C72.** One highlight: it is read back exactly when its title and icon are single lines that do not start with a space or end with a
carriage return, and its paragraphs are safe and the first does not start with a line break. -/
theorem C72_exact_highlight (title icon : Option Str) (ps : List Paragraph) (h : plainHighlight icon ps = true) :
    RoundTrips (one (.highlight title icon ps)) ↔
      (∀ t, title = some t ∨ icon = some t → '\n' ∉ t ∧ t.head? ≠ some ' ' ∧ t.getLast? ≠ some '\r') ∧
        (∀ p ∈ ps, safeHighlightParagraph ⟨false⟩ p = true) ∧ startsLine (leadingText (ps.head?.getD [])) = false := by
  have hl : ∀ s, safeLine s = true ↔ '\n' ∉ s ∧ s.head? ≠ some ' ' ∧ s.getLast? ≠ some '\r' := by
    intro s
    have hs : starts (cs! " ") s = false ↔ s.head? ≠ some ' ' := by
      cases s with
      | nil => simp [starts]
      | cons c t => simp only [starts, List.isPrefixOf, Bool.and_true, beq_eq_false_iff_ne, List.head?_cons, ne_eq, Option.some.injEq]; exact ne_comm
    simp [safeLine, hs, and_assoc]
  rw [C72_exact_document _ (by simp [one, isPlain, h])]
  simp only [plainHighlight, Bool.and_eq_true, Bool.not_eq_true'] at h
  obtain ⟨⟨h1, -⟩, h2⟩ := h
  have two : ∀ {P : Str → Prop} {a b : Str}, (∀ t, a = t ∨ b = t → P t) ↔ P a ∧ P b := fun {P a b} =>
    ⟨fun h => ⟨h a (.inl rfl), h b (.inr rfl)⟩, fun h t ht => by rcases ht with rfl | rfl; exacts [h.1, h.2]⟩
  cases title <;> cases icon <;> simp_all [one, safeBlock, safeLeaf, and_assoc]

/-- **C72.** A highlight with one line of text. -/
theorem C72_highlight_line (title icon : Option Str) (s : Str) (h0 : s ≠ []) (hn : '\n' ∉ s) (hr : '\r' ∉ s)
    (hi : icon ≠ none ∨ ¬ cs! "! " <+: s) :
    RoundTrips (one (.highlight title icon [[.text s]])) ↔
      ∀ t, title = some t ∨ icon = some t → '\n' ∉ t ∧ t.head? ≠ some ' ' ∧ t.getLast? ≠ some '\r' := by
  have hb : occurs (cs! "\n\n") s = false := Ref.occurs_char (c := '\n') (by simp) hn
  have hb2 : leftBlankText s = false := leftBlankText_of (fun h => hn (h.subset (by simp)))
  have hl : ∀ c, c ∉ s → s.getLast? ≠ some c := fun c hc e => hc (List.mem_of_getLast? e)
  have hst : startsLine s = false := by
    cases hs : startsLine s with
    | false => rfl
    | true =>
      simp only [startsLine, starts, Bool.or_eq_true, List.isPrefixOf_iff_prefix] at hs
      rcases hs with h | h
      · exact absurd (h.subset (by simp)) hn
      · exact absurd (h.subset (by simp)) hn
  have hi' : (icon.isSome || !starts (cs! "! ") s) = true := by
    rcases hi with h | h
    · cases icon with
      | none => exact absurd rfl h
      | some i => rfl
    · have : starts (cs! "! ") s = false := by
        cases hs : starts (cs! "! ") s with
        | false => rfl
        | true => exact absurd (List.isPrefixOf_iff_prefix.1 hs) h
      rw [this]; simp
  rw [C72_exact_highlight _ _ _ (by simp [plainHighlight, noBlankText, trailingText, leadingText, hb, hl _ hr, hi'])]
  simp [safeHighlightParagraph, safeInline, safeNode, safeText, hb2, noClash, leadingText, trailingText, endsLine, hl _ hn, hl _ hr, h0, hst]

/-- A title of two lines is lost, and so is an icon that starts with a space; other markers in title, icon and text survive. -/
example : ¬ RoundTrips (one (.highlight (some (cs! "a\nb")) none [[.text (cs! "x")]])) ∧
    ¬ RoundTrips (one (.highlight none (some (cs! " i")) [[.text (cs! "x")]])) ∧
    RoundTrips (one (.highlight (some (cs! "*a*!!")) (some (cs! "! i\\")) [[.text (cs! "! !! {% x")]])) := by
  rw [C72_highlight_line _ _ _ (by simp) (by decide) (by decide) (by decide), C72_highlight_line _ _ _ (by simp) (by decide) (by decide) (by decide),
    C72_highlight_line _ _ _ (by simp) (by decide) (by decide) (by decide)]
  refine ⟨fun h => ?_, fun h => ?_, ?_⟩
  · exact (h _ (.inl rfl)).1 (by decide)
  · exact (h _ (.inr rfl)).2.1 rfl
  · rintro t (h | h) <;> (obtain rfl := Option.some.inj h; decide)

/-- A paragraph that is safe but for its last line feed is lost; several paragraphs with inline content survive. -/
example : ¬ RoundTrips (one (.highlight none none [[.text (cs! "a\n")], [.text (cs! "b")]])) ∧
    RoundTrips (one (.highlight none none [[.text (cs! "a\n!!\nb "), .bold [.text (cs! "c"), .italic (cs! "d")]], [.codeSpan (cs! "e\n\nf")]])) := by
  rw [C72_exact_highlight _ _ _ (by decide), C72_exact_highlight _ _ _ (by decide)]
  simp only [reduceCtorEq, or_self, false_imp_iff, implies_true, true_and]
  decide +kernel

/-- The conditions on the highlight are needed: these four survive although the safe class excludes them. -/
theorem C72_not_for_highlights :
    ∀ n ∈ ([.highlight none none [[.text (cs! "a\r")]], .highlight none none [[.text (cs! "!  a")]], .highlight (some (cs! "t")) none [],
      .highlight none none [[.text (cs! "a")], []]] : List YamdNode), RoundTrips (one n) ∧ safeBlock false n = false := by decide +kernel

theorem safeBlocks_mem (c : Bool) (l : List YamdNode) : safeBlocks c l = true ↔ ∀ n ∈ l, safeBlock c n = true := by
  induction l with
  | nil => simp [safeBlocks]
  | cons n r ih => rw [safeBlocks, Bool.and_eq_true, ih]; simp

/-- **C72.** One collapsible, with any blocks in it: it is read back exactly when its title is a single line that does not start with a
space or end with a carriage return, its blocks are safe inside a collapsible, none of them ends with a line break, and the first does
not start with one. -/
theorem C72_exact_collapsible (t : Str) (b : List YamdNode) (hb : ∀ n ∈ b, isPlain n = true) :
    RoundTrips (one (.collapsible t b)) ↔
      ('\n' ∉ t ∧ t.head? ≠ some ' ' ∧ t.getLast? ≠ some '\r') ∧ (∀ n ∈ b, safeBlock true n = true ∧ endsClean n = true) ∧
        ∀ n ∈ b.head?, startsClean n = true := by
  have hs : starts (cs! " ") t = false ↔ t.head? ≠ some ' ' := by
    cases t with
    | nil => simp [starts]
    | cons c t => simp only [starts, List.isPrefixOf, Bool.and_true, beq_eq_false_iff_ne, List.head?_cons, ne_eq, Option.some.injEq]; exact ne_comm
  have hl : safeLine t = true ↔ '\n' ∉ t ∧ t.head? ≠ some ' ' ∧ t.getLast? ≠ some '\r' := by simp [safeLine, hs, and_assoc]
  have hp : isPlain (.collapsible t b) = true := by
    rw [isPlain, plainBlocks_all, List.all_eq_true.2 hb]
  rw [C72_exact_document _ (by simp [one, hp])]
  rw [← hl]
  cases b with
  | nil => simp [one, safeBlock, safeBlocks]
  | cons n b =>
    simp only [one, safeBlock, Bool.and_eq_true, safeBlocks_mem, List.all_eq_true]
    simp only [List.mem_singleton, forall_eq, List.head?_cons, Option.mem_some_iff, forall_eq', Bool.and_eq_true, safeBlocks_mem,
      List.all_eq_true, safeBlock]
    simp
    constructor
    · rintro ⟨⟨⟨h1, h2, h3⟩, h4, h5⟩, h6⟩
      exact ⟨h1, ⟨⟨h2, h4⟩, fun x hx => ⟨h3 x hx, h5 x hx⟩⟩, h6⟩
    · rintro ⟨h1, ⟨⟨h2, h4⟩, h5⟩, h6⟩
      exact ⟨⟨⟨h1, h2, fun x hx => (h5 x hx).1⟩, h4, fun x hx => (h5 x hx).2⟩, h6⟩

/-- Collapsibles in collapsibles: with a closing line in a code span, which ends the inner one, the document is lost; with the
closing line in a text, which `Display` escapes, it is read back. -/
example : ¬ RoundTrips (one (.collapsible (cs! "t") [.collapsible (cs! "u") [.paragraph [.codeSpan (cs! "a\n%}")]], .thematicBreak])) ∧
    RoundTrips (one (.collapsible (cs! "t") [.collapsible (cs! "u %}") [.paragraph [.text (cs! "a\n%}")], .list (.mk .Ordered 0
      [.mk [.text (cs! "x")] none])], .highlight none none [[.text (cs! "b")]]])) := by
  rw [C72_exact_document _ (by decide +kernel), C72_exact_document _ (by decide +kernel)]
  decide +kernel

/-- A title of two lines, a body that starts with a line break, a block that ends with one: each is lost. -/
example : ¬ RoundTrips (one (.collapsible (cs! "a\nb") [.thematicBreak])) ∧ ¬ RoundTrips (one (.collapsible (cs! "a") [.paragraph [.text (cs! "\nb")]])) ∧
    ¬ RoundTrips (one (.collapsible (cs! "a") [.paragraph [.text (cs! "b\n")], .thematicBreak])) ∧
    RoundTrips (one (.collapsible [] [])) := by
  rw [C72_exact_collapsible _ _ (by decide +kernel), C72_exact_collapsible _ _ (by decide +kernel),
    C72_exact_collapsible _ _ (by decide +kernel), C72_exact_collapsible _ _ (by simp)]
  decide +kernel

end Yamd.Props
