import Verif.Proofs.Round.Plain
import Verif.Props.Doc
import Verif.Proofs.HeadPlain

/-!
# Round trips C26, C27, C29-C42

`y.display` is the modelled `y.to_string()`, `deserialize` the modelled `yamd::deserialize`. The class of
documents for which the round trip is claimed is in `Spec/RoundTrip.lean`; the first theorems spell its
conditions out for the single nodes.
-/

namespace Yamd.Props

open Yamd Yamd.Lexer Yamd.Spec Yamd.Ref Yamd.ToYamd Yamd.Round

/-- A document with one block. -/
def one (n : YamdNode) : Yamd := ⟨none, [n]⟩

/-- The document is read back from its text. -/
def RoundTrips (y : Yamd) : Prop := deserialize y.display = .ok y

instance (y : Yamd) : Decidable (RoundTrips y) := inferInstanceAs (Decidable (_ = _))

/-! ### Escaping and plain text -/

/-- **C26.** A backslash before every character makes any non-empty text one paragraph of that text. -/
theorem C26_escape_everything (s : Str) (hs : s ≠ []) :
    deserialize (s.flatMap (fun c => ['\\', c])) = .ok ⟨none, [.paragraph [.text s]]⟩ := escaped_reads hs

/-- **C27.** A non-empty text without blank lines, backslashes and the characters that open a construct
is one paragraph of that text. -/
theorem C27_plain_text (s : Str) (hs : s ≠ []) (hc : ∀ c ∈ cs! "\\~*{-#!`+[_", c ∉ s)
    (h1 : ¬ cs! "\n\n" <:+: s) (h2 : ¬ cs! "\n\r\n" <:+: s) :
    deserialize s = .ok ⟨none, [.paragraph [.text s]]⟩ :=
  plain_text_reads hs (hc _ (by simp)) (fun c h => hc c (by revert h; simp [openers]; tauto)) h1 h2

/-! ### Whole documents -/

/-- **C41.** Every safe document is read back from its text. -/
theorem C41_documents_round_trip (y : Yamd) (h : safeDocument y = true) : deserialize y.display = .ok y :=
  document_reads h

/-- Front matter with a line of four dashes, and text that ends and starts with an escaped blank line, are safe. -/
example : safeDocument ⟨some (cs! "a\n----\nb"), [.paragraph [.text (cs! "x\n\n")], .collapsible (cs! "t") [.paragraph [.text (cs! "\n\ny")]]]⟩ = true := by
  decide +kernel

/-- **C42.** For a safe document, serializing, reading and serializing again gives the same text. -/
theorem C42_serialization_is_stable (y : Yamd) (h : safeDocument y = true) :
    ∃ y', deserialize y.display = .ok y' ∧ y'.display = y.display :=
  ⟨y, document_reads h, rfl⟩

/-- **C42.** Different safe documents have different texts. -/
theorem C42_text_determines_document (y y' : Yamd) (h : safeDocument y = true) (h' : safeDocument y' = true)
    (e : y.display = y'.display) : y = y' := by
  have h1 := document_reads h
  rw [e, document_reads h'] at h1
  exact (Except.ok.inj h1).symm

theorem one_reads {n : YamdNode} (h : safeBlock false n = true) : RoundTrips (one n) :=
  document_reads (by simp [safeDocument, one, safeBlocks, h])

/-! ### Single nodes -/

/-- A body an inline node can hold: no blank line is left after the escaping of the first of each two line feeds. -/
def PlainBody (t : Str) : Prop := leftBlank t = false

instance (t : Str) : Decidable (PlainBody t) := inferInstanceAs (Decidable (_ = _))

/-- That is so without two blank lines in a row and without a blank line with a carriage return. -/
theorem plainBody_of {t : Str} (h1 : ¬ cs! "\n\n\n" <:+: t) (h2 : ¬ cs! "\n\r\n" <:+: t) : PlainBody t :=
  Round.leftBlank_of h1 h2

theorem plainBody_safe {t : Str} (h : PlainBody t) : safeBody ⟨false⟩ t = true := by
  unfold PlainBody at h
  simp [safeBody, noCloseLine, h]

theorem one_node_reads {n : ParagraphNode} (h : safeNode ⟨false⟩ n = true) (ht : ∀ s, n ≠ .text s) :
    RoundTrips (one (.paragraph [n])) := by
  refine one_reads ?_
  have h1 : leadingText [n] = [] := by cases n <;> first | rfl | exact absurd rfl (ht _)
  have h2 : imageLines [n] = false := by cases n <;> rfl
  simp only [safeBlock, safeLeaf, safeInline, List.all_cons, h, List.all_nil, h1, h2]
  rfl

/-- **C29.** Italic. -/
theorem C29_italic (t : Str) (h : PlainBody t) : RoundTrips (one (.paragraph [.italic t])) :=
  one_node_reads (plainBody_safe h) (by simp)
/-- **C29.** Emphasis. -/
theorem C29_emphasis (t : Str) (hne : t ≠ []) (h : PlainBody t) : RoundTrips (one (.paragraph [.emphasis t])) :=
  one_node_reads (by simp [safeNode, hne, plainBody_safe h]) (by simp)
/-- **C29.** Strikethrough. -/
theorem C29_strikethrough (t : Str) (hne : t ≠ []) (h : PlainBody t) : RoundTrips (one (.paragraph [.strikethrough t])) :=
  one_node_reads (by simp [safeNode, hne, plainBody_safe h]) (by simp)
/-- **C29.** Code span. -/
theorem C29_code_span (t : Str) (hne : t ≠ []) (h : PlainBody t) : RoundTrips (one (.paragraph [.codeSpan t])) :=
  one_node_reads (by simp [safeNode, hne, plainBody_safe h]) (by simp)

/-- **C30.** Anchor, for any text and any url, also with parentheses and brackets in them. -/
theorem C30_anchor (text url : Str) (h : PlainBody text) (h' : PlainBody url) :
    RoundTrips (one (.paragraph [.anchor ⟨text, url⟩])) :=
  one_node_reads (by simp [safeNode, safeAnchor, plainBody_safe h, plainBody_safe h']) (by simp)

/-- The body of a child of a bold. -/
def boldText : BoldNode → Str
  | .text s => s
  | .italic s => s
  | .strikethrough s => s

/-- **C31.** Bold: any non-empty sequence of children with non-empty bodies, no two texts and no two
strikethroughs next to each other. -/
theorem C31_bold (l : List BoldNode) (hne : l ≠ [])
    (h : ∀ n ∈ l, PlainBody (boldText n) ∧ ((∃ s, n = .italic s) ∨ boldText n ≠ []))
    (ht : NoTwoAdjacent (fun n => n matches .text _) l) (hs : NoTwoAdjacent (fun n => n matches .strikethrough _) l) :
    RoundTrips (one (.paragraph [.bold l])) := by
  refine one_node_reads ?_ (by simp)
  have h1 : l.all (safeBoldNode ⟨false⟩) = true := by
    rw [List.all_eq_true]
    intro n hn
    obtain ⟨h1, h2⟩ := h n hn
    have := plainBody_safe h1
    cases n with
    | text s =>
      rcases h2 with ⟨s, h⟩ | h2
      · cases h
      · simp only [boldText] at h2 this; simp [safeBoldNode, h2, this]
    | italic s => exact this
    | strikethrough s =>
      rcases h2 with ⟨s, h⟩ | h2
      · cases h
      · simp only [boldText] at h2 this; simp [safeBoldNode, h2, this]
  have h2 : ∀ l : List BoldNode, NoTwoAdjacent (fun n => n matches .text _) l →
      NoTwoAdjacent (fun n => n matches .strikethrough _) l → noClash clashB l = true := by
    intro l
    induction l with
    | nil => intro _ _; rfl
    | cons a l ih =>
      intro ht hs
      cases l with
      | nil => rfl
      | cons b l =>
        rw [noClash, Bool.and_eq_true]
        refine ⟨?_, ih (fun l1 a' b' l2 e => ht (a :: l1) a' b' l2 (by rw [e]; rfl))
          (fun l1 a' b' l2 e => hs (a :: l1) a' b' l2 (by rw [e]; rfl))⟩
        have h1 := ht [] a b l rfl
        have h2 := hs [] a b l rfl
        cases a <;> cases b <;> simp_all [clashB]
  simp [safeNode, hne, h1, h2 l ht hs]

/-- **C32.** One text: any characters, except that no blank line with a carriage return may be left and the text
may not start with two to six hashes and one space. -/
theorem C32_text (t : Str) (hne : t ≠ []) (h : leftBlankText t = false) (hh : startsHeading t = false) :
    RoundTrips (one (.paragraph [.text t])) := by
  refine one_reads ?_
  simp [safeBlock, safeLeaf, safeInline, safeNode, safeText, noClash, leadingText, imageLines, hne, h, hh]

/-- **C33.** Headings of every level 1 to 6. -/
theorem C33_heading (level : Nat) (body : List HeadingNode) (h1 : 1 ≤ level) (h6 : level ≤ 6)
    (hb : ∀ n ∈ body, safeHeadingNode ⟨false⟩ n = true) (hp : plainHeading body = true) (hc : noClash clashH body = true)
    (hs : starts (cs! " ") (leadingHeadingText body) = false) : RoundTrips (one (.heading level body)) := by
  refine one_reads ?_
  have hb' : body.all (safeHeadingNode ⟨false⟩) = true := List.all_eq_true.2 hb
  simp [safeBlock, safeLeaf, h1, h6, hb', hp, hc, hs]

/-- **C33.** A heading with one text in which no `[` is followed by a first `]`, directly by `(`, and
later by a `)`. -/
theorem C33_bracket_heading (level : Nat) (t : Str) (h1 : 1 ≤ level) (h6 : level ≤ 6) (hne : t ≠ []) (hb : PlainBody t)
    (hs : t.head? ≠ some ' ')
    (hbr : ¬ ∃ x y u v, t = x ++ '[' :: (y ++ ']' :: '(' :: (u ++ ')' :: v)) ∧ ']' ∉ y) :
    RoundTrips (one (.heading level [.text t])) := by
  refine C33_heading level _ h1 h6 ?_ ?_ rfl ?_
  · simp [safeHeadingNode, hne, plainBody_safe hb]
  · simp only [plainHeading, List.isEmpty_nil, Bool.not_true, Bool.and_true, Bool.not_eq_true']
    rw [Bool.eq_false_iff]
    intro hr
    obtain ⟨x, y, rfl, hc⟩ := Ref.readsAnchor_split hr
    apply hbr
    unfold closesAnchor at hc
    rcases Ref.closing_cases y with ⟨-, hd⟩ | ⟨a, q, rfl, h1, hd⟩
    · rw [hd] at hc; simp at hc
    · rw [hd] at hc
      cases q with
      | nil => simp at hc
      | cons z q =>
        simp only [Bool.and_eq_true, Bool.false_or, beq_iff_eq, List.contains_iff_mem] at hc
        obtain ⟨rfl, hm⟩ := hc
        obtain ⟨u, v, rfl⟩ := List.append_of_mem hm
        exact ⟨x, a, u, v, by simp, h1⟩
  · cases t with
    | nil => exact absurd rfl hne
    | cons c t =>
      simp only [List.head?_cons, ne_eq, Option.some.injEq] at hs
      simp [leadingHeadingText, starts, List.isPrefixOf, Ne.symm hs]

/-- **C33.** A heading with one text without `[`. -/
theorem C33_text_heading (level : Nat) (t : Str) (h1 : 1 ≤ level) (h6 : level ≤ 6) (hne : t ≠ []) (hb : PlainBody t)
    (hs : t.head? ≠ some ' ') (hbr : '[' ∉ t) : RoundTrips (one (.heading level [.text t])) := by
  refine C33_bracket_heading level t h1 h6 hne hb hs ?_
  rintro ⟨x, y, u, v, rfl, -⟩
  simp at hbr

/-- The condition on brackets is needed: `Display` does not escape `[` in a heading, and the text is
read back as an anchor. -/
theorem C33_bracket_counterexample :
    (one (.heading 1 [.text (cs! "[a](b)")])).display = cs! "# [a](b)" ∧
    deserialize (cs! "# [a](b)") = .ok ⟨none, [.heading 1 [.anchor ⟨cs! "a", cs! "b"⟩]]⟩ := by decide +kernel

example : RoundTrips (one (.heading 2 [.text (cs! "see [1] and [x] (y) or ](z)")])) := by
  refine C33_heading 2 _ (by decide) (by decide) ?_ (by decide +kernel) rfl (by decide +kernel)
  intro n hn
  simp only [List.mem_singleton] at hn
  subst hn
  decide +kernel

/-- **C34.** Code: any language not ending with a carriage return; any code that does not start with a
line break, end with a line feed or consist of one carriage return. -/
theorem C34_code (lang code : Str) (hl : lang.getLast? ≠ some '\r') (h1 : ¬ cs! "\n" <+: code) (h2 : ¬ cs! "\r\n" <+: code)
    (h3 : code ≠ cs! "\r") (h4 : code.getLast? ≠ some '\n') : RoundTrips (one (.code lang code)) := by
  refine one_reads ?_
  have hs : startsLine (code ++ if code.isEmpty then [] else cs! "\n") = false := by
    simp only [startsLine, starts, Bool.or_eq_false_iff]
    match code with
    | [] => exact ⟨rfl, rfl⟩
    | [c] =>
      have hc1 : c ≠ '\n' := fun e => h1 (by rw [e]; exact List.prefix_refl _)
      have hc2 : c ≠ '\r' := fun e => h3 (by rw [e])
      simp [List.isPrefixOf, Ne.symm hc1, Ne.symm hc2]
    | c :: d :: r =>
      constructor
      · have : c ≠ '\n' := fun e => h1 (by rw [e]; exact ⟨d :: r, rfl⟩)
        simp [List.isPrefixOf, Ne.symm this]
      · rw [Bool.eq_false_iff]
        intro hp
        simp only [List.isEmpty_cons, Bool.false_eq_true, if_false, List.cons_append, List.isPrefixOf, Bool.and_eq_true,
          beq_iff_eq] at hp
        exact h2 ⟨r, by rw [← hp.1, ← hp.2.1]; rfl⟩
  simp only [safeBlock, safeLeaf, hs]
  simp [hl, h4]

/-- **C35.** One image. -/
theorem C35_image (alt src : Str) (h : PlainBody alt) (h' : PlainBody src) : RoundTrips (one (.image ⟨alt, src⟩)) :=
  one_reads (by simp [safeBlock, safeLeaf, safeImage, plainBody_safe h, plainBody_safe h'])

/-- **C35.** A group of two or more images. -/
theorem C35_images (l : List Image) (h2 : 2 ≤ l.length) (h : ∀ i ∈ l, PlainBody i.alt ∧ PlainBody i.src) :
    RoundTrips (one (.images l)) := by
  refine one_reads ?_
  have : l.all (safeImage ⟨false⟩) = true := by
    rw [List.all_eq_true]
    intro i hi
    simp [safeImage, plainBody_safe (h i hi).1, plainBody_safe (h i hi).2]
  simp [safeBlock, safeLeaf, h2, this]

/-- **C36.** Embeds: every kind and every args whatsoever. -/
theorem C36_embed (kind args : Str) : RoundTrips (one (.embed kind args)) :=
  one_reads (by simp [safeBlock, safeLeaf, noCloseLine])

/-- **C37.** A thematic break, alone and between the blocks of any safe documents. -/
theorem C37_thematic_break (m : Option Str) (before after : List YamdNode) (h : safeDocument ⟨m, before⟩ = true)
    (hb : before.all endsClean = true) (h' : safeDocument ⟨none, after⟩ = true) :
    RoundTrips ⟨m, before ++ .thematicBreak :: after⟩ := by
  refine document_reads ?_
  have app : ∀ a b, safeBlocks false (a ++ b) = (safeBlocks false a && safeBlocks false b) := by
    intro a b
    induction a with
    | nil => simp [safeBlocks]
    | cons x a ih => simp [safeBlocks, ih, Bool.and_assoc]
  simp only [safeDocument, Bool.and_eq_true] at h h' ⊢
  refine ⟨⟨h.1.1, ?_⟩, ?_⟩
  · rw [app, h.1.2]
    simp [safeBlocks, safeBlock, safeLeaf, h'.1.2]
  · rw [List.dropLast_append_of_ne_nil (by simp), List.all_append, hb]
    cases after with
    | nil => rfl
    | cons x l =>
      rw [List.dropLast_cons_of_ne_nil (by simp), List.all_cons, h'.2]; rfl

/-- **C38.** Highlights. -/
theorem C38_highlight (title icon : Option Str) (ps : List Paragraph)
    (ht : ∀ t, title = some t → safeLine t = true) (hi : ∀ i, icon = some i → safeLine i = true)
    (hn : icon = none → starts (cs! "! ") (leadingText (ps.head?.getD [])) = false)
    (hne : ps ≠ []) (hp : ∀ p ∈ ps, safeHighlightParagraph ⟨false⟩ p = true)
    (hs : startsLine (leadingText (ps.head?.getD [])) = false) : RoundTrips (one (.highlight title icon ps)) := by
  refine one_reads ?_
  have hp' : ps.all (safeHighlightParagraph ⟨false⟩) = true := List.all_eq_true.2 hp
  cases title <;> cases icon <;> simp_all [safeBlock, safeLeaf]

/-- **C39.** Lists of any depth and width. -/
theorem C39_list (l : YList) (hl : levelsOk 0 l = true) (ht : safeList ⟨false⟩ [] l = true) :
    RoundTrips (one (.list l)) := by
  refine one_reads ?_
  simp [safeBlock, safeLeaf, hl, ht]

/-- **C39.** A list without nested lists whose items are one text each: any text that does not start with
a space, does not end with a line break, has no blank line left with a carriage return, and no line that starts
with one space, a marker and one space. Lines that start with a marker are allowed, `Display` escapes them. -/
theorem C39_flat_list (ty : ListTypes) (texts : List Str) (hne : texts ≠ [])
    (h : ∀ t ∈ texts, t ≠ [] ∧ t.head? ≠ some ' ' ∧ t.getLast? ≠ some '\n' ∧ t.getLast? ≠ some '\r' ∧ leftBlankText t = false ∧
      ¬ ∃ u m y, t = u ++ '\n' :: ' ' :: m :: ' ' :: y ∧ (m = '-' ∨ m = '+') ∧ y.head? ≠ some ' ') :
    RoundTrips (one (.list (.mk ty 0 (texts.map (fun t => .mk [.text t] none))))) := by
  refine C39_list _ ?_ ?_
  · have : ∀ l : List Str, itemsLevelsOk 0 (l.map (fun t => YItem.mk [.text t] none)) = true := by
      intro l
      induction l with
      | nil => rfl
      | cons t l ih => simp [itemsLevelsOk, itemLevelsOk, ih]
    simp [levelsOk, this, hne]
  · have key : ∀ l : List Str, (∀ t ∈ l, safeItemText ⟨false⟩ ⟨0, ty.marker, [ty.marker]⟩ [.text t] = true) →
        safeListItems ⟨false⟩ ⟨0, ty.marker, [ty.marker]⟩ (l.map (fun t => YItem.mk [.text t] none)) = true := by
      intro l hl
      induction l with
      | nil => rfl
      | cons t l ih =>
        simp only [List.map_cons, safeListItems, safeListItem, Bool.and_eq_true]
        exact ⟨hl t (by simp), ih (fun t ht => hl t (by simp [ht]))⟩
    simp only [safeList, List.nil_append]
    refine key texts (fun t ht => ?_)
    obtain ⟨h1, h2, h3, h4, h5, h6⟩ := h t ht
    have hno : noItemLine ⟨0, ty.marker, [ty.marker]⟩ t = true := by
      rw [Round.noItemLine_iff]
      rintro u r rfl
      cases hs : startsItem ⟨0, ty.marker, [ty.marker]⟩ r with
      | false => rfl
      | true =>
        obtain ⟨n, m, y, rfl, a1, a2, a3, a4, a5⟩ := Round.startsItem_iff.1 hs
        simp only [List.mem_singleton, not_and, Nat.zero_add] at a2 a3 a4
        match n, a2, a3, a4 with
        | 0, _, a3, a4 => exact absurd (a3 rfl) (a4 rfl)
        | 1, _, _, _ => exact absurd ⟨u, m, y, by simp, a1, a5⟩ h6
    have hsp : starts (cs! " ") t = false := by
      rw [Bool.eq_false_iff]
      intro e
      apply h2
      cases t with
      | nil => exact absurd rfl h1
      | cons c t => simp [starts, List.isPrefixOf] at e; simp [← e]
    simp [safeItemText, safeInline, safeNode, safeText, noClash, leadingText, trailingText, endsLine, inlineStrings, hno, h1, h3, h4, h5, hsp]

/-- **C40.** Collapsibles of any nesting. -/
theorem C40_collapsible (title : Str) (body : List YamdNode) (ht : safeLine title = true)
    (hb : safeBlocks true body = true) (he : ∀ n ∈ body, endsClean n = true)
    (hs : ∀ n, body.head? = some n → startsClean n = true) : RoundTrips (one (.collapsible title body)) := by
  refine one_reads ?_
  have he' : body.all endsClean = true := List.all_eq_true.2 he
  cases body with
  | nil => simp [safeBlock, ht, hb]
  | cons n r =>
    have := hs n rfl
    simp only [safeBlock, ht, hb, he', this]
    rfl

/-! ### The round trip fails outside the class -/

/-- One document for every condition of the class: it breaks that condition only. -/
def unsafeDocuments : List Yamd :=
  [
    -- heading like text
    one (.paragraph [.text (cs! "## x")]),
    -- CRLF blank in text
    one (.paragraph [.text (cs! "a\n\r\nb")]),
    -- triple lf italic
    one (.paragraph [.italic (cs! "a\n\n\nb")]),
    -- crlf blank italic
    one (.paragraph [.italic (cs! "a\n\r\nb")]),
    -- empty text
    one (.paragraph [.text []]),
    -- empty para
    one (.paragraph []),
    -- empty emphasis
    one (.paragraph [.emphasis []]),
    -- empty strike
    one (.paragraph [.strikethrough []]),
    -- empty code
    one (.paragraph [.codeSpan []]),
    -- empty bold
    one (.paragraph [.bold []]),
    -- bold empty text
    one (.paragraph [.bold [.text []]]),
    -- two texts
    one (.paragraph [.text (cs! "a"), .text (cs! "b")]),
    -- two strikes
    one (.paragraph [.strikethrough (cs! "a"), .strikethrough (cs! "b")]),
    -- two codes
    one (.paragraph [.codeSpan (cs! "a"), .codeSpan (cs! "b")]),
    -- two emph
    one (.paragraph [.emphasis (cs! "a"), .emphasis (cs! "b")]),
    -- emph bold
    one (.paragraph [.emphasis (cs! "a"), .bold [.text (cs! "b")]]),
    -- bold emph
    one (.paragraph [.bold [.text (cs! "b")], .emphasis (cs! "a")]),
    -- bold bold
    one (.paragraph [.bold [.text (cs! "b")], .bold [.text (cs! "b")]]),
    -- bold two texts
    one (.paragraph [.bold [.text (cs! "b"), .text (cs! "b")]]),
    -- bold two strikes
    one (.paragraph [.bold [.strikethrough (cs! "b"), .strikethrough (cs! "b")]]),
    -- image
    one (.paragraph [.text (cs! "!"), .anchor ⟨cs! "a", cs! "b"⟩]),
    -- h0
    one (.heading 0 [.text (cs! "a")]),
    -- h7
    one (.heading 7 [.text (cs! "a")]),
    -- heading bracket
    one (.heading 1 [.text (cs! "[a](b)")]),
    -- heading space
    one (.heading 1 [.text (cs! " a")]),
    -- heading two texts
    one (.heading 1 [.text (cs! "a"), .text (cs! "b")]),
    -- heading empty text
    one (.heading 1 [.text []]),
    -- images 1
    one (.images [⟨cs! "a", cs! "b"⟩]),
    -- images 0
    one (.images []),
    -- code lang cr
    one (.code (cs! "a\r") (cs! "b")),
    -- code starts crlf
    one (.code (cs! "a") (cs! "\r\nb")),
    -- code starts nl
    one (.code (cs! "a") (cs! "\nb")),
    -- code cr
    one (.code (cs! "a") (cs! "\r")),
    -- code ends nl
    one (.code (cs! "a") (cs! "b\n")),
    -- list level
    one (.list (.mk .Unordered 1 [.mk [.text (cs! "a")] none])),
    -- list empty
    one (.list (.mk .Unordered 0 [])),
    -- list nested level
    one (.list (.mk .Unordered 0 [.mk [.text (cs! "a")] (some (.mk .Unordered 0 [.mk [.text (cs! "b")] none]))])),
    -- list item line
    one (.list (.mk .Unordered 0 [.mk [.text (cs! "a\n - b")] none])),
    -- list item line with the marker of a nested list that is not escaped
    one (.list (.mk .Unordered 0 [.mk [.text (cs! "a")] (some (.mk .Unordered 1 [.mk [.text (cs! "b\n+ c")] none]))])),
    -- list item line two levels deeper, in emphasis
    one (.list (.mk .Ordered 0 [.mk [.text (cs! "a")] (some (.mk .Ordered 1 [.mk [.emphasis (cs! "b\n  + c")] none]))])),
    -- list item leading space
    one (.list (.mk .Unordered 0 [.mk [.text (cs! " a")] none])),
    -- list item nl
    one (.list (.mk .Unordered 0 [.mk [.text (cs! "a\n")] none])),
    -- highlight title nl
    one (.highlight (some (cs! "a\nb")) none [[.text (cs! "x")]]),
    -- highlight title sp
    one (.highlight (some (cs! " a")) none [[.text (cs! "x")]]),
    -- highlight title cr
    one (.highlight (some (cs! "a\r")) none [[.text (cs! "x")]]),
    -- highlight icon nl
    one (.highlight none (some (cs! "a\nb")) [[.text (cs! "x")]]),
    -- highlight body like icon
    one (.highlight none none [[.text (cs! "! x")]]),
    -- highlight empty
    one (.highlight none none []),
    -- highlight empty p
    one (.highlight none none [[]]),
    -- highlight p nl
    one (.highlight none none [[.text (cs! "x\n")]]),
    -- highlight p starts nl
    one (.highlight none none [[.text (cs! "\nx")]]),
    -- coll title nl
    one (.collapsible (cs! "a\nb") [.paragraph [.text (cs! "x")]]),
    -- coll title sp
    one (.collapsible (cs! " a") [.paragraph [.text (cs! "x")]]),
    -- coll title cr
    one (.collapsible (cs! "a\r") [.paragraph [.text (cs! "x")]]),
    -- coll close
    one (.collapsible (cs! "a") [.paragraph [.italic (cs! "x\n%}")]]),
    -- coll embed
    one (.collapsible (cs! "a") [.embed (cs! "x\n%}") (cs! "y")]),
    -- coll text ends
    one (.collapsible (cs! "a") [.paragraph [.text (cs! "x\n")]]),
    -- coll text starts
    one (.collapsible (cs! "a") [.paragraph [.text (cs! "\nx")]]),
    -- text nl then block
    ⟨none, [.paragraph [.text (cs! "x\n")], .thematicBreak]⟩,
    -- meta untrimmed
    ⟨some (cs! "a\n"), []⟩,
    -- meta backslash
    ⟨some (cs! "a\\b"), []⟩,
    -- meta dashes
    ⟨some (cs! "---"), []⟩,
    -- meta line dashes
    ⟨some (cs! "a\n---"), []⟩
  ]

/-- **C41, finding.** `Display` does not escape everything: none of these documents is read back from its
text. So no condition of the class can simply be dropped. -/
theorem C41_conditions_are_needed : ∀ y ∈ unsafeDocuments, safeDocument y = false ∧ ¬ RoundTrips y := by
  have h : unsafeDocuments.all (fun y => !safeDocument y && !decide (deserialize y.display = .ok y)) = true := by decide +kernel
  intro y hy
  have := List.all_eq_true.1 h y hy
  simpa [RoundTrips] using this

/-- **C42, finding.** The documents `deserialize` returns are not all stable: their text can be read back as
another document. -/
theorem C42_parsed_documents_are_not_all_stable :
    ∀ input ∈ [cs! "\\## x", cs! "---\na\\\\b\n---", cs! "!!\n!!", cs! "_a\\\n\\\n\\\nb_", cs! "\\![a](b)",
        cs! "{% a\\\nb\nc\n%}", cs! "- a\\\n - b", cs! "- \\ a", cs! "# \\[a](b)"],
      ∃ y, deserialize input = .ok y ∧ ¬ RoundTrips y := by
  intro input h
  have key : ∀ i ∈ [cs! "\\## x", cs! "---\na\\\\b\n---", cs! "!!\n!!", cs! "_a\\\n\\\n\\\nb_", cs! "\\![a](b)",
        cs! "{% a\\\nb\nc\n%}", cs! "- a\\\n - b", cs! "- \\ a", cs! "# \\[a](b)"],
      (deserialize i).toOption.any (fun y => !decide (deserialize y.display = .ok y)) = true := by decide +kernel
  have := key input h
  cases hd : deserialize input with
  | error e => rw [hd] at this; simp [Except.toOption] at this
  | ok y =>
    rw [hd] at this
    exact ⟨y, rfl, by simpa [Except.toOption, RoundTrips] using this⟩

/-! ### Concrete cases: the hypotheses are met -/

/-- A document with every kind of block. -/
def richDocument : Yamd := ⟨some (cs! "title: a\n\ntags:\n  - b"), [
  .heading 2 [.text (cs! "A # of "), .anchor ⟨cs! "b]", cs! "c(d"⟩],
  .paragraph [.text (cs! "- not a list *x* \\ y\n\nz "), .bold [.text (cs! "b"), .italic (cs! "i_"), .strikethrough (cs! "s")],
    .codeSpan (cs! "c`d"), .emphasis (cs! "e"), .italic [], .text (cs! "!\n")] ] ++ [
  .paragraph [.text (cs! "--- q")],
  .image ⟨cs! "a", cs! "b"⟩,
  .images [⟨cs! "a", cs! "b"⟩, ⟨cs! "c)", cs! "d)"⟩],
  .code (cs! "rust") (cs! "fn main() {}\n\n```\n"  ++ cs! "x"),
  .list (.mk .Unordered 0 [.mk [.text (cs! "one")] (some (.mk .Ordered 1 [.mk [.text (cs! "1")] none, .mk [.bold [.text (cs! "2")]]
    (some (.mk .Unordered 2 [.mk [.text (cs! "deep\n- x\n+ y\n    - z")] none]))])), .mk [.text (cs! "two\n- lines\n  - a\n+ b")] none]),
  .highlight (some (cs! "T!!")) (some (cs! "warn")) [[.text (cs! "a !! b")], [.text (cs! "! c")]],
  .thematicBreak,
  .embed (cs! "youtube") (cs! "a|b}}\n\nc"),
  .collapsible (cs! "outer %}") [.paragraph [.text (cs! "x\n%}y")], .collapsible [] [], .list (.mk .Ordered 0 [.mk [.text (cs! "i")] none])]
  ]⟩

example : safeDocument { richDocument with body := richDocument.body.drop 2 } = true := by decide +kernel
example : safeDocument { richDocument with body := richDocument.body.take 2 } = true := by decide +kernel

/-- A text ending with a line break is safe at the end only. -/
example : safeDocument richDocument = false := by decide +kernel

example : PlainBody (cs! "a _ b\n\nc \\ *") ∧ cs! "a _ b\n\nc \\ *" ≠ [] := by decide
example : PlainBody (cs! "a\n\n\n\nb\n\n\\\n\n") := by decide
example : startsHeading (cs! "#hash ## - \n\n") = false ∧ leftBlankText (cs! "#hash ## - \n\n\r\n\n") = false := by decide
example : startsHeading (cs! "##  two spaces") = false := by decide
example : ∀ c ∈ cs! "\\~*{-#!`+[_", c ∉ cs! "Plain text, (really) | 100% \n> of it}" := by decide

/-- Lines of items that look like items. -/
example : RoundTrips (one (.list (.mk .Unordered 0 ([cs! "a\n- b\n+ c\n-d", cs! "e\n\n  - f"].map (fun t => .mk [.text t] none))))) := by
  refine C39_list _ (by decide +kernel) (by decide +kernel)

end Yamd.Props
