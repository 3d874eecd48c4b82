import Verif.Proofs.DocFacts
import Verif.Proofs.ToYamdFacts
import Verif.Proofs.Lines
import Verif.Props.Ops

/-!
# Document properties C16-C25, C43, C44

`deserialize input` is the modelled `yamd::deserialize`; it can fail (`R`), so every theorem states that
it succeeds and what it returns. The vocabulary is in `Spec/Doc.lean`.
-/

namespace Yamd.Props

open Yamd Yamd.Lexer Yamd.Spec Yamd.Ref Yamd.ToYamd

/-- **C16.** `deserialize` returns a document for every input, and `try_to_yamd` accepts the ops of
every input: the `expect` of `to_yamd` never fires on them. -/
theorem C16_deserialize_total (input : Str) :
    ∃ ops y, parse input = .ok ops ∧ tryToYamd ops input = .ok (some y) ∧ deserialize input = .ok y :=
  ⟨_, _, parse_eq input, tryToYamd_top input, deserialize_eq input⟩

/-- **C17.** For every op stream whose contents resolve, `try_to_yamd` returns without panicking, and
it returns `Ok` exactly when Starts and Ends are balanced by depth. -/
theorem C17_try_to_yamd_accepts_depth_balanced (source : Str) (ops : List Op)
    (hc : ∀ op ∈ ops, ∃ s, op.content.asStr source = .ok s) :
    ∃ r, tryToYamd ops source = .ok r ∧ (r.isSome = true ↔ DepthBalanced ops) := try_iff hc

/-- **C17, finding.** The documentation promises an error for an `End` that does not match the node it
closes; such streams are accepted. -/
theorem C17_mismatched_end_is_accepted :
    ∃ source ops y, ¬ Balanced ops ∧ tryToYamd ops source = .ok (some y) :=
  ⟨[], [.start .Document emptyContent, .start .Bold emptyContent, .close .Italic emptyContent,
    .close .Document emptyContent], ⟨none, []⟩, by unfold Balanced; decide, by decide⟩

/-- **C17, finding.** Contents that do not resolve make `try_to_yamd` panic instead of returning an
error. -/
theorem C17_bad_span_panics :
    ∃ source ops, Balanced ops ∧ tryToYamd ops source = .error .panic :=
  ⟨[], [.start .Document emptyContent, .start .Paragraph emptyContent, .value (.Span 0 1),
    .close .Paragraph emptyContent, .close .Document emptyContent], by unfold Balanced; decide, by decide⟩

/-- A collapsible in the tree has its Start among the ops. -/
theorem coll_has_start {src : Str} {t : Str} {b : List YamdNode} : ∀ d : Doc, .collapsible t b ∈ d.denote src →
    ∃ op ∈ d.ops src, op.kind = .Start .Collapsible
  | .nil, h => by simp [Doc.denote] at h
  | .term _ r, h => by
    obtain ⟨op, h1, h2⟩ := coll_has_start r (by simpa [Doc.denote] using h)
    exact ⟨op, by simp [Doc.ops, h1], h2⟩
  | .block x r, h => by
    simp only [Doc.denote, List.mem_cons] at h
    rcases h with h | h
    · exfalso
      cases x with
      | images l => match l, h with
        | [], h => simp [Block.denote] at h
        | [_], h => simp [Block.denote] at h
        | _ :: _ :: _, h => simp [Block.denote] at h
      | _ => simp [Block.denote, YamdNode.newCode] at h
    · obtain ⟨op, h1, h2⟩ := coll_has_start r h
      exact ⟨op, by simp [Doc.ops, h1], h2⟩
  | .coll o m i s c r, _ => ⟨_, by simp only [Doc.ops]; exact List.mem_cons_self .., rfl⟩

/-- **C44**, for texts and documents: when no line of the input starts with `%}`, the document has no
collapsible. -/
theorem C44_no_collapsible_node (input : Str) (h1 : ¬ cs! "%}" <+: input) (h2 : ¬ cs! "\n%}" <:+: input) :
    ∃ y, deserialize input = .ok y ∧ ∀ title body, .collapsible title body ∉ y.body := by
  refine ⟨_, deserialize_eq input, fun title body hm => ?_⟩
  obtain ⟨ops, ho, hn, -⟩ := C44_unclosed_collapsible_is_text input _ (lex_eq input) (fun t ht hk hc => by
    obtain ⟨l1, l2, e⟩ := List.append_of_mem ht
    obtain ⟨a, p, c, -, -, e1, -, -, e4, e5, -, e7, e8, -⟩ := tokens_line e
    rw [e5] at hk
    rw [hk] at e7 e8
    have hesc : p.esc = false := by
      cases hp : p.esc with
      | false => rfl
      | true => exact absurd (e8 hp) (by decide)
    have htx : p.text = cs! "%}" := by
      have : some (cs! "%}") = some p.text := e7
      exact (Option.some.inj this).symm
    have hsrc : p.src = cs! "%}" := by simp [Piece.src, hesc, htx]
    rw [hsrc] at e1
    rcases e4 hc with rfl | ⟨q, rfl, -⟩
    · exact h1 ⟨c, by rw [e1]; rfl⟩
    · exact h2 ⟨q, c, by rw [e1]; simp⟩)
  rw [parse_eq] at ho
  cases ho
  obtain ⟨op, g1, g2⟩ := coll_has_start (src := input) (topB (tokens input)).doc (by simpa [Top.denote, Yamd.new] using hm)
  exact (hn op (by simp [Top.ops, g1])).1 g2

example : ¬ cs! "%}" <+: cs! "{% T\n- %}\n\nx" ∧ ¬ cs! "\n%}" <:+: cs! "{% T\n- %}\n\nx" := by decide

/-- **C18.** Every heading, at any nesting, has a level between 1 and 6. -/
theorem C18_heading_levels (input : Str) :
    ∃ y, deserialize input = .ok y ∧
      ∀ level body, .heading level body ∈ blocksOf y.body → 1 ≤ level ∧ level ≤ 6 := by
  refine ⟨_, deserialize_eq input, fun level body hn => ?_⟩
  rcases node_cases input _ hn with ⟨t, b, h⟩ | ⟨b, h1, h2, h3⟩
  · cases h
  · cases b with
    | heading m b =>
      simp only [Block.denote, YamdNode.heading.injEq] at h3
      rw [h3.1]
      exact heading_level h2.left h1.1
    | images l => match l, h3 with
      | [], h3 => simp [Block.denote] at h3
      | [_], h3 => simp [Block.denote] at h3
      | _ :: _ :: _, h3 => simp [Block.denote] at h3
    | _ => simp [Block.denote, YamdNode.newCode] at h3

/-- **C19.** Every list that is a block has level 0, lists inside it are one level deeper than the list
they stand in, and no list is empty. -/
theorem C19_list_levels (input : Str) :
    ∃ y, deserialize input = .ok y ∧ ∀ l, .list l ∈ blocksOf y.body → levelsOk 0 l = true := by
  refine ⟨_, deserialize_eq input, fun l hn => ?_⟩
  rcases node_cases input _ hn with ⟨t, b, h⟩ | ⟨b, h1, h2, h3⟩
  · cases h
  · cases b with
    | list i =>
      simp only [Block.denote, YamdNode.list.injEq] at h3
      rw [h3]
      cases i with
      | nil => exact absurd rfl h1.2
      | cons k m p n q =>
        rw [levelsOk, levels_items h1.1]
        rfl
    | images l => match l, h3 with
      | [], h3 => simp [Block.denote] at h3
      | [_], h3 => simp [Block.denote] at h3
      | _ :: _ :: _, h3 => simp [Block.denote] at h3
    | _ => simp [Block.denote, YamdNode.newCode] at h3

/-- **C20.** Every image group has at least two images. -/
theorem C20_image_groups (input : Str) :
    ∃ y, deserialize input = .ok y ∧ ∀ l, .images l ∈ blocksOf y.body → 2 ≤ l.length := by
  refine ⟨_, deserialize_eq input, fun l hn => ?_⟩
  rcases node_cases input _ hn with ⟨t, b, h⟩ | ⟨b, h1, h2, h3⟩
  · cases h
  · cases b with
    | images l' => match l', h1, h3 with
      | [], h1, _ => exact absurd rfl h1.1
      | [_], _, h3 => simp [Block.denote] at h3
      | _ :: _ :: _, _, h3 =>
        simp only [Block.denote, YamdNode.images.injEq] at h3
        rw [h3]; simp
    | _ => simp [Block.denote, YamdNode.newCode] at h3

/-- **C21.** Code never ends with a newline, metadata neither starts nor ends with one, and a text that
is last in a list item or in a paragraph of a highlight does not end with one. -/
theorem C21_trailing_newlines_trimmed (input : Str) :
    ∃ y, deserialize input = .ok y ∧
      (∀ lang code, .code lang code ∈ blocksOf y.body → code.getLast? ≠ some '\n') ∧
      (∀ m, y.metadata = some m → m.head? ≠ some '\n' ∧ m.getLast? ≠ some '\n') ∧
      (∀ n ∈ blocksOf y.body, ∀ p ∈ trimmedParagraphsIn n, ∀ t, p.getLast? = some (.text t) →
        t.getLast? ≠ some '\n') := by
  refine ⟨_, deserialize_eq input, ?_, ?_, ?_⟩
  · intro lang code hn
    rcases node_cases input _ hn with ⟨t, b, h⟩ | ⟨b, h1, h2, h3⟩
    · cases h
    · cases b with
      | code o m b c =>
        simp only [Block.denote, YamdNode.newCode, YamdNode.code.injEq] at h3
        rw [h3.2]
        exact trimEndNl_last _
      | images l => match l, h3 with
        | [], h3 => simp [Block.denote] at h3
        | [_], h3 => simp [Block.denote] at h3
        | _ :: _ :: _, h3 => simp [Block.denote] at h3
      | _ => simp [Block.denote] at h3
  · intro m hm
    simp only [Top.denote, Yamd.new, Option.map_eq_some_iff] at hm
    obtain ⟨x, -, rfl⟩ := hm
    exact ⟨trimNl_head x, trimEndNl_last _⟩
  · intro n hn p hp t ht
    rcases node_cases input _ hn with ⟨t', b, rfl⟩ | ⟨b, h1, h2, rfl⟩
    · simp [trimmedParagraphsIn] at hp
    · have hp' : p ∈ paragraphsIn (b.denote input) := by
        revert hp
        cases b.denote input <;> simp [trimmedParagraphsIn, paragraphsIn]
      obtain ⟨l, e1, e2, ⟨e3, -⟩ | e3⟩ := block_paras h1 p hp'
      · exact absurd hp e3
      · subst e3
        exact trim_last ht (normal_para e1 (h2.infix e2)).2.1

/-- **C22.** There is metadata exactly when the tokens start with a fence of exactly three dashes and a
later line starts with one; it is the text between the first two, newline-trimmed. -/
theorem C22_front_matter (input : Str) :
    ∃ ts y, Lexer.lex input = .ok ts ∧ deserialize input = .ok y ∧
      ∀ m, y.metadata = some m ↔ ∃ o body c rest, ts = o :: (body ++ c :: rest) ∧ IsDashFence o ∧
        IsDashFence c ∧ (∀ t ∈ body, ¬ IsDashFence t) ∧ m = trimNl (textOfTokens input body) := by
  refine ⟨_, _, lex_eq input, deserialize_eq input, fun m => ?_⟩
  have hf : ∀ t, isThreeDashes t = true ↔ IsDashFence t := by
    intro t
    simp only [isThreeDashes, col0, IsDashFence, Token.len, Bool.and_eq_true, decide_eq_true_eq]
    exact ⟨fun h => ⟨h.1.1, of_decide_eq_true h.2, h.1.2⟩, fun h => ⟨⟨h.1, h.2.2⟩, decide_eq_true h.2.1⟩⟩
  have hscan : ∀ (body : List Token) c rest, isThreeDashes c = true → (∀ t ∈ body, isThreeDashes t = false) →
      untilB [] isThreeDashes (body ++ c :: rest) = some (body, c, rest) := by
    intro body c rest hc hb
    induction body with
    | nil => simp [untilB, stopAt, hc]
    | cons t body ih =>
      have h1 := hb t (by simp)
      have := ih (fun u hu => hb u (by simp [hu]))
      simp [untilB, stopAt, h1, this]
  simp only [Top.denote, Yamd.new, Option.map_map]
  unfold topB
  constructor
  · cases hd : delimB isThreeDashes isThreeDashes .Metadata [] (tokens input) with
    | none => simp
    | some x =>
      obtain ⟨d, r⟩ := x
      simp only [Option.map_some, Function.comp, Option.some.injEq, trimNl_idem]
      rintro rfl
      obtain ⟨-, a2, a3, a4, -⟩ := delimB_ok hd
      refine ⟨d.opening, d.body, d.closing, r, ?_, (hf _).1 a2, (hf _).1 a3, fun t ht h => ?_, rfl⟩
      · rw [delimB_toks hd]; simp [Delim.toks]
      · exact absurd (a4 t ht) (by simp [(hf t).2 h])
  · rintro ⟨o, body, c, rest, e, h1, h2, h3, rfl⟩
    have : delimB isThreeDashes isThreeDashes .Metadata [] (tokens input) = some (⟨.Metadata, o, body, c⟩, rest) := by
      rw [e, delimB, if_pos ((hf o).2 h1), hscan body c rest ((hf c).2 h2)]
      · rfl
      · intro t ht
        cases h : isThreeDashes t with
        | false => rfl
        | true => exact absurd ((hf t).1 h) (h3 t ht)
    simp only [this, Option.map_some, Function.comp, trimNl_idem]
    rfl

/-- **C23.** In every paragraph (also of list items and highlights), bold and heading, text nodes are
not empty and no two text nodes are adjacent. -/
theorem C23_inline_text_normalised (input : Str) :
    ∃ y, deserialize input = .ok y ∧ ∀ n ∈ blocksOf y.body,
      (∀ p ∈ paragraphsIn n, NormalParagraph p) ∧ ∀ level body, n = .heading level body → NormalHeading body := by
  refine ⟨_, deserialize_eq input, fun n hn => ?_⟩
  rcases node_cases input _ hn with ⟨t, b, rfl⟩ | ⟨b, h1, h2, rfl⟩
  · simp [paragraphsIn]
  · refine ⟨fun p hp => ?_, fun level body e => ?_⟩
    · obtain ⟨l, e1, e2, ⟨-, rfl⟩ | rfl⟩ := block_paras h1 p hp
      · exact normal_para e1 (h2.infix e2)
      · exact normal_trim (normal_para e1 (h2.infix e2))
    · cases b with
      | heading m b =>
        simp only [Block.denote, YamdNode.heading.injEq] at e
        rw [← e.2]
        obtain ⟨-, h3, h4, -⟩ := h1
        refine ⟨?_, noTwo_of ?_ h4⟩
        · intro hm
          obtain ⟨x, hx, e⟩ := List.mem_map.1 hm
          cases x with
          | text ts =>
            simp only [HeadItem.denote, HeadingNode.text.injEq] at e
            exact live_text (h2.right.mem hx) (h3 _ hx) e
          | anchor l => simp [HeadItem.denote] at e
        · intro x; cases x <;> rfl
      | images l => match l, e with
        | [], h3 => simp [Block.denote] at h3
        | [_], h3 => simp [Block.denote] at h3
        | _ :: _ :: _, h3 => simp [Block.denote] at h3
      | _ => simp [Block.denote, YamdNode.newCode] at e

/-- **C24.** No bold, emphasis, strikethrough or code span is empty. -/
theorem C24_no_empty_styled_nodes (input : Str) :
    ∃ y, deserialize input = .ok y ∧ ∀ n ∈ blocksOf y.body, ∀ p ∈ paragraphsIn n, NoEmptyStyle p := by
  refine ⟨_, deserialize_eq input, fun n hn p hp => ?_⟩
  rcases node_cases input _ hn with ⟨t, b, rfl⟩ | ⟨b, h1, h2, rfl⟩
  · simp [paragraphsIn] at hp
  · obtain ⟨l, e1, e2, ⟨-, rfl⟩ | rfl⟩ := block_paras h1 p hp
    · exact noEmpty_para e1 (h2.infix e2)
    · exact style_trim (noEmpty_para e1 (h2.infix e2))

/-- **C24, the exception.** Italic can be empty. -/
theorem C24_italic_can_be_empty :
    ∃ input y, deserialize input = .ok y ∧ YamdNode.paragraph [.italic []] ∈ y.body :=
  ⟨cs! "__", ⟨none, [.paragraph [.italic []]]⟩, by decide +kernel, by simp⟩

/-- **C25.** The strings of the document, in document order, are a subsequence of the input without its
escape backslashes (hence of the input). -/
theorem C25_no_invented_text (input : Str) :
    ∃ y, deserialize input = .ok y ∧ (documentString y).Sublist (unescape input) ∧
      (documentString y).Sublist input := by
  have key : (documentString ((topB (tokens input)).denote input)).Sublist (unescape input) := by
    rw [← tokens_text, show textOfTokens input (tokens input) = textOfToks input (tokens input) from rfl,
      ← (top_flips (tokens input)).text]
    rw [Top.toks, text_append]
    refine List.Sublist.append ?_ (doc_sub _)
    cases h : (topB (tokens input)).meta? with
    | none => simp [Top.denote, Yamd.new, h]
    | some d =>
      simp only [Top.denote, Yamd.new, h, Option.map_some, Option.getD_some, trimNl_idem]
      exact (trimNl_sublist _).trans (delim_sub d)
  exact ⟨_, deserialize_eq input, key, key.trans (unescape_sub input)⟩

/-- **C43.** The content of any list of tokens with valid ranges resolves to the concatenation of their
texts; it is a span exactly when no token starts after a gap. -/
theorem C43_from_tokens (source : Str) (ts : List Token) (h : ∀ t ∈ ts, ∃ s, textOf source t = some s) :
    ∃ c, Content.fromTokens ts source = .ok c ∧ c.asStr source = .ok (textOfTokens source ts) ∧
      ((∃ a b, c = .Span a b) ↔ NoGap ts) := by
  cases ts with
  | nil => exact ⟨.Span 0 0, rfl, rfl, by simp [NoGap]⟩
  | cons t r =>
    simp only [Content.fromTokens]
    by_cases hg : Content.contiguous (t :: r) = true
    · rw [if_pos hg]
      exact ⟨_, rfl, span_asStr (slice_tokens h (noGap_iff.2 hg)), by simp [noGap_iff.2 hg]⟩
    · rw [if_neg hg]
      have hcat : ∀ us : List Token, (∀ t ∈ us, ∃ s, textOf source t = some s) →
          Content.concatSlices source us = .ok (textOfTokens source us) := by
        intro us
        induction us with
        | nil => intro _; rfl
        | cons u us ih =>
          intro hu
          obtain ⟨s, hs⟩ := hu u (by simp)
          have := ih (fun v hv => hu v (by simp [hv]))
          simp only [Content.concatSlices, sliceR_ok hs, this, bind, Except.bind, pure, Except.pure]
          simp [textOfTokens, hs]
      simp only [hcat _ h, bind, Except.bind, pure, Except.pure]
      refine ⟨_, rfl, rfl, ?_⟩
      simp only [reduceCtorEq, exists_false, false_iff]
      exact fun hn => hg (noGap_iff.1 hn)

/-- **C43.** `is_empty` agrees with the resolved text. -/
theorem C43_is_empty (source : Str) (c : Content) (s : Str) (h : c.asStr source = .ok s) :
    c.isEmpty = true ↔ s = [] := by
  cases c with
  | Materialized m =>
    simp only [Content.asStr, Except.ok.injEq] at h
    subst h
    simp [Content.isEmpty]
  | Span a b =>
    simp only [Content.asStr] at h
    simp only [Content.isEmpty, decide_eq_true_eq]
    split at h
    · rename_i hb
      simp only [Except.ok.injEq] at h
      simp [hb, h.symm]
    · rename_i hb
      unfold sliceR at h
      split at h
      · rename_i r hr
        simp only [Except.ok.injEq] at h
        subst h
        constructor
        · intro hb'; exact absurd hb' hb
        · rintro rfl
          obtain ⟨u, v, -, h2, h3⟩ := slice_iff.1 hr
          simp [blen] at h3
          omega
      · simp at h

/-! ### Concrete cases -/

example : (deserialize sample).toOption.map (fun y => (y.metadata, (blocksOf y.body).length))
    = some (some (cs! "t: x"), 4) := by decide +kernel

example : ∀ op ∈ [Op.start .Bold emptyContent, .value (.Span 0 2), .close .Bold emptyContent],
    ∃ s, op.content.asStr (cs! "abc") = .ok s := by
  simp only [List.mem_cons, List.not_mem_nil, or_false]
  rintro op (rfl | rfl | rfl)
  exacts [⟨[], rfl⟩, ⟨cs! "ab", rfl⟩, ⟨[], rfl⟩]

example : (deserialize (cs! "- a\n - b\n\n![a](b)\n![c](d)\n\n```x\ny\n\n```")).toOption.map
    (fun y => (blocksOf y.body).map (fun n => (n matches .list _, n matches .images _, n matches .code _ _)))
    = some [(true, false, false), (false, true, false), (false, false, true)] := by decide +kernel

end Yamd.Props
