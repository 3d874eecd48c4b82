import Verif.Proofs.Fits
import Verif.Props.Lexer

/-!
# Op stream properties C08-C15, C28, C44, C47

`parse input` is the modelled `yamd::op::parse`; it can fail (`R`: a panic, a failing debug assertion,
or a loop that does not end), so every theorem states that it succeeds and what it returns. The
vocabulary is in `Spec/Ops.lean`.
-/

namespace Yamd.Props

open Yamd Yamd.Lexer Yamd.Spec Yamd.Ref

/-- **C08.** `parse` returns for every input: no slice, index or insert panic, no failing debug
assertion, no loop or recursion that runs beyond its bound (the model gives every loop and recursion a
bound linear in the number of tokens; running out of it is a fault). -/
theorem C08_parse_total (input : Str) : ∃ ops, parse input = .ok ops := ⟨_, parse_eq input⟩

/-- **C09.** Starts and Ends match like parentheses, with equal nodes. -/
theorem C09_ops_balanced (input : Str) : ∃ ops, parse input = .ok ops ∧ Balanced ops := by
  obtain ⟨ops, segs, h1, -, h2, -⟩ := parse_segmentation input
  exact ⟨ops, h1, nested_mono (fun _ _ _ => rfl) (fun _ _ => rfl) h2⟩

/-- **C10.** An optional metadata triple, then exactly one document: it is opened by `s`, stays open
through `body` (in which every node that is opened is closed), and is closed by the last op `e`. -/
theorem C10_outer_shape (input : Str) :
    ∃ ops pre s body e, parse input = .ok ops ∧ ops = pre ++ s :: (body ++ [e]) ∧
      (pre = [] ∨ pre.map Op.kind = [.Start .Metadata, .Value, .End .Metadata]) ∧
      s.kind = .Start .Document ∧ e.kind = .End .Document ∧ DepthBalanced body := by
  refine ⟨_, _, _, _, _, parse_eq input, rfl, ?_, rfl, rfl, ?_⟩
  · unfold topB
    cases hd : delimB isThreeDashes isThreeDashes .Metadata [] (tokens input) with
    | none => exact .inl rfl
    | some x =>
      obtain ⟨d, r⟩ := x
      right
      simp only [Delim.ops, Op.start, Op.value, Op.close, List.map_cons, List.map_nil, (delimB_ok hd).1]
  · unfold DepthBalanced
    rw [Doc.ops_segs, List.map_map]
    have := Doc.flat (topB (tokens input)).doc 0 []
    rw [List.append_nil] at this
    exact this

/-- **C11.** Every node stands under a parent the grammar allows, and every Value in a node that may
hold one. -/
theorem C11_ops_grammatical (input : Str) : ∃ ops, parse input = .ok ops ∧ Grammatical ops := by
  obtain ⟨ops, segs, h1, -, h2, -⟩ := parse_segmentation input
  exact ⟨ops, h1, h2⟩

/-- **C12.** Every content of `parse input` resolves against `input` without panicking. -/
theorem C12_contents_resolve (input : Str) :
    ∃ ops, parse input = .ok ops ∧ ∀ op ∈ ops, ∃ s, op.content.asStr input = .ok s := by
  obtain ⟨ops, segs, h1, hs, -⟩ := parse_segmentation input
  refine ⟨ops, h1, fun op hop => ?_⟩
  obtain ⟨x, -, hz⟩ := zip_mem hs.length.symm op hop
  exact ⟨_, (hs.reads _ hz).1⟩

/-- The tokens a text is lexed to say what the text says. -/
theorem tokens_text (input : Str) : textOfTokens input (tokens input) = unescape input := by
  have := place_texts input [] 0 0
  simp only [blen, List.nil_append] at this
  unfold textOfTokens
  rw [tokens, this, pieces_text]

/-- **C13.** With the skipped line breaks `breaks` put back before their op, the texts of all contents
concatenate to the input without its escape backslashes. A line break is skipped at most directly
before the `%}` that closes a collapsible. -/
theorem C13_contents_cover_source (input : Str) :
    ∃ ops breaks, parse input = .ok ops ∧ breaks.length = ops.length ∧
      (∀ x ∈ ops.zip breaks, x.2 = [] ∨ (IsBreak x.2 ∧ x.1.kind = .End .Collapsible)) ∧
      (ops.zip breaks).flatMap (fun x => x.2 ++ opText input x.1) = unescape input := by
  obtain ⟨ops, segs, h1, hs, -⟩ := parse_segmentation input
  refine ⟨ops, segs.map (fun s => textOfTokens input s.1), h1, by simp [hs.length], ?_, ?_⟩
  · intro x hx
    rw [List.zip_map_right, List.mem_map] at hx
    obtain ⟨⟨op, s⟩, hz, rfl⟩ := hx
    rcases hs.skips _ hz with h | ⟨e, c, r, e1, e2, e3, -⟩
    · left; simp only at h; simp [h, textOfTokens]
    · right
      simp only at e1 e3
      refine ⟨?_, e3⟩
      simp only [Prod.map, e1, id_eq]
      have hm : e ∈ tokens input := by
        rw [← hs.covers]
        exact List.mem_flatMap.2 ⟨s, (List.of_mem_zip hz).2, by simp [e1]⟩
      have := (lexed_tokens hm).eol e2
      simpa [textOfTokens, sliceD, textOf] using this
  · rw [texts_cover hs.reads hs.length, hs.covers, tokens_text]

/-- **C13, the exception.** The documentation promises that contents cover the source exactly; the line
break before the `%}` of a collapsible really can be missing. -/
theorem C13_exact_cover_is_false :
    ∃ input ops, parse input = .ok ops ∧ ops.flatMap (opText input) ≠ unescape input :=
  by
  refine ⟨cs! "{% T\n# H\n%}", _, parse_eq _, fun h => ?_⟩
  have : (parse (cs! "{% T\n# H\n%}")).toOption.any (fun ops =>
      decide (ops.flatMap (opText (cs! "{% T\n# H\n%}")) = unescape (cs! "{% T\n# H\n%}"))) = false := by
    decide +kernel
  rw [parse_eq] at this
  simp only [Except.toOption, Option.any_some, decide_eq_false_iff_not] at this
  exact this h

/-- **C14.** Without a backslash in the input nothing is allocated: every content is a span. -/
theorem C14_zero_copy (input : Str) (h : '\\' ∉ input) :
    ∃ ops, parse input = .ok ops ∧ ∀ op ∈ ops, ∃ a b, op.content = .Span a b := by
  obtain ⟨ops, segs, h1, hs, -⟩ := parse_segmentation input
  refine ⟨ops, h1, fun op hop => ?_⟩
  obtain ⟨x, hx, hz⟩ := zip_mem hs.length.symm op hop
  have hr := (hs.reads _ hz).2
  cases hc : op.content with
  | Span a b => exact ⟨a, b, rfl⟩
  | Materialized s =>
    simp only [hc] at hr
    obtain ⟨t, r, u, e1, e2, e3⟩ := hr
    have hu : u ∈ tokens input := seg_mem hs.covers hx (by rw [e1]; exact List.mem_cons_of_mem _ e2)
    obtain ⟨a, p, c, f1, f2, f3, f4, f5, f6, f7, f8⟩ := tokens_facts hu
    obtain ⟨a', rfl⟩ := f8 (by rw [← f6]; exact e3)
    exact absurd (by rw [f1]; simp) h

/-- **C14.** The tokens of the source can be distributed over the ops, in order and without loss, so
that every content resolves to the text of its own tokens, is a span of exactly these tokens' bytes
when they are adjacent, and is allocated only when a backslash was removed between two of them. -/
theorem C14_contents_are_token_runs (input : Str) :
    ∃ ts ops segs, Lexer.lex input = .ok ts ∧ parse input = .ok ops ∧ Segmentation input ts ops segs := by
  obtain ⟨ops, segs, h1, hs, -⟩ := parse_segmentation input
  exact ⟨_, ops, segs, lex_eq input, h1, hs⟩

/-- **C15.** Non-empty spans, in stream order, are pairwise disjoint and increasing, and inside the
input. -/
theorem C15_spans_disjoint_increasing (input : Str) :
    ∃ ops, parse input = .ok ops ∧ (spansOf ops).Pairwise (fun a b => a.2 ≤ b.1) ∧
      ∀ s ∈ spansOf ops, s.1 < s.2 ∧ s.2 ≤ blen input := by
  obtain ⟨ops, segs, h1, hs, -⟩ := parse_segmentation input
  obtain ⟨ts, e, h2, h3⟩ := C02_token_ranges_valid_and_ordered input
  rw [lex_eq] at e
  cases e
  have := spans_ordered hs.reads hs.length (by rw [hs.covers]; exact h3)
  refine ⟨ops, h1, this.1, fun s hsp => ⟨?_, ?_⟩⟩
  · simp only [spansOf, List.mem_filterMap] at hsp
    obtain ⟨op, -, hsp⟩ := hsp
    split at hsp
    · split at hsp
      · cases hsp; assumption
      · cases hsp
    · cases hsp
  · obtain ⟨t, u, -, hu, -, e2⟩ := this.2 s hsp
    rw [hs.covers] at hu
    rw [e2]; exact (h2 u hu).2.1

/-- **C28.** In the same distribution of tokens over ops, no op at which a paragraph, heading, list,
image or any inline node is open stands for a blank line. -/
theorem C28_blank_line_ends_inline (input : Str) :
    ∃ ts ops segs, Lexer.lex input = .ok ts ∧ parse input = .ok ops ∧ Segmentation input ts ops segs ∧
      ∀ x ∈ (openAt [] (ops.map Op.kind)).zip segs, x.1.any isInlineNode = true →
        ∀ t ∈ x.2.2, t.kind ≠ .Terminator := by
  obtain ⟨ops, segs, h1, hs, -, h⟩ := parse_segmentation input
  exact ⟨_, ops, segs, lex_eq input, h1, hs, h⟩

/-- **C44.** If no `%}` token starts a line, no collapsible is recognised and the texts of the contents
cover the input (without its escape backslashes) exactly. -/
theorem C44_unclosed_collapsible_is_text (input : Str) (ts : List Token) (hts : Lexer.lex input = .ok ts)
    (h : ∀ t ∈ ts, t.kind = .CollapsibleEnd → t.position.column ≠ 0) :
    ∃ ops, parse input = .ok ops ∧
      (∀ op ∈ ops, op.kind ≠ .Start .Collapsible ∧ op.kind ≠ .End .Collapsible) ∧
      ops.flatMap (opText input) = unescape input := by
  rw [lex_eq] at hts
  cases hts
  obtain ⟨ops, h1, h2⟩ := collapsible_needs_end input h
  refine ⟨ops, h1, h2, ?_⟩
  obtain ⟨ops', breaks, h3, h4, h5, h6⟩ := C13_contents_cover_source input
  rw [h1] at h3
  cases h3
  rw [← h6]
  have key : ∀ {ops : List Op} {breaks : List Str}, breaks.length = ops.length → (∀ x ∈ ops.zip breaks, x.2 = []) →
      ops.flatMap (opText input) = (ops.zip breaks).flatMap (fun x => x.2 ++ opText input x.1) := by
    intro ops
    induction ops with
    | nil => intros; rfl
    | cons o ops ih =>
      intro breaks hl hb
      cases breaks with
      | nil => simp at hl
      | cons b breaks =>
        have h0 := hb (o, b) (by simp)
        simp only at h0
        rw [List.zip_cons_cons, List.flatMap_cons, List.flatMap_cons,
          ih (breaks := breaks) (by simpa using hl) (fun x hx => hb x (by simp [hx]))]
        simp [h0]
  refine key h4 fun x hx => ?_
  rcases h5 x hx with h | ⟨-, h⟩
  · exact h
  · exact absurd h (h2 x.1 (List.of_mem_zip hx).1).2

/-- **C47.** The text of every Start and End is exactly the delimiter documented for its node. -/
theorem C47_delimiters_as_documented (input : Str) :
    ∃ ops, parse input = .ok ops ∧ ∀ op ∈ ops, DelimiterText op.kind (opText input op) :=
  parse_delimiters input

/-! ### Concrete cases -/

/-- A document with front matter, nested collapsibles, a list, emphasis, an escape and a code block. -/
def sample : Str :=
  cs! "---\nt: x\n---\n{% T\n# H [a](b)\n\n- x\n - **y _z_**\n%}\n\np\\_q `c`\n\n```rs\nx\n```"

example : (parse sample).toOption.map (fun ops => (ops.length, (spansOf ops).length)) = some (51, 31) := by
  decide +kernel

example : '\\' ∉ cs! "# a **b**\n\n{% T\nx\n%}" := by decide

example : (Lexer.lex (cs! "{% T\nx %}\n\ny")).toOption.map
    (fun ts => ts.all (fun t => t.kind != .CollapsibleEnd || t.position.column != 0)
      && ts.any (fun t => t.kind == .CollapsibleEnd)) = some true := by decide +kernel

end Yamd.Props
