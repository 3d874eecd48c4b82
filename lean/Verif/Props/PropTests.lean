import Verif.Spec.PropTests
import Verif.Props.RoundTrip

/-!
# C65: the project's property tests hold for every value

`tests/round_trip_proptest.rs` checks `deserialize(&yamd.to_string()) == yamd` on random values. Here the same
statements hold for every value of the strategies, and without their bounds on lengths; except for the two
tests and a half that draw heading texts: those can fail, and hold when no heading text spells an anchor.
-/

namespace Yamd.Props

open Yamd Yamd.Spec

/-! ### What the strategies draw -/

private theorem pieces_chars {ps : List Str} {q : Char → Prop} (hp : ∀ p ∈ ps, ∀ c ∈ p, q c)
    (hw : ∀ c, alnum c = true → q c) {s : Str} (h : Joined ps s) : ∀ c ∈ s, q c := by
  obtain ⟨l, -, hl, rfl⟩ := h
  intro c hc
  obtain ⟨p, hpl, hcp⟩ := List.mem_flatten.1 hc
  rcases hl p hpl with h | h
  · exact hp p h c hcp
  · exact hw c (h.2 c hcp)

private theorem alnum_ne {c : Char} (h : alnum c = true) : c ≠ ' ' ∧ c ≠ '\n' ∧ c ≠ '\r' ∧ c ≠ '!' ∧ c ≠ '#' ∧ c ≠ '-' ∧ c ≠ '\\' := by
  refine ⟨?_, ?_, ?_, ?_, ?_, ?_, ?_⟩ <;> (rintro rfl; revert h; decide)

/-- No space and no line break in an inline text. -/
private theorem inline_chars {s : Str} (h : ArbInlineText s) : ∀ c ∈ s, c ≠ ' ' ∧ c ≠ '\n' ∧ c ≠ '\r' := by
  rcases h.2.2 with h | h
  · exact fun c hc => ⟨(alnum_ne (h.2 c hc)).1, (alnum_ne (h.2 c hc)).2.1, (alnum_ne (h.2 c hc)).2.2.1⟩
  · exact pieces_chars (by decide) (fun c hc => ⟨(alnum_ne hc).1, (alnum_ne hc).2.1, (alnum_ne hc).2.2.1⟩) h

private theorem notBlank_ne {s : Str} (h : NotBlank s) : s ≠ [] := by
  rintro rfl; obtain ⟨c, hc, -⟩ := h; simp at hc

private theorem infix_mem {c : Char} {p s : Str} (hc : c ∈ p) (h : c ∉ s) : ¬ p <:+: s :=
  fun hi => h (hi.subset hc)

private theorem plain_of {s : Str} (h : ∀ c ∈ s, c ≠ '\n') : PlainBody s :=
  plainBody_of (infix_mem (c := '\n') (by decide) (fun hc => h _ hc rfl)) (infix_mem (c := '\n') (by decide) (fun hc => h _ hc rfl))

private theorem inline_plain {s : Str} (h : ArbInlineText s) : PlainBody s := plain_of fun c hc => (inline_chars h c hc).2.1

private theorem url_chars {s : Str} (h : ArbUrl s) : ∀ c ∈ s, c ≠ '\n' := by
  intro c hc
  rcases h.2 c hc with h | h
  · exact (alnum_ne h).2.1
  · rintro rfl; revert h; decide

private theorem safe_of {pl : Place} {s : Str} (h : ∀ c ∈ s, c ≠ '\n') : safeBody pl s = true := by
  have hn := infix_mem (p := cs! "\n%}") (by decide) (fun hc => h _ hc rfl)
  have hp : leftBlank s = false := plain_of h
  simp [safeBody, occurs, noCloseLine, hp, hn]

private theorem inline_safe {pl : Place} {s : Str} (h : ArbInlineText s) : safeBody pl s = true :=
  safe_of fun c hc => (inline_chars h c hc).2.1

private theorem last_ne {s : Str} {c : Char} (h : c ∉ s) : s.getLast? ≠ some c :=
  fun e => h (List.mem_of_getLast? e)

private theorem head_ne {s : Str} {c : Char} (h : c ∉ s) : s.head? ≠ some c :=
  fun e => h (List.mem_of_head? e)

private theorem starts_one {s : Str} {c : Char} (h : s.head? ≠ some c) : starts [c] s = false := by
  cases s with
  | nil => rfl
  | cons d s =>
    simp only [List.head?_cons, ne_eq, Option.some.injEq] at h
    simp [starts, List.isPrefixOf, Ne.symm h]

private theorem inline_line {s : Str} (h : ArbInlineText s) : safeLine s = true := by
  have h1 : '\n' ∉ s := fun hc => (inline_chars h _ hc).2.1 rfl
  have h2 : '\r' ∉ s := fun hc => (inline_chars h _ hc).2.2 rfl
  have h3 := starts_one h.2.1
  simp [safeLine, h1, h3, last_ne h2]

/-- No carriage return in a text. -/
private theorem text_noCr {s : Str} (h : ArbText s) : '\r' ∉ s := by
  rcases h.2 with h | h
  · intro hc
    rcases h _ hc with h | h
    · exact (alnum_ne h).2.2.1 rfl
    · exact absurd h (by decide)
  · exact fun hc => pieces_chars (q := (· ≠ '\r')) (by decide) (fun c hc => (alnum_ne hc).2.2.1) h _ hc rfl

/-- No line feed is followed by a space. -/
private def noPair : Str → Bool
  | [] => true
  | c :: r => !(c == '\n' && r.head? == some ' ') && noPair r

private theorem noPair_append : ∀ p q : Str, noPair p = true → noPair q = true → q.head? ≠ some ' ' → noPair (p ++ q) = true
  | [], q, _, hq, _ => hq
  | [c], q, _, hq, h => by
    have hb : (q.head? == some ' ') = false := by simpa using h
    simp [noPair, hq, hb]
  | c :: d :: p, q, hp, hq, h => by
    rw [noPair, Bool.and_eq_true] at hp
    have := noPair_append (d :: p) q hp.2 hq h
    have e : (c :: d :: p) ++ q = c :: ((d :: p) ++ q) := rfl
    rw [e, noPair, this]
    simpa using hp.1

private theorem noPair_of {s : Str} (h : '\n' ∉ s) : noPair s = true := by
  induction s with
  | nil => rfl
  | cons c s ih =>
    simp only [List.mem_cons, not_or] at h
    have hc : (c == '\n') = false := by simpa using Ne.symm h.1
    simp [noPair, ih h.2, hc]

private theorem noPair_not {u y : Str} : noPair (u ++ '\n' :: ' ' :: y) = false := by
  induction u with
  | nil => simp [noPair]
  | cons c u ih => simp [noPair, ih]

private theorem flatten_facts : ∀ l : List Str, (∀ p ∈ l, p ∈ textPieces ∨ IsWord p) →
    noPair l.flatten = true ∧ l.flatten.head? ≠ some ' '
  | [], _ => by decide
  | p :: l, h => by
    obtain ⟨h1, h2⟩ := flatten_facts l (fun q hq => h q (.tail _ hq))
    have hp : noPair p = true ∧ p.head? ≠ some ' ' ∧ p ≠ [] := by
      rcases h p (.head _) with h | h
      · exact (by decide : ∀ p ∈ textPieces, noPair p = true ∧ p.head? ≠ some ' ' ∧ p ≠ []) p h
      · exact ⟨noPair_of fun hc => (alnum_ne (h.2 _ hc)).2.1 rfl, head_ne fun hc => (alnum_ne (h.2 _ hc)).1 rfl, h.1⟩
    refine ⟨by simpa using noPair_append p _ hp.1 h1 h2, ?_⟩
    cases p with
    | nil => exact absurd rfl hp.2.2
    | cons c p => simpa using hp.2.1

private theorem text_noPair {s : Str} (h : ArbText s) : noPair s = true := by
  rcases h.2 with h | ⟨l, -, hl, rfl⟩
  · refine noPair_of fun hc => ?_
    rcases h _ hc with h | h
    · exact (alnum_ne h).2.1 rfl
    · exact absurd h (by decide)
  · exact (flatten_facts l hl).1

/-- How the pieces of a text can start: only a piece that starts with `\n` has a space. -/
private theorem first_piece {p : Str} (h : p ∈ textPieces ∨ IsWord p) : p.head? = some '\n' ∨ (p ≠ [] ∧ ' ' ∉ p) := by
  rcases h with h | h
  · exact (by decide : ∀ p ∈ textPieces, p.head? = some '\n' ∨ (p ≠ [] ∧ ' ' ∉ p)) p h
  · exact .inr ⟨h.1, fun hc => (alnum_ne (h.2 _ hc)).1 rfl⟩

/-- In front of the first space of joined pieces there is a line feed. -/
private theorem space_after_nl : ∀ (l : List Str) (u v : Str), (∀ p ∈ l, p ∈ textPieces ∨ IsWord p) →
    l.flatten = u ++ ' ' :: v → '\n' ∈ u
  | [], u, v, _, e => by simp at e
  | p :: l, u, v, h, e => by
    rw [List.flatten_cons] at e
    rcases first_piece (h p (.head _)) with hp | ⟨-, hp⟩
    · cases p with
      | nil => simp at hp
      | cons c p =>
        simp only [List.head?_cons, Option.some.injEq] at hp
        subst hp
        cases u with
        | nil => simp at e
        | cons d u =>
          simp only [List.cons_append, List.cons.injEq] at e
          rw [← e.1]; exact List.mem_cons_self
    · rcases List.append_eq_append_iff.1 e with ⟨a, rfl, e2⟩ | ⟨a, rfl, e2⟩
      · exact List.mem_append_right _ (space_after_nl l a v (fun q hq => h q (.tail _ hq)) e2)
      · cases a with
        | nil => 
          simp only [List.nil_append] at e2
          have := space_after_nl l [] v (fun q hq => h q (.tail _ hq)) e2.symm
          simp at this
        | cons c a =>
          simp only [List.cons_append, List.cons.injEq] at e2
          exact absurd (List.mem_append_right _ (by rw [← e2.1]; exact List.mem_cons_self)) hp

/-- A block text does not start with characters other than letters and digits up to a space. -/
private theorem block_start {s u v : Str} (h : ArbText s) (hu : ∃ c ∈ u, alnum c = false ∧ c ≠ ' ') (hn : '\n' ∉ u)
    (e : s = u ++ ' ' :: v) : False := by
  rcases h.2 with h | ⟨l, -, hl, rfl⟩
  · obtain ⟨c, hc, h1, h2⟩ := hu
    rcases h c (by rw [e]; exact List.mem_append_left _ hc) with h | h
    · rw [h] at h1; cases h1
    · exact h2 h
  · exact hn (space_after_nl l u v hl e)

private theorem text_heading {s : Str} (h : ArbText s) : startsHeading s = false := by
  rw [Bool.eq_false_iff]
  intro hs
  simp only [startsHeading, Bool.and_eq_true, decide_eq_true_eq, beq_iff_eq] at hs
  obtain ⟨⟨⟨h2, -⟩, hd⟩, -⟩ := hs
  have hall : ∀ c ∈ s.takeWhile (· == '#'), c = '#' := by
    intro c hc
    have := List.all_takeWhile (p := (· == '#')) (l := s)
    rw [List.all_eq_true] at this
    simpa using this c hc
  cases hq : s.dropWhile (· == '#') with
  | nil => rw [hq] at hd; simp at hd
  | cons c v =>
    rw [hq] at hd
    simp only [List.head?_cons, Option.some.injEq] at hd
    subst hd
    have e : s = s.takeWhile (· == '#') ++ ' ' :: v := by rw [← hq, List.takeWhile_append_dropWhile]
    refine block_start h ?_ ?_ e
    · cases ht : s.takeWhile (· == '#') with
      | nil => rw [ht] at h2; simp at h2
      | cons d t =>
        have := hall d (by rw [ht]; exact List.mem_cons_self)
        exact ⟨d, List.mem_cons_self, by rw [this]; decide, by rw [this]; decide⟩
    · intro hc
      exact absurd (hall _ hc) (by decide)

private theorem text_highlight {s : Str} (h : ArbText s) : starts (cs! "! ") s = false := by
  rw [Bool.eq_false_iff]
  intro hs
  obtain ⟨v, rfl⟩ := List.isPrefixOf_iff_prefix.1 hs
  exact block_start h (u := ['!']) (v := v) ⟨'!', List.mem_cons_self, by decide, by decide⟩ (by decide) rfl

private theorem inline_heading {s : Str} (h : ArbInlineText s) : startsHeading s = false := by
  rw [Bool.eq_false_iff]
  intro hs
  simp only [startsHeading, Bool.and_eq_true, beq_iff_eq] at hs
  have : ' ' ∈ s.dropWhile (· == '#') := List.mem_of_head? hs.1.2
  exact (inline_chars h _ ((List.dropWhile_sublist _).subset this)).1 rfl

private theorem text_safe {s : Str} (h : ArbText s) : safeText s = true := by
  have hi : ¬ cs! "\n\r\n" <:+: s := infix_mem (c := '\r') (by decide) (text_noCr h)
  simp [safeText, h.1, Round.leftBlankText_of hi]

private theorem inline_text_safe {s : Str} (h : ArbInlineText s) : safeText s = true := by
  have hi : ¬ cs! "\n\r\n" <:+: s := infix_mem (c := '\n') (by decide) (fun hc => (inline_chars h _ hc).2.1 rfl)
  simp [safeText, notBlank_ne h.1, Round.leftBlankText_of hi]

private theorem block_line {s : Str} (h : ArbBlockText s) : startsLine s = false := by
  have h1 := starts_one h.2.2.2
  have h2 : starts (cs! "\r\n") s = false := by
    rw [Bool.eq_false_iff]
    intro hs
    exact text_noCr h.1 ((List.isPrefixOf_iff_prefix.1 hs).subset (by decide))
  simp [startsLine, h1, h2]

private theorem block_end {s : Str} (h : ArbBlockText s) : endsLine s = false := by
  have := last_ne (text_noCr h.1)
  simp [endsLine, h.2.2.1, this]

private theorem inline_end {s : Str} (h : ArbInlineText s) : endsLine s = false := by
  have h1 : '\n' ∉ s := fun hc => (inline_chars h _ hc).2.1 rfl
  have h2 : '\r' ∉ s := fun hc => (inline_chars h _ hc).2.2 rfl
  simp [endsLine, last_ne h1, last_ne h2]

private theorem trimEndNl_id {s : Str} (h : s.getLast? ≠ some '\n') : trimEndNl s = s := by
  unfold trimEndNl
  rw [← List.head?_reverse] at h
  cases e : s.reverse with
  | nil => simpa using e.symm
  | cons c r =>
    rw [e] at h
    simp only [List.head?_cons, ne_eq, Option.some.injEq] at h
    have hb : (c == '\n') = false := by simpa using h
    rw [List.dropWhile_cons, hb]
    simp [← e]

/-! ### The tests -/

/-- **C65.** `italic_round_trip`, tests/round_trip_proptest.rs 119. -/
theorem C65_italic_round_trip (text : Str) (h : ArbInlineText text) : RoundTrips (one (.paragraph [.italic text])) :=
  C29_italic text (inline_plain h)

/-- **C65.** `emphasis_round_trip`, tests/round_trip_proptest.rs 129. -/
theorem C65_emphasis_round_trip (text : Str) (h : ArbInlineText text) : RoundTrips (one (.paragraph [.emphasis text])) :=
  C29_emphasis text (notBlank_ne h.1) (inline_plain h)

/-- **C65.** `strikethrough_round_trip`, tests/round_trip_proptest.rs 139. -/
theorem C65_strikethrough_round_trip (text : Str) (h : ArbInlineText text) :
    RoundTrips (one (.paragraph [.strikethrough text])) :=
  C29_strikethrough text (notBlank_ne h.1) (inline_plain h)

/-- **C65.** `code_span_round_trip`, tests/round_trip_proptest.rs 149. -/
theorem C65_code_span_round_trip (text : Str) (h : ArbInlineText text) : RoundTrips (one (.paragraph [.codeSpan text])) :=
  C29_code_span text (notBlank_ne h.1) (inline_plain h)

/-- **C65.** `anchor_round_trip`, tests/round_trip_proptest.rs 161. -/
theorem C65_anchor_round_trip (text url : Str) (h : ArbInlineText text) (hu : ArbUrl url) :
    RoundTrips (one (.paragraph [.anchor ⟨text, url⟩])) :=
  C30_anchor text url (inline_plain h) (plain_of (url_chars hu))

/-- **C65.** `image_round_trip`, tests/round_trip_proptest.rs 174. -/
theorem C65_image_round_trip (alt src : Str) (h : ArbInlineText alt) (hu : ArbUrl src) :
    RoundTrips (one (.image ⟨alt, src⟩)) :=
  C35_image alt src (inline_plain h) (plain_of (url_chars hu))

/-- **C65.** `bold_round_trip`, tests/round_trip_proptest.rs 187. -/
theorem C65_bold_round_trip (text : Str) (h : ArbInlineText text) : RoundTrips (one (.paragraph [.bold [.text text]])) := by
  refine one_node_reads ?_ (by simp)
  simp [safeNode, safeBoldNode, notBlank_ne h.1, inline_safe h, noClash]

/-- **C65.** `heading_round_trip`, tests/round_trip_proptest.rs 201, for texts that spell no anchor. -/
theorem C65_heading_round_trip (level : Nat) (text : Str) (h1 : 1 ≤ level) (h6 : level ≤ 6) (h : ArbHeadingText text) :
    RoundTrips (one (.heading level [.text text])) := by
  refine C33_heading level _ h1 h6 ?_ ?_ rfl (starts_one h.1.2.1)
  · simp [safeHeadingNode, notBlank_ne h.1.1, inline_safe h.1]
  · simp [plainHeading, h.2]

/-- **C65.** `heading_round_trip` can fail: the strategy draws the four pieces `[`, `]`, `(`, `)`. So can
`collapsible_round_trip_mixed_body` and `yamd_document_round_trip`, that draw the same headings. -/
theorem C65_heading_test_can_fail :
    ArbInlineText (cs! "[]()") ∧ (∀ level, 1 ≤ level → level ≤ 6 → ¬ RoundTrips (one (.heading level [.text (cs! "[]()")])))
    ∧ ¬ RoundTrips (one (.collapsible (cs! "a") [.heading 1 [.text (cs! "[]()")]])) := by
  refine ⟨⟨⟨'[', by decide, by decide, by decide⟩, by decide, .inr ⟨[cs! "[", cs! "]", cs! "(", cs! ")"], by decide, ?_, rfl⟩⟩, ?_, ?_⟩
  · intro p hp
    exact .inl ((by decide : ∀ p ∈ [cs! "[", cs! "]", cs! "(", cs! ")"], p ∈ inlinePieces) p hp)
  · unfold RoundTrips
    intro level h1 h6
    obtain rfl | rfl | rfl | rfl | rfl | rfl : level = 1 ∨ level = 2 ∨ level = 3 ∨ level = 4 ∨ level = 5 ∨ level = 6 := by omega
    all_goals decide +kernel
  · unfold RoundTrips
    decide +kernel

/-- **C65.** `code_round_trip`, tests/round_trip_proptest.rs 214. -/
theorem C65_code_round_trip (lang code : Str) (h : ArbInlineText lang) (hc : ArbBlockText code) :
    RoundTrips (one (.newCode lang code)) := by
  rw [YamdNode.newCode, trimEndNl_id hc.2.2.1]
  refine C34_code lang code (last_ne fun hm => (inline_chars h _ hm).2.2 rfl) ?_ ?_ ?_ hc.2.2.1
  · rintro ⟨t, rfl⟩; exact hc.2.2.2 rfl
  · rintro ⟨t, rfl⟩; exact text_noCr hc.1 (by simp)
  · rintro rfl; exact text_noCr hc.1 (by simp)

/-- **C65.** `embed_round_trip`, tests/round_trip_proptest.rs 227. -/
theorem C65_embed_round_trip (kind args : Str) (_ : ArbInlineText kind) (_ : ArbBlockText args) :
    RoundTrips (one (.embed kind args)) := C36_embed kind args

/-- **C65.** `highlight_round_trip`, tests/round_trip_proptest.rs 242. -/
theorem C65_highlight_round_trip (title icon : Option Str) (body : Str) (ht : ∀ t, title = some t → ArbInlineText t)
    (hi : ∀ i, icon = some i → ArbInlineText i) (hb : ArbBlockText body) :
    RoundTrips (one (.highlight title icon [[.text body]])) := by
  refine C38_highlight title icon _ (fun t e => inline_line (ht t e)) (fun i e => inline_line (hi i e)) ?_ (by simp) ?_ ?_
  · exact fun _ => text_highlight hb.1
  · intro p hp
    rw [List.mem_singleton] at hp
    subst hp
    simp [safeHighlightParagraph, safeInline, safeNode, text_safe hb.1, noClash, trailingText, block_end hb]
  · exact block_line hb

/-- **C65.** `list_round_trip`, tests/round_trip_proptest.rs 260: any number of items. -/
theorem C65_list_round_trip (ty : ListTypes) (items : List Str) (hne : items ≠ []) (h : ∀ t ∈ items, ArbItemText t) :
    RoundTrips (one (.list (.mk ty 0 (items.map fun t => .mk [.text t] none)))) := by
  refine C39_flat_list ty items hne fun t ht => ?_
  obtain ⟨hb, hs⟩ := h t ht
  refine ⟨hb.1.1, hs, hb.2.2.1, last_ne (text_noCr hb.1), Round.leftBlankText_of (infix_mem (c := '\r') (by decide) (text_noCr hb.1)), ?_⟩
  rintro ⟨u, m, y, rfl, -⟩
  have := text_noPair hb.1
  rw [noPair_not] at this
  cases this

/-- **C65.** `collapsible_round_trip`, tests/round_trip_proptest.rs 282. -/
theorem C65_collapsible_round_trip (title body : Str) (ht : ArbInlineText title) (hb : ArbBlockText body) :
    RoundTrips (one (.collapsible title [.paragraph [.text body]])) := by
  refine C40_collapsible title _ (inline_line ht) ?_ ?_ ?_
  · simp [safeBlocks, safeBlock, safeLeaf, safeInline, safeNode, text_safe hb.1, noClash, leadingText, text_heading hb.1, imageLines]
  · simp [endsClean, trailingText, Round.endsLine_shown (block_end hb)]
  · rintro n ⟨⟩; simp [startsClean, leadingText, Round.startsLine_shown (block_line hb)]

/-- A drawn block is safe, in a document and in a collapsible. -/
private theorem node_safe {inColl : Bool} {n : YamdNode} (h : ArbYamdNode ArbHeadingText n) :
    safeBlock inColl n = true ∧ endsClean n = true ∧ startsClean n = true := by
  cases n with
  | paragraph p =>
    obtain ⟨n, hn, rfl⟩ := h
    cases n with
    | text t =>
      have h0 : startsLine t = false := by
        have a : '\n' ∉ t := fun hc => (inline_chars hn _ hc).2.1 rfl
        have h1 := starts_one (head_ne a)
        have h2 : starts (cs! "\r\n") t = false := by
          rw [Bool.eq_false_iff]
          exact fun hs => a ((List.isPrefixOf_iff_prefix.1 hs).subset (by decide))
        simp [startsLine, h1, h2]
      have e := inline_end hn
      refine ⟨?_, by simp [endsClean, trailingText, Round.endsLine_shown e], by simp [startsClean, leadingText, Round.startsLine_shown h0]⟩
      simp [safeBlock, safeLeaf, safeInline, safeNode, inline_text_safe hn, noClash, leadingText, inline_heading hn, imageLines]
    | italic t => exact ⟨by simp only [safeBlock, safeLeaf, safeInline, safeNode, List.all_cons, inline_safe hn]; rfl, rfl, rfl⟩
    | emphasis t =>
      have := notBlank_ne hn.1
      exact ⟨by simp only [safeBlock, safeLeaf, safeInline, safeNode, List.all_cons, inline_safe hn]; simp [this, noClash, imageLines, leadingText]; decide, rfl, rfl⟩
    | strikethrough t =>
      have := notBlank_ne hn.1
      exact ⟨by simp only [safeBlock, safeLeaf, safeInline, safeNode, List.all_cons, inline_safe hn]; simp [this, noClash, imageLines, leadingText]; decide, rfl, rfl⟩
    | codeSpan t =>
      have := notBlank_ne hn.1
      exact ⟨by simp only [safeBlock, safeLeaf, safeInline, safeNode, List.all_cons, inline_safe hn]; simp [this, noClash, imageLines, leadingText]; decide, rfl, rfl⟩
    | anchor a =>
      exact ⟨by simp only [safeBlock, safeLeaf, safeInline, safeNode, safeAnchor, List.all_cons, inline_safe hn.1, safe_of (url_chars hn.2)]; rfl, rfl, rfl⟩
    | bold l =>
      obtain ⟨t, ht, rfl⟩ := hn
      have hs : safeBody ⟨inColl⟩ t = true := safe_of fun c hc => (alnum_ne (ht.2 c hc)).2.1
      have := ht.1
      exact ⟨by simp only [safeBlock, safeLeaf, safeInline, safeNode, safeBoldNode, List.all_cons, hs]; simp [this, noClash, imageLines, leadingText]; decide, rfl, rfl⟩
  | heading level b =>
    obtain ⟨h1, h6, t, ht, rfl⟩ := h
    have := notBlank_ne ht.1.1
    refine ⟨?_, by simp [endsClean, trailingHeadingText, inline_end ht.1], rfl⟩
    simp [safeBlock, safeLeaf, h1, h6, safeHeadingNode, this, inline_safe ht.1, plainHeading, ht.2, noClash, leadingHeadingText,
      starts_one ht.1.2.1]
  | image i => exact ⟨by simp [safeBlock, safeLeaf, safeImage, inline_safe h.1, safe_of (url_chars h.2)], rfl, rfl⟩
  | images l =>
    have : l.all (safeImage ⟨inColl⟩) = true := by
      rw [List.all_eq_true]
      intro i hi
      simp [safeImage, inline_safe (h.2 i hi).1, safe_of (url_chars (h.2 i hi).2)]
    exact ⟨by simp [safeBlock, safeLeaf, h.1, this], rfl, rfl⟩
  | code lang code =>
    obtain ⟨c, hl, hc, rfl⟩ := h
    rw [trimEndNl_id hc.2.2.1]
    refine ⟨?_, rfl, rfl⟩
    have h1 : lang.getLast? ≠ some '\r' := last_ne fun hm => (inline_chars hl _ hm).2.2 rfl
    have h2 : startsLine (c ++ if c.isEmpty then [] else cs! "\n") = false := by
      cases c with
      | nil => exact absurd rfl hc.1.1
      | cons x c =>
        have a : x ≠ '\n' := by have := hc.2.2.2; simpa using this
        have b : x ≠ '\r' := by rintro rfl; exact text_noCr hc.1 List.mem_cons_self
        simp [startsLine, starts, List.isPrefixOf, Ne.symm a, Ne.symm b]
    simp only [safeBlock, safeLeaf, h2]
    simp [h1, hc.2.2.1]
  | thematicBreak => exact ⟨rfl, rfl, rfl⟩
  | embed kind args =>
    have : ¬ cs! "\n%}" <:+: kind := infix_mem (c := '\n') (by decide) (fun hc => (inline_chars h.1 _ hc).2.1 rfl)
    exact ⟨by simp [safeBlock, safeLeaf, noCloseLine, occurs, this], rfl, rfl⟩
  | list l => exact h.elim
  | highlight t i p => exact h.elim
  | collapsible t b => exact h.elim

private theorem nodes_safe {inColl : Bool} : ∀ {l : List YamdNode}, (∀ n ∈ l, ArbYamdNode ArbHeadingText n) → safeBlocks inColl l = true
  | [], _ => rfl
  | n :: l, h => by
    rw [safeBlocks, (node_safe (h n (.head _))).1, nodes_safe fun m hm => h m (.tail _ hm)]; rfl

/-- **C65.** `collapsible_round_trip_mixed_body`, tests/round_trip_proptest.rs 298, when no heading text spells an anchor. -/
theorem C65_mixed_body_round_trip (title : Str) (body : List YamdNode) (ht : ArbInlineText title)
    (hb : ∀ n ∈ body, ArbYamdNode ArbHeadingText n) : RoundTrips (one (.collapsible title body)) := by
  refine C40_collapsible title body (inline_line ht) (nodes_safe hb) (fun n hn => (node_safe (inColl := false) (hb n hn)).2.1) ?_
  intro n hn
  exact (node_safe (inColl := false) (hb n (List.mem_of_head? hn))).2.2

/-- **C65.** `yamd_document_round_trip`, tests/round_trip_proptest.rs 364, when no heading text spells an anchor. -/
theorem C65_document_round_trip (metadata : Option Str) (body : List YamdNode) (h : ArbYamd ArbHeadingText metadata body) :
    RoundTrips (Yamd.new metadata body) := by
  obtain ⟨hm, -, hb⟩ := h
  refine C41_documents_round_trip _ ?_
  have h1 : safeBlocks false body = true := nodes_safe hb
  have h2 : body.dropLast.all endsClean = true := by
    rw [List.all_eq_true]
    exact fun n hn => (node_safe (inColl := false) (hb n (List.dropLast_subset _ hn))).2.1
  cases metadata with
  | none => simp [safeDocument, Yamd.new, h1, h2]
  | some m =>
    obtain ⟨-, hc⟩ := hm m rfl
    have hne : ∀ c ∈ m, c ≠ '\n' ∧ c ≠ '-' ∧ c ≠ '\\' := by
      intro c hm
      rcases hc c hm with h | rfl | rfl
      · exact ⟨(alnum_ne h).2.1, (alnum_ne h).2.2.2.2.2.1, (alnum_ne h).2.2.2.2.2.2⟩
      · decide
      · decide
    have ha : '\n' ∉ m := fun hc => (hne _ hc).1 rfl
    have hbs : '\\' ∉ m := fun hc => (hne _ hc).2.2 rfl
    have e1 : m.dropWhile (· == '\n') = m := by
      cases m with
      | nil => rfl
      | cons c m =>
        have : (c == '\n') = false := by simpa using (hne c List.mem_cons_self).1
        simp [this]
    have e : trimNl m = m := by rw [trimNl, e1, trimEndNl_id (last_ne ha)]
    have h3 : starts (cs! "---") m = false := by
      rw [Bool.eq_false_iff]
      exact fun hs => (hne '-' ((List.isPrefixOf_iff_prefix.1 hs).subset (by decide))).2.1 rfl
    have h4 : occurs (cs! "\n---") m = false := by
      simpa [occurs] using infix_mem (c := '\n') (p := cs! "\n---") (by decide) ha
    simp [safeDocument, Yamd.new, safeMetadata, e, hbs, Round.startsFence_of h3, Round.fenceLine_of h4, h1, h2]

/-! ### The strategies are not empty -/

private theorem sampleInline : ArbInlineText (cs! "a*[%}\\**_") := by
  refine ⟨⟨'a', by decide, by decide, by decide⟩, by decide, .inr ⟨[cs! "a", cs! "*", cs! "[", cs! "%}", cs! "\\", cs! "**", cs! "_"], by decide, ?_, rfl⟩⟩
  intro p hp
  simp only [List.mem_cons, List.not_mem_nil, or_false] at hp
  rcases hp with rfl | rfl | rfl | rfl | rfl | rfl | rfl
  · exact .inr ⟨by decide, by decide⟩
  all_goals exact .inl (by decide)

private theorem sampleBlock : ArbBlockText (cs! "a\n- \n%}\n\n```") := by
  refine ⟨⟨by decide, .inr ⟨[cs! "a", cs! "\n- ", cs! "\n%}", cs! "\n", cs! "\n```"], by decide, ?_, rfl⟩⟩, ⟨'a', by decide, by decide, by decide⟩, by decide, by decide⟩
  intro p hp
  simp only [List.mem_cons, List.not_mem_nil, or_false] at hp
  rcases hp with rfl | rfl | rfl | rfl | rfl
  · exact .inr ⟨by decide, by decide⟩
  all_goals exact .inl (by decide)

private theorem sampleUrl : ArbUrl (cs! "a/b()[") := ⟨by decide, by decide⟩

example : RoundTrips (one (.highlight (some (cs! "a*[%}\\**_")) none [[.text (cs! "a\n- \n%}\n\n```")]])) :=
  C65_highlight_round_trip _ _ _ (by rintro t ⟨⟩; exact sampleInline) (by rintro t ⟨⟩) sampleBlock

example : RoundTrips (one (.list (.mk .Ordered 0 ([cs! "a\n- \n%}\n\n```", cs! "a\n- \n%}\n\n```"].map fun t => .mk [.text t] none)))) :=
  C65_list_round_trip _ _ (by decide) (by
    intro t ht
    have : t = cs! "a\n- \n%}\n\n```" := by simpa using ht
    subst this
    exact ⟨sampleBlock, by decide⟩)

example : ArbYamd ArbHeadingText (some (cs! "title: a b"))
    [.heading 2 [.text (cs! "a*[%}\\**_")], .paragraph [.anchor ⟨cs! "a*[%}\\**_", cs! "a/b()["⟩],
     .images [⟨cs! "a*[%}\\**_", cs! "a/b()["⟩, ⟨cs! "a*[%}\\**_", cs! "a/b()["⟩],
     .newCode (cs! "a*[%}\\**_") (cs! "a\n- \n%}\n\n```"), .embed (cs! "a*[%}\\**_") (cs! "a\n- \n%}\n\n```")] := by
  refine ⟨?_, by simp, ?_⟩
  · rintro m ⟨⟩
    exact ⟨⟨'t', by decide, by decide, by decide⟩, by decide⟩
  · intro n hn
    simp only [List.mem_cons, List.not_mem_nil, or_false] at hn
    rcases hn with rfl | rfl | rfl | rfl | rfl
    · exact ⟨by decide, by decide, _, ⟨sampleInline, by decide⟩, rfl⟩
    · exact ⟨.anchor _, ⟨sampleInline, sampleUrl⟩, rfl⟩
    · refine ⟨by decide, ?_⟩
      intro i hi
      simp only [List.mem_cons, List.not_mem_nil, or_false, or_self] at hi
      subst hi
      exact ⟨sampleInline, sampleUrl⟩
    · exact ⟨_, sampleInline, sampleBlock, rfl⟩
    · exact ⟨sampleInline, sampleBlock⟩

end Yamd.Props
