import Verif.Proofs.LexProps

/-!
# Lexer properties C01-C07

`Lexer.lex input` is the modelled `Lexer::new(input).collect::<Vec<_>>()`; it can fail (`R`), so every
theorem states that it succeeds and what it returns. The vocabulary is in `Spec/LexProps.lean`.
-/

namespace Yamd.Props

open Yamd Yamd.Lexer Yamd.Spec

/-- **C01.** Iterating the lexer never panics and yields a finite list `ts` of tokens, at most one per
character; the `n`-th call of `next` returns the `n`-th of them, and `None` for ever after. -/
theorem C01_lexer_total_and_fused (input : Str) :
    ∃ ts, Lexer.lex input = .ok ts ∧ ts.length ≤ input.length ∧
      ∀ n, nthNext n (Lexer.new input) = .ok ts[n]? := by
  refine ⟨tokens input, lex_eq input, ?_, ?_⟩
  · rw [tokens, place_length]; exact pieces_length (Nat.le_refl _)
  · intro n; rw [nthNext_spec, drain_new]

/-- **C02.** Every token's byte range is non-empty and inside the input, slicing it never panics and
gives a non-empty text, its recorded byte index is its start, and tokens come in source order. -/
theorem C02_token_ranges_valid_and_ordered (input : Str) :
    ∃ ts, Lexer.lex input = .ok ts ∧
      (∀ t ∈ ts, t.start < t.stop ∧ t.stop ≤ blen input ∧ t.position.byteIndex = t.start ∧
        ∃ s, textOf input t = some s ∧ s ≠ []) ∧
      ts.Pairwise (fun a b => a.stop ≤ b.start) := by
  have hall : ∀ t ∈ tokens input, t.start < t.stop ∧ t.stop ≤ blen input ∧
      t.position.byteIndex = t.start ∧ ∃ s, textOf input t = some s ∧ s ≠ [] := by
    intro t ht
    obtain ⟨a, p, c, h1, h2, h3, h4, h5, h6, h7, h8⟩ := tokens_facts ht
    have hne := form_ne_nil (pieces_form _ p h4).1
    have := blen_pos hne
    refine ⟨by omega, ?_, h7, p.text, ?_, hne⟩
    · rw [h1, blen_append, blen_append]; omega
    · unfold textOf; rw [← h2] at h3 ⊢; conv => lhs; rw [h1]
      exact slice_append a p.text c _ h3
  refine ⟨tokens input, lex_eq input, hall, ?_⟩
  exact (tiled_ordered _ _ _ (place_tiled _ _ _ _) (fun t ht => Nat.le_of_lt (hall t ht).1)).2

/-- **C03.** The token texts, concatenated, are the input with exactly its escape backslashes removed. -/
theorem C03_lexing_is_lossless (input : Str) :
    ∃ ts, Lexer.lex input = .ok ts ∧
      ts.flatMap (fun t => (textOf input t).getD []) = unescape input := by
  refine ⟨tokens input, lex_eq input, ?_⟩
  have := place_texts input [] 0 0
  simp only [blen, List.nil_append] at this
  rw [tokens, this, pieces_text]

/-- **C04.** (i) The character after a backslash that is not itself escaped is the first character of
a `Literal` token with the escaped flag. (ii) A token with the escaped flag is a `Literal` and directly
follows a backslash. (iii) Escaped tokens are preceded by a one-byte gap, all others follow the
previous token without gap, and after the last token only a dangling backslash can remain. -/
theorem C04_backslash_neutralises (input : Str) :
    ∃ ts, Lexer.lex input = .ok ts ∧
      (∀ a c b, input = a ++ '\\' :: c :: b → dangling a = false →
        ∃ t ∈ ts, t.start = blen a + 1 ∧ t.kind = .Literal ∧ t.escaped = true) ∧
      (∀ t ∈ ts, t.escaped = true → t.kind = .Literal ∧
        ∃ a b, input = a ++ '\\' :: b ∧ blen a + 1 = t.start) ∧
      ∃ stop, Tiled 0 ts stop ∧ stop + (if dangling input then 1 else 0) = blen input := by
  refine ⟨tokens input, lex_eq input, ?_, ?_, blen (srcOf (pieces input)), ?_, blen_src_le input⟩
  · rintro a c b rfl hd
    have hj : ∀ p, (pieces a).getLast? = some p → joinOk p ('\\' :: c :: b) = true := by
      intro p _
      have hl : litStop ('\\' :: c :: b) = true := by simp [litStop, stopChars]
      have hb : lineBreak ('\\' :: c :: b) = none := lineBreak_ne (by decide) (by simp)
      unfold joinOk
      cases p.kind <;> simp [runCharOf, hl, tailOk, hb]
    rw [tokens, pieces_append a _ hd hj, place_append, pieces_some (tok1_esc c b)]
    simp only [place]
    refine ⟨_, List.mem_append_right _ (List.mem_cons_self ..), ?_, rfl, rfl⟩
    simp only [tokenOf, if_true, endPos_off]
    have := blen_src_le a
    rw [hd] at this; simp at this; omega
  · intro t ht he
    obtain ⟨a, p, c, h1, h2, h3, h4, h5, h6, h7, h8⟩ := tokens_facts ht
    rw [h6] at he
    obtain ⟨a', rfl⟩ := h8 he
    refine ⟨by rw [h5]; exact (pieces_form _ p h4).2 he, a', p.text ++ c, by rw [h1]; simp, ?_⟩
    rw [← h2, blen_append]; simp [blen, e1]
  · have := place_tiled (pieces input) 0 0 0
    simpa [tokens] using this

/-- **C05.** Every token's text has the form documented for its kind, and neighbours without a removed
backslash between them could not have been one token (runs are maximal, an `Eol` is never followed by
another line break, literals are maximal and take in the spaces after them). -/
theorem C05_kind_agrees_with_text (input : Str) :
    ∃ ts, Lexer.lex input = .ok ts ∧
      (∀ t ∈ ts, ∃ s, textOf input t = some s ∧ KindText t.kind t.escaped s) ∧
      (∀ l1 a b l2, ts = l1 ++ a :: b :: l2 → b.escaped = false → ¬ Mergeable a.kind b.kind) := by
  refine ⟨tokens input, lex_eq input, ?_, ?_⟩
  · intro t ht
    obtain ⟨a, p, c, h1, h2, h3, h4, h5, h6, h7, h8⟩ := tokens_facts ht
    refine ⟨p.text, ?_, by rw [h5, h6]; exact (pieces_form _ p h4).1⟩
    unfold textOf; rw [← h2] at h3 ⊢; conv => lhs; rw [h1]
    exact slice_append a p.text c _ h3
  · intro l1 a b l2 he hb
    exact place_chain input 0 0 0 l1 a b l2 he hb

/-- **C06.** The recorded position of every token is true: its byte index is the start of its range,
its row is the number of line breaks among the tokens before it, its column the number of characters
of the tokens since the last line break. -/
theorem C06_positions_are_truthful (input : Str) :
    ∃ ts, Lexer.lex input = .ok ts ∧
      ∀ l1 t l2, ts = l1 ++ t :: l2 →
        t.position.byteIndex = t.start ∧ t.position.row = rowsOf l1 ∧
        t.position.column = columnAfter input 0 l1 := by
  refine ⟨tokens input, lex_eq input, ?_⟩
  intro l1 t l2 he
  have hm : t ∈ tokens input := by rw [he]; simp
  obtain ⟨a, p, c, h1, h2, h3, h4, h5, h6, h7, h8⟩ := tokens_facts hm
  have := place_positions input [] 0 0 l1 t l2 (by simpa [blen, tokens] using he)
  rw [Nat.zero_add] at this
  exact ⟨h7, this⟩

/-- **C07.** A blank line is a lexing boundary: the tokens of `a`, one `Terminator`, and the tokens of
`b` moved by the bytes and rows before them. -/
theorem C07_blank_line_is_boundary (a b : Str) (h1 : a.getLast? ≠ some '\n') (h2 : a.getLast? ≠ some '\r')
    (h3 : dangling a = false) :
    ∃ ta tb term, Lexer.lex a = .ok ta ∧ Lexer.lex b = .ok tb ∧
      Lexer.lex (a ++ ['\n', '\n'] ++ b)
        = .ok (ta ++ term :: tb.map (shiftToken (blen a + 2) (rowsOf ta + 2))) ∧
      term.kind = .Terminator ∧ term.start = blen a ∧ term.stop = blen a + 2 ∧ term.escaped = false := by
  have hsrc := pieces_src a
  rw [h3] at hsrc
  simp only [Bool.false_eq_true, if_false, List.append_nil] at hsrc
  have hj : ∀ p, (pieces a).getLast? = some p → joinOk p ('\n' :: '\n' :: b) = true := by
    intro p hp
    obtain ⟨l, hl⟩ : ∃ l, pieces a = l ++ [p] := by
      rw [List.getLast?_eq_some_iff] at hp
      exact hp
    obtain ⟨hf, hf2⟩ := pieces_form a p (by rw [hl]; simp)
    have hlast : a.getLast? = p.text.getLast? := by
      rw [hsrc, hl]
      have hne := form_ne_nil hf
      simp only [srcOf, List.flatMap_append, List.flatMap_cons, List.flatMap_nil, List.append_nil,
        Piece.src]
      rw [← List.append_assoc, List.getLast?_append]
      cases hpt : p.text.getLast? with
      | none => exact absurd (List.getLast?_eq_none_iff.1 hpt) hne
      | some x => rfl
    rw [hlast] at h1 h2
    have hstop : litStop ('\n' :: '\n' :: b) = true := rfl
    have ht : tailOk (if p.esc then p.text.tail else p.text).getLast? ('\n' :: '\n' :: b) = true := by
      have : (if p.esc then p.text.tail else p.text).getLast? ≠ some '\r' := by
        split
        · cases hpt : p.text with
          | nil => simp
          | cons x l =>
            rw [hpt] at h2
            cases l with
            | nil => simp
            | cons y l => simpa [List.getLast?_cons_cons] using h2
        · exact h2
      simp [tailOk, this]
    have heol : p.kind ≠ .Eol := by
      intro hk; rw [hk] at hf
      rcases hf with hf | hf <;> rw [hf] at h1 <;> simp at h1
    unfold joinOk
    cases hk : p.kind <;> simp [runCharOf, hstop, ht] <;> exact absurd hk heol
  have hterm : tok1 ('\n' :: '\n' :: b) = some (⟨false, .Terminator, ['\n', '\n']⟩, b) := by
    simp [tok1, lineBreak]
  have hlen : blen ['\n', '\n'] = 2 := by decide
  have hba : blen (srcOf (pieces a)) = blen a := by rw [← hsrc]
  refine ⟨tokens a, tokens b,
    tokenOf ⟨false, .Terminator, ['\n', '\n']⟩ (blen a) (endPos (0, 0, 0) (pieces a)).2.1
      (endPos (0, 0, 0) (pieces a)).2.2, lex_eq a, lex_eq b, ?_, ?_⟩
  · rw [lex_eq, tokens, List.append_assoc]
    have := pieces_append a ('\n' :: '\n' :: b) h3 hj
    rw [show a ++ (['\n', '\n'] ++ b) = a ++ ('\n' :: '\n' :: b) from rfl, this, place_append,
      pieces_some hterm, place]
    congr 1
    rw [← tokens]
    congr 1
    congr 1
    · rw [endPos_off, hba, Nat.zero_add]
    simp only [advancePos, endPos_off, endPos_row, Nat.zero_add, hba, hlen, Bool.false_eq_true, if_false,
      Nat.add_zero]
    have := place_shift (pieces b) (blen a + 2) (rowsOf (tokens a) + 2) 0 0 0
    simp only [Nat.zero_add] at this
    exact this
  · simp only [tokenOf, endPos_off, hba, hlen]
    simp

/-- **C50.** The token sequence is the maximal-munch tokenization that `Spec/Lex.lean` writes down: cut
off the longest piece the front of the text allows, again and again, and lay the pieces out. -/
theorem C50_maximal_munch (input : Str) : Lexer.lex input = .ok (tokens input) := lex_eq input

/-! ### Concrete cases -/

example : ((Lexer.lex (cs! "{{{%}\\% }%a b")).toOption.getD []).map (textOf (cs! "{{{%}\\% }%a b"))
    = [some (cs! "{{{"), some (cs! "%}"), some (cs! "% "), some (cs! "}"), some (cs! "%a b")] := by decide +kernel

example : (Lexer.lex (cs! "a\\*b **x**\r\n\nż")).toOption.map List.length = some 7 := by decide +kernel

example : dangling (cs! "# a\\\\") = false ∧ (cs! "# a\\\\").getLast? ≠ some '\n' ∧
    (cs! "# a\\\\").getLast? ≠ some '\r' := by decide

example : cs! "x\\_y" = cs! "x" ++ '\\' :: '_' :: cs! "y" ∧ dangling (cs! "x") = false := by decide

end Yamd.Props
