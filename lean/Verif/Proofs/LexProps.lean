import Verif.Proofs.LexJoin

/-! # Lemmas for the lexer properties -/

namespace Yamd.Props

open Yamd Yamd.Lexer Yamd.Spec

theorem next_spec (st : Lx) :
    ∃ s, Lexer.next st = .ok ((drain st).head?, s) ∧ drain s = (drain st).tail := by
  obtain ⟨s, e1, e2, e3, -⟩ := advance_spec (st.iter.length + 1) st (by omega)
  unfold Lexer.next
  rw [e1]
  cases hq : s.queue with
  | nil =>
    refine ⟨s, ?_, ?_⟩
    · rw [← e2, e3 hq]
      simp only [bind, Except.bind, pure, Except.pure, hq]; rfl
    · rw [← e2, e3 hq]; rfl
  | cons t q =>
    have hs : s = addQ [t] { s with queue := q } := by
      unfold addQ; simp [← hq]
    have hd : drain st = t :: drain { s with queue := q } := by
      rw [← e2]; conv => lhs; rw [hs]
      rw [drain_addQ]; rfl
    refine ⟨{ s with queue := q }, ?_, ?_⟩
    · simp only [bind, Except.bind, pure, Except.pure, hq, hd]; rfl
    · rw [hd]; rfl

theorem nthNext_spec (n : Nat) : ∀ st : Lx, nthNext n st = .ok (drain st)[n]? := by
  induction n with
  | zero =>
    intro st
    obtain ⟨s, h1, -⟩ := next_spec st
    unfold nthNext; rw [h1]
    simp [bind, Except.bind, pure, Except.pure, List.head?_eq_getElem?]
  | succ n ih =>
    intro st
    obtain ⟨s, h1, h2⟩ := next_spec st
    unfold nthNext; rw [h1]
    simp only [bind, Except.bind]
    rw [ih, h2]; simp

theorem tiled_ordered (ts : List Token) : ∀ off stop, Tiled off ts stop → (∀ t ∈ ts, t.start ≤ t.stop) →
    (∀ t ∈ ts, off ≤ t.start) ∧ ts.Pairwise (fun a b => a.stop ≤ b.start) := by
  induction ts with
  | nil => intros; simp
  | cons t ts ih =>
    intro off stop h hle
    obtain ⟨h1, h2⟩ := h
    obtain ⟨h3, h4⟩ := ih _ _ h2 (fun x hx => hle x (by simp [hx]))
    have ht := hle t (by simp)
    refine ⟨?_, List.pairwise_cons.2 ⟨h3, h4⟩⟩
    intro x hx
    simp only [List.mem_cons] at hx
    rcases hx with rfl | hx
    · omega
    · have := h3 x hx; omega

theorem tokens_facts {input : Str} {t : Token} (ht : t ∈ tokens input) :
    ∃ a p c, input = a ++ (p.text ++ c) ∧ blen a = t.start ∧ t.stop = t.start + blen p.text ∧
      p ∈ pieces input ∧ t.kind = p.kind ∧ t.escaped = p.esc ∧ t.position.byteIndex = t.start ∧
      (p.esc = true → ∃ a', a = a' ++ ['\\']) := by
  have := place_facts input [] 0 0 t (by simpa [blen, tokens] using ht)
  simpa using this

theorem blen_pos {s : Str} (h : s ≠ []) : 0 < blen s := by
  cases s with
  | nil => exact absurd rfl h
  | cons c r => have := Char.utf8Size_pos c; simp [blen]; omega

theorem place_texts (s : Str) : ∀ (pre : Str) (col row : Nat),
    (place (blen pre) col row (pieces s)).flatMap (fun t => (textOf (pre ++ s) t).getD [])
      = (pieces s).flatMap Piece.text := by
  induction s using pieces_induction with
  | h0 s h => intros; rw [pieces_none h]; simp [place]
  | h1 s p r h ih =>
    intro pre col row
    rw [pieces_some h]
    have hsrc := tok1_src h
    simp only [place, List.flatMap_cons]
    congr 1
    · unfold textOf tokenOf
      simp only
      have e : pre ++ s = (pre ++ (if p.esc then ['\\'] else [])) ++ (p.text ++ r) := by
        rw [hsrc]; simp [Piece.src]
      have e2 : blen pre + (if p.esc = true then 1 else 0) = blen (pre ++ (if p.esc then ['\\'] else [])) := by
        rw [blen_append]; split <;> rfl
      rw [e, e2, slice_append _ _ _ _ rfl]; rfl
    · have e : blen pre + (if p.esc = true then 1 else 0) + blen p.text = blen (pre ++ p.src) := by
        simp only [Piece.src, blen_append]
        have := e1; split <;> simp [blen] <;> omega
      rw [e, show pre ++ s = (pre ++ p.src) ++ r by rw [hsrc]; simp]
      exact ih _ _ _

theorem blen_src_le (s : Str) : blen (srcOf (pieces s)) + (if dangling s then 1 else 0) = blen s := by
  conv => rhs; rw [pieces_src s]
  rw [blen_append]
  have := e1
  split <;> simp [blen, this]

theorem head_of_src {s r : Str} {p : Piece} (h : tok1 s = some (p, r)) (he : p.esc = false) :
    s.head? = p.text.head? := by
  have := tok1_src h
  have hne := form_ne_nil (tok1_form h).1
  obtain ⟨e, k, t⟩ := p
  simp only at he hne; subst he
  cases t with
  | nil => exact absurd rfl hne
  | cons c t => rw [this]; simp [Piece.src]

theorem dropWhile_head {c : Char} {r : Str} : (r.dropWhile (· == c)).head? ≠ some c := by
  induction r with
  | nil => simp
  | cons d r ih =>
    by_cases hd : d = c
    · simpa [hd] using ih
    · simp [hd]

theorem tok1_tail {s r : Str} {p : Piece} (h : tok1 s = some (p, r)) :
    (p.kind = .Literal → litStop r = true) ∧ (p.kind = .Eol → lineBreak r = none) ∧
    (∀ c, runCharOf p.kind = some c → r.head? ≠ some c) := by
  cases s with
  | nil => simp [tok1] at h
  | cons c s =>
    rw [tok1.eq_def] at h; simp only at h
    split at h
    · split at h
      · simp at h
      · simp only [Option.some.injEq, Prod.mk.injEq] at h; obtain ⟨rfl, rfl⟩ := h
        simp [runCharOf, takeLit_rest]
    · split at h
      · split at h
        · simp only [Option.some.injEq, Prod.mk.injEq] at h; obtain ⟨rfl, rfl⟩ := h
          simp [runCharOf]
        · rename_i h2
          simp only [Option.some.injEq, Prod.mk.injEq] at h; obtain ⟨rfl, rfl⟩ := h
          simp [runCharOf, h2]
      · simp only [Option.some.injEq] at h
        rw [tokPlain] at h
        split at h
        · simp only [Prod.mk.injEq] at h; obtain ⟨rfl, rfl⟩ := h; simp [runCharOf]
        · split at h
          · simp only [Prod.mk.injEq] at h; obtain ⟨rfl, rfl⟩ := h; simp [runCharOf]
          · split at h
            · rename_i k hk
              simp only [Prod.mk.injEq] at h; obtain ⟨rfl, rfl⟩ := h
              have hs := runKind_size hk
              have hc := runKind_char hk
              refine ⟨fun e => absurd e hs.2.2.2.2.2.2.2, fun e => absurd e hs.2.2.2.2.2.1, ?_⟩
              intro d hd
              simp only at hd
              rw [hc] at hd
              simp only [Option.some.injEq] at hd; subst hd
              exact dropWhile_head
            · split at h
              · rename_i k hk
                simp only [Prod.mk.injEq] at h; obtain ⟨rfl, rfl⟩ := h
                have hs := singleKind_size hk
                have hc := (singleKind_char hk).2
                exact ⟨fun e => absurd e hs.2.2.2.2.2.2.2.2.1, fun e => absurd e hs.2.2.2.2.2.2.1,
                  by simp [hc]⟩
              · simp only [Prod.mk.injEq] at h; obtain ⟨rfl, rfl⟩ := h
                simp [runCharOf, takeLit_rest]

theorem tok1_next {s r r' : Str} {p q : Piece} (h : tok1 s = some (p, r)) (h' : tok1 r = some (q, r'))
    (hq : q.esc = false) : ¬ Mergeable p.kind q.kind := by
  obtain ⟨t1, t2, t3⟩ := tok1_tail h
  have hf := (tok1_form h').1
  have hh := head_of_src h' hq
  rintro (⟨e, hr | hl⟩ | ⟨e1, e2⟩ | ⟨e1, e2⟩)
  · cases hc : runCharOf p.kind with
    | none => exact hr hc
    | some c =>
      have := t3 c hc
      rw [e] at hc
      rw [kindText_run hc] at hf
      cases hqt : q.text with
      | nil => exact hf.1 hqt
      | cons d t =>
        rw [hh, hqt] at this
        exact this (by simp [hf.2 d (by simp [hqt])])
  · have hs := t1 hl
    rw [hl] at e
    rw [← e, hq] at hf
    obtain ⟨c, l, hq2, -, h4⟩ := hf
    obtain ⟨h5, h6⟩ := h4 rfl
    rw [specials_eq] at h5
    cases hrr : r with
    | nil => rw [hrr] at h'; simp [tok1] at h'
    | cons d r2 =>
      rw [hrr] at hs hh h'
      rw [hq2] at hh
      simp only [List.head?_cons, Option.some.injEq] at hh; subst hh
      rcases litStop_cases hs with e | ⟨e, e'⟩ | ⟨e, e'⟩ | e | ⟨_, k, hk⟩ | ⟨k, hk⟩
      · subst e; exact h5 (by decide)
      · subst e
        cases r2 with
        | nil => simp at e'
        | cons x r2 =>
          simp only [List.head?_cons, Option.some.injEq] at e'; subst e'
          rw [tok1] at h'
          simp only [show ('\r' = '\\') = False by decide, if_false, lineBreak] at h'
          split at h' <;> simp only [Option.some.injEq, Prod.mk.injEq] at h' <;> rw [← h'.1] at e <;>
            simp at e
      · subst e
        cases r2 with
        | nil => simp at e'
        | cons x r2 =>
          simp only [List.head?_cons, Option.some.injEq] at e'; subst e'
          rw [tok1_plain (by decide) (lineBreak_ne (by decide) (by simp))] at h'
          simp [tokPlain] at h'
          rw [← h'.1] at e; simp at e
      · subst e; exact h5 (by decide)
      · rcases runKind_cases hk with h | h | h | h | h | h | h | h | h | h | h <;>
          obtain ⟨rfl, rfl⟩ := h <;> first | exact h5 (by decide) | exact h6 rfl
      · rcases singleKind_cases hk with h | h | h | h | h | h <;>
          obtain ⟨rfl, rfl⟩ := h <;> exact h5 (by decide)
  · have hn := t2 e1
    have : ∀ c l, q.text = c :: l → c = '\n' ∨ (c = '\r' ∧ r.tail.head? = some '\n') := by
      intro c l hql
      have hsrc := tok1_src h'
      simp only [Piece.src, hq, Bool.false_eq_true, if_false, List.nil_append] at hsrc
      rcases e2 with e2 | e2 <;> rw [e2] at hf
      · rcases hf with hf | hf <;> rw [hf] at hql hsrc <;> simp at hql
        · left; exact hql.1.symm
        · right; rw [hsrc]; simp [hql.1.symm]
      · obtain ⟨a, b, ha, -, hab⟩ := hf
        rw [hab] at hql hsrc
        rcases ha with ha | ha <;> rw [ha] at hql hsrc <;> simp at hql
        · left; exact hql.1.symm
        · right; rw [hsrc]; simp [hql.1.symm]
    cases hqt : q.text with
    | nil => exact form_ne_nil hf hqt
    | cons c l =>
      cases hrr : r with
      | nil => rw [hrr] at h'; simp [tok1] at h'
      | cons d r2 =>
        rw [hrr] at hh hn this
        rw [hqt] at hh
        simp only [List.head?_cons, Option.some.injEq] at hh; subst hh
        rcases this _ _ hqt with e | ⟨e, e'⟩
        · subst e; simp [lineBreak] at hn
        · subst e
          cases r2 with
          | nil => simp at e'
          | cons x r2 => simp at e'; subst e'; simp [lineBreak] at hn
  · have hs := t1 e1
    rw [kindText_run (show runCharOf q.kind = some ' ' by rw [e2]; rfl)] at hf
    cases hqt : q.text with
    | nil => exact hf.1 hqt
    | cons d t =>
      have hd := hf.2 d (by simp [hqt])
      cases hrr : r with
      | nil => rw [hrr] at h'; simp [tok1] at h'
      | cons x r2 =>
        rw [hrr] at hs hh
        rw [hqt, hd] at hh
        simp only [List.head?_cons, Option.some.injEq] at hh
        subst hh
        have : (' ' ∈ stopChars) = False := by decide
        simp [litStop, this] at hs

theorem place_chain (s : Str) : ∀ off col row l1 a b l2,
    place off col row (pieces s) = l1 ++ a :: b :: l2 → b.escaped = false → ¬ Mergeable a.kind b.kind := by
  induction s using pieces_induction with
  | h0 s h => intro off col row l1 a b l2 he; rw [pieces_none h] at he; simp [place] at he
  | h1 s p r h ih =>
    intro off col row l1 a b l2 he hb
    rw [pieces_some h, place] at he
    cases l1 with
    | cons x l1 =>
      simp only [List.cons_append, List.cons.injEq] at he
      exact ih _ _ _ _ _ _ _ he.2 hb
    | nil =>
      simp only [List.nil_append, List.cons.injEq] at he
      obtain ⟨rfl, he⟩ := he
      cases ht : tok1 r with
      | none => rw [pieces_none ht] at he; simp [place] at he
      | some y =>
        rw [pieces_some (p := y.1) (r := y.2) ht, place] at he
        simp only [List.cons.injEq] at he
        obtain ⟨rfl, -⟩ := he
        exact tok1_next h ht hb

theorem place_positions (s : Str) : ∀ (pre : Str) (col row : Nat) l1 t l2,
    place (blen pre) col row (pieces s) = l1 ++ t :: l2 →
    t.position.row = row + rowsOf l1 ∧ t.position.column = columnAfter (pre ++ s) col l1 := by
  induction s using pieces_induction with
  | h0 s h => intro pre col row l1 t l2 he; rw [pieces_none h] at he; simp [place] at he
  | h1 s p r h ih =>
    intro pre col row l1 t l2 he
    rw [pieces_some h, place] at he
    cases l1 with
    | nil =>
      simp only [List.nil_append, List.cons.injEq] at he
      rw [← he.1]
      simp [tokenOf, rowsOf, columnAfter]
    | cons x l1 =>
      simp only [List.cons_append, List.cons.injEq] at he
      obtain ⟨hx, he⟩ := he
      have hsrc := tok1_src h
      have e : blen pre + (if p.esc = true then 1 else 0) + blen p.text = blen (pre ++ p.src) := by
        simp only [Piece.src, blen_append]
        have := e1; split <;> simp [blen] <;> omega
      rw [e] at he
      obtain ⟨h1, h2⟩ := ih _ _ _ _ _ _ he
      have e3 : (pre ++ p.src) ++ r = pre ++ s := by rw [hsrc]; simp
      rw [e3] at h2
      have htxt : (textOf (pre ++ s) x).getD [] = p.text := by
        rw [← hx]
        unfold textOf tokenOf
        simp only
        have e : pre ++ s = (pre ++ (if p.esc then ['\\'] else [])) ++ (p.text ++ r) := by
          rw [hsrc]; simp [Piece.src]
        have e2 : blen pre + (if p.esc = true then 1 else 0) = blen (pre ++ (if p.esc then ['\\'] else [])) := by
          rw [blen_append]; split <;> rfl
        rw [e, e2, slice_append _ _ _ _ rfl]; rfl
      have hk : x.kind = p.kind := by rw [← hx]; rfl
      rw [h1, h2]
      simp only [rowsOf, columnAfter, hk, htxt, advancePos]
      cases p.kind <;> simp <;> omega

end Yamd.Props
