import Verif.Spec.Subst
import Verif.Proofs.NaturalOps

/-!
# Lexing after a substitution
-/

namespace Yamd.Ref

open Yamd Yamd.Spec Yamd.Lexer

/-! ### Ordinary substitutions -/

section ordinary
variable {φ : Char → Str} (h : Ordinary φ)
include h

theorem subst_cons (c : Char) (s : Str) : subst φ (c :: s) = φ c ++ subst φ s := rfl

theorem subst_key {c : Char} (hc : c ∈ syntaxChars) (s : Str) : subst φ (c :: s) = c :: subst φ s := by
  rw [subst_cons h, h.keep c hc]; rfl

theorem subst_other {c : Char} (hc : c ∉ syntaxChars) : ∃ d l, φ c = d :: l ∧ d ∉ syntaxChars ∧ ∀ x ∈ l, x ∉ syntaxChars := by
  obtain ⟨h1, h2⟩ := h.ordinary c hc
  cases hd : φ c with
  | nil => exact absurd hd h1
  | cons d l => rw [hd] at h2; exact ⟨d, l, rfl, h2 d (by simp), fun x hx => h2 x (by simp [hx])⟩

theorem subst_head {x : Char} (hx : x ∈ syntaxChars) (s : Str) :
    ((subst φ s).head? = some x) ↔ (s.head? = some x) := by
  cases s with
  | nil => rfl
  | cons c r =>
    by_cases hc : c ∈ syntaxChars
    · rw [subst_key h hc]; simp
    · obtain ⟨d, l, e, hd, -⟩ := subst_other h hc
      rw [subst_cons h, e]
      simp only [List.cons_append, List.head?_cons, Option.some.injEq]
      constructor
      · rintro rfl; exact absurd hx hd
      · rintro rfl; exact absurd hx hc

omit h in
theorem litStop_plain {c : Char} (hc : c ∉ syntaxChars) (r : Str) : litStop (c :: r) = false := by
  have h1 : c ∉ stopChars := fun hh => hc (by revert hh; simp only [stopChars, syntaxChars, List.mem_cons]; tauto)
  have h2 : c ≠ '\r' := by rintro rfl; exact hc (by decide)
  have h3 : c ≠ '%' := by rintro rfl; exact hc (by decide)
  simp [litStop, h1, h2, h3]

omit h in
theorem takeLit_plain {l : Str} (hl : ∀ x ∈ l, x ∉ syntaxChars) (s : Str) :
    takeLit (l ++ s) = (l ++ (takeLit s).1, (takeLit s).2) := by
  induction l with
  | nil => rfl
  | cons c l ih =>
    rw [List.cons_append, takeLit, if_neg (by rw [litStop_plain (hl c (by simp))]; simp), ih (fun x hx => hl x (by simp [hx]))]
    rfl

theorem litStop_subst {c : Char} (hc : c ∈ syntaxChars) (r : Str) : litStop (c :: subst φ r) = litStop (c :: r) := by
  have h1 : ((subst φ r).head? == some '\n') = (r.head? == some '\n') := by
    rw [Bool.eq_iff_iff]; simpa using subst_head h (x := '\n') (by decide) r
  have h2 : ((subst φ r).head? == some '}') = (r.head? == some '}') := by
    rw [Bool.eq_iff_iff]; simpa using subst_head h (x := '}') (by decide) r
  simp only [litStop, h1, h2]

theorem takeLit_subst (s : Str) : takeLit (subst φ s) = (subst φ (takeLit s).1, subst φ (takeLit s).2) := by
  induction s with
  | nil => rfl
  | cons c r ih =>
    by_cases hc : c ∈ syntaxChars
    · rw [subst_key h hc, takeLit, litStop_subst h hc, ih]
      by_cases hs : litStop (c :: r) = true
      · rw [if_pos hs, takeLit_stop hs, subst_key h hc]; rfl
      · rw [if_neg hs, takeLit_go hs, subst_key h hc]
    · obtain ⟨d, l, e, hd, hl⟩ := subst_other h hc
      rw [subst_cons h, takeLit_plain (h.ordinary c hc).2, ih, takeLit_go (by rw [litStop_plain hc]; simp), subst_cons h]

theorem lineBreak_subst (s : Str) :
    lineBreak (subst φ s) = (lineBreak s).map (fun x => (x.1, subst φ x.2)) := by
  cases s with
  | nil => rfl
  | cons c r =>
    by_cases hc : c ∈ syntaxChars
    · rw [subst_key h hc]
      by_cases h1 : c = '\n'
      · subst h1; rfl
      · by_cases h2 : c = '\r' ∧ r.head? = some '\n'
        · obtain ⟨rfl, h2⟩ := h2
          cases r with
          | nil => simp at h2
          | cons d r =>
            simp only [List.head?_cons, Option.some.injEq] at h2
            subst h2
            rw [subst_key h (by decide)]; rfl
        · rw [lineBreak_ne h1 h2, lineBreak_ne h1 (by rw [subst_head h (by decide)]; exact h2)]; rfl
    · obtain ⟨d, l, e, hd, hl⟩ := subst_other h hc
      rw [subst_cons h, e, List.cons_append,
        lineBreak_ne (by rintro rfl; exact hd (by decide)) (by rintro ⟨rfl, -⟩; exact hd (by decide)),
        lineBreak_ne (by rintro rfl; exact hc (by decide)) (by rintro ⟨rfl, -⟩; exact hc (by decide))]
      rfl

theorem takeWhile_subst {c : Char} (hc : c ∈ syntaxChars) (r : Str) :
    (subst φ r).takeWhile (· == c) = subst φ (r.takeWhile (· == c)) ∧
    (subst φ r).dropWhile (· == c) = subst φ (r.dropWhile (· == c)) := by
  induction r with
  | nil => exact ⟨rfl, rfl⟩
  | cons d r ih =>
    by_cases hd : d = c
    · subst hd
      rw [subst_key h hc]
      simp only [List.takeWhile_cons, List.dropWhile_cons, beq_self_eq_true, if_true, ih, subst_key h hc, and_self]
    · have e : ((d :: r).takeWhile (· == c) = []) ∧ ((d :: r).dropWhile (· == c) = d :: r) := by
        simp [List.takeWhile_cons, List.dropWhile_cons, hd]
      rw [e.1, e.2]
      have hne : (subst φ (d :: r)).head? ≠ some c := by
        rw [Ne, subst_head h hc]; simpa using hd
      cases hs : subst φ (d :: r) with
      | nil => exact ⟨rfl, rfl⟩
      | cons x l =>
        rw [hs] at hne
        have : x ≠ c := by simpa using hne
        simp [List.takeWhile_cons, List.dropWhile_cons, this, subst]

omit h in
theorem runKind_syntax {c : Char} {k} (hk : runKind c = some k) : c ∈ syntaxChars := by
  rcases runKind_cases hk with h | h | h | h | h | h | h | h | h | h | h <;> (rw [h.1]; decide)

omit h in
theorem singleKind_syntax {c : Char} {k} (hk : singleKind c = some k) : c ∈ syntaxChars := by
  rcases singleKind_cases hk with h | h | h | h | h | h <;> (rw [h.1]; decide)

theorem tail_subst {x : Char} {r : Str} (hx : x ∈ syntaxChars) (hr : r.head? = some x) :
    (subst φ r).tail = subst φ r.tail := by
  cases r with
  | nil => rfl
  | cons c r =>
    simp only [List.head?_cons, Option.some.injEq] at hr
    subst hr
    rw [subst_key h hx]; rfl

theorem tokPlain_subst {c : Char} (hc : c ∈ syntaxChars) (r : Str) :
    tokPlain c (subst φ r) = (subP (subst φ) (tokPlain c r).1, subst φ (tokPlain c r).2) := by
  have e1 : ((subst φ r).head? = some '%') = (r.head? = some '%') := propext (subst_head h (by decide) r)
  have e2 : ((subst φ r).head? = some '}') = (r.head? = some '}') := propext (subst_head h (by decide) r)
  rw [tokPlain, tokPlain]
  simp only [e1, e2]
  by_cases h1 : c = '{' ∧ r.head? = some '%'
  · rw [if_pos h1, if_pos h1, tail_subst h (by decide) h1.2]
    simp only [subP]
    rw [subst_key h (by decide), subst_key h (by decide)]; rfl
  · rw [if_neg h1, if_neg h1]
    by_cases h2 : c = '%' ∧ r.head? = some '}'
    · rw [if_pos h2, if_pos h2, tail_subst h (by decide) h2.2]
      simp only [subP]
      rw [subst_key h (by decide), subst_key h (by decide)]; rfl
    · rw [if_neg h2, if_neg h2]
      cases hk : runKind c with
      | some k =>
        simp only [subP]
        rw [(takeWhile_subst h hc r).1, (takeWhile_subst h hc r).2, subst_key h hc]
      | none =>
        cases hk2 : singleKind c with
        | some k => simp only [subP]; rw [subst_key h hc]; rfl
        | none => simp only [subP]; rw [takeLit_subst h, subst_key h hc]

theorem tokPlain_other {c : Char} (hc : c ∉ syntaxChars) (r : Str) :
    tokPlain c r = (⟨false, .Literal, c :: (takeLit r).1⟩, (takeLit r).2) := by
  rw [tokPlain, if_neg (by rintro ⟨rfl, -⟩; exact hc (by decide)), if_neg (by rintro ⟨rfl, -⟩; exact hc (by decide))]
  cases hk : runKind c with
  | some k => exact absurd (runKind_syntax hk) hc
  | none =>
    cases hk2 : singleKind c with
    | some k => exact absurd (singleKind_syntax hk2) hc
    | none => rfl

theorem tok1_subst (s : Str) :
    tok1 (subst φ s) = (tok1 s).map (fun x => (subP (subst φ) x.1, subst φ x.2)) := by
  cases s with
  | nil => rfl
  | cons c r =>
    by_cases hb : c = '\\'
    · subst hb
      rw [subst_key h (by decide)]
      cases r with
      | nil => rfl
      | cons d r =>
        rw [tok1_esc]
        by_cases hd : d ∈ syntaxChars
        · rw [subst_key h hd, tok1_esc, takeLit_subst h]
          simp only [Option.map_some, subP]
          rw [subst_key h hd]
        · obtain ⟨x, l, e, hx, hl⟩ := subst_other h hd
          rw [subst_cons h, e, List.cons_append, tok1_esc, takeLit_plain hl, takeLit_subst h]
          simp only [Option.map_some, subP]
          rw [subst_cons h, e]; rfl
    · have hlb := lineBreak_subst h (c :: r)
      by_cases hl : lineBreak (c :: r) = none
      · rw [hl] at hlb
        rw [tok1_plain hb hl]
        by_cases hc : c ∈ syntaxChars
        · rw [subst_key h hc] at hlb ⊢
          rw [tok1_plain hb hlb, tokPlain_subst h hc]; rfl
        · obtain ⟨x, l, e, hx, hl2⟩ := subst_other h hc
          rw [subst_cons h, e, List.cons_append] at hlb ⊢
          rw [tok1_plain (by rintro rfl; exact hx (by decide)) hlb, tokPlain_other h hx, tokPlain_other h hc,
            takeLit_plain hl2, takeLit_subst h]
          simp only [Option.map_some, subP]
          rw [subst_cons h, e]; rfl
      · have hc : c ∈ syntaxChars := by
          by_cases h1 : c = '\n'
          · rw [h1]; decide
          · by_cases h2 : c = '\r' ∧ r.head? = some '\n'
            · rw [h2.1]; decide
            · exact absurd (lineBreak_ne h1 h2) hl
        obtain ⟨⟨l1, r1⟩, hl'⟩ := Option.ne_none_iff_exists'.1 hl
        rw [hl'] at hlb
        have hb1 := (lineBreak_some hl').2
        have hfix : ∀ l, IsBreak l → subst φ l = l := by
          rintro l (rfl | rfl)
          · rw [subst_key h (by decide)]; rfl
          · rw [subst_key h (by decide), subst_key h (by decide)]; rfl
        rw [subst_key h hc] at hlb ⊢
        rw [tok1.eq_def, tok1.eq_def]
        simp only [hb, if_false, hlb, hl', Option.map_some, lineBreak_subst h r1]
        cases hl2 : lineBreak r1 with
        | none => simp only [Option.map_none, Option.map_some, subP]; rw [hfix l1 hb1]
        | some y =>
          obtain ⟨l2, r2⟩ := y
          simp only [Option.map_some, subP]
          rw [show subst φ (l1 ++ l2) = subst φ l1 ++ subst φ l2 from List.flatMap_append, hfix l1 hb1,
            hfix l2 (lineBreak_some hl2).2]

theorem pieces_subst (s : Str) : pieces (subst φ s) = (pieces s).map (subP (subst φ)) := by
  induction s using pieces_induction with
  | h0 s hs =>
    have := tok1_subst h s
    rw [hs] at this
    rw [pieces_none hs, pieces_none this]; rfl
  | h1 s p r hs ih =>
    have := tok1_subst h s
    rw [hs] at this
    rw [pieces_some hs, pieces_some this, ih]; rfl

theorem subst_ne_nil {s : Str} (hs : s ≠ []) : subst φ s ≠ [] := by
  cases s with
  | nil => exact absurd rfl hs
  | cons c r =>
    rw [subst_cons h]
    by_cases hc : c ∈ syntaxChars
    · rw [h.keep c hc]; simp
    · obtain ⟨x, l, e, -⟩ := subst_other h hc
      rw [e]; simp

theorem subst_syntax {s : Str} (hs : ∀ c ∈ s, c ∈ syntaxChars) : subst φ s = s := by
  induction s with
  | nil => rfl
  | cons c r ih => rw [subst_key h (hs c (by simp)), ih (fun x hx => hs x (by simp [hx]))]

omit h in
theorem strict_syntax {k : TokenKind} {e : Bool} {s : Str} (hs : strict k = true) (hk : KindText k e s) :
    ∀ c ∈ s, c ∈ syntaxChars ∧ c ≠ '\n' := by
  intro c hc
  cases k <;> simp only [strict, Bool.false_eq_true] at hs <;>
    simp only [KindText, runCharOf, fixedText, Option.some.injEq] at hk <;>
    first
      | (rw [hk.2 c hc]; decide)
      | (rw [← hk] at hc; simp only [List.mem_cons, List.not_mem_nil, or_false] at hc; subst hc; decide)

theorem subst_ok (s : Str) : Subst (subst φ) (pieces s) := by
  intro p hp
  have hf := (pieces_form s p hp).1
  have hn := form_ne_nil hf
  exact ⟨hn, subst_ne_nil h hn, fun hs => subst_syntax h (fun c hc => (strict_syntax hs hf c hc).1)⟩

end ordinary

/-! ### Line endings -/

theorem crlf_nl (s : Str) : crlf ('\n' :: s) = '\r' :: '\n' :: crlf s := rfl

theorem crlf_cons {c : Char} (hc : c ≠ '\n') (s : Str) : crlf (c :: s) = c :: crlf s := by
  simp [crlf, subst, hc]

theorem crlf_id {s : Str} (hs : ∀ c ∈ s, c ≠ '\n') : crlf s = s := by
  induction s with
  | nil => rfl
  | cons c r ih => rw [crlf_cons (hs c (by simp)), ih (fun x hx => hs x (by simp [hx]))]

theorem crlf_head {x : Char} (hx : x ≠ '\n') (hx2 : x ≠ '\r') (s : Str) : ((crlf s).head? = some x) ↔ (s.head? = some x) := by
  cases s with
  | nil => rfl
  | cons c r =>
    by_cases hc : c = '\n'
    · subst hc
      rw [crlf_nl]
      simp only [List.head?_cons, Option.some.injEq]
      constructor
      · intro e; exact absurd e.symm hx2
      · intro e; exact absurd e.symm hx
    · rw [crlf_cons hc]; simp

theorem litStop_crlf {c : Char} (hn : c ≠ '\n') (hr : c ≠ '\r') (r : Str) : litStop (c :: crlf r) = litStop (c :: r) := by
  have h2 : ((crlf r).head? == some '}') = (r.head? == some '}') := by
    rw [Bool.eq_iff_iff]; simpa using crlf_head (x := '}') (by decide) (by decide) r
  have h3 : (c == '\r') = false := by simpa using hr
  simp only [litStop, h2, h3, Bool.false_and]

theorem takeLit_crlf {s : Str} (hs : '\r' ∉ s) : takeLit (crlf s) = (crlf (takeLit s).1, crlf (takeLit s).2) := by
  induction s with
  | nil => rfl
  | cons c r ih =>
    have hc : c ≠ '\r' := fun e => hs (by simp [e])
    have ih := ih (fun hh => hs (by simp [hh]))
    by_cases hn : c = '\n'
    · subst hn
      rw [takeLit_stop (s := '\n' :: r) rfl, crlf_nl, takeLit_stop rfl]; rfl
    · rw [crlf_cons hn, takeLit, litStop_crlf hn hc, ih]
      by_cases hst : litStop (c :: r) = true
      · rw [if_pos hst, takeLit_stop hst, crlf_cons hn]; rfl
      · rw [if_neg hst, takeLit_go hst, crlf_cons hn]

theorem lineBreak_crlf {s : Str} (hs : '\r' ∉ s) :
    lineBreak (crlf s) = (lineBreak s).map (fun x => (crlf x.1, crlf x.2)) := by
  cases s with
  | nil => rfl
  | cons c r =>
    have hc : c ≠ '\r' := fun e => hs (by simp [e])
    by_cases hn : c = '\n'
    · subst hn; rfl
    · rw [crlf_cons hn, lineBreak_ne hn (by rintro ⟨e, -⟩; exact hc e), lineBreak_ne hn (by rintro ⟨e, -⟩; exact hc e)]
      rfl

theorem takeWhile_crlf {c : Char} (hn : c ≠ '\n') (hr : c ≠ '\r') (r : Str) :
    (crlf r).takeWhile (· == c) = crlf (r.takeWhile (· == c)) ∧
    (crlf r).dropWhile (· == c) = crlf (r.dropWhile (· == c)) := by
  induction r with
  | nil => exact ⟨rfl, rfl⟩
  | cons d r ih =>
    by_cases hd : d = c
    · subst hd
      rw [crlf_cons hn]
      simp only [List.takeWhile_cons, List.dropWhile_cons, beq_self_eq_true, if_true, ih, crlf_cons hn, and_self]
    · by_cases hd2 : d = '\n'
      · subst hd2
        rw [crlf_nl]
        simp [List.takeWhile_cons, List.dropWhile_cons, Ne.symm hn, Ne.symm hr, crlf_nl]; rfl
      · rw [crlf_cons hd2]
        simp [List.takeWhile_cons, List.dropWhile_cons, hd, crlf_cons hd2]; rfl

theorem crlf_tail {x : Char} {r : Str} (hx : x ≠ '\n') (hr : r.head? = some x) : (crlf r).tail = crlf r.tail := by
  cases r with
  | nil => rfl
  | cons c r =>
    simp only [List.head?_cons, Option.some.injEq] at hr
    subst hr
    rw [crlf_cons hx]; rfl

theorem tokPlain_crlf {c : Char} {r : Str} (hn : c ≠ '\n') (hr : c ≠ '\r') (hs : '\r' ∉ r) :
    tokPlain c (crlf r) = (subP crlf (tokPlain c r).1, crlf (tokPlain c r).2) := by
  have e1 : ((crlf r).head? = some '%') = (r.head? = some '%') := propext (crlf_head (by decide) (by decide) r)
  have e2 : ((crlf r).head? = some '}') = (r.head? = some '}') := propext (crlf_head (by decide) (by decide) r)
  rw [tokPlain, tokPlain]
  simp only [e1, e2]
  by_cases h1 : c = '{' ∧ r.head? = some '%'
  · rw [if_pos h1, if_pos h1, crlf_tail (by decide) h1.2]
    rfl
  · rw [if_neg h1, if_neg h1]
    by_cases h2 : c = '%' ∧ r.head? = some '}'
    · rw [if_pos h2, if_pos h2, crlf_tail (by decide) h2.2]
      rfl
    · rw [if_neg h2, if_neg h2]
      cases hk : runKind c with
      | some k =>
        simp only [subP]
        rw [(takeWhile_crlf hn hr r).1, (takeWhile_crlf hn hr r).2, crlf_cons hn]
      | none =>
        cases hk2 : singleKind c with
        | some k => simp only [subP]; rw [crlf_cons hn]; rfl
        | none => simp only [subP]; rw [takeLit_crlf hs, crlf_cons hn]

theorem lineBreak_lf {s : Str} (hs : '\r' ∉ s) {l r : Str} (h : lineBreak s = some (l, r)) : s = '\n' :: r ∧ l = ['\n'] := by
  obtain ⟨e, rfl | rfl⟩ := lineBreak_some h
  · exact ⟨e, rfl⟩
  · rw [e] at hs; simp at hs

theorem tok1_crlf {s : Str} (hs : '\r' ∉ s) (he : noEscapedLf s = true) :
    tok1 (crlf s) = (tok1 s).map (fun x => (subP crlf x.1, crlf x.2)) := by
  cases s with
  | nil => rfl
  | cons c r =>
    have hc : c ≠ '\r' := fun e => hs (by simp [e])
    have hr : '\r' ∉ r := fun hh => hs (by simp [hh])
    by_cases hb : c = '\\'
    · subst hb
      rw [crlf_cons (by decide)]
      cases r with
      | nil => rfl
      | cons d r =>
        have hd : d ≠ '\n' := by
          simp only [noEscapedLf, Bool.and_eq_true, bne_iff_ne] at he; exact he.1
        rw [tok1_esc, crlf_cons hd, tok1_esc, takeLit_crlf (fun hh => hr (by simp [hh]))]
        simp only [Option.map_some, subP]
        rw [crlf_cons hd]
    · have hlb := lineBreak_crlf hs
      cases hl : lineBreak (c :: r) with
      | none =>
        rw [hl] at hlb
        have hn : c ≠ '\n' := by rintro rfl; simp [lineBreak] at hl
        rw [tok1_plain hb hl]
        rw [crlf_cons hn] at hlb ⊢
        rw [tok1_plain hb hlb, tokPlain_crlf hn hc hr]; rfl
      | some x =>
        obtain ⟨l1, r1⟩ := x
        obtain ⟨e, rfl⟩ := lineBreak_lf hs hl
        simp only [List.cons.injEq] at e
        obtain ⟨rfl, rfl⟩ := e
        rw [crlf_nl, tok1.eq_def, tok1.eq_def]
        simp only [show ('\r' : Char) ≠ '\\' from by decide, show ('\n' : Char) ≠ '\\' from by decide, if_false,
          show lineBreak ('\r' :: '\n' :: crlf r) = some (['\r', '\n'], crlf r) from rfl,
          show lineBreak ('\n' :: r) = some (['\n'], r) from rfl, lineBreak_crlf hr]
        cases hl2 : lineBreak r with
        | none => rfl
        | some y =>
          obtain ⟨l2, r2⟩ := y
          obtain ⟨e2, rfl⟩ := lineBreak_lf hr hl2
          rfl

theorem noEscapedLf_cons {c : Char} (hc : c ≠ '\\') (r : Str) : noEscapedLf (c :: r) = noEscapedLf r := by
  cases r with
  | nil => simp [noEscapedLf]
  | cons d r => rw [noEscapedLf.eq_def]; simp [hc]

theorem noEscapedLf_append {a : Str} (h : '\\' ∉ a) (r : Str) : noEscapedLf (a ++ r) = noEscapedLf r := by
  induction a with
  | nil => rfl
  | cons c a ih =>
    rw [List.cons_append, noEscapedLf_cons (by rintro rfl; simp at h), ih (by simp at h; exact h.2)]

theorem pieces_crlf {s : Str} (hs : '\r' ∉ s) (he : noEscapedLf s = true) :
    pieces (crlf s) = (pieces s).map (subP crlf) := by
  induction s using pieces_induction with
  | h0 s h =>
    have := tok1_crlf hs he
    rw [h] at this
    rw [pieces_none h, pieces_none this]; rfl
  | h1 s p r h ih =>
    have := tok1_crlf hs he
    rw [h] at this
    have e := tok1_src h
    have hr : '\r' ∉ r := fun hh => hs (by rw [e]; simp [hh])
    have her : noEscapedLf r = true := by
      have hf := tok1_form h
      rw [e] at he
      unfold Piece.src at he
      cases hesc : p.esc with
      | false =>
        rw [hesc] at he
        simp only [Bool.false_eq_true, if_false, List.nil_append] at he
        rw [noEscapedLf_append] at he
        · exact he
        · have := hf.1; rw [hesc] at this; exact form_noBackslash this
      | true =>
        rw [hesc] at he
        have hk := hf.2 hesc
        have h2 := hf.1
        rw [hk] at h2
        obtain ⟨c, t, e1, e2, -⟩ := h2
        rw [e1] at he
        simp only [if_true, List.cons_append, List.nil_append, noEscapedLf, Bool.and_eq_true] at he
        rw [noEscapedLf_append] at he
        · exact he.2
        · intro hh; exact e2 _ hh (by decide)
    rw [pieces_some h, pieces_some this, ih hr her]; rfl

theorem crlf_ne_nil {s : Str} (hs : s ≠ []) : crlf s ≠ [] := by
  cases s with
  | nil => exact absurd rfl hs
  | cons c r =>
    by_cases hc : c = '\n'
    · subst hc; rw [crlf_nl]; simp
    · rw [crlf_cons hc]; simp

theorem crlf_ok (s : Str) : Subst crlf (pieces s) := by
  intro p hp
  have hf := (pieces_form s p hp).1
  have hn := form_ne_nil hf
  exact ⟨hn, crlf_ne_nil hn, fun hs => crlf_id (fun c hc => (strict_syntax hs hf c hc).2)⟩

end Yamd.Ref
