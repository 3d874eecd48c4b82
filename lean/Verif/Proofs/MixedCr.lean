import Verif.Proofs.Crlf

/-!
# Lexing a text without its carriage returns (C78)
-/

namespace Yamd.Ref

open Yamd Yamd.Spec Yamd.Lexer

theorem noCr_cons {c : Char} (hc : c ≠ '\r') (s : Str) : noCr (c :: s) = c :: noCr s := by
  simp [noCr, hc]

theorem noCr_cr (s : Str) : noCr ('\r' :: s) = noCr s := by
  simp [noCr]

theorem crInBreaks_cons {c : Char} (h1 : c ≠ '\\') (h2 : c ≠ '\r') (r : Str) : crInBreaks (c :: r) = crInBreaks r := by
  cases r <;> (rw [crInBreaks.eq_def]; simp [h1, h2])

theorem crInBreaks_cr {r : Str} (h : crInBreaks ('\r' :: r) = true) : ∃ q, r = '\n' :: q ∧ crInBreaks q = true := by
  cases r with
  | nil => simp [crInBreaks] at h
  | cons d r =>
    rw [crInBreaks.eq_def] at h
    simp at h
    obtain ⟨rfl, h⟩ := h
    exact ⟨r, rfl, by rwa [crInBreaks_cons (by decide) (by decide)] at h⟩

theorem crInBreaks_esc {d : Char} {r : Str} (h : crInBreaks ('\\' :: d :: r) = true) : d ≠ '\r' ∧ crInBreaks r = true := by
  simpa [crInBreaks] using h

/-- A rest of the text behind characters that are no backslashes. -/
theorem crInBreaks_rest {a r : Str} (ha : '\\' ∉ a) (h : crInBreaks (a ++ r) = true) : crInBreaks r = true := by
  induction a with
  | nil => exact h
  | cons c a ih =>
    have h1 : c ≠ '\\' := by rintro rfl; simp at ha
    have h3 : '\\' ∉ a := fun hh => ha (by simp [hh])
    by_cases h2 : c = '\r'
    · subst h2
      obtain ⟨q, e, hq⟩ := crInBreaks_cr h
      refine ih h3 ?_
      have e : a ++ r = '\n' :: q := e
      rw [e, crInBreaks_cons (by decide) (by decide)]; exact hq
    · rw [List.cons_append, crInBreaks_cons h1 h2] at h
      exact ih h3 h

theorem noCr_head {x : Char} (hx : x ≠ '\n') (hx2 : x ≠ '\r') {s : Str} (h : crInBreaks s = true) :
    ((noCr s).head? = some x) ↔ (s.head? = some x) := by
  cases s with
  | nil => rfl
  | cons c r =>
    by_cases hc : c = '\r'
    · subst hc
      obtain ⟨q, rfl, -⟩ := crInBreaks_cr h
      rw [noCr_cr, noCr_cons (by decide)]
      simp only [List.head?_cons, Option.some.injEq]
      exact ⟨fun e => absurd e.symm hx, fun e => absurd e.symm hx2⟩
    · rw [noCr_cons hc]; simp

theorem litStop_noCr {c : Char} (hr : c ≠ '\r') {r : Str} (h : c = '%' → crInBreaks r = true) :
    litStop (c :: noCr r) = litStop (c :: r) := by
  have h3 : (c == '\r') = false := by simpa using hr
  by_cases hp : c = '%'
  · have h2 : ((noCr r).head? == some '}') = (r.head? == some '}') := by
      rw [Bool.eq_iff_iff]; simpa using noCr_head (x := '}') (by decide) (by decide) (h hp)
    simp only [litStop, h2, h3, Bool.false_and]
  · have h4 : (c == '%') = false := by simpa using hp
    simp only [litStop, h3, h4, Bool.false_and]

theorem takeLit_noCr {s : Str} (hs : crInBreaks s = true) : takeLit (noCr s) = (noCr (takeLit s).1, noCr (takeLit s).2) := by
  induction s with
  | nil => rfl
  | cons c r ih =>
    by_cases hc : c = '\r'
    · subst hc
      obtain ⟨q, rfl, -⟩ := crInBreaks_cr hs
      rw [takeLit_stop (s := '\r' :: '\n' :: q) rfl, noCr_cr, noCr_cons (by decide), takeLit_stop rfl]; rfl
    · by_cases hb : c = '\\'
      · subst hb
        rw [takeLit_stop (s := '\\' :: r) rfl, noCr_cons hc, takeLit_stop rfl]; rfl
      · rw [crInBreaks_cons hb hc] at hs
        rw [noCr_cons hc, takeLit, litStop_noCr hc (fun _ => hs), ih hs]
        by_cases hst : litStop (c :: r) = true
        · rw [if_pos hst, takeLit_stop hst, noCr_cons hc]; rfl
        · rw [if_neg hst, takeLit_go hst, noCr_cons hc]

theorem lineBreak_noCr {s : Str} (hs : crInBreaks s = true) :
    lineBreak (noCr s) = (lineBreak s).map (fun x => (noCr x.1, noCr x.2)) := by
  cases s with
  | nil => rfl
  | cons c r =>
    by_cases hc : c = '\r'
    · subst hc
      obtain ⟨q, rfl, -⟩ := crInBreaks_cr hs
      rw [noCr_cr, noCr_cons (by decide)]; rfl
    · by_cases hn : c = '\n'
      · subst hn; rw [noCr_cons hc]; rfl
      · rw [noCr_cons hc, lineBreak_ne hn (by rintro ⟨e, -⟩; exact hc e), lineBreak_ne hn (by rintro ⟨e, -⟩; exact hc e)]
        rfl

theorem takeWhile_noCr {c : Char} (hn : c ≠ '\n') (hr : c ≠ '\r') (hb : c ≠ '\\') {r : Str} (h : crInBreaks r = true) :
    (noCr r).takeWhile (· == c) = noCr (r.takeWhile (· == c)) ∧
    (noCr r).dropWhile (· == c) = noCr (r.dropWhile (· == c)) := by
  induction r with
  | nil => exact ⟨rfl, rfl⟩
  | cons d r ih =>
    by_cases hd : d = c
    · subst hd
      rw [crInBreaks_cons hb hr] at h
      rw [noCr_cons hr]
      simp only [List.takeWhile_cons, List.dropWhile_cons, beq_self_eq_true, if_true, ih h, noCr_cons hr, and_self]
    · by_cases hd2 : d = '\r'
      · subst hd2
        obtain ⟨q, rfl, -⟩ := crInBreaks_cr h
        rw [noCr_cr, noCr_cons (by decide)]
        simp [List.takeWhile_cons, List.dropWhile_cons, Ne.symm hn, Ne.symm hr, noCr]
      · rw [noCr_cons hd2]
        simp [List.takeWhile_cons, List.dropWhile_cons, hd, noCr_cons hd2]; rfl

theorem noCr_tail {x : Char} {r : Str} (hx : x ≠ '\r') (hr : r.head? = some x) : (noCr r).tail = noCr r.tail := by
  cases r with
  | nil => rfl
  | cons c r =>
    simp only [List.head?_cons, Option.some.injEq] at hr
    subst hr
    rw [noCr_cons hx]; rfl

theorem tokPlain_noCr {c : Char} {r : Str} (hn : c ≠ '\n') (hr : c ≠ '\r') (hb : c ≠ '\\') (hs : crInBreaks r = true) :
    tokPlain c (noCr r) = (subP noCr (tokPlain c r).1, noCr (tokPlain c r).2) := by
  have e1 : ((noCr r).head? = some '%') = (r.head? = some '%') := propext (noCr_head (by decide) (by decide) hs)
  have e2 : ((noCr r).head? = some '}') = (r.head? = some '}') := propext (noCr_head (by decide) (by decide) hs)
  rw [tokPlain, tokPlain]
  simp only [e1, e2]
  by_cases h1 : c = '{' ∧ r.head? = some '%'
  · rw [if_pos h1, if_pos h1, noCr_tail (by decide) h1.2]
    rfl
  · rw [if_neg h1, if_neg h1]
    by_cases h2 : c = '%' ∧ r.head? = some '}'
    · rw [if_pos h2, if_pos h2, noCr_tail (by decide) h2.2]
      rfl
    · rw [if_neg h2, if_neg h2]
      cases hk : runKind c with
      | some k =>
        simp only [subP]
        rw [(takeWhile_noCr hn hr hb hs).1, (takeWhile_noCr hn hr hb hs).2, noCr_cons hr]
      | none =>
        cases hk2 : singleKind c with
        | some k => simp only [subP]; rw [noCr_cons hr]; rfl
        | none => simp only [subP]; rw [takeLit_noCr hs, noCr_cons hr]

theorem lineBreak_rest {s l r : Str} (hs : crInBreaks s = true) (h : lineBreak s = some (l, r)) : crInBreaks r = true := by
  obtain ⟨e, rfl | rfl⟩ := lineBreak_some h
  · rw [e] at hs; exact crInBreaks_rest (by decide) hs
  · rw [e] at hs; exact crInBreaks_rest (by decide) hs

theorem tok1_noCr {s : Str} (hs : crInBreaks s = true) :
    tok1 (noCr s) = (tok1 s).map (fun x => (subP noCr x.1, noCr x.2)) := by
  cases s with
  | nil => rfl
  | cons c r =>
    by_cases hb : c = '\\'
    · subst hb
      rw [noCr_cons (by decide)]
      cases r with
      | nil => rfl
      | cons d r =>
        obtain ⟨hd, hr⟩ := crInBreaks_esc hs
        rw [tok1_esc, noCr_cons hd, tok1_esc, takeLit_noCr hr]
        simp only [Option.map_some, subP]
        rw [noCr_cons hd]
    · have hlb := lineBreak_noCr hs
      cases hl : lineBreak (c :: r) with
      | none =>
        rw [hl] at hlb
        have hn : c ≠ '\n' := by rintro rfl; simp [lineBreak] at hl
        have hc : c ≠ '\r' := by
          rintro rfl
          obtain ⟨q, rfl, -⟩ := crInBreaks_cr hs
          simp [lineBreak] at hl
        rw [crInBreaks_cons hb hc] at hs
        rw [tok1_plain hb hl]
        rw [noCr_cons hc] at hlb ⊢
        rw [tok1_plain hb hlb, tokPlain_noCr hn hc hb hs]; rfl
      | some x =>
        obtain ⟨l1, r1⟩ := x
        have hr1 := lineBreak_rest hs hl
        rw [hl] at hlb
        obtain ⟨e, hk⟩ := lineBreak_some hl
        have e1 : noCr (c :: r) = '\n' :: noCr r1 := by
          rw [e, noCr_append]
          rcases hk with rfl | rfl <;> rfl
        rw [e1] at hlb ⊢
        rw [tok1.eq_def, tok1.eq_def]
        simp only [hb, show ('\n' : Char) ≠ '\\' from by decide, if_false, hlb, hl, Option.map_some, lineBreak_noCr hr1]
        cases hl2 : lineBreak r1 with
        | none => rfl
        | some y =>
          obtain ⟨l2, r2⟩ := y
          simp only [Option.map_some, subP, noCr_append]

theorem pieces_noCr {s : Str} (hs : crInBreaks s = true) : pieces (noCr s) = (pieces s).map (subP noCr) := by
  induction s using pieces_induction with
  | h0 s h =>
    have := tok1_noCr hs
    rw [h] at this
    rw [pieces_none h, pieces_none this]; rfl
  | h1 s p r h ih =>
    have := tok1_noCr hs
    rw [h] at this
    have e := tok1_src h
    have her : crInBreaks r = true := by
      have hf := tok1_form h
      rw [e] at hs
      unfold Piece.src at hs
      cases hesc : p.esc with
      | false =>
        rw [hesc] at hs
        simp only [Bool.false_eq_true, if_false, List.nil_append] at hs
        refine crInBreaks_rest ?_ hs
        have := hf.1; rw [hesc] at this; exact form_noBackslash this
      | true =>
        rw [hesc] at hs
        have hk := hf.2 hesc
        have h2 := hf.1
        rw [hk] at h2
        obtain ⟨c, t, e1, e2, -⟩ := h2
        rw [e1] at hs
        simp only [if_true, List.cons_append, List.nil_append] at hs
        refine crInBreaks_rest ?_ (crInBreaks_esc hs).2
        intro hh; exact e2 _ hh (by decide)
    rw [pieces_some h, pieces_some this, ih her]; rfl

/-- Carriage returns stand before line feeds. -/
def CrLf (s : Str) : Prop := ∀ a b, s = a ++ '\r' :: b → b.head? = some '\n'

theorem crLf_free {s : Str} (h : '\r' ∉ s) : CrLf s := by
  intro a b e; rw [e] at h; simp at h

theorem crLf_append {a b : Str} (ha : CrLf a) (hb : CrLf b) : CrLf (a ++ b) := by
  intro u v e
  rcases List.append_eq_append_iff.1 e with ⟨w, e1, e2⟩ | ⟨w, e1, e2⟩
  · exact hb w v e2
  · cases w with
    | nil => exact hb [] v (by simpa using e2.symm)
    | cons x w =>
      simp only [List.cons_append, List.cons.injEq] at e2
      obtain ⟨rfl, rfl⟩ := e2
      have := ha u w e1
      cases w with
      | nil => simp at this
      | cons y w => simpa using this

theorem crLf_tail {c : Char} {s : Str} (h : CrLf (c :: s)) : CrLf s := by
  intro a b e
  exact h (c :: a) b (by rw [e]; rfl)

theorem crLf_break {l : Str} (h : IsBreak l) : CrLf l := by
  rcases h with rfl | rfl
  · exact crLf_free (by decide)
  · intro a b e
    cases a with
    | nil => simp at e; rw [← e]; rfl
    | cons x a =>
      simp only [List.cons_append, List.cons.injEq] at e
      cases a with
      | nil => simp at e
      | cons y a => simp at e

theorem hashes_noCr {s : Str} (h : CrLf s) : ((noCr s).takeWhile (· == '#')).length = (s.takeWhile (· == '#')).length := by
  induction s with
  | nil => rfl
  | cons c r ih =>
    by_cases hc : c = '\r'
    · subst hc
      have := h [] r rfl
      cases r with
      | nil => simp at this
      | cons d r =>
        simp only [List.head?_cons, Option.some.injEq] at this
        subst this
        rw [noCr_cr, noCr_cons (by decide)]; rfl
    · rw [noCr_cons hc, List.takeWhile_cons, List.takeWhile_cons]
      split
      · simp only [List.length_cons, ih (crLf_tail h)]
      · rfl

theorem takeLit_free {s : Str} (hs : crInBreaks s = true) : '\r' ∉ (takeLit s).1 := by
  induction s with
  | nil => simp [takeLit]
  | cons c r ih =>
    by_cases hc : c = '\r'
    · subst hc
      obtain ⟨q, rfl, -⟩ := crInBreaks_cr hs
      rw [takeLit_stop (s := '\r' :: '\n' :: q) rfl]; simp
    · by_cases hb : c = '\\'
      · subst hb
        rw [takeLit_stop (s := '\\' :: r) rfl]; simp
      · rw [crInBreaks_cons hb hc] at hs
        by_cases hst : litStop (c :: r) = true
        · rw [takeLit_stop hst]; simp
        · rw [takeLit_go hst]
          simp [ih hs, Ne.symm hc]

theorem tok1_literal {s : Str} (hs : crInBreaks s = true) {p : Piece} {q : Str} (h : tok1 s = some (p, q))
    (hk : p.kind = .Literal) : '\r' ∉ p.text := by
  cases s with
  | nil => simp [tok1] at h
  | cons c r =>
    by_cases hb : c = '\\'
    · subst hb
      cases r with
      | nil => simp [tok1] at h
      | cons d r =>
        obtain ⟨hd, hr⟩ := crInBreaks_esc hs
        rw [tok1_esc] at h
        cases h
        simp [Ne.symm hd, takeLit_free hr]
    · cases hl : lineBreak (c :: r) with
      | none =>
        have hc : c ≠ '\r' := by
          rintro rfl
          obtain ⟨q, rfl, -⟩ := crInBreaks_cr hs
          simp [lineBreak] at hl
        rw [crInBreaks_cons hb hc] at hs
        rw [tok1_plain hb hl, tokPlain] at h
        simp only [Option.some.injEq] at h
        by_cases h1 : c = '{' ∧ r.head? = some '%'
        · rw [if_pos h1] at h; cases h; simp at hk
        · rw [if_neg h1] at h
          by_cases h2 : c = '%' ∧ r.head? = some '}'
          · rw [if_pos h2] at h; cases h; simp at hk
          · rw [if_neg h2] at h
            cases hk1 : runKind c with
            | some k =>
              rw [hk1] at h
              cases h
              exfalso
              rcases runKind_cases hk1 with h | h | h | h | h | h | h | h | h | h | h <;> (rw [h.2] at hk; simp at hk)
            | none =>
              rw [hk1] at h
              cases hk2 : singleKind c with
              | some k =>
                rw [hk2] at h
                cases h
                exfalso
                rcases singleKind_cases hk2 with h | h | h | h | h | h <;> (rw [h.2] at hk; simp at hk)
              | none =>
                rw [hk2] at h
                cases h
                simp [Ne.symm hc, takeLit_free hs]
      | some x =>
        obtain ⟨l1, r1⟩ := x
        rw [tok1.eq_def] at h
        simp only [hb, if_false, hl] at h
        cases hl2 : lineBreak r1 with
        | none => rw [hl2] at h; cases h; simp at hk
        | some y => rw [hl2] at h; cases h; simp at hk

theorem piece_lit {s : Str} (hs : crInBreaks s = true) : ∀ p ∈ pieces s, p.kind = .Literal → '\r' ∉ p.text := by
  induction s using pieces_induction with
  | h0 s h => rw [pieces_none h]; simp
  | h1 s p r h ih =>
    have e := tok1_src h
    have her : crInBreaks r = true := by
      have hf := tok1_form h
      rw [e] at hs
      unfold Piece.src at hs
      cases hesc : p.esc with
      | false =>
        rw [hesc] at hs
        simp only [Bool.false_eq_true, if_false, List.nil_append] at hs
        refine crInBreaks_rest ?_ hs
        have := hf.1; rw [hesc] at this; exact form_noBackslash this
      | true =>
        rw [hesc] at hs
        have hk := hf.2 hesc
        have h2 := hf.1
        rw [hk] at h2
        obtain ⟨c, t, e1, e2, -⟩ := h2
        rw [e1] at hs
        simp only [if_true, List.cons_append, List.nil_append] at hs
        refine crInBreaks_rest ?_ (crInBreaks_esc hs).2
        intro hh; exact e2 _ hh (by decide)
    rw [pieces_some h]
    intro p' hp hk
    rcases List.mem_cons.1 hp with rfl | hp
    · exact tok1_literal hs h hk
    · exact ih her p' hp hk

theorem strict_noCr {k : TokenKind} {e : Bool} {s : Str} (hs : strict k = true) (hk : KindText k e s) : '\r' ∉ s := by
  intro hc
  cases k <;> simp only [strict, Bool.false_eq_true] at hs <;>
    simp only [KindText, runCharOf, fixedText, Option.some.injEq] at hk <;>
    first
      | (have := hk.2 _ hc; exact absurd this (by decide))
      | (rw [← hk] at hc; exact absurd hc (by decide))

theorem form_crLf {k : TokenKind} {e : Bool} {s : Str} (hl : k = .Literal → '\r' ∉ s) (hk : KindText k e s) : CrLf s := by
  by_cases h1 : k = .Literal
  · exact crLf_free (hl h1)
  · by_cases h2 : k = .Eol
    · subst h2; exact crLf_break hk
    · by_cases h3 : k = .Terminator
      · subst h3
        obtain ⟨a, b, ha, hb, rfl⟩ := hk
        exact crLf_append (crLf_break ha) (crLf_break hb)
      · refine crLf_free ?_
        intro hc
        cases k <;> first | contradiction | skip
        all_goals
          simp only [KindText, runCharOf, fixedText, Option.some.injEq] at hk
          first
            | (have := hk.2 _ hc; exact absurd this (by decide))
            | (rw [← hk] at hc; exact absurd hc (by decide))

theorem noCr_ok {s : Str} (hs : crInBreaks s = true) : Subst noCr (pieces s) := by
  intro p hp
  have hf := (pieces_form s p hp).1
  refine ⟨form_ne_nil hf, ?_, fun hst => noCr_same (strict_noCr hst hf)⟩
  have : subP noCr p ∈ pieces (noCr s) := by rw [pieces_noCr hs]; exact List.mem_map_of_mem hp
  exact form_ne_nil (pieces_form _ _ this).1

theorem slices_crLf {s : Str} (hs : crInBreaks s = true) : ∀ t ∈ tokens s, CrLf (sliceD s t) := by
  intro t ht
  have h1 : sliceD s t ∈ (tokens s).map (sliceD s) := List.mem_map_of_mem ht
  rw [tokens_slices] at h1
  obtain ⟨p, hp, e⟩ := List.mem_map.1 h1
  rw [← e]
  exact form_crLf (piece_lit hs p hp) (pieces_form s p hp).1

theorem textOfToks_crLf {s : Str} {ts : List Token} (h : ∀ t ∈ ts, CrLf (sliceD s t)) : CrLf (textOfToks s ts) := by
  induction ts with
  | nil => exact crLf_free (by simp [textOfToks])
  | cons t ts ih =>
    have e : textOfToks s (t :: ts) = sliceD s t ++ textOfToks s ts := rfl
    rw [e]
    exact crLf_append (h t (by simp)) (ih (fun t ht => h t (by simp [ht])))

/-- The untrimmed document of the text without carriage returns. -/
theorem raw_mixed {s : Str} (hs : crInBreaks s = true) :
    (topB (tokens (noCr s))).raw (noCr s) = Yamd.mapText noCr ((topB (tokens s)).raw s) := by
  obtain ⟨f, h1, h2⟩ := subst_trees (pieces_noCr hs) (noCr_ok hs)
  rw [h1, Top.raw_moved (K := CrLf) rfl noCr_append (fun ts h => hashes_noCr (textOfToks_crLf fun t ht => (h t ht).2)) _
    (fun t ht => ⟨h2 t ht, ?_⟩)]
  obtain ⟨u, hu, hft⟩ := (top_flips (tokens s)).mem_left t ht
  have hd := slices_crLf hs _ hu
  rcases hft with rfl | ⟨hk, rfl⟩
  · exact hd
  · exact hd

/-! ### Trimming twice -/

theorem dropLastNl_mixed : ∀ p : Paragraph, NoAdj isTextNode p →
    dropLastNl ((dropLastNl p).map (ParagraphNode.mapText noCr))
      = dropLastNl (p.map (ParagraphNode.mapText noCr))
  | [], _ => rfl
  | [x], _ => by
    cases hx : isTextNode x with
    | false =>
      rw [dropLastNl_one hx]
    | true =>
      cases x with
      | text t =>
        have e := trimEndNl_noCr t
        simp only [List.map_singleton, ParagraphNode.mapText, dropLastNl]
        split
        · rename_i h
          rw [h] at e
          rw [← e]
          rfl
        · simp only [List.map_singleton, ParagraphNode.mapText, dropLastNl, e]
      | _ => simp [isTextNode] at hx
  | x :: y :: r, h => by
    have ih := dropLastNl_mixed (y :: r) h.2
    simp only [List.map_cons] at ih ⊢
    rw [dropLastNl_cons, dropLastNl_cons, List.map_cons]
    cases hd : dropLastNl (y :: r) with
    | nil =>
      rw [hd] at ih
      rw [← ih, List.map_nil]
      have hy : isTextNode y = true := by
        cases r with
        | cons z r => rw [dropLastNl_cons] at hd; simp at hd
        | nil =>
          cases hy : isTextNode y with
          | true => rfl
          | false => rw [dropLastNl_one hy] at hd; simp at hd
      have hx : isTextNode x = false := by
        cases hx : isTextNode x with
        | false => rfl
        | true => exact absurd ⟨hx, hy⟩ h.1
      rw [dropLastNl_one (by rw [isTextNode_mapText]; exact hx)]
      rfl
    | cons a l =>
      rw [hd] at ih
      rw [List.map_cons, dropLastNl_cons, ← ih, List.map_cons]

theorem Items.mixed (s : Str) (i : Items) : ∀ level want, i.Ok level want →
    settleItems level (YItem.mapTexts noCr (settleItems level (i.raw s level)))
      = settleItems level (YItem.mapTexts noCr (i.raw s level)) := by
  induction i with
  | nil => intros; rfl
  | cons k m p n r ih1 ih2 =>
    intro level want h
    simp only [Items.Ok] at h
    have e1 := dropLastNl_mixed _ (noAdj_denote s h.2.2.1.2.1)
    have e2 := ih1 (level + 1) none h.2.2.2.1
    have e3 := ih2 level (some k) h.2.2.2.2
    cases hk : n.kind with
    | none =>
      simp only [Items.raw, hk, wrapDenote, Option.map_none, YItem.mapTexts, YItem.mapText, settleItems, settleItem, e1, e3]
    | some k' =>
      simp only [Items.raw, hk, wrapDenote, Option.map_some, YItem.mapTexts, YItem.mapText, settleItems, settleItem, e1, e3,
        YList.mapText, settleList, e2]

theorem Block.mixed (s : Str) (b : Block) (h : b.Ok) :
    settleNode (YamdNode.mapText noCr (settleNode (b.raw s)))
      = settleNode (YamdNode.mapText noCr (b.raw s)) := by
  cases b with
  | code o m b c =>
    simp only [Block.raw, YamdNode.mapText, settleNode, trimEndNl_noCr]
  | highlight o m i b c =>
    have hb := h.2.2.2.1
    simp only [Block.raw, YamdNode.mapText, settleNode, List.map_map]
    congr 1
    · refine List.map_congr_left fun x hx => ?_
      exact dropLastNl_mixed _ (noAdj_denote s (hb x hx).2.2.1)
  | list i =>
    simp only [Block.raw, YamdNode.mapText, settleNode, YList.mapText, settleList, Items.mixed s i 0 none h.1]
  | images l =>
    match l with
    | [] => rfl
    | [i] => simp only [Block.raw, Block.denote, YamdNode.mapText, settleNode]
    | i :: j :: l =>
      simp only [Block.raw, Block.denote, YamdNode.mapText, settleNode]
  | thematic t => rfl
  | embed o l p r c => simp only [Block.raw, Block.denote, YamdNode.mapText, settleNode]
  | heading m b =>
    simp only [Block.raw, Block.denote, YamdNode.mapText, settleNode, Nat.mod_mod]
  | para l => simp only [Block.raw, Block.denote, YamdNode.mapText, settleNode]

theorem Doc.mixed (s : Str) (d : Doc) (h : d.Ok) :
    settleNodes (YamdNode.mapTexts noCr (settleNodes (d.raw s)))
      = settleNodes (YamdNode.mapTexts noCr (d.raw s)) := by
  induction d with
  | nil => rfl
  | term t r ih => exact ih h.2
  | block b r ih => simp only [Doc.raw, YamdNode.mapTexts, settleNodes, Block.mixed s b h.1, ih h.2]
  | coll o m i st c r ih1 ih2 =>
    simp only [Doc.raw, YamdNode.mapTexts, YamdNode.mapText, settleNodes, settleNode, ih1 h.2.2.1, ih2 h.2.2.2.2.2]


/-- The document of a text without its carriage returns. -/
theorem denote_mixed {s : Str} (hs : crInBreaks s = true) :
    settle (Yamd.mapText noCr ((topB (tokens s)).denote s)) = (topB (tokens (noCr s))).denote (noCr s) := by
  have h2 := Doc.mixed s _ (topB_doc_ok (tokens s))
  rw [← Top.settle_raw (noCr s), raw_mixed hs, ← Top.settle_raw s]
  generalize topB (tokens s) = d at *
  obtain ⟨m, d⟩ := d
  simp only [Top.raw, Yamd.mapText, settle]
  rw [h2]
  cases m <;> simp [trimNl_noCr]

end Yamd.Ref
