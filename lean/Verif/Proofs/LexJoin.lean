import Verif.Proofs.LexFacts

/-! # When lexing distributes over concatenation -/

namespace Yamd.Spec

open Yamd Yamd.Lexer

/-- `c` as the last character of a literal does not combine with the text after it. -/
def tailOk (last : Option Char) (s : Str) : Bool :=
  !(last == some '\r' && s.head? == some '\n') && !(last == some '%' && s.head? == some '}')

/-- The piece `p` stays as it is when the text `s` follows it. -/
def joinOk (p : Piece) (s : Str) : Bool :=
  match p.kind with
  | .Literal => litStop s && tailOk (if p.esc then p.text.tail else p.text).getLast? s
  | .Eol => (lineBreak s).isNone
  | .LeftCurlyBrace => s.head? != some '{' && !(p.text.length == 1 && s.head? == some '%')
  | k =>
    match runCharOf k with
    | some c => s.head? != some c
    | none => true

theorem litStop_append {c : Char} {r : Str} (h : litStop (c :: r) = true) (s : Str) :
    litStop (c :: r ++ s) = true := by
  cases r with
  | nil => simp [litStop] at h ⊢; tauto
  | cons d r => simpa [litStop] using h

theorem litStop_append' {c d : Char} {r : Str} (s : Str) :
    litStop (c :: d :: r ++ s) = litStop (c :: d :: r) := by
  simp [litStop]

theorem tailOk_cons {c d : Char} {l : Str} (s : Str) :
    tailOk (c :: d :: l).getLast? s = tailOk (d :: l).getLast? s := by
  simp [tailOk, List.getLast?_cons_cons]

theorem takeLit_stop {s : Str} (h : litStop s = true) : takeLit s = ([], s) := by
  cases s with
  | nil => rfl
  | cons c r => unfold takeLit; rw [if_pos h]

theorem takeLit_go {c : Char} {r : Str} (h : ¬ litStop (c :: r) = true) :
    takeLit (c :: r) = (c :: (takeLit r).1, (takeLit r).2) := by
  conv => lhs; unfold takeLit
  rw [if_neg h]

theorem takeLit_join {s1 s2 : Str} (h : litStop s2 = true) :
    ((takeLit s1).2 = [] → tailOk s1.getLast? s2 = true) →
    takeLit (s1 ++ s2) = ((takeLit s1).1, (takeLit s1).2 ++ s2) := by
  induction s1 with
  | nil => intro _; rw [List.nil_append, takeLit_stop h]; rfl
  | cons c r ih =>
    intro ht
    by_cases hs : litStop (c :: r) = true
    · rw [takeLit_stop (litStop_append hs s2), takeLit_stop hs]
    · rw [takeLit_go hs] at ht ⊢
      simp only at ht
      have hs' : ¬ litStop (c :: (r ++ s2)) = true := by
        cases r with
        | cons d r => rw [List.cons_append, ← List.cons_append, ← List.cons_append, litStop_append']; exact hs
        | nil =>
          have := ht rfl
          simp only [tailOk, List.getLast?_singleton] at this
          simp [litStop] at hs ⊢
          simp at this
          refine ⟨⟨hs, fun h => ?_⟩, fun h => ?_⟩
          · simpa [h] using this
          · simpa [h] using this
      have hr : (takeLit r).2 = [] → tailOk r.getLast? s2 = true := by
        intro hr
        have := ht hr
        cases r with
        | nil => simp [tailOk]
        | cons d r => rwa [tailOk_cons] at this
      rw [List.cons_append, takeLit_go hs', ih hr]

theorem takeLit_join' {s1 s2 : Str} (hr : (takeLit s1).2 ≠ []) :
    takeLit (s1 ++ s2) = ((takeLit s1).1, (takeLit s1).2 ++ s2) := by
  induction s1 with
  | nil => exact absurd rfl hr
  | cons c r ih =>
    by_cases hs : litStop (c :: r) = true
    · rw [takeLit_stop (litStop_append hs s2), takeLit_stop hs]
    · rw [takeLit_go hs] at hr ⊢
      cases r with
      | nil => exact absurd rfl hr
      | cons d r =>
        rw [List.cons_append, takeLit_go (by rw [← List.cons_append, litStop_append']; exact hs), ih hr]

theorem lineBreak_append {s l r : Str} (h : lineBreak s = some (l, r)) (t : Str) :
    lineBreak (s ++ t) = some (l, r ++ t) := by
  unfold lineBreak at h
  split at h <;> simp at h
  · obtain ⟨rfl, rfl⟩ := h; rfl
  · obtain ⟨rfl, rfl⟩ := h; rfl

theorem lineBreak_none_append {s t : Str} (h : lineBreak s = none) (hs : s ≠ [])
    (h2 : s = ['\r'] → t.head? ≠ some '\n') : lineBreak (s ++ t) = none := by
  cases s with
  | nil => exact absurd rfl hs
  | cons c r =>
    refine lineBreak_ne ?_ ?_
    · rintro rfl; simp [lineBreak] at h
    · rintro ⟨rfl, hr⟩
      cases r with
      | nil => exact h2 rfl (by simpa using hr)
      | cons d r => simp at hr; subst hr; simp [lineBreak] at h

theorem lineBreak_nil_append {s : Str} (h : (lineBreak s).isNone = true) : lineBreak ([] ++ s) = none := by
  simpa using h

theorem takeWhile_join {c : Char} {r s : Str} (h : r.dropWhile (· == c) = [] → s.head? ≠ some c) :
    (r ++ s).takeWhile (· == c) = r.takeWhile (· == c) ∧
    (r ++ s).dropWhile (· == c) = r.dropWhile (· == c) ++ s := by
  induction r with
  | nil =>
    have := h rfl
    cases s with
    | nil => simp
    | cons d s =>
      have hd : ¬ d = c := by simpa using this
      simp [hd]
  | cons d r ih =>
    by_cases hd : d = c
    · subst hd
      have := ih (by simpa using h)
      simp [this.1, this.2]
    · simp [hd]

theorem tokPlain_join {c : Char} {r s : Str}
    (h : (tokPlain c r).2 = [] → joinOk (tokPlain c r).1 s = true) :
    tokPlain c (r ++ s) = ((tokPlain c r).1, (tokPlain c r).2 ++ s) := by
  by_cases h1 : c = '{' ∧ r.head? = some '%'
  · obtain ⟨rfl, hr⟩ := h1
    cases r with
    | nil => simp at hr
    | cons d r => simp at hr; subst hr; simp [tokPlain]
  by_cases h2 : c = '%' ∧ r.head? = some '}'
  · obtain ⟨rfl, hr⟩ := h2
    cases r with
    | nil => simp at hr
    | cons d r => simp at hr; subst hr; simp [tokPlain]
  cases hk : runKind c with
  | some k =>
    have e : tokPlain c r = (⟨false, k, c :: r.takeWhile (· == c)⟩, r.dropWhile (· == c)) := by
      rw [tokPlain, if_neg h1, if_neg h2, hk]
    rw [e] at h ⊢
    simp only at h
    have hsz := runKind_size hk
    have hrc := runKind_char hk
    have hj : r.dropWhile (· == c) = [] → s.head? ≠ some c := by
      intro hr
      have := h hr
      unfold joinOk at this
      cases k <;> simp only [runCharOf, Option.some.injEq, reduceCtorEq] at hrc <;> subst hrc <;>
        simp [runCharOf] at this <;> first | exact this | exact this.1
    obtain ⟨e1, e2⟩ := takeWhile_join hj
    rw [tokPlain, if_neg ?_, if_neg ?_, hk]
    · simp only; rw [e1, e2]
    · rintro ⟨rfl, -⟩; simp [runKind] at hk
    · rintro ⟨rfl, hh⟩
      cases r with
      | nil =>
        have := h rfl
        have hk' : k = .LeftCurlyBrace := by simpa [runKind, eq_comm] using hk
        subst hk'
        simp only [List.nil_append] at hh
        simp [joinOk, hh] at this
      | cons d r => simp at hh; subst hh; simp at h1
  | none =>
    cases hk2 : singleKind c with
    | some k =>
      have hsz := singleKind_size hk2
      have e : tokPlain c r = (⟨false, k, [c]⟩, r) := by
        rw [tokPlain, if_neg h1, if_neg h2, hk, hk2]
      rw [e]
      rw [tokPlain, if_neg (fun e => hsz.2.2.2.2.2.1 e.1), if_neg (fun e => hsz.2.2.2.2.1 e.1), hk, hk2]
    | none =>
      have e : tokPlain c r = (⟨false, .Literal, c :: (takeLit r).1⟩, (takeLit r).2) := by
        rw [tokPlain, if_neg h1, if_neg h2, hk, hk2]
      rw [e] at h ⊢
      simp only at h
      have h1' : ¬ (c = '{' ∧ (r ++ s).head? = some '%') := by
        rintro ⟨rfl, -⟩; simp [runKind] at hk
      have ht : takeLit (r ++ s) = ((takeLit r).1, (takeLit r).2 ++ s) := by
        by_cases hr : (takeLit r).2 = []
        · have hj := h hr
          simp only [joinOk, Bool.and_eq_true] at hj
          have ha : (takeLit r).1 = r := by
            have := takeLit_append r; rw [hr] at this; simpa using this
          refine takeLit_join hj.1 (fun _ => ?_)
          cases r with
          | nil => simp [tailOk]
          | cons d r =>
            have := hj.2
            rw [ha] at this
            simp only [Bool.false_eq_true, if_false] at this
            rwa [tailOk_cons] at this
        · exact takeLit_join' hr
      have h2' : ¬ (c = '%' ∧ (r ++ s).head? = some '}') := by
        rintro ⟨rfl, hh⟩
        cases r with
        | nil =>
          have hj := h rfl
          simp only [List.nil_append] at hh
          simp [joinOk, tailOk, takeLit, hh] at hj
        | cons d r => exact h2 ⟨rfl, by simpa using hh⟩
      rw [tokPlain, if_neg h1', if_neg h2', hk, hk2]
      simp only; rw [ht]

theorem tok1_join {s1 s2 r : Str} {p : Piece} (h : tok1 s1 = some (p, r))
    (hj : r = [] → joinOk p s2 = true) (hcr : r = ['\r'] → s2.head? ≠ some '\n') :
    tok1 (s1 ++ s2) = some (p, r ++ s2) := by
  cases s1 with
  | nil => simp [tok1] at h
  | cons c s =>
    rw [tok1.eq_def] at h; simp only at h
    rw [List.cons_append, tok1.eq_def]; simp only
    by_cases hc : c = '\\'
    · rw [if_pos hc] at h ⊢
      cases s with
      | nil => simp at h
      | cons d s =>
        simp only [Option.some.injEq, Prod.mk.injEq] at h; obtain ⟨rfl, rfl⟩ := h
        simp only [List.cons_append]
        have ht : takeLit (s ++ s2) = ((takeLit s).1, (takeLit s).2 ++ s2) := by
          by_cases hr : (takeLit s).2 = []
          · have hj := hj hr
            simp only [joinOk, Bool.and_eq_true] at hj
            have ha : (takeLit s).1 = s := by
              have := takeLit_append s; rw [hr] at this; simpa using this
            refine takeLit_join hj.1 (fun _ => ?_)
            have := hj.2
            rw [ha] at this
            simpa using this
          · exact takeLit_join' hr
        rw [ht]
    · rw [if_neg hc] at h ⊢
      cases h1 : lineBreak (c :: s) with
      | some x =>
        obtain ⟨l1, r1⟩ := x
        have e1 := lineBreak_append h1 s2
        rw [List.cons_append] at e1
        rw [h1] at h; rw [e1]
        simp only at h ⊢
        cases h2 : lineBreak r1 with
        | some y =>
          obtain ⟨l2, r2⟩ := y
          rw [h2] at h
          rw [lineBreak_append h2 s2]
          simp only [Option.some.injEq, Prod.mk.injEq] at h; obtain ⟨rfl, rfl⟩ := h
          rfl
        | none =>
          rw [h2] at h
          simp only [Option.some.injEq, Prod.mk.injEq] at h; obtain ⟨rfl, rfl⟩ := h
          have : lineBreak (r1 ++ s2) = none := by
            by_cases hr : r1 = []
            · have := hj hr; subst hr; simpa [joinOk] using this
            · exact lineBreak_none_append h2 hr hcr
          rw [this]
      | none =>
        rw [h1] at h
        simp only [Option.some.injEq] at h
        have hlb : lineBreak (c :: (s ++ s2)) = none := by
          have := lineBreak_none_append (t := s2) h1 (by simp)
          rw [List.cons_append] at this
          refine this ?_
          rintro e
          simp only [List.cons.injEq] at e
          obtain ⟨rfl, rfl⟩ := e
          have : p = ⟨false, .Literal, ['\r']⟩ ∧ r = [] := by
            simp [tokPlain, runKind, singleKind, takeLit] at h
            exact ⟨h.1.symm, h.2⟩
          have hj := hj this.2
          rw [this.1] at hj
          intro hh
          simp [joinOk, tailOk, hh] at hj
        rw [hlb]
        simp only
        rw [tokPlain_join]
        · rw [h]
        · rw [h]; exact hj

/-- Lexing distributes over concatenation when the first text does not end in the middle of an
escape and its last piece does not combine with the second text. -/
theorem pieces_append (s1 s2 : Str) (hd : dangling s1 = false)
    (hj : ∀ p, (pieces s1).getLast? = some p → joinOk p s2 = true) :
    pieces (s1 ++ s2) = pieces s1 ++ pieces s2 := by
  induction s1 using pieces_induction with
  | h0 s h =>
    rcases tok1_none h with rfl | rfl
    · simp [pieces_none h]
    · simp [dangling] at hd
  | h1 s p r h ih =>
    rw [(tok1_dangling h).1] at hd
    have hp := pieces_some h
    rw [hp] at hj
    have htail : ∀ q, (pieces r).getLast? = some q → joinOk q s2 = true := by
      intro q hq
      apply hj
      cases hr : pieces r with
      | nil => rw [hr] at hq; simp at hq
      | cons a l => rw [hr] at hq; rw [List.getLast?_cons_cons]; exact hq
    have hpr : ∀ l : Str, pieces l = [] → dangling l = false → l = [] := by
      intro l h1 h2
      have := pieces_src l
      rw [h1, h2] at this; simpa [srcOf] using this
    have e := tok1_join (s2 := s2) h
      (by
        rintro rfl
        apply hj; rw [pieces_none (show tok1 [] = none from rfl)]; rfl)
      (by
        rintro rfl
        have hcr : pieces ['\r'] = [⟨false, .Literal, ['\r']⟩] := by
          rw [pieces_some (p := ⟨false, .Literal, ['\r']⟩) (r := []) (by decide),
            pieces_none (show tok1 [] = none from rfl)]
        have := htail ⟨false, .Literal, ['\r']⟩ (by rw [hcr]; rfl)
        intro hh
        simp [joinOk, tailOk, hh] at this)
    rw [pieces_some e, hp, ih hd htail]; rfl

/-- Bytes, column and row reached after laying out pieces. -/
def endPos : Nat × Nat × Nat → List Piece → Nat × Nat × Nat
  | x, [] => x
  | (off, col, row), p :: r =>
    endPos ((off + if p.esc then 1 else 0) + blen p.text, (advancePos p col row).1,
      (advancePos p col row).2) r

theorem place_append (ps qs : List Piece) : ∀ off col row,
    place off col row (ps ++ qs) = place off col row ps ++
      place (endPos (off, col, row) ps).1 (endPos (off, col, row) ps).2.1
        (endPos (off, col, row) ps).2.2 qs := by
  induction ps with
  | nil => intros; rfl
  | cons p ps ih => intros; simp [place, endPos, ih]

theorem endPos_off (ps : List Piece) : ∀ off col row,
    (endPos (off, col, row) ps).1 = off + blen (srcOf ps) := by
  induction ps with
  | nil => intros; simp [endPos, srcOf, blen]
  | cons p ps ih =>
    intro off col row
    simp only [endPos, ih, srcOf, List.flatMap_cons, blen_append, Piece.src]
    have := e1; split <;> simp [blen] <;> omega

theorem endPos_row (ps : List Piece) : ∀ off col row,
    (endPos (off, col, row) ps).2.2 = row + rowsOf (place off col row ps) := by
  induction ps with
  | nil => intros; simp [endPos, place, rowsOf]
  | cons p ps ih =>
    intro off col row
    simp only [endPos, ih, place, rowsOf, tokenOf, advancePos]
    cases p.kind <;> simp <;> omega

theorem place_shift (ps : List Piece) (k m : Nat) : ∀ off col row,
    place (off + k) col (row + m) ps = (place off col row ps).map (shiftToken k m) := by
  induction ps with
  | nil => intros; rfl
  | cons p ps ih =>
    intro off col row
    simp only [place, List.map_cons]
    congr 1
    · simp [tokenOf, shiftToken]; omega
    · have e1 : (advancePos p col (row + m)).1 = (advancePos p col row).1 := by
        unfold advancePos; cases p.kind <;> rfl
      have e2 : (advancePos p col (row + m)).2 = (advancePos p col row).2 + m := by
        unfold advancePos; cases p.kind <;> simp <;> omega
      rw [e1, e2, ← ih]
      congr 1; omega

end Yamd.Spec
