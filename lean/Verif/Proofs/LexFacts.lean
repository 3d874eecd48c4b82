import Verif.Proofs.LexSem
import Verif.Spec.LexProps

/-! # Facts about pieces and their layout -/

namespace Yamd.Spec

open Yamd Yamd.Lexer

theorem specials_eq : specials = stopChars := rfl

/-- The source text a piece stands for. -/
def Piece.src (p : Piece) : Str := (if p.esc then ['\\'] else []) ++ p.text

theorem takeLit_append (s : Str) : (takeLit s).1 ++ (takeLit s).2 = s := by
  induction s with
  | nil => rfl
  | cons c r ih => unfold takeLit; split <;> simp [ih]

theorem takeLit_clean (s : Str) : ∀ x ∈ (takeLit s).1, x ∉ stopChars := by
  induction s with
  | nil => simp [takeLit]
  | cons c r ih =>
    unfold takeLit; split
    · simp
    · rename_i h
      intro x hx
      simp only [List.mem_cons] at hx
      rcases hx with rfl | hx
      · intro hm; exact h (by simp [litStop, hm])
      · exact ih x hx

theorem takeLit_rest (s : Str) : litStop (takeLit s).2 = true := by
  induction s with
  | nil => rfl
  | cons c r ih =>
    unfold takeLit; split
    · assumption
    · exact ih

theorem lineBreak_some {s l r : Str} (h : lineBreak s = some (l, r)) : s = l ++ r ∧ IsBreak l := by
  unfold lineBreak at h
  split at h <;> simp at h
  · obtain ⟨rfl, rfl⟩ := h; simp [IsBreak]
  · obtain ⟨rfl, rfl⟩ := h; simp [IsBreak]

theorem tokPlain_src {c : Char} {r : Str} : (tokPlain c r).1.text ++ (tokPlain c r).2 = c :: r ∧
    (tokPlain c r).1.esc = false := by
  rw [tokPlain]
  split
  · rename_i h; obtain ⟨rfl, h⟩ := h
    cases r <;> simp at h; subst h; simp
  · split
    · rename_i h; obtain ⟨rfl, h⟩ := h
      cases r <;> simp at h; subst h; simp
    · split
      · simp
      · split
        · simp
        · simp [takeLit_append]

theorem tok1_src {s : Str} {p : Piece} {r : Str} (h : tok1 s = some (p, r)) : s = p.src ++ r := by
  cases s with
  | nil => simp [tok1] at h
  | cons c s =>
    rw [tok1.eq_def] at h; simp only at h
    split at h
    · rename_i hc; subst hc
      split at h
      · simp at h
      · simp only [Option.some.injEq, Prod.mk.injEq] at h; obtain ⟨rfl, rfl⟩ := h
        simp [Piece.src, takeLit_append]
    · split at h
      · rename_i l1 r1 h1
        have e1 := (lineBreak_some h1).1
        split at h
        · rename_i l2 r2 h2
          have e2 := (lineBreak_some h2).1
          simp only [Option.some.injEq, Prod.mk.injEq] at h; obtain ⟨rfl, rfl⟩ := h
          simp [Piece.src, e1, e2]
        · simp only [Option.some.injEq, Prod.mk.injEq] at h; obtain ⟨rfl, rfl⟩ := h
          simp [Piece.src, e1]
      · simp only [Option.some.injEq] at h
        have := @tokPlain_src c s
        rw [h] at this
        simp only at this
        simp [Piece.src, this.2, this.1]

theorem tok1_none {s : Str} (h : tok1 s = none) : s = [] ∨ s = ['\\'] := by
  cases s with
  | nil => simp
  | cons c s =>
    rw [tok1.eq_def] at h; simp only at h
    split at h
    · rename_i hc; subst hc
      split at h
      · simp
      · simp at h
    · split at h
      · split at h <;> simp at h
      · simp at h

theorem runKind_char {c : Char} {k : TokenKind} (h : runKind c = some k) : runCharOf k = some c := by
  rcases runKind_cases h with h | h | h | h | h | h | h | h | h | h | h <;>
    obtain ⟨rfl, rfl⟩ := h <;> rfl

theorem singleKind_char {c : Char} {k : TokenKind} (h : singleKind c = some k) :
    fixedText k = some [c] ∧ runCharOf k = none := by
  rcases singleKind_cases h with h | h | h | h | h | h <;>
    obtain ⟨rfl, rfl⟩ := h <;> exact ⟨rfl, rfl⟩

theorem kindText_run {k : TokenKind} {c : Char} (h : runCharOf k = some c) (e : Bool) (s : Str) :
    KindText k e s ↔ s ≠ [] ∧ ∀ x ∈ s, x = c := by
  cases k <;> simp only [runCharOf, Option.some.injEq, reduceCtorEq] at h <;> subst h <;> rfl

theorem kindText_fixed {k : TokenKind} {t : Str} (h : fixedText k = some t) (e : Bool) (s : Str) :
    KindText k e s ↔ s = t := by
  cases k <;> simp_all [KindText, runCharOf, fixedText, eq_comm]

theorem mem_takeWhile_eq {c x : Char} {r : Str} (h : x ∈ r.takeWhile (· == c)) : x = c := by
  induction r with
  | nil => simp at h
  | cons d r ih =>
    rw [List.takeWhile_cons] at h
    split at h
    · rename_i hd
      simp only [List.mem_cons] at h
      rcases h with rfl | h
      · simpa using hd
      · exact ih h
    · simp at h

theorem notStop_of_none {c : Char} (h1 : runKind c = none) (h2 : singleKind c = none) (hn : c ≠ '\n')
    (hb : c ≠ '\\') : c ∉ stopChars ∧ c ≠ ' ' := by
  constructor
  · intro hm
    simp only [stopChars, List.mem_cons, List.not_mem_nil, or_false] at hm
    rcases hm with h|h|h|h|h|h|h|h|h|h|h|h|h|h|h|h|h|h <;> subst h <;>
      simp [runKind, singleKind] at h1 h2 hn hb
  · rintro rfl; simp [runKind] at h1

theorem tok1_form {s : Str} {p : Piece} {r : Str} (h : tok1 s = some (p, r)) :
    KindText p.kind p.esc p.text ∧ (p.esc = true → p.kind = .Literal) := by
  cases s with
  | nil => simp [tok1] at h
  | cons c s =>
    rw [tok1.eq_def] at h; simp only at h
    split at h
    · rename_i hc; subst hc
      split at h
      · simp at h
      · simp only [Option.some.injEq, Prod.mk.injEq] at h; obtain ⟨rfl, rfl⟩ := h
        refine ⟨⟨_, _, rfl, ?_, by simp⟩, fun _ => rfl⟩
        rw [specials_eq]; exact takeLit_clean _
    · rename_i hbs
      split at h
      · rename_i l1 r1 h1
        have e1 := (lineBreak_some h1).2
        split at h
        · rename_i l2 r2 h2
          have e2 := (lineBreak_some h2).2
          simp only [Option.some.injEq, Prod.mk.injEq] at h; obtain ⟨rfl, rfl⟩ := h
          exact ⟨⟨l1, l2, e1, e2, rfl⟩, by simp⟩
        · simp only [Option.some.injEq, Prod.mk.injEq] at h; obtain ⟨rfl, rfl⟩ := h
          exact ⟨e1, by simp⟩
      · rename_i hlb
        simp only [Option.some.injEq] at h
        have hesc := (@tokPlain_src c s).2
        rw [h] at hesc
        simp only at hesc
        refine ⟨?_, by simp [hesc]⟩
        rw [tokPlain] at h
        split at h
        · simp only [Prod.mk.injEq] at h; obtain ⟨rfl, rfl⟩ := h; rfl
        · split at h
          · simp only [Prod.mk.injEq] at h; obtain ⟨rfl, rfl⟩ := h; rfl
          · split at h
            · rename_i k hk
              simp only [Prod.mk.injEq] at h; obtain ⟨rfl, rfl⟩ := h
              rw [kindText_run (runKind_char hk)]
              refine ⟨by simp, ?_⟩
              intro x hx
              simp only [List.mem_cons] at hx
              rcases hx with rfl | hx
              · rfl
              · exact mem_takeWhile_eq hx
            · rename_i hrk
              split at h
              · rename_i k hk
                simp only [Prod.mk.injEq] at h; obtain ⟨rfl, rfl⟩ := h
                rw [kindText_fixed (singleKind_char hk).1]
              · rename_i hsk
                simp only [Prod.mk.injEq] at h; obtain ⟨rfl, rfl⟩ := h
                refine ⟨_, _, rfl, ?_, fun _ => ?_⟩
                · rw [specials_eq]; exact takeLit_clean _
                · refine notStop_of_none hrk hsk ?_ hbs
                  rintro rfl; simp [lineBreak] at hlb

theorem form_ne_nil {k : TokenKind} {e : Bool} {s : Str} (h : KindText k e s) : s ≠ [] := by
  rintro rfl
  cases k <;> simp [KindText, IsBreak, runCharOf, fixedText] at h

/-- Induction over the pieces of a text. -/
theorem pieces_induction {P : Str → Prop} (h0 : ∀ s, tok1 s = none → P s)
    (h1 : ∀ s p r, tok1 s = some (p, r) → P r → P s) (s : Str) : P s := by
  have : ∀ n, ∀ s : Str, s.length ≤ n → P s := by
    intro n
    induction n with
    | zero =>
      intro s h
      have : s = [] := by simpa using h
      subst this; exact h0 _ rfl
    | succ n ih =>
      intro s h
      cases ht : tok1 s with
      | none => exact h0 s ht
      | some x => exact h1 s x.1 x.2 ht (ih _ (by have := tok1_length ht; omega))
  exact this s.length s (Nat.le_refl _)

theorem dangling_src {c : Char} {r : Str} (hc : c ≠ '\\') : dangling (c :: r) = dangling r := by
  cases r with
  | nil => simp [dangling, hc]
  | cons d r => simp [dangling, hc]

theorem unescape_src {c : Char} {r : Str} (hc : c ≠ '\\') : unescape (c :: r) = c :: unescape r := by
  cases r with
  | nil => simp [unescape, hc]
  | cons d r => simp [unescape, hc]

theorem dangling_append {a : Str} (h : '\\' ∉ a) (r : Str) : dangling (a ++ r) = dangling r := by
  induction a with
  | nil => rfl
  | cons c a ih =>
    simp only [List.mem_cons, not_or] at h
    rw [List.cons_append, dangling_src (Ne.symm h.1), ih h.2]

theorem unescape_append {a : Str} (h : '\\' ∉ a) (r : Str) : unescape (a ++ r) = a ++ unescape r := by
  induction a with
  | nil => rfl
  | cons c a ih =>
    simp only [List.mem_cons, not_or] at h
    rw [List.cons_append, unescape_src (Ne.symm h.1), ih h.2, List.cons_append]

theorem form_noBackslash {k : TokenKind} {s : Str} (h : KindText k false s) : '\\' ∉ s := by
  intro hm
  cases hk : runCharOf k with
  | some c =>
    rw [kindText_run hk] at h
    have := h.2 _ hm; subst this
    cases k <;> simp [runCharOf] at hk
  | none =>
    cases k <;> simp [runCharOf] at hk <;> simp only [KindText, runCharOf, fixedText, IsBreak] at h
    case Terminator =>
      obtain ⟨a, b, ha, hb, rfl⟩ := h
      rcases ha with rfl | rfl <;> rcases hb with rfl | rfl <;> simp at hm
    case Eol => rcases h with rfl | rfl <;> simp at hm
    case Literal =>
      obtain ⟨c, r, rfl, h1, h2⟩ := h
      simp only [List.mem_cons] at hm
      rcases hm with rfl | hm
      · exact (h2 trivial).1 (by simp [specials])
      · exact h1 _ hm (by simp [specials])
    all_goals
      simp only [Option.some.injEq] at h
      subst h; simp at hm

theorem src_dangling {p : Piece} (h : KindText p.kind p.esc p.text) (he : p.esc = true → p.kind = .Literal)
    (r : Str) : dangling (p.src ++ r) = dangling r ∧ unescape (p.src ++ r) = p.text ++ unescape r := by
  obtain ⟨e, k, t⟩ := p
  cases e with
  | false =>
    have := form_noBackslash h
    simp only [Piece.src]
    simp only [Bool.false_eq_true, if_false, List.nil_append]
    exact ⟨dangling_append this r, unescape_append this r⟩
  | true =>
    have hk := he rfl
    simp only at hk; subst hk
    obtain ⟨c, s, hs, h1, -⟩ := h
    simp only at hs; subst hs
    have hb : '\\' ∉ s := fun hm => h1 _ hm (by simp [specials])
    simp [Piece.src, dangling, unescape, dangling_append hb, unescape_append hb]

theorem tok1_dangling {s : Str} {p : Piece} {r : Str} (h : tok1 s = some (p, r)) :
    dangling s = dangling r ∧ unescape s = p.text ++ unescape r := by
  have := src_dangling (tok1_form h).1 (tok1_form h).2 r
  rw [← tok1_src h] at this
  exact this

/-- Source text of a list of pieces. -/
def srcOf (ps : List Piece) : Str := ps.flatMap Piece.src

theorem pieces_src (s : Str) : s = srcOf (pieces s) ++ (if dangling s then ['\\'] else []) := by
  induction s using pieces_induction with
  | h0 s h =>
    rw [pieces_none h]
    rcases tok1_none h with rfl | rfl <;> simp [srcOf, dangling]
  | h1 s p r h ih =>
    rw [pieces_some h, (tok1_dangling h).1]
    conv => lhs; rw [tok1_src h]
    simp only [srcOf, List.flatMap_cons, List.append_assoc]
    rw [← srcOf, ← ih]

theorem pieces_text (s : Str) : (pieces s).flatMap Piece.text = unescape s := by
  induction s using pieces_induction with
  | h0 s h =>
    rw [pieces_none h]
    rcases tok1_none h with rfl | rfl <;> simp [unescape]
  | h1 s p r h ih =>
    rw [pieces_some h, (tok1_dangling h).2, List.flatMap_cons, ih]

theorem pieces_form (s : Str) : ∀ p ∈ pieces s,
    KindText p.kind p.esc p.text ∧ (p.esc = true → p.kind = .Literal) := by
  induction s using pieces_induction with
  | h0 s h => rw [pieces_none h]; simp
  | h1 s p r h ih =>
    rw [pieces_some h]
    intro x hx
    simp only [List.mem_cons] at hx
    rcases hx with rfl | hx
    · exact tok1_form h
    · exact ih x hx

/-! ### Slices -/

theorem dropBytes_append (a b : Str) : dropBytes (blen a) (a ++ b) = some b := by
  induction a with
  | nil => simp [blen, dropBytes]
  | cons c r ih =>
    have := Char.utf8Size_pos c
    simp only [blen, List.cons_append]
    obtain ⟨n, hn⟩ : ∃ n, c.utf8Size + blen r = n + 1 := ⟨c.utf8Size + blen r - 1, by omega⟩
    rw [hn, dropBytes, if_pos (by omega)]
    rw [show n + 1 - c.utf8Size = blen r by omega, ih]

theorem takeBytes_append (a b : Str) : takeBytes (blen a) (a ++ b) = some a := by
  induction a with
  | nil => simp [blen, takeBytes]
  | cons c r ih =>
    have := Char.utf8Size_pos c
    simp only [blen, List.cons_append]
    obtain ⟨n, hn⟩ : ∃ n, c.utf8Size + blen r = n + 1 := ⟨c.utf8Size + blen r - 1, by omega⟩
    rw [hn, takeBytes, if_pos (by omega)]
    rw [show n + 1 - c.utf8Size = blen r by omega, ih]
    rfl

theorem e1 : '\\'.utf8Size = 1 := by decide

theorem slice_append (a b c : Str) (m : Nat) (hm : m = blen a + blen b) :
    slice (a ++ (b ++ c)) (blen a) m = some b := by
  subst hm
  unfold slice
  rw [if_pos (by omega), dropBytes_append]
  simp only [Option.bind_some]
  rw [show blen a + blen b - blen a = blen b by omega, takeBytes_append]

/-- What a token of a laid-out text looks like. -/
theorem place_facts (s : Str) : ∀ (pre : Str) (col row : Nat) (t : Token),
    t ∈ place (blen pre) col row (pieces s) →
    ∃ a p c, pre ++ s = a ++ (p.text ++ c) ∧ blen a = t.start ∧ t.stop = t.start + blen p.text ∧
      p ∈ pieces s ∧ t.kind = p.kind ∧ t.escaped = p.esc ∧ t.position.byteIndex = t.start ∧
      (p.esc = true → ∃ a', a = a' ++ ['\\']) := by
  induction s using pieces_induction with
  | h0 s h => rw [pieces_none h]; simp [place]
  | h1 s p r h ih =>
    intro pre col row t ht
    rw [pieces_some h] at ht ⊢
    simp only [place, List.mem_cons] at ht
    have hsrc := tok1_src h
    rcases ht with rfl | ht
    · refine ⟨pre ++ (if p.esc then ['\\'] else []), p, r, ?_, ?_, rfl, by simp, rfl, rfl, rfl, ?_⟩
      · rw [hsrc]; simp [Piece.src]
      · simp only [tokenOf, blen_append]
        split <;> rfl
      · intro he; exact ⟨pre, by simp [he]⟩
    · have e : blen pre + (if p.esc = true then 1 else 0) + blen p.text = blen (pre ++ p.src) := by
        simp only [Piece.src, blen_append]
        have := e1; split <;> simp [blen] <;> omega
      rw [e] at ht
      obtain ⟨a, p', c, h1, h2, h3, h4, h5⟩ := ih _ _ _ _ ht
      refine ⟨a, p', c, ?_, h2, h3, by simp [h4], h5⟩
      rw [← h1, hsrc]; simp

/-- Byte ranges of a layout. -/
theorem place_tiled (ps : List Piece) : ∀ off col row,
    Tiled off (place off col row ps) (off + blen (srcOf ps)) := by
  induction ps with
  | nil => intros; simp [place, Tiled, srcOf, blen]
  | cons p ps ih =>
    intro off col row
    simp only [place, Tiled, tokenOf, true_and]
    have := ih ((off + if p.esc then 1 else 0) + blen p.text) (advancePos p col row).1
          (advancePos p col row).2
    have e : (off + if p.esc then 1 else 0) + blen p.text + blen (srcOf ps)
        = off + blen (srcOf (p :: ps)) := by
      simp only [srcOf, List.flatMap_cons, blen_append, Piece.src]
      have := e1; split <;> simp [blen] <;> omega
    rw [e] at this
    exact this

end Yamd.Spec
