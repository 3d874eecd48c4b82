import Verif.Proofs.Fits
import Verif.Proofs.LexProps
import Verif.Spec.Lines

/-!
# Where lines start and end in the token list
-/

namespace Yamd.Spec

theorem dangling_join : ∀ (a b : Str), dangling a = false → dangling (a ++ b) = dangling b
  | [], b, _ => rfl
  | [c], b, h => by
    have hc : c ≠ '\\' := by simpa [dangling] using h
    exact dangling_src hc
  | c :: d :: r, b, h => by
    simp only [dangling] at h
    rw [List.cons_append, List.cons_append, dangling]
    split at h
    · rename_i hc; rw [if_pos hc]; exact dangling_join r b h
    · rename_i hc; rw [if_neg hc]; exact dangling_join (d :: r) b h

end Yamd.Spec

namespace Yamd.Ref

open Yamd Yamd.Spec Yamd.Props Yamd.Lexer

/-- A text after which a line starts. -/
def EndsLine (a : Str) : Prop := a = [] ∨ ∃ q, a = q ++ ['\n'] ∧ dangling q = false

theorem break_endsLine {a b : Str} (ha : dangling a = false) (hb : IsBreak b) : EndsLine (a ++ b) := by
  right
  rcases hb with rfl | rfl
  · exact ⟨a, rfl, ha⟩
  · exact ⟨a ++ ['\r'], by simp, by rw [dangling_join _ _ ha]; rfl⟩

theorem form_nonempty {k e s} (h : KindText k e s) : s ≠ [] := by
  rintro rfl
  cases k <;> simp [KindText, runCharOf, fixedText, IsBreak] at h

theorem advance_col {p : Piece} {col row : Nat} (h1 : p.kind ≠ .Eol) (h2 : p.kind ≠ .Terminator) :
    (advancePos p col row).1 = col + p.text.length := by
  unfold advancePos
  split
  · rename_i h; exact absurd h h1
  · rename_i h; exact absurd h h2
  · rfl

/-- A token of a layout with the text before and after it. -/
theorem place_line (s : Str) : ∀ (pre : Str) (col row : Nat) l1 t l2,
    place (blen pre) col row (pieces s) = l1 ++ t :: l2 → dangling pre = false → (col = 0 → EndsLine pre) →
    ∃ (a : Str) (p : Piece) (c : Str) (col' row' : Nat), pre ++ s = a ++ (p.src ++ c) ∧ t.start = blen a + (if p.esc then 1 else 0) ∧
      t.stop = blen (a ++ p.src) ∧ (t.position.column = 0 → EndsLine a) ∧ t.kind = p.kind ∧
      t.escaped = p.esc ∧ KindText p.kind p.esc p.text ∧ (p.esc = true → p.kind = .Literal) ∧
      l2 = place (blen (a ++ p.src)) col' row' (pieces c) ∧
      (p.kind = .Eol ∨ p.kind = .Terminator → col' = 0) ∧
      (p.kind ≠ .Eol → p.kind ≠ .Terminator → col' ≠ 0) := by
  induction s using pieces_induction with
  | h0 s h => intro pre col row l1 t l2 he; rw [pieces_none h] at he; simp [place] at he
  | h1 s p r h ih =>
    intro pre col row l1 t l2 he hd hcol
    rw [pieces_some h, place] at he
    have hsrc := tok1_src h
    obtain ⟨hform, hesc⟩ := tok1_form h
    have e : blen pre + (if p.esc = true then 1 else 0) + blen p.text = blen (pre ++ p.src) := by
      simp only [Piece.src, blen_append]
      have := e1; split <;> simp [blen] <;> omega
    rw [e] at he
    cases l1 with
    | nil =>
      simp only [List.nil_append, List.cons.injEq] at he
      obtain ⟨rfl, rfl⟩ := he
      refine ⟨pre, p, r, _, _, by rw [hsrc], rfl, e, hcol, rfl, rfl, hform, hesc, rfl, ?_, ?_⟩
      · rintro (hk | hk) <;> simp [advancePos, hk]
      · intro h1 h2
        have hlen : p.text.length ≠ 0 := by simpa using form_nonempty hform
        rw [advance_col h1 h2]; omega
    | cons x l1 =>
      simp only [List.cons_append, List.cons.injEq] at he
      obtain ⟨-, he⟩ := he
      have hd' : dangling (pre ++ p.src) = false := by
        rw [dangling_join _ _ hd]
        have := (src_dangling hform hesc []).1
        simpa [dangling] using this
      obtain ⟨a, p', c, col', row', f⟩ := ih _ _ _ _ _ _ he hd' (by
        intro h0
        have hk : p.kind = .Eol ∨ p.kind = .Terminator := by
          by_contra hcon
          simp only [not_or] at hcon
          have hlen : p.text.length ≠ 0 := by simpa using form_nonempty hform
          rw [advance_col hcon.1 hcon.2] at h0; omega
        have hesc0 : p.esc = false := by
          cases hx : p.esc with
          | false => rfl
          | true => rw [hesc hx] at hk; simp at hk
        have hsrc' : p.src = p.text := by simp [Piece.src, hesc0]
        rw [hsrc']
        rcases hk with hk | hk
        · rw [hk] at hform; exact break_endsLine hd hform
        · rw [hk] at hform
          obtain ⟨x, y, hx, hy, exy⟩ := hform
          rw [exy, ← List.append_assoc]
          refine break_endsLine ?_ hy
          rw [dangling_join _ _ hd]
          rcases hx with rfl | rfl <;> rfl)
      refine ⟨a, p', c, col', row', ?_, f.2⟩
      rw [← f.1, hsrc]; simp

/-- The token before and the token after a place in the list know about each other. -/
theorem tokens_line {input : Str} {l1 t l2} (h : tokens input = l1 ++ t :: l2) :
    ∃ (a : Str) (p : Piece) (c : Str) (col' row' : Nat), input = a ++ (p.src ++ c) ∧ t.start = blen a + (if p.esc then 1 else 0) ∧
      t.stop = blen (a ++ p.src) ∧ (t.position.column = 0 → EndsLine a) ∧ t.kind = p.kind ∧
      t.escaped = p.esc ∧ KindText p.kind p.esc p.text ∧ (p.esc = true → p.kind = .Literal) ∧
      l2 = place (blen (a ++ p.src)) col' row' (pieces c) ∧
      (p.kind = .Eol ∨ p.kind = .Terminator → col' = 0) ∧
      (p.kind ≠ .Eol → p.kind ≠ .Terminator → col' ≠ 0) := by
  have := place_line input [] 0 0 l1 t l2 (by simpa [blen, tokens] using h) rfl (fun _ => .inl rfl)
  simpa using this

theorem lineStart_of {input : Str} {t} (ht : t ∈ tokens input) (hk : t.kind ≠ .Literal) (hc : col0 t = true) :
    LineStart input t.start := by
  obtain ⟨l1, l2, h⟩ := List.append_of_mem ht
  obtain ⟨a, p, c, -, -, h1, h2, -, h4, h5, h6, -, h8, -⟩ := tokens_line h
  have he : p.esc = false := by
    cases hx : p.esc with
    | false => rfl
    | true => rw [h5, h8 hx] at hk; exact absurd rfl hk
  refine ⟨a, p.src ++ c, h1, by rw [h2, he]; simp, h4 ?_⟩
  simpa [col0] using hc

/-- Line breaks and the first columns go together. -/
def Cols : List Token → Prop
  | [] => True
  | [_] => True
  | a :: b :: r => (isEolOrTerminator a = true ↔ col0 b = true) ∧ Cols (b :: r)

theorem Cols.tail {t r} (h : Cols (t :: r)) : Cols r := by
  cases r with
  | nil => trivial
  | cons u r => exact h.2

theorem Cols.right : ∀ {a b}, Cols (a ++ b) → Cols b
  | [], _, h => h
  | _ :: _, _, h => Cols.right h.tail

theorem cols_of : ∀ {ts : List Token}, (∀ l1 a b l2, ts = l1 ++ a :: b :: l2 →
    (isEolOrTerminator a = true ↔ col0 b = true)) → Cols ts
  | [], _ => trivial
  | [_], _ => trivial
  | a :: b :: r, h => ⟨h [] a b r rfl, cols_of fun l1 x y l2 e => h (a :: l1) x y l2 (by rw [e]; rfl)⟩

theorem cols_tokens (input : Str) : Cols (tokens input) := by
  refine cols_of fun l1 t u l2 h => ?_
  obtain ⟨a, p, c, col', row', h1, h2, h3, h4, h5, h6, h7, h8, h9, h10, h11⟩ := tokens_line h
  have hu : u.position.column = col' := by
    cases hp : pieces c with
    | nil => rw [hp] at h9; simp [place] at h9
    | cons q r =>
      rw [hp, place] at h9
      simp only [List.cons.injEq] at h9
      rw [h9.1]; rfl
  simp only [isEolOrTerminator, col0, Bool.or_eq_true, decide_eq_true_eq, hu, h5]
  constructor
  · exact h10
  · intro h0
    by_contra hcon
    simp only [not_or] at hcon
    exact h11 hcon.1 hcon.2 h0

theorem FlipRel.col0_eq {a b} (h : FlipRel a b) : col0 b = col0 a := by
  rcases h with rfl | ⟨-, rfl⟩ <;> rfl

theorem FlipRel.break_eq {a b} (h : FlipRel a b) : isEolOrTerminator b = isEolOrTerminator a := by
  rcases h with rfl | ⟨h, rfl⟩
  · rfl
  · simp [isEolOrTerminator, h]

theorem Flips.cols {a b} (h : Flips a b) : Cols a → Cols b := by
  induction h with
  | nil => exact id
  | cons h hr ih =>
    intro hc
    cases hr with
    | nil => trivial
    | cons h' hr' =>
      refine ⟨?_, ih hc.tail⟩
      rw [h.break_eq, h'.col0_eq]; exact hc.1

/-- A line ends in front of these tokens. -/
def Front : List Token → Prop
  | [] => True
  | t :: _ => isEolOrTerminator t = true

theorem Flips.front {a b} (h : Flips a b) (hf : Front a) : Front b := by
  cases h with
  | nil => trivial
  | cons h hr => show _ = true; rw [h.break_eq]; exact hf

theorem lineEnd_of {input : Str} {l1 t l2} (h : tokens input = l1 ++ t :: l2) (hf : Front l2) :
    LineEnd input t.stop := by
  obtain ⟨a, p, c, col', row', h1, h2, h3, h4, h5, h6, h7, h8, h9, -, -⟩ := tokens_line h
  refine ⟨a ++ p.src, c, by rw [h1]; simp, h3.symm, ?_⟩
  cases ht : tok1 c with
  | none =>
    rcases tok1_none ht with rfl | rfl
    · exact .inl rfl
    · exact .inr (.inl rfl)
  | some x =>
    obtain ⟨q, r⟩ := x
    rw [pieces_some ht, place] at h9
    rw [h9] at hf
    obtain ⟨f1, f2⟩ := tok1_form ht
    have hs := tok1_src ht
    have hk : q.kind = .Eol ∨ q.kind = .Terminator := by
      simp only [Front, isEolOrTerminator, tokenOf, Bool.or_eq_true] at hf; exact hf.imp of_decide_eq_true of_decide_eq_true
    have he : q.esc = false := by
      cases hx : q.esc with
      | false => rfl
      | true => rw [f2 hx] at hk; simp at hk
    have hsrc : q.src = q.text := by simp [Piece.src, he]
    right; right
    rw [hs, hsrc]
    rcases hk with hk | hk
    · rw [hk] at f1; exact ⟨_, _, f1, rfl⟩
    · rw [hk] at f1
      obtain ⟨x, y, hx, -, e⟩ := f1
      exact ⟨x, y ++ r, hx, by rw [e]; simp⟩

end Yamd.Ref
