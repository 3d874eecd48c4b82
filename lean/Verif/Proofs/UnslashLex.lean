import Verif.Spec.Unslash
import Verif.Proofs.SubstLex

/-!
# Lexing a text without its superfluous backslashes
-/

namespace Yamd.Ref

open Yamd Yamd.Spec Yamd.Lexer

theorem unslash_nil : unslash [] = [] := rfl

theorem unslash_cons {c : Char} (hc : c ≠ '\\') (r : Str) : unslash (c :: r) = c :: unslash r := by
  cases r with
  | nil => rfl
  | cons d r => rw [unslash, if_neg hc]

theorem unslash_key {d : Char} (hd : d ∈ syntaxChars) (r : Str) : unslash ('\\' :: d :: r) = '\\' :: d :: unslash r := by
  rw [unslash, if_pos rfl, if_pos hd]

theorem unslash_other {d : Char} (hd : d ∉ syntaxChars) (r : Str) : unslash ('\\' :: d :: r) = d :: unslash r := by
  rw [unslash, if_pos rfl, if_neg hd]

theorem unslash_head {x : Char} (hx : x ∈ syntaxChars) (hb : x ≠ '\\') (s : Str) :
    ((unslash s).head? = some x) ↔ (s.head? = some x) := by
  cases s with
  | nil => rfl
  | cons c r =>
    by_cases hc : c = '\\'
    · subst hc
      cases r with
      | nil => rfl
      | cons d r =>
        by_cases hd : d ∈ syntaxChars
        · rw [unslash_key hd]; simp
        · rw [unslash_other hd]
          simp only [List.head?_cons, Option.some.injEq]
          constructor
          · rintro rfl; exact absurd hx hd
          · intro h; exact absurd h.symm hb
    · rw [unslash_cons hc]; simp

/-- The text does not begin with a superfluous backslash. -/
def Firm : Str → Prop
  | '\\' :: d :: _ => d ∈ syntaxChars
  | _ => True

theorem litStop_unslash {c : Char} (hc : c ≠ '\\') (r : Str) : litStop (c :: unslash r) = litStop (c :: r) := by
  have h1 : ((unslash r).head? == some '\n') = (r.head? == some '\n') := by
    rw [Bool.eq_iff_iff]; simpa using unslash_head (x := '\n') (by decide) (by decide) r
  have h2 : ((unslash r).head? == some '}') = (r.head? == some '}') := by
    rw [Bool.eq_iff_iff]; simpa using unslash_head (x := '}') (by decide) (by decide) r
  simp only [litStop, h1, h2]

theorem takeLit_unslash (r : Str) :
    takeLit (unslash r) = ((takeLit r).1 ++ (takeLit (unslash (takeLit r).2)).1, (takeLit (unslash (takeLit r).2)).2) := by
  induction r with
  | nil => rfl
  | cons c r ih =>
    by_cases hs : litStop (c :: r) = true
    · rw [takeLit_stop hs]; rfl
    · have hc : c ≠ '\\' := by rintro rfl; exact hs rfl
      rw [unslash_cons hc, takeLit_go (by rw [litStop_unslash hc]; exact hs), takeLit_go hs, ih]
      rfl

theorem takeLit_rest (r : Str) : litStop (takeLit r).2 = true := by
  induction r with
  | nil => rfl
  | cons c r ih =>
    by_cases hs : litStop (c :: r) = true
    · rw [takeLit_stop hs]; exact hs
    · rw [takeLit_go hs]; exact ih

/-- Pieces that belong to the text run before them. -/
def Soft (ls : List Piece) : Prop := ∀ p ∈ ls, p.kind = .Literal ∧ p.text ≠ []

def pieceText (ls : List Piece) : Str := ls.flatMap Piece.text

theorem soft_run : ∀ n (q : Str), q.length ≤ n → litStop q = true →
    ∃ ls q', pieces q = ls ++ pieces q' ∧ Soft ls ∧ takeLit (unslash q) = (pieceText ls, unslash q') ∧
      q'.length ≤ q.length := by
  intro n
  induction n with
  | zero =>
    intro q hn _
    have : q = [] := by simpa using hn
    subst this
    exact ⟨[], [], rfl, by simp [Soft], rfl, Nat.le_refl _⟩
  | succ n ih =>
    intro q hn hs
    cases q with
    | nil => exact ⟨[], [], rfl, by simp [Soft], rfl, Nat.le_refl _⟩
    | cons c r =>
      by_cases hc : c = '\\'
      · subst hc
        cases r with
        | nil => exact ⟨[], ['\\'], rfl, by simp [Soft], rfl, Nat.le_refl _⟩
        | cons d r =>
          by_cases hd : d ∈ syntaxChars
          · exact ⟨[], '\\' :: d :: r, rfl, by simp [Soft], by rw [unslash_key hd]; exact takeLit_stop rfl, Nat.le_refl _⟩
          · have hl := takeLit_length r
            obtain ⟨ls, q', h1, h2, h3, h4⟩ := ih (takeLit r).2 (by simp at hn; omega) (takeLit_rest r)
            refine ⟨⟨true, .Literal, d :: (takeLit r).1⟩ :: ls, q', ?_, ?_, ?_, ?_⟩
            · rw [pieces_some (tok1_esc d r), h1]; rfl
            · intro p hp
              rcases List.mem_cons.1 hp with rfl | hp
              · exact ⟨rfl, by simp⟩
              · exact h2 p hp
            · rw [unslash_other hd, takeLit_go (by rw [litStop_plain hd]; simp), takeLit_unslash, h3]
              simp [pieceText]
            · simp; omega
      · exact ⟨[], c :: r, rfl, by simp [Soft], by
          rw [unslash_cons hc]; exact takeLit_stop (by rw [litStop_unslash hc]; exact hs), Nat.le_refl _⟩

/-- The run after the first character of a literal. -/
theorem lit_run (r : Str) : ∃ ls q', pieces (takeLit r).2 = ls ++ pieces q' ∧ Soft ls ∧
    takeLit (unslash r) = ((takeLit r).1 ++ pieceText ls, unslash q') ∧ q'.length ≤ r.length := by
  obtain ⟨ls, q', h1, h2, h3, h4⟩ := soft_run _ _ (Nat.le_refl _) (takeLit_rest r)
  have := takeLit_length r
  refine ⟨ls, q', h1, h2, ?_, by omega⟩
  rw [takeLit_unslash, h3]

/-- The second list is the first one with literals cut into several. -/
inductive Cuts : List Piece → List Piece → Prop
  | nil : Cuts [] []
  | cons {p p' : Piece} {ls r r' : List Piece} : p'.kind = p.kind → p'.text ≠ [] → Soft ls →
      (p.kind ≠ .Literal → ls = []) → p.text = p'.text ++ pieceText ls → Cuts r r' →
      Cuts (p :: r) (p' :: (ls ++ r'))

theorem takeWhile_unslash {c : Char} (hc : c ∈ syntaxChars) (hb : c ≠ '\\') (r : Str) :
    (unslash r).takeWhile (· == c) = r.takeWhile (· == c) ∧
    (unslash r).dropWhile (· == c) = unslash (r.dropWhile (· == c)) := by
  induction r with
  | nil => exact ⟨rfl, rfl⟩
  | cons d r ih =>
    by_cases hd : d = c
    · subst hd
      rw [unslash_cons hb]
      simp only [List.takeWhile_cons, List.dropWhile_cons, beq_self_eq_true, if_true, ih, and_self]
    · have e : ((d :: r).takeWhile (· == c) = []) ∧ ((d :: r).dropWhile (· == c) = d :: r) := by
        simp [List.takeWhile_cons, List.dropWhile_cons, hd]
      rw [e.1, e.2]
      have hne : (unslash (d :: r)).head? ≠ some c := by
        rw [Ne, unslash_head hc hb]; simpa using hd
      cases hs : unslash (d :: r) with
      | nil => exact ⟨rfl, rfl⟩
      | cons x l =>
        rw [hs] at hne
        have : x ≠ c := by simpa using hne
        simp [List.takeWhile_cons, List.dropWhile_cons, this]

theorem lineBreak_unslash (s : Str) :
    lineBreak (unslash s) = (lineBreak s).map (fun x => (x.1, unslash x.2)) := by
  cases s with
  | nil => rfl
  | cons c r =>
    by_cases hc : c = '\\'
    · subst hc
      cases r with
      | nil => rfl
      | cons d r =>
        by_cases hd : d ∈ syntaxChars
        · rw [unslash_key hd]; rfl
        · rw [unslash_other hd, lineBreak_ne (by rintro rfl; exact hd (by decide)) (by rintro ⟨rfl, -⟩; exact hd (by decide))]
          rfl
    · rw [unslash_cons hc]
      by_cases h1 : c = '\n'
      · subst h1; rfl
      · by_cases h2 : c = '\r' ∧ r.head? = some '\n'
        · obtain ⟨rfl, h2⟩ := h2
          cases r with
          | nil => simp at h2
          | cons d r =>
            simp only [List.head?_cons, Option.some.injEq] at h2
            subst h2
            rw [unslash_cons (by decide)]; rfl
        · rw [lineBreak_ne h1 h2, lineBreak_ne h1 (by rw [unslash_head (by decide) (by decide)]; exact h2)]; rfl

theorem tail_unslash {x : Char} {r : Str} (hx : x ≠ '\\') (hr : r.head? = some x) :
    (unslash r).tail = unslash r.tail := by
  cases r with
  | nil => rfl
  | cons c r =>
    simp only [List.head?_cons, Option.some.injEq] at hr
    subst hr
    rw [unslash_cons hx]; rfl

theorem ordinary_id : Ordinary (fun c => [c]) :=
  ⟨fun _ _ => rfl, fun c hc => ⟨by simp, by simpa using hc⟩⟩

theorem soft_nil : Soft [] := by simp [Soft]

/-- One piece and what belongs to its text run. -/
theorem cuts_tok (s : Str) : (tok1 s = none ∧ tok1 (unslash s) = none) ∨
    ∃ p p' ls q, tok1 (unslash s) = some (p, unslash q) ∧ pieces s = p' :: (ls ++ pieces q) ∧ q.length < s.length ∧
      p'.kind = p.kind ∧ p'.text ≠ [] ∧ Soft ls ∧ (p.kind ≠ .Literal → ls = []) ∧ p.text = p'.text ++ pieceText ls := by
  cases s with
  | nil => exact .inl ⟨rfl, rfl⟩
  | cons c r =>
    by_cases hb : c = '\\'
    · subst hb
      cases r with
      | nil => exact .inl ⟨rfl, rfl⟩
      | cons d r =>
        right
        obtain ⟨ls, q, h1, h2, h3, h4⟩ := lit_run r
        have hp : pieces ('\\' :: d :: r) = ⟨true, .Literal, d :: (takeLit r).1⟩ :: (ls ++ pieces q) := by
          rw [pieces_some (tok1_esc d r), h1]
        by_cases hd : d ∈ syntaxChars
        · refine ⟨⟨true, .Literal, d :: (takeLit (unslash r)).1⟩, _, ls, q, ?_, hp, by simp; omega, rfl, by simp, h2,
            fun h => absurd rfl h, by rw [h3]; rfl⟩
          rw [unslash_key hd, tok1_esc, h3]
        · refine ⟨⟨false, .Literal, d :: (takeLit (unslash r)).1⟩, _, ls, q, ?_, hp, by simp; omega, rfl, by simp, h2,
            fun h => absurd rfl h, by rw [h3]; rfl⟩
          rw [unslash_other hd, tok1_plain (by rintro rfl; exact hd (by decide))
            (lineBreak_ne (by rintro rfl; exact hd (by decide)) (by rintro ⟨rfl, -⟩; exact hd (by decide))),
            tokPlain_other ordinary_id hd, h3]
    · right
      have hlb := lineBreak_unslash (c :: r)
      cases hl : lineBreak (c :: r) with
      | some x =>
        obtain ⟨l1, r1⟩ := x
        rw [hl] at hlb
        have hlen := lineBreak_length hl
        have hne : ∀ {l}, IsBreak l → l ≠ [] := by rintro l (rfl | rfl) <;> simp
        have hb1 := (lineBreak_some hl).2
        have hlb2 := lineBreak_unslash r1
        have ht : ∀ {c' r'}, c' ≠ '\\' → ∀ {x}, lineBreak (c' :: r') = some x → tok1 (c' :: r') =
            (match lineBreak x.2 with
            | some (l2, r2) => some (⟨false, .Terminator, x.1 ++ l2⟩, r2)
            | none => some (⟨false, .Eol, x.1⟩, x.2)) := by
          intro c' r' hc' x hx
          rw [tok1.eq_def]
          simp only [hc', if_false, hx]
          rcases lineBreak x.2 with _ | ⟨_, _⟩ <;> rfl
        rw [unslash_cons hb] at hlb ⊢
        have t1 := ht hb hl
        have t2 := ht hb hlb
        simp only at t1 t2
        rw [hlb2] at t2
        cases hl2 : lineBreak r1 with
        | none =>
          rw [hl2] at t1 t2
          simp only [Option.map_none] at t1 t2
          exact ⟨_, _, [], r1, t2, pieces_some t1, hlen, rfl, hne hb1, soft_nil, fun _ => rfl, by simp [pieceText]⟩
        | some y =>
          obtain ⟨l2, r2⟩ := y
          rw [hl2] at t1 t2
          simp only [Option.map_some] at t1 t2
          have := lineBreak_length hl2
          refine ⟨_, _, [], r2, t2, pieces_some t1, by omega, rfl, ?_, soft_nil, fun _ => rfl, by simp [pieceText]⟩
          simpa using fun h => absurd h (hne hb1)
      | none =>
        rw [hl] at hlb
        rw [unslash_cons hb] at hlb ⊢
        have t1 := tok1_plain hb hl
        have t2 := tok1_plain hb hlb
        have e1 : ((unslash r).head? = some '%') = (r.head? = some '%') := propext (unslash_head (by decide) (by decide) r)
        have e2 : ((unslash r).head? = some '}') = (r.head? = some '}') := propext (unslash_head (by decide) (by decide) r)
        rw [tokPlain] at t1 t2
        simp only [e1, e2] at t2
        by_cases h1 : c = '{' ∧ r.head? = some '%'
        · rw [if_pos h1] at t1 t2
          rw [tail_unslash (by decide) h1.2] at t2
          exact ⟨_, _, [], r.tail, t2, pieces_some t1, by simp; omega, rfl, by simp, soft_nil, fun _ => rfl, by simp [pieceText]⟩
        · rw [if_neg h1] at t1 t2
          by_cases h2 : c = '%' ∧ r.head? = some '}'
          · rw [if_pos h2] at t1 t2
            rw [tail_unslash (by decide) h2.2] at t2
            exact ⟨_, _, [], r.tail, t2, pieces_some t1, by simp; omega, rfl, by simp, soft_nil, fun _ => rfl, by simp [pieceText]⟩
          · rw [if_neg h2] at t1 t2
            cases hk : runKind c with
            | some k =>
              rw [hk] at t1 t2
              simp only at t1 t2
              have hc := runKind_syntax hk
              rw [(takeWhile_unslash hc hb r).1, (takeWhile_unslash hc hb r).2] at t2
              have hlen : (r.dropWhile (· == c)).length ≤ r.length := (List.dropWhile_sublist _).length_le
              exact ⟨_, _, [], _, t2, pieces_some t1, by simp; omega, rfl, by simp, soft_nil, fun _ => rfl, by simp [pieceText]⟩
            | none =>
              rw [hk] at t1 t2
              simp only at t1 t2
              cases hk2 : singleKind c with
              | some k =>
                rw [hk2] at t1 t2
                simp only at t1 t2
                exact ⟨_, _, [], r, t2, pieces_some t1, by simp, rfl, by simp, soft_nil, fun _ => rfl, by simp [pieceText]⟩
              | none =>
                rw [hk2] at t1 t2
                simp only at t1 t2
                obtain ⟨ls, q, i1, i2, i3, i4⟩ := lit_run r
                rw [i3] at t2
                exact ⟨_, ⟨false, .Literal, c :: (takeLit r).1⟩, ls, q, t2, by rw [pieces_some t1, i1], by simp; omega, rfl, by simp,
                  i2, fun h => absurd rfl h, rfl⟩

theorem cuts_unslash (s : Str) : Cuts (pieces (unslash s)) (pieces s) := by
  have main : ∀ n (s : Str), s.length ≤ n → Cuts (pieces (unslash s)) (pieces s) := by
    intro n
    induction n with
    | zero =>
      intro s hn
      have : s = [] := by simpa using hn
      subst this
      rw [unslash_nil, pieces_none rfl]
      exact .nil
    | succ n ih =>
      intro s hn
      rcases cuts_tok s with ⟨h1, h2⟩ | ⟨p, p', ls, q, h1, h2, h3, h4, h5, h6, h7, h8⟩
      · rw [pieces_none h1, pieces_none h2]; exact .nil
      · rw [pieces_some h1, h2]
        exact .cons h4 h5 h6 h7 h8 (ih q (by omega))
  exact main _ s (Nat.le_refl _)

end Yamd.Ref
