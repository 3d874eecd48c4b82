import Verif.Proofs.Unstopped
import Verif.Proofs.DocFacts

/-!
# Tokens of a source without backslashes and carriage returns
-/

namespace Yamd.Ref

open Yamd Yamd.Spec

/-- What is known about one token. -/
structure TokOk (src : Str) (t : Token) : Prop where
  ne : sliceD src t ≠ []
  eol : t.kind = .Eol → sliceD src t = ['\n']
  term : t.kind = .Terminator → sliceD src t = ['\n', '\n']
  nl : t.kind ≠ .Eol → t.kind ≠ .Terminator → '\n' ∉ sliceD src t
  close : ['%', '}'] <+: sliceD src t → t.kind = .CollapsibleEnd
  space : (sliceD src t).head? = some ' ' → t.kind = .Space
  lexed : t.kind ≠ .Literal → Lexed src t
  cr : '\r' ∉ sliceD src t
  brk : ∀ (k : TokenKind) (c : Char), fixedText k = some [c] → c ∈ ['[', ']', '(', ')'] → c ∈ sliceD src t →
    t.kind = k ∧ sliceD src t = [c] ∧ t.len = 1
  bullet : (sliceD src t).head? = some '-' ∨ (sliceD src t).head? = some '+' → t.kind ≠ .Literal

/-- What is known about two neighbours. -/
structure AdjOk (src : Str) (t u : Token) : Prop where
  col : col0 u = true ↔ t.kind = .Eol ∨ t.kind = .Terminator
  run : t.kind = u.kind → runCharOf t.kind = none
  eol : t.kind = .Eol → u.kind ≠ .Eol ∧ u.kind ≠ .Terminator
  pct : sliceD src t = ['%'] → (sliceD src u).head? ≠ some '}'

/-- Tokens as the lexer leaves them. -/
def Tidy (src : Str) : List Token → Prop
  | [] => True
  | [t] => TokOk src t
  | t :: u :: r => TokOk src t ∧ AdjOk src t u ∧ Tidy src (u :: r)

section
variable {src : Str}

theorem Tidy.head {t r} (h : Tidy src (t :: r)) : TokOk src t := by
  cases r with
  | nil => exact h
  | cons u r => exact h.1

theorem Tidy.tail {t r} (h : Tidy src (t :: r)) : Tidy src r := by
  cases r with
  | nil => trivial
  | cons u r => exact h.2.2

theorem Tidy.right : ∀ {a b}, Tidy src (a ++ b) → Tidy src b
  | [], _, h => h
  | _ :: a, _, h => Tidy.right (a := a) (Tidy.tail h)

theorem Tidy.left : ∀ {a b}, Tidy src (a ++ b) → Tidy src a
  | [], _, _ => trivial
  | [t], _, h => Tidy.head h
  | t :: u :: a, b, h => ⟨h.1, h.2.1, Tidy.left (a := u :: a) (b := b) h.2.2⟩

theorem Tidy.drop {a} (n : Nat) (h : Tidy src a) : Tidy src (a.drop n) := by
  rw [← List.take_append_drop n a] at h; exact h.right

theorem Tidy.take {a} (n : Nat) (h : Tidy src a) : Tidy src (a.take n) := by
  rw [← List.take_append_drop n a] at h; exact h.left

theorem Tidy.mem {a t} (h : Tidy src a) (ht : t ∈ a) : TokOk src t := by
  obtain ⟨l1, l2, rfl⟩ := List.append_of_mem ht
  exact h.right.head

theorem Tidy.pair {l1 t u l2} (h : Tidy src (l1 ++ t :: u :: l2)) : AdjOk src t u := (h.right).2.1

theorem Tidy.last {l t u r} (h : Tidy src (l ++ u :: r)) (hl : l.getLast? = some t) : AdjOk src t u := by
  obtain ⟨l0, rfl⟩ := List.getLast?_eq_some_iff.1 hl
  rw [List.append_assoc] at h
  exact h.pair

theorem flip_tokOk {a b : Token} (h : FlipRel a b) (ha : TokOk src a) : TokOk src b := by
  rcases h with rfl | ⟨hk, rfl⟩
  · exact ha
  · have hne : ∀ {k}, (TokenKind.Literal = k) → k ≠ .Eol ∧ k ≠ .Terminator := by rintro _ rfl; decide
    refine ⟨ha.ne, fun e => by simp at e, fun e => by simp at e, fun _ _ => ha.nl (by rw [hk]; decide) (by rw [hk]; decide), ?_, ?_, fun e => absurd rfl e, ha.cr, ?_, ?_⟩
    · intro e; have := ha.close e; rw [hk] at this; cases this
    · intro e; have := ha.space e; rw [hk] at this; cases this
    · intro k c h1 h2 h3
      have := (ha.brk k c h1 h2 h3).1
      rw [hk] at this
      subst this
      simp [fixedText] at h1
    · intro h
      obtain ⟨s, e1, e2, -⟩ := ha.lexed (by rw [hk]; decide)
      have h : s.head? = some '-' ∨ s.head? = some '+' := by rw [← e1]; exact h
      rw [hk] at e2
      have e2 : s = ['{', '%'] := (by simpa [KindText, runCharOf, fixedText] using e2 : _ = s).symm
      rw [e2] at h
      simp at h

theorem flip_kind2 {a b : Token} (h : FlipRel a b) {k : TokenKind} (h1 : k ≠ .Literal) (h2 : k ≠ .CollapsibleStart) :
    b.kind = k ↔ a.kind = k := by
  rcases h with rfl | ⟨hk, rfl⟩
  · rfl
  · rw [hk]; exact ⟨fun e => absurd e.symm h1, fun e => absurd e.symm h2⟩

theorem flip_adjOk {a b a' b' : Token} (h : FlipRel a a') (h' : FlipRel b b') (ha : AdjOk src a b) : AdjOk src a' b' := by
  have e1 : sliceD src a' = sliceD src a := by rcases h with rfl | ⟨_, rfl⟩ <;> rfl
  have e2 : sliceD src b' = sliceD src b := by rcases h' with rfl | ⟨_, rfl⟩ <;> rfl
  have e3 : col0 b' = col0 b := by rcases h' with rfl | ⟨_, rfl⟩ <;> rfl
  refine ⟨?_, ?_, ?_, by rw [e1, e2]; exact ha.pct⟩
  · rw [e3, flip_kind2 h (by decide) (by decide), flip_kind2 h (by decide) (by decide)]; exact ha.col
  · intro e
    cases hr : runCharOf a'.kind with
    | none => rfl
    | some c =>
      have hl : a'.kind ≠ .Literal := by intro e; rw [e] at hr; simp [runCharOf] at hr
      have ea := flipRel_kind h hl
      have eb := flipRel_kind h' (by rw [← e]; exact hl)
      subst ea eb
      rw [← hr]; exact ha.run e
  · rw [flip_kind2 h (by decide) (by decide)]
    intro e
    have := ha.eol e
    rw [ne_eq, ne_eq, flip_kind2 h' (by decide) (by decide), flip_kind2 h' (by decide) (by decide)]
    exact this

theorem Tidy.flips : ∀ {a b}, Flips a b → Tidy src a → Tidy src b
  | _, _, .nil, _ => trivial
  | _, _, .cons h .nil, ht => flip_tokOk h ht
  | _, _, .cons h (.cons h' h2), ht =>
    ⟨flip_tokOk h ht.1, flip_adjOk h h' ht.2.1, Tidy.flips (.cons h' h2) ht.2.2⟩

theorem Tidy.live {ts} (h : Tidy src ts) : Live src ts := by
  refine ⟨fun t ht => (h.mem ht).ne, fun t ht => (h.mem ht).lexed, ?_⟩
  rintro l1 a b l2 rfl
  exact h.pair.run

end

/-! ### The tokens of a source are tidy -/

/-- A bracket or parenthesis that is not escaped is a token of its own. -/
theorem kind_single {k k' : TokenKind} {s : Str} {c : Char} (hf : KindText k' false s)
    (hk : fixedText k = some [c]) (hc : c ∈ ['[', ']', '(', ')']) (hm : c ∈ s) : k' = k ∧ s = [c] := by
  have hspec : c ∈ specials := by
    simp only [List.mem_cons, List.not_mem_nil, or_false] at hc
    rcases hc with rfl | rfl | rfl | rfl <;> decide
  have hnl : c ≠ '\n' ∧ c ≠ '\r' := by
    simp only [List.mem_cons, List.not_mem_nil, or_false] at hc
    rcases hc with rfl | rfl | rfl | rfl <;> decide
  cases k' with
  | Literal =>
    obtain ⟨d, r, e, h2, h3⟩ := hf
    rw [e] at hm
    rcases List.mem_cons.1 hm with rfl | hm
    · exact absurd hspec (h3 rfl).1
    · exact absurd hspec (h2 c hm)
  | Eol =>
    rcases hf with e | e <;> rw [e] at hm <;> simp [hnl] at hm
  | Terminator =>
    obtain ⟨a, b, ha, hb, e⟩ := hf
    rw [e] at hm
    rcases ha with rfl | rfl <;> rcases hb with rfl | rfl <;> simp [hnl] at hm
  | _ =>
    simp only [KindText, runCharOf, fixedText, Option.some.injEq] at hf
    first
      | (obtain ⟨-, h3⟩ := hf
         have := h3 c hm
         subst this
         exact absurd hc (by decide))
      | (subst hf
         simp only [List.mem_cons, List.not_mem_nil, or_false] at hm hc
         rcases hc with rfl | rfl | rfl | rfl <;> revert hk <;> cases k <;> simp_all [fixedText])

/-- `TokOk` for the text of a token. -/
theorem form_tok {k : TokenKind} {s : Str} (h : KindText k false s) (hr : '\r' ∉ s) :
    (k = .Eol → s = ['\n']) ∧ (k = .Terminator → s = ['\n', '\n']) ∧
    (k ≠ .Eol → k ≠ .Terminator → '\n' ∉ s) ∧ (['%', '}'] <+: s → k = .CollapsibleEnd) ∧
    (s.head? = some ' ' → k = .Space) ∧ (s = ['%'] → k = .Literal) := by
  have hb : ∀ {x : Str}, IsBreak x → '\r' ∉ x → x = ['\n'] := by
    rintro x (rfl | rfl) hx
    · rfl
    · simp at hx
  have run : ∀ (c : Char), c ≠ '\n' → c ≠ '%' → (s ≠ [] ∧ ∀ x ∈ s, x = c) →
      '\n' ∉ s ∧ ¬ ['%', '}'] <+: s ∧ (c ≠ ' ' → s.head? ≠ some ' ') ∧ s ≠ ['%'] := by
    intro c h1 h2 h
    refine ⟨fun hm => h1 (h.2 _ hm).symm, ?_, ?_, ?_⟩
    · rintro ⟨r, rfl⟩; exact h2 (h.2 '%' (by simp)).symm
    · intro h3 h4
      exact h3 (h.2 _ (List.mem_of_mem_head? h4)).symm
    · rintro rfl; exact h2 (h.2 '%' (by simp)).symm
  cases k with
  | Eol =>
    have := hb h hr; subst this
    exact ⟨fun _ => rfl, by simp, by simp, by simp, by simp, by simp⟩
  | Terminator =>
    obtain ⟨a, b, ha, hb', rfl⟩ := h
    have e1 := hb ha (fun h => hr (by simp [h]))
    have e2 := hb hb' (fun h => hr (by simp [h]))
    subst e1 e2
    exact ⟨by simp, fun _ => rfl, by simp, by simp, by simp, by simp⟩
  | Literal =>
    obtain ⟨c, r, rfl, h1, h2⟩ := h
    obtain ⟨h3, h4⟩ := h2 rfl
    refine ⟨by simp, by simp, fun _ _ => ?_, ?_, ?_, by simp⟩
    · intro hm
      rcases List.mem_cons.1 hm with rfl | hm
      · exact h3 (by simp [specials])
      · exact h1 _ hm (by simp [specials])
    · intro hp
      rw [List.cons_prefix_cons] at hp
      exact absurd (h1 '}' (hp.2.subset (by simp))) (by simp [specials])
    · intro hh
      simp only [List.head?_cons, Option.some.injEq] at hh
      exact absurd hh h4
  | Space =>
    obtain ⟨a, b, c, d⟩ := run ' ' (by decide) (by decide) h
    exact ⟨by simp, by simp, fun _ _ => a, fun e => absurd e b, fun _ => rfl, fun e => absurd e d⟩
  | Tilde =>
    obtain ⟨a, b, c, d⟩ := run '~' (by decide) (by decide) h
    exact ⟨by simp, by simp, fun _ _ => a, fun e => absurd e b, fun e => absurd e (c (by decide)), fun e => absurd e d⟩
  | Star =>
    obtain ⟨a, b, c, d⟩ := run '*' (by decide) (by decide) h
    exact ⟨by simp, by simp, fun _ _ => a, fun e => absurd e b, fun e => absurd e (c (by decide)), fun e => absurd e d⟩
  | RightCurlyBrace =>
    obtain ⟨a, b, c, d⟩ := run '}' (by decide) (by decide) h
    exact ⟨by simp, by simp, fun _ _ => a, fun e => absurd e b, fun e => absurd e (c (by decide)), fun e => absurd e d⟩
  | LeftCurlyBrace =>
    obtain ⟨a, b, c, d⟩ := run '{' (by decide) (by decide) h
    exact ⟨by simp, by simp, fun _ _ => a, fun e => absurd e b, fun e => absurd e (c (by decide)), fun e => absurd e d⟩
  | Minus =>
    obtain ⟨a, b, c, d⟩ := run '-' (by decide) (by decide) h
    exact ⟨by simp, by simp, fun _ _ => a, fun e => absurd e b, fun e => absurd e (c (by decide)), fun e => absurd e d⟩
  | Hash =>
    obtain ⟨a, b, c, d⟩ := run '#' (by decide) (by decide) h
    exact ⟨by simp, by simp, fun _ _ => a, fun e => absurd e b, fun e => absurd e (c (by decide)), fun e => absurd e d⟩
  | GreaterThan =>
    obtain ⟨a, b, c, d⟩ := run '>' (by decide) (by decide) h
    exact ⟨by simp, by simp, fun _ _ => a, fun e => absurd e b, fun e => absurd e (c (by decide)), fun e => absurd e d⟩
  | Bang =>
    obtain ⟨a, b, c, d⟩ := run '!' (by decide) (by decide) h
    exact ⟨by simp, by simp, fun _ _ => a, fun e => absurd e b, fun e => absurd e (c (by decide)), fun e => absurd e d⟩
  | Backtick =>
    obtain ⟨a, b, c, d⟩ := run '`' (by decide) (by decide) h
    exact ⟨by simp, by simp, fun _ _ => a, fun e => absurd e b, fun e => absurd e (c (by decide)), fun e => absurd e d⟩
  | Plus =>
    obtain ⟨a, b, c, d⟩ := run '+' (by decide) (by decide) h
    exact ⟨by simp, by simp, fun _ _ => a, fun e => absurd e b, fun e => absurd e (c (by decide)), fun e => absurd e d⟩
  | _ =>
    simp only [KindText, runCharOf, fixedText, Option.some.injEq] at h
    subst h
    simp

theorem tok1_pct {s r : Str} {p : Piece} (h : tok1 s = some (p, r)) (he : p.esc = false) (ht : p.text = ['%']) :
    r.head? ≠ some '}' := by
  intro hr
  have hs := tok1_src h
  rw [Piece.src, he, ht] at hs
  cases r with
  | nil => simp at hr
  | cons c r =>
    simp only [List.head?_cons, Option.some.injEq] at hr
    subst hr
    simp only [Bool.false_eq_true, if_false, List.nil_append, List.cons_append] at hs
    rw [hs, Lexer.tok1_plain (by decide) (Lexer.lineBreak_ne (by decide) (by simp)), tokPlain, if_neg (by simp), if_pos (by simp)] at h
    simp only [Option.some.injEq, Prod.mk.injEq] at h
    have := congrArg Piece.text h.1
    rw [ht] at this
    simp at this

theorem pieces_tok {src : Str} (hb : '\\' ∉ src) : ∀ p ∈ pieces src, p.esc = false := by
  intro p hp
  cases he : p.esc with
  | false => rfl
  | true =>
    exfalso
    have := pieces_src src
    apply hb
    rw [this]
    refine List.mem_append_left _ (List.mem_flatMap.2 ⟨p, hp, ?_⟩)
    simp [Piece.src, he]

theorem slice_of {pre s r : Str} {p : Piece} {col row} (h : tok1 s = some (p, r)) (he : p.esc = false) :
    sliceD (pre ++ s) (tokenOf p (blen pre) col row) = p.text := by
  have hs := tok1_src h
  rw [Piece.src, he] at hs
  unfold sliceD tokenOf
  simp only [he, Bool.false_eq_true, if_false, Nat.add_zero]
  rw [hs]
  simp only [Bool.false_eq_true, if_false, List.nil_append]
  rw [slice_append _ _ _ _ rfl]; rfl

theorem place_tidy (s : Str) : ∀ (pre : Str) (col row : Nat), '\\' ∉ s → '\r' ∉ s →
    Tidy (pre ++ s) (place (blen pre) col row (pieces s)) := by
  induction s using pieces_induction with
  | h0 s h => intros; rw [pieces_none h]; trivial
  | h1 s p r h ih =>
    intro pre col row hb hr
    have hesc : p.esc = false := by
      have := pieces_tok hb p (by rw [pieces_some h]; simp)
      exact this
    have hs := tok1_src h
    rw [Piece.src, hesc] at hs
    simp only [Bool.false_eq_true, if_false, List.nil_append] at hs
    have hb' : '\\' ∉ r := fun hm => hb (by rw [hs]; simp [hm])
    have hr' : '\r' ∉ r := fun hm => hr (by rw [hs]; simp [hm])
    have hrp : '\r' ∉ p.text := fun hm => hr (by rw [hs]; simp [hm])
    have hform := (tok1_form h).1
    rw [hesc] at hform
    have hsl := slice_of (pre := pre) (col := col) (row := row) h hesc
    obtain ⟨f1, f2, f3, f4, f5, f6⟩ := form_tok hform hrp
    have ih' := ih (pre ++ p.text) (advancePos p col row).1 (advancePos p col row).2 hb' hr'
    have tok : TokOk (pre ++ s) (tokenOf p (blen pre) col row) := by
      refine ⟨?_, ?_, ?_, ?_, ?_, ?_, ?_, by rw [hsl]; exact hrp, ?_, ?_⟩
      · rw [hsl]; exact form_ne_nil hform
      · rw [hsl]; exact f1
      · rw [hsl]; exact f2
      · rw [hsl]; exact f3
      · rw [hsl]; exact f4
      · rw [hsl]; exact f5
      · intro _
        refine ⟨p.text, ?_, ?_, ?_⟩
        · exact hsl
        · simp only [tokenOf, hesc]; exact hform
        · simp [Token.len, tokenOf]
      · intro k c h1 h2 h3
        rw [hsl] at h3 ⊢
        obtain ⟨a1, a2⟩ := kind_single hform h1 h2 h3
        refine ⟨by simp only [tokenOf]; exact a1, a2, ?_⟩
        simp only [Token.len, tokenOf, a2, Nat.add_sub_cancel_left]
        simp only [List.mem_cons, List.not_mem_nil, or_false] at h2
        rcases h2 with rfl | rfl | rfl | rfl <;> rfl
      · rw [hsl]
        intro hh hk
        have hk : p.kind = .Literal := hk
        rw [hk] at hform
        obtain ⟨c, r', e, -, h3⟩ := hform
        rw [e] at hh
        simp only [List.head?_cons, Option.some.injEq] at hh
        have := (h3 rfl).1
        rcases hh with rfl | rfl <;> exact this (by decide)
    rw [pieces_some h, place]
    simp only [hesc, Bool.false_eq_true, if_false, Nat.add_zero]
    have e1 : blen pre + blen p.text = blen (pre ++ p.text) := by rw [Lexer.blen_append]
    have e2 : pre ++ s = (pre ++ p.text) ++ r := by rw [hs]; simp
    rw [e1]
    cases h' : tok1 r with
    | none =>
      rw [pieces_none h', place]; exact tok
    | some x =>
      obtain ⟨q, r'⟩ := x
      rw [← e2, pieces_some h', place] at ih'
      rw [pieces_some h', place]
      have hesc' : q.esc = false := pieces_tok hb' q (by rw [pieces_some h']; simp)
      refine ⟨tok, ?_, ih'⟩
      have hsl' := slice_of (pre := pre ++ p.text) (col := (advancePos p col row).1) (row := (advancePos p col row).2) h' hesc'
      have nm := Props.tok1_next h h' hesc'
      obtain ⟨t1, t2, t3⟩ := Props.tok1_tail h
      refine ⟨?_, ?_, ?_, ?_⟩
      · simp only [col0, tokenOf, decide_eq_true_eq]
        have hp : p.text ≠ [] := form_ne_nil hform
        cases hk : p.kind <;> simp [advancePos, hk, hp]
      · intro e
        cases hc : runCharOf (tokenOf p (blen pre) col row).kind with
        | none => rfl
        | some c => exact absurd (Or.inl ⟨e, Or.inl (by simp [tokenOf] at hc; rw [hc]; simp)⟩) nm
      · intro e
        have e : p.kind = .Eol := e
        constructor
        · intro e'; exact nm (Or.inr (Or.inl ⟨e, Or.inl e'⟩))
        · intro e'; exact nm (Or.inr (Or.inl ⟨e, Or.inr e'⟩))
      · rw [hsl, e2, hsl', ← Props.head_of_src h' hesc']
        intro e
        exact tok1_pct h hesc e

theorem tidy_tokens {src : Str} (hb : '\\' ∉ src) (hr : '\r' ∉ src) : Tidy src (tokens src) := by
  have := place_tidy src [] 0 0 hb hr
  simpa [tokens, blen] using this

end Yamd.Ref
