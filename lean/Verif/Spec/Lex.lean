import Verif.Model.Lexer

/-!
# Declarative specification of YAMD tokens

Read this instead of the state machine: the text is cut into *pieces* by maximal munch (`tok1`), and
the pieces are laid out to tokens with byte ranges and positions (`place`).
`Proofs/LexEquiv.lean` proves that the modelled lexer produces exactly this.
-/

namespace Yamd.Spec

open Yamd

/-- A token without its position: its text, and whether a removed backslash precedes it. -/
structure Piece where
  esc : Bool
  kind : TokenKind
  text : Str
  deriving DecidableEq, Repr

/-- Kinds made of one or more copies of a character. -/
def runKind (c : Char) : Option TokenKind :=
  if c = '~' then some .Tilde
  else if c = '*' then some .Star
  else if c = '}' then some .RightCurlyBrace
  else if c = '{' then some .LeftCurlyBrace
  else if c = ' ' then some .Space
  else if c = '-' then some .Minus
  else if c = '#' then some .Hash
  else if c = '>' then some .GreaterThan
  else if c = '!' then some .Bang
  else if c = '`' then some .Backtick
  else if c = '+' then some .Plus
  else none

/-- Kinds made of exactly one character. -/
def singleKind (c : Char) : Option TokenKind :=
  if c = '[' then some .LeftSquareBracket
  else if c = ']' then some .RightSquareBracket
  else if c = '(' then some .LeftParenthesis
  else if c = ')' then some .RightParenthesis
  else if c = '_' then some .Underscore
  else if c = '|' then some .Pipe
  else none

/-- Characters that always end a literal. -/
def stopChars : List Char :=
  ['\n', '\\', '~', '*', '}', '{', '-', '#', '>', '!', '`', '+', '[', ']', '(', ')', '_', '|']

/-- Does the text begin with something that ends a literal? A space does not, a lone `\r` or `%`
does not, `\r\n` and `%}` do. -/
def litStop : Str → Bool
  | [] => true
  | c :: r => stopChars.contains c || (c == '\r' && r.head? == some '\n')
      || (c == '%' && r.head? == some '}')

/-- The longest continuation of a literal, and what follows it. -/
def takeLit : Str → Str × Str
  | [] => ([], [])
  | c :: r => if litStop (c :: r) then ([], c :: r) else (c :: (takeLit r).1, (takeLit r).2)

/-- A line break at the front of the text. -/
def lineBreak : Str → Option (Str × Str)
  | '\n' :: r => some (['\n'], r)
  | '\r' :: '\n' :: r => some (['\r', '\n'], r)
  | _ => none

/-- A piece that is not a line break and does not start with a backslash. -/
def tokPlain : Char → Str → Piece × Str
  | c, r =>
    if c = '{' ∧ r.head? = some '%' then (⟨false, .CollapsibleStart, ['{', '%']⟩, r.tail)
    else if c = '%' ∧ r.head? = some '}' then (⟨false, .CollapsibleEnd, ['%', '}']⟩, r.tail)
    else
      match runKind c with
      | some k => (⟨false, k, c :: r.takeWhile (· == c)⟩, r.dropWhile (· == c))
      | none =>
        match singleKind c with
        | some k => (⟨false, k, [c]⟩, r)
        | none => (⟨false, .Literal, c :: (takeLit r).1⟩, (takeLit r).2)

/-- The first piece of a text and the rest; `none` at the end (a last lone backslash is dropped). -/
def tok1 : Str → Option (Piece × Str)
  | [] => none
  | c :: r =>
    if c = '\\' then
      match r with
      | [] => none
      | d :: r' => some (⟨true, .Literal, d :: (takeLit r').1⟩, (takeLit r').2)
    else
      match lineBreak (c :: r) with
      | some (l1, r1) =>
        match lineBreak r1 with
        | some (l2, r2) => some (⟨false, .Terminator, l1 ++ l2⟩, r2)
        | none => some (⟨false, .Eol, l1⟩, r1)
      | none => some (tokPlain c r)

theorem takeLit_length (s : Str) : (takeLit s).2.length ≤ s.length := by
  induction s with
  | nil => simp [takeLit]
  | cons c r ih => unfold takeLit; split <;> simp <;> omega

theorem lineBreak_length {s a b : Str} (h : lineBreak s = some (a, b)) : b.length < s.length := by
  unfold lineBreak at h
  split at h <;> simp at h
  · obtain ⟨_, rfl⟩ := h; simp
  · obtain ⟨_, rfl⟩ := h; simp; omega

theorem tokPlain_length (c : Char) (r : Str) : (tokPlain c r).2.length ≤ r.length := by
  rw [tokPlain]
  split
  · simp
  · split
    · simp
    · split
      · exact (List.dropWhile_sublist _).length_le
      · split
        · exact Nat.le_refl _
        · exact takeLit_length r

theorem tok1_length {s : Str} {p : Piece} {r : Str} (h : tok1 s = some (p, r)) :
    r.length < s.length := by
  cases s with
  | nil => simp [tok1] at h
  | cons c s =>
    rw [tok1.eq_def] at h; simp only at h
    split at h
    · split at h
      · simp at h
      · simp at h; obtain ⟨_, rfl⟩ := h
        rename_i d r' _
        have := takeLit_length r'
        simp; omega
    · split at h
      · rename_i l1 r1 h1
        have := lineBreak_length h1
        split at h
        · rename_i l2 r2 h2
          have := lineBreak_length h2
          simp at h; obtain ⟨_, rfl⟩ := h; omega
        · simp at h; obtain ⟨_, rfl⟩ := h; omega
      · simp at h
        have := tokPlain_length c s
        rw [h] at this
        simp at this ⊢; omega

/-- All pieces of a text. -/
def pieces (s : Str) : List Piece :=
  match h : tok1 s with
  | none => []
  | some (p, r) =>
    have : r.length < s.length := tok1_length h
    p :: pieces r
termination_by s.length

/-- Column and row after a piece: a line break starts a new row, everything else advances the column
by its characters (removed backslashes are not counted). -/
def advancePos (p : Piece) (col row : Nat) : Nat × Nat :=
  match p.kind with
  | .Eol => (0, row + 1)
  | .Terminator => (0, row + 2)
  | _ => (col + p.text.length, row)

/-- The token of a piece when the lexer stands at byte `off`, column `col`, row `row`. -/
def tokenOf (p : Piece) (off col row : Nat) : Token :=
  let start := off + if p.esc then 1 else 0
  { kind := p.kind, start, stop := start + blen p.text, position := ⟨start, col, row⟩,
    escaped := p.esc }

/-- Lay out the pieces as tokens, starting at byte `off`, column `col`, row `row`. -/
def place (off col row : Nat) : List Piece → List Token
  | [] => []
  | p :: r =>
    tokenOf p off col row
      :: place ((off + if p.esc then 1 else 0) + blen p.text) (advancePos p col row).1
          (advancePos p col row).2 r

/-- The token sequence of a text. -/
def tokens (input : Str) : List Token := place 0 0 0 (pieces input)

theorem pieces_none {s : Str} (h : tok1 s = none) : pieces s = [] := by
  unfold pieces; split
  · rfl
  · rename_i h'; rw [h] at h'; cases h'

theorem pieces_some {s : Str} {p : Piece} {r : Str} (h : tok1 s = some (p, r)) :
    pieces s = p :: pieces r := by
  conv => lhs; unfold pieces
  split
  · rename_i h'; rw [h] at h'; cases h'
  · rename_i h'; rw [h] at h'; cases h'; rfl

end Yamd.Spec
