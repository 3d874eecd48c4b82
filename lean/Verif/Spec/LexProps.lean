import Verif.Model.Lexer

/-!
# Vocabulary of the lexer properties C01-C07

Small definitions used in the statements only. Nothing here refers to how the lexer works.
-/

namespace Yamd.Spec

open Yamd

/-- The `(n+1)`-th call of `next()` on a lexer, and what it returns. -/
def nthNext : Nat → Lexer.Lx → R (Option Token)
  | 0, st => do
    let (t, _) ← Lexer.next st
    pure t
  | n + 1, st => do
    let (_, st) ← Lexer.next st
    nthNext n st

/-- `&input[token.range]`, `none` when it would panic. -/
def textOf (input : Str) (t : Token) : Option Str := slice input t.start t.stop

/-- The input with its escape backslashes removed: `\c` stands for `c`, a last lone `\` for nothing. -/
def unescape : Str → Str
  | [] => []
  | [c] => if c = '\\' then [] else [c]
  | c :: d :: r => if c = '\\' then d :: unescape r else c :: unescape (d :: r)

/-- Does the text end with a backslash that escapes nothing? -/
def dangling : Str → Bool
  | [] => false
  | [c] => c == '\\'
  | c :: d :: r => if c = '\\' then dangling r else dangling (d :: r)

/-- The character a run kind is made of. -/
def runCharOf : TokenKind → Option Char
  | .Tilde => some '~' | .Star => some '*' | .RightCurlyBrace => some '}' | .LeftCurlyBrace => some '{'
  | .Space => some ' ' | .Minus => some '-' | .Hash => some '#' | .GreaterThan => some '>'
  | .Bang => some '!' | .Backtick => some '`' | .Plus => some '+'
  | _ => none

/-- The fixed text of the other non-literal kinds. -/
def fixedText : TokenKind → Option Str
  | .CollapsibleStart => some ['{', '%'] | .CollapsibleEnd => some ['%', '}']
  | .LeftSquareBracket => some ['['] | .RightSquareBracket => some [']']
  | .LeftParenthesis => some ['('] | .RightParenthesis => some [')']
  | .Underscore => some ['_'] | .Pipe => some ['|']
  | _ => none

/-- The two line breaks. -/
def IsBreak (s : Str) : Prop := s = ['\n'] ∨ s = ['\r', '\n']

/-- Characters with a meaning in YAMD wherever they stand unescaped. -/
def specials : List Char :=
  ['\n', '\\', '~', '*', '}', '{', '-', '#', '>', '!', '`', '+', '[', ']', '(', ')', '_', '|']

/-- The documented form of a token's text. A literal is non-empty and, apart from an escaped first
character, holds no special character; an unescaped literal does not start with a space. -/
def KindText (kind : TokenKind) (escaped : Bool) (s : Str) : Prop :=
  match kind with
  | .Eol => IsBreak s
  | .Terminator => ∃ a b, IsBreak a ∧ IsBreak b ∧ s = a ++ b
  | .Literal =>
    ∃ c r, s = c :: r ∧ (∀ x ∈ r, x ∉ specials) ∧ (escaped = false → c ∉ specials ∧ c ≠ ' ')
  | k =>
    match runCharOf k with
    | some c => s ≠ [] ∧ ∀ x ∈ s, x = c
    | none => fixedText k = some s

/-- Neighbours that would have been one token: two runs of the same kind, a line break after an `Eol`,
an unescaped literal or a space after a literal. -/
def Mergeable (a b : TokenKind) : Prop :=
  (a = b ∧ (runCharOf a ≠ none ∨ a = .Literal)) ∨ (a = .Eol ∧ (b = .Eol ∨ b = .Terminator))
    ∨ (a = .Literal ∧ b = .Space)

/-- The tokens `ts` cover the bytes from `off` to `stop` without gap or overlap, except that the byte
of a backslash precedes every escaped token (and no other). -/
def Tiled : Nat → List Token → Nat → Prop
  | off, [], stop => off = stop
  | off, t :: ts, stop => t.start = off + (if t.escaped then 1 else 0) ∧ Tiled t.stop ts stop

/-- Line breaks in a token list. -/
def rowsOf : List Token → Nat
  | [] => 0
  | t :: ts => (match t.kind with | .Eol => 1 | .Terminator => 2 | _ => 0) + rowsOf ts

/-- Characters of the tokens after the last line break of a token list; `acc` is the count so far. -/
def columnAfter (input : Str) : Nat → List Token → Nat
  | acc, [] => acc
  | acc, t :: ts =>
    match t.kind with
    | .Eol => columnAfter input 0 ts
    | .Terminator => columnAfter input 0 ts
    | _ => columnAfter input (acc + ((textOf input t).getD []).length) ts

/-- A token moved by `k` bytes and `m` rows. -/
def shiftToken (k m : Nat) (t : Token) : Token :=
  { t with start := t.start + k, stop := t.stop + k,
           position := ⟨t.position.byteIndex + k, t.position.column, t.position.row + m⟩ }

end Yamd.Spec
