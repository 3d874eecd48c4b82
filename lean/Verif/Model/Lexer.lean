import Verif.Model.Basic

/-!
# Model of `src/lexer/token.rs` and `src/lexer/mod.rs`
-/

namespace Yamd

/-- `TokenKind`, src/lexer/token.rs 8-53. -/
inductive TokenKind where
  | Terminator | Eol | LeftCurlyBrace | RightCurlyBrace | CollapsibleStart | CollapsibleEnd
  | Tilde | Star | Space | Minus | Hash | GreaterThan | Bang | Backtick | Plus
  | LeftSquareBracket | RightSquareBracket | LeftParenthesis | RightParenthesis
  | Underscore | Pipe | Literal
  deriving DecidableEq, Repr

/-- `Position`, src/lexer/token.rs 86-93. -/
structure Position where
  byteIndex : Nat
  column : Nat
  row : Nat
  deriving DecidableEq, Repr

/-- `Token`, src/lexer/token.rs 97-106; `range: Range<usize>` is `start`/`stop`. -/
structure Token where
  kind : TokenKind
  start : Nat
  stop : Nat
  position : Position
  escaped : Bool
  deriving DecidableEq, Repr

/-- `token.range.len()` (0 for an inverted range, as for `Range<usize>`). -/
def Token.len (t : Token) : Nat := t.stop - t.start

namespace Lexer

/-- `struct Lexer`, src/lexer/mod.rs 23-31. `iter: Peekable<CharIndices>` is the list of characters
not consumed yet (`iter`) with the byte offset of the first of them (`off`). -/
structure Lx where
  literalStart : Option Position
  len : Nat
  escaped : Bool
  position : Position
  iter : List Char
  off : Nat
  queue : List Token
  token : Option Token
  deriving DecidableEq, Repr

/-- `Lexer::new`, src/lexer/mod.rs 35-45. -/
def new (input : Str) : Lx where
  position := ⟨0, 0, 0⟩
  len := blen input
  iter := input
  off := 0
  literalStart := none
  escaped := false
  queue := []
  token := none

/-- `Option::replace` on `self.token` followed by pushing the old value to the queue: the common
tail of `emit_literal_if_started` (49-56) and `emit` (84-86). -/
def replaceToken (st : Lx) (t : Token) : Lx :=
  match st.token with
  | some old => { st with token := some t, queue := st.queue ++ [old] }
  | none => { st with token := some t }

/-- `emit_literal_if_started`, src/lexer/mod.rs 47-59. -/
def emitLiteralIfStarted (st : Lx) (endByteIndex : Nat) : Lx :=
  match st.literalStart with
  | some sp =>
    let st1 := replaceToken { st with literalStart := none }
      { kind := .Literal, start := sp.byteIndex, stop := endByteIndex, position := sp,
        escaped := st.escaped }
    { st1 with escaped := false }
  | none => st

/-- `to_token`, src/lexer/mod.rs 112-118 with `Token::new`, token.rs 110-117. -/
def toToken (kind : TokenKind) (position : Position) (lenInBytes : Nat) : Token :=
  { kind, start := position.byteIndex, stop := position.byteIndex + lenInBytes, position,
    escaped := false }

/-- `eol`, src/lexer/mod.rs 61-80. -/
def eol (st : Lx) (position : Position) (lenInBytes : Nat) : Lx :=
  let st := emitLiteralIfStarted st position.byteIndex
  let st := { st with position := { st.position with row := st.position.row + 1, column := 0 } }
  match st.token with
  | none => { st with token := some (toToken .Eol position lenInBytes) }
  | some t =>
    if t.kind = .Eol then
      { st with token := some (toToken .Terminator t.position (t.len + lenInBytes)) }
    else
      { st with token := some (toToken .Eol position lenInBytes), queue := st.queue ++ [t] }

/-- `emit`, src/lexer/mod.rs 82-87. -/
def emit (st : Lx) (t : Token) : Lx :=
  replaceToken (emitLiteralIfStarted st t.position.byteIndex) t

/-- `next_char`, src/lexer/mod.rs 100-110. -/
def nextChar (st : Lx) (escaped : Bool) : Option (Position × Char) × Lx :=
  match st.iter with
  | [] => (none, st)
  | c :: rest =>
    let pos := { st.position with byteIndex := st.off }
    let col := if c ≠ '\\' ∨ escaped = true then pos.column + 1 else pos.column
    (some (pos, c),
      { st with position := { pos with column := col }, iter := rest, off := st.off + c.utf8Size })

/-- `next_is`, src/lexer/mod.rs 89-98. -/
def nextIs (st : Lx) (c : Char) : Bool × Lx :=
  match st.iter with
  | [] => (false, st)
  | d :: _ => if d = c then (true, (nextChar st false).2) else (false, st)

/-- The loop `while self.next_is(c) {}`, src/lexer/mod.rs 121; it consumes one character per turn,
so the number of characters left is enough fuel. -/
def skipRun (c : Char) : Nat → Lx → Lx
  | 0, st => st
  | n + 1, st => if (nextIs st c).1 then skipRun c n (nextIs st c).2 else st

/-- `take_while`, src/lexer/mod.rs 120-127. -/
def takeWhile (st : Lx) (c : Char) (kind : TokenKind) (start : Position) : Lx :=
  let st := skipRun c st.iter.length st
  emit st { kind, start := start.byteIndex, stop := st.position.byteIndex + 1, position := start,
            escaped := false }

/-- `self.literal_start.get_or_insert(pos)`. -/
def startLiteral (st : Lx) (pos : Position) : Lx :=
  match st.literalStart with
  | some _ => st
  | none => { st with literalStart := some pos }

/-- The `'\\'` arm of `parse`, src/lexer/mod.rs 137-143. -/
def parseEscape (st : Lx) (position : Position) : Lx :=
  match nextChar (emitLiteralIfStarted st position.byteIndex) true with
  | (some (pos, _), st) => startLiteral { st with escaped := true } pos
  | (none, st) => st

/-- `parse`, src/lexer/mod.rs 129-167. The arms are in source order; an arm whose guard
(`next_is`) fails leaves the state unchanged and falls through. -/
def parse (st : Lx) (position : Position) (char : Char) : Lx :=
  if char = '\n' then eol st position 1
  else if char = '\r' ∧ (nextIs st '\n').1 = true then eol (nextIs st '\n').2 position 2
  else if char = '{' ∧ (nextIs st '%').1 = true then
    emit (nextIs st '%').2 (toToken .CollapsibleStart position 2)
  else if char = '%' ∧ (nextIs st '}').1 = true then
    emit (nextIs st '}').2 (toToken .CollapsibleEnd position 2)
  else if char = '\\' then
    parseEscape st position
  else if char = '~' then takeWhile st '~' .Tilde position
  else if char = '*' then takeWhile st '*' .Star position
  else if char = '}' then takeWhile st '}' .RightCurlyBrace position
  else if char = '{' then takeWhile st '{' .LeftCurlyBrace position
  else if char = ' ' ∧ st.literalStart = none then takeWhile st ' ' .Space position
  else if char = '-' then takeWhile st '-' .Minus position
  else if char = '#' then takeWhile st '#' .Hash position
  else if char = '>' then takeWhile st '>' .GreaterThan position
  else if char = '!' then takeWhile st '!' .Bang position
  else if char = '`' then takeWhile st '`' .Backtick position
  else if char = '+' then takeWhile st '+' .Plus position
  else if char = '[' then emit st (toToken .LeftSquareBracket position 1)
  else if char = ']' then emit st (toToken .RightSquareBracket position 1)
  else if char = '(' then emit st (toToken .LeftParenthesis position 1)
  else if char = ')' then emit st (toToken .RightParenthesis position 1)
  else if char = '_' then emit st (toToken .Underscore position 1)
  else if char = '|' then emit st (toToken .Pipe position 1)
  else startLiteral st position

/-- End of input in `advance`, src/lexer/mod.rs 174-179. -/
def finish (st : Lx) : Lx :=
  let st := { st with position := { st.position with byteIndex := st.len } }
  let st := emitLiteralIfStarted st st.position.byteIndex
  match st.token with
  | some t => { st with token := none, queue := st.queue ++ [t] }
  | none => st

/-- `advance`, src/lexer/mod.rs 169-182. Each turn consumes a character or returns, so
`iter.length + 1` is enough fuel; `fuel` running out is a fault. -/
def advance : Nat → Lx → R Lx
  | 0, _ => .error .fuel
  | n + 1, st =>
    if st.queue = [] then
      match nextChar st false with
      | (some (position, char), st) => advance n (parse st position char)
      | (none, st) => .ok (finish st)
    else .ok st

/-- `Iterator::next`, src/lexer/mod.rs 188-191. -/
def next (st : Lx) : R (Option Token × Lx) := do
  let st ← advance (st.iter.length + 1) st
  match st.queue with
  | [] => pure (none, st)
  | t :: q => pure (some t, { st with queue := q })

/-- `Iterator::collect`: call `next` until it returns `None`, src/op/parser.rs 144. -/
def collect : Nat → Lx → R (List Token)
  | 0, _ => .error .fuel
  | n + 1, st => do
    match ← next st with
    | (none, _) => pure []
    | (some t, st) => do
      let ts ← collect n st
      pure (t :: ts)

/-- `Lexer::new(input).collect()`: at most one call of `next` per character and a last one that
returns `None`. -/
def lex (input : Str) : R (List Token) := collect (input.length + 1) (new input)

end Lexer
end Yamd
