import Verif.Spec.LexProps

/-!
# Vocabulary of property C46
-/

namespace Yamd.Spec

open Yamd

/-- Count parentheses along the tokens, `n` being open at first: how many are open at the end, `none`
when all of them got closed on the way. -/
def parensOpen : Nat → List Token → Option Nat
  | n, [] => some n
  | n, t :: r =>
    if t.kind = .LeftParenthesis then parensOpen (n + 1) r
    else if t.kind = .RightParenthesis then (if n = 1 then none else parensOpen (n - 1) r)
    else parensOpen n r

/-- `- ` or `+ `. -/
def isItemMarker : List Token → Bool
  | m :: s :: _ => (m.kind == .Minus || m.kind == .Plus) && m.len == 1 && s.kind == .Space && s.len == 1
  | _ => false

/-- Something at which a block can end: a blank line, a line that starts with `!!` or `%}` (or the line
break before the latter), a line that starts with a list marker. -/
def blockBoundary : List Token → Bool
  | [] => true
  | t :: r =>
    t.kind == .Terminator
    || (t.position.column == 0 && t.kind == .Bang && t.len == 2)
    || (t.position.column == 0 && t.kind == .CollapsibleEnd)
    || (t.kind == .Eol &&
        match r with
        | u :: _ => u.position.column == 0 && u.kind == .CollapsibleEnd
        | [] => false)
    || (t.position.column == 0 && (isItemMarker (t :: r) || (t.kind == .Space && isItemMarker r)))

/-- Reading on, a block boundary or the end of the source comes before any closing parenthesis. -/
def noCloseAhead : List Token → Bool
  | [] => true
  | t :: r => blockBoundary (t :: r) || (t.kind != .RightParenthesis && noCloseAhead r)

/-- The tokens `body` between the opening and the closing parenthesis of a destination do not balance
the opening one; the closing one does, or it is the last closing one the block has, `rest` being the
tokens after it. -/
def DestinationEnds (body rest : List Token) : Prop :=
  ∃ n, parensOpen 1 body = some n ∧ (n = 1 ∨ noCloseAhead rest = true)

end Yamd.Spec
