import Verif.Model.Lexer

/-!
# Model of `src/op/mod.rs` (Content, Op) and `src/op/parser.rs` (Parser)
-/

namespace Yamd

/-- `Content`, src/op/mod.rs 57-62. -/
inductive Content where
  | Span (start stop : Nat)
  | Materialized (s : Str)
  deriving DecidableEq, Repr

namespace Content

/-- `Content::as_str` (66-77) and `Content::to_string` (80-82), src/op/mod.rs. An empty range
(`start >= end`) gives "", any other range is sliced and may panic. -/
def asStr (c : Content) (source : Str) : R Str :=
  match c with
  | .Span a b => if b ≤ a then .ok [] else sliceR source a b
  | .Materialized s => .ok s

/-- `Content::is_empty`, src/op/mod.rs 85-90. -/
def isEmpty : Content → Bool
  | .Span a b => decide (b ≤ a)
  | .Materialized s => s.isEmpty

/-- `tokens.windows(2).all(|w| w[0].range.end == w[1].range.start)`, src/op/mod.rs 98-100. -/
def contiguous : List Token → Bool
  | [] => true
  | [_] => true
  | a :: b :: r => (a.stop == b.start) && contiguous (b :: r)

/-- `tokens.iter().map(|t| &source[t.range]).collect::<String>()`, src/op/mod.rs 106. -/
def concatSlices (source : Str) : List Token → R Str
  | [] => .ok []
  | t :: r => do
    let a ← sliceR source t.start t.stop
    let b ← concatSlices source r
    pure (a ++ b)

/-- `tokens.last().unwrap().range.end`. -/
def lastStop : Token → List Token → Nat
  | t, [] => t.stop
  | _, u :: r => lastStop u r

/-- `Content::from_tokens`, src/op/mod.rs 94-109. -/
def fromTokens (tokens : List Token) (source : Str) : R Content :=
  match tokens with
  | [] => .ok (.Span 0 0)
  | t :: r =>
    if contiguous (t :: r) then .ok (.Span t.start (lastStop t r))
    else do
      let s ← concatSlices source (t :: r)
      pure (.Materialized s)

end Content

/-- `Node`, src/op/mod.rs 142-167. -/
inductive Node where
  | Anchor | Bold | Code | CodeSpan | Collapsible | Destination | Document | Embed | Emphasis
  | Heading | Highlight | Icon | Image | Images | Italic | ListItem | Modifier | Metadata
  | OrderedList | Paragraph | Strikethrough | ThematicBreak | Title | UnorderedList
  deriving DecidableEq, Repr

/-- `OpKind`, src/op/mod.rs 180-187. -/
inductive OpKind where
  | Start (n : Node)
  | End (n : Node)
  | Value
  deriving DecidableEq, Repr

/-- `Op`, src/op/mod.rs 196-199. -/
structure Op where
  kind : OpKind
  content : Content
  deriving DecidableEq, Repr

namespace Op
/-- `Op::new_value`, src/op/mod.rs 203-208 (called by the parser with a `Content`). -/
def value (c : Content) : Op := ⟨.Value, c⟩
/-- `Op::new_start`, src/op/mod.rs 211-216. -/
def start (n : Node) (c : Content) : Op := ⟨.Start n, c⟩
/-- `Op::new_end`, src/op/mod.rs 219-224. -/
def close (n : Node) (c : Content) : Op := ⟨.End n, c⟩
end Op

/-- `ListKind`, src/op/parser.rs 8-13. -/
inductive ListKind where
  | Unordered
  | Ordered
  deriving DecidableEq, Repr

/-- `ListKind::node`, src/op/parser.rs 16-21. -/
def ListKind.node : ListKind → Node
  | .Unordered => .UnorderedList
  | .Ordered => .OrderedList

/-- `TryFrom<&Token> for ListKind`, src/op/parser.rs 27-35. -/
def ListKind.tryFrom (t : Token) : Option ListKind :=
  if t.kind = .Minus ∧ t.len = 1 then some .Unordered
  else if t.kind = .Plus ∧ t.len = 1 then some .Ordered
  else none

/-- `StopCondition`, src/op/parser.rs 44-53. -/
inductive Stop where
  | Terminator
  | CollapsibleEnd
  | HighlightEnd
  | ListBoundary (level : Nat) (kind : ListKind)
  deriving DecidableEq, Repr

/-- `struct Parser`, src/op/parser.rs 132-138. `eof` is the stop-condition stack with the most
recently pushed condition first (its order is irrelevant to `at_eof`). -/
structure P where
  source : Str
  tokens : List Token
  pos : Nat
  eof : List Stop
  ops : List Op
  deriving DecidableEq, Repr

/-- `tokens.get(i).is_some_and(f)`. -/
def tokenIs (ts : List Token) (i : Nat) (f : Token → Bool) : Bool :=
  match ts[i]? with
  | some t => f t
  | none => false

/-- `is_list_marker`, src/op/parser.rs 55-57. -/
def isListMarker (kind : Option ListKind) (t : Token) : Bool :=
  match ListKind.tryFrom t with
  | none => false
  | some k =>
    match kind with
    | none => true
    | some want => decide (k = want)

/-- `is_space_1`, src/op/parser.rs 59-61 (also `is_space` in heading.rs 10-12, highlight.rs 19-21,
list.rs 10-12). -/
def isSpace1 (t : Token) : Bool := t.kind = .Space && t.len = 1

/-- `t.position.column == 0`. -/
def col0 (t : Token) : Bool := t.position.column = 0

/-- One iteration of the loop in `at_list_boundary`, src/op/parser.rs 65-96. -/
def boundaryAt (p : P) (currentLevel : Nat) (kind : ListKind) (level : Nat) : Bool :=
  let k := if level = currentLevel then some kind else none
  if level = 0 then
    tokenIs p.tokens p.pos col0 && tokenIs p.tokens p.pos (isListMarker k)
      && tokenIs p.tokens (p.pos + 1) isSpace1
  else
    tokenIs p.tokens p.pos col0
      && tokenIs p.tokens p.pos (fun t => t.kind = .Space && t.len = level)
      && tokenIs p.tokens (p.pos + 1) (isListMarker k)
      && tokenIs p.tokens (p.pos + 2) isSpace1

/-- `at_list_boundary`, src/op/parser.rs 63-99: some level in `0..=max_level` matches. -/
def atListBoundary (p : P) (currentLevel maxLevel : Nat) (kind : ListKind) : Bool :=
  (List.range (maxLevel + 1)).any (boundaryAt p currentLevel kind)

/-- `StopCondition::matches`, src/op/parser.rs 102-121. -/
def Stop.matches (s : Stop) (token : Token) (p : P) : Bool :=
  match s with
  | .Terminator => token.kind = .Terminator
  | .CollapsibleEnd =>
    (token.kind = .CollapsibleEnd && col0 token)
      || (token.kind = .Eol
          && tokenIs p.tokens (p.pos + 1) (fun t => t.kind = .CollapsibleEnd && col0 t))
  | .HighlightEnd => token.kind = .Bang && col0 token && token.len = 2
  | .ListBoundary level kind => col0 token && atListBoundary p level (level + 1) kind

namespace P

/-- `Parser::from(&str)`, src/op/parser.rs 141-149. -/
def ofStr (input : Str) : R P := do
  let tokens ← Lexer.lex input
  pure { source := input, tokens, pos := 0, eof := [], ops := [] }

/-- `Parser::get`, src/op/parser.rs 155-157. -/
def get (p : P) (i : Nat) : Option Token := p.tokens[i]?

/-- `Parser::peek`, src/op/parser.rs 161-163 (the index is always `pos`). -/
def peek (p : P) : Option Token := p.tokens[p.pos]?

/-- `Parser::next`, src/op/parser.rs 167-171. -/
def next (p : P) : P := if p.pos < p.tokens.length then { p with pos := p.pos + 1 } else p

/-- `Parser::eat`, src/op/parser.rs 175-184: on success the index range is `pos..pos+1`. -/
def eat (p : P) (pred : Token → Bool) : Option (Nat × Nat) × P :=
  match p.tokens[p.pos]? with
  | none => (none, p)
  | some t =>
    if pred t then (some (p.pos, p.pos + 1), { p with pos := p.pos + 1 }) else (none, p)

/-- `Parser::at`, src/op/parser.rs 188-190. -/
def atTok (p : P) (pred : Token → Bool) : Bool :=
  match p.peek with
  | some t => pred t
  | none => false

/-- `Parser::with_eof`, src/op/parser.rs 195-200: push, run, pop. -/
def withEof {α : Type} (p : P) (cond : Stop) (f : P → R (α × P)) : R (α × P) := do
  let (a, q) ← f { p with eof := cond :: p.eof }
  pure (a, { q with eof := q.eof.tail })

/-- `Parser::with_eofs`, src/op/parser.rs 203-216, for two conditions (its only use). -/
def withEofs2 {α : Type} (p : P) (c1 c2 : Stop) (f : P → R (α × P)) : R (α × P) := do
  let (a, q) ← f { p with eof := c2 :: c1 :: p.eof }
  pure (a, { q with eof := q.eof.tail.tail })

/-- `Parser::with_no_stops`, src/op/parser.rs 221-226. -/
def withNoStops {α : Type} (p : P) (f : P → R (α × P)) : R (α × P) := do
  let (a, q) ← f { p with eof := [] }
  pure (a, { q with eof := p.eof })

/-- `Parser::at_eof`, src/op/parser.rs 230-235. -/
def atEof (p : P) : Bool :=
  match p.peek with
  | none => true
  | some t => p.eof.any (fun c => c.matches t p)

/-- `Parser::flip_to_literal`, src/op/parser.rs 240-244. -/
def flipToLiteral (p : P) (i : Nat) : P :=
  { p with tokens := p.tokens.modify i (fun t => { t with kind := .Literal }) }

/-- `Parser::at_block_boundary`, src/op/parser.rs 248-250. -/
def atBlockBoundary (p : P) : Bool := p.atEof || p.atTok (fun t => t.kind = .Terminator)

/-- Loop of `Parser::eat_until`, src/op/parser.rs 261-272: `none` = left without a match. -/
def eatUntilLoop (m : Token → Bool) : Nat → P → R (Option P)
  | 0, _ => .error .fuel
  | n + 1, p =>
    match p.tokens[p.pos]? with
    | none => .ok none
    | some t =>
      if p.atEof then .ok none
      else if m t then .ok (some p)
      else eatUntilLoop m n { p with pos := p.pos + 1 }

/-- `Parser::eat_until`, src/op/parser.rs 256-275. The result is
`(before.start, match.start, match.end)`: `before = start..k`, `match = k..k+1`. -/
def eatUntil (p : P) (m : Token → Bool) : R (Option (Nat × Nat × Nat) × P) := do
  match ← eatUntilLoop m (p.tokens.length + 1) p with
  | some q => pure (some (p.pos, q.pos, q.pos + 1), { q with pos := q.pos + 1 })
  | none => pure (none, p)

/-- `&self.tokens[a..b]`, may panic. -/
def tokenSlice (p : P) (a b : Nat) : R (List Token) :=
  if a ≤ b ∧ b ≤ p.tokens.length then .ok ((p.tokens.drop a).take (b - a)) else .error .panic

/-- `Parser::span`, src/op/parser.rs 281-293. -/
def span (p : P) (a b : Nat) : R Content :=
  if b ≤ a then .ok (.Span 0 0)
  else do
    let ts ← p.tokenSlice a b
    if ts.any (·.escaped) then Content.fromTokens ts p.source
    else
      match ts with
      | [] => .error .panic
      | t :: r => pure (.Span t.start (Content.lastStop t r))

/-- `p.ops.push(op)`. -/
def push (p : P) (op : Op) : P := { p with ops := p.ops ++ [op] }

/-- `p.ops.insert(i, op)`: panics when `i > len`. -/
def insertOp (p : P) (i : Nat) (op : Op) : R P :=
  if i ≤ p.ops.length then .ok { p with ops := p.ops.take i ++ op :: p.ops.drop i }
  else .error .panic

/-- `p.pos = start; p.ops.truncate(snap);` -/
def restore (p : P) (start snap : Nat) : P := { p with pos := start, ops := p.ops.take snap }

/-- `eat_seq!` with two predicates, src/op/parser.rs 310-320. -/
def eatSeq2 (p : P) (f g : Token → Bool) : Option (Nat × Nat) × P :=
  match p.eat f with
  | (none, _) => (none, p)
  | (some _, q) =>
    match q.eat g with
    | (none, r) => (none, { r with pos := p.pos })
    | (some _, r) => (some (p.pos, r.pos), r)

/-- `eat_seq!` with three predicates, src/op/parser.rs 310-320. -/
def eatSeq3 (p : P) (f g h : Token → Bool) : Option (Nat × Nat) × P :=
  match p.eat f with
  | (none, _) => (none, p)
  | (some _, q) =>
    match q.eat g with
    | (none, r) => (none, { r with pos := p.pos })
    | (some _, r) =>
      match r.eat h with
      | (none, s) => (none, { s with pos := p.pos })
      | (some _, s) => (some (p.pos, s.pos), s)

end P

/-- `eol`, src/op/parser.rs 303-305 (also `is_eol` in code.rs 14, embed.rs 18, image.rs 10,
highlight.rs 23, collapsible.rs 23). -/
def isEol (t : Token) : Bool := t.kind = .Eol

/-- `is_terminator`, src/op/document.rs 47-49, highlight.rs 27-29. -/
def isTerminator (t : Token) : Bool := t.kind = .Terminator

end Yamd
