import Verif.Model.Lexer

/-!
# Model of the command line tool `utils/` (`token_stat`, `random`)

Not modelled: the command line parsing of `utils/src/main.rs`, reading the file, writing to the terminal.
-/

namespace Yamd.Utils

/-- The names of the token kinds: `Display for TokenKind`, src/lexer/token.rs 55-82, and the same names from
`#[derive(Debug)]` (token.rs 7), which `token_stat` prints. -/
def kindName : TokenKind → Str
  | .Terminator => cs! "Terminator" | .Eol => cs! "Eol" | .LeftCurlyBrace => cs! "LeftCurlyBrace"
  | .RightCurlyBrace => cs! "RightCurlyBrace" | .CollapsibleStart => cs! "CollapsibleStart"
  | .CollapsibleEnd => cs! "CollapsibleEnd" | .Tilde => cs! "Tilde" | .Star => cs! "Star" | .Space => cs! "Space"
  | .Minus => cs! "Minus" | .Hash => cs! "Hash" | .GreaterThan => cs! "GreaterThan" | .Bang => cs! "Bang"
  | .Backtick => cs! "Backtick" | .Plus => cs! "Plus" | .LeftSquareBracket => cs! "LeftSquareBracket"
  | .RightSquareBracket => cs! "RightSquareBracket" | .LeftParenthesis => cs! "LeftParenthesis"
  | .RightParenthesis => cs! "RightParenthesis" | .Underscore => cs! "Underscore" | .Pipe => cs! "Pipe"
  | .Literal => cs! "Literal"

/-- `acc.entry(t.kind).and_modify(|counter| *counter += 1).or_insert(1)`, utils/src/commands/token_stat.rs 9-11. The
`HashMap` is a list of pairs, see `tokenStat` for its order. -/
def bump (k : TokenKind) : List (TokenKind × Nat) → List (TokenKind × Nat)
  | [] => [(k, 1)]
  | (k', n) :: r => if k' = k then (k', n + 1) :: r else (k', n) :: bump k r

/-- The fold over the tokens, utils/src/commands/token_stat.rs 8-13. -/
def countKinds (ts : List Token) : List (TokenKind × Nat) := ts.foldl (fun acc t => bump t.kind acc) []

/-- `stat.values().sum()`, utils/src/commands/token_stat.rs 15. -/
def total (stat : List (TokenKind × Nat)) : Nat := (stat.map Prod.snd).sum

/-- Puts a row before the first row that is not larger. -/
def insertRow (x : Str × Nat) : List (Str × Nat) → List (Str × Nat)
  | [] => [x]
  | y :: r => if y.2 ≤ x.2 then x :: y :: r else y :: insertRow x r

/-- `table.sort_by(|(_, left), (_, right)| right.cmp(left))`, utils/src/commands/token_stat.rs 31: a stable sort, here by
insertion. -/
def sortRows (l : List (Str × Nat)) : List (Str × Nat) := l.foldr insertRow []

/-- The table, utils/src/commands/token_stat.rs 17-20, sorted (31). -/
def table (stat : List (TokenKind × Nat)) : List (Str × Nat) := sortRows (stat.map (fun e => (kindName e.1, e.2)))

/-- `tab`, utils/src/commands/token_stat.rs 37-44 (`len` is the length in bytes). -/
def tab (left right : Str) : Str :=
  left ++ cs! ":" ++ List.replicate (if blen left ≤ 21 then 21 - blen left else 1) ' ' ++ right

/-- `n.to_string()`. -/
def showNat (n : Nat) : Str := (toString n).toList

/-- What `token_stat` prints for a file with the given path, utils/src/commands/token_stat.rs 22-35. `order` is the
order in which the `HashMap` is iterated, any permutation of `countKinds`. -/
def tokenStat (path : Str) (order : List (TokenKind × Nat)) : Str :=
  cs! "\n" ++ tab (cs! "Token statistics for") path ++ cs! "\n\n" ++
  tab (cs! "Total token count") (showNat (total order)) ++ cs! "\n\n" ++
  (table order).flatMap (fun e => tab e.1 (showNat e.2) ++ cs! "\n")

/-- One round of the random generator: a number drawn from `0..=21` (utils/src/commands/random.rs 34) and, for 21, a
number drawn from `3..max_literal_len` with that many characters (56, 63-76). A draw from an empty range panics. -/
structure Draw where
  token : Nat
  literal : Str

/-- A draw the generator can make: `rng.gen_range(0..=21)` and, for 21, a literal of a length in `3..max`. -/
def Draw.possible (maxLen : Nat) (d : Draw) : Prop :=
  d.token ≤ 21 ∧ (d.token = 21 → 3 ≤ d.literal.length ∧ d.literal.length < maxLen)

/-- The text of a draw, utils/src/commands/random.rs 34-57; `gen_range` panics on an empty range (56). -/
def Draw.text (maxLen : Nat) (d : Draw) : R Str :=
  match d.token with
  | 0 => .ok (cs! "\n\n") | 1 => .ok (cs! "\n") | 2 => .ok (cs! "{") | 3 => .ok (cs! "}") | 4 => .ok (cs! "{%")
  | 5 => .ok (cs! "%}") | 6 => .ok (cs! "~") | 7 => .ok (cs! "*") | 8 => .ok (cs! " ") | 9 => .ok (cs! "-")
  | 10 => .ok (cs! "#") | 11 => .ok (cs! ">") | 12 => .ok (cs! "!") | 13 => .ok (cs! "`") | 14 => .ok (cs! "+")
  | 15 => .ok (cs! "[") | 16 => .ok (cs! "]") | 17 => .ok (cs! "(") | 18 => .ok (cs! ")") | 19 => .ok (cs! "_")
  | 20 => .ok (cs! "|")
  | _ => if maxLen ≤ 3 then .error .panic else .ok d.literal

/-- The loop `while out.len() < length`, utils/src/commands/random.rs 33-59, on the stream of draws `ds`. -/
def randomLoop (length maxLen : Nat) (ds : Nat → Draw) : Nat → Nat → Str → R Str
  | fuel, i, out =>
    if blen out < length then
      match fuel with
      | 0 => .error .fuel
      | fuel + 1 =>
        match (ds i).text maxLen with
        | .error e => .error e
        | .ok s => randomLoop length maxLen ds fuel (i + 1) (out ++ s)
    else .ok out

/-- `random`, utils/src/commands/random.rs 4-61: what is printed before the final line break. The fuel `length` is
enough, every draw adds a byte. -/
def random (length maxLen : Nat) (ds : Nat → Draw) : R Str := randomLoop length maxLen ds length 0 []

end Yamd.Utils
