/-!
# Rust primitives used by yamd

`&str`/`String` is a list of Unicode scalar values (`Char`); byte offsets are computed with
`Char.utf8Size`, so the model has the same notion of "character boundary" as Rust.
This file is the part of the trusted reading of Rust's standard library.
-/

namespace Yamd

/-- `&str` / `String`: a sequence of `char`s. -/
abbrev Str := List Char

/-- How a run of the modelled program can go wrong: a Rust panic (slice/index/insert out of bounds,
failing `debug_assert!`, `expect` on an error), or the model's recursion fuel running out
(that is, the Rust loop did not terminate within the bound the entry point allows). -/
inductive Fault where
  | panic
  | fuel
  deriving DecidableEq, Repr

/-- Result of a modelled function. -/
abbrev R := Except Fault

deriving instance DecidableEq for Except

/-- `s.len()`: length in bytes. -/
def blen : Str → Nat
  | [] => 0
  | c :: s => c.utf8Size + blen s

/-- `&s[n..]`: `none` when `n` is out of bounds or not on a character boundary. -/
def dropBytes : Nat → Str → Option Str
  | 0, s => some s
  | _ + 1, [] => none
  | n + 1, c :: s => if c.utf8Size ≤ n + 1 then dropBytes (n + 1 - c.utf8Size) s else none

/-- `&s[..n]`: `none` when `n` is out of bounds or not on a character boundary. -/
def takeBytes : Nat → Str → Option Str
  | 0, _ => some []
  | _ + 1, [] => none
  | n + 1, c :: s =>
    if c.utf8Size ≤ n + 1 then (takeBytes (n + 1 - c.utf8Size) s).map (c :: ·) else none

/-- `&s[a..b]`: `none` stands for the panic. -/
def slice (s : Str) (a b : Nat) : Option Str :=
  if a ≤ b then (dropBytes a s).bind (takeBytes (b - a)) else none

/-- `&s[a..b]` as a run that may panic. -/
def sliceR (s : Str) (a b : Nat) : R Str :=
  match slice s a b with
  | some r => .ok r
  | none => .error .panic

/-- Scanner behind `replace`: the first argument counts characters of the last match still to skip. -/
def replaceGo (pat rep : Str) : Nat → Str → Str
  | _, [] => []
  | k + 1, _ :: s => replaceGo pat rep k s
  | 0, c :: s =>
    if pat.isPrefixOf (c :: s) then rep ++ replaceGo pat rep (pat.length - 1) s
    else c :: replaceGo pat rep 0 s

/-- `s.replace(pat, rep)` for a non-empty pattern: non-overlapping matches, left to right. -/
def replace (pat rep : Str) (s : Str) : Str := replaceGo pat rep 0 s

/-- `s.trim_end_matches('\n')`. -/
def trimEndNl (s : Str) : Str := (s.reverse.dropWhile (· == '\n')).reverse

/-- `s.trim_matches('\n')`. -/
def trimNl (s : Str) : Str := trimEndNl (s.dropWhile (· == '\n'))

/-- `parts.join(sep)`. -/
def joinWith (sep : Str) : List Str → Str
  | [] => []
  | [x] => x
  | x :: y :: r => x ++ sep ++ joinWith sep (y :: r)

/-- `cs! "text"` is the list of the characters of a string literal (a notation only: it keeps
literals in a form the kernel evaluates directly). -/
syntax "cs!" str : term

macro_rules
  | `(cs! $s:str) => do
    let elems := s.getString.toList.map fun c => Lean.Syntax.mkCharLit c
    let arr : Lean.TSyntaxArray `term := elems.toArray.map fun x => ⟨x.raw⟩
    `(([$arr,*] : List Char))

end Yamd
