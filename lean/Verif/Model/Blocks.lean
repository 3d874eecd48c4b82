import Verif.Model.Parser

/-!
# Model of the parsing functions `src/op/*.rs` and of `parse`

A function `fn f(p: &mut Parser) -> bool` becomes `f : P → R (Bool × P)`.
-/

namespace Yamd

open P

/-- Token predicates. Each cites its Rust definition. -/
def isTilde2 (t : Token) : Bool := t.kind = .Tilde && t.len = 2        -- strikethrough.rs 6-8
/-- italic.rs 7-9 -/
def isUnderscore (t : Token) : Bool := t.kind = .Underscore && t.len = 1
/-- emphasis.rs 6-8 -/
def isStar1 (t : Token) : Bool := t.kind = .Star && t.len = 1
/-- bold.rs 6-8 -/
def isStar2 (t : Token) : Bool := t.kind = .Star && t.len = 2
/-- code_span.rs 6-8 -/
def isBacktick1 (t : Token) : Bool := t.kind = .Backtick && t.len = 1
/-- title.rs 6-8 -/
def isLeftBracket (t : Token) : Bool := t.kind = .LeftSquareBracket && t.len = 1
/-- title.rs 10-12 -/
def isRightBracket (t : Token) : Bool := t.kind = .RightSquareBracket && t.len = 1
/-- destination.rs 6-8 -/
def isLeftParen (t : Token) : Bool := t.kind = .LeftParenthesis && t.len = 1
/-- metadata.rs 6-8 -/
def isThreeDashes (t : Token) : Bool := t.kind = .Minus && col0 t && t.len = 3
/-- heading.rs 6-8 -/
def isHash (t : Token) : Bool := t.kind = .Hash && col0 t && t.len ≤ 6
/-- modifier.rs 6-8 -/
def isEolOrTerminator (t : Token) : Bool := t.kind = .Eol || t.kind = .Terminator
/-- code.rs 10-12 -/
def isBacktick3 (t : Token) : Bool := t.kind = .Backtick && col0 t && t.len = 3
/-- embed.rs 6-8 -/
def isLeftCurly2 (t : Token) : Bool := t.kind = .LeftCurlyBrace && col0 t && t.len = 2
/-- embed.rs 10-12 -/
def isPipe (t : Token) : Bool := t.kind = .Pipe && t.len = 1
/-- embed.rs 14-16 -/
def isRightCurly2 (t : Token) : Bool := t.kind = .RightCurlyBrace && t.len = 2
/-- image.rs 6-8 -/
def isBang1 (t : Token) : Bool := t.kind = .Bang && t.len = 1
/-- thematic_break.rs 6-8 -/
def isDash5 (t : Token) : Bool := t.kind = .Minus && col0 t && t.len = 5
/-- highlight.rs 11-13 -/
def isTwoBangs (t : Token) : Bool := t.kind = .Bang && col0 t && t.len = 2
/-- highlight.rs 15-17 -/
def isOneBang (t : Token) : Bool := t.kind = .Bang && col0 t && t.len = 1
/-- collapsible.rs 11-13 -/
def isCollapsibleStart (t : Token) : Bool := t.kind = .CollapsibleStart && col0 t
/-- collapsible.rs 15-17 -/
def isCollapsibleEnd (t : Token) : Bool := t.kind = .CollapsibleEnd && col0 t
/-- collapsible.rs 19-21 -/
def isSpaceOrEol (t : Token) : Bool := t.kind = .Space || t.kind = .Eol

/-- The common tail: `span` three ranges and push Start, Value, End. -/
def pushTriple (p : P) (n : Node) (r1 r2 r3 : Nat × Nat) : R P := do
  let a ← p.span r1.1 r1.2
  let b ← p.span r2.1 r2.2
  let c ← p.span r3.1 r3.2
  pure (((p.push (.start n a)).push (.value b)).push (.close n c))

/-- The body shared, word for word, by `strikethrough` (strikethrough.rs 10-27), `italic`
(italic.rs 11-27), `emphasis` (emphasis.rs 10-26), `code_span` (code_span.rs 10-26), `title`
(title.rs 14-30) and `metadata` (metadata.rs 10-28): eat the opening token, scan to the closing
token, push Start/Value/End; on failure restore the position. -/
def delimited (opening closing : Token → Bool) (n : Node) (p : P) : R (Bool × P) := do
  match p.eat opening with
  | (none, _) => pure (false, p)
  | (some startRange, q) =>
    match ← q.eatUntil closing with
    | (none, q) => pure (false, { q with pos := p.pos })
    | (some (a, k, e), q) =>
      let q ← pushTriple q n startRange (a, k) (k, e)
      pure (true, q)

/-- src/op/strikethrough.rs 10-27 -/
def strikethrough : P → R (Bool × P) := delimited isTilde2 isTilde2 .Strikethrough
/-- src/op/italic.rs 11-27 -/
def italic : P → R (Bool × P) := delimited isUnderscore isUnderscore .Italic
/-- src/op/emphasis.rs 10-26 -/
def emphasis : P → R (Bool × P) := delimited isStar1 isStar1 .Emphasis
/-- src/op/code_span.rs 10-26 -/
def codeSpan : P → R (Bool × P) := delimited isBacktick1 isBacktick1 .CodeSpan
/-- src/op/title.rs 14-30 -/
def title : P → R (Bool × P) := delimited isLeftBracket isRightBracket .Title
/-- src/op/metadata.rs 10-28 -/
def metadata : P → R (Bool × P) := delimited isThreeDashes isThreeDashes .Metadata

/-- Loop of `destination`, src/op/destination.rs 18-39; `i32` is `Int`. Returns `end_pos`. The
position of the parser after the loop is not used (it is overwritten on lines 42 and 50). -/
def destLoop : Nat → P → Int → Nat → R Nat
  | 0, _, _, _ => .error .fuel
  | n + 1, p, parens, endPos =>
    match p.peek with
    | none => .ok endPos
    | some t =>
      if p.atEof then .ok endPos
      else if t.kind = .LeftParenthesis then
        destLoop n { p with pos := p.pos + 1 } (parens + 1) endPos
      else if t.kind = .RightParenthesis then
        if parens - 1 = 0 then .ok p.pos
        else destLoop n { p with pos := p.pos + 1 } (parens - 1) p.pos
      else destLoop n { p with pos := p.pos + 1 } parens endPos

/-- `destination`, src/op/destination.rs 10-55. -/
def destination (p : P) : R (Bool × P) := do
  match p.eat isLeftParen with
  | (none, _) => pure (false, p)
  | (some startRange, q) =>
    let endPos ← destLoop (q.tokens.length + 1) q 1 p.pos
    if p.pos = endPos then pure (false, p)
    else
      let a ← q.span startRange.1 startRange.2
      let b ← q.span (p.pos + 1) endPos
      let c ← q.span endPos (endPos + 1)
      let q := { q with pos := endPos + 1 }
      pure (true, ((q.push (.start .Destination a)).push (.value b)).push (.close .Destination c))

/-- `Content::Span(0..0)`. -/
def emptyContent : Content := .Span 0 0

/-- `anchor`, src/op/anchor.rs 3-14. -/
def anchor (p : P) : R (Bool × P) := do
  let start := p.pos
  let snap := p.ops.length
  let q := p.push (.start .Anchor emptyContent)
  match ← title q with
  | (false, q) => pure (false, q.restore start snap)
  | (true, q) =>
    match ← destination q with
    | (false, q) => pure (false, q.restore start snap)
    | (true, q) => pure (true, q.push (.close .Anchor emptyContent))

/-- `if let Some(s) = text_start.take() { ops.insert(snap, value(span(s..pos))) }` as in bold.rs
39-42, paragraph.rs 16-19 and heading.rs 29-32. -/
def insertText (p : P) (textStart : Option Nat) (pos snap : Nat) : R P :=
  match textStart with
  | none => .ok p
  | some s => do
    let c ← p.span s pos
    p.insertOp snap (.value c)

/-- `if let Some(s) = text_start { ops.push(value(span(s..pos))) }` as in bold.rs 26-29,
paragraph.rs 26-29 and heading.rs 39-42. -/
def pushText (p : P) (textStart : Option Nat) (pos : Nat) : R P :=
  match textStart with
  | none => .ok p
  | some s => do
    let c ← p.span s pos
    pure (p.push (.value c))

/-- `f(p) || g(p)`. -/
def orElse (f g : P → R (Bool × P)) (p : P) : R (Bool × P) := do
  match ← f p with
  | (true, q) => pure (true, q)
  | (false, q) => g q

/-- Loop of `bold`, src/op/bold.rs 22-48; the result says `found_end`. -/
def boldLoop : Nat → P → Option Nat → R (Bool × P)
  | 0, _, _ => .error .fuel
  | n + 1, p, textStart =>
    match p.peek with
    | none => .ok (false, p)
    | some _ =>
      if p.atEof then .ok (false, p)
      else
        match p.eat isStar2 with
        | (some (a, e), q) => do
          let q ← pushText q textStart p.pos
          let c ← q.span a e
          pure (true, q.push (.close .Bold c))
        | (none, _) => do
          match ← orElse strikethrough italic p with
          | (true, q) => do
            let q ← insertText q textStart p.pos p.ops.length
            boldLoop n q none
          | (false, q) => boldLoop n q.next (some (textStart.getD p.pos))

/-- `bold`, src/op/bold.rs 10-57. -/
def bold (p : P) : R (Bool × P) := do
  let start := p.pos
  let snap := p.ops.length
  match p.eat isStar2 with
  | (none, _) => pure (false, p)
  | (some (a, e), q) =>
    let c ← q.span a e
    match ← boldLoop (q.tokens.length + 1) (q.push (.start .Bold c)) none with
    | (true, q) => pure (true, q)
    | (false, q) => pure (false, q.restore start snap)

/-- The alternatives tried at each position of a paragraph, src/op/paragraph.rs 13-14. -/
def inline : P → R (Bool × P) :=
  orElse strikethrough (orElse italic (orElse bold (orElse anchor (orElse codeSpan emphasis))))

/-- Loop of `paragraph`, src/op/paragraph.rs 10-24; returns the pending `text_start`. -/
def paragraphLoop : Nat → P → Option Nat → R (Option Nat × P)
  | 0, _, _ => .error .fuel
  | n + 1, p, textStart =>
    if p.atEof then .ok (textStart, p)
    else do
      match ← inline p with
      | (true, q) => do
        let q ← insertText q textStart p.pos p.ops.length
        paragraphLoop n q none
      | (false, q) => paragraphLoop n q.next (some (textStart.getD q.pos))

/-- `paragraph`, src/op/paragraph.rs 6-32. -/
def paragraph (p : P) : R (Unit × P) := do
  let (textStart, q) ←
    paragraphLoop (p.tokens.length + 1) (p.push (.start .Paragraph emptyContent)) none
  let q ← pushText q textStart q.pos
  pure ((), q.push (.close .Paragraph emptyContent))

/-- Loop of `heading`, src/op/heading.rs 22-38. -/
def headingLoop : Nat → P → Option Nat → R (Option Nat × P)
  | 0, _, _ => .error .fuel
  | n + 1, p, textStart =>
    match p.peek with
    | none => .ok (textStart, p)
    | some _ =>
      if p.atEof then .ok (textStart, p)
      else do
        match ← anchor p with
        | (true, q) => do
          let q ← insertText q textStart p.pos p.ops.length
          headingLoop n q none
        | (false, q) => headingLoop n q.next (some (textStart.getD p.pos))

/-- `heading`, src/op/heading.rs 14-46. -/
def heading (p : P) : R (Bool × P) := do
  match p.eatSeq2 isHash isSpace1 with
  | (none, q) => pure (false, q)
  | (some (a, e), q) =>
    let c ← q.span a e
    let (textStart, q) ← headingLoop (q.tokens.length + 1) (q.push (.start .Heading c)) none
    let q ← pushText q textStart q.pos
    pure (true, q.push (.close .Heading emptyContent))

/-- `modifier`, src/op/modifier.rs 10-26. -/
def modifier (p : P) : R (Bool × P) := do
  if p.atTok col0 then pure (false, p)
  else
    match ← p.eatUntil isEolOrTerminator with
    | (none, q) => pure (false, q)
    | (some (a, k, e), q) =>
      let b ← q.span a k
      let c ← q.span k e
      pure (true, ((q.push (.start .Modifier emptyContent)).push (.value b)).push
        (.close .Modifier c))

/-- The closing line of `code` (code.rs 45-53) and `embed` (embed.rs 38-45): eat an `Eol`, or accept
a block boundary; otherwise `none`. -/
def closeLine (p : P) (k e : Nat) : Option (Nat × Nat) × P :=
  match p.eat isEol with
  | (some (_, e'), q) => (some (k, e'), q)
  | (none, q) => if q.atBlockBoundary then (some (k, e), q) else (none, q)

/-- The end of `code` after the scan for the closing fence, src/op/code.rs 39-60. -/
def codeTail (start snap : Nat) (scan : Option (Nat × Nat × Nat)) (q : P) : R (Bool × P) :=
  match scan with
  | none => pure (false, q.restore start snap)
  | some (b, k, e) =>
    match closeLine q k e with
    | (none, q) => pure (false, q.restore start snap)
    | (some (k, e), q) => do
      let body ← q.span b k
      let close ← q.span k e
      pure (true, (q.push (.value body)).push (.close .Code close))

/-- The closure `code` runs without stop conditions, src/op/code.rs 32-37. -/
def codeScan (withModifier : Bool) (p : P) : R (Option (Nat × Nat × Nat) × P) := do
  let p ← if withModifier then (do let (_, p) ← modifier p; pure p) else pure p
  p.eatUntil isBacktick3

/-- `code`, src/op/code.rs 18-61. -/
def code (p : P) : R (Bool × P) := do
  let start := p.pos
  let snap := p.ops.length
  let first :=
    match p.eatSeq2 isBacktick3 isEol with
    | (some r, q) => (some r, q)
    | (none, q) => q.eat isBacktick3
  match first with
  | (none, q) => pure (false, q)
  | (some (a, e), q) =>
    let withModifier := !(tokenIs q.tokens (e - 1) isEol)
    let c ← q.span a e
    let q := q.push (.start .Code c)
    let (scan, q) ← q.withNoStops (codeScan withModifier)
    codeTail start snap scan q

/-- `embed`, src/op/embed.rs 22-58. -/
def embed (p : P) : R (Bool × P) := do
  let start := p.pos
  match p.eat isLeftCurly2 with
  | (none, _) => pure (false, p)
  | (some startRange, q) =>
    match ← q.eatUntil isPipe with
    | (none, q) => pure (false, { q with pos := start })
    | (some (la, lk, le), q) =>
      match ← q.eatUntil isRightCurly2 with
      | (none, q) => pure (false, { q with pos := start })
      | (some (ra, rk, re), q) =>
        match closeLine q rk re with
        | (none, q) => pure (false, { q with pos := start })
        | (some (k, e), q) =>
          let s ← q.span startRange.1 startRange.2
          let lhs ← q.span la lk
          let sep ← q.span lk le
          let rhs ← q.span ra rk
          let close ← q.span k e
          pure (true, ((((q.push (.start .Embed s)).push (.value lhs)).push (.value sep)).push
            (.value rhs)).push (.close .Embed close))

/-- `image`, src/op/image.rs 14-48. -/
def image (p : P) : R (Bool × P) := do
  let start := p.pos
  let snap := p.ops.length
  match p.eat isBang1 with
  | (none, _) => pure (false, p)
  | (some (a, e), q) =>
    let c ← q.span a e
    match ← title (q.push (.start .Image c)) with
    | (false, q) => pure (false, q.restore start snap)
    | (true, q) =>
      match ← destination q with
      | (false, q) => pure (false, q.restore start snap)
      | (true, q) =>
        match q.eat isEol with
        | (some (a, e), q) => do
          let c ← q.span a e
          pure (true, q.push (.close .Image c))
        | (none, q) =>
          if q.atEof then pure (true, q.push (.close .Image emptyContent))
          else pure (false, q.restore start snap)

/-- Loop of `images`, src/op/images.rs 7-17: `none` = `return false` on line 15. -/
def imagesLoop (start snap : Nat) : Nat → P → Nat → R (Option Nat × P)
  | 0, _, _ => .error .fuel
  | n + 1, p, count =>
    match p.peek with
    | none => .ok (some count, p)
    | some _ => do
      match ← image p with
      | (true, q) => imagesLoop start snap n q (count + 1)
      | (false, q) =>
        if q.atEof then pure (some count, q)
        else pure (none, q.restore start snap)

/-- `images`, src/op/images.rs 3-25. -/
def images (p : P) : R (Bool × P) := do
  let start := p.pos
  let snap := p.ops.length
  match ← imagesLoop start snap (p.tokens.length + 1) p 0 with
  | (none, q) => pure (false, q)
  | (some count, q) =>
    if count > 1 then
      let q ← q.insertOp snap (.start .Images emptyContent)
      pure (decide (count > 0), q.push (.close .Images emptyContent))
    else pure (decide (count > 0), q)

/-- `thematic_break`, src/op/thematic_break.rs 10-21. -/
def thematicBreak (p : P) : R (Bool × P) := do
  match p.eat isDash5 with
  | (none, _) => pure (false, p)
  | (some (a, e), q) =>
    let c ← q.span a e
    pure (true, ((q.push (.start .ThematicBreak emptyContent)).push (.value c)).push
      (.close .ThematicBreak emptyContent))

/-- `icon`, src/op/highlight.rs 31-51. -/
def icon (p : P) : R (Bool × P) := do
  let start := p.pos
  let snap := p.ops.length
  match p.eatSeq2 isOneBang isSpace1 with
  | (none, q) => pure (false, q)
  | (some startRange, q) =>
    match ← q.eatUntil isEol with
    | (none, q) => pure (false, q.restore start snap)
    | (some (a, k, e), q) =>
      let q ← pushTriple q .Icon startRange (a, k) (k, e)
      pure (true, q)

/-- The blank line before a paragraph of `highlight`, src/op/highlight.rs 92-95. -/
def eatTerminator (p : P) : R P :=
  match p.eat isTerminator with
  | (some (a, e), q) => do
    let c ← q.span a e
    pure (q.push (.value c))
  | (none, q) => pure q

/-- Loop of `highlight`, src/op/highlight.rs 80-107: the result says whether the closing `!!` was
found (`return true` on line 91). -/
def highlightLoop : Nat → P → R (Bool × P)
  | 0, _ => .error .fuel
  | n + 1, p =>
    if p.atEof then .ok (false, p)
    else
      match p.eat isTwoBangs with
      | (some (a, e), q) => do
        let (e, q) :=
          match q.eat isEol with
          | (some (_, e'), q) => (e', q)
          | (none, q) => (e, q)
        let c ← q.span a e
        pure (true, q.push (.close .Highlight c))
      | (none, _) => do
        let q ← eatTerminator p
        let (_, q) ← q.withEofs2 .HighlightEnd .Terminator paragraph
        if q.pos > p.pos then highlightLoop n q else .error .panic

/-- `highlight`, src/op/highlight.rs 53-112. -/
def highlight (p : P) : R (Bool × P) := do
  let start := p.pos
  let snap := p.ops.length
  match p.eatSeq2 isTwoBangs (fun t => isSpace1 t || isEol t) with
  | (none, q) => pure (false, q)
  | (some (a, e), q) =>
    let skipTitle := tokenIs q.tokens (e - 1) isEol
    let c ← q.span a e
    let q := q.push (.start .Highlight c)
    let q ← if skipTitle then pure q else (do let (_, q) ← modifier q; pure q)
    let (_, q) ← q.withEof .Terminator icon
    if !(q.atTok col0) then pure (false, q.restore start snap)
    else
      match ← highlightLoop (q.tokens.length + 1) q with
      | (true, q) => pure (true, q)
      | (false, q) => pure (false, q.restore start snap)

mutual

/-- `list_item`, src/op/list.rs 14-52. The fuel bounds the recursion
list_item / list_inner / the loop on line 64. -/
def listItem (fuel : Nat) (level : Nat) (kind : Option ListKind) (p : P) :
    R (Option ListKind × P) :=
  match fuel with
  | 0 => .error .fuel
  | fuel + 1 =>
    if !(p.atTok col0) then .ok (none, p)
    else
      match p.get (p.pos + if level = 0 then 0 else 1) with
      | none => .ok (none, p)
      | some t =>
        match ListKind.tryFrom t with
        | none => .ok (none, p)
        | some markerKind =>
          let seq :=
            if level = 0 then p.eatSeq2 (isListMarker kind) isSpace1
            else p.eatSeq3 (fun t => t.kind = .Space && t.len = level) (isListMarker kind) isSpace1
          match seq with
          | (none, q) => .ok (none, q)
          | (some (a, e), q) => do
            let c ← q.span a e
            let q := q.push (.start .ListItem c)
            let (_, q) ← q.withEof (.ListBoundary level markerKind) paragraph
            let q ← if q.atEof then pure q
              else (do let (_, q) ← listInner fuel (level + 1) q; pure q)
            pure (some markerKind, q.push (.close .ListItem emptyContent))

/-- `list_inner`, src/op/list.rs 54-69. -/
def listInner (fuel : Nat) (level : Nat) (p : P) : R (Option ListKind × P) :=
  match fuel with
  | 0 => .error .fuel
  | fuel + 1 => do
    let snap := p.ops.length
    match ← listItem fuel level none p with
    | (none, q) => pure (none, q)
    | (some listKind, q) =>
      let q ← q.insertOp snap (.start listKind.node emptyContent)
      let q ← listLoop fuel level listKind q
      pure (some listKind, q.push (.close listKind.node emptyContent))

/-- `while list_item(p, level, Some(list_kind)).is_some() {}`, src/op/list.rs 64. -/
def listLoop (fuel : Nat) (level : Nat) (kind : ListKind) (p : P) : R P :=
  match fuel with
  | 0 => .error .fuel
  | fuel + 1 => do
    match ← listItem fuel level (some kind) p with
    | (none, q) => pure q
    | (some _, q) => listLoop fuel level kind q

end

/-- `list`, src/op/list.rs 71-73. -/
def list (p : P) (level : Nat) : R (Bool × P) := do
  let (k, q) ← listInner (2 * (p.tokens.length - p.pos) + 2) level p
  pure (k.isSome, q)

/-- The alternatives under `with_eof(Terminator)`, src/op/document.rs 64-66. -/
def leafBlock (p : P) : R (Unit × P) := do
  match ← orElse (fun p => list p 0) (orElse images (orElse thematicBreak heading)) p with
  | (true, q) => pure ((), q)
  | (false, q) => paragraph q

/-- The closing line of `collapsible`: `eat_seq!(..).or_else(..)`, src/op/collapsible.rs 52. -/
def collClose (q : P) : Option (Nat × Nat) × P :=
  match q.eatSeq2 isCollapsibleEnd isEol with
  | (some r, q) => (some r, q)
  | (none, q) => q.eat isCollapsibleEnd

mutual

/-- `collapsible`, src/op/collapsible.rs 27-64. The fuel bounds the recursion
document / collapsible. -/
def collapsible (fuel : Nat) (p : P) : R (Bool × P) :=
  match fuel with
  | 0 => .error .fuel
  | fuel + 1 =>
    let start := p.pos
    let snap := p.ops.length
    match p.eatSeq2 isCollapsibleStart isSpaceOrEol with
    | (none, q) => .ok (false, q)
    | (some (a, e), q) => do
      let c ← q.span a e
      let q := q.push (.start .Collapsible c)
      let (_, q) ← modifier q
      if !(q.atTok col0) then pure (false, (q.restore start snap).flipToLiteral start)
      else
        let (_, q) ← q.withEof .CollapsibleEnd (document fuel)
        let q := (q.eat isEol).2
        match collClose q with
        | (none, q) => pure (false, (q.restore start snap).flipToLiteral start)
        | (some (a, e), q) =>
          let c ← q.span a e
          pure (true, q.push (.close .Collapsible c))

/-- `document`, src/op/document.rs 51-76. -/
def document (fuel : Nat) (p : P) : R (Unit × P) :=
  match fuel with
  | 0 => .error .fuel
  | fuel + 1 => do
    let q ← documentLoop fuel (p.push (.start .Document emptyContent))
    pure ((), q.push (.close .Document emptyContent))

/-- Loop of `document`, src/op/document.rs 55-74, with its `debug_assert!`. -/
def documentLoop (fuel : Nat) (p : P) : R P :=
  match fuel with
  | 0 => .error .fuel
  | fuel + 1 =>
    if p.atEof then .ok p
    else do
      let q ←
        match p.eat isTerminator with
        | (some (a, e), q) => do
          let c ← q.span a e
          pure (q.push (.value c))
        | (none, _) => do
          match ← orElse code (orElse (collapsible fuel) (orElse embed highlight)) p with
          | (true, q) => pure q
          | (false, q) => do
            let (_, q) ← q.withEof .Terminator leafBlock
            pure q
      if q.pos > p.pos then documentLoop fuel q else .error .panic

end

/-- `parse`, src/op/mod.rs 237-242. -/
def parse (input : Str) : R (List Op) := do
  let p ← P.ofStr input
  let (_, p) ← metadata p
  let (_, p) ← document (3 * p.tokens.length + 4) p
  pure p.ops

end Yamd
