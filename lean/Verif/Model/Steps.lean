import Verif.Model.Blocks

/-!
# The parser with a step counter

The functions of `Model/Blocks.lean` once more, in a monad that counts steps. `Proofs/StepsErase.lean`
proves that forgetting the counter gives back the functions of `Model/Blocks.lean`, so only the placement of
the ticks is new here.

What is counted (the convention of the cost model):

* one step for every call of a parsing function and for every iteration of a loop; it pays for the bounded
  number of constant-time operations of the body (reading a token, comparing, advancing, pushing an op,
  pushing or popping a stop condition) and for dropping the ops pushed, when they are truncated later;
* `at_eof` costs one step and one more for every stop condition on the stack, and a list boundary on level
  `l` costs `l + 3` (its loop tries the levels `0..=l+1`);
* `span` costs one step, one for every token of the range and one for every byte of them (they are copied
  when there is an escape);
* `Vec::insert` costs one step and one for every op it has to move.

Lexing is not counted: it reads every character once (C01).
-/

namespace Yamd

/-- A result and the number of steps it took. -/
structure Counted (α : Type) where
  val : R α
  cost : Nat

instance : Monad Counted where
  pure a := ⟨.ok a, 0⟩
  bind x f := ⟨x.val >>= fun a => (f a).val, x.cost + (match x.val with | .ok a => (f a).cost | .error _ => 0)⟩

/-- Count `n` steps. -/
def tick (n : Nat) : Counted Unit := ⟨.ok (), n⟩

/-- A computation of known cost. -/
def paid {α : Type} (n : Nat) (x : R α) : Counted α := ⟨x, n⟩

/-- The cost of testing one stop condition, src/op/parser.rs 102-121 and 63-99. -/
def Stop.cost : Stop → Nat
  | .ListBoundary level _ => level + 3
  | _ => 1

/-- The cost of `at_eof`, src/op/parser.rs 230-235. -/
def eofCost (eof : List Stop) : Nat := 1 + (eof.map Stop.cost).sum

/-- One step per token and one per byte. -/
def weight (ts : List Token) : Nat := (ts.map fun t => 1 + t.len).sum

/-- The cost of `span`, src/op/parser.rs 281-293. -/
def spanCost (p : P) (a b : Nat) : Nat := 1 + weight ((p.tokens.drop a).take (b - a))

namespace Steps

/-- `Parser::with_eof`, src/op/parser.rs 195-200. -/
def withEof {α : Type} (p : P) (cond : Stop) (f : P → Counted (α × P)) : Counted (α × P) := do
  let (a, q) ← f { p with eof := cond :: p.eof }
  pure (a, { q with eof := q.eof.tail })

/-- `Parser::with_eofs`, src/op/parser.rs 203-216, for two conditions. -/
def withEofs2 {α : Type} (p : P) (c1 c2 : Stop) (f : P → Counted (α × P)) : Counted (α × P) := do
  let (a, q) ← f { p with eof := c2 :: c1 :: p.eof }
  pure (a, { q with eof := q.eof.tail.tail })

/-- `Parser::with_no_stops`, src/op/parser.rs 221-226. -/
def withNoStops {α : Type} (p : P) (f : P → Counted (α × P)) : Counted (α × P) := do
  let (a, q) ← f { p with eof := [] }
  pure (a, { q with eof := p.eof })

/-- `Parser::at_eof`, src/op/parser.rs 230-235. -/
def atEof (p : P) : Counted Bool := paid (eofCost p.eof) (.ok p.atEof)

/-- `Parser::at_block_boundary`, src/op/parser.rs 248-250. -/
def atBlockBoundary (p : P) : Counted Bool := paid (1 + eofCost p.eof) (.ok p.atBlockBoundary)

/-- Loop of `Parser::eat_until`, src/op/parser.rs 261-272. -/
def eatUntilLoop (m : Token → Bool) : Nat → P → Counted (Option P)
  | 0, _ => paid 0 (.error .fuel)
  | n + 1, p => do
    tick 1
    match p.tokens[p.pos]? with
    | none => pure none
    | some t =>
      if ← atEof p then pure none
      else if m t then pure (some p)
      else eatUntilLoop m n { p with pos := p.pos + 1 }

/-- `Parser::eat_until`, src/op/parser.rs 256-275. -/
def eatUntil (p : P) (m : Token → Bool) : Counted (Option (Nat × Nat × Nat) × P) := do
  match ← eatUntilLoop m (p.tokens.length + 1) p with
  | some q => pure (some (p.pos, q.pos, q.pos + 1), { q with pos := q.pos + 1 })
  | none => pure (none, p)

/-- `Parser::span`, src/op/parser.rs 281-293. -/
def span (p : P) (a b : Nat) : Counted Content := paid (spanCost p a b) (p.span a b)

/-- `p.ops.insert(i, op)`. -/
def insertOp (p : P) (i : Nat) (op : Op) : Counted P := paid (1 + (p.ops.length - i)) (p.insertOp i op)

/-- Three spans and three pushes. -/
def pushTriple (p : P) (n : Node) (r1 r2 r3 : Nat × Nat) : Counted P := do
  let a ← span p r1.1 r1.2
  let b ← span p r2.1 r2.2
  let c ← span p r3.1 r3.2
  pure (((p.push (.start n a)).push (.value b)).push (.close n c))

/-- src/op/strikethrough.rs 10-27 and the functions that share its body. -/
def delimited (opening closing : Token → Bool) (n : Node) (p : P) : Counted (Bool × P) := do
  tick 1
  match p.eat opening with
  | (none, _) => pure (false, p)
  | (some startRange, q) =>
    match ← eatUntil q closing with
    | (none, q) => pure (false, { q with pos := p.pos })
    | (some (a, k, e), q) =>
      let q ← pushTriple q n startRange (a, k) (k, e)
      pure (true, q)

/-- src/op/strikethrough.rs 10-27 -/
def strikethrough : P → Counted (Bool × P) := delimited isTilde2 isTilde2 .Strikethrough
/-- src/op/italic.rs 11-27 -/
def italic : P → Counted (Bool × P) := delimited isUnderscore isUnderscore .Italic
/-- src/op/emphasis.rs 10-26 -/
def emphasis : P → Counted (Bool × P) := delimited isStar1 isStar1 .Emphasis
/-- src/op/code_span.rs 10-26 -/
def codeSpan : P → Counted (Bool × P) := delimited isBacktick1 isBacktick1 .CodeSpan
/-- src/op/title.rs 14-30 -/
def title : P → Counted (Bool × P) := delimited isLeftBracket isRightBracket .Title
/-- src/op/metadata.rs 10-28 -/
def metadata : P → Counted (Bool × P) := delimited isThreeDashes isThreeDashes .Metadata

/-- Loop of `destination`, src/op/destination.rs 18-39. -/
def destLoop : Nat → P → Int → Nat → Counted Nat
  | 0, _, _, _ => paid 0 (.error .fuel)
  | n + 1, p, parens, endPos => do
    tick 1
    match p.peek with
    | none => pure endPos
    | some t =>
      if ← atEof p then pure endPos
      else if t.kind = .LeftParenthesis then
        destLoop n { p with pos := p.pos + 1 } (parens + 1) endPos
      else if t.kind = .RightParenthesis then
        if parens - 1 = 0 then pure p.pos
        else destLoop n { p with pos := p.pos + 1 } (parens - 1) p.pos
      else destLoop n { p with pos := p.pos + 1 } parens endPos

/-- `destination`, src/op/destination.rs 10-55. -/
def destination (p : P) : Counted (Bool × P) := do
  tick 1
  match p.eat isLeftParen with
  | (none, _) => pure (false, p)
  | (some startRange, q) =>
    let endPos ← destLoop (q.tokens.length + 1) q 1 p.pos
    if p.pos = endPos then pure (false, p)
    else
      let a ← span q startRange.1 startRange.2
      let b ← span q (p.pos + 1) endPos
      let c ← span q endPos (endPos + 1)
      let q := { q with pos := endPos + 1 }
      pure (true, ((q.push (.start .Destination a)).push (.value b)).push (.close .Destination c))

/-- `anchor`, src/op/anchor.rs 3-14. -/
def anchor (p : P) : Counted (Bool × P) := do
  tick 1
  let start := p.pos
  let snap := p.ops.length
  let q := p.push (.start .Anchor emptyContent)
  match ← title q with
  | (false, q) => pure (false, q.restore start snap)
  | (true, q) =>
    match ← destination q with
    | (false, q) => pure (false, q.restore start snap)
    | (true, q) => pure (true, q.push (.close .Anchor emptyContent))

/-- bold.rs 39-42, paragraph.rs 16-19 and heading.rs 29-32. -/
def insertText (p : P) (textStart : Option Nat) (pos snap : Nat) : Counted P :=
  match textStart with
  | none => pure p
  | some s => do
    let c ← span p s pos
    insertOp p snap (.value c)

/-- bold.rs 26-29, paragraph.rs 26-29 and heading.rs 39-42. -/
def pushText (p : P) (textStart : Option Nat) (pos : Nat) : Counted P :=
  match textStart with
  | none => pure p
  | some s => do
    let c ← span p s pos
    pure (p.push (.value c))

/-- `f(p) || g(p)`. -/
def orElse (f g : P → Counted (Bool × P)) (p : P) : Counted (Bool × P) := do
  match ← f p with
  | (true, q) => pure (true, q)
  | (false, q) => g q

/-- Loop of `bold`, src/op/bold.rs 22-48. -/
def boldLoop : Nat → P → Option Nat → Counted (Bool × P)
  | 0, _, _ => paid 0 (.error .fuel)
  | n + 1, p, textStart => do
    tick 1
    match p.peek with
    | none => pure (false, p)
    | some _ =>
      if ← atEof p then pure (false, p)
      else
        match p.eat isStar2 with
        | (some (a, e), q) => do
          let q ← pushText q textStart p.pos
          let c ← span q a e
          pure (true, q.push (.close .Bold c))
        | (none, _) => do
          match ← orElse strikethrough italic p with
          | (true, q) => do
            let q ← insertText q textStart p.pos p.ops.length
            boldLoop n q none
          | (false, q) => boldLoop n q.next (some (textStart.getD p.pos))

/-- `bold`, src/op/bold.rs 10-57. -/
def bold (p : P) : Counted (Bool × P) := do
  tick 1
  let start := p.pos
  let snap := p.ops.length
  match p.eat isStar2 with
  | (none, _) => pure (false, p)
  | (some (a, e), q) =>
    let c ← span q a e
    match ← boldLoop (q.tokens.length + 1) (q.push (.start .Bold c)) none with
    | (true, q) => pure (true, q)
    | (false, q) => pure (false, q.restore start snap)

/-- The alternatives tried at each position of a paragraph, src/op/paragraph.rs 13-14. -/
def inline : P → Counted (Bool × P) :=
  orElse strikethrough (orElse italic (orElse bold (orElse anchor (orElse codeSpan emphasis))))

/-- Loop of `paragraph`, src/op/paragraph.rs 10-24. -/
def paragraphLoop : Nat → P → Option Nat → Counted (Option Nat × P)
  | 0, _, _ => paid 0 (.error .fuel)
  | n + 1, p, textStart => do
    tick 1
    if ← atEof p then pure (textStart, p)
    else do
      match ← inline p with
      | (true, q) => do
        let q ← insertText q textStart p.pos p.ops.length
        paragraphLoop n q none
      | (false, q) => paragraphLoop n q.next (some (textStart.getD q.pos))

/-- `paragraph`, src/op/paragraph.rs 6-32. -/
def paragraph (p : P) : Counted (Unit × P) := do
  tick 1
  let (textStart, q) ←
    paragraphLoop (p.tokens.length + 1) (p.push (.start .Paragraph emptyContent)) none
  let q ← pushText q textStart q.pos
  pure ((), q.push (.close .Paragraph emptyContent))

/-- Loop of `heading`, src/op/heading.rs 22-38. -/
def headingLoop : Nat → P → Option Nat → Counted (Option Nat × P)
  | 0, _, _ => paid 0 (.error .fuel)
  | n + 1, p, textStart => do
    tick 1
    match p.peek with
    | none => pure (textStart, p)
    | some _ =>
      if ← atEof p then pure (textStart, p)
      else do
        match ← anchor p with
        | (true, q) => do
          let q ← insertText q textStart p.pos p.ops.length
          headingLoop n q none
        | (false, q) => headingLoop n q.next (some (textStart.getD p.pos))

/-- `heading`, src/op/heading.rs 14-46. -/
def heading (p : P) : Counted (Bool × P) := do
  tick 1
  match p.eatSeq2 isHash isSpace1 with
  | (none, q) => pure (false, q)
  | (some (a, e), q) =>
    let c ← span q a e
    let (textStart, q) ← headingLoop (q.tokens.length + 1) (q.push (.start .Heading c)) none
    let q ← pushText q textStart q.pos
    pure (true, q.push (.close .Heading emptyContent))

/-- `modifier`, src/op/modifier.rs 10-26. -/
def modifier (p : P) : Counted (Bool × P) := do
  tick 1
  if p.atTok col0 then pure (false, p)
  else
    match ← eatUntil p isEolOrTerminator with
    | (none, q) => pure (false, q)
    | (some (a, k, e), q) =>
      let b ← span q a k
      let c ← span q k e
      pure (true, ((q.push (.start .Modifier emptyContent)).push (.value b)).push
        (.close .Modifier c))

/-- The closing line of `code` (code.rs 45-53) and `embed` (embed.rs 38-45). -/
def closeLine (p : P) (k e : Nat) : Counted (Option (Nat × Nat) × P) :=
  match p.eat isEol with
  | (some (_, e'), q) => pure (some (k, e'), q)
  | (none, q) => do if ← atBlockBoundary q then pure (some (k, e), q) else pure (none, q)

/-- The end of `code` after the scan for the closing fence, src/op/code.rs 39-60. -/
def codeTail (start snap : Nat) (scan : Option (Nat × Nat × Nat)) (q : P) : Counted (Bool × P) :=
  match scan with
  | none => pure (false, q.restore start snap)
  | some (b, k, e) => do
    match ← closeLine q k e with
    | (none, q) => pure (false, q.restore start snap)
    | (some (k, e), q) => do
      let body ← span q b k
      let close ← span q k e
      pure (true, (q.push (.value body)).push (.close .Code close))

/-- The closure `code` runs without stop conditions, src/op/code.rs 32-37. -/
def codeScan (withModifier : Bool) (p : P) : Counted (Option (Nat × Nat × Nat) × P) := do
  let p ← if withModifier then (do let (_, p) ← modifier p; pure p) else pure p
  eatUntil p isBacktick3

/-- `code`, src/op/code.rs 18-61. -/
def code (p : P) : Counted (Bool × P) := do
  tick 1
  let start := p.pos
  let snap := p.ops.length
  let first :=
    match p.eatSeq2 isBacktick3 isEol with
    | (some r, q) => (some r, q)
    | (none, q) => q.eat isBacktick3
  match first with
  | (none, q) => pure (false, q)
  | (some (a, e), q) =>
    let withModifier := !(tokenIs q.tokens (e - 1) isEol)
    let c ← span q a e
    let q := q.push (.start .Code c)
    let (scan, q) ← withNoStops q (codeScan withModifier)
    codeTail start snap scan q

/-- `embed`, src/op/embed.rs 22-58. -/
def embed (p : P) : Counted (Bool × P) := do
  tick 1
  let start := p.pos
  match p.eat isLeftCurly2 with
  | (none, _) => pure (false, p)
  | (some startRange, q) =>
    match ← eatUntil q isPipe with
    | (none, q) => pure (false, { q with pos := start })
    | (some (la, lk, le), q) =>
      match ← eatUntil q isRightCurly2 with
      | (none, q) => pure (false, { q with pos := start })
      | (some (ra, rk, re), q) =>
        match ← closeLine q rk re with
        | (none, q) => pure (false, { q with pos := start })
        | (some (k, e), q) =>
          let s ← span q startRange.1 startRange.2
          let lhs ← span q la lk
          let sep ← span q lk le
          let rhs ← span q ra rk
          let close ← span q k e
          pure (true, ((((q.push (.start .Embed s)).push (.value lhs)).push (.value sep)).push
            (.value rhs)).push (.close .Embed close))

/-- `image`, src/op/image.rs 14-48. -/
def image (p : P) : Counted (Bool × P) := do
  tick 1
  let start := p.pos
  let snap := p.ops.length
  match p.eat isBang1 with
  | (none, _) => pure (false, p)
  | (some (a, e), q) =>
    let c ← span q a e
    match ← title (q.push (.start .Image c)) with
    | (false, q) => pure (false, q.restore start snap)
    | (true, q) =>
      match ← destination q with
      | (false, q) => pure (false, q.restore start snap)
      | (true, q) =>
        match q.eat isEol with
        | (some (a, e), q) => do
          let c ← span q a e
          pure (true, q.push (.close .Image c))
        | (none, q) =>
          if ← atEof q then pure (true, q.push (.close .Image emptyContent))
          else pure (false, q.restore start snap)

/-- Loop of `images`, src/op/images.rs 7-17. -/
def imagesLoop (start snap : Nat) : Nat → P → Nat → Counted (Option Nat × P)
  | 0, _, _ => paid 0 (.error .fuel)
  | n + 1, p, count => do
    tick 1
    match p.peek with
    | none => pure (some count, p)
    | some _ => do
      match ← image p with
      | (true, q) => imagesLoop start snap n q (count + 1)
      | (false, q) =>
        if ← atEof q then pure (some count, q)
        else pure (none, q.restore start snap)

/-- `images`, src/op/images.rs 3-25. -/
def images (p : P) : Counted (Bool × P) := do
  tick 1
  let start := p.pos
  let snap := p.ops.length
  match ← imagesLoop start snap (p.tokens.length + 1) p 0 with
  | (none, q) => pure (false, q)
  | (some count, q) =>
    if count > 1 then
      let q ← insertOp q snap (.start .Images emptyContent)
      pure (decide (count > 0), q.push (.close .Images emptyContent))
    else pure (decide (count > 0), q)

/-- `thematic_break`, src/op/thematic_break.rs 10-21. -/
def thematicBreak (p : P) : Counted (Bool × P) := do
  tick 1
  match p.eat isDash5 with
  | (none, _) => pure (false, p)
  | (some (a, e), q) =>
    let c ← span q a e
    pure (true, ((q.push (.start .ThematicBreak emptyContent)).push (.value c)).push
      (.close .ThematicBreak emptyContent))

/-- `icon`, src/op/highlight.rs 31-51. -/
def icon (p : P) : Counted (Bool × P) := do
  tick 1
  let start := p.pos
  let snap := p.ops.length
  match p.eatSeq2 isOneBang isSpace1 with
  | (none, q) => pure (false, q)
  | (some startRange, q) =>
    match ← eatUntil q isEol with
    | (none, q) => pure (false, q.restore start snap)
    | (some (a, k, e), q) =>
      let q ← pushTriple q .Icon startRange (a, k) (k, e)
      pure (true, q)

/-- The blank line before a paragraph of `highlight`, src/op/highlight.rs 92-95. -/
def eatTerminator (p : P) : Counted P :=
  match p.eat isTerminator with
  | (some (a, e), q) => do
    let c ← span q a e
    pure (q.push (.value c))
  | (none, q) => pure q

/-- Loop of `highlight`, src/op/highlight.rs 80-107. -/
def highlightLoop : Nat → P → Counted (Bool × P)
  | 0, _ => paid 0 (.error .fuel)
  | n + 1, p => do
    tick 1
    if ← atEof p then pure (false, p)
    else
      match p.eat isTwoBangs with
      | (some (a, e), q) => do
        let (e, q) :=
          match q.eat isEol with
          | (some (_, e'), q) => (e', q)
          | (none, q) => (e, q)
        let c ← span q a e
        pure (true, q.push (.close .Highlight c))
      | (none, _) => do
        let q ← eatTerminator p
        let (_, q) ← withEofs2 q .HighlightEnd .Terminator paragraph
        if q.pos > p.pos then highlightLoop n q else paid 0 (.error .panic)

/-- `highlight`, src/op/highlight.rs 53-112. -/
def highlight (p : P) : Counted (Bool × P) := do
  tick 1
  let start := p.pos
  let snap := p.ops.length
  match p.eatSeq2 isTwoBangs (fun t => isSpace1 t || isEol t) with
  | (none, q) => pure (false, q)
  | (some (a, e), q) =>
    let skipTitle := tokenIs q.tokens (e - 1) isEol
    let c ← span q a e
    let q := q.push (.start .Highlight c)
    let q ← if skipTitle then pure q else (do let (_, q) ← modifier q; pure q)
    let (_, q) ← withEof q .Terminator icon
    if !(q.atTok col0) then pure (false, q.restore start snap)
    else
      match ← highlightLoop (q.tokens.length + 1) q with
      | (true, q) => pure (true, q)
      | (false, q) => pure (false, q.restore start snap)

mutual

/-- `list_item`, src/op/list.rs 14-52. -/
def listItem (fuel : Nat) (level : Nat) (kind : Option ListKind) (p : P) :
    Counted (Option ListKind × P) :=
  match fuel with
  | 0 => paid 0 (.error .fuel)
  | fuel + 1 => do
    tick 1
    if !(p.atTok col0) then pure (none, p)
    else
      match p.get (p.pos + if level = 0 then 0 else 1) with
      | none => pure (none, p)
      | some t =>
        match ListKind.tryFrom t with
        | none => pure (none, p)
        | some markerKind =>
          let seq :=
            if level = 0 then p.eatSeq2 (isListMarker kind) isSpace1
            else p.eatSeq3 (fun t => t.kind = .Space && t.len = level) (isListMarker kind) isSpace1
          match seq with
          | (none, q) => pure (none, q)
          | (some (a, e), q) => do
            let c ← span q a e
            let q := q.push (.start .ListItem c)
            let (_, q) ← withEof q (.ListBoundary level markerKind) paragraph
            let q ← if ← atEof q then pure q
              else (do let (_, q) ← listInner fuel (level + 1) q; pure q)
            pure (some markerKind, q.push (.close .ListItem emptyContent))

/-- `list_inner`, src/op/list.rs 54-69. -/
def listInner (fuel : Nat) (level : Nat) (p : P) : Counted (Option ListKind × P) :=
  match fuel with
  | 0 => paid 0 (.error .fuel)
  | fuel + 1 => do
    tick 1
    let snap := p.ops.length
    match ← listItem fuel level none p with
    | (none, q) => pure (none, q)
    | (some listKind, q) =>
      let q ← insertOp q snap (.start listKind.node emptyContent)
      let q ← listLoop fuel level listKind q
      pure (some listKind, q.push (.close listKind.node emptyContent))

/-- `while list_item(p, level, Some(list_kind)).is_some() {}`, src/op/list.rs 64. -/
def listLoop (fuel : Nat) (level : Nat) (kind : ListKind) (p : P) : Counted P :=
  match fuel with
  | 0 => paid 0 (.error .fuel)
  | fuel + 1 => do
    tick 1
    match ← listItem fuel level (some kind) p with
    | (none, q) => pure q
    | (some _, q) => listLoop fuel level kind q

end

/-- `list`, src/op/list.rs 71-73. -/
def list (p : P) (level : Nat) : Counted (Bool × P) := do
  tick 1
  let (k, q) ← listInner (2 * (p.tokens.length - p.pos) + 2) level p
  pure (k.isSome, q)

/-- The alternatives under `with_eof(Terminator)`, src/op/document.rs 64-66. -/
def leafBlock (p : P) : Counted (Unit × P) := do
  match ← orElse (fun p => list p 0) (orElse images (orElse thematicBreak heading)) p with
  | (true, q) => pure ((), q)
  | (false, q) => paragraph q

mutual

/-- `collapsible`, src/op/collapsible.rs 27-64. -/
def collapsible (fuel : Nat) (p : P) : Counted (Bool × P) :=
  match fuel with
  | 0 => paid 0 (.error .fuel)
  | fuel + 1 => do
    tick 1
    let start := p.pos
    let snap := p.ops.length
    match p.eatSeq2 isCollapsibleStart isSpaceOrEol with
    | (none, q) => pure (false, q)
    | (some (a, e), q) => do
      let c ← span q a e
      let q := q.push (.start .Collapsible c)
      let (_, q) ← modifier q
      if !(q.atTok col0) then pure (false, (q.restore start snap).flipToLiteral start)
      else
        let (_, q) ← withEof q .CollapsibleEnd (document fuel)
        let q := (q.eat isEol).2
        match collClose q with
        | (none, q) => pure (false, (q.restore start snap).flipToLiteral start)
        | (some (a, e), q) =>
          let c ← span q a e
          pure (true, q.push (.close .Collapsible c))

/-- `document`, src/op/document.rs 51-76. -/
def document (fuel : Nat) (p : P) : Counted (Unit × P) :=
  match fuel with
  | 0 => paid 0 (.error .fuel)
  | fuel + 1 => do
    tick 1
    let q ← documentLoop fuel (p.push (.start .Document emptyContent))
    pure ((), q.push (.close .Document emptyContent))

/-- Loop of `document`, src/op/document.rs 55-74. -/
def documentLoop (fuel : Nat) (p : P) : Counted P :=
  match fuel with
  | 0 => paid 0 (.error .fuel)
  | fuel + 1 => do
    tick 1
    if ← atEof p then pure p
    else do
      let q ←
        match p.eat isTerminator with
        | (some (a, e), q) => do
          let c ← span q a e
          pure (q.push (.value c))
        | (none, _) => do
          match ← orElse code (orElse (collapsible fuel) (orElse embed highlight)) p with
          | (true, q) => pure q
          | (false, q) => do
            let (_, q) ← withEof q .Terminator leafBlock
            pure q
      if q.pos > p.pos then documentLoop fuel q else paid 0 (.error .panic)

end

/-- `parse`, src/op/mod.rs 237-242, with the number of steps taken after lexing. -/
def parse (input : Str) : Counted (List Op) := do
  let p ← paid 0 (P.ofStr input)
  let (_, p) ← metadata p
  let (_, p) ← document (3 * p.tokens.length + 4) p
  pure p.ops

end Steps
end Yamd
