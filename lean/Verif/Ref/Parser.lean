import Verif.Ref.Cst

/-!
# Reference parser

A purely functional description of the grammar on the list of the tokens still to be read, with the
list of active stop conditions. No positions, no op buffer, no backtracking by truncation, no fuel.
-/

namespace Yamd.Ref

open Yamd

/-! ### Stop conditions on a token suffix -/

/-- The list marker test of the boundary loop for one level. -/
def boundaryHere (ts : List Token) (currentLevel : Nat) (kind : ListKind) (level : Nat) : Bool :=
  let k := if level = currentLevel then some kind else none
  if level = 0 then
    tokenIs ts 0 col0 && tokenIs ts 0 (isListMarker k) && tokenIs ts 1 isSpace1
  else
    tokenIs ts 0 col0 && tokenIs ts 0 (fun t => t.kind = .Space && t.len = level)
      && tokenIs ts 1 (isListMarker k) && tokenIs ts 2 isSpace1

/-- Does a stop condition hold at the front of `t :: r`? -/
def stopHere (t : Token) (r : List Token) : Stop → Bool
  | .Terminator => t.kind = .Terminator
  | .CollapsibleEnd =>
    (t.kind = .CollapsibleEnd && col0 t)
      || (t.kind = .Eol && tokenIs r 0 (fun t => t.kind = .CollapsibleEnd && col0 t))
  | .HighlightEnd => t.kind = .Bang && col0 t && t.len = 2
  | .ListBoundary level kind =>
    col0 t && (List.range (level + 1 + 1)).any (boundaryHere (t :: r) level kind)

/-- Nothing more may be read: the end of the tokens or a stop condition. -/
def stopAt (stops : List Stop) : List Token → Bool
  | [] => true
  | t :: r => stops.any (stopHere t r)

/-! ### Inline constructs -/

/-- Scan to the first token satisfying `m`: the tokens before it, it, the tokens after it. -/
def untilB (stops : List Stop) (m : Token → Bool) : List Token → Option (List Token × Token × List Token)
  | [] => none
  | t :: r =>
    if stopAt stops (t :: r) then none
    else if m t then some ([], t, r)
    else (untilB stops m r).map (fun x => (t :: x.1, x.2))

/-- Opening token, body, closing token. -/
def delimB (opening closing : Token → Bool) (n : Node) (stops : List Stop) :
    List Token → Option (Delim × List Token)
  | [] => none
  | t :: r =>
    if opening t then (untilB stops closing r).map (fun x => (⟨n, t, x.1, x.2.1⟩, x.2.2))
    else none

/-- Scan for the end of a destination: the closing parenthesis that balances `depth` open ones, or
else the last closing one. -/
def destScan (stops : List Stop) : Nat → List Token → Option (List Token × Token × List Token)
  | _, [] => none
  | depth, t :: r =>
    if stopAt stops (t :: r) then none
    else if t.kind = .LeftParenthesis then
      (destScan stops (depth + 1) r).map (fun x => (t :: x.1, x.2))
    else if t.kind = .RightParenthesis then
      if depth - 1 = 0 then some ([], t, r)
      else
        match destScan stops (depth - 1) r with
        | some x => some (t :: x.1, x.2)
        | none => some ([], t, r)
    else (destScan stops depth r).map (fun x => (t :: x.1, x.2))

def destB (stops : List Stop) : List Token → Option (Delim × List Token)
  | [] => none
  | t :: r =>
    if isLeftParen t then
      (destScan stops 1 r).map (fun x => (⟨.Destination, t, x.1, x.2.1⟩, x.2.2))
    else none

def titleB (stops : List Stop) : List Token → Option (Delim × List Token) :=
  delimB isLeftBracket isRightBracket .Title stops

def strikeB (stops : List Stop) : List Token → Option (Delim × List Token) :=
  delimB isTilde2 isTilde2 .Strikethrough stops

def italicB (stops : List Stop) : List Token → Option (Delim × List Token) :=
  delimB isUnderscore isUnderscore .Italic stops

def codeSpanB (stops : List Stop) : List Token → Option (Delim × List Token) :=
  delimB isBacktick1 isBacktick1 .CodeSpan stops

def emphasisB (stops : List Stop) : List Token → Option (Delim × List Token) :=
  delimB isStar1 isStar1 .Emphasis stops

/-- `[title](destination)`. -/
def linkB (stops : List Stop) (ts : List Token) : Option (Link × List Token) :=
  match titleB stops ts with
  | none => none
  | some (t, r) =>
    match destB stops r with
    | none => none
    | some (d, r) => some (⟨t, d⟩, r)

theorem untilB_length {stops m} : ∀ {ts b c r}, untilB stops m ts = some (b, c, r) →
    ts = b ++ c :: r := by
  intro ts
  induction ts with
  | nil => intro b c r h; simp [untilB] at h
  | cons t ts ih =>
    intro b c r h
    unfold untilB at h
    split at h
    · simp at h
    · split at h
      · simp only [Option.some.injEq, Prod.mk.injEq] at h
        obtain ⟨rfl, rfl, rfl⟩ := h; rfl
      · simp only [Option.map_eq_some_iff] at h
        obtain ⟨⟨b', c', r'⟩, h1, h2⟩ := h
        simp only [Prod.mk.injEq] at h2
        obtain ⟨rfl, rfl, rfl⟩ := h2
        rw [ih h1]; rfl

theorem delimB_toks {o c n stops} {ts : List Token} {d r} (h : delimB o c n stops ts = some (d, r)) :
    ts = d.toks ++ r := by
  cases ts with
  | nil => simp [delimB] at h
  | cons t ts =>
    rw [delimB] at h
    split at h
    · simp only [Option.map_eq_some_iff] at h
      obtain ⟨⟨b', c', r'⟩, h1, h2⟩ := h
      simp only [Prod.mk.injEq] at h2
      obtain ⟨rfl, rfl⟩ := h2
      rw [untilB_length h1]; simp [Delim.toks]
    · simp at h

theorem delim_toks_length (d : Delim) : d.toks.length = d.body.length + 2 := by
  simp [Delim.toks]

theorem delimB_length {o c n stops} {ts : List Token} {d r} (h : delimB o c n stops ts = some (d, r)) :
    r.length < ts.length := by
  rw [delimB_toks h, List.length_append, delim_toks_length]; omega

theorem destScan_toks {stops} : ∀ {ts depth b c r}, destScan stops depth ts = some (b, c, r) →
    ts = b ++ c :: r := by
  intro ts
  induction ts with
  | nil => intro depth b c r h; simp [destScan] at h
  | cons t ts ih =>
    intro depth b c r h
    unfold destScan at h
    split at h
    · simp at h
    · split at h
      · simp only [Option.map_eq_some_iff] at h
        obtain ⟨⟨b', c', r'⟩, h1, h2⟩ := h
        simp only [Prod.mk.injEq] at h2
        obtain ⟨rfl, rfl, rfl⟩ := h2
        rw [ih h1]; rfl
      · split at h
        · split at h
          · simp only [Option.some.injEq, Prod.mk.injEq] at h
            obtain ⟨rfl, rfl, rfl⟩ := h; rfl
          · split at h
            · rename_i x hx
              obtain ⟨b', c', r'⟩ := x
              simp only [Option.some.injEq, Prod.mk.injEq] at h
              obtain ⟨rfl, rfl, rfl⟩ := h
              rw [ih hx]; rfl
            · simp only [Option.some.injEq, Prod.mk.injEq] at h
              obtain ⟨rfl, rfl, rfl⟩ := h; rfl
        · simp only [Option.map_eq_some_iff] at h
          obtain ⟨⟨b', c', r'⟩, h1, h2⟩ := h
          simp only [Prod.mk.injEq] at h2
          obtain ⟨rfl, rfl, rfl⟩ := h2
          rw [ih h1]; rfl

theorem destB_toks {stops} {ts : List Token} {d r} (h : destB stops ts = some (d, r)) :
    ts = d.toks ++ r := by
  cases ts with
  | nil => simp [destB] at h
  | cons t ts =>
    rw [destB] at h
    split at h
    · simp only [Option.map_eq_some_iff] at h
      obtain ⟨⟨b', c', r'⟩, h1, h2⟩ := h
      simp only [Prod.mk.injEq] at h2
      obtain ⟨rfl, rfl⟩ := h2
      rw [destScan_toks h1]; simp [Delim.toks]
    · simp at h

theorem linkB_toks {stops} {ts : List Token} {l r} (h : linkB stops ts = some (l, r)) :
    ts = l.toks ++ r := by
  unfold linkB at h
  split at h
  · simp at h
  · rename_i t r1 h1
    split at h
    · simp at h
    · rename_i d r2 h2
      simp only [Option.some.injEq, Prod.mk.injEq] at h
      obtain ⟨rfl, rfl⟩ := h
      rw [delimB_toks h1, destB_toks h2]; simp [Link.toks]

theorem linkB_length {stops} {ts : List Token} {l r} (h : linkB stops ts = some (l, r)) :
    r.length < ts.length := by
  rw [linkB_toks h, List.length_append, Link.toks, List.length_append, delim_toks_length]; omega

/-- The styled children of a bold. -/
def boldChildB (stops : List Stop) (ts : List Token) : Option (Delim × List Token) :=
  match strikeB stops ts with
  | some x => some x
  | none => italicB stops ts

theorem boldChildB_toks {stops} {ts : List Token} {d r} (h : boldChildB stops ts = some (d, r)) :
    ts = d.toks ++ r := by
  unfold boldChildB at h
  split at h
  · rename_i h1; rw [h] at h1; exact delimB_toks h1
  · exact delimB_toks h

theorem boldChildB_length {stops} {ts : List Token} {d r} (h : boldChildB stops ts = some (d, r)) :
    r.length < ts.length := by
  rw [boldChildB_toks h, List.length_append, delim_toks_length]; omega

/-- The items of a bold up to its closing `**`; `acc` is plain text read so far. -/
def boldItemsB (stops : List Stop) (acc : List Token) (ts : List Token) :
    Option (List BoldItem × Token × List Token) :=
  match ts with
  | [] => none
  | t :: r =>
    if stopAt stops (t :: r) then none
    else if isStar2 t then some (if acc = [] then [] else [.text acc], t, r)
    else
      match h : boldChildB stops (t :: r) with
      | some (d, r') =>
        (boldItemsB stops [] r').map
          (fun x => ((if acc = [] then [] else [.text acc]) ++ .delim d :: x.1, x.2))
      | none => boldItemsB stops (acc ++ [t]) r
termination_by ts.length
decreasing_by
  · exact boldChildB_length h
  · simp

def boldB (stops : List Stop) : List Token → Option (Inl × List Token)
  | [] => none
  | t :: r =>
    if isStar2 t then (boldItemsB stops [] r).map (fun x => (.bold t x.1 x.2.1, x.2.2))
    else none

/-- The first construct that matches, in the order of the parser. -/
def inlineB (stops : List Stop) (ts : List Token) : Option (Inl × List Token) :=
  match strikeB stops ts with
  | some (d, r) => some (.delim d, r)
  | none =>
    match italicB stops ts with
    | some (d, r) => some (.delim d, r)
    | none =>
      match boldB stops ts with
      | some x => some x
      | none =>
        match linkB stops ts with
        | some (l, r) => some (.anchor l, r)
        | none =>
          match codeSpanB stops ts with
          | some (d, r) => some (.delim d, r)
          | none =>
            match emphasisB stops ts with
            | some (d, r) => some (.delim d, r)
            | none => none

theorem boldItemsB_toks {stops} : ∀ (n : Nat) {ts acc l c r}, ts.length ≤ n →
    boldItemsB stops acc ts = some (l, c, r) → acc ++ ts = l.flatMap BoldItem.toks ++ c :: r := by
  intro n
  induction n with
  | zero =>
    intro ts acc l c r hn h
    have : ts = [] := by simpa using hn
    subst this; rw [boldItemsB] at h; simp at h
  | succ n ih =>
    intro ts acc l c r hn h
    have hacc : ∀ acc : List Token, (if acc = [] then [] else [BoldItem.text acc]).flatMap BoldItem.toks = acc := by
      intro acc; split <;> simp_all [BoldItem.toks]
    cases ts with
    | nil => rw [boldItemsB] at h; simp at h
    | cons t ts =>
      rw [boldItemsB] at h
      split at h
      · simp at h
      · split at h
        · simp only [Option.some.injEq, Prod.mk.injEq] at h
          obtain ⟨rfl, rfl, rfl⟩ := h
          rw [hacc]
        · split at h
          · rename_i d r' hd
            simp only [Option.map_eq_some_iff] at h
            obtain ⟨⟨l', c', r''⟩, h1, h2⟩ := h
            simp only [Prod.mk.injEq] at h2
            obtain ⟨rfl, rfl, rfl⟩ := h2
            have hl := boldChildB_length hd
            have := ih (by simp at hl hn ⊢; omega) h1
            rw [boldChildB_toks hd]
            simp only [List.flatMap_append, List.flatMap_cons, hacc, BoldItem.toks]
            simp only [List.nil_append] at this
            rw [this]; simp
          · have := ih (by simp at hn ⊢; omega) h
            rw [← this]; simp

theorem boldB_toks {stops} {ts : List Token} {x r} (h : boldB stops ts = some (x, r)) :
    ts = x.toks ++ r := by
  cases ts with
  | nil => simp [boldB] at h
  | cons t ts =>
    rw [boldB] at h
    split at h
    · simp only [Option.map_eq_some_iff] at h
      obtain ⟨⟨l', c', r''⟩, h1, h2⟩ := h
      simp only [Prod.mk.injEq] at h2
      obtain ⟨rfl, rfl⟩ := h2
      have := boldItemsB_toks _ (Nat.le_refl _) h1
      simp only [List.nil_append] at this
      rw [this]; simp [Inl.toks]
    · simp at h

theorem inlineB_toks {stops} {ts : List Token} {x r} (h : inlineB stops ts = some (x, r)) :
    ts = x.toks ++ r := by
  unfold inlineB at h
  repeat' split at h
  all_goals simp only [Option.some.injEq, Prod.mk.injEq, reduceCtorEq] at h
  · obtain ⟨rfl, rfl⟩ := h; rename_i h1; exact delimB_toks h1
  · obtain ⟨rfl, rfl⟩ := h; rename_i h1; exact delimB_toks h1
  · rename_i h1; rw [h] at h1; exact boldB_toks h1
  · obtain ⟨rfl, rfl⟩ := h; rename_i h1; exact linkB_toks h1
  · obtain ⟨rfl, rfl⟩ := h; rename_i h1; exact delimB_toks h1
  · obtain ⟨rfl, rfl⟩ := h; rename_i h1; exact delimB_toks h1

theorem inlineB_nonempty {stops} {ts : List Token} {x r} (h : inlineB stops ts = some (x, r)) :
    0 < x.toks.length := by
  unfold inlineB at h
  repeat' split at h
  all_goals simp only [Option.some.injEq, Prod.mk.injEq, reduceCtorEq] at h
  · obtain ⟨rfl, rfl⟩ := h; simp [Inl.toks, delim_toks_length]
  · obtain ⟨rfl, rfl⟩ := h; simp [Inl.toks, delim_toks_length]
  · rename_i h1; rw [h] at h1
    cases ts with
    | nil => simp [boldB] at h1
    | cons t ts =>
      rw [boldB] at h1
      split at h1
      · simp only [Option.map_eq_some_iff] at h1
        obtain ⟨y, _, h2⟩ := h1
        simp only [Prod.mk.injEq] at h2
        obtain ⟨rfl, rfl⟩ := h2
        simp [Inl.toks]
      · simp at h1
  · obtain ⟨rfl, rfl⟩ := h; simp [Inl.toks, Link.toks, delim_toks_length]; omega
  · obtain ⟨rfl, rfl⟩ := h; simp [Inl.toks, delim_toks_length]
  · obtain ⟨rfl, rfl⟩ := h; simp [Inl.toks, delim_toks_length]

theorem inlineB_length {stops} {ts : List Token} {x r} (h : inlineB stops ts = some (x, r)) :
    r.length < ts.length := by
  have := inlineB_nonempty h
  rw [inlineB_toks h, List.length_append]; omega

/-- The inline content up to the next stop; `acc` is plain text read so far. -/
def paraB (stops : List Stop) (acc : List Token) (ts : List Token) : List Inl × List Token :=
  if stopAt stops ts then (if acc = [] then [] else [.text acc], ts)
  else
    match h : inlineB stops ts with
    | some (x, r) =>
      ((if acc = [] then [] else [.text acc]) ++ x :: (paraB stops [] r).1, (paraB stops [] r).2)
    | none =>
      match ts with
      | [] => (if acc = [] then [] else [.text acc], [])
      | t :: r => paraB stops (acc ++ [t]) r
termination_by ts.length
decreasing_by
  all_goals first
    | exact inlineB_length h
    | simp

/-- The items of a heading up to the next stop; `acc` is plain text read so far. -/
def headB (stops : List Stop) (acc : List Token) (ts : List Token) : List HeadItem × List Token :=
  if stopAt stops ts then (if acc = [] then [] else [.text acc], ts)
  else
    match h : linkB stops ts with
    | some (l, r) =>
      ((if acc = [] then [] else [.text acc]) ++ .anchor l :: (headB stops [] r).1, (headB stops [] r).2)
    | none =>
      match ts with
      | [] => (if acc = [] then [] else [.text acc], [])
      | t :: r => headB stops (acc ++ [t]) r
termination_by ts.length
decreasing_by
  all_goals first
    | exact linkB_length h
    | simp

theorem paraB_stop {stops acc ts} (h : stopAt stops ts = true) :
    paraB stops acc ts = (if acc = [] then [] else [.text acc], ts) := by
  rw [paraB.eq_def, if_pos h]

theorem paraB_some {stops acc ts x r} (h : stopAt stops ts = false) (hx : inlineB stops ts = some (x, r)) :
    paraB stops acc ts = ((if acc = [] then [] else [.text acc]) ++ x :: (paraB stops [] r).1,
      (paraB stops [] r).2) := by
  rw [paraB.eq_def, if_neg (by simp [h])]
  split
  · rename_i h1; rw [hx] at h1; simp only [Option.some.injEq, Prod.mk.injEq] at h1
    obtain ⟨rfl, rfl⟩ := h1; rfl
  · rename_i h1; rw [hx] at h1; simp at h1

theorem paraB_none {stops acc t r} (h : stopAt stops (t :: r) = false)
    (hx : inlineB stops (t :: r) = none) :
    paraB stops acc (t :: r) = paraB stops (acc ++ [t]) r := by
  rw [paraB.eq_def, if_neg (by simp [h])]
  split
  · rename_i h1; rw [hx] at h1; simp at h1
  · rfl

theorem headB_stop {stops acc ts} (h : stopAt stops ts = true) :
    headB stops acc ts = (if acc = [] then [] else [.text acc], ts) := by
  rw [headB.eq_def, if_pos h]

theorem headB_some {stops acc ts x r} (h : stopAt stops ts = false) (hx : linkB stops ts = some (x, r)) :
    headB stops acc ts = ((if acc = [] then [] else [.text acc]) ++ .anchor x :: (headB stops [] r).1,
      (headB stops [] r).2) := by
  rw [headB.eq_def, if_neg (by simp [h])]
  split
  · rename_i h1; rw [hx] at h1; simp only [Option.some.injEq, Prod.mk.injEq] at h1
    obtain ⟨rfl, rfl⟩ := h1; rfl
  · rename_i h1; rw [hx] at h1; simp at h1

theorem headB_none {stops acc t r} (h : stopAt stops (t :: r) = false)
    (hx : linkB stops (t :: r) = none) :
    headB stops acc (t :: r) = headB stops (acc ++ [t]) r := by
  rw [headB.eq_def, if_neg (by simp [h])]
  split
  · rename_i h1; rw [hx] at h1; simp at h1
  · rfl

theorem boldItemsB_stop {stops acc ts} (h : stopAt stops ts = true) :
    boldItemsB stops acc ts = none := by
  rw [boldItemsB.eq_def]
  split
  · rfl
  · rw [if_pos h]

theorem boldItemsB_close {stops acc t r} (h : stopAt stops (t :: r) = false) (hs : isStar2 t = true) :
    boldItemsB stops acc (t :: r) = some (if acc = [] then [] else [.text acc], t, r) := by
  rw [boldItemsB, if_neg (by simp [h]), if_pos hs]

theorem boldItemsB_some {stops acc t r d r'} (h : stopAt stops (t :: r) = false)
    (hs : isStar2 t = false) (hx : boldChildB stops (t :: r) = some (d, r')) :
    boldItemsB stops acc (t :: r) = (boldItemsB stops [] r').map
      (fun x => ((if acc = [] then [] else [.text acc]) ++ .delim d :: x.1, x.2)) := by
  rw [boldItemsB, if_neg (by simp [h]), if_neg (by simp [hs])]
  split
  · rename_i h1; rw [hx] at h1; simp only [Option.some.injEq, Prod.mk.injEq] at h1
    obtain ⟨rfl, rfl⟩ := h1; rfl
  · rename_i h1; rw [hx] at h1; simp at h1

theorem boldItemsB_none {stops acc t r} (h : stopAt stops (t :: r) = false)
    (hs : isStar2 t = false) (hx : boldChildB stops (t :: r) = none) :
    boldItemsB stops acc (t :: r) = boldItemsB stops (acc ++ [t]) r := by
  rw [boldItemsB, if_neg (by simp [h]), if_neg (by simp [hs])]
  split
  · rename_i h1; rw [hx] at h1; simp at h1
  · rfl

/-! ### Blocks -/

/-- The rest of an opening line. -/
def modifierB (stops : List Stop) (ts : List Token) : Option (Mod × List Token) :=
  if tokenIs ts 0 col0 then none
  else (untilB stops isEolOrTerminator ts).map (fun x => (⟨x.1, x.2.1⟩, x.2.2))

/-- `modifierB`, when it may be missing. -/
def optModB (stops : List Stop) (ts : List Token) : Option Mod × List Token :=
  match modifierB stops ts with
  | some (m, r) => (some m, r)
  | none => (none, ts)

/-- After a closing token: a line break (kept with it), or a block boundary. -/
def closeLineB (stops : List Stop) (c : Token) (r : List Token) : Option (List Token × List Token) :=
  match r with
  | [] => some ([c], [])
  | t :: r' =>
    if isEol t then some ([c, t], r')
    else if stopAt stops (t :: r') || t.kind = .Terminator then some ([c], t :: r')
    else none

/-- A fenced code block after its opening. -/
def codeRestB (stops : List Stop) (opening : List Token) (m : Option Mod) (r : List Token) :
    Option (Block × List Token) :=
  match untilB [] isBacktick3 r with
  | none => none
  | some (b, c, r) => (closeLineB stops c r).map (fun x => (.code opening m b x.1, x.2))

/-- A fenced code block. -/
def codeB (stops : List Stop) (ts : List Token) : Option (Block × List Token) :=
  match ts with
  | [] => none
  | t :: r =>
    if isBacktick3 t then
      if tokenIs r 0 isEol then codeRestB stops (t :: r.take 1) none (r.drop 1)
      else codeRestB stops [t] (optModB [] r).1 (optModB [] r).2
    else none

/-- `{{kind|args}}`. -/
def embedB (stops : List Stop) (ts : List Token) : Option (Block × List Token) :=
  match ts with
  | [] => none
  | t :: r =>
    if isLeftCurly2 t then
      match untilB stops isPipe r with
      | none => none
      | some (l, p, r) =>
        match untilB stops isRightCurly2 r with
        | none => none
        | some (a, c, r) => (closeLineB stops c r).map (fun x => (.embed t l p a x.1, x.2))
    else none

/-- One image line. -/
def imageB (stops : List Stop) (ts : List Token) : Option (Img × List Token) :=
  match ts with
  | [] => none
  | t :: r =>
    if isBang1 t then
      match linkB stops r with
      | none => none
      | some (l, r) =>
        if tokenIs r 0 isEol then some (⟨t, l, r.take 1⟩, r.drop 1)
        else if stopAt stops r then some (⟨t, l, []⟩, r)
        else none
    else none

theorem imageB_toks {stops} {ts : List Token} {x r} (h : imageB stops ts = some (x, r)) :
    ts = x.toks ++ r := by
  cases ts with
  | nil => simp [imageB] at h
  | cons t ts =>
    unfold imageB at h
    simp only at h
    split at h
    · split at h
      · simp at h
      · rename_i l r1 h1
        rw [linkB_toks h1]
        split at h
        · simp only [Option.some.injEq, Prod.mk.injEq] at h
          obtain ⟨rfl, rfl⟩ := h
          simp only [Img.toks, List.cons_append, List.append_assoc, List.take_append_drop]
        · split at h
          · simp only [Option.some.injEq, Prod.mk.injEq] at h
            obtain ⟨rfl, rfl⟩ := h
            simp [Img.toks]
          · simp at h
    · simp at h

theorem imageB_length {stops} {ts : List Token} {x r} (h : imageB stops ts = some (x, r)) :
    r.length < ts.length := by
  rw [imageB_toks h]; simp [Img.toks]; omega

/-- Image lines up to a stop; `none` when something else stands between. -/
def imagesB (stops : List Stop) (ts : List Token) : Option (List Img × List Token) :=
  match _h : imageB stops ts with
  | some (i, r) => (imagesB stops r).map (fun x => (i :: x.1, x.2))
  | none => if stopAt stops ts then some ([], ts) else none
termination_by ts.length
decreasing_by exact imageB_length _h

/-- The icon line. -/
def iconB (stops : List Stop) (ts : List Token) : Option (IconLine × List Token) :=
  if tokenIs ts 0 isOneBang && tokenIs ts 1 isSpace1 then
    (untilB stops isEol (ts.drop 2)).map (fun x => (⟨ts.take 2, x.1, x.2.1⟩, x.2.2))
  else none

/-- `iconB`, when it may be missing. -/
def optIconB (stops : List Stop) (ts : List Token) : Option IconLine × List Token :=
  match iconB stops ts with
  | some (m, r) => (some m, r)
  | none => (none, ts)

/-- A blank line, when there is one. -/
def termB (ts : List Token) : List Token × List Token :=
  if tokenIs ts 0 isTerminator then (ts.take 1, ts.drop 1) else ([], ts)

/-- The paragraphs of a highlight up to its closing `!!`. -/
def hlParasB (stops : List Stop) (ts : List Token) : Option (List HPara × List Token × List Token) :=
  if stopAt stops ts then none
  else if tokenIs ts 0 isTwoBangs then
    if tokenIs ts 1 isEol then some ([], ts.take 2, ts.drop 2) else some ([], ts.take 1, ts.drop 1)
  else
    let p := paraB (.Terminator :: .HighlightEnd :: stops) [] (termB ts).2
    if _h : p.2.length < ts.length then
      (hlParasB stops p.2).map (fun x => (⟨(termB ts).1, p.1⟩ :: x.1, x.2))
    else none
termination_by ts.length

/-- A highlight after its opening and title. -/
def hlRestB (stops : List Stop) (opening : List Token) (m : Option Mod) (r : List Token) :
    Option (Block × List Token) :=
  let i := optIconB (.Terminator :: stops) r
  if tokenIs i.2 0 col0 then
    (hlParasB stops i.2).map (fun x => (.highlight opening m i.1 x.1 x.2.1, x.2.2))
  else none

/-- A highlight. -/
def highlightB (stops : List Stop) (ts : List Token) : Option (Block × List Token) :=
  if tokenIs ts 0 isTwoBangs && tokenIs ts 1 (fun t => isSpace1 t || isEol t) then
    if tokenIs ts 1 isEol then hlRestB stops (ts.take 2) none (ts.drop 2)
    else hlRestB stops (ts.take 2) (optModB stops (ts.drop 2)).1 (optModB stops (ts.drop 2)).2
  else none

/-- The marker of a list item at the given level. -/
def markerB (level : Nat) (want : Option ListKind) (ts : List Token) :
    Option (ListKind × List Token × List Token) :=
  if tokenIs ts 0 col0 then
    if level = 0 then
      if tokenIs ts 0 (isListMarker want) && tokenIs ts 1 isSpace1 then
        (ts[0]?.bind ListKind.tryFrom).map (fun k => (k, ts.take 2, ts.drop 2))
      else none
    else
      if tokenIs ts 0 (fun t => t.kind = .Space && t.len = level) && tokenIs ts 1 (isListMarker want)
          && tokenIs ts 2 isSpace1 then
        (ts[1]?.bind ListKind.tryFrom).map (fun k => (k, ts.take 3, ts.drop 3))
      else none
  else none

theorem tokenIs_length {ts : List Token} {i : Nat} {f} (h : tokenIs ts i f = true) : i < ts.length := by
  unfold tokenIs at h
  split at h
  · rename_i t ht; exact (List.getElem?_eq_some_iff.1 ht).1
  · simp at h

theorem markerB_toks {level want} {ts : List Token} {k m r}
    (h : markerB level want ts = some (k, m, r)) : ts = m ++ r ∧ 2 ≤ m.length := by
  unfold markerB at h
  split at h
  · split at h
    · split at h
      · rename_i hh
        simp only [Option.map_eq_some_iff, Prod.mk.injEq] at h
        obtain ⟨k', _, rfl, rfl, rfl⟩ := h
        simp only [Bool.and_eq_true] at hh
        have := tokenIs_length hh.2
        refine ⟨by simp, by simp; omega⟩
      · simp at h
    · split at h
      · rename_i hh
        simp only [Option.map_eq_some_iff, Prod.mk.injEq] at h
        obtain ⟨k', _, rfl, rfl, rfl⟩ := h
        simp only [Bool.and_eq_true] at hh
        have := tokenIs_length hh.2
        refine ⟨by simp, by simp; omega⟩
      · simp at h
  · simp at h

theorem paraB_toks {stops} : ∀ (n : Nat) {ts acc}, ts.length ≤ n →
    acc ++ ts = paraToks (paraB stops acc ts).1 ++ (paraB stops acc ts).2 := by
  intro n
  have hacc : ∀ acc : List Token, (if acc = [] then [] else [Inl.text acc]).flatMap Inl.toks = acc := by
    intro acc; split <;> simp_all [Inl.toks]
  induction n with
  | zero =>
    intro ts acc hn
    have : ts = [] := by simpa using hn
    subst this; rw [paraB.eq_def]; simp [stopAt, paraToks, hacc]
  | succ n ih =>
    intro ts acc hn
    rw [paraB.eq_def]
    split
    · simp only [paraToks, hacc]
    · split
      · rename_i x r hx
        have hl := inlineB_length hx
        have := ih (ts := r) (acc := []) (by omega)
        simp only [paraToks, List.flatMap_append, List.flatMap_cons, hacc]
        rw [inlineB_toks hx]
        simp only [List.nil_append, paraToks] at this
        rw [List.append_assoc, List.append_assoc, ← this]
      · split
        · simp [paraToks, hacc]
        · rename_i t r _ _ _
          have := ih (ts := r) (acc := acc ++ [t]) (by simp at hn; omega)
          rw [← this]; simp

theorem paraB_length (stops) (ts : List Token) : (paraB stops [] ts).2.length ≤ ts.length := by
  have := paraB_toks (stops := stops) (acc := []) _ (Nat.le_refl ts.length)
  simp only [List.nil_append] at this
  conv => rhs; rw [this]
  simp

/-- As many items as possible at the given level. -/
def itemsB (stops : List Stop) (level : Nat) (want : Option ListKind) (ts : List Token) :
    Items × List Token :=
  match h : markerB level want ts with
  | none => (.nil, ts)
  | some (k, m, r) =>
    let p := paraB (.ListBoundary level k :: stops) [] r
    have : p.2.length < ts.length := by
      have h1 := markerB_toks h
      have h2 := paraB_length (.ListBoundary level k :: stops) r
      have h3 : ts.length = m.length + r.length := by rw [h1.1]; simp
      simp only [p]; omega
    let n := if stopAt stops p.2 then (.nil, p.2) else itemsB stops (level + 1) none p.2
    if _h : n.2.length < ts.length then
      let i := itemsB stops level (some k) n.2
      (.cons k m p.1 n.1 i.1, i.2)
    else (.cons k m p.1 n.1 .nil, n.2)
termination_by ts.length

/-- A heading. -/
def headingB (stops : List Stop) (ts : List Token) : Option (Block × List Token) :=
  if tokenIs ts 0 isHash && tokenIs ts 1 isSpace1 then
    some (.heading (ts.take 2) (headB stops [] (ts.drop 2)).1, (headB stops [] (ts.drop 2)).2)
  else none

/-- A thematic break. -/
def thematicB : List Token → Option (Block × List Token)
  | [] => none
  | t :: r => if isDash5 t then some (.thematic t, r) else none

/-- The blocks that end at a blank line. -/
def leafB (stops : List Stop) (ts : List Token) : Block × List Token :=
  match itemsB stops 0 none ts with
  | (.cons k m p n r, rest) => (.list (.cons k m p n r), rest)
  | (.nil, _) =>
    match imagesB stops ts with
    | some (i :: l, r) => (.images (i :: l), r)
    | _ =>
      match thematicB ts with
      | some x => x
      | none =>
        match headingB stops ts with
        | some x => x
        | none => (.para (paraB stops [] ts).1, (paraB stops [] ts).2)

/-- A block that is not a collapsible. -/
def otherB (stops : List Stop) (ts : List Token) : Block × List Token :=
  match embedB stops ts with
  | some x => x
  | none =>
    match highlightB stops ts with
    | some x => x
    | none => leafB (.Terminator :: stops) ts

/-- The opening line of a collapsible. -/
def collOpenB (stops : List Stop) (ts : List Token) : Option (List Token × Option Mod × List Token) :=
  if tokenIs ts 0 isCollapsibleStart && tokenIs ts 1 isSpaceOrEol then
    if tokenIs (optModB stops (ts.drop 2)).2 0 col0 then
      some (ts.take 2, (optModB stops (ts.drop 2)).1, (optModB stops (ts.drop 2)).2)
    else none
  else none

/-- A token sequence that looked like a collapsible and is not: its `{%` becomes literal. -/
def flipHead : List Token → List Token
  | [] => []
  | t :: r => { t with kind := .Literal } :: r

/-- `{%` becomes literal when it was tried as the opening of a collapsible. -/
def flipOpen (ts : List Token) : List Token :=
  if tokenIs ts 0 isCollapsibleStart && tokenIs ts 1 isSpaceOrEol then flipHead ts else ts

/-- The line break before the closing `%}`. -/
def skipEolB (ts : List Token) : List Token × List Token :=
  if tokenIs ts 0 isEol then (ts.take 1, ts.drop 1) else ([], ts)

/-- The closing line of a collapsible. -/
def collCloseB (ts : List Token) : Option (List Token × List Token) :=
  if tokenIs ts 0 isCollapsibleEnd then
    if tokenIs ts 1 isEol then some (ts.take 2, ts.drop 2) else some (ts.take 1, ts.drop 1)
  else none

/-- A document: everything up to the next stop. The rest is returned; an unfinished collapsible
inside may have turned some of its `{%` into literals. -/
def docB (stops : List Stop) (ts : List Token) : Doc × List Token :=
  if stopAt stops ts then (.nil, ts)
  else
    match ts with
    | [] => (.nil, [])
    | t :: r =>
      if isTerminator t then
        let d := docB stops r
        (.term t d.1, d.2)
      else
        match codeB stops (t :: r) with
        | some (b, rest) =>
          if _h : rest.length < (t :: r).length then
            let d := docB stops rest
            (.block b d.1, d.2)
          else (.nil, t :: r)
        | none =>
          match collOpenB stops (t :: r) with
          | some (o, m, r1) =>
            if _h1 : r1.length < (t :: r).length then
              let i := docB (.CollapsibleEnd :: stops) r1
              match collCloseB (skipEolB i.2).2 with
              | some (c, r4) =>
                if _h : r4.length < (t :: r).length then
                  let d := docB stops r4
                  (.coll o m i.1 (skipEolB i.2).1 c d.1, d.2)
                else (.nil, t :: r)
              | none =>
                let x := otherB stops (flipHead (o ++ (modToks m ++ (i.1.toks ++ i.2))))
                if _h : x.2.length < (t :: r).length then
                  let d := docB stops x.2
                  (.block x.1 d.1, d.2)
                else (.nil, t :: r)
            else (.nil, t :: r)
          | none =>
            let x := otherB stops
              (flipOpen (t :: r))
            if _h : x.2.length < (t :: r).length then
              let d := docB stops x.2
              (.block x.1 d.1, d.2)
            else (.nil, t :: r)
termination_by ts.length

/-- Front matter and document. -/
def topB (ts : List Token) : Top :=
  match delimB isThreeDashes isThreeDashes .Metadata [] ts with
  | some (d, r) => ⟨some d, (docB [] r).1⟩
  | none => ⟨none, (docB [] ts).1⟩

end Yamd.Ref
