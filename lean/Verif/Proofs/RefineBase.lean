import Verif.Ref.Parser

/-!
# The modelled parser refines the reference parser: primitives and inline constructs
-/

namespace Yamd.Ref

open Yamd

/-- A parser state: `pre` has been read, `ts` is still to be read. -/
def st (src : Str) (pre ts : List Token) (eof : List Stop) (ops : List Op) : P :=
  ⟨src, pre ++ ts, pre.length, eof, ops⟩

/-- The ranges of the tokens are valid in the source. -/
def Good (src : Str) (ts : List Token) : Prop := ∀ t ∈ ts, ∃ s, slice src t.start t.stop = some s

theorem Good.append_left {src a b} (h : Good src (a ++ b)) : Good src a :=
  fun t ht => h t (List.mem_append_left _ ht)
theorem Good.append_right {src a b} (h : Good src (a ++ b)) : Good src b :=
  fun t ht => h t (List.mem_append_right _ ht)
theorem Good.append {src a b} (h : Good src a) (h' : Good src b) : Good src (a ++ b) := by
  intro t ht
  rcases List.mem_append.1 ht with h1 | h1
  · exact h t h1
  · exact h' t h1
theorem Good.tail {src t r} (h : Good src (t :: r)) : Good src r :=
  fun u hu => h u (List.mem_cons_of_mem _ hu)
theorem Good.single {src t r} (h : Good src (t :: r)) : Good src [t] := by
  intro u hu
  simp only [List.mem_singleton] at hu
  subst hu
  exact h u (by simp)
theorem Good.nil {src} : Good src [] := by intro t ht; simp at ht
theorem Good.drop {src ts} (n : Nat) (h : Good src ts) : Good src (ts.drop n) :=
  fun t ht => h t (List.mem_of_mem_drop ht)
theorem Good.take {src ts} (n : Nat) (h : Good src ts) : Good src (ts.take n) :=
  fun t ht => h t (List.mem_of_mem_take ht)

variable {src : Str} {pre ts r : List Token} {eof : List Stop} {ops : List Op} {t : Token}

@[simp] theorem st_pos : (st src pre ts eof ops).pos = pre.length := rfl
@[simp] theorem st_ops : (st src pre ts eof ops).ops = ops := rfl
@[simp] theorem st_source : (st src pre ts eof ops).source = src := rfl
@[simp] theorem st_tokens : (st src pre ts eof ops).tokens = pre ++ ts := rfl
@[simp] theorem st_eofs : (st src pre ts eof ops).eof = eof := rfl

theorem st_move (a : List Token) : st src pre (a ++ r) eof ops
    = { st src (pre ++ a) r eof ops with pos := pre.length } := by
  simp [st]

theorem st_get (i : Nat) : (st src pre ts eof ops).tokens[pre.length + i]? = ts[i]? := by
  simp only [st]
  rw [List.getElem?_append_right (by omega)]
  congr 1; omega

theorem st_get0 : (st src pre ts eof ops).tokens[(st src pre ts eof ops).pos]? = ts[0]? := st_get 0

theorem st_peek : (st src pre ts eof ops).peek = ts[0]? := st_get0

theorem st_tokenIs (i : Nat) (f) :
    tokenIs (st src pre ts eof ops).tokens (pre.length + i) f = tokenIs ts i f := by
  unfold tokenIs
  rw [st_get]

theorem st_tokenIs0 (f) :
    tokenIs (st src pre ts eof ops).tokens pre.length f = tokenIs ts 0 f := st_tokenIs 0 f

theorem st_atTok (f) : (st src pre ts eof ops).atTok f = tokenIs ts 0 f := by
  unfold P.atTok tokenIs
  rw [st_peek]

theorem st_boundary (cl k l) :
    boundaryAt (st src pre ts eof ops) cl k l = boundaryHere ts cl k l := by
  have e : (st src pre ts eof ops).pos = pre.length := rfl
  simp only [boundaryAt, boundaryHere, e, st_tokenIs, st_tokenIs0]

theorem st_matches (s : Stop) : s.matches t (st src pre (t :: r) eof ops) = stopHere t r s := by
  have e : (st src pre (t :: r) eof ops).pos = pre.length := rfl
  cases s with
  | Terminator => rfl
  | HighlightEnd => rfl
  | CollapsibleEnd =>
    simp only [Stop.matches, stopHere, e, st_tokenIs]
    rfl
  | ListBoundary l k =>
    simp only [Stop.matches, stopHere, atListBoundary]
    congr 1
    congr 1
    funext i
    exact st_boundary _ _ _

theorem st_atEof : (st src pre ts eof ops).atEof = stopAt eof ts := by
  unfold P.atEof
  rw [st_peek]
  cases ts with
  | nil => rfl
  | cons t r =>
    simp only [List.getElem?_cons_zero, stopAt]
    congr 1
    funext c
    exact st_matches c

theorem st_atBlockBoundary : (st src pre ts eof ops).atBlockBoundary
    = (stopAt eof ts || tokenIs ts 0 (fun t => t.kind = .Terminator)) := by
  unfold P.atBlockBoundary
  rw [st_atEof, st_atTok]

theorem st_eat_nil (f) : (st src pre [] eof ops).eat f = (none, st src pre [] eof ops) := by
  unfold P.eat
  rw [st_get0]
  rfl

theorem st_eat_no (f) (h : f t = false) :
    (st src pre (t :: r) eof ops).eat f = (none, st src pre (t :: r) eof ops) := by
  unfold P.eat
  rw [st_get0]
  simp [h]

theorem st_eat_yes (f) (h : f t = true) :
    (st src pre (t :: r) eof ops).eat f
      = (some (pre.length, pre.length + 1), st src (pre ++ [t]) r eof ops) := by
  unfold P.eat
  rw [st_get0]
  simp only [List.getElem?_cons_zero, h]
  simp [st]

theorem st_eat_none (f) (h : tokenIs ts 0 f = false) :
    (st src pre ts eof ops).eat f = (none, st src pre ts eof ops) := by
  cases ts with
  | nil => exact st_eat_nil f
  | cons t r => exact st_eat_no f (by simpa [tokenIs] using h)

theorem tokenIs_cons {f i} (h : tokenIs ts i f = true) :
    ∃ t, ts[i]? = some t ∧ f t = true := by
  unfold tokenIs at h
  split at h
  · rename_i t ht; exact ⟨t, ht, h⟩
  · simp at h

theorem st_next (h : ts ≠ []) : ∃ t r, ts = t :: r ∧
    (st src pre ts eof ops).next = st src (pre ++ [t]) r eof ops := by
  cases ts with
  | nil => exact absurd rfl h
  | cons t r =>
    refine ⟨t, r, rfl, ?_⟩
    simp [P.next, st]

theorem st_next_cons :
    (st src pre (t :: r) eof ops).next = st src (pre ++ [t]) r eof ops := by
  simp [P.next, st]

theorem st_push (op : Op) : (st src pre ts eof ops).push op = st src pre ts eof (ops ++ [op]) := rfl

theorem st_restore {src pre ts eof ops} {q : P} {o : List Op} (hs : q.source = src)
    (ht : q.tokens = pre ++ ts) (he : q.eof = eof) (ho : q.ops = ops ++ o) :
    q.restore pre.length ops.length = st src pre ts eof ops := by
  cases q
  simp only at hs ht he ho
  subst hs ht he ho
  simp [P.restore, st]

theorem restore_st (a : List Token) {o : List Op} :
    (st src (pre ++ a) r eof (ops ++ o)).restore pre.length ops.length
      = st src pre (a ++ r) eof ops :=
  st_restore rfl (by simp [st]) rfl rfl

theorem st_insert (n : List Op) (op : Op) :
    (st src pre ts eof (ops ++ n)).insertOp ops.length op
      = .ok (st src pre ts eof (ops ++ op :: n)) := by
  simp [P.insertOp, st]

/-! ### spans -/

theorem concatSlices_good : ∀ {ts}, Good src ts →
    Content.concatSlices src ts = .ok (textOfToks src ts)
  | [], _ => rfl
  | t :: r, h => by
    obtain ⟨s, hs⟩ := h t (by simp)
    rw [Content.concatSlices, concatSlices_good h.tail, sliceR, hs]
    simp [textOfToks, sliceD, hs]
    rfl

theorem fromTokens_good (h : Good src ts) (he : ts.any (·.escaped) = true) :
    Content.fromTokens ts src = .ok (content src ts) := by
  cases ts with
  | nil => rfl
  | cons t r =>
    unfold Content.fromTokens content
    simp only [he, Bool.true_and]
    cases hc : Content.contiguous (t :: r)
    · simp only [Bool.false_eq_true, ↓reduceIte, Bool.not_false]
      rw [concatSlices_good h]; rfl
    · simp

theorem span_eq {q : P} {a b c : List Token} {x y : Nat} (hs : q.source = src)
    (ht : q.tokens = a ++ (b ++ c)) (hx : x = a.length) (hy : y = a.length + b.length)
    (h : Good src b) : q.span x y = .ok (content src b) := by
  subst hx hy
  unfold P.span
  cases b with
  | nil => simp [content]
  | cons t r =>
    have hn : ¬ (a.length + (t :: r).length ≤ a.length) := by simp
    simp only [hn, if_false]
    have hts : q.tokenSlice a.length (a.length + (t :: r).length) = .ok (t :: r) := by
      unfold P.tokenSlice
      rw [if_pos (by rw [ht]; simp)]
      rw [ht]
      simp
    rw [hts]
    simp only [bind, Except.bind]
    split
    · rename_i he
      rw [hs]
      exact fromTokens_good h he
    · rename_i he
      simp [content, he]
      rfl

theorem st_spanAt {a b c : List Token} {x y : Nat} (h : pre ++ ts = a ++ (b ++ c))
    (hx : x = a.length) (hy : y = a.length + b.length) (hg : Good src b) :
    (st src pre ts eof ops).span x y = .ok (content src b) :=
  span_eq (src := src) (a := a) (b := b) (c := c) rfl h hx hy hg

/-- Span of what lies directly before the position. -/
theorem st_span (b : List Token) {x y : Nat} (hx : x = pre.length)
    (hy : y = pre.length + b.length) (h : Good src b) :
    (st src (pre ++ b) r eof ops).span x y = .ok (content src b) :=
  span_eq (a := pre) (c := r) rfl (by simp [st]) hx hy h

/-! ### eat_until -/

theorem eatUntilLoop_eq {m} : ∀ {ts pre n}, ts.length < n →
    P.eatUntilLoop m n (st src pre ts eof ops)
      = .ok ((untilB eof m ts).map (fun x => st src (pre ++ x.1) (x.2.1 :: x.2.2) eof ops)) := by
  intro ts
  induction ts with
  | nil =>
    intro pre n hn
    cases n with
    | zero => omega
    | succ n => rw [P.eatUntilLoop, st_get0]; rfl
  | cons t r ih =>
    intro pre n hn
    cases n with
    | zero => omega
    | succ n =>
      rw [P.eatUntilLoop, st_get0, untilB, st_atEof]
      simp only [List.getElem?_cons_zero]
      split
      · rfl
      · split
        · simp
        · have e : ({ st src pre (t :: r) eof ops with pos := (st src pre (t :: r) eof ops).pos + 1 } : P)
              = st src (pre ++ [t]) r eof ops := by simp [st]
          rw [e, ih (by simp at hn; omega)]
          cases untilB eof m r with
          | none => rfl
          | some x => simp

theorem eatUntil_eq {m} : (st src pre ts eof ops).eatUntil m =
    match untilB eof m ts with
    | none => .ok (none, st src pre ts eof ops)
    | some (b, c, r) => .ok (some (pre.length, pre.length + b.length, pre.length + b.length + 1),
        st src (pre ++ (b ++ [c])) r eof ops) := by
  unfold P.eatUntil
  rw [eatUntilLoop_eq (by simp [st]; omega)]
  cases h : untilB eof m ts with
  | none => rfl
  | some x =>
    obtain ⟨b, c, r⟩ := x
    simp only [Option.map_some, bind, Except.bind, pure, Except.pure]
    simp [st]; omega

/-! ### refinement of a parsing function -/

/-- `f` does what `g` says: nothing, or read the tokens of a tree and emit its ops. -/
def Refines {α : Type} (src : Str) (f : P → R (Bool × P))
    (g : List Stop → List Token → Option (α × List Token)) (toks : α → List Token)
    (ops : α → List Op) : Prop :=
  ∀ pre ts eof o, Good src ts → f (st src pre ts eof o) =
    match g eof ts with
    | none => .ok (false, st src pre ts eof o)
    | some (x, r) => .ok (true, st src (pre ++ toks x) r eof (o ++ ops x))

theorem refines_orElse {α : Type} {f1 f2} {g1 g2 g : List Stop → List Token → Option (α × List Token)}
    {toks ops} (h1 : Refines src f1 g1 toks ops) (h2 : Refines src f2 g2 toks ops)
    (hg : ∀ s t, g s t = match g1 s t with | some x => some x | none => g2 s t) :
    Refines src (orElse f1 f2) g toks ops := by
  intro pre ts eof o hgood
  unfold orElse
  rw [h1 pre ts eof o hgood, hg]
  cases g1 eof ts with
  | none => exact h2 pre ts eof o hgood
  | some x => rfl

theorem refines_map {α β : Type} {f} {g : List Stop → List Token → Option (α × List Token)}
    {toks : α → List Token} {ops : α → List Op} {toks' : β → List Token} {ops' : β → List Op}
    (h : Refines src f g toks ops) (φ : α → β) (ht : ∀ x, toks' (φ x) = toks x)
    (ho : ∀ x, ops' (φ x) = ops x) :
    Refines src f (fun s t => (g s t).map (fun x => (φ x.1, x.2))) toks' ops' := by
  intro pre ts eof o hgood
  rw [h pre ts eof o hgood]
  simp only
  cases g eof ts with
  | none => rfl
  | some x => simp [ht, ho]

theorem delimited_refines (opening closing n) :
    Refines src (delimited opening closing n) (delimB opening closing n) Delim.toks (Delim.ops src) := by
  intro pre ts eof o hgood
  unfold delimited
  cases ts with
  | nil => rw [st_eat_nil, delimB]; rfl
  | cons t r =>
    rw [delimB]
    cases ho : opening t with
    | false => rw [st_eat_no _ ho]; rfl
    | true =>
      rw [st_eat_yes _ ho]
      simp only [eatUntil_eq, if_true]
      cases hu : untilB eof closing r with
      | none => simp [bind, Except.bind, pure, Except.pure, st]
      | some x =>
        obtain ⟨b, c, r'⟩ := x
        have hg : Good src (b ++ c :: r') := by rw [← untilB_length hu]; exact hgood.tail
        simp only [bind, Except.bind, pure, Except.pure, pushTriple, Option.map_some]
        rw [span_eq (a := pre) (b := [t]) (c := b ++ c :: r') rfl (by simp [st]) rfl (by simp) hgood.single]
        rw [span_eq (a := pre ++ [t]) (b := b) (c := c :: r') rfl (by simp [st]) rfl (by simp)
          hg.append_left]
        rw [span_eq (a := pre ++ [t] ++ b) (b := [c]) (c := r') rfl (by simp [st]) (by simp; omega) (by simp; omega)
          hg.append_right.single]
        simp [st, P.push, Delim.toks, Delim.ops]

theorem strike_refines : Refines src strikethrough strikeB Delim.toks (Delim.ops src) :=
  delimited_refines _ _ _
theorem italic_refines : Refines src italic italicB Delim.toks (Delim.ops src) :=
  delimited_refines _ _ _
theorem emphasis_refines : Refines src emphasis emphasisB Delim.toks (Delim.ops src) :=
  delimited_refines _ _ _
theorem codeSpan_refines : Refines src codeSpan codeSpanB Delim.toks (Delim.ops src) :=
  delimited_refines _ _ _
theorem title_refines : Refines src title titleB Delim.toks (Delim.ops src) :=
  delimited_refines _ _ _

theorem destLoop_eq : ∀ {ts pre n} {depth : Nat} {e}, ts.length < n → 1 ≤ depth →
    destLoop n (st src pre ts eof ops) (depth : Int) e
      = .ok (match destScan eof depth ts with
        | none => e
        | some (b, _, _) => pre.length + b.length) := by
  intro ts
  induction ts with
  | nil =>
    intro pre n depth e hn hd
    cases n with
    | zero => omega
    | succ n => rw [destLoop, st_peek]; simp [destScan]
  | cons t r ih =>
    intro pre n depth e hn hd
    cases n with
    | zero => omega
    | succ n =>
      have e1 : ({ st src pre (t :: r) eof ops with pos := (st src pre (t :: r) eof ops).pos + 1 } : P)
              = st src (pre ++ [t]) r eof ops := by simp [st]
      rw [destLoop, st_peek, destScan, st_atEof]
      simp only [List.getElem?_cons_zero, e1]
      split
      · rfl
      · split
        · have := ih (pre := pre ++ [t]) (n := n) (depth := depth + 1) (e := e) (by simp at hn; omega) (by omega)
          simp only [Int.natCast_add, Int.cast_ofNat_Int] at this
          rw [this]
          cases destScan eof (depth + 1) r with
          | none => rfl
          | some x => simp; omega
        · split
          · by_cases h1 : depth = 1
            · subst h1
              simp [st]
            · have c1 : ¬ ((depth : Int) - 1 = 0) := by omega
              have c2 : ¬ (depth - 1 = 0) := by omega
              have c3 : ((depth : Int) - 1) = ((depth - 1 : Nat) : Int) := by omega
              rw [if_neg c1, if_neg c2, c3, ih (by simp at hn; omega) (by omega)]
              cases destScan eof (depth - 1) r with
              | none => simp [st]
              | some x => simp; omega
          · rw [ih (by simp at hn; omega) hd]
            cases destScan eof depth r with
            | none => rfl
            | some x => simp; omega

theorem destination_refines : Refines src destination destB Delim.toks (Delim.ops src) := by
  intro pre ts eof o hgood
  unfold destination
  cases ts with
  | nil => rw [st_eat_nil, destB]; rfl
  | cons t r =>
    rw [destB]
    cases ho : isLeftParen t with
    | false => rw [st_eat_no _ ho]; rfl
    | true =>
      rw [st_eat_yes _ ho]
      have := destLoop_eq (src := src) (eof := eof) (ops := o) (ts := r) (pre := pre ++ [t])
        (n := (pre ++ [t] ++ r).length + 1) (depth := 1) (e := pre.length) (by simp; omega) (Nat.le_refl 1)
      simp only [Int.cast_ofNat_Int] at this
      simp only [if_true]
      have e0 : (st src (pre ++ [t]) r eof o).tokens.length = (pre ++ [t] ++ r).length := rfl
      rw [e0, show (st src pre (t :: r) eof o).pos = pre.length from rfl, this]
      cases hd : destScan eof 1 r with
      | none =>
        simp [bind, Except.bind, pure, Except.pure, st]
      | some x =>
        obtain ⟨b, c, r'⟩ := x
        have hts := destScan_toks hd
        have hg : Good src (b ++ c :: r') := by rw [← hts]; exact hgood.tail
        simp only [bind, Except.bind, pure, Except.pure, Option.map_some]
        rw [if_neg (by simp [st]; omega)]
        rw [span_eq (a := pre) (b := [t]) (c := b ++ c :: r') rfl (by simp [st, hts]) rfl (by simp) hgood.single]
        rw [span_eq (a := pre ++ [t]) (b := b) (c := c :: r') rfl (by simp [st, hts]) (by simp [st]) (by simp)
          hg.append_left]
        rw [span_eq (a := pre ++ [t] ++ b) (b := [c]) (c := r') rfl (by simp [st, hts]) (by simp; omega) (by simp; omega)
          hg.append_right.single]
        simp [st, P.push, Delim.toks, Delim.ops, hts]
        omega

theorem anchor_refines : Refines src anchor linkB Link.toks (anchorOps src) := by
  intro pre ts eof o hgood
  unfold anchor
  simp only [st_push]
  rw [title_refines _ _ _ _ hgood, linkB]
  cases ht : titleB eof ts with
  | none =>
    simp only [bind, Except.bind, pure, Except.pure]
    rw [show (st src pre ts eof o).pos = pre.length from rfl,
      show (st src pre ts eof o).ops = o from rfl]
    have := restore_st (src := src) (pre := pre) (r := ts) (eof := eof) (ops := o) [] (o := [.start .Anchor emptyContent])
    simp only [List.append_nil, List.nil_append] at this
    rw [this]
  | some x =>
    obtain ⟨d, r⟩ := x
    have hts := delimB_toks ht
    have hg : Good src (d.toks ++ r) := by rw [← hts]; exact hgood
    simp only [bind, Except.bind]
    rw [destination_refines _ _ _ _ hg.append_right]
    cases hd : destB eof r with
    | none =>
      simp only [pure, Except.pure]
      rw [show (st src pre ts eof o).pos = pre.length from rfl,
        show (st src pre ts eof o).ops = o from rfl, List.append_assoc]
      rw [restore_st, ← hts]
    | some y =>
      obtain ⟨d', r'⟩ := y
      simp [pure, Except.pure, st_push, Link.toks, Link.ops, anchorOps]

end Yamd.Ref
