import Verif.Proofs.Extent

/-!
# Running text is read from its own tokens only

The tokens `ts` of a text, in front of a stop `E`, give what `ts` alone gives without any stop.
-/

namespace Yamd.Ref

open Yamd Yamd.Spec

def putBack {α : Type} (E : List Token) (x : α × List Token) : α × List Token := (x.1, x.2 ++ E)

def putBackS (E : List Token) (x : List Token × Token × List Token) : List Token × Token × List Token :=
  (x.1, x.2.1, x.2.2 ++ E)

theorem stopAt_none (ts : List Token) : stopAt [] ts = ts.isEmpty := by cases ts <;> rfl

/-- A parenthesis is no stop. -/
theorem stop_noParen {S : List Stop} {t : Token} {r} (h : stopAt S (t :: r) = true) : isLeftParen t = false := by
  cases hp : isLeftParen t with
  | false => rfl
  | true =>
    have hk : t.kind = .LeftParenthesis := by
      simp only [isLeftParen, Bool.and_eq_true, decide_eq_true_eq] at hp; exact hp.1
    simp only [stopAt, List.any_eq_true] at h
    obtain ⟨s, -, h⟩ := h
    cases s with
    | Terminator => simp [stopHere, hk] at h
    | CollapsibleEnd => simp [stopHere, hk] at h
    | HighlightEnd => simp [stopHere, hk] at h
    | ListBoundary l k =>
      obtain ⟨n, other, -, -, h | h⟩ := list_stop.1 h
      · obtain ⟨-, b, s, r', e, -, hb, -⟩ := h
        cases e
        rcases hb with ⟨-, hb⟩ | ⟨-, hb⟩ <;> (have := hb.1; rw [hk] at this; cases this)
      · obtain ⟨-, i, b, s, r', e, -, hb, -⟩ := h
        cases e
        have := hb.1; rw [hk] at this; cases this

theorem untilB_halt {S : List Stop} {m ts} (h : stopAt S ts = true) : untilB S m ts = none := by
  cases ts with
  | nil => rfl
  | cons t r => rw [untilB, if_pos h]

theorem untilB_go {S : List Stop} {m t r} (h : stopAt S (t :: r) = false) : untilB S m (t :: r) =
    if m t then some ([], t, r) else (untilB S m r).map (fun x => (t :: x.1, x.2)) := by
  rw [untilB, if_neg (by rw [h]; simp)]

theorem destScan_halt {S : List Stop} {d ts} (h : stopAt S ts = true) : destScan S d ts = none := by
  cases ts with
  | nil => rfl
  | cons t r => rw [destScan, if_pos h]

theorem destScan_go {S : List Stop} {d t r} (h : stopAt S (t :: r) = false) : destScan S d (t :: r) =
    if t.kind = .LeftParenthesis then
      (destScan S (d + 1) r).map (fun x => (t :: x.1, x.2))
    else if t.kind = .RightParenthesis then
      if d - 1 = 0 then some ([], t, r)
      else
        match destScan S (d - 1) r with
        | some x => some (t :: x.1, x.2)
        | none => some ([], t, r)
    else (destScan S d r).map (fun x => (t :: x.1, x.2)) := by
  rw [destScan, if_neg (by rw [h]; simp)]; rfl

section
variable {S : List Stop} {E : List Token} (hE : stopAt S E = true)
include hE

theorem untilB_own (m : Token → Bool) (ts : List Token) (hu : Unstopped S ts E) :
    untilB S m (ts ++ E) = (untilB [] m ts).map (putBackS E) := by
  induction ts with
  | nil => rw [List.nil_append, untilB_halt hE]; rfl
  | cons t r ih =>
    rw [List.cons_append, untilB_go hu.1, untilB_go (by rfl), ih hu.2]
    split
    · rfl
    · cases untilB [] m r <;> rfl

theorem destScan_own (ts : List Token) (hu : Unstopped S ts E) : ∀ d,
    destScan S d (ts ++ E) = (destScan [] d ts).map (putBackS E) := by
  induction ts with
  | nil => intro d; rw [List.nil_append, destScan_halt hE]; rfl
  | cons t r ih =>
    intro d
    have ih := ih hu.2
    rw [List.cons_append, destScan_go hu.1, destScan_go (by rfl), ih, ih, ih]
    split
    · cases destScan [] (d + 1) r <;> rfl
    · split
      · split
        · rfl
        · cases destScan [] (d - 1) r <;> rfl
      · cases destScan [] d r <;> rfl

theorem delimB_own (o c : Token → Bool) (n : Node) (t : Token) (r : List Token) (hu : Unstopped S r E) :
    delimB o c n S (t :: r ++ E) = (delimB o c n [] (t :: r)).map (putBack E) := by
  rw [List.cons_append, delimB, delimB, untilB_own hE c r hu]
  split
  · cases untilB [] c r <;> rfl
  · rfl

theorem destB_own (ts : List Token) (hu : Unstopped S ts E) :
    destB S (ts ++ E) = (destB [] ts).map (putBack E) := by
  cases ts with
  | nil =>
    rw [List.nil_append]
    cases E with
    | nil => rfl
    | cons e E =>
      have : destB S (e :: E) = none := by rw [destB, if_neg (by rw [stop_noParen hE]; simp)]
      rw [this]; rfl
  | cons t r =>
    rw [List.cons_append, destB, destB, destScan_own hE r hu.2]
    split
    · cases destScan [] 1 r <;> rfl
    · rfl

theorem linkB_own (t : Token) (r : List Token) (hu : Unstopped S (t :: r) E) :
    linkB S (t :: r ++ E) = (linkB [] (t :: r)).map (putBack E) := by
  unfold linkB titleB
  rw [delimB_own hE _ _ _ _ _ hu.2]
  cases h : delimB isLeftBracket isRightBracket .Title [] (t :: r) with
  | none => rfl
  | some x =>
    obtain ⟨d, r'⟩ := x
    have e := delimB_toks h
    rw [e] at hu
    simp only [Option.map_some, putBack]
    rw [destB_own hE r' hu.right]
    cases destB [] r' <;> rfl

theorem boldChildB_own (t : Token) (r : List Token) (hu : Unstopped S r E) :
    boldChildB S (t :: r ++ E) = (boldChildB [] (t :: r)).map (putBack E) := by
  unfold boldChildB strikeB italicB
  rw [delimB_own hE _ _ _ _ _ hu, delimB_own hE _ _ _ _ _ hu]
  cases delimB isTilde2 isTilde2 .Strikethrough [] (t :: r) <;> rfl

theorem boldItemsB_own (acc ts : List Token) : Unstopped S ts E →
    boldItemsB S acc (ts ++ E) = (boldItemsB [] acc ts).map (fun x => (x.1, x.2.1, x.2.2 ++ E)) := by
  induction acc, ts using boldItemsB_ind [] with
  | stop acc ts hs =>
    intro _
    have : ts = [] := by rw [stopAt_none] at hs; simpa using hs
    subst this
    rw [boldItemsB_stop hs, boldItemsB_stop (by rw [List.nil_append]; exact hE)]; rfl
  | close acc t r hs h2 =>
    intro hu
    rw [boldItemsB_close hs h2, List.cons_append, boldItemsB_close hu.1 h2]; rfl
  | some acc t r d r' hs h2 hx ih =>
    intro hu
    have hx' := boldChildB_own hE t r hu.2
    rw [hx] at hx'
    have hu' : Unstopped S r' E := by
      have h := hu
      rw [boldChildB_toks hx] at h
      exact h.right
    rw [boldItemsB_some hs h2 hx, List.cons_append, boldItemsB_some hu.1 h2 hx']
    simp only
    rw [ih hu']
    cases boldItemsB [] [] r' <;> rfl
  | none acc t r hs h2 hx ih =>
    intro hu
    have hx' := boldChildB_own hE t r hu.2
    rw [hx] at hx'
    rw [boldItemsB_none hs h2 hx, List.cons_append, boldItemsB_none hu.1 h2 hx', ih hu.2]

theorem boldB_own (t : Token) (r : List Token) (hu : Unstopped S r E) :
    boldB S (t :: r ++ E) = (boldB [] (t :: r)).map (putBack E) := by
  rw [List.cons_append, boldB, boldB, boldItemsB_own hE _ _ hu]
  split
  · cases boldItemsB [] [] r <;> rfl
  · rfl

theorem inlineB_own (t : Token) (r : List Token) (hu : Unstopped S (t :: r) E) :
    inlineB S (t :: r ++ E) = (inlineB [] (t :: r)).map (putBack E) := by
  unfold inlineB strikeB italicB codeSpanB emphasisB
  rw [delimB_own hE _ _ _ _ _ hu.2, delimB_own hE _ _ _ _ _ hu.2, boldB_own hE _ _ hu.2, linkB_own hE _ _ hu,
    delimB_own hE _ _ _ _ _ hu.2, delimB_own hE _ _ _ _ _ hu.2]
  cases delimB isTilde2 isTilde2 .Strikethrough [] (t :: r) with
  | some => rfl
  | none =>
  cases delimB isUnderscore isUnderscore .Italic [] (t :: r) with
  | some => rfl
  | none =>
  cases boldB [] (t :: r) with
  | some => rfl
  | none =>
  cases linkB [] (t :: r) with
  | some => rfl
  | none =>
  cases delimB isBacktick1 isBacktick1 .CodeSpan [] (t :: r) with
  | some => rfl
  | none =>
  cases delimB isStar1 isStar1 .Emphasis [] (t :: r) <;> rfl

theorem paraB_own (acc ts : List Token) : Unstopped S ts E →
    paraB S acc (ts ++ E) = ((paraB [] acc ts).1, E) := by
  induction acc, ts using paraB_ind [] with
  | stop acc ts hs =>
    intro _
    have : ts = [] := by rw [stopAt_none] at hs; simpa using hs
    subst this
    rw [paraB_stop hs, paraB_stop (by rw [List.nil_append]; exact hE)]; rfl
  | some acc t r x r' hs hx ih =>
    intro hu
    have hx' := inlineB_own hE t r hu
    rw [hx] at hx'
    have hu' : Unstopped S r' E := by
      have h := hu
      rw [inlineB_toks hx] at h
      exact h.right
    rw [paraB_some hs hx, List.cons_append, paraB_some hu.1 hx']
    simp only [ih hu']
  | none acc t r hs hx ih =>
    intro hu
    have hx' := inlineB_own hE t r hu
    rw [hx] at hx'
    rw [paraB_none hs hx, List.cons_append, paraB_none hu.1 hx', ih hu.2]

theorem headB_own (acc ts : List Token) : Unstopped S ts E →
    headB S acc (ts ++ E) = ((headB [] acc ts).1, E) := by
  induction acc, ts using headB_ind [] with
  | stop acc ts hs =>
    intro _
    have : ts = [] := by rw [stopAt_none] at hs; simpa using hs
    subst this
    rw [headB_stop hs, headB_stop (by rw [List.nil_append]; exact hE)]; rfl
  | some acc t r x r' hs hx ih =>
    intro hu
    have hx' := linkB_own hE t r hu
    rw [hx] at hx'
    have hu' : Unstopped S r' E := by
      have h := hu
      rw [linkB_toks hx] at h
      exact h.right
    rw [headB_some hs hx, List.cons_append, headB_some hu.1 hx']
    simp only [ih hu']
  | none acc t r hs hx ih =>
    intro hu
    have hx' := linkB_own hE t r hu
    rw [hx] at hx'
    rw [headB_none hs hx, List.cons_append, headB_none hu.1 hx', ih hu.2]

end

/-- Inline content is what its own tokens give. -/
def ParaOwn (l : List Inl) : Prop := (paraB [] [] (paraToks l)).1 = l

def HeadOwn (l : List HeadItem) : Prop := (headB [] [] (l.flatMap HeadItem.toks)).1 = l

theorem paraB_isOwn (S : List Stop) (ts : List Token) : ParaOwn (paraB S [] ts).1 := by
  have h := paraB_extent S ts
  have e := paraB_toks (stops := S) (acc := []) _ (Nat.le_refl ts.length)
  have := paraB_own h.1 [] _ h.2
  rw [List.nil_append] at e
  rw [← e] at this
  unfold ParaOwn
  exact (congrArg Prod.fst this).symm

theorem headB_isOwn (S : List Stop) (ts : List Token) : HeadOwn (headB S [] ts).1 := by
  have h := headB_extent S ts
  have e := headB_toks (stops := S) (acc := []) _ (Nat.le_refl ts.length)
  have := headB_own h.1 [] _ h.2
  rw [List.nil_append] at e
  rw [← e] at this
  unfold HeadOwn
  exact (congrArg Prod.fst this).symm

end Yamd.Ref
