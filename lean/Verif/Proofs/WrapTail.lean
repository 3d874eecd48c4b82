import Verif.Proofs.WrapDoc

/-!
# The closing line of a collapsible after a document (C66): tokens

`E = e :: c :: R`, where `e` is a line break and `c` the closing `%}`, is put behind the tokens `ts`. What
stops in front of the closing line reads the same; a block that ends with a line break takes `e`.
-/

namespace Yamd.Ref

open Yamd Yamd.Spec Yamd.Round

theorem stop_more {S : List Stop} {ts : List Token} (x : Stop) (h : stopAt S ts = true) : stopAt (x :: S) ts = true :=
  stopAt_up (by simp) h

section
variable {T : Token} {B : List Token} (hT : T.kind = .Eol)
include hT

theorem eT_marker (k : Option ListKind) : isListMarker k T = false := by
  unfold isListMarker
  have : ListKind.tryFrom T = none := by unfold ListKind.tryFrom; simp [hT]
  simp only [this]

theorem eT_space1 : isSpace1 T = false := by simp [isSpace1, hT]

theorem boundaryHere_etail (ts : List Token) (c : Nat) (k : ListKind) (l : Nat) :
    boundaryHere (ts ++ T :: B) c k l = boundaryHere ts c k l := by
  unfold boundaryHere
  simp only
  have hsp := eT_space1 hT
  split
  · generalize (if l = c then some k else none) = w
    have hm := eT_marker hT w
    rw [Bool.and_assoc, Bool.and_assoc, tokenIs_ext1 hm hsp]
    cases ts with
    | nil => simp [tokenIs, hm]
    | cons t r => rfl
  · generalize (if l = c then some k else none) = w
    have hm := eT_marker hT w
    have h0 : (fun t : Token => decide (t.kind = .Space) && decide (t.len = l)) T = false := by simp [hT]
    match ts with
    | [] => simp [tokenIs, hT]
    | [a] => simp [tokenIs, hm]
    | [a, b] => simp [tokenIs, hsp]
    | a :: b :: d :: r => simp [tokenIs]

theorem stopHere_etail (t : Token) (r : List Token) (s : Stop) :
    stopHere t (r ++ T :: B) s = stopHere t r s := by
  cases s with
  | Terminator => rfl
  | CollapsibleEnd =>
    simp only [stopHere]
    rw [tokenIs_ext0 (by simp [hT])]
  | HighlightEnd => rfl
  | ListBoundary l k =>
    have : boundaryHere (t :: (r ++ T :: B)) l k = boundaryHere (t :: r) l k :=
      funext fun n => boundaryHere_etail hT (t :: r) l k n
    simp only [stopHere, this]

/-- Stops in front of a token do not depend on what comes after the blank line. -/
theorem stopAt_cons_etail (S : List Stop) (t : Token) (r : List Token) :
    stopAt S (t :: (r ++ T :: B)) = stopAt S (t :: r) := by
  have : stopHere t (r ++ T :: B) = stopHere t r := funext (stopHere_etail hT t r)
  simp only [stopAt, this]

theorem stopAt_more_e {S : List Stop} {ts : List Token} (h : ts ≠ []) :
    stopAt S (ts ++ T :: B) = stopAt S ts := by
  cases ts with
  | nil => exact absurd rfl h
  | cons t r => exact stopAt_cons_etail hT S t r

/-! ### What stops at a blank line -/

section exact
variable {S : List Stop} (hS : stopAt S (T :: B) = true)
include hS

theorem stopAt_etail (ts : List Token) : stopAt S (ts ++ T :: B) = stopAt S ts := by
  cases ts with
  | nil =>
    rw [List.nil_append, hS]; rfl
  | cons t r => exact stopAt_cons_etail hT S t r

theorem untilB_etail (m : Token → Bool) (ts : List Token) :
    untilB S m (ts ++ T :: B) = (untilB S m ts).map (mapES (T :: B)) := by
  induction ts with
  | nil =>
    have := stopAt_etail (B := B) hT hS []
    simp only [List.nil_append] at this ⊢
    rw [untilB.eq_def]; simp only [this]; rfl
  | cons t r ih =>
    rw [List.cons_append, untilB, untilB, stopAt_cons_etail hT, ih]
    split
    · rfl
    · split
      · rfl
      · cases untilB S m r <;> rfl

theorem delimB_etail {o c : Token → Bool} (n : Node) (ho : o T = false) (ts : List Token) :
    delimB o c n S (ts ++ T :: B) = (delimB o c n S ts).map (mapE (T :: B)) := by
  cases ts with
  | nil => simp [delimB, ho]
  | cons t r =>
    rw [List.cons_append, delimB, delimB, untilB_etail hT hS]
    split
    · cases untilB S c r <;> rfl
    · rfl

theorem destScan_etail (ts : List Token) : ∀ d,
    destScan S d (ts ++ T :: B) = (destScan S d ts).map (mapES (T :: B)) := by
  induction ts with
  | nil =>
    intro d
    have := stopAt_etail (B := B) hT hS []
    simp only [List.nil_append] at this ⊢
    rw [destScan.eq_def]; simp only [this]; rfl
  | cons t r ih =>
    intro d
    rw [List.cons_append, destScan, destScan, stopAt_cons_etail hT, ih, ih, ih]
    split
    · rfl
    · split
      · cases destScan S (d + 1) r <;> rfl
      · split
        · split
          · rfl
          · cases destScan S (d - 1) r <;> rfl
        · cases destScan S d r <;> rfl

theorem destB_etail (ts : List Token) : destB S (ts ++ T :: B) = (destB S ts).map (mapE (T :: B)) := by
  cases ts with
  | nil => simp [destB, isLeftParen, hT]
  | cons t r =>
    rw [List.cons_append, destB, destB, destScan_etail hT hS]
    split
    · cases destScan S 1 r <;> rfl
    · rfl

theorem titleB_etail (ts : List Token) : titleB S (ts ++ T :: B) = (titleB S ts).map (mapE (T :: B)) :=
  delimB_etail hT hS _ (by simp [isLeftBracket, hT]) ts

theorem strikeB_etail (ts : List Token) : strikeB S (ts ++ T :: B) = (strikeB S ts).map (mapE (T :: B)) :=
  delimB_etail hT hS _ (by simp [isTilde2, hT]) ts

theorem italicB_etail (ts : List Token) : italicB S (ts ++ T :: B) = (italicB S ts).map (mapE (T :: B)) :=
  delimB_etail hT hS _ (by simp [isUnderscore, hT]) ts

theorem codeSpanB_etail (ts : List Token) : codeSpanB S (ts ++ T :: B) = (codeSpanB S ts).map (mapE (T :: B)) :=
  delimB_etail hT hS _ (by simp [isBacktick1, hT]) ts

theorem emphasisB_etail (ts : List Token) : emphasisB S (ts ++ T :: B) = (emphasisB S ts).map (mapE (T :: B)) :=
  delimB_etail hT hS _ (by simp [isStar1, hT]) ts

theorem linkB_etail (ts : List Token) : linkB S (ts ++ T :: B) = (linkB S ts).map (mapE (T :: B)) := by
  unfold linkB
  rw [titleB_etail hT hS]
  cases titleB S ts with
  | none => rfl
  | some x =>
    obtain ⟨t, r⟩ := x
    simp only [Option.map_some, mapE]
    rw [destB_etail hT hS]
    cases destB S r <;> rfl

theorem boldChildB_etail (ts : List Token) :
    boldChildB S (ts ++ T :: B) = (boldChildB S ts).map (mapE (T :: B)) := by
  unfold boldChildB
  rw [strikeB_etail hT hS, italicB_etail hT hS]
  cases strikeB S ts <;> rfl

theorem boldItemsB_etail (acc ts : List Token) :
    boldItemsB S acc (ts ++ T :: B) = (boldItemsB S acc ts).map (fun x => (x.1, x.2.1, x.2.2 ++ T :: B)) := by
  induction acc, ts using boldItemsB_ind S with
  | stop acc ts hs =>
    rw [boldItemsB_stop hs, boldItemsB_stop (by rw [stopAt_etail hT hS]; exact hs)]; rfl
  | close acc t r hs h2 =>
    have hs' := stopAt_cons_etail (B := B) hT S t r
    rw [hs] at hs'
    rw [boldItemsB_close hs h2, List.cons_append, boldItemsB_close hs' h2]; rfl
  | some acc t r d r' hs h2 hx ih =>
    have hs' := stopAt_cons_etail (B := B) hT S t r
    have hx' := boldChildB_etail (B := B) hT hS (t :: r)
    rw [hs] at hs'
    rw [hx] at hx'
    rw [boldItemsB_some hs h2 hx, List.cons_append, boldItemsB_some hs' h2 hx']
    simp only
    rw [ih]
    cases boldItemsB S [] r' <;> rfl
  | none acc t r hs h2 hx ih =>
    have hs' := stopAt_cons_etail (B := B) hT S t r
    have hx' := boldChildB_etail (B := B) hT hS (t :: r)
    rw [hs] at hs'
    rw [hx] at hx'
    rw [boldItemsB_none hs h2 hx, List.cons_append, boldItemsB_none hs' h2 hx', ih]

theorem boldB_etail (ts : List Token) : boldB S (ts ++ T :: B) = (boldB S ts).map (mapE (T :: B)) := by
  cases ts with
  | nil => simp [boldB, isStar2, hT]
  | cons t r =>
    rw [List.cons_append, boldB, boldB, boldItemsB_etail hT hS]
    split
    · cases boldItemsB S [] r <;> rfl
    · rfl

theorem inlineB_etail (ts : List Token) : inlineB S (ts ++ T :: B) = (inlineB S ts).map (mapE (T :: B)) := by
  unfold inlineB
  rw [strikeB_etail hT hS, italicB_etail hT hS, boldB_etail hT hS, linkB_etail hT hS, codeSpanB_etail hT hS,
    emphasisB_etail hT hS]
  cases strikeB S ts with
  | some => rfl
  | none =>
  cases italicB S ts with
  | some => rfl
  | none =>
  cases boldB S ts with
  | some => rfl
  | none =>
  cases linkB S ts with
  | some => rfl
  | none =>
  cases codeSpanB S ts with
  | some => rfl
  | none =>
  cases emphasisB S ts <;> rfl

theorem paraB_etail (acc ts : List Token) :
    paraB S acc (ts ++ T :: B) = mapE (T :: B) (paraB S acc ts) := by
  induction acc, ts using paraB_ind S with
  | stop acc ts hs =>
    rw [paraB_stop hs, paraB_stop (by rw [stopAt_etail hT hS]; exact hs)]; rfl
  | some acc t r x r' hs hx ih =>
    have hs' := stopAt_cons_etail (B := B) hT S t r
    have hx' := inlineB_etail (B := B) hT hS (t :: r)
    rw [hs] at hs'
    rw [hx] at hx'
    rw [paraB_some hs hx, List.cons_append, paraB_some hs' hx']
    simp only [mapE, ih]
  | none acc t r hs hx ih =>
    have hs' := stopAt_cons_etail (B := B) hT S t r
    have hx' := inlineB_etail (B := B) hT hS (t :: r)
    rw [hs] at hs'
    rw [hx] at hx'
    rw [paraB_none hs hx, List.cons_append, paraB_none hs' hx', ih]

theorem headB_etail (acc ts : List Token) :
    headB S acc (ts ++ T :: B) = mapE (T :: B) (headB S acc ts) := by
  induction acc, ts using headB_ind S with
  | stop acc ts hs =>
    rw [headB_stop hs, headB_stop (by rw [stopAt_etail hT hS]; exact hs)]; rfl
  | some acc t r x r' hs hx ih =>
    have hs' := stopAt_cons_etail (B := B) hT S t r
    have hx' := linkB_etail (B := B) hT hS (t :: r)
    rw [hs] at hs'
    rw [hx] at hx'
    rw [headB_some hs hx, List.cons_append, headB_some hs' hx']
    simp only [mapE, ih]
  | none acc t r hs hx ih =>
    have hs' := stopAt_cons_etail (B := B) hT S t r
    have hx' := linkB_etail (B := B) hT hS (t :: r)
    rw [hs] at hs'
    rw [hx] at hx'
    rw [headB_none hs hx, List.cons_append, headB_none hs' hx', ih]

theorem itemPara_etail (level : Nat) (k : ListKind) (r : List Token) :
    itemPara S level k (r ++ T :: B) = mapE (T :: B) (itemPara S level k r) :=
  paraB_etail hT (stop_more _ hS) [] r

omit hS in
theorem markerB_etail (level : Nat) (want : Option ListKind) (ts : List Token) :
    markerB level want (ts ++ T :: B) = (markerB level want ts).map (fun x => (x.1, x.2.1, x.2.2 ++ T :: B)) := by
  have hsp := eT_space1 hT
  have hm := eT_marker hT want
  cases ts with
  | nil => simp [markerB, tokenIs, hm, hT]
  | cons t r =>
    have h0 : tokenIs (t :: r ++ T :: B) 0 col0 = tokenIs (t :: r) 0 col0 := rfl
    have h1 := tokenIs_ext1 (B := B) (ts := t :: r) hm hsp
    have h2 : (tokenIs (t :: r ++ T :: B) 0 (fun t => decide (t.kind = .Space) && decide (t.len = level)) &&
        tokenIs (t :: r ++ T :: B) 1 (isListMarker want) && tokenIs (t :: r ++ T :: B) 2 isSpace1)
        = (tokenIs (t :: r) 0 (fun t => decide (t.kind = .Space) && decide (t.len = level)) &&
        tokenIs (t :: r) 1 (isListMarker want) && tokenIs (t :: r) 2 isSpace1) := by
      rw [tokenIs_ext1 (by simp [hT]) hm]
      refine and_tail fun h => tokenIs_tail hsp ?_
      rw [Bool.and_eq_true] at h
      have := tokenIs_length h.2
      omega
    unfold markerB
    rw [h0, h1, h2]
    split
    · split
      · split
        · rename_i h
          rw [Bool.and_eq_true] at h
          have := tokenIs_length h.2
          rw [List.take_append_of_le_length (by omega), List.drop_append_of_le_length (by omega),
            List.getElem?_append_left (by omega)]
          cases (t :: r)[0]?.bind ListKind.tryFrom <;> rfl
        · rfl
      · split
        · rename_i h
          rw [Bool.and_eq_true] at h
          have := tokenIs_length h.2
          rw [List.take_append_of_le_length (by omega), List.drop_append_of_le_length (by omega),
            List.getElem?_append_left (by omega)]
          cases (t :: r)[1]?.bind ListKind.tryFrom <;> rfl
        · rfl
    · rfl

theorem itemsB_etail (level : Nat) (want : Option ListKind) (ts : List Token) :
    itemsB S level want (ts ++ T :: B) = mapE (T :: B) (itemsB S level want ts) := by
  induction level, want, ts using itemsB_ind S with
  | none level want ts hm =>
    have hm' := markerB_etail (B := B) hT level want ts
    rw [hm] at hm'
    rw [itemsB_none hm, itemsB_none hm']; rfl
  | some level want ts k m r hm ih1 ih2 =>
    have hm' := markerB_etail (B := B) hT level want ts
    rw [hm] at hm'
    have hp := itemPara_etail (B := B) hT hS level k r
    have hn : itemNested S level ((itemPara S level k r).2 ++ T :: B)
        = mapE (T :: B) (itemNested S level (itemPara S level k r).2) := by
      unfold itemNested
      rw [stopAt_etail hT hS, ih1]
      split <;> rfl
    rw [itemsB_some hm, itemsB_some hm', hp]
    simp only [mapE]
    rw [hn]
    simp only [mapE]
    rw [ih2]
    rfl

theorem headingB_etail (ts : List Token) :
    headingB S (ts ++ T :: B) = (headingB S ts).map (mapE (T :: B)) := by
  unfold headingB
  rw [tokenIs_ext1 (by simp [isHash, hT]) (eT_space1 hT)]
  split
  · rename_i h
    rw [Bool.and_eq_true] at h
    have := tokenIs_length h.2
    rw [List.take_append_of_le_length (by omega), List.drop_append_of_le_length (by omega), headB_etail hT hS]
    rfl
  · rfl

omit hS in
theorem thematicB_etail (ts : List Token) :
    thematicB (ts ++ T :: B) = (thematicB ts).map (mapE (T :: B)) := by
  cases ts with
  | nil => simp [thematicB, isDash5, hT]
  | cons t r => rw [List.cons_append, thematicB, thematicB]; split <;> rfl

end exact

end

end Yamd.Ref
