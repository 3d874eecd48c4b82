import Verif.Proofs.LocalDoc

/-!
# A line break at the very end (C73): inline content and lines

`E` is a line break that is not at the start of a line, put behind all other tokens.
-/

namespace Yamd.Ref

open Yamd Yamd.Spec

section
variable {E : Token} (hE : E.kind = .Eol) (h0 : col0 E = false)

theorem tokenIs_fin {ts : List Token} {i : Nat} {f : Token → Bool} (hf : f E = false) :
    tokenIs (ts ++ [E]) i f = tokenIs ts i f := by
  unfold tokenIs
  by_cases h : i < ts.length
  · rw [List.getElem?_append_left h]
  · rw [List.getElem?_append_right (by omega), List.getElem?_eq_none (l := ts) (by omega)]
    by_cases h2 : i - ts.length = 0
    · simp [h2, hf]
    · rw [List.getElem?_eq_none (by simp; omega)]

theorem tokenIs_inner {ts : List Token} {i : Nat} {f : Token → Bool} (hi : i < ts.length) :
    tokenIs (ts ++ [E]) i f = tokenIs ts i f := by
  unfold tokenIs
  rw [List.getElem?_append_left hi]

section
include hE

theorem L_marker (k : Option ListKind) : isListMarker k E = false := by
  unfold isListMarker
  have : ListKind.tryFrom E = none := by unfold ListKind.tryFrom; simp [hE]
  simp only [this]

theorem L_space1 : isSpace1 E = false := by simp [isSpace1, hE]
theorem L_eol : isEol E = true := by simp [isEol, hE]

include h0

theorem boundaryHere_fin (ts : List Token) (c : Nat) (k : ListKind) (l : Nat) :
    boundaryHere (ts ++ [E]) c k l = boundaryHere ts c k l := by
  unfold boundaryHere
  simp only [tokenIs_fin h0, tokenIs_fin (L_marker hE _), tokenIs_fin (L_space1 hE),
    tokenIs_fin (E := E) (f := fun t => decide (t.kind = .Space) && decide (t.len = l)) (by simp [hE])]

theorem stopHere_fin (t : Token) (r : List Token) (s : Stop) : stopHere t (r ++ [E]) s = stopHere t r s := by
  cases s with
  | Terminator => rfl
  | CollapsibleEnd =>
    simp only [stopHere]
    rw [tokenIs_fin (by simp [hE])]
  | HighlightEnd => rfl
  | ListBoundary l k =>
    have : boundaryHere (t :: (r ++ [E])) l k = boundaryHere (t :: r) l k :=
      funext fun n => boundaryHere_fin hE h0 (t :: r) l k n
    simp only [stopHere, this]

theorem stopAt_cons_fin (S : List Stop) (t : Token) (r : List Token) :
    stopAt S (t :: (r ++ [E])) = stopAt S (t :: r) := by
  have : stopHere t (r ++ [E]) = stopHere t r := funext (stopHere_fin hE h0 t r)
  simp only [stopAt, this]

theorem stopAt_fin {S : List Stop} {ts : List Token} (h : ts ≠ []) : stopAt S (ts ++ [E]) = stopAt S ts := by
  cases ts with
  | nil => exact absurd rfl h
  | cons t r => exact stopAt_cons_fin hE h0 S t r

/-- Nothing stops at the final line break. -/
theorem stopAt_E (S : List Stop) : stopAt S [E] = false := by
  simp only [stopAt, List.any_eq_false]
  intro s _
  cases s <;> simp [stopHere, hE, h0, tokenIs]

theorem untilB_fin {S : List Stop} {m : Token → Bool} (hm : m E = false) (ts : List Token) :
    untilB S m (ts ++ [E]) = (untilB S m ts).map (mapES [E]) := by
  induction ts with
  | nil =>
    have hs := stopAt_E hE h0 S
    rw [List.nil_append]
    simp [untilB, hs, hm]
  | cons t r ih =>
    rw [List.cons_append, untilB, untilB, stopAt_cons_fin hE h0, ih]
    split
    · rfl
    · split
      · rfl
      · cases untilB S m r <;> rfl

theorem delimB_fin {S : List Stop} {o c : Token → Bool} (n : Node) (ho : o E = false) (hc : c E = false)
    (ts : List Token) : delimB o c n S (ts ++ [E]) = (delimB o c n S ts).map (mapE [E]) := by
  cases ts with
  | nil => simp [delimB, ho]
  | cons t r =>
    rw [List.cons_append, delimB, delimB, untilB_fin hE h0 hc]
    split
    · cases untilB S c r <;> rfl
    · rfl

theorem destScan_fin {S : List Stop} (ts : List Token) : ∀ d,
    destScan S d (ts ++ [E]) = (destScan S d ts).map (mapES [E]) := by
  induction ts with
  | nil =>
    intro d
    have hs := stopAt_E hE h0 S
    rw [List.nil_append]
    simp [hE, destScan, hs]
  | cons t r ih =>
    intro d
    rw [List.cons_append, destScan, destScan, stopAt_cons_fin hE h0, ih, ih, ih]
    split
    · rfl
    · split
      · cases destScan S (d + 1) r <;> rfl
      · split
        · split
          · rfl
          · cases destScan S (d - 1) r <;> rfl
        · cases destScan S d r <;> rfl

theorem destB_fin {S : List Stop} (ts : List Token) : destB S (ts ++ [E]) = (destB S ts).map (mapE [E]) := by
  cases ts with
  | nil => simp [destB, isLeftParen, hE]
  | cons t r =>
    rw [List.cons_append, destB, destB, destScan_fin hE h0]
    split
    · cases destScan S 1 r <;> rfl
    · rfl

theorem titleB_fin {S : List Stop} (ts : List Token) : titleB S (ts ++ [E]) = (titleB S ts).map (mapE [E]) :=
  delimB_fin hE h0 _ (by simp [isLeftBracket, hE]) (by simp [isRightBracket, hE]) ts

theorem strikeB_fin {S : List Stop} (ts : List Token) : strikeB S (ts ++ [E]) = (strikeB S ts).map (mapE [E]) :=
  delimB_fin hE h0 _ (by simp [isTilde2, hE]) (by simp [isTilde2, hE]) ts

theorem italicB_fin {S : List Stop} (ts : List Token) : italicB S (ts ++ [E]) = (italicB S ts).map (mapE [E]) :=
  delimB_fin hE h0 _ (by simp [isUnderscore, hE]) (by simp [isUnderscore, hE]) ts

theorem codeSpanB_fin {S : List Stop} (ts : List Token) : codeSpanB S (ts ++ [E]) = (codeSpanB S ts).map (mapE [E]) :=
  delimB_fin hE h0 _ (by simp [isBacktick1, hE]) (by simp [isBacktick1, hE]) ts

theorem emphasisB_fin {S : List Stop} (ts : List Token) : emphasisB S (ts ++ [E]) = (emphasisB S ts).map (mapE [E]) :=
  delimB_fin hE h0 _ (by simp [isStar1, hE]) (by simp [isStar1, hE]) ts

theorem linkB_fin {S : List Stop} (ts : List Token) : linkB S (ts ++ [E]) = (linkB S ts).map (mapE [E]) := by
  unfold linkB
  rw [titleB_fin hE h0]
  cases titleB S ts with
  | none => rfl
  | some x =>
    obtain ⟨t, r⟩ := x
    simp only [Option.map_some, mapE]
    rw [destB_fin hE h0]
    cases destB S r <;> rfl

theorem boldChildB_fin {S : List Stop} (ts : List Token) :
    boldChildB S (ts ++ [E]) = (boldChildB S ts).map (mapE [E]) := by
  unfold boldChildB
  rw [strikeB_fin hE h0, italicB_fin hE h0]
  cases strikeB S ts <;> rfl

theorem boldItemsB_fin {S : List Stop} (acc ts : List Token) :
    boldItemsB S acc (ts ++ [E]) = (boldItemsB S acc ts).map (fun x => (x.1, x.2.1, x.2.2 ++ [E])) := by
  induction acc, ts using boldItemsB_ind S with
  | stop acc ts hs =>
    cases ts with
    | nil =>
      have hx := boldChildB_fin hE h0 (S := S) []
      rw [List.nil_append] at hx
      have hx0 : boldChildB S [] = none := rfl
      rw [hx0] at hx
      rw [boldItemsB_stop hs, List.nil_append, boldItemsB_none (stopAt_E hE h0 S) (by simp [isStar2, hE]) hx,
        boldItemsB_stop rfl]
      rfl
    | cons t r => rw [boldItemsB_stop hs, boldItemsB_stop (by rw [stopAt_fin hE h0 (by simp)]; exact hs)]; rfl
  | close acc t r hs h2 =>
    have hs' := stopAt_cons_fin hE h0 S t r
    rw [hs] at hs'
    rw [boldItemsB_close hs h2, List.cons_append, boldItemsB_close hs' h2]; rfl
  | some acc t r d r' hs h2 hx ih =>
    have hs' := stopAt_cons_fin hE h0 S t r
    have hx' := boldChildB_fin hE h0 (S := S) (t :: r)
    rw [hs] at hs'
    rw [hx] at hx'
    rw [boldItemsB_some hs h2 hx, List.cons_append, boldItemsB_some hs' h2 hx']
    simp only
    rw [ih]
    cases boldItemsB S [] r' <;> rfl
  | none acc t r hs h2 hx ih =>
    have hs' := stopAt_cons_fin hE h0 S t r
    have hx' := boldChildB_fin hE h0 (S := S) (t :: r)
    rw [hs] at hs'
    rw [hx] at hx'
    rw [boldItemsB_none hs h2 hx, List.cons_append, boldItemsB_none hs' h2 hx', ih]

theorem boldB_fin {S : List Stop} (ts : List Token) : boldB S (ts ++ [E]) = (boldB S ts).map (mapE [E]) := by
  cases ts with
  | nil => simp [boldB, isStar2, hE]
  | cons t r =>
    rw [List.cons_append, boldB, boldB, boldItemsB_fin hE h0]
    split
    · cases boldItemsB S [] r <;> rfl
    · rfl

theorem inlineB_fin {S : List Stop} (ts : List Token) : inlineB S (ts ++ [E]) = (inlineB S ts).map (mapE [E]) := by
  unfold inlineB
  rw [strikeB_fin hE h0, italicB_fin hE h0, boldB_fin hE h0, linkB_fin hE h0, codeSpanB_fin hE h0,
    emphasisB_fin hE h0]
  cases strikeB S ts with
  | some => rfl
  | none =>
  cases italicB S ts with
  | some => rfl
  | none =>
  cases boldB S ts with
  | some => rfl
  | none =>
  cases linkB S ts with
  | some => rfl
  | none =>
  cases codeSpanB S ts with
  | some => rfl
  | none =>
  cases emphasisB S ts <;> rfl

end

/-! ### Paragraphs and headings take the line break -/

/-- Is it plain text? -/
def Inl.plain : Inl → Bool
  | .text _ => true
  | _ => false

theorem inlineB_plain {S : List Stop} {ts : List Token} {x r} (h : inlineB S ts = some (x, r)) : x.plain = false := by
  unfold inlineB at h
  split at h
  · cases h; rfl
  · split at h
    · cases h; rfl
    · split at h
      · rename_i y hy
        cases h
        unfold boldB at hy
        split at hy
        · simp at hy
        · split at hy
          · simp only [Option.map_eq_some_iff] at hy
            obtain ⟨z, -, e⟩ := hy
            cases e; rfl
          · simp at hy
      · split at h
        · cases h; rfl
        · split at h
          · cases h; rfl
          · split at h
            · cases h; rfl
            · simp at h

/-- Inline content with one more token of plain text. -/
def addI (E : Token) : List Inl → List Inl
  | [] => [.text [E]]
  | [.text ts] => [.text (ts ++ [E])]
  | x :: r => x :: addI E r

def addHI (E : Token) : List HeadItem → List HeadItem
  | [] => [.text [E]]
  | [.text ts] => [.text (ts ++ [E])]
  | x :: r => x :: addHI E r

theorem addI_cons2 (x y : Inl) (r : List Inl) : addI E (x :: y :: r) = x :: addI E (y :: r) := by
  cases x <;> rfl

theorem addI_styled {x : Inl} (h : x.plain = false) (r : List Inl) : addI E (x :: r) = x :: addI E r := by
  cases x with
  | text ts => simp [Inl.plain] at h
  | _ => cases r <;> rfl

theorem addI_acc {x : Inl} (h : x.plain = false) (acc : List Token) (r : List Inl) :
    addI E ((if acc = [] then [] else [.text acc]) ++ x :: r)
      = (if acc = [] then [] else [.text acc]) ++ x :: addI E r := by
  split
  · simp [addI_styled h]
  · simp only [List.cons_append, List.nil_append]
    rw [addI_cons2, addI_styled h]

theorem addHI_cons2 (x y : HeadItem) (r : List HeadItem) : addHI E (x :: y :: r) = x :: addHI E (y :: r) := by
  cases x <;> rfl

theorem addHI_anchor (l : Link) (r : List HeadItem) : addHI E (.anchor l :: r) = .anchor l :: addHI E r := by
  cases r <;> rfl

theorem addHI_acc (l : Link) (acc : List Token) (r : List HeadItem) :
    addHI E ((if acc = [] then [] else [.text acc]) ++ .anchor l :: r)
      = (if acc = [] then [] else [.text acc]) ++ .anchor l :: addHI E r := by
  split
  · simp [addHI_anchor]
  · simp only [List.cons_append, List.nil_append]
    rw [addHI_cons2, addHI_anchor]

/-- What was read to the end takes the final line break, the rest does otherwise. -/
def endsP (E : Token) (x : List Inl × List Token) : List Inl × List Token :=
  if x.2 = [] then (addI E x.1, []) else mapE [E] x

def endsH (E : Token) (x : List HeadItem × List Token) : List HeadItem × List Token :=
  if x.2 = [] then (addHI E x.1, []) else mapE [E] x

include hE h0

theorem paraB_fin {S : List Stop} (acc ts : List Token) : paraB S acc (ts ++ [E]) = endsP E (paraB S acc ts) := by
  induction acc, ts using paraB_ind S with
  | stop acc ts hs =>
    cases ts with
    | nil =>
      have hx := inlineB_fin hE h0 (S := S) []
      rw [List.nil_append] at hx
      have hx0 : inlineB S [] = none := rfl
      rw [hx0] at hx
      rw [paraB_stop hs, List.nil_append, paraB_none (stopAt_E hE h0 S) hx, paraB_stop rfl]
      unfold endsP
      rw [if_pos rfl, if_neg (by simp)]
      split
      · rename_i h; simp [addI, h]
      · rfl
    | cons t r =>
      rw [paraB_stop hs, paraB_stop (by rw [stopAt_fin hE h0 (by simp)]; exact hs)]
      exact (if_neg (by simp)).symm
  | some acc t r x r' hs hx ih =>
    have hs' := stopAt_cons_fin hE h0 S t r
    have hx' := inlineB_fin hE h0 (S := S) (t :: r)
    rw [hs] at hs'
    rw [hx] at hx'
    rw [paraB_some hs hx, List.cons_append, paraB_some hs' hx']
    simp only [ih]
    unfold endsP
    by_cases hr : (paraB S [] r').2 = []
    · rw [if_pos hr, if_pos hr, addI_acc (inlineB_plain hx)]
    · rw [if_neg hr, if_neg hr]; rfl
  | none acc t r hs hx ih =>
    have hs' := stopAt_cons_fin hE h0 S t r
    have hx' := inlineB_fin hE h0 (S := S) (t :: r)
    rw [hs] at hs'
    rw [hx] at hx'
    rw [paraB_none hs hx, List.cons_append, paraB_none hs' hx', ih]

theorem headB_fin {S : List Stop} (acc ts : List Token) : headB S acc (ts ++ [E]) = endsH E (headB S acc ts) := by
  induction acc, ts using headB_ind S with
  | stop acc ts hs =>
    cases ts with
    | nil =>
      have hx := linkB_fin hE h0 (S := S) []
      rw [List.nil_append] at hx
      have hx0 : linkB S [] = none := rfl
      rw [hx0] at hx
      rw [headB_stop hs, List.nil_append, headB_none (stopAt_E hE h0 S) hx, headB_stop rfl]
      unfold endsH
      rw [if_pos rfl, if_neg (by simp)]
      split
      · rename_i h; simp [addHI, h]
      · rfl
    | cons t r =>
      rw [headB_stop hs, headB_stop (by rw [stopAt_fin hE h0 (by simp)]; exact hs)]
      exact (if_neg (by simp)).symm
  | some acc t r x r' hs hx ih =>
    have hs' := stopAt_cons_fin hE h0 S t r
    have hx' := linkB_fin hE h0 (S := S) (t :: r)
    rw [hs] at hs'
    rw [hx] at hx'
    rw [headB_some hs hx, List.cons_append, headB_some hs' hx']
    simp only [ih]
    unfold endsH
    by_cases hr : (headB S [] r').2 = []
    · rw [if_pos hr, if_pos hr, addHI_acc]
    · rw [if_neg hr, if_neg hr]; rfl
  | none acc t r hs hx ih =>
    have hs' := stopAt_cons_fin hE h0 S t r
    have hx' := linkB_fin hE h0 (S := S) (t :: r)
    rw [hs] at hs'
    rw [hx] at hx'
    rw [headB_none hs hx, List.cons_append, headB_none hs' hx', ih]

end

end Yamd.Ref
