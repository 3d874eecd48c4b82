import Verif.Proofs.Induct
import Verif.Proofs.Layout
import Verif.Proofs.Round.DocExec

/-!
# Text after a blank line does not change what was read before it (C49): tokens

`E = T :: B`, where `T` is a blank line, is put behind the tokens `ts`. What stops at a blank line
reads the same; what was completed before stays completed.
-/

namespace Yamd.Ref

open Yamd Yamd.Spec

section
variable {T : Token} {B : List Token} (hT : T.kind = .Terminator)

/-- A result with `E` put behind the tokens left over. -/
def mapE {α : Type} (E : List Token) (x : α × List Token) : α × List Token := (x.1, x.2 ++ E)

def mapES (E : List Token) (x : List Token × Token × List Token) : List Token × Token × List Token :=
  (x.1, x.2.1, x.2.2 ++ E)

theorem tokenIs_more {ts : List Token} {i : Nat} {f : Token → Bool} (E : List Token)
    (h : tokenIs ts i f = true) : tokenIs (ts ++ E) i f = true := by
  have hl := tokenIs_length h
  unfold tokenIs at h ⊢
  rw [List.getElem?_append_left hl]; exact h

theorem tokenIs_tail {ts : List Token} {i : Nat} {f : Token → Bool} (hf : f T = false) (hi : i ≤ ts.length) :
    tokenIs (ts ++ T :: B) i f = tokenIs ts i f := by
  unfold tokenIs
  by_cases h : i < ts.length
  · rw [List.getElem?_append_left h]
  · have : i = ts.length := by omega
    subst this
    simp [hf]

theorem tokenIs_ext0 {ts : List Token} {f : Token → Bool} (hf : f T = false) :
    tokenIs (ts ++ T :: B) 0 f = tokenIs ts 0 f := tokenIs_tail hf (by omega)

theorem and_tail {a b b' : Bool} (h : a = true → b' = b) : (a && b') = (a && b) := by
  cases a with
  | false => rfl
  | true => simp [h rfl]

theorem tokenIs_ext1 {ts : List Token} {f g : Token → Bool} (hf : f T = false) (hg : g T = false) :
    (tokenIs (ts ++ T :: B) 0 f && tokenIs (ts ++ T :: B) 1 g) = (tokenIs ts 0 f && tokenIs ts 1 g) := by
  rw [tokenIs_ext0 hf]
  exact and_tail fun h => tokenIs_tail hg (by have := tokenIs_length h; omega)

include hT

theorem T_marker (k : Option ListKind) : isListMarker k T = false := by
  unfold isListMarker
  have : ListKind.tryFrom T = none := by unfold ListKind.tryFrom; simp [hT]
  simp only [this]

theorem T_space1 : isSpace1 T = false := by simp [isSpace1, hT]

theorem boundaryHere_tail (ts : List Token) (c : Nat) (k : ListKind) (l : Nat) :
    boundaryHere (ts ++ T :: B) c k l = boundaryHere ts c k l := by
  unfold boundaryHere
  simp only
  have hsp := T_space1 hT
  split
  · generalize (if l = c then some k else none) = w
    have hm := T_marker hT w
    rw [Bool.and_assoc, Bool.and_assoc, tokenIs_ext1 hm hsp]
    cases ts with
    | nil => simp [tokenIs, hm]
    | cons t r => rfl
  · generalize (if l = c then some k else none) = w
    have hm := T_marker hT w
    have h0 : (fun t : Token => decide (t.kind = .Space) && decide (t.len = l)) T = false := by simp [hT]
    match ts with
    | [] => simp [tokenIs, hT]
    | [a] => simp [tokenIs, hm]
    | [a, b] => simp [tokenIs, hsp]
    | a :: b :: d :: r => simp [tokenIs]

theorem stopHere_tail (t : Token) (r : List Token) (s : Stop) :
    stopHere t (r ++ T :: B) s = stopHere t r s := by
  cases s with
  | Terminator => rfl
  | CollapsibleEnd =>
    simp only [stopHere]
    rw [tokenIs_ext0 (by simp [hT])]
  | HighlightEnd => rfl
  | ListBoundary l k =>
    have : boundaryHere (t :: (r ++ T :: B)) l k = boundaryHere (t :: r) l k :=
      funext fun n => boundaryHere_tail hT (t :: r) l k n
    simp only [stopHere, this]

/-- Stops in front of a token do not depend on what comes after the blank line. -/
theorem stopAt_cons_tail (S : List Stop) (t : Token) (r : List Token) :
    stopAt S (t :: (r ++ T :: B)) = stopAt S (t :: r) := by
  have : stopHere t (r ++ T :: B) = stopHere t r := funext (stopHere_tail hT t r)
  simp only [stopAt, this]

theorem stopAt_more {S : List Stop} {ts : List Token} (h : ts ≠ []) :
    stopAt S (ts ++ T :: B) = stopAt S ts := by
  cases ts with
  | nil => exact absurd rfl h
  | cons t r => exact stopAt_cons_tail hT S t r

/-! ### What stops at a blank line -/

section exact
variable {S : List Stop} (hS : Stop.Terminator ∈ S)
include hS

theorem stopAt_tail (ts : List Token) : stopAt S (ts ++ T :: B) = stopAt S ts := by
  cases ts with
  | nil =>
    simp only [List.nil_append, stopAt, List.any_eq_true]
    exact ⟨_, hS, by simp [stopHere, hT]⟩
  | cons t r => exact stopAt_cons_tail hT S t r

theorem untilB_tail (m : Token → Bool) (ts : List Token) :
    untilB S m (ts ++ T :: B) = (untilB S m ts).map (mapES (T :: B)) := by
  induction ts with
  | nil =>
    have := stopAt_tail (B := B) hT hS []
    simp only [List.nil_append] at this ⊢
    rw [untilB.eq_def]; simp only [this]; rfl
  | cons t r ih =>
    rw [List.cons_append, untilB, untilB, stopAt_cons_tail hT, ih]
    split
    · rfl
    · split
      · rfl
      · cases untilB S m r <;> rfl

theorem delimB_tail {o c : Token → Bool} (n : Node) (ho : o T = false) (ts : List Token) :
    delimB o c n S (ts ++ T :: B) = (delimB o c n S ts).map (mapE (T :: B)) := by
  cases ts with
  | nil => simp [delimB, ho]
  | cons t r =>
    rw [List.cons_append, delimB, delimB, untilB_tail hT hS]
    split
    · cases untilB S c r <;> rfl
    · rfl

theorem destScan_tail (ts : List Token) : ∀ d,
    destScan S d (ts ++ T :: B) = (destScan S d ts).map (mapES (T :: B)) := by
  induction ts with
  | nil =>
    intro d
    have := stopAt_tail (B := B) hT hS []
    simp only [List.nil_append] at this ⊢
    rw [destScan.eq_def]; simp only [this]; rfl
  | cons t r ih =>
    intro d
    rw [List.cons_append, destScan, destScan, stopAt_cons_tail hT, ih, ih, ih]
    split
    · rfl
    · split
      · cases destScan S (d + 1) r <;> rfl
      · split
        · split
          · rfl
          · cases destScan S (d - 1) r <;> rfl
        · cases destScan S d r <;> rfl

theorem destB_tail (ts : List Token) : destB S (ts ++ T :: B) = (destB S ts).map (mapE (T :: B)) := by
  cases ts with
  | nil => simp [destB, isLeftParen, hT]
  | cons t r =>
    rw [List.cons_append, destB, destB, destScan_tail hT hS]
    split
    · cases destScan S 1 r <;> rfl
    · rfl

theorem titleB_tail (ts : List Token) : titleB S (ts ++ T :: B) = (titleB S ts).map (mapE (T :: B)) :=
  delimB_tail hT hS _ (by simp [isLeftBracket, hT]) ts

theorem strikeB_tail (ts : List Token) : strikeB S (ts ++ T :: B) = (strikeB S ts).map (mapE (T :: B)) :=
  delimB_tail hT hS _ (by simp [isTilde2, hT]) ts

theorem italicB_tail (ts : List Token) : italicB S (ts ++ T :: B) = (italicB S ts).map (mapE (T :: B)) :=
  delimB_tail hT hS _ (by simp [isUnderscore, hT]) ts

theorem codeSpanB_tail (ts : List Token) : codeSpanB S (ts ++ T :: B) = (codeSpanB S ts).map (mapE (T :: B)) :=
  delimB_tail hT hS _ (by simp [isBacktick1, hT]) ts

theorem emphasisB_tail (ts : List Token) : emphasisB S (ts ++ T :: B) = (emphasisB S ts).map (mapE (T :: B)) :=
  delimB_tail hT hS _ (by simp [isStar1, hT]) ts

theorem linkB_tail (ts : List Token) : linkB S (ts ++ T :: B) = (linkB S ts).map (mapE (T :: B)) := by
  unfold linkB
  rw [titleB_tail hT hS]
  cases titleB S ts with
  | none => rfl
  | some x =>
    obtain ⟨t, r⟩ := x
    simp only [Option.map_some, mapE]
    rw [destB_tail hT hS]
    cases destB S r <;> rfl

theorem boldChildB_tail (ts : List Token) :
    boldChildB S (ts ++ T :: B) = (boldChildB S ts).map (mapE (T :: B)) := by
  unfold boldChildB
  rw [strikeB_tail hT hS, italicB_tail hT hS]
  cases strikeB S ts <;> rfl

theorem boldItemsB_tail (acc ts : List Token) :
    boldItemsB S acc (ts ++ T :: B) = (boldItemsB S acc ts).map (fun x => (x.1, x.2.1, x.2.2 ++ T :: B)) := by
  induction acc, ts using boldItemsB_ind S with
  | stop acc ts hs =>
    rw [boldItemsB_stop hs, boldItemsB_stop (by rw [stopAt_tail hT hS]; exact hs)]; rfl
  | close acc t r hs h2 =>
    have hs' := stopAt_cons_tail (B := B) hT S t r
    rw [hs] at hs'
    rw [boldItemsB_close hs h2, List.cons_append, boldItemsB_close hs' h2]; rfl
  | some acc t r d r' hs h2 hx ih =>
    have hs' := stopAt_cons_tail (B := B) hT S t r
    have hx' := boldChildB_tail (B := B) hT hS (t :: r)
    rw [hs] at hs'
    rw [hx] at hx'
    rw [boldItemsB_some hs h2 hx, List.cons_append, boldItemsB_some hs' h2 hx']
    simp only
    rw [ih]
    cases boldItemsB S [] r' <;> rfl
  | none acc t r hs h2 hx ih =>
    have hs' := stopAt_cons_tail (B := B) hT S t r
    have hx' := boldChildB_tail (B := B) hT hS (t :: r)
    rw [hs] at hs'
    rw [hx] at hx'
    rw [boldItemsB_none hs h2 hx, List.cons_append, boldItemsB_none hs' h2 hx', ih]

theorem boldB_tail (ts : List Token) : boldB S (ts ++ T :: B) = (boldB S ts).map (mapE (T :: B)) := by
  cases ts with
  | nil => simp [boldB, isStar2, hT]
  | cons t r =>
    rw [List.cons_append, boldB, boldB, boldItemsB_tail hT hS]
    split
    · cases boldItemsB S [] r <;> rfl
    · rfl

theorem inlineB_tail (ts : List Token) : inlineB S (ts ++ T :: B) = (inlineB S ts).map (mapE (T :: B)) := by
  unfold inlineB
  rw [strikeB_tail hT hS, italicB_tail hT hS, boldB_tail hT hS, linkB_tail hT hS, codeSpanB_tail hT hS,
    emphasisB_tail hT hS]
  cases strikeB S ts with
  | some => rfl
  | none =>
  cases italicB S ts with
  | some => rfl
  | none =>
  cases boldB S ts with
  | some => rfl
  | none =>
  cases linkB S ts with
  | some => rfl
  | none =>
  cases codeSpanB S ts with
  | some => rfl
  | none =>
  cases emphasisB S ts <;> rfl

theorem paraB_tail (acc ts : List Token) :
    paraB S acc (ts ++ T :: B) = mapE (T :: B) (paraB S acc ts) := by
  induction acc, ts using paraB_ind S with
  | stop acc ts hs =>
    rw [paraB_stop hs, paraB_stop (by rw [stopAt_tail hT hS]; exact hs)]; rfl
  | some acc t r x r' hs hx ih =>
    have hs' := stopAt_cons_tail (B := B) hT S t r
    have hx' := inlineB_tail (B := B) hT hS (t :: r)
    rw [hs] at hs'
    rw [hx] at hx'
    rw [paraB_some hs hx, List.cons_append, paraB_some hs' hx']
    simp only [mapE, ih]
  | none acc t r hs hx ih =>
    have hs' := stopAt_cons_tail (B := B) hT S t r
    have hx' := inlineB_tail (B := B) hT hS (t :: r)
    rw [hs] at hs'
    rw [hx] at hx'
    rw [paraB_none hs hx, List.cons_append, paraB_none hs' hx', ih]

theorem headB_tail (acc ts : List Token) :
    headB S acc (ts ++ T :: B) = mapE (T :: B) (headB S acc ts) := by
  induction acc, ts using headB_ind S with
  | stop acc ts hs =>
    rw [headB_stop hs, headB_stop (by rw [stopAt_tail hT hS]; exact hs)]; rfl
  | some acc t r x r' hs hx ih =>
    have hs' := stopAt_cons_tail (B := B) hT S t r
    have hx' := linkB_tail (B := B) hT hS (t :: r)
    rw [hs] at hs'
    rw [hx] at hx'
    rw [headB_some hs hx, List.cons_append, headB_some hs' hx']
    simp only [mapE, ih]
  | none acc t r hs hx ih =>
    have hs' := stopAt_cons_tail (B := B) hT S t r
    have hx' := linkB_tail (B := B) hT hS (t :: r)
    rw [hs] at hs'
    rw [hx] at hx'
    rw [headB_none hs hx, List.cons_append, headB_none hs' hx', ih]

theorem imageB_tail (ts : List Token) : imageB S (ts ++ T :: B) = (imageB S ts).map (mapE (T :: B)) := by
  cases ts with
  | nil => simp [imageB, isBang1, hT]
  | cons t r =>
    have he : isEol T = false := by simp [isEol, hT]
    rw [List.cons_append]
    unfold imageB
    simp only
    rw [linkB_tail hT hS]
    cases hl : linkB S r with
    | none => split <;> rfl
    | some x =>
      obtain ⟨l, r'⟩ := x
      simp only [Option.map_some, mapE]
      rw [tokenIs_ext0 he, stopAt_tail hT hS]
      split
      · cases hr : tokenIs r' 0 isEol with
        | true =>
          have := tokenIs_length hr
          simp only [if_true, Option.map_some]
          rw [List.take_append_of_le_length (by omega), List.drop_append_of_le_length (by omega)]; rfl
        | false =>
          simp only [Bool.false_eq_true, if_false]
          split <;> rfl
      · rfl

theorem imagesB_tail (ts : List Token) :
    imagesB S (ts ++ T :: B) = (imagesB S ts).map (mapE (T :: B)) := by
  induction ts using imagesB_ind S with
  | none ts h =>
    have h' := imageB_tail (B := B) hT hS ts
    rw [h] at h'
    rw [imagesB_none h, imagesB_none h', stopAt_tail hT hS]
    split <;> rfl
  | some ts i r h ih =>
    have h' := imageB_tail (B := B) hT hS ts
    rw [h] at h'
    rw [imagesB_some h, imagesB_some h']
    simp only
    rw [ih]
    cases imagesB S r <;> rfl

theorem itemPara_tail (level : Nat) (k : ListKind) (r : List Token) :
    itemPara S level k (r ++ T :: B) = mapE (T :: B) (itemPara S level k r) :=
  paraB_tail hT (by simp [hS]) [] r

omit hS in
theorem markerB_tail (level : Nat) (want : Option ListKind) (ts : List Token) :
    markerB level want (ts ++ T :: B) = (markerB level want ts).map (fun x => (x.1, x.2.1, x.2.2 ++ T :: B)) := by
  have hsp := T_space1 hT
  have hm := T_marker hT want
  cases ts with
  | nil => simp [markerB, tokenIs, hm, hT]
  | cons t r =>
    have h0 : tokenIs (t :: r ++ T :: B) 0 col0 = tokenIs (t :: r) 0 col0 := rfl
    have h1 := tokenIs_ext1 (B := B) (ts := t :: r) hm hsp
    have h2 : (tokenIs (t :: r ++ T :: B) 0 (fun t => decide (t.kind = .Space) && decide (t.len = level)) &&
        tokenIs (t :: r ++ T :: B) 1 (isListMarker want) && tokenIs (t :: r ++ T :: B) 2 isSpace1)
        = (tokenIs (t :: r) 0 (fun t => decide (t.kind = .Space) && decide (t.len = level)) &&
        tokenIs (t :: r) 1 (isListMarker want) && tokenIs (t :: r) 2 isSpace1) := by
      rw [tokenIs_ext1 (by simp [hT]) hm]
      refine and_tail fun h => tokenIs_tail hsp ?_
      rw [Bool.and_eq_true] at h
      have := tokenIs_length h.2
      omega
    unfold markerB
    rw [h0, h1, h2]
    split
    · split
      · split
        · rename_i h
          rw [Bool.and_eq_true] at h
          have := tokenIs_length h.2
          rw [List.take_append_of_le_length (by omega), List.drop_append_of_le_length (by omega),
            List.getElem?_append_left (by omega)]
          cases (t :: r)[0]?.bind ListKind.tryFrom <;> rfl
        · rfl
      · split
        · rename_i h
          rw [Bool.and_eq_true] at h
          have := tokenIs_length h.2
          rw [List.take_append_of_le_length (by omega), List.drop_append_of_le_length (by omega),
            List.getElem?_append_left (by omega)]
          cases (t :: r)[1]?.bind ListKind.tryFrom <;> rfl
        · rfl
    · rfl

theorem itemsB_tail (level : Nat) (want : Option ListKind) (ts : List Token) :
    itemsB S level want (ts ++ T :: B) = mapE (T :: B) (itemsB S level want ts) := by
  induction level, want, ts using itemsB_ind S with
  | none level want ts hm =>
    have hm' := markerB_tail (B := B) hT level want ts
    rw [hm] at hm'
    rw [itemsB_none hm, itemsB_none hm']; rfl
  | some level want ts k m r hm ih1 ih2 =>
    have hm' := markerB_tail (B := B) hT level want ts
    rw [hm] at hm'
    have hp := itemPara_tail (B := B) hT hS level k r
    have hn : itemNested S level ((itemPara S level k r).2 ++ T :: B)
        = mapE (T :: B) (itemNested S level (itemPara S level k r).2) := by
      unfold itemNested
      rw [stopAt_tail hT hS, ih1]
      split <;> rfl
    rw [itemsB_some hm, itemsB_some hm', hp]
    simp only [mapE]
    rw [hn]
    simp only [mapE]
    rw [ih2]
    rfl

theorem headingB_tail (ts : List Token) :
    headingB S (ts ++ T :: B) = (headingB S ts).map (mapE (T :: B)) := by
  unfold headingB
  rw [tokenIs_ext1 (by simp [isHash, hT]) (T_space1 hT)]
  split
  · rename_i h
    rw [Bool.and_eq_true] at h
    have := tokenIs_length h.2
    rw [List.take_append_of_le_length (by omega), List.drop_append_of_le_length (by omega), headB_tail hT hS]
    rfl
  · rfl

omit hS in
theorem thematicB_tail (ts : List Token) :
    thematicB (ts ++ T :: B) = (thematicB ts).map (mapE (T :: B)) := by
  cases ts with
  | nil => simp [thematicB, isDash5, hT]
  | cons t r => rw [List.cons_append, thematicB, thematicB]; split <;> rfl

theorem leafB_tail (ts : List Token) : leafB S (ts ++ T :: B) = mapE (T :: B) (leafB S ts) := by
  unfold leafB
  rw [itemsB_tail hT hS, imagesB_tail hT hS, thematicB_tail hT, headingB_tail hT hS, paraB_tail hT hS]
  rcases itemsB S 0 none ts with ⟨i, r⟩
  cases i with
  | cons => rfl
  | nil =>
    rcases imagesB S ts with _ | ⟨_ | ⟨i, l⟩, r⟩
    · simp only [mapE, Option.map_none]
      cases thematicB ts with
      | some => rfl
      | none => cases headingB S ts <;> rfl
    · simp only [mapE, Option.map_some]
      cases thematicB ts with
      | some => rfl
      | none => cases headingB S ts <;> rfl
    · rfl

end exact

/-! ### What was completed stays completed -/

theorem untilB_more {S : List Stop} {m : Token → Bool} : ∀ {ts b c r}, untilB S m ts = some (b, c, r) →
    untilB S m (ts ++ T :: B) = some (b, c, r ++ T :: B) := by
  intro ts
  induction ts with
  | nil => intro b c r h; simp [untilB] at h
  | cons t ts ih =>
    intro b c r h
    rw [untilB] at h
    rw [List.cons_append, untilB, stopAt_cons_tail hT]
    split at h
    · simp at h
    · rename_i hs
      rw [if_neg hs]
      split at h
      · rename_i hm
        rw [if_pos hm]
        simp only [Option.some.injEq, Prod.mk.injEq] at h
        obtain ⟨rfl, rfl, rfl⟩ := h; rfl
      · rename_i hm
        rw [if_neg hm]
        simp only [Option.map_eq_some_iff] at h
        obtain ⟨⟨b', c', r'⟩, h1, h2⟩ := h
        simp only [Prod.mk.injEq] at h2
        obtain ⟨rfl, rfl, rfl⟩ := h2
        rw [ih h1]; rfl

/-- A scan that failed: it was stopped and fails again, or there is nothing to be found. -/
theorem untilB_fail {S : List Stop} {m : Token → Bool} : ∀ {ts}, untilB S m ts = none →
    untilB S m (ts ++ T :: B) = none ∨ ∀ t ∈ ts, m t = false := by
  intro ts
  induction ts with
  | nil => intro _; right; simp
  | cons t ts ih =>
    intro h
    rw [untilB] at h
    rw [List.cons_append, untilB, stopAt_cons_tail hT]
    split at h
    · rename_i hs; left; rw [if_pos hs]
    · rename_i hs
      split at h
      · simp at h
      · rename_i hm
        rw [if_neg hs, if_neg hm]
        rw [Option.map_eq_none_iff] at h
        rcases ih h with h1 | h1
        · left; rw [h1]; rfl
        · right
          intro u hu
          rcases List.mem_cons.1 hu with rfl | hu
          · simpa using hm
          · exact h1 u hu

theorem closeLineB_more {S c r x} (h : closeLineB S c r = some x) :
    closeLineB S c (r ++ T :: B) = some (x.1, x.2 ++ T :: B) := by
  cases r with
  | nil =>
    simp only [closeLineB, Option.some.injEq] at h
    subst h
    simp [closeLineB, isEol, hT]
  | cons t r =>
    rw [closeLineB] at h
    rw [List.cons_append, closeLineB, stopAt_cons_tail hT]
    split at h
    · rename_i he
      rw [if_pos he]
      simp only [Option.some.injEq] at h; subst h; rfl
    · rename_i he
      rw [if_neg he]
      split at h
      · rename_i h2
        rw [if_pos h2]
        simp only [Option.some.injEq] at h; subst h; rfl
      · simp at h

theorem codeRestB_more {S o m r x} (h : codeRestB S o m r = some x) :
    codeRestB S o m (r ++ T :: B) = some (mapE (T :: B) x) := by
  unfold codeRestB at h ⊢
  cases hu : untilB [] isBacktick3 r with
  | none => rw [hu] at h; simp at h
  | some y =>
    obtain ⟨b, c, r'⟩ := y
    rw [hu] at h
    simp only [Option.map_eq_some_iff] at h
    obtain ⟨z, h1, rfl⟩ := h
    rw [untilB_more hT hu]
    simp only
    rw [closeLineB_more hT h1]; rfl

theorem modifierB_more {S r x} (h : modifierB S r = some x) :
    modifierB S (r ++ T :: B) = some (mapE (T :: B) x) := by
  unfold modifierB at h ⊢
  split at h
  · simp at h
  · rename_i hc
    simp only [Option.map_eq_some_iff] at h
    obtain ⟨⟨b, c, r'⟩, h1, rfl⟩ := h
    have hne : r ≠ [] := by rintro rfl; simp [untilB] at h1
    have : tokenIs (r ++ T :: B) 0 col0 = tokenIs r 0 col0 := by
      cases r with
      | nil => exact absurd rfl hne
      | cons t r => rfl
    rw [this, if_neg hc, untilB_more hT h1]; rfl

/-- A missing rest of line: the line is empty, or is stopped, or runs to the end of the tokens. -/
theorem modifierB_fail {S r} (h : modifierB S r = none) (hr : r ≠ []) :
    modifierB S (r ++ T :: B) = none ∨
      (tokenIs r 0 col0 = false ∧ ∀ t ∈ r, isEolOrTerminator t = false) := by
  unfold modifierB at h ⊢
  have : tokenIs (r ++ T :: B) 0 col0 = tokenIs r 0 col0 := by
    cases r with
    | nil => exact absurd rfl hr
    | cons t r => rfl
  rw [this]
  split at h
  · rename_i hc; left; rw [if_pos hc]
  · rename_i hc
    rw [if_neg hc]
    rw [Option.map_eq_none_iff] at h
    rcases untilB_fail (B := B) hT h with h1 | h1
    · left; rw [h1]; rfl
    · right; exact ⟨by simpa using hc, h1⟩

theorem optModB_more {S r} (hr : r ≠ [])
    (h : modifierB S r = none → tokenIs r 0 col0 = false → ∃ t ∈ r, isEolOrTerminator t = true) :
    optModB S (r ++ T :: B) = mapE (T :: B) (optModB S r) := by
  unfold optModB
  cases hm : modifierB S r with
  | some x => rw [modifierB_more hT hm]; rfl
  | none =>
    rcases modifierB_fail (B := B) hT hm hr with h1 | h1
    · rw [h1]; rfl
    · obtain ⟨t, ht, h⟩ := h hm h1.1
      rw [h1.2 t ht] at h; simp at h

theorem embedB_more {S ts x} (h : embedB S ts = some x) : embedB S (ts ++ T :: B) = some (mapE (T :: B) x) := by
  cases ts with
  | nil => simp [embedB] at h
  | cons t r =>
    rw [List.cons_append]
    unfold embedB at h ⊢
    simp only at h ⊢
    split at h
    · rename_i ho
      rw [if_pos ho]
      cases hu : untilB S isPipe r with
      | none => rw [hu] at h; simp at h
      | some y =>
        obtain ⟨l, p, r1⟩ := y
        rw [hu] at h
        simp only at h
        rw [untilB_more hT hu]
        simp only
        cases hv : untilB S isRightCurly2 r1 with
        | none => rw [hv] at h; simp at h
        | some y =>
          obtain ⟨a, c, r2⟩ := y
          rw [hv] at h
          simp only [Option.map_eq_some_iff] at h
          obtain ⟨z, h1, rfl⟩ := h
          rw [untilB_more hT hv]
          simp only
          rw [closeLineB_more hT h1]; rfl
    · simp at h

theorem hlParasB_more {S ts l c r} (h : hlParasB S ts = some (l, c, r)) :
    hlParasB S (ts ++ T :: B) = some (l, c, r ++ T :: B) := by
  have he : isEol T = false := by simp [isEol, hT]
  have hb2 : isTwoBangs T = false := by simp [isTwoBangs, hT]
  have ne : ∀ {ts}, stopAt S ts = false → ts ≠ [] := by rintro ts h rfl; simp [stopAt] at h
  refine hlParasB_ind S (P := fun ts l c r => hlParasB S (ts ++ T :: B) = some (l, c, r ++ T :: B))
    ?_ ?_ ?_ ts l c r h
  · intro ts hs hb h1
    have := tokenIs_length h1
    rw [hlParasB.eq_def, stopAt_more hT (ne hs), hs, tokenIs_more _ hb, tokenIs_more _ h1,
      List.take_append_of_le_length (by omega), List.drop_append_of_le_length (by omega)]
    rfl
  · intro ts hs hb h1
    have := tokenIs_length hb
    rw [hlParasB.eq_def, stopAt_more hT (ne hs), hs, tokenIs_more _ hb, tokenIs_tail he (by omega), h1]
    simp only [Bool.false_eq_true, if_false, if_true]
    rw [List.take_append_of_le_length (by omega), List.drop_append_of_le_length (by omega)]
  · intro ts l c r hs hb hl ih
    have hne := ne hs
    have ht : termB (ts ++ T :: B) = mapE (T :: B) (termB ts) := by
      unfold termB
      cases ts with
      | nil => exact absurd rfl hne
      | cons t r =>
        have : tokenIs (t :: r ++ T :: B) 0 isTerminator = tokenIs (t :: r) 0 isTerminator := rfl
        rw [this]
        split <;> rfl
    rw [hlParasB.eq_def, stopAt_more hT hne, hs, tokenIs_ext0 hb2, hb]
    have hp := paraB_tail (B := B) hT (S := .Terminator :: .HighlightEnd :: S) (by simp) [] (termB ts).2
    simp only [ht, mapE] at hp ⊢
    rw [hp]
    simp only [Bool.false_eq_true, if_false]
    rw [dif_pos (by simp only [List.length_append]; omega), ih]
    rfl

theorem iconB_tail {S : List Stop} (hS : Stop.Terminator ∈ S) (ts : List Token) :
    iconB S (ts ++ T :: B) = (iconB S ts).map (mapE (T :: B)) := by
  unfold iconB
  rw [tokenIs_ext1 (by simp [isOneBang, hT]) (T_space1 hT)]
  split
  · rename_i h
    rw [Bool.and_eq_true] at h
    have := tokenIs_length h.2
    rw [List.take_append_of_le_length (by omega), List.drop_append_of_le_length (by omega), untilB_tail hT hS]
    cases untilB S isEol (ts.drop 2) <;> rfl
  · rfl

theorem optIconB_tail {S : List Stop} (hS : Stop.Terminator ∈ S) (ts : List Token) :
    optIconB S (ts ++ T :: B) = mapE (T :: B) (optIconB S ts) := by
  unfold optIconB
  rw [iconB_tail hT hS]
  cases iconB S ts <;> rfl

theorem hlRestB_more {S o m r x} (h : hlRestB S o m r = some x) :
    hlRestB S o m (r ++ T :: B) = some (mapE (T :: B) x) := by
  unfold hlRestB at h ⊢
  simp only at h ⊢
  rw [optIconB_tail hT (by simp)]
  split at h
  · rename_i hc
    have hc' : tokenIs (mapE (T :: B) (optIconB (.Terminator :: S) r)).2 0 col0 = true := tokenIs_more _ hc
    rw [if_pos hc']
    simp only [mapE]
    simp only [Option.map_eq_some_iff] at h
    obtain ⟨⟨l, c, r'⟩, h1, rfl⟩ := h
    rw [hlParasB_more hT h1]
    rfl
  · simp at h

omit hT in
/-- A highlight whose first line does not end is none. -/
theorem hlRestB_line {S o m r} (hc : tokenIs r 0 col0 = false) (hn : ∀ t ∈ r, isEolOrTerminator t = false) :
    hlRestB S o m r = none := by
  have hi : iconB (.Terminator :: S) r = none := by
    unfold iconB
    split
    · cases hu : untilB (.Terminator :: S) isEol (r.drop 2) with
      | none => rfl
      | some x =>
        obtain ⟨b, c, r'⟩ := x
        exfalso
        have hm := untilB_mem hu
        have hmem : c ∈ r := List.mem_of_mem_drop (i := 2) (by rw [untilB_length hu]; simp)
        have := hn c hmem
        simp only [isEol, decide_eq_true_eq] at hm
        simp [isEolOrTerminator, hm] at this
    · rfl
  unfold hlRestB optIconB
  rw [hi]
  simp [hc]

theorem highlightB_more {S ts x} (h : highlightB S ts = some x) :
    highlightB S (ts ++ T :: B) = some (mapE (T :: B) x) := by
  have he : isEol T = false := by simp [isEol, hT]
  unfold highlightB at h ⊢
  rw [tokenIs_ext1 (by simp [isTwoBangs, hT]) (by simp [T_space1 hT, he])]
  split at h
  · rename_i hh
    rw [if_pos hh]
    rw [Bool.and_eq_true] at hh
    have hl := tokenIs_length hh.2
    rw [tokenIs_tail he (by omega), List.take_append_of_le_length (by omega), List.drop_append_of_le_length (by omega)]
    split at h
    · rename_i h1
      rw [if_pos h1]
      exact hlRestB_more hT h
    · rename_i h1
      rw [if_neg h1]
      have hne : ts.drop 2 ≠ [] := by
        intro e
        rw [e] at h
        rw [hlRestB_line (by rfl) (by simp [optModB, modifierB, tokenIs, untilB])] at h
        simp at h
      rw [optModB_more hT hne]
      · exact hlRestB_more hT h
      · intro hm hc
        by_contra hcon
        have hn : ∀ t ∈ ts.drop 2, isEolOrTerminator t = false := by
          intro t ht
          by_contra hx
          exact hcon ⟨t, ht, by simpa using hx⟩
        have e : optModB S (ts.drop 2) = (none, ts.drop 2) := by unfold optModB; rw [hm]
        rw [e] at h
        simp only at h
        rw [hlRestB_line hc hn] at h
        simp at h
  · simp at h

end

end Yamd.Ref
