import Verif.Proofs.Lines
import Verif.Proofs.Induct
import Verif.Proofs.Unstopped

/-!
# How the parts of a block stand on their lines

Facts about the trees of the reference parser that need the positions of the tokens: a closing mark ends
its line, a title stands on the line of its opening mark, and what may follow a block directly.
-/

namespace Yamd.Ref

open Yamd Yamd.Spec

/-- A title or language is there exactly when no line break follows the opening mark. -/
def OpensWith (o : List Token) (m : Option Mod) : Prop := m.isSome = true ↔ o.any isEol = false

def ImgsLay : List Img → List Token → Prop
  | [], _ => True
  | i :: l, rest => Front (i.eol ++ (l.flatMap Img.toks ++ rest)) ∧ ImgsLay l rest

def IconLine.OneLine (i : IconLine) : Prop := ∀ t ∈ i.body, isEolOrTerminator t = false

/-- The layout of a block in front of the tokens `rest`. -/
def Block.Lay : Block → List Token → Prop
  | .code o m _ c, rest => OpensWith o m ∧ (c.any isEol = true ∨ Front rest)
  | .embed _ _ _ _ c, rest => c.any isEol = true ∨ Front rest
  | .highlight o m i _ _, _ => OpensWith o m ∧ ∀ x, i = some x → x.OneLine
  | .images l, rest => ImgsLay l rest
  | _, _ => True

theorem tokenIs_zero {t r f} : tokenIs (t :: r) 0 f = f t := rfl

/-- A stop condition in the middle of a line is a line break. -/
theorem stop_front {stops t r} (hs : stopAt stops (t :: r) = true) (hc : col0 t = false) :
    isEolOrTerminator t = true := by
  simp only [stopAt, List.any_eq_true] at hs
  obtain ⟨s, -, hs⟩ := hs
  cases s with
  | Terminator =>
    simp only [stopHere, decide_eq_true_eq] at hs
    simp [isEolOrTerminator, hs]
  | CollapsibleEnd =>
    simp only [stopHere, hc, Bool.and_false, Bool.false_or, Bool.and_eq_true, decide_eq_true_eq] at hs
    simp [isEolOrTerminator, hs.1]
  | HighlightEnd => simp [stopHere, hc] at hs
  | ListBoundary level kind => simp [stopHere, hc] at hs

theorem stop_front' {stops r} {t : Token} (hc : Cols (t :: r)) (ht : isEolOrTerminator t = false)
    (hs : stopAt stops r = true) : Front r := by
  cases r with
  | nil => trivial
  | cons u r =>
    refine stop_front hs ?_
    cases h : col0 u with
    | false => rfl
    | true => rw [hc.1.2 h] at ht; cases ht

theorem closeLineB_lay {stops c r x rest} (h : closeLineB stops c r = some (x, rest)) (hc : Cols (c :: r))
    (hk : isEolOrTerminator c = false) : x.any isEol = true ∨ Front rest := by
  unfold closeLineB at h
  split at h
  · simp only [Option.some.injEq, Prod.mk.injEq] at h
    obtain ⟨-, rfl⟩ := h; exact .inr trivial
  · rename_i t r'
    split at h
    · rename_i he
      simp only [Option.some.injEq, Prod.mk.injEq] at h
      obtain ⟨rfl, -⟩ := h
      left; simp [he]
    · split at h
      · rename_i hh
        simp only [Option.some.injEq, Prod.mk.injEq] at h
        obtain ⟨-, rfl⟩ := h
        right
        simp only [Bool.or_eq_true, decide_eq_true_eq] at hh
        rcases hh with hh | hh
        · exact stop_front' hc hk hh
        · simp [Front, isEolOrTerminator, hh]
      · simp at h

theorem untilB_none_mem {m : Token → Bool} : ∀ {ts}, untilB [] m ts = none → ∀ t ∈ ts, m t = false
  | [], _, _, h => by cases h
  | u :: ts, h, t, ht => by
    rw [untilB, if_neg (by simp [stopAt])] at h
    split at h
    · cases h
    · rename_i hu
      simp only [Option.map_eq_none_iff] at h
      rcases List.mem_cons.1 ht with rfl | ht
      · simpa using hu
      · exact untilB_none_mem h t ht

/-- A first column needs a line break before it. -/
theorem Cols.break_before : ∀ {t : Token} {r}, Cols (t :: r) → isEolOrTerminator t = false →
    (∀ u ∈ r, isEolOrTerminator u = false) → ∀ u ∈ r, col0 u = false
  | _, [], _, _, _, _, h => by cases h
  | t, v :: r, hc, ht, hr, u, hu => by
    have hv : col0 v = false := by
      cases h : col0 v with
      | false => rfl
      | true => rw [hc.1.2 h] at ht; cases ht
    rcases List.mem_cons.1 hu with rfl | hu
    · exact hv
    · exact Cols.break_before hc.2 (hr v (by simp)) (fun x hx => hr x (by simp [hx])) u hu

theorem kind_noBreak {t : Token} {k : TokenKind} (h : t.kind = k) (h1 : k ≠ .Eol) (h2 : k ≠ .Terminator) :
    isEolOrTerminator t = false := by
  simp [isEolOrTerminator, h, h1, h2]

theorem backtick3_noBreak {t} (h : isBacktick3 t = true) : isEolOrTerminator t = false := by
  simp only [isBacktick3, Bool.and_eq_true, decide_eq_true_eq] at h
  exact kind_noBreak h.1.1 (by decide) (by decide)

theorem untilB_mem {stops m ts b c r} (h : untilB stops m ts = some (b, c, r)) : m c = true := by
  induction ts generalizing b with
  | nil => simp [untilB] at h
  | cons t ts ih =>
    rw [untilB] at h
    split at h
    · cases h
    · split at h
      · simp only [Option.some.injEq, Prod.mk.injEq] at h
        obtain ⟨-, rfl, -⟩ := h; assumption
      · simp only [Option.map_eq_some_iff] at h
        obtain ⟨⟨b', c', r'⟩, h1, h2⟩ := h
        simp only [Prod.mk.injEq] at h2
        obtain ⟨-, rfl, rfl⟩ := h2
        exact ih h1

theorem codeRestB_lay {stops o m r b rest} (h : codeRestB stops o m r = some (b, rest)) (hc : Cols r)
    (ho : OpensWith o m) : b.Lay rest := by
  unfold codeRestB at h
  split at h
  · cases h
  · rename_i b' c r' hu
    simp only [Option.map_eq_some_iff] at h
    obtain ⟨⟨x, y⟩, h1, h2⟩ := h
    simp only [Prod.mk.injEq] at h2
    obtain ⟨rfl, rfl⟩ := h2
    rw [untilB_length hu] at hc
    exact ⟨ho, closeLineB_lay h1 hc.right (backtick3_noBreak (untilB_mem hu))⟩

theorem optModB_none {stops ts} (h : (optModB stops ts).1 = none) :
    (optModB stops ts).2 = ts ∧ (tokenIs ts 0 col0 = true ∨ untilB stops isEolOrTerminator ts = none) := by
  unfold optModB at h ⊢
  split at h
  · cases h
  · rename_i hm
    refine ⟨rfl, ?_⟩
    unfold modifierB at hm
    split at hm
    · rename_i h0; exact .inl h0
    · right; simpa using hm

theorem tokenIs_col {t : Token} {r} (hc : Cols (t :: r)) (ht : isEolOrTerminator t = false) :
    tokenIs r 0 col0 = false := by
  cases r with
  | nil => rfl
  | cons u r =>
    rw [tokenIs_zero]
    cases h : col0 u with
    | false => rfl
    | true => rw [hc.1.2 h] at ht; cases ht

theorem codeB_lay {stops ts b rest} (h : codeB stops ts = some (b, rest)) (hc : Cols ts) : b.Lay rest := by
  unfold codeB at h
  split at h
  · cases h
  · rename_i t r
    split at h
    · rename_i ht
      split at h
      · rename_i he
        cases r with
        | nil => simp [tokenIs] at he
        | cons e r =>
          rw [tokenIs_zero] at he
          refine codeRestB_lay h hc.tail.tail ?_
          simp [OpensWith, he]
      · have hcr : Cols (optModB [] r).2 := by
          have := hc.tail
          rw [optModB_toks [] r] at this
          exact this.right
        refine codeRestB_lay h hcr ?_
        have hnb := backtick3_noBreak ht
        have he : isEol t = false := by
          cases h0 : isEol t with
          | false => rfl
          | true =>
            simp only [isEol, decide_eq_true_eq] at h0
            simp [isEolOrTerminator, h0] at hnb
        simp only [OpensWith, List.any_cons, he, List.any_nil, Bool.or_self, iff_true]
        cases hm : (optModB [] r).1 with
        | some m => rfl
        | none =>
          exfalso
          obtain ⟨e2, h0⟩ := optModB_none hm
          have hnone : untilB [] isEolOrTerminator r = none := by
            rcases h0 with h0 | h0
            · rw [tokenIs_col hc hnb] at h0; cases h0
            · exact h0
          have h1 := Cols.break_before hc hnb (untilB_none_mem hnone)
          unfold codeRestB at h
          rw [e2] at h
          split at h
          · cases h
          · rename_i b' c r' hu
            have h2 := untilB_mem hu
            have h3 := h1 c (by rw [untilB_length hu]; simp)
            simp [isBacktick3, h3] at h2
    · cases h

theorem embedB_lay {stops ts b rest} (h : embedB stops ts = some (b, rest)) (hc : Cols ts) : b.Lay rest := by
  unfold embedB at h
  split at h
  · cases h
  · rename_i t r
    split at h
    · split at h
      · cases h
      · rename_i l p r1 hu
        split at h
        · cases h
        · rename_i a c r2 hu2
          simp only [Option.map_eq_some_iff] at h
          obtain ⟨⟨x, y⟩, h1, h2⟩ := h
          simp only [Prod.mk.injEq] at h2
          obtain ⟨rfl, rfl⟩ := h2
          have hk := untilB_mem hu2
          simp only [isRightCurly2, Bool.and_eq_true, decide_eq_true_eq] at hk
          have hc1 := hc.tail
          rw [untilB_length hu] at hc1
          have hc2 := hc1.right.tail
          rw [untilB_length hu2] at hc2
          exact closeLineB_lay h1 hc2.right (kind_noBreak hk.1 (by decide) (by decide))
    · cases h

theorem untilB_before {stops m ts b c r} (h : untilB stops m ts = some (b, c, r)) : ∀ t ∈ b, m t = false := by
  induction ts generalizing b with
  | nil => simp [untilB] at h
  | cons t ts ih =>
    rw [untilB] at h
    split at h
    · cases h
    · split at h
      · simp only [Option.some.injEq, Prod.mk.injEq] at h
        obtain ⟨rfl, -, -⟩ := h
        intro t ht; cases ht
      · rename_i hm
        simp only [Option.map_eq_some_iff] at h
        obtain ⟨⟨b', c', r'⟩, h1, h2⟩ := h
        simp only [Prod.mk.injEq] at h2
        obtain ⟨rfl, rfl, rfl⟩ := h2
        intro u hu
        rcases List.mem_cons.1 hu with rfl | hu
        · simpa using hm
        · exact ih h1 u hu

theorem optIconB_lay {stops ts x} (h : (optIconB stops ts).1 = some x) (hT : .Terminator ∈ stops) : x.OneLine := by
  have hok := iconB_ok (ts := ts) hT
  rw [h] at hok
  unfold optIconB at h
  split at h
  · rename_i m r hi
    cases h
    unfold iconB at hi
    split at hi
    · simp only [Option.map_eq_some_iff] at hi
      obtain ⟨⟨b, c, r'⟩, h1, h2⟩ := hi
      simp only [Prod.mk.injEq] at h2
      obtain ⟨rfl, rfl⟩ := h2
      intro t ht
      have e1 := untilB_before h1 t ht
      have e2 := hok.2.1 t ht
      simp only [isEol, decide_eq_false_iff_not] at e1
      simp [isEolOrTerminator, e1, e2]
    · cases hi
  · cases h

theorem hlRestB_lay {stops o m r b rest} (h : hlRestB stops o m r = some (b, rest)) (ho : OpensWith o m) :
    b.Lay rest := by
  unfold hlRestB at h
  simp only at h
  split at h
  · simp only [Option.map_eq_some_iff] at h
    obtain ⟨y, -, h2⟩ := h
    simp only [Prod.mk.injEq] at h2
    obtain ⟨rfl, rfl⟩ := h2
    exact ⟨ho, fun x hx => optIconB_lay hx (by simp)⟩
  · cases h

theorem space_noBreak {t} (h : isSpace1 t = true) : isEolOrTerminator t = false := by
  simp only [isSpace1, Bool.and_eq_true, decide_eq_true_eq] at h
  exact kind_noBreak h.1 (by decide) (by decide)

theorem eol_false {t} (h : isEolOrTerminator t = false) : isEol t = false := by
  simp only [isEolOrTerminator, Bool.or_eq_false_iff, decide_eq_false_iff_not] at h
  simp [isEol, h.1]

theorem highlightB_lay {stops ts b rest} (h : highlightB stops ts = some (b, rest)) (hc : Cols ts) :
    b.Lay rest := by
  unfold highlightB at h
  split at h
  · rename_i hh
    match ts, hc with
    | [], _ => simp [tokenIs] at hh
    | [_], _ => simp [tokenIs] at hh
    | t :: u :: r, hc =>
      have e1 : tokenIs (t :: u :: r) 1 isEol = isEol u := rfl
      have e0 : tokenIs (t :: u :: r) 0 isTwoBangs = isTwoBangs t := rfl
      have e2 : tokenIs (t :: u :: r) 1 (fun t => isSpace1 t || isEol t) = (isSpace1 u || isEol u) := rfl
      rw [e0, e2] at hh
      simp only [Bool.and_eq_true, Bool.or_eq_true] at hh
      have ht : isEolOrTerminator t = false := by
        have := hh.1
        simp only [isTwoBangs, Bool.and_eq_true, decide_eq_true_eq] at this
        exact kind_noBreak this.1.1 (by decide) (by decide)
      rw [e1] at h
      split at h
      · rename_i hu
        exact hlRestB_lay h (by simp [OpensWith, hu])
      · rename_i hu
        have hsp : isSpace1 u = true := by
          rcases hh.2 with h0 | h0
          · exact h0
          · exact absurd h0 hu
        have hub := space_noBreak hsp
        simp only [List.drop_succ_cons, List.drop_zero, List.take_succ_cons, List.take_zero] at h
        refine hlRestB_lay h ?_
        simp only [OpensWith, List.any_cons, eol_false ht, eol_false hub, List.any_nil, Bool.or_self, iff_true]
        cases hm : (optModB stops r).1 with
        | some m => rfl
        | none =>
          exfalso
          rw [(optModB_none hm).1] at h
          have hcr := tokenIs_col hc.2 hub
          unfold hlRestB at h
          simp only at h
          have hi : optIconB (.Terminator :: stops) r = (none, r) := by
            unfold optIconB iconB
            have : tokenIs r 0 isOneBang = false := by
              cases r with
              | nil => rfl
              | cons v r =>
                rw [tokenIs_zero] at hcr ⊢
                simp [isOneBang, hcr]
            simp [this]
          rw [hi, if_neg (by simp [hcr])] at h
          cases h
  · cases h

theorem linkB_last {stops ts l r} (h : linkB stops ts = some (l, r)) :
    ∃ a t, ts = a ++ t :: r ∧ isEolOrTerminator t = false := by
  have h1 := linkB_toks h
  have hok := (linkB_ok h).1
  refine ⟨l.title.toks ++ (l.dest.opening :: l.dest.body), l.dest.closing, ?_, ?_⟩
  · rw [h1]; simp [Link.toks, Delim.toks]
  · exact kind_noBreak hok.2.2.2.2.2 (by decide) (by decide)

theorem imageB_lay {stops ts i r} (h : imageB stops ts = some (i, r)) (hc : Cols ts) : Front (i.eol ++ r) := by
  unfold imageB at h
  split at h
  · cases h
  · rename_i t ts'
    split at h
    · split at h
      · cases h
      · rename_i l r1 hl
        obtain ⟨a, c, e, hk⟩ := linkB_last hl
        split at h
        · rename_i he
          simp only [Option.some.injEq, Prod.mk.injEq] at h
          obtain ⟨rfl, rfl⟩ := h
          simp only [List.take_append_drop]
          cases r1 with
          | nil => trivial
          | cons u r1 =>
            rw [tokenIs_zero] at he
            simp only [isEol, decide_eq_true_eq] at he
            simp [Front, isEolOrTerminator, he]
        · split at h
          · rename_i hs
            simp only [Option.some.injEq, Prod.mk.injEq] at h
            obtain ⟨rfl, rfl⟩ := h
            have := hc.tail
            rw [e] at this
            exact stop_front' this.right hk hs
          · cases h
    · cases h

theorem imagesB_lay {stops} (ts : List Token) : ∀ {l r}, imagesB stops ts = some (l, r) → Cols ts →
    ImgsLay l r ∧ stopAt stops r = true := by
  induction ts using imagesB_ind stops with
  | none ts h =>
    intro l r hl _
    rw [imagesB_none h] at hl
    split at hl
    · rename_i hs
      simp only [Option.some.injEq, Prod.mk.injEq] at hl
      obtain ⟨rfl, rfl⟩ := hl
      exact ⟨trivial, hs⟩
    · cases hl
  | some ts i r h ih =>
    intro l r' hl hc
    rw [imagesB_some h] at hl
    simp only [Option.map_eq_some_iff] at hl
    obtain ⟨⟨l', r''⟩, h1, h2⟩ := hl
    simp only [Prod.mk.injEq] at h2
    obtain ⟨rfl, rfl⟩ := h2
    have hc' : Cols r := by
      rw [imageB_toks h] at hc; exact hc.right
    have := ih h1 hc'
    refine ⟨⟨?_, this.1⟩, this.2⟩
    have e := imagesB_toks _ (Nat.le_refl _) h1
    rw [← e]
    exact imageB_lay h hc

/-- The blocks that end at a blank line. -/
def Block.isText : Block → Bool
  | .images _ | .heading _ _ | .para _ => true
  | _ => false

theorem leafB_lay (stops : List Stop) (ts : List Token) (hc : Cols ts) :
    (leafB stops ts).1.Lay (leafB stops ts).2 ∧
      ((leafB stops ts).1.isText = true → stopAt stops (leafB stops ts).2 = true) := by
  rcases leafB_cases stops ts with ⟨k, m, p, n, r, rest, h1, h2⟩ | ⟨i, l, r, h1, h2⟩ | h | h | h
  · rw [h2]; exact ⟨trivial, fun h => by cases h⟩
  · rw [h2]
    have := imagesB_lay _ h1 hc
    exact ⟨this.1, fun _ => this.2⟩
  · cases ts with
    | nil => simp [thematicB] at h
    | cons t ts =>
      rw [thematicB] at h
      split at h
      · simp only [Option.some.injEq] at h
        rw [← h]; exact ⟨trivial, fun h => by cases h⟩
      · cases h
  · unfold headingB at h
    split at h
    · simp only [Option.some.injEq] at h
      rw [← h]; exact ⟨trivial, fun _ => headB_rest _ _⟩
    · cases h
  · rw [h]; exact ⟨trivial, fun _ => paraB_rest _ _⟩

theorem otherB_lay (stops : List Stop) (ts : List Token) (hc : Cols ts) :
    (otherB stops ts).1.Lay (otherB stops ts).2 ∧
      ((otherB stops ts).1.isText = true → stopAt (.Terminator :: stops) (otherB stops ts).2 = true) := by
  rcases otherB_cases stops ts with h | h | h
  · refine ⟨embedB_lay h hc, ?_⟩
    cases ts with
    | nil => simp [embedB] at h
    | cons t ts =>
      unfold embedB at h
      simp only at h
      split at h
      · split at h
        · cases h
        · split at h
          · cases h
          · simp only [Option.map_eq_some_iff] at h
            obtain ⟨y, -, h2⟩ := h
            rw [← h2]; intro h; cases h
      · cases h
  · refine ⟨highlightB_lay h hc, ?_⟩
    have key : ∀ {o m r x}, hlRestB stops o m r = some x → x.1.isText = false := by
      intro o m r x hx
      unfold hlRestB at hx
      simp only at hx
      split at hx
      · simp only [Option.map_eq_some_iff] at hx
        obtain ⟨y, -, h2⟩ := hx
        rw [← h2]; rfl
      · cases hx
    unfold highlightB at h
    intro h0
    split at h
    · split at h
      all_goals rw [key h] at h0; cases h0
    · cases h
  · rw [h]; exact leafB_lay _ _ hc

end Yamd.Ref
