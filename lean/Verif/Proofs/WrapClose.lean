import Verif.Proofs.WrapTail

/-!
# The closing line of a collapsible after a document (C66): documents
-/

namespace Yamd.Ref

open Yamd Yamd.Spec Yamd.Round

theorem tokenIs_left {ts E : List Token} {i : Nat} {f : Token → Bool} (h : i < ts.length) :
    tokenIs (ts ++ E) i f = tokenIs ts i f := by
  unfold tokenIs
  rw [List.getElem?_append_left h]

section
variable {e c : Token} {R : List Token} (he : e.kind = .Eol) (hc : isCollapsibleEnd c = true)

/-- Read with the closing line behind: the same, or the line break before it is taken. -/
def Shut (e c : Token) (R : List Token) (src : Str) (x y : Block × List Token) : Prop :=
  y = mapE (e :: c :: R) x ∨ (x.2 = [] ∧ y.2 = c :: R ∧ y.1.denote src = x.1.denote src)

include he

theorem untilB_emore {S : List Stop} {m : Token → Bool} : ∀ {ts b d r}, untilB S m ts = some (b, d, r) →
    untilB S m (ts ++ e :: c :: R) = some (b, d, r ++ e :: c :: R) := by
  intro ts
  induction ts with
  | nil => intro b c r h; simp [untilB] at h
  | cons t ts ih =>
    intro b d r h
    rw [untilB] at h
    rw [List.cons_append, untilB, stopAt_cons_etail he]
    split at h
    · simp at h
    · rename_i hs
      rw [if_neg hs]
      split at h
      · rename_i hm
        rw [if_pos hm]
        simp only [Option.some.injEq, Prod.mk.injEq] at h
        obtain ⟨rfl, rfl, rfl⟩ := h; rfl
      · rename_i hm
        rw [if_neg hm]
        simp only [Option.map_eq_some_iff] at h
        obtain ⟨⟨b', c', r'⟩, h1, h2⟩ := h
        simp only [Prod.mk.injEq] at h2
        obtain ⟨rfl, rfl, rfl⟩ := h2
        rw [ih h1]; rfl

theorem untilB_efail {S : List Stop} {m : Token → Bool} : ∀ {ts}, untilB S m ts = none →
    untilB S m (ts ++ e :: c :: R) = none ∨ ∀ t ∈ ts, m t = false := by
  intro ts
  induction ts with
  | nil => intro _; right; simp
  | cons t ts ih =>
    intro h
    rw [untilB] at h
    rw [List.cons_append, untilB, stopAt_cons_etail he]
    split at h
    · rename_i hs; left; rw [if_pos hs]
    · rename_i hs
      split at h
      · simp at h
      · rename_i hm
        rw [if_neg hs, if_neg hm]
        rw [Option.map_eq_none_iff] at h
        rcases ih h with h1 | h1
        · left; rw [h1]; rfl
        · right
          intro u hu
          rcases List.mem_cons.1 hu with rfl | hu
          · simpa using hm
          · exact h1 u hu

/-- The line of a closing mark: with the line break behind it when there was nothing. -/
theorem closeLineB_emore {S : List Stop} {d : Token} {r x} (h : closeLineB S d r = some x) :
    closeLineB S d (r ++ e :: c :: R) = some (if r = [] then ([d, e], c :: R) else (x.1, x.2 ++ e :: c :: R)) := by
  cases r with
  | nil => simp [closeLineB, isEol, he]
  | cons t r =>
    rw [closeLineB] at h
    rw [List.cons_append, closeLineB, stopAt_cons_etail he]
    split at h
    · rename_i he
      rw [if_pos he]
      simp only [Option.some.injEq] at h; subst h; rfl
    · rename_i he
      rw [if_neg he]
      split at h
      · rename_i h2
        rw [if_pos h2]
        simp only [Option.some.injEq] at h; subst h; rfl
      · simp at h

omit he in
theorem closeLineB_end {S : List Stop} {d : Token} {r x} (h : closeLineB S d r = some x) (h0 : r = []) :
    x = ([d], []) := by
  subst h0
  simpa [closeLineB] using h.symm

theorem codeRestB_emore {src S o m r x} (h : codeRestB S o m r = some x) :
    ∃ y, codeRestB S o m (r ++ e :: c :: R) = some y ∧ Shut e c R src x y := by
  unfold codeRestB at h ⊢
  cases hu : untilB [] isBacktick3 r with
  | none => rw [hu] at h; simp at h
  | some y =>
    obtain ⟨b, d, r'⟩ := y
    rw [hu] at h
    simp only [Option.map_eq_some_iff] at h
    obtain ⟨z, h1, rfl⟩ := h
    rw [untilB_emore he hu]
    simp only
    rw [closeLineB_emore he h1]
    refine ⟨_, rfl, ?_⟩
    by_cases h0 : r' = []
    · rw [if_pos h0]
      have := closeLineB_end h1 h0
      subst this
      exact .inr ⟨rfl, rfl, rfl⟩
    · rw [if_neg h0]; exact .inl rfl

theorem modifierB_emore {S r x} (h : modifierB S r = some x) :
    modifierB S (r ++ e :: c :: R) = some (mapE (e :: c :: R) x) := by
  unfold modifierB at h ⊢
  split at h
  · simp at h
  · rename_i hc
    simp only [Option.map_eq_some_iff] at h
    obtain ⟨⟨b, c, r'⟩, h1, rfl⟩ := h
    have hne : r ≠ [] := by rintro rfl; simp [untilB] at h1
    rw [tokenIs_left (List.length_pos_iff.2 hne), if_neg hc, untilB_emore he h1]; rfl

theorem optModB_emore {S r} (hr : r ≠ [])
    (h : modifierB S r = none → tokenIs r 0 col0 = false → ∃ t ∈ r, isEolOrTerminator t = true) :
    optModB S (r ++ e :: c :: R) = mapE (e :: c :: R) (optModB S r) := by
  unfold optModB
  cases hm : modifierB S r with
  | some x => rw [modifierB_emore he hm]; rfl
  | none =>
    have : modifierB S (r ++ e :: c :: R) = none := by
      have h := h hm
      unfold modifierB at hm ⊢
      rw [tokenIs_left (List.length_pos_iff.2 hr)]
      split at hm
      · rename_i hcol; rw [if_pos hcol]
      · rename_i hcol
        rw [if_neg hcol]
        rw [Option.map_eq_none_iff] at hm
        rcases untilB_efail (c := c) (R := R) he hm with h1 | h1
        · rw [h1]; rfl
        · obtain ⟨t, ht, hx⟩ := h (by simpa using hcol)
          rw [h1 t ht] at hx; simp at hx
    rw [this]; rfl

theorem embedB_emore {src S ts x} (h : embedB S ts = some x) :
    ∃ y, embedB S (ts ++ e :: c :: R) = some y ∧ Shut e c R src x y := by
  cases ts with
  | nil => simp [embedB] at h
  | cons t r =>
    rw [List.cons_append]
    unfold embedB at h ⊢
    simp only at h ⊢
    split at h
    · rename_i ho
      rw [if_pos ho]
      cases hu : untilB S isPipe r with
      | none => rw [hu] at h; simp at h
      | some y =>
        obtain ⟨l, p, r1⟩ := y
        rw [hu] at h
        simp only at h
        rw [untilB_emore he hu]
        simp only
        cases hv : untilB S isRightCurly2 r1 with
        | none => rw [hv] at h; simp at h
        | some y =>
          obtain ⟨a, d, r2⟩ := y
          rw [hv] at h
          simp only [Option.map_eq_some_iff] at h
          obtain ⟨z, h1, rfl⟩ := h
          rw [untilB_emore he hv]
          simp only
          rw [closeLineB_emore he h1]
          refine ⟨_, rfl, ?_⟩
          by_cases h0 : r2 = []
          · rw [if_pos h0]
            have := closeLineB_end h1 h0
            subst this
            exact .inr ⟨rfl, rfl, rfl⟩
          · rw [if_neg h0]; exact .inl rfl
    · simp at h

theorem iconB_etail {S : List Stop} (hS : stopAt S (e :: c :: R) = true) (ts : List Token) :
    iconB S (ts ++ e :: c :: R) = (iconB S ts).map (mapE (e :: c :: R)) := by
  unfold iconB
  rw [tokenIs_ext1 (by simp [isOneBang, he]) (eT_space1 he)]
  split
  · rename_i h
    rw [Bool.and_eq_true] at h
    have := tokenIs_length h.2
    rw [List.take_append_of_le_length (by omega), List.drop_append_of_le_length (by omega), untilB_etail he hS]
    cases untilB S isEol (ts.drop 2) <;> rfl
  · rfl

theorem optIconB_etail {S : List Stop} (hS : stopAt S (e :: c :: R) = true) (ts : List Token) (hl : ts ≠ []) :
    optIconB S (ts ++ e :: c :: R) = mapE (e :: c :: R) (optIconB S ts) := by
  unfold optIconB
  rw [iconB_etail he hS ts]
  cases iconB S ts <;> rfl

/-- The paragraphs and the closing line of a highlight. -/
theorem hlParasB_emore {S ts l d r} (hS : stopAt S (e :: c :: R) = true) (h : hlParasB S ts = some (l, d, r)) :
    ∃ d' r', hlParasB S (ts ++ e :: c :: R) = some (l, d', r') ∧
      ((d' = d ∧ r' = r ++ e :: c :: R) ∨ (r = [] ∧ r' = c :: R)) := by
  have hb2 : isTwoBangs e = false := by simp [isTwoBangs, he]
  have ne : ∀ {ts}, stopAt S ts = false → ts ≠ [] := by rintro ts h rfl; simp [stopAt] at h
  refine hlParasB_ind S (P := fun ts l d r => ∃ d' r', hlParasB S (ts ++ e :: c :: R) = some (l, d', r') ∧
      ((d' = d ∧ r' = r ++ e :: c :: R) ∨ (r = [] ∧ r' = c :: R)))
    ?_ ?_ ?_ ts l d r h
  · intro ts hs hb h1
    have := tokenIs_length h1
    refine ⟨ts.take 2, ts.drop 2 ++ e :: c :: R, ?_, .inl ⟨rfl, rfl⟩⟩
    rw [hlParasB.eq_def, stopAt_more_e he (ne hs), hs, tokenIs_more _ hb, tokenIs_more _ h1,
      List.take_append_of_le_length (by omega), List.drop_append_of_le_length (by omega)]
    rfl
  · intro ts hs hb h1
    have hl := tokenIs_length hb
    by_cases h2 : ts.length = 1
    · match ts, h2 with
      | [t], _ =>
        refine ⟨[t, e], c :: R, ?_, .inr ⟨rfl, rfl⟩⟩
        rw [hlParasB.eq_def, stopAt_more_e he (ne hs), hs, tokenIs_more _ hb]
        simp [tokenIs, isEol, he]
    · refine ⟨ts.take 1, ts.drop 1 ++ e :: c :: R, ?_, .inl ⟨rfl, rfl⟩⟩
      rw [hlParasB.eq_def, stopAt_more_e he (ne hs), hs, tokenIs_more _ hb, tokenIs_left (by omega), h1]
      simp only [Bool.false_eq_true, if_false, if_true]
      rw [List.take_append_of_le_length (by omega), List.drop_append_of_le_length (by omega)]
  · rintro ts l d r hs hb hl ⟨d', r', ih, hor⟩
    have hne := ne hs
    have ht : termB (ts ++ e :: c :: R) = mapE (e :: c :: R) (termB ts) := by
      unfold termB
      cases ts with
      | nil => exact absurd rfl hne
      | cons t r =>
        have : tokenIs (t :: r ++ e :: c :: R) 0 isTerminator = tokenIs (t :: r) 0 isTerminator := rfl
        rw [this]
        split <;> rfl
    refine ⟨d', r', ?_, hor⟩
    rw [hlParasB.eq_def, stopAt_more_e he hne, hs, tokenIs_ext0 hb2, hb]
    have hp := paraB_etail he (S := .Terminator :: .HighlightEnd :: S) (stop_more _ (stop_more _ hS)) [] (termB ts).2
    simp only [ht, mapE] at hp ⊢
    rw [hp]
    simp only [Bool.false_eq_true, if_false]
    rw [dif_pos (by simp only [List.length_append]; omega), ih]
    rfl

theorem hlRestB_emore {src S o m r x} (hS : stopAt S (e :: c :: R) = true) (h : hlRestB S o m r = some x) :
    ∃ y, hlRestB S o m (r ++ e :: c :: R) = some y ∧ Shut e c R src x y := by
  have hne : r ≠ [] := by
    rintro rfl
    simp [hlRestB, optIconB, iconB, tokenIs] at h
  unfold hlRestB at h ⊢
  simp only at h ⊢
  rw [optIconB_etail he (stop_more _ hS) r hne]
  split at h
  · rename_i hc
    have hc' : tokenIs (mapE (e :: c :: R) (optIconB (.Terminator :: S) r)).2 0 col0 = true := tokenIs_more _ hc
    rw [if_pos hc']
    simp only [mapE]
    simp only [Option.map_eq_some_iff] at h
    obtain ⟨⟨l, d, r'⟩, h1, rfl⟩ := h
    obtain ⟨d', r'', h2, hor⟩ := hlParasB_emore he hS h1
    rw [h2]
    refine ⟨_, rfl, ?_⟩
    rcases hor with ⟨rfl, rfl⟩ | ⟨rfl, rfl⟩
    · exact .inl rfl
    · exact .inr ⟨rfl, rfl, rfl⟩
  · simp at h

theorem highlightB_emore {src S ts x} (hS : stopAt S (e :: c :: R) = true) (h : highlightB S ts = some x) :
    ∃ y, highlightB S (ts ++ e :: c :: R) = some y ∧ Shut e c R src x y := by
  unfold highlightB at h ⊢
  split at h
  · rename_i hh
    rw [Bool.and_eq_true] at hh
    have hl := tokenIs_length hh.2
    rw [tokenIs_left (by omega), tokenIs_left (by omega), tokenIs_left (by omega), hh.1, hh.2]
    rw [List.take_append_of_le_length (by omega), List.drop_append_of_le_length (by omega)]
    simp only [Bool.and_self, if_true]
    split at h
    · rename_i h1
      rw [if_pos h1]
      exact hlRestB_emore he hS h
    · rename_i h1
      rw [if_neg h1]
      have hne : ts.drop 2 ≠ [] := by
        intro e0
        rw [e0] at h
        rw [hlRestB_line (by rfl) (by simp [optModB, modifierB, tokenIs, untilB])] at h
        simp at h
      rw [optModB_emore he hne]
      · exact hlRestB_emore he hS h
      · intro hm hcol
        by_contra hcon
        have hn : ∀ t ∈ ts.drop 2, isEolOrTerminator t = false := by
          intro t ht
          by_contra hx
          exact hcon ⟨t, ht, by simpa using hx⟩
        have e0 : optModB S (ts.drop 2) = (none, ts.drop 2) := by unfold optModB; rw [hm]
        rw [e0] at h
        simp only at h
        rw [hlRestB_line hcol hn] at h
        simp at h
  · simp at h

theorem codeB_emore {src S t r x} (hcol : Cols (t :: r)) (h : codeB S (t :: r) = some x) :
    ∃ y, codeB S (t :: (r ++ e :: c :: R)) = some y ∧ Shut e c R src x y := by
  unfold codeB at h ⊢
  simp only at h ⊢
  split at h
  · rename_i ho
    rw [if_pos ho]
    have hne : r ≠ [] := by
      rintro rfl
      simp [optModB, modifierB, tokenIs, untilB, codeRestB] at h
    have hpos := List.length_pos_iff.2 hne
    rw [tokenIs_left hpos]
    split at h
    · rename_i h1
      rw [if_pos h1, List.take_append_of_le_length (by omega), List.drop_append_of_le_length (by omega)]
      exact codeRestB_emore he h
    · rename_i h1
      rw [if_neg h1]
      rw [optModB_emore he hne]
      · exact codeRestB_emore he h
      · intro hm h0
        have e0 : optModB [] r = (none, r) := by unfold optModB; rw [hm]
        rw [e0] at h
        unfold codeRestB at h
        cases hu : untilB [] isBacktick3 r with
        | none => rw [hu] at h; simp at h
        | some y =>
          obtain ⟨b, d, r'⟩ := y
          have h2 := untilB_mem hu
          have hmem : d ∈ r := by rw [untilB_length hu]; simp
          simp only [isBacktick3, Bool.and_eq_true] at h2
          exact hcol.tail.break_within hmem h2.1.2 h0
  · simp at h

theorem collOpenB_emore {S ts o m r} (h : collOpenB S ts = some (o, m, r)) :
    collOpenB S (ts ++ e :: c :: R) = some (o, m, r ++ e :: c :: R) := by
  unfold collOpenB at h ⊢
  split at h
  · rename_i hh
    rw [Bool.and_eq_true] at hh
    have hl := tokenIs_length hh.2
    rw [tokenIs_left (by omega), tokenIs_left (by omega), hh.1, hh.2]
    rw [List.take_append_of_le_length (by omega), List.drop_append_of_le_length (by omega)]
    simp only [Bool.and_self, if_true]
    split at h
    · rename_i hcol
      have hne : ts.drop 2 ≠ [] := by
        intro e0
        rw [e0] at hcol
        simp [optModB, modifierB, tokenIs, untilB] at hcol
      rw [optModB_emore he hne]
      · have hc' : tokenIs (mapE (e :: c :: R) (optModB S (ts.drop 2))).2 0 col0 = true := tokenIs_more _ hcol
        rw [if_pos hc']
        simp only [Option.some.injEq, Prod.mk.injEq] at h
        obtain ⟨rfl, rfl, rfl⟩ := h
        rfl
      · intro hm h0
        have e0 : optModB S (ts.drop 2) = (none, ts.drop 2) := by unfold optModB; rw [hm]
        rw [e0] at hcol
        rw [h0] at hcol
        simp at hcol
    · simp at h
  · simp at h

omit he in
theorem skipEolB_left {ts E : List Token} (h : ts ≠ []) : skipEolB (ts ++ E) = mapE E (skipEolB ts) := by
  have hpos := List.length_pos_iff.2 h
  unfold skipEolB
  rw [tokenIs_left hpos]
  split
  · rw [List.take_append_of_le_length (by omega), List.drop_append_of_le_length (by omega)]
    rfl
  · rfl

theorem collCloseB_emore {ts d r} (h : collCloseB ts = some (d, r)) :
    ∃ d' r', collCloseB (ts ++ e :: c :: R) = some (d', r') ∧
      ((d' = d ∧ r' = r ++ e :: c :: R) ∨ (r = [] ∧ r' = c :: R)) := by
  unfold collCloseB at h ⊢
  split at h
  · rename_i h0
    have hl := tokenIs_length h0
    rw [if_pos (tokenIs_more _ h0)]
    by_cases h2 : ts.length = 1
    · match ts, h2 with
      | [t], _ =>
        simp [tokenIs] at h
        exact ⟨[t, e], c :: R, by simp [tokenIs, isEol, he], .inr ⟨by simpa using h.2.symm, rfl⟩⟩
    · rw [tokenIs_left (by omega)]
      split at h
      · rename_i h1
        have hl := tokenIs_length h1
        simp only [Option.some.injEq, Prod.mk.injEq] at h
        obtain ⟨rfl, rfl⟩ := h
        rw [if_pos h1, List.take_append_of_le_length (by omega), List.drop_append_of_le_length (by omega)]
        exact ⟨_, _, rfl, .inl ⟨rfl, rfl⟩⟩
      · rename_i h1
        simp only [Option.some.injEq, Prod.mk.injEq] at h
        obtain ⟨rfl, rfl⟩ := h
        rw [if_neg h1, List.take_append_of_le_length (by omega), List.drop_append_of_le_length (by omega)]
        exact ⟨_, _, rfl, .inl ⟨rfl, rfl⟩⟩
  · simp at h

/-! ### Images -/

theorem imageB_emore {S ts} (hS : stopAt S (e :: c :: R) = true) :
    (imageB S ts = none → imageB S (ts ++ e :: c :: R) = none) ∧
    ∀ i r, imageB S ts = some (i, r) → (r ≠ [] ∧ imageB S (ts ++ e :: c :: R) = some (i, r ++ e :: c :: R)) ∨
      (r = [] ∧ ∃ i' r', imageB S (ts ++ e :: c :: R) = some (i', r') ∧ (r' = c :: R ∨ r' = e :: c :: R) ∧
        i'.bang = i.bang ∧ i'.link = i.link ∧ (r' = e :: c :: R → i' = i)) := by
  cases ts with
  | nil =>
    refine ⟨fun _ => by simp [imageB, isBang1, he], fun i r h => ?_⟩
    simp [imageB] at h
  | cons t r =>
    rw [List.cons_append]
    unfold imageB
    simp only
    rw [linkB_etail he hS]
    cases hl : linkB S r with
    | none =>
      refine ⟨fun _ => by split <;> rfl, fun i q h => ?_⟩
      split at h <;> simp at h
    | some x =>
      obtain ⟨l, r'⟩ := x
      simp only [Option.map_some, mapE]
      cases hb : isBang1 t with
      | false => simp
      | true =>
        simp only [if_true]
        cases r' with
        | nil =>
          have h1 : tokenIs ([] ++ e :: c :: R) 0 isEol = true := by simp [tokenIs, isEol, he]
          have h2 : tokenIs ([] : List Token) 0 isEol = false := rfl
          rw [h1, h2]
          refine ⟨fun h => by simp [stopAt] at h, fun i q h => ?_⟩
          simp only [Bool.false_eq_true, if_false, stopAt, if_true, Option.some.injEq, Prod.mk.injEq] at h
          obtain ⟨rfl, rfl⟩ := h
          right
          refine ⟨rfl, ⟨t, l, [e]⟩, c :: R, by simp, .inl rfl, rfl, rfl, ?_⟩
          intro hx
          have := congrArg List.length hx
          simp at this
        | cons u q =>
          rw [tokenIs_left (by simp), stopAt_more_e he (by simp)]
          refine ⟨fun h => ?_, fun i q' h => ?_⟩
          · split at h
            · simp at h
            · rename_i h1
              rw [if_neg h1]
              split at h
              · simp at h
              · rename_i h2; rw [if_neg h2]
          · split at h
            · rename_i h1
              simp only [Option.some.injEq, Prod.mk.injEq] at h
              obtain ⟨rfl, rfl⟩ := h
              rw [if_pos h1]
              cases q with
              | nil => exact .inr ⟨rfl, _, _, rfl, .inr rfl, rfl, rfl, fun _ => rfl⟩
              | cons v q => exact .inl ⟨by simp, rfl⟩
            · rename_i h1
              rw [if_neg h1]
              split at h
              · rename_i h2
                simp only [Option.some.injEq, Prod.mk.injEq] at h
                obtain ⟨rfl, rfl⟩ := h
                rw [if_pos h2]
                exact .inl ⟨by simp, rfl⟩
              · simp at h

/-- Image lines: the same, or the last takes the line break. -/
theorem imagesB_emore {src : Str} {S} (hS : stopAt S (e :: c :: R) = true) (hS2 : stopAt S (c :: R) = true)
    (hcb : isBang1 c = false) (ts : List Token) :
    (imagesB S ts = none → imagesB S (ts ++ e :: c :: R) = none) ∧
    ∀ l r, imagesB S ts = some (l, r) →
      imagesB S (ts ++ e :: c :: R) = some (l, r ++ e :: c :: R) ∨
      (r = [] ∧ ∃ l', imagesB S (ts ++ e :: c :: R) = some (l', c :: R) ∧ l'.length = l.length ∧
        l'.map (Img.denote src) = l.map (Img.denote src)) := by
  have hend : ∀ {q}, (q = c :: R ∨ q = e :: c :: R) → imagesB S q = some ([], q) := by
    rintro q (rfl | rfl)
    · rw [imagesB_none (by simp [imageB, hcb]), if_pos hS2]
    · rw [imagesB_none (by simp [imageB, isBang1, he]), if_pos hS]
  induction ts using imagesB_ind S with
  | none ts h =>
    have h' := (imageB_emore (c := c) (R := R) he hS (ts := ts)).1 h
    rw [imagesB_none h, imagesB_none h', stopAt_etail he hS]
    refine ⟨fun hn => by split at hn <;> simp_all, fun l r hh => ?_⟩
    split at hh
    · rename_i hs
      simp only [Option.some.injEq, Prod.mk.injEq] at hh
      obtain ⟨rfl, rfl⟩ := hh
      left; rw [if_pos hs]
    · simp at hh
  | some ts i r h ih =>
    rcases (imageB_emore (c := c) (R := R) he hS (ts := ts)).2 i r h with ⟨hr, h'⟩ | ⟨rfl, i', r', h', hr', hb, hl, hi⟩
    · rw [imagesB_some h, imagesB_some h']
      refine ⟨fun hn => ?_, fun l q hh => ?_⟩
      · rw [Option.map_eq_none_iff] at hn ⊢
        exact ih.1 hn
      · simp only [Option.map_eq_some_iff] at hh
        obtain ⟨⟨l1, q1⟩, h1, h2⟩ := hh
        simp only [Prod.mk.injEq] at h2
        obtain ⟨rfl, rfl⟩ := h2
        rcases ih.2 l1 q1 h1 with h3 | ⟨rfl, l', h3, h4, h5⟩
        · left; rw [h3]; rfl
        · right
          exact ⟨rfl, i :: l', by rw [h3]; rfl, by simp [h4], by simp [h5]⟩
    · rw [imagesB_some h, imagesB_some h', hend hr']
      have h0 : imagesB S [] = some ([], []) := by rw [imagesB_none rfl]; rfl
      rw [h0]
      refine ⟨fun hn => by simp at hn, fun l q hh => ?_⟩
      simp only [Option.map_some, Option.some.injEq, Prod.mk.injEq] at hh
      obtain ⟨rfl, rfl⟩ := hh
      rcases hr' with rfl | rfl
      · right
        refine ⟨rfl, [i'], rfl, rfl, ?_⟩
        simp only [List.map_cons, List.map_nil, Img.denote, hl]
      · left
        rw [hi rfl]; rfl

theorem leafB_emore {src : Str} {S} (hS : stopAt S (e :: c :: R) = true) (hS2 : stopAt S (c :: R) = true)
    (hcb : isBang1 c = false) (ts : List Token) :
    Shut e c R src (leafB S ts) (leafB S (ts ++ e :: c :: R)) := by
  have him := imagesB_emore (src := src) he hS hS2 hcb ts
  unfold leafB
  rw [itemsB_etail he hS, thematicB_etail he, headingB_etail he hS, paraB_etail he hS]
  rcases itemsB S 0 none ts with ⟨i, r⟩
  have tail : ∀ {y : Option (List Img × List Token)}, (∀ i l r, y ≠ some (i :: l, r)) →
      Shut e c R src
        (match y with
          | some (i :: l, r) => (.images (i :: l), r)
          | _ => match thematicB ts with
            | some x => x
            | none => match headingB S ts with
              | some x => x
              | none => (.para (paraB S [] ts).1, (paraB S [] ts).2))
        (match Option.map (mapE (e :: c :: R)) (thematicB ts) with
            | some x => x
            | none => match Option.map (mapE (e :: c :: R)) (headingB S ts) with
              | some x => x
              | none => (.para (mapE (e :: c :: R) (paraB S [] ts)).1, (mapE (e :: c :: R) (paraB S [] ts)).2)) := by
    intro y hy
    left
    rcases y with _ | ⟨_ | ⟨i, l⟩, r⟩
    · cases thematicB ts with
      | some => rfl
      | none => cases headingB S ts <;> rfl
    · cases thematicB ts with
      | some => rfl
      | none => cases headingB S ts <;> rfl
    · exact absurd rfl (hy _ _ _)
  cases i with
  | cons => exact .inl rfl
  | nil =>
    simp only [mapE]
    cases hi : imagesB S ts with
    | none =>
      rw [him.1 hi]
      exact tail (y := none) (by simp)
    | some x =>
      obtain ⟨l, r⟩ := x
      cases l with
      | nil =>
        rcases him.2 _ _ hi with h | ⟨h0, l', h, hlen, -⟩
        · rw [h]; exact tail (y := some ([], r)) (by simp)
        · rw [h]
          have : l' = [] := by simpa using hlen
          subst this
          exact tail (y := some ([], r)) (by simp)
      | cons i l =>
        rcases him.2 _ _ hi with h | ⟨h0, l', h, hlen, hd⟩
        · rw [h]; exact .inl rfl
        · rw [h]
          right
          subst h0
          cases l' with
          | nil => simp at hlen
          | cons i' l' =>
            refine ⟨rfl, rfl, ?_⟩
            simp only
            cases l with
            | nil =>
              have : l' = [] := by simpa using hlen
              subst this
              simp only [List.map_cons, List.map_nil, List.cons.injEq, and_true] at hd
              simp [Block.denote, hd]
            | cons j l =>
              cases l' with
              | nil => simp at hlen
              | cons j' l' => simp only [Block.denote, hd]

end

end Yamd.Ref
