import Verif.Proofs.ParseEq

/-!
# Induction principles for the reference parser
-/

namespace Yamd.Ref

open Yamd

theorem paraB_ind (stops : List Stop) {P : List Token → List Token → Prop}
    (stop : ∀ acc ts, stopAt stops ts = true → P acc ts)
    (some : ∀ acc t r x r', stopAt stops (t :: r) = false → inlineB stops (t :: r) = some (x, r') →
      P [] r' → P acc (t :: r))
    (none : ∀ acc t r, stopAt stops (t :: r) = false → inlineB stops (t :: r) = none →
      P (acc ++ [t]) r → P acc (t :: r))
    (acc ts : List Token) : P acc ts := by
  have main : ∀ n (acc ts : List Token), ts.length ≤ n → P acc ts := by
    intro n
    induction n with
    | zero =>
      intro acc ts hn
      have : ts = [] := by simpa using hn
      subst this; exact stop _ _ rfl
    | succ n ih =>
      intro acc ts hn
      cases hs : stopAt stops ts with
      | true => exact stop _ _ hs
      | false =>
        cases ts with
        | nil => simp [stopAt] at hs
        | cons t r =>
          cases hi : inlineB stops (t :: r) with
          | none => exact none _ _ _ hs hi (ih _ _ (by simp at hn; omega))
          | some x =>
            obtain ⟨x, r'⟩ := x
            have := inlineB_length hi
            exact some _ _ _ _ _ hs hi (ih _ _ (by simp at hn this ⊢; omega))
  exact main _ acc ts (Nat.le_refl _)

theorem headB_ind (stops : List Stop) {P : List Token → List Token → Prop}
    (stop : ∀ acc ts, stopAt stops ts = true → P acc ts)
    (some : ∀ acc t r x r', stopAt stops (t :: r) = false → linkB stops (t :: r) = some (x, r') →
      P [] r' → P acc (t :: r))
    (none : ∀ acc t r, stopAt stops (t :: r) = false → linkB stops (t :: r) = none →
      P (acc ++ [t]) r → P acc (t :: r))
    (acc ts : List Token) : P acc ts := by
  have main : ∀ n (acc ts : List Token), ts.length ≤ n → P acc ts := by
    intro n
    induction n with
    | zero =>
      intro acc ts hn
      have : ts = [] := by simpa using hn
      subst this; exact stop _ _ rfl
    | succ n ih =>
      intro acc ts hn
      cases hs : stopAt stops ts with
      | true => exact stop _ _ hs
      | false =>
        cases ts with
        | nil => simp [stopAt] at hs
        | cons t r =>
          cases hi : linkB stops (t :: r) with
          | none => exact none _ _ _ hs hi (ih _ _ (by simp at hn; omega))
          | some x =>
            obtain ⟨x, r'⟩ := x
            have := linkB_length hi
            exact some _ _ _ _ _ hs hi (ih _ _ (by simp at hn this ⊢; omega))
  exact main _ acc ts (Nat.le_refl _)

theorem boldItemsB_ind (stops : List Stop) {P : List Token → List Token → Prop}
    (stop : ∀ acc ts, stopAt stops ts = true → P acc ts)
    (close : ∀ acc t r, stopAt stops (t :: r) = false → isStar2 t = true → P acc (t :: r))
    (some : ∀ acc t r x r', stopAt stops (t :: r) = false → isStar2 t = false →
      boldChildB stops (t :: r) = some (x, r') → P [] r' → P acc (t :: r))
    (none : ∀ acc t r, stopAt stops (t :: r) = false → isStar2 t = false →
      boldChildB stops (t :: r) = none → P (acc ++ [t]) r → P acc (t :: r))
    (acc ts : List Token) : P acc ts := by
  have main : ∀ n (acc ts : List Token), ts.length ≤ n → P acc ts := by
    intro n
    induction n with
    | zero =>
      intro acc ts hn
      have : ts = [] := by simpa using hn
      subst this; exact stop _ _ rfl
    | succ n ih =>
      intro acc ts hn
      cases hs : stopAt stops ts with
      | true => exact stop _ _ hs
      | false =>
        cases ts with
        | nil => simp [stopAt] at hs
        | cons t r =>
          cases h2 : isStar2 t with
          | true => exact close _ _ _ hs h2
          | false =>
            cases hi : boldChildB stops (t :: r) with
            | none => exact none _ _ _ hs h2 hi (ih _ _ (by simp at hn; omega))
            | some x =>
              obtain ⟨x, r'⟩ := x
              have := boldChildB_length hi
              exact some _ _ _ _ _ hs h2 hi (ih _ _ (by simp at hn this ⊢; omega))
  exact main _ acc ts (Nat.le_refl _)

/-- Induction along the items of a list: `PN` is the property for the optional nested list. -/
theorem itemsB_ind (stops : List Stop) {P : Nat → Option ListKind → List Token → Prop}
    (none : ∀ level want ts, markerB level want ts = none → P level want ts)
    (some : ∀ level want ts k m r, markerB level want ts = some (k, m, r) →
      P (level + 1) .none (itemPara stops level k r).2 →
      P level (.some k) (itemNested stops level (itemPara stops level k r).2).2 →
      P level want ts)
    (level : Nat) (want : Option ListKind) (ts : List Token) : P level want ts := by
  have main : ∀ n level want (ts : List Token), ts.length ≤ n → P level want ts := by
    intro n
    induction n with
    | zero =>
      intro level want ts hn
      have : ts = [] := by simpa using hn
      subst this
      exact none _ _ _ (by unfold markerB; simp [tokenIs])
    | succ n ih =>
      intro level want ts hn
      cases hm : markerB level want ts with
      | none => exact none _ _ _ hm
      | some x =>
        obtain ⟨k, m, r⟩ := x
        obtain ⟨h1, h2⟩ := markerB_toks hm
        have l1 := congrArg List.length h1
        rw [List.length_append] at l1
        have l2 : (itemPara stops level k r).2.length ≤ r.length := paraB_length _ _
        have l3 := itemNested_le stops level (itemPara stops level k r).2
        exact some _ _ _ _ _ _ hm (ih _ _ _ (by omega)) (ih _ _ _ (by omega))
  exact main _ level want ts (Nat.le_refl _)

/-- Induction along the lines of an image group. -/
theorem imagesB_ind (stops : List Stop) {P : List Token → Prop}
    (none : ∀ ts, imageB stops ts = none → P ts)
    (some : ∀ ts i r, imageB stops ts = some (i, r) → P r → P ts)
    (ts : List Token) : P ts := by
  have main : ∀ n (ts : List Token), ts.length ≤ n → P ts := by
    intro n
    induction n with
    | zero =>
      intro ts hn
      have : ts = [] := by simpa using hn
      subst this
      exact none _ rfl
    | succ n ih =>
      intro ts hn
      cases hm : imageB stops ts with
      | none => exact none _ hm
      | some x =>
        obtain ⟨i, r⟩ := x
        have := imageB_length hm
        exact some _ _ _ hm (ih _ (by omega))
  exact main _ ts (Nat.le_refl _)

/-- What a highlight body looks like: the closing line, or a paragraph and the rest. -/
theorem hlParasB_ind (stops : List Stop) {P : List Token → List HPara → List Token → List Token → Prop}
    (close2 : ∀ ts, stopAt stops ts = false → tokenIs ts 0 isTwoBangs = true → tokenIs ts 1 isEol = true →
      P ts [] (ts.take 2) (ts.drop 2))
    (close1 : ∀ ts, stopAt stops ts = false → tokenIs ts 0 isTwoBangs = true → tokenIs ts 1 isEol = false →
      P ts [] (ts.take 1) (ts.drop 1))
    (para : ∀ ts l c r, stopAt stops ts = false → tokenIs ts 0 isTwoBangs = false →
      (paraB (.Terminator :: .HighlightEnd :: stops) [] (termB ts).2).2.length < ts.length →
      P (paraB (.Terminator :: .HighlightEnd :: stops) [] (termB ts).2).2 l c r →
      P ts (⟨(termB ts).1, (paraB (.Terminator :: .HighlightEnd :: stops) [] (termB ts).2).1⟩ :: l) c r)
    (ts l c r) (h : hlParasB stops ts = some (l, c, r)) : P ts l c r := by
  have main : ∀ n (ts : List Token) l c r, ts.length ≤ n → hlParasB stops ts = some (l, c, r) →
      P ts l c r := by
    intro n
    induction n with
    | zero =>
      intro ts l c r hn h
      have : ts = [] := by simpa using hn
      subst this; rw [hlParasB.eq_def] at h; simp [stopAt] at h
    | succ n ih =>
      intro ts l c r hn h
      rw [hlParasB.eq_def] at h
      cases hs : stopAt stops ts with
      | true => simp [hs] at h
      | false =>
        rw [hs] at h
        simp only [Bool.false_eq_true, if_false] at h
        cases hb : tokenIs ts 0 isTwoBangs with
        | true =>
          rw [hb] at h
          simp only [if_true] at h
          cases he : tokenIs ts 1 isEol with
          | true =>
            rw [he] at h
            simp only [if_true, Option.some.injEq, Prod.mk.injEq] at h
            obtain ⟨rfl, rfl, rfl⟩ := h
            exact close2 _ hs hb he
          | false =>
            rw [he] at h
            simp only [Bool.false_eq_true, if_false, Option.some.injEq, Prod.mk.injEq] at h
            obtain ⟨rfl, rfl, rfl⟩ := h
            exact close1 _ hs hb he
        | false =>
          rw [hb] at h
          simp only [Bool.false_eq_true, if_false] at h
          split at h
          · rename_i hl
            simp only [Option.map_eq_some_iff] at h
            obtain ⟨⟨l', c', r'⟩, h1, h2⟩ := h
            simp only [Prod.mk.injEq] at h2
            obtain ⟨rfl, rfl, rfl⟩ := h2
            exact para _ _ _ _ hs hb hl (ih _ _ _ _ (by omega) h1)
          · simp at h
  exact main _ ts l c r (Nat.le_refl _) h

end Yamd.Ref
