import Verif.Proofs.RefineList

/-!
# The reference parser accounts for every token

The tokens of the tree followed by the rest are the tokens given, up to `{%` tokens that an unfinished
collapsible has turned into literals.
-/

namespace Yamd.Ref

open Yamd

/-- `b` is `a`, or `a` is a `{%` and `b` is it as a literal. -/
def FlipRel (a b : Token) : Prop :=
  b = a ∨ (a.kind = .CollapsibleStart ∧ b = { a with kind := .Literal })

/-- Token lists equal up to `{%` tokens turned into literals. -/
inductive Flips : List Token → List Token → Prop
  | nil : Flips [] []
  | cons {a b r r'} : FlipRel a b → Flips r r' → Flips (a :: r) (b :: r')

theorem Flips.refl : ∀ ts, Flips ts ts
  | [] => .nil
  | _ :: r => .cons (.inl rfl) (refl r)

theorem FlipRel.trans {a b c} (h1 : FlipRel a b) (h2 : FlipRel b c) : FlipRel a c := by
  rcases h1 with rfl | ⟨h, rfl⟩
  · exact h2
  · rcases h2 with rfl | ⟨h', rfl⟩
    · exact .inr ⟨h, rfl⟩
    · simp at h'

theorem Flips.trans {a b c} (h1 : Flips a b) (h2 : Flips b c) : Flips a c := by
  induction h1 generalizing c with
  | nil => exact h2
  | cons h _ ih =>
    cases h2 with
    | cons h' hr => exact .cons (h.trans h') (ih hr)

theorem Flips.append {a b c d} (h1 : Flips a b) (h2 : Flips c d) : Flips (a ++ c) (b ++ d) := by
  induction h1 with
  | nil => exact h2
  | cons h _ ih => exact .cons h ih

theorem Flips.length {a b} (h : Flips a b) : b.length = a.length := by
  induction h with
  | nil => rfl
  | cons _ _ ih => simp [ih]

theorem FlipRel.slice_eq {src a b} (h : FlipRel a b) : sliceD src b = sliceD src a := by
  rcases h with rfl | ⟨_, rfl⟩ <;> rfl

theorem Flips.good {src a b} (h : Flips a b) (hg : Good src a) : Good src b := by
  induction h with
  | nil => exact hg
  | cons h hr ih =>
    rename_i a b r r'
    intro t ht
    rcases List.mem_cons.1 ht with rfl | ht
    · have := hg a (by simp)
      rcases h with rfl | ⟨_, rfl⟩ <;> exact this
    · exact ih hg.tail t ht

theorem flips_flipHead {t r} (h : t.kind = .CollapsibleStart) : Flips (t :: r) (flipHead (t :: r)) :=
  .cons (.inr ⟨h, rfl⟩) (Flips.refl r)

theorem flips_flipOpen (ts : List Token) : Flips ts (flipOpen ts) := by
  unfold flipOpen
  split
  · rename_i h
    cases ts with
    | nil => exact .nil
    | cons t r =>
      apply flips_flipHead
      simp only [Bool.and_eq_true] at h
      have := h.1
      simp only [tokenIs, List.getElem?_cons_zero, isCollapsibleStart, Bool.and_eq_true,
        decide_eq_true_eq] at this
      exact this.1
  · exact Flips.refl _

/-! ### blocks -/

theorem codeRestB_toks {stops opening m r b rest} (h : codeRestB stops opening m r = some (b, rest)) :
    opening ++ (modToks m ++ r) = b.toks ++ rest := by
  unfold codeRestB at h
  split at h
  · simp at h
  · rename_i b' c r' hu
    simp only [Option.map_eq_some_iff] at h
    obtain ⟨⟨x, y⟩, h1, h2⟩ := h
    simp only [Prod.mk.injEq] at h2
    obtain ⟨rfl, rfl⟩ := h2
    rw [untilB_length hu, closeLineB_toks h1]
    simp [Block.toks]

theorem codeB_toks {stops ts b rest} (h : codeB stops ts = some (b, rest)) : ts = b.toks ++ rest := by
  unfold codeB at h
  cases ts with
  | nil => simp at h
  | cons t r =>
    simp only at h
    split at h
    · split at h
      · have := codeRestB_toks h
        simp only [modToks, List.nil_append, List.cons_append, List.take_append_drop] at this
        exact this
      · have := codeRestB_toks h
        rw [← optModB_toks] at this
        exact this
    · simp at h

theorem embedB_toks {stops ts b rest} (h : embedB stops ts = some (b, rest)) : ts = b.toks ++ rest := by
  unfold embedB at h
  cases ts with
  | nil => simp at h
  | cons t r =>
    simp only at h
    split at h
    · split at h
      · simp at h
      · rename_i l p r1 h1
        split at h
        · simp at h
        · rename_i a c r2 h2
          simp only [Option.map_eq_some_iff] at h
          obtain ⟨⟨x, y⟩, h3, h4⟩ := h
          simp only [Prod.mk.injEq] at h4
          obtain ⟨rfl, rfl⟩ := h4
          rw [untilB_length h1, untilB_length h2, closeLineB_toks h3]
          simp [Block.toks]
    · simp at h

theorem hlRestB_toks {stops opening m r b rest} (h : hlRestB stops opening m r = some (b, rest)) :
    opening ++ (modToks m ++ r) = b.toks ++ rest := by
  unfold hlRestB at h
  simp only at h
  split at h
  · simp only [Option.map_eq_some_iff] at h
    obtain ⟨⟨l, c, r'⟩, h1, h2⟩ := h
    simp only [Prod.mk.injEq] at h2
    obtain ⟨rfl, rfl⟩ := h2
    have h3 := hlParasB_toks _ (Nat.le_refl _) h1
    have h4 := optIconB_toks (.Terminator :: stops) r
    conv => lhs; rw [h4, h3]
    simp [Block.toks]
  · simp at h

theorem highlightB_toks {stops ts b rest} (h : highlightB stops ts = some (b, rest)) :
    ts = b.toks ++ rest := by
  unfold highlightB at h
  split at h
  · split at h
    · have := hlRestB_toks h
      simpa [modToks] using this
    · have := hlRestB_toks h
      rw [← optModB_toks, List.take_append_drop] at this
      exact this
  · simp at h

theorem headB_toks {stops} : ∀ (n : Nat) {ts acc}, ts.length ≤ n →
    acc ++ ts = (headB stops acc ts).1.flatMap HeadItem.toks ++ (headB stops acc ts).2 := by
  intro n
  induction n with
  | zero =>
    intro ts acc hn
    have : ts = [] := by simpa using hn
    subst this; rw [headB_stop rfl, head_acc_toks]
  | succ n ih =>
    intro ts acc hn
    cases hs : stopAt stops ts with
    | true => rw [headB_stop hs, head_acc_toks]
    | false =>
      cases hi : linkB stops ts with
      | some x =>
        obtain ⟨x, r⟩ := x
        rw [headB_some hs hi]
        have h1 := linkB_length hi
        have h2 := ih (ts := r) (acc := []) (by omega)
        simp only [List.flatMap_append, head_acc_toks, List.flatMap_cons, List.append_assoc]
        simp only [List.nil_append] at h2
        rw [← h2, HeadItem.toks, ← linkB_toks hi]
      | none =>
        cases ts with
        | nil => simp [stopAt] at hs
        | cons t r =>
          rw [headB_none hs hi]
          have h2 := ih (ts := r) (acc := acc ++ [t]) (by simp at hn; omega)
          rw [← h2]; simp

theorem headingB_toks {stops ts b rest} (h : headingB stops ts = some (b, rest)) :
    ts = b.toks ++ rest := by
  unfold headingB at h
  split at h
  · simp only [Option.some.injEq, Prod.mk.injEq] at h
    obtain ⟨rfl, rfl⟩ := h
    have := headB_toks (stops := stops) (ts := ts.drop 2) (acc := []) _ (Nat.le_refl _)
    simp only [List.nil_append] at this
    simp only [Block.toks, List.append_assoc]
    rw [← this, List.take_append_drop]
  · simp at h

theorem thematicB_toks {ts b rest} (h : thematicB ts = some (b, rest)) : ts = b.toks ++ rest := by
  cases ts with
  | nil => simp [thematicB] at h
  | cons t r =>
    rw [thematicB] at h
    split at h
    · simp only [Option.some.injEq, Prod.mk.injEq] at h
      obtain ⟨rfl, rfl⟩ := h; rfl
    · simp at h

theorem leafB_cases (stops : List Stop) (ts : List Token) :
    (∃ k m p n r rest, itemsB stops 0 none ts = (.cons k m p n r, rest) ∧
      leafB stops ts = (.list (.cons k m p n r), rest)) ∨
    (∃ i l r, imagesB stops ts = some (i :: l, r) ∧ leafB stops ts = (.images (i :: l), r)) ∨
    (thematicB ts = some (leafB stops ts)) ∨
    (headingB stops ts = some (leafB stops ts)) ∨
    (leafB stops ts = (.para (paraB stops [] ts).1, (paraB stops [] ts).2)) := by
  unfold leafB
  cases h1 : itemsB stops 0 none ts with
  | mk i rest =>
    cases i with
    | cons k m p n r => exact .inl ⟨k, m, p, n, r, rest, rfl, rfl⟩
    | nil =>
      right
      simp only
      cases h2 : imagesB stops ts with
      | some x =>
        obtain ⟨l, r⟩ := x
        cases l with
        | cons i l => exact .inl ⟨i, l, r, rfl, rfl⟩
        | nil =>
          right
          simp only
          cases h3 : thematicB ts with
          | some x => exact .inl rfl
          | none =>
            right
            cases h4 : headingB stops ts with
            | some x => exact .inl rfl
            | none => exact .inr rfl
      | none =>
        right
        simp only
        cases h3 : thematicB ts with
        | some x => exact .inl rfl
        | none =>
          right
          cases h4 : headingB stops ts with
          | some x => exact .inl rfl
          | none => exact .inr rfl

theorem leafB_toks (stops : List Stop) (ts : List Token) :
    ts = (leafB stops ts).1.toks ++ (leafB stops ts).2 := by
  rcases leafB_cases stops ts with ⟨k, m, p, n, r, rest, h1, h2⟩ | ⟨i, l, r, h1, h2⟩ | h | h | h
  · rw [h2]
    have := itemsB_toks (stops := stops) (level := 0) (want := none) (ts := ts) _ (Nat.le_refl _)
    rw [h1] at this
    exact this
  · rw [h2]; exact imagesB_toks _ (Nat.le_refl _) h1
  · exact thematicB_toks h
  · exact headingB_toks h
  · rw [h]
    exact paraB_toks (stops := stops) (acc := []) _ (Nat.le_refl _)

theorem otherB_cases (stops : List Stop) (ts : List Token) :
    embedB stops ts = some (otherB stops ts) ∨ highlightB stops ts = some (otherB stops ts) ∨
    otherB stops ts = leafB (.Terminator :: stops) ts := by
  unfold otherB
  cases h1 : embedB stops ts with
  | some x => exact .inl rfl
  | none =>
    right
    cases h2 : highlightB stops ts with
    | some x => exact .inl rfl
    | none => exact .inr rfl

theorem otherB_toks (stops : List Stop) (ts : List Token) :
    ts = (otherB stops ts).1.toks ++ (otherB stops ts).2 := by
  rcases otherB_cases stops ts with h | h | h
  · exact embedB_toks h
  · exact highlightB_toks h
  · rw [h]; exact leafB_toks _ _

/-! ### progress -/

theorem codeB_lt {stops ts b rest} (h : codeB stops ts = some (b, rest)) : rest.length < ts.length := by
  have h1 := codeB_toks h
  have : 0 < b.toks.length := by
    unfold codeB at h
    cases ts with
    | nil => simp at h
    | cons t r =>
      simp only at h
      split at h
      · split at h
        all_goals
          unfold codeRestB at h
          split at h
          · simp at h
          · simp only [Option.map_eq_some_iff] at h
            obtain ⟨⟨x, y⟩, h1, h2⟩ := h
            simp only [Prod.mk.injEq] at h2
            obtain ⟨rfl, rfl⟩ := h2
            simp [Block.toks]
            try omega
      · simp at h
  rw [h1, List.length_append]; omega

theorem imagesB_cons_lt {stops ts i l r} (h : imagesB stops ts = some (i :: l, r)) :
    r.length < ts.length := by
  rw [imagesB_toks _ (Nat.le_refl _) h]
  simp [Img.toks]
  omega

theorem leafB_lt {stops ts} (hs : stopAt stops ts = false) : (leafB stops ts).2.length < ts.length := by
  rcases leafB_cases stops ts with ⟨k, m, p, n, r, rest, h1, h2⟩ | ⟨i, l, r, h1, h2⟩ | h | h | h
  · rw [h2]
    cases hm : markerB 0 none ts with
    | none => rw [itemsB_none hm] at h1; simp at h1
    | some x =>
      obtain ⟨k', m', r'⟩ := x
      have h3 := itemsB_some (stops := stops) hm
      have h4 := markerB_toks hm
      rw [h3] at h1
      simp only [Prod.mk.injEq, Items.cons.injEq] at h1
      obtain ⟨⟨rfl, rfl, _⟩, rfl⟩ := h1
      have tk := itemsB_toks (stops := stops) (level := 0) (want := none) (ts := ts) _ (Nat.le_refl _)
      have := congrArg List.length tk
      rw [h3] at this
      simp only [Items.toks, List.length_append] at this
      simp only
      omega
  · rw [h2]; exact imagesB_cons_lt h1
  · cases ts with
    | nil => simp [stopAt] at hs
    | cons t r =>
      rw [thematicB] at h
      split at h
      · simp only [Option.some.injEq] at h
        rw [← h]; simp
      · simp at h
  · have h1 := leafB_toks stops ts
    unfold headingB at h
    split at h
    · rename_i hh
      simp only [Bool.and_eq_true] at hh
      have h2 := take2_length hh.2
      simp only [Option.some.injEq] at h
      rw [← h] at h1 ⊢
      have h3 := congrArg List.length h1
      simp only [Block.toks, List.length_append, h2] at h3
      simp only
      omega
    · simp at h
  · rw [h]; exact paraB_lt hs

theorem otherB_lt {stops ts} (hs : stopAt (.Terminator :: stops) ts = false) :
    (otherB stops ts).2.length < ts.length := by
  rcases otherB_cases stops ts with h | h | h
  · have h1 := otherB_toks stops ts
    have : 0 < (otherB stops ts).1.toks.length := by
      unfold embedB at h
      cases ts with
      | nil => simp at h
      | cons t r =>
        simp only at h
        split at h
        · split at h
          · simp at h
          · split at h
            · simp at h
            · simp only [Option.map_eq_some_iff] at h
              obtain ⟨⟨x, y⟩, h3, h4⟩ := h
              rw [← h4]
              simp [Block.toks]
        · simp at h
    have h3 := congrArg List.length h1
    rw [List.length_append] at h3; omega
  · have h1 := otherB_toks stops ts
    have : 0 < (otherB stops ts).1.toks.length := by
      unfold highlightB at h
      split at h
      · rename_i hh
        simp only [Bool.and_eq_true] at hh
        have hl := tokenIs_length hh.2
        split at h
        all_goals
          unfold hlRestB at h
          simp only at h
          split at h
          · simp only [Option.map_eq_some_iff] at h
            obtain ⟨⟨l, c, r'⟩, h1, h2⟩ := h
            rw [← h2]
            simp [Block.toks]
            omega
          · simp at h
      · simp at h
    have h3 := congrArg List.length h1
    rw [List.length_append] at h3; omega
  · rw [h]; exact leafB_lt hs

/-! ### collapsibles and documents -/

theorem collOpenB_toks {stops ts o m r} (h : collOpenB stops ts = some (o, m, r)) :
    ts = o ++ (modToks m ++ r) ∧ o.length = 2 ∧ tokenIs ts 0 isCollapsibleStart = true := by
  unfold collOpenB at h
  split at h
  · rename_i hh
    split at h
    · simp only [Option.some.injEq, Prod.mk.injEq] at h
      obtain ⟨rfl, rfl, rfl⟩ := h
      simp only [Bool.and_eq_true] at hh
      rw [← optModB_toks, List.take_append_drop]
      exact ⟨rfl, take2_length hh.2, hh.1⟩
    · simp at h
  · simp at h

theorem skipEolB_toks (ts : List Token) : ts = (skipEolB ts).1 ++ (skipEolB ts).2 := by
  unfold skipEolB
  split
  · exact (List.take_append_drop 1 ts).symm
  · rfl

theorem collCloseB_toks {ts c r} (h : collCloseB ts = some (c, r)) : ts = c ++ r := by
  unfold collCloseB at h
  split at h
  · split at h
    all_goals
      simp only [Option.some.injEq, Prod.mk.injEq] at h
      obtain ⟨rfl, rfl⟩ := h
      exact (List.take_append_drop _ ts).symm
  · simp at h

theorem stop_literal {stops : List Stop} {t : Token} {r} (h : t.kind = .Literal) :
    stopAt stops (t :: r) = false := by
  simp only [stopAt, List.any_eq_false]
  intro c _
  cases c with
  | Terminator => simp [stopHere, h]
  | CollapsibleEnd => simp [stopHere, h]
  | HighlightEnd => simp [stopHere, h]
  | ListBoundary level kind =>
    simp only [stopHere]
    have : (List.range (level + 1 + 1)).any (boundaryHere (t :: r) level kind) = false := by
      rw [List.any_eq_false]
      intro l _
      unfold boundaryHere
      have hk : ListKind.tryFrom t = none := by simp [ListKind.tryFrom, h]
      by_cases h0 : l = 0
      · simp [h0, tokenIs, isListMarker, hk]
      · simp [h0, tokenIs, h]
    simp [this]

/-- What `docB` does at a token that is not a stop. -/
inductive DocStep (stops : List Stop) (ts : List Token) : Prop
  | term (t r) (h : ts = t :: r) (ht : isTerminator t = true)
      (e : docB stops ts = (.term t (docB stops r).1, (docB stops r).2))
  | code (t r) (h : ts = t :: r) (ht : isTerminator t = false) (b rest)
      (hc : codeB stops ts = some (b, rest))
      (e : docB stops ts = (.block b (docB stops rest).1, (docB stops rest).2))
  | coll (t r) (h : ts = t :: r) (ht : isTerminator t = false) (o m r1 c r4)
      (hc : codeB stops ts = none)
      (ho : collOpenB stops ts = some (o, m, r1))
      (hcl : collCloseB (skipEolB (docB (.CollapsibleEnd :: stops) r1).2).2 = some (c, r4))
      (e : docB stops ts = (.coll o m (docB (.CollapsibleEnd :: stops) r1).1
        (skipEolB (docB (.CollapsibleEnd :: stops) r1).2).1 c (docB stops r4).1, (docB stops r4).2))
  | fallback (t r) (h : ts = t :: r) (ht : isTerminator t = false) (o m r1)
      (hc : codeB stops ts = none)
      (ho : collOpenB stops ts = some (o, m, r1))
      (hcl : collCloseB (skipEolB (docB (.CollapsibleEnd :: stops) r1).2).2 = none)
      (e : docB stops ts =
        (.block (otherB stops (flipHead (o ++ (modToks m ++ ((docB (.CollapsibleEnd :: stops) r1).1.toks ++
            (docB (.CollapsibleEnd :: stops) r1).2))))).1
          (docB stops (otherB stops (flipHead (o ++ (modToks m ++ ((docB (.CollapsibleEnd :: stops) r1).1.toks ++
            (docB (.CollapsibleEnd :: stops) r1).2))))).2).1,
          (docB stops (otherB stops (flipHead (o ++ (modToks m ++ ((docB (.CollapsibleEnd :: stops) r1).1.toks ++
            (docB (.CollapsibleEnd :: stops) r1).2))))).2).2))
  | other (t r) (h : ts = t :: r) (ht : isTerminator t = false)
      (hc : codeB stops ts = none) (ho : collOpenB stops ts = none)
      (e : docB stops ts = (.block (otherB stops (flipOpen ts)).1
        (docB stops (otherB stops (flipOpen ts)).2).1, (docB stops (otherB stops (flipOpen ts)).2).2))

theorem docB_stop {stops ts} (h : stopAt stops ts = true) : docB stops ts = (.nil, ts) := by
  rw [docB.eq_def, if_pos h]

theorem flipOpen_stop {stops} {t : Token} {r} (hs : stopAt stops (t :: r) = false)
    (ht : isTerminator t = false) : stopAt (.Terminator :: stops) (flipOpen (t :: r)) = false := by
  unfold flipOpen
  split
  · exact stop_literal rfl
  · simp only [stopAt, List.any_cons, Bool.or_eq_false_iff]
    exact ⟨by simpa [stopHere, isTerminator] using ht, hs⟩

theorem flipHead_length (ts : List Token) : (flipHead ts).length = ts.length := by
  cases ts <;> rfl

theorem flipOpen_length (ts : List Token) : (flipOpen ts).length = ts.length := by
  unfold flipOpen; split
  · exact flipHead_length ts
  · rfl

theorem docB_all : ∀ (n : Nat) {stops ts}, ts.length ≤ n →
    Flips ts ((docB stops ts).1.toks ++ (docB stops ts).2) ∧
    (stopAt stops ts = false → DocStep stops ts) := by
  intro n
  induction n with
  | zero =>
    intro stops ts hn
    have : ts = [] := by simpa using hn
    subst this
    rw [docB_stop rfl]
    exact ⟨.nil, by simp [stopAt]⟩
  | succ n ih =>
    intro stops ts hn
    cases hs : stopAt stops ts with
    | true => rw [docB_stop hs]; exact ⟨by simpa [Doc.toks] using Flips.refl ts, by simp⟩
    | false =>
      cases ts with
      | nil => simp [stopAt] at hs
      | cons t r =>
      have key : DocStep stops (t :: r) := by
        cases ht : isTerminator t with
        | true =>
          refine .term t r rfl ht ?_
          rw [docB.eq_def, if_neg (by simp [hs])]
          simp only [ht, if_true]
        | false =>
        cases hc : codeB stops (t :: r) with
        | some x =>
          obtain ⟨b, rest⟩ := x
          refine .code t r rfl ht b rest hc ?_
          rw [docB.eq_def, if_neg (by simp [hs])]
          simp only [ht, hc, Bool.false_eq_true, if_false]
          rw [dif_pos (codeB_lt hc)]
        | none =>
        cases ho : collOpenB stops (t :: r) with
        | none =>
          refine .other t r rfl ht hc ho ?_
          rw [docB.eq_def, if_neg (by simp [hs])]
          simp only [ht, hc, ho, Bool.false_eq_true, if_false]
          rw [dif_pos]
          have := otherB_lt (flipOpen_stop hs ht)
          rw [flipOpen_length] at this
          exact this
        | some x =>
          obtain ⟨o, m, r1⟩ := x
          obtain ⟨tk, ol, hst⟩ := collOpenB_toks ho
          have h1 : r1.length < (t :: r).length := by
            have := congrArg List.length tk
            simp only [List.length_append] at this
            omega
          have fl := (ih (stops := .CollapsibleEnd :: stops) (ts := r1) (by simp at hn h1 ⊢; omega)).1
          cases hcl : collCloseB (skipEolB (docB (.CollapsibleEnd :: stops) r1).2).2 with
          | some x =>
            obtain ⟨c, r4⟩ := x
            refine .coll t r rfl ht o m r1 c r4 hc ho hcl ?_
            rw [docB.eq_def, if_neg (by simp [hs])]
            simp only [ht, hc, ho, Bool.false_eq_true, if_false, dif_pos h1, hcl]
            rw [dif_pos]
            have l1 := fl.length
            have l2 := congrArg List.length (skipEolB_toks (docB (.CollapsibleEnd :: stops) r1).2)
            have l3 := congrArg List.length (collCloseB_toks hcl)
            simp only [List.length_append] at l1 l2 l3
            omega
          | none =>
            refine .fallback t r rfl ht o m r1 hc ho hcl ?_
            rw [docB.eq_def, if_neg (by simp [hs])]
            simp only [ht, hc, ho, Bool.false_eq_true, if_false, dif_pos h1, hcl]
            rw [dif_pos]
            have l1 := fl.length
            have l2 := congrArg List.length tk
            match o, ol with
            | [a, b], _ =>
            have := otherB_lt (stops := stops) (ts := flipHead ([a, b] ++ (modToks m ++ ((docB (.CollapsibleEnd :: stops) r1).1.toks ++
              (docB (.CollapsibleEnd :: stops) r1).2)))) (stop_literal rfl)
            rw [flipHead_length] at this
            simp only [List.length_append] at l1 l2 this ⊢
            omega
      refine ⟨?_, fun _ => key⟩
      cases key with
      | term t r h ht e =>
        rw [e, h]
        have h' := congrArg List.length h
        simp only [List.length_cons] at h' hn
        exact .cons (.inl rfl) (ih (by omega)).1
      | code t' r' h ht b rest hc e =>
        rw [e]
        have hl := codeB_lt hc
        have tk := codeB_toks hc
        have := (ih (stops := stops) (ts := rest) (by omega)).1
        simp only [Doc.toks, List.append_assoc]
        conv => lhs; rw [tk]
        exact (Flips.refl _).append this
      | coll t' r' h ht o m r1 c r4 hc ho hcl e =>
        obtain ⟨tk, ol, hst⟩ := collOpenB_toks ho
        have h1 : r1.length < (t :: r).length := by
          have := congrArg List.length tk
          simp only [List.length_append] at this
          omega
        have fl := (ih (stops := .CollapsibleEnd :: stops) (ts := r1) (by omega)).1
        have l1 := fl.length
        have k2 := skipEolB_toks (docB (.CollapsibleEnd :: stops) r1).2
        have k3 := collCloseB_toks hcl
        have l2 := congrArg List.length k2
        have l3 := congrArg List.length k3
        simp only [List.length_append] at l1 l2 l3
        have fl2 := (ih (stops := stops) (ts := r4) (by omega)).1
        rw [e]
        simp only [Doc.toks, List.append_assoc]
        conv => lhs; rw [tk]
        refine (Flips.refl _).append ((Flips.refl _).append (fl.trans ?_))
        refine (Flips.refl _).append ?_
        conv => lhs; rw [k2, k3]
        exact (Flips.refl _).append ((Flips.refl _).append fl2)
      | fallback t' r' h ht o m r1 hc ho hcl e =>
        obtain ⟨tk, ol, hst⟩ := collOpenB_toks ho
        have h1 : r1.length < (t :: r).length := by
          have := congrArg List.length tk
          simp only [List.length_append] at this
          omega
        have fl := (ih (stops := .CollapsibleEnd :: stops) (ts := r1) (by omega)).1
        have l1 := fl.length
        rw [e]
        generalize hX : otherB stops (flipHead (o ++ (modToks m ++ ((docB (.CollapsibleEnd :: stops) r1).1.toks ++
            (docB (.CollapsibleEnd :: stops) r1).2)))) = X
        have tk2 := otherB_toks stops (flipHead (o ++ (modToks m ++ ((docB (.CollapsibleEnd :: stops) r1).1.toks ++
            (docB (.CollapsibleEnd :: stops) r1).2))))
        rw [hX] at tk2
        match o, ol, tk with
        | [a, b], _, tk =>
        have hlt := otherB_lt (stops := stops) (ts := flipHead ([a, b] ++ (modToks m ++ ((docB (.CollapsibleEnd :: stops) r1).1.toks ++
              (docB (.CollapsibleEnd :: stops) r1).2)))) (stop_literal rfl)
        rw [flipHead_length, hX] at hlt
        have l2 := congrArg List.length tk
        simp only [List.length_append] at l1 l2 hlt
        have fl2 := (ih (stops := stops) (ts := X.2) (by omega)).1
        simp only [Doc.toks, List.append_assoc]
        refine Flips.trans ?_ ((Flips.refl X.1.toks).append fl2)
        rw [← tk2]
        have ha : a.kind = .CollapsibleStart := by
          rw [tk] at hst
          simp only [tokenIs, isCollapsibleStart, List.cons_append, List.getElem?_cons_zero,
            Bool.and_eq_true, decide_eq_true_eq] at hst
          exact hst.1
        refine Flips.trans ?_ (flips_flipHead ha)
        conv => lhs; rw [tk]
        exact (Flips.refl [a, b]).append ((Flips.refl _).append fl)
      | other t' r' h ht hc ho e =>
        rw [e]
        have hlt := otherB_lt (flipOpen_stop (h ▸ hs) ht)
        rw [← h] at hlt
        have tk := otherB_toks stops (flipOpen (t :: r))
        rw [flipOpen_length] at hlt
        have fl2 := (ih (stops := stops) (ts := (otherB stops (flipOpen (t :: r))).2) (by omega)).1
        simp only [Doc.toks, List.append_assoc]
        refine Flips.trans ?_ ((Flips.refl _).append fl2)
        rw [← tk]
        exact flips_flipOpen _

theorem docB_flips (stops ts) : Flips ts ((docB stops ts).1.toks ++ (docB stops ts).2) :=
  (docB_all _ (Nat.le_refl _)).1

theorem docB_step {stops ts} (h : stopAt stops ts = false) : DocStep stops ts :=
  (docB_all _ (Nat.le_refl _)).2 h

end Yamd.Ref
