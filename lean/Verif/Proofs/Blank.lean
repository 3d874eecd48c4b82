import Verif.Proofs.LocalTop
import Verif.Proofs.Final.Main

/-!
# Blank lines at the end of a text (C75)

A blank line token behind all tokens completes no block that was incomplete without it.
-/

namespace Yamd.Ref

open Yamd Yamd.Spec Yamd.Round

section
variable {T : Token} (hT : T.kind = .Terminator)
include hT

theorem untilB_still {S : List Stop} {m : Token → Bool} (hm : m T = false) : ∀ {ts}, untilB S m ts = none →
    untilB S m (ts ++ [T]) = none := by
  intro ts
  induction ts with
  | nil => intro _; rw [List.nil_append, untilB]; split <;> simp [hm, untilB]
  | cons t ts ih =>
    intro h
    rw [untilB] at h
    rw [List.cons_append, untilB, stopAt_cons_tail hT]
    split at h
    · rename_i hs; rw [if_pos hs]
    · rename_i hs
      split at h
      · simp at h
      · rename_i hm
        rw [if_neg hs, if_neg hm]
        rw [Option.map_eq_none_iff] at h ⊢
        exact ih h

theorem closeLineB_still {S c r} (h : closeLineB S c r = none) : closeLineB S c (r ++ [T]) = none := by
  cases r with
  | nil => simp [closeLineB] at h
  | cons t r =>
    rw [closeLineB] at h
    rw [List.cons_append, closeLineB, stopAt_cons_tail hT]
    exact (by split at h; · simp at h
              · rename_i he
                rw [if_neg he]
                split at h
                · simp at h
                · rename_i h2; rw [if_neg h2])

theorem codeRestB_still {S o m r} (o' : List Token) (m' : Option Mod) (h : codeRestB S o m r = none) :
    codeRestB S o' m' (r ++ [T]) = none := by
  unfold codeRestB at h ⊢
  cases hu : untilB [] isBacktick3 r with
  | none => rw [untilB_still hT (by simp [isBacktick3, hT]) hu]
  | some y =>
    obtain ⟨b, c, r'⟩ := y
    rw [hu] at h
    simp only [Option.map_eq_none_iff] at h
    rw [untilB_more hT hu]
    simp only
    rw [closeLineB_still hT h]; rfl

/-- The rest of a line is what it was, or was not ended. -/
theorem optModB_blank {S : List Stop} {r : List Token} :
    optModB S (r ++ [T]) = mapE [T] (optModB S r) ∨
      ((optModB S (r ++ [T])).2 = [] ∧ optModB S r = (none, r) ∧ tokenIs r 0 col0 = false ∧
        ∀ t ∈ r, isEolOrTerminator t = false) := by
  cases hm : modifierB S r with
  | some x => left; unfold optModB; rw [modifierB_more hT hm, hm]; rfl
  | none =>
    have he : isEolOrTerminator T = true := by simp [isEolOrTerminator, hT]
    have e : optModB S r = (none, r) := by unfold optModB; rw [hm]
    by_cases hr : r = []
    · subst hr
      rw [e]
      unfold optModB modifierB
      by_cases hc : tokenIs [T] 0 col0
      · left; simp [hc, mapE]
      · by_cases hs : stopAt S [T]
        · left; simp [hc, untilB, hs, mapE]
        · right; simp [hc, untilB, hs, he]; simp [tokenIs]
    · rcases modifierB_fail (B := []) hT hm hr with h1 | ⟨h1, h2⟩
      · left; unfold optModB; rw [h1, hm]; rfl
      · cases h3 : modifierB S (r ++ [T]) with
        | none => left; unfold optModB; rw [h3, hm]; rfl
        | some x =>
          right
          refine ⟨?_, e, h1, h2⟩
          unfold optModB
          rw [h3]
          unfold modifierB at h3
          split at h3
          · simp at h3
          · simp only [Option.map_eq_some_iff] at h3
            obtain ⟨⟨b, c, r'⟩, h4, rfl⟩ := h3
            simp only
            have hm1 := untilB_mem h4
            have hl := untilB_length h4
            -- the only line break is the last token
            rcases List.eq_nil_or_concat r' with rfl | ⟨q, z, rfl⟩
            · rfl
            · exfalso
              have e2 : r ++ [T] = (b ++ c :: q) ++ [z] := by rw [hl]; simp
              obtain ⟨rfl, -⟩ := List.append_inj' e2 rfl
              have := h2 c (by simp)
              rw [this] at hm1; simp at hm1

theorem codeB_still {S ts} (hc : Cols ts) (h : codeB S ts = none) : codeB S (ts ++ [T]) = none := by
  cases ts with
  | nil => rw [List.nil_append, codeB_head (by simp [isBacktick3, hT])]
  | cons t r =>
    rw [List.cons_append]
    unfold codeB at h ⊢
    simp only at h ⊢
    split at h
    · rename_i ho
      rw [if_pos ho, tokenIs_ext0 (by simp [isEol, hT])]
      split at h
      · rename_i h1
        have := tokenIs_length h1
        rw [if_pos h1, List.take_append_of_le_length (by omega), List.drop_append_of_le_length (by omega)]
        exact codeRestB_still hT _ _ h
      · rename_i h1
        rw [if_neg h1]
        rcases optModB_blank hT (S := []) (r := r) with h2 | ⟨h2, h3, h4, h5⟩
        · rw [h2]; exact codeRestB_still hT _ _ h
        · rw [h2]; rfl
    · rename_i ho
      rw [if_neg ho]

theorem embedB_still {S ts} (h : embedB S ts = none) : embedB S (ts ++ [T]) = none := by
  cases ts with
  | nil => rw [List.nil_append, embedB_head (by simp [isLeftCurly2, hT])]
  | cons t r =>
    rw [List.cons_append]
    unfold embedB at h ⊢
    simp only at h ⊢
    split at h
    · rename_i ho
      rw [if_pos ho]
      cases hu : untilB S isPipe r with
      | none => rw [untilB_still hT (by simp [isPipe, hT]) hu]
      | some y =>
        obtain ⟨l, p, r1⟩ := y
        rw [hu] at h
        simp only at h
        rw [untilB_more hT hu]
        simp only
        cases hv : untilB S isRightCurly2 r1 with
        | none => rw [untilB_still hT (by simp [isRightCurly2, hT]) hv]
        | some y =>
          obtain ⟨a, c, r2⟩ := y
          rw [hv] at h
          simp only [Option.map_eq_none_iff] at h
          rw [untilB_more hT hv]
          simp only
          rw [closeLineB_still hT h]; rfl
    · rename_i ho; rw [if_neg ho]

theorem hlParasB_T (S : List Stop) : hlParasB S [T] = none := by
  rw [hlParasB.eq_def]
  split
  · rfl
  · have e1 : tokenIs [T] 0 isTwoBangs = false := by simp [tokenIs, isTwoBangs, hT]
    have e2 : termB [T] = ([T], []) := by simp [termB, tokenIs, isTerminator, hT]
    rw [e1]
    simp only [Bool.false_eq_true, if_false, e2]
    rw [paraB_stop (ts := []) rfl]
    simp only [List.length_nil, List.length_cons, Nat.zero_lt_succ, dif_pos]
    rw [hlParasB_nil]; rfl

theorem hlParasB_still {S : List Stop} : ∀ (n : Nat) {ts : List Token}, ts.length ≤ n → hlParasB S ts = none →
    hlParasB S (ts ++ [T]) = none := by
  have hb2 : isTwoBangs T = false := by simp [isTwoBangs, hT]
  intro n
  induction n with
  | zero =>
    intro ts hl _
    have : ts = [] := List.length_eq_zero_iff.1 (by omega)
    subst this
    exact hlParasB_T hT S
  | succ n ih =>
    intro ts hl h
    by_cases hne : ts = []
    · subst hne; exact hlParasB_T hT S
    · have ht : termB (ts ++ [T]) = mapE [T] (termB ts) := by
        unfold termB
        cases ts with
        | nil => exact absurd rfl hne
        | cons t r =>
          have : tokenIs (t :: r ++ [T]) 0 isTerminator = tokenIs (t :: r) 0 isTerminator := rfl
          rw [this]
          split <;> rfl
      have hp := paraB_tail (B := []) hT (S := .Terminator :: .HighlightEnd :: S) (by simp) [] (termB ts).2
      rw [hlParasB.eq_def] at h ⊢
      rw [stopAt_more hT hne, tokenIs_ext0 hb2]
      split at h
      · rename_i h1; rw [if_pos h1]
      · rename_i h1
        rw [if_neg h1]
        split at h
        · split at h <;> simp at h
        · rename_i h2
          rw [if_neg h2]
          simp only [ht, mapE] at hp ⊢
          rw [hp]
          simp only at h
          split at h
          · rename_i h3
            rw [Option.map_eq_none_iff] at h
            have e := ih (by omega) h
            simp only [e, Option.map_none]
            split <;> rfl
          · rename_i h3
            rw [dif_neg (by simp only [List.length_append]; omega)]

theorem hlRestB_still {S o m r} (o' : List Token) (m' : Option Mod) (h : hlRestB S o m r = none) :
    hlRestB S o' m' (r ++ [T]) = none := by
  unfold hlRestB at h ⊢
  simp only at h ⊢
  rw [optIconB_tail hT (by simp)]
  generalize optIconB (.Terminator :: S) r = i at *
  by_cases hi : i.2 = []
  · simp only [mapE, hi, List.nil_append, hlParasB_T hT]
    split <;> rfl
  · have e : tokenIs (i.2 ++ [T]) 0 col0 = tokenIs i.2 0 col0 := by
      cases h : i.2 with
      | nil => exact absurd h hi
      | cons t r => rfl
    simp only [mapE, e]
    split at h
    · rename_i h1
      rw [if_pos h1]
      rw [Option.map_eq_none_iff] at h
      rw [hlParasB_still hT _ (Nat.le_refl _) h]; rfl
    · rename_i h1; rw [if_neg h1]

theorem highlightB_still {S ts} (h : highlightB S ts = none) : highlightB S (ts ++ [T]) = none := by
  have he : isEol T = false := by simp [isEol, hT]
  unfold highlightB at h ⊢
  rw [tokenIs_ext1 (by simp [isTwoBangs, hT]) (by simp [T_space1 hT, he])]
  split at h
  · rename_i hh
    rw [if_pos hh]
    rw [Bool.and_eq_true] at hh
    have hl := tokenIs_length hh.2
    rw [tokenIs_tail he (by omega), List.take_append_of_le_length (by omega), List.drop_append_of_le_length (by omega)]
    split at h
    · rename_i h1
      rw [if_pos h1]
      exact hlRestB_still hT _ _ h
    · rename_i h1
      rw [if_neg h1]
      rcases optModB_blank hT (S := S) (r := ts.drop 2) with h2 | ⟨h2, h3, h4, h5⟩
      · rw [h2]; exact hlRestB_still hT _ _ h
      · rw [h2]; rfl
  · rename_i hh; rw [if_neg hh]

theorem otherB_blank (S : List Stop) (ts : List Token) : otherB S (ts ++ [T]) = mapE [T] (otherB S ts) := by
  unfold otherB
  cases h1 : embedB S ts with
  | some x => rw [embedB_more hT h1]
  | none =>
    rw [embedB_still hT h1]
    cases h2 : highlightB S ts with
    | some x => rw [highlightB_more hT h2]
    | none =>
      rw [highlightB_still hT h2]
      exact leafB_tail hT (by simp) ts

/-- An opening line that was none is none, or the blank line is all that follows it. -/
theorem collOpenB_blank {S ts} (h : collOpenB S ts = none) : collOpenB S (ts ++ [T]) = none ∨
    ∃ o m, collOpenB S (ts ++ [T]) = some (o, m, [T]) ∧ ts = o ++ modToks m ∧
      tokenIs ts 0 isCollapsibleStart && tokenIs ts 1 isSpaceOrEol := by
  cases h3 : collOpenB S (ts ++ [T]) with
  | none => exact .inl rfl
  | some x =>
    right
    obtain ⟨o, m, r⟩ := x
    obtain ⟨tk, ol, -⟩ := collOpenB_toks h3
    unfold collOpenB at h h3
    rw [tokenIs_ext1 (by simp [isCollapsibleStart, hT]) (by simp [isSpaceOrEol, hT])] at h3
    split at h3
    · rename_i hh
      rw [if_pos hh] at h
      have hh' := hh
      rw [Bool.and_eq_true] at hh
      have hl := tokenIs_length hh.2
      rw [List.take_append_of_le_length (by omega), List.drop_append_of_le_length (by omega)] at h3
      rcases optModB_blank hT (S := S) (r := ts.drop 2) with h2 | ⟨h2, -⟩
      · have h3' : (if tokenIs ((optModB S (ts.drop 2)).2 ++ [T]) 0 col0 = true then
            some (ts.take 2, (optModB S (ts.drop 2)).1, (optModB S (ts.drop 2)).2 ++ [T]) else none) = some (o, m, r) := by
          rw [h2] at h3; exact h3
        clear h3
        have h3 := h3'
        clear h3'
        have hnil : (optModB S (ts.drop 2)).2 = [] := by
          by_contra hne
          have e : tokenIs ((optModB S (ts.drop 2)).2 ++ [T]) 0 col0 = tokenIs (optModB S (ts.drop 2)).2 0 col0 := by
            cases h : (optModB S (ts.drop 2)).2 with
            | nil => exact absurd h hne
            | cons t r => rfl
          rw [e] at h3
          split at h3
          · rename_i h5; rw [if_pos h5] at h; simp at h
          · simp at h3
        rw [hnil] at h3
        split at h3
        · simp only [Option.some.injEq, Prod.mk.injEq] at h3
          obtain ⟨rfl, rfl, rfl⟩ := h3
          refine ⟨_, _, rfl, ?_, hh'⟩
          rw [← List.append_assoc] at tk
          exact (List.append_inj' tk rfl).1
        · simp at h3
      · rw [h2] at h3; simp [tokenIs] at h3
    · simp at h3

theorem collCloseB_still {ts} (h : collCloseB ts = none) : collCloseB (ts ++ [T]) = none := by
  have he : isCollapsibleEnd T = false := by simp [isCollapsibleEnd, hT]
  unfold collCloseB at h ⊢
  rw [tokenIs_ext0 he]
  split at h
  · split at h <;> simp at h
  · rename_i h1; rw [if_neg h1]

theorem flipOpen_blank (ts : List Token) : flipOpen (ts ++ [T]) = flipOpen ts ++ [T] := by
  unfold flipOpen
  rw [tokenIs_ext1 (by simp [isCollapsibleStart, hT]) (by simp [isSpaceOrEol, hT])]
  split
  · rename_i h
    cases ts with
    | nil => simp [tokenIs] at h
    | cons t r => rfl
  · rfl

theorem docB_T {S : List Stop} (hd : DStops S) : docB S [T] = (.term T .nil, []) := by
  have hs : stopAt S [T] = false := by
    simp only [stopAt, List.any_eq_false]
    intro s h
    rw [hd s h]
    simp [stopHere, hT]
  rw [docB_term hs (by simp [isTerminator, hT]), docB_stop (ts := []) rfl]

omit hT in
theorem Doc.toks_append (e : Doc) : ∀ d : Doc, (d.append e).toks = d.toks ++ e.toks
  | .nil => rfl
  | .term t r => by simp [Doc.append, Doc.toks, toks_append e r]
  | .block b r => by simp [Doc.append, Doc.toks, toks_append e r]
  | .coll o m i s c r => by simp [Doc.append, Doc.toks, toks_append e r]

/-- A blank line behind everything is only a blank line. -/
theorem docB_blank (S : List Stop) (ts : List Token) : DStops S → Cols ts →
    docB S (ts ++ [T]) = joinE S T [] (docB S ts) := by
  have hjoin : ∀ S : List Stop, ∀ x : Doc × List Token, joinE S T [] x
      = if x.2 = [] then (x.1.append (.term T .nil), []) else (x.1, x.2 ++ [T]) := by
    intro S x
    unfold joinE
    rw [docB_stop (ts := []) rfl]
  induction S, ts using docB_ind with
  | stop s ts hst e =>
    intro hd hc
    rw [e, hjoin]
    by_cases hne : ts = []
    · subst hne
      rw [if_pos rfl, List.nil_append, docB_T hT hd]; rfl
    · rw [if_neg hne, docB_stop (by rw [stopAt_more hT hne]; exact hst)]
  | term s t r hst ht e ih =>
    intro hd hc
    rw [e, List.cons_append, docB_term (by rw [stopAt_cons_tail hT]; exact hst) ht, ih hd hc.tail]
    exact (joinE_cons (.term t) (fun _ _ => rfl)).symm
  | code s t r b rest hst ht hcd e ih =>
    intro hd hc
    have hs' : stopAt s (t :: r ++ [T]) = false := by rw [stopAt_more hT (by simp)]; exact hst
    have ht' : tokenIs (t :: r ++ [T]) 0 isTerminator = false := by simpa [tokenIs] using ht
    have tk := codeB_toks hcd
    rw [e, docB_code hs' ht' (codeB_more hT hc hcd)]
    simp only [mapE]
    rw [tk] at hc
    rw [ih hd hc.right]
    exact (joinE_cons (.block b) (fun _ _ => rfl)).symm
  | coll s t r o m r1 c r4 hst ht hcd ho hcl e ih1 ih2 =>
    intro hd hc
    have hs' : stopAt s (t :: r ++ [T]) = false := by rw [stopAt_more hT (by simp)]; exact hst
    have ht' : tokenIs (t :: r ++ [T]) 0 isTerminator = false := by simpa [tokenIs] using ht
    have hcd' := codeB_still hT hc hcd
    have ho' := collOpenB_more (B := []) hT ho
    obtain ⟨tk, -, -⟩ := collOpenB_toks ho
    have hc1 : Cols r1 := by rw [tk] at hc; exact hc.right.right
    have i1 := ih1 hd.coll hc1
    have hne : (docB (.CollapsibleEnd :: s) r1).2 ≠ [] := by
      intro h
      rw [h] at hcl
      simp [skipEolB, collCloseB, tokenIs] at hcl
    rw [hjoin, if_neg hne] at i1
    have hsk := skipEolB_tail (B := []) hT (docB (.CollapsibleEnd :: s) r1).2
    have hcl' := collCloseB_more (B := []) hT hcl
    rw [e, docB_coll hs' ht' hcd' ho' (c := c) (r4 := r4 ++ [T]) (by rw [i1]; simp only; rw [hsk]; exact hcl'), i1]
    simp only
    rw [hsk]
    have hcx : Cols (docB (.CollapsibleEnd :: s) r1).2 := ((docB_flips (.CollapsibleEnd :: s) r1).cols hc1).right
    rw [skipEolB_toks (docB (.CollapsibleEnd :: s) r1).2, collCloseB_toks hcl] at hcx
    rw [ih2 hd hcx.right.right]
    exact (joinE_cons (.coll o m _ _ c) (fun _ _ => rfl)).symm
  | fallback s t r o m r1 x hst ht hcd ho hcl hx hl hstx e ih1 ih2 =>
    intro hd hc
    have hs' : stopAt s (t :: r ++ [T]) = false := by rw [stopAt_more hT (by simp)]; exact hst
    have ht' : tokenIs (t :: r ++ [T]) 0 isTerminator = false := by simpa [tokenIs] using ht
    have hcd' := codeB_still hT hc hcd
    have ho' := collOpenB_more (B := []) hT ho
    obtain ⟨tk, ol, -⟩ := collOpenB_toks ho
    have hc1 : Cols r1 := by rw [tk] at hc; exact hc.right.right
    have i1 := ih1 hd.coll hc1
    have hun := unclosed hd hcl
    rw [hjoin, if_pos hun] at i1
    have hx' : x ++ [T] = flipHead (o ++ (modToks m ++ ((docB (.CollapsibleEnd :: s) (r1 ++ [T])).1.toks ++
        (docB (.CollapsibleEnd :: s) (r1 ++ [T])).2))) := by
      rw [i1, hx, hun]
      match o, ol with
      | [a, b], _ => simp [flipHead, Doc.toks_append, Doc.toks]
    rw [e, docB_fallback hs' ht' hcd' ho' (x := x ++ [T]) (by rw [i1]; rfl) hx', otherB_blank hT]
    simp only [mapE]
    have hcx : Cols x := by
      have hfl := docB_flips (.CollapsibleEnd :: s) r1
      have hk : (flipHead (t :: r)) = { t with kind := .Literal } :: r := rfl
      match o, ol with
      | [a, b], _ =>
        have hak : a.kind = .CollapsibleStart := by
          unfold collOpenB at ho
          split at ho
          · rename_i hh
            simp only [Bool.and_eq_true] at hh
            have h1 := hh.1
            rw [tk] at h1
            simp [tokenIs, isCollapsibleStart] at h1
            exact h1.1
          · simp at ho
        have hfx : Flips (t :: r) x := by
          rw [tk, hx]
          exact Flips.cons (.inr ⟨hak, rfl⟩) (.cons (.inl rfl) ((Flips.refl (modToks m)).append hfl))
        exact hfx.cols hc
    rw [otherB_toks s x] at hcx
    rw [ih2 hd hcx.right]
    exact (joinE_cons (.block _) (fun _ _ => rfl)).symm
  | other s t r hst ht hcd ho hstx e ih =>
    intro hd hc
    have hs' : stopAt s (t :: r ++ [T]) = false := by rw [stopAt_more hT (by simp)]; exact hst
    have ht' : tokenIs (t :: r ++ [T]) 0 isTerminator = false := by simpa [tokenIs] using ht
    have hcd' := codeB_still hT hc hcd
    have hcx := (flips_flipOpen (t :: r)).cols hc
    rw [otherB_toks s (flipOpen (t :: r))] at hcx
    have key : docB s (t :: r ++ [T]) = (.block (otherB s (flipOpen (t :: r) ++ [T])).1
        (docB s (otherB s (flipOpen (t :: r) ++ [T])).2).1, (docB s (otherB s (flipOpen (t :: r) ++ [T])).2).2) := by
      rcases collOpenB_blank hT ho with h1 | ⟨o, m, h1, h2, h3⟩
      · rw [docB_plain hs' ht' hcd' h1, flipOpen_blank hT]
      · have e1 := docB_T hT hd.coll
        refine docB_fallback hs' ht' hcd' h1 (by rw [e1]; rfl) ?_
        rw [e1]
        have e2 : flipOpen (t :: r) = flipHead (t :: r) := by unfold flipOpen; rw [if_pos h3]
        rw [e2]
        simp only [Doc.toks, List.append_nil]
        rw [← List.append_assoc, ← h2]
        rfl
    rw [e, key, otherB_blank hT]
    simp only [mapE]
    rw [ih hd hcx.right]
    exact (joinE_cons (.block _) (fun _ _ => rfl)).symm

end

end Yamd.Ref
