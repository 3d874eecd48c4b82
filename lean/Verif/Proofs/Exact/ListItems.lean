import Verif.Proofs.Exact.ListText

/-!
# The items of a list that was read back
-/

namespace Yamd.Round

open Yamd Yamd.Spec Yamd.Lexer Yamd.Ref

theorem markV_itemish (level : Nat) (ty : ListTypes) (w : V) : Itemish (markV level ty ++ w) := by
  cases level with
  | zero => cases ty <;> exact ⟨_, _, rfl, by decide⟩
  | succ n => exact ⟨' ', _, by simp [markV, free, List.replicate_succ]; rfl, by decide⟩

theorem itemV_itemish (M ty level) (i : YItem) (w : V) : Itemish (itemV M ty level i ++ w) := by
  obtain ⟨t, n⟩ := i
  cases n <;> (simp only [itemV, List.append_assoc]; exact markV_itemish _ _ _)

theorem restV_next {c M ty level} {w : V} (hw : NextV c w) : ∀ l : List YItem, NextV c (restV M ty level l ++ w)
  | [] => by simpa [restV] using hw
  | i :: r => by
    refine .inr (.inl ⟨itemV M ty level i ++ (restV M ty level r ++ w), by simp [restV], itemV_itemish ..⟩)

theorem itemsB_empty {stops level want ts} (h : (itemsB stops level want ts).1 = .nil) : (itemsB stops level want ts).2 = ts := by
  cases hm : markerB level want ts with
  | none => rw [itemsB_none hm]
  | some x =>
    obtain ⟨k, m, r⟩ := x
    rw [itemsB_some hm] at h
    simp at h

theorem items_nil {src level} {I : Items} (h : I.denote src level = []) : I = .nil := by
  cases I with
  | nil => rfl
  | cons => simp [Items.denote] at h

theorem kind_nil {I : Items} (h : I.kind = none) : I = .nil := by
  cases I with
  | nil => rfl
  | cons => simp [Items.kind] at h

/-- The items that are read back are safe. -/
theorem items_exact {c S} (hS : At c S) {src : Str} (level : Nat) (want : Option ListKind) (ts : List Token) :
    ∀ (ty : ListTypes) (M : List Char) (l : List YItem) (w : V), Markers M → Live src ts → l ≠ [] →
      (itemsB (.Terminator :: S) level want ts).1.denote src level = l →
      (∀ k, (itemsB (.Terminator :: S) level want ts).1.kind = some k → listType k = ty) →
      SpV src true ts (itemsV M ty level l ++ w) → Valid w → NextV c w → plainItems l = true →
      safeListItems ⟨c⟩ ⟨level, ty.marker, M⟩ l = true ∧ Onward src (itemsB (.Terminator :: S) level want ts).2 w := by
  induction level, want, ts using itemsB_ind (.Terminator :: S) with
  | none level want ts h =>
    intro ty M l w _ _ hne hd
    rw [itemsB_none h] at hd
    exact absurd hd.symm hne
  | some level want ts k m r h ih1 ih2 =>
    intro ty M l w hM hl hne hd hk hs hv hn hp
    rw [itemsB_some h] at hd hk ⊢
    have hty : listType k = ty := hk k rfl
    have hmk : markOf k = ty.marker := by rw [← hty]; cases k <;> rfl
    obtain ⟨rfl, -⟩ := markerB_toks h
    have e0 := paraB_toks (stops := .ListBoundary level k :: .Terminator :: S) (acc := []) _ (Nat.le_refl r.length)
    rw [List.nil_append, show paraB (.ListBoundary level k :: .Terminator :: S) [] r = itemPara (.Terminator :: S) level k r from rfl] at e0
    have hpara : paraB (.ListBoundary level k :: .Terminator :: S) [] r = ((itemPara (.Terminator :: S) level k r).1, (itemPara (.Terminator :: S) level k r).2) := rfl
    generalize hP : itemPara (.Terminator :: S) level k r = P at *
    obtain ⟨pl, rest⟩ := P
    simp only at *
    have hlr : Live src r := hl.right
    have hlrest : Live src rest := by rw [e0] at hlr; exact hlr.right
    have hN0 : itemNested (.Terminator :: S) level rest = (.nil, rest) ∨
        itemNested (.Terminator :: S) level rest = itemsB (.Terminator :: S) (level + 1) none rest := by
      unfold itemNested
      split
      · exact .inl rfl
      · exact .inr rfl
    have hNt : rest = (itemNested (.Terminator :: S) level rest).1.toks ++ (itemNested (.Terminator :: S) level rest).2 := by
      rcases hN0 with e | e <;> rw [e]
      · rfl
      · exact itemsB_toks _ (Nat.le_refl _)
    generalize hN : itemNested (.Terminator :: S) level rest = N at *
    obtain ⟨NI, nrest⟩ := N
    simp only at *
    have hlN : Live src nrest := by rw [hNt] at hlrest; exact hlrest.right
    have hRok := itemsB_ok (stops := (.Terminator :: S)) (by simp) level (some k) nrest
    generalize hR : itemsB (.Terminator :: S) level (some k) nrest = R at *
    have hRe : R.1 = .nil → R.2 = nrest := by rw [← hR]; exact itemsB_empty
    obtain ⟨RI, rrest⟩ := R
    simp only [Items.denote] at *
    subst hd
    generalize hl' : RI.denote src level = l' at *
    generalize htext : ToYamd.trimTrailingNewline (paraDenote src pl) = text at *
    have hnv : NextV c (restV M ty level l' ++ w) := restV_next hn l'
    have hvr : Valid (restV M ty level l' ++ w) := (itemsV_valid l').2.append hv
    have hvt : Valid (mk M false (paraW text)) := (mk_more _ _).more.valid (paraW_valid _)
    -- the rest of the list
    have tail : plainItems l' = true → Onward src nrest (restV M ty level l' ++ w) →
        safeListItems ⟨c⟩ ⟨level, ty.marker, M⟩ l' = true ∧ Onward src rrest w := by
      intro hpl ho
      cases l' with
      | nil =>
        have := hRe (items_nil hl')
        rw [this]
        exact ⟨rfl, by simpa [restV] using ho⟩
      | cons j r' =>
        refine ih2 ty M (j :: r') w hM hlN (by simp) rfl (fun k' hk' => ?_) ?_ hv hn hpl
        · rw [← hty]
          cases RI with
          | nil => simp [Items.kind] at hk'
          | cons k2 =>
            have := hRok.1 k rfl
            simp only [Items.kind, Option.some.injEq] at hk'
            rw [← hk', this]
        · have := ho.2 (itemV M ty level j ++ (restV M ty level r' ++ w)) (by simp [restV]) (itemV_itemish ..)
          simpa [itemsV] using this
    cases hkn : NI.kind with
    | none =>
      rw [hkn] at hs hp
      simp only [wrapDenote, Option.map_none, itemsV, itemV, plainItems, plainItem, Bool.and_eq_true, safeListItems, safeListItem] at hs hp ⊢
      simp only [List.append_assoc] at hs
      obtain ⟨g1, g2⟩ := marker_split h hl (hvt.append hvr) hs
      obtain ⟨i1, i2⟩ := item_exact hS hM hlr hpara hvr g1 hnv g2 htext hp.1.1 (by simpa using hp.1.2)
      rw [hmk] at i1
      have hNn := kind_nil hkn
      have : nrest = rest := by
        rcases hN0 with e | e
        · exact (Prod.mk.inj e).2
        · have := itemsB_empty (stops := (.Terminator :: S)) (level := level + 1) (want := none) (ts := rest) (by rw [← e]; exact hNn)
          rw [← e] at this; exact this
      rw [← this] at i2
      obtain ⟨t1, t2⟩ := tail hp.2 i2
      exact ⟨⟨i1, t1⟩, t2⟩
    | some kn =>
      rw [hkn] at hs hp
      simp only [wrapDenote, Option.map_some, itemsV, itemV, plainItems, plainItem, plainList, Bool.and_eq_true, safeListItems, safeListItem,
        safeList, listV] at hs hp ⊢
      simp only [List.append_assoc] at hs
      have hne' : NI.denote src (level + 1) ≠ [] := by
        intro e
        rw [items_nil e] at hkn
        simp [Items.kind] at hkn
      have hNe : (NI, nrest) = itemsB (.Terminator :: S) (level + 1) none rest := by
        rcases hN0 with e | e
        · rw [(Prod.mk.inj e).1] at hkn; simp [Items.kind] at hkn
        · exact e
      rw [← hNe] at ih1
      generalize hnl : NI.denote src (level + 1) = nl at *
      have hvn : Valid (itemsV (M ++ [(listType kn).marker]) (listType kn) (level + 1) nl ++ (restV M ty level l' ++ w)) :=
        (itemsV_valid nl).1.append hvr
      have hit : Itemish (itemsV (M ++ [(listType kn).marker]) (listType kn) (level + 1) nl ++ (restV M ty level l' ++ w)) := by
        cases nl with
        | nil => exact absurd rfl hne'
        | cons j r' =>
          simp only [itemsV, List.append_assoc]
          exact itemV_itemish ..
      obtain ⟨g1, g2⟩ := marker_split h hl (hvt.append ((valid_free (by decide)).append hvn)) hs
      obtain ⟨i1, i2⟩ := item_exact hS hM hlr hpara ((valid_free (by decide)).append hvn) g1 (.inr (.inl ⟨_, rfl, hit⟩)) g2 htext
        hp.1.1.1 (by simpa using hp.1.1.2)
      rw [hmk] at i1
      obtain ⟨n1, n2⟩ := ih1 (listType kn) (M ++ [(listType kn).marker]) nl _ (hM.snoc (marker_isMarker _)) hlrest hne' rfl
        (fun k' hk' => by rw [hkn] at hk'; rw [Option.some.inj hk']) (i2.2 _ rfl hit) hvr hnv hp.1.2
      obtain ⟨t1, t2⟩ := tail hp.2 n2
      exact ⟨⟨⟨i1, n1⟩, t1⟩, t2⟩

end Yamd.Round
