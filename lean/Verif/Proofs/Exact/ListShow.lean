import Verif.Proofs.Exact.ItemStrings
import Verif.Proofs.Exact.Code
import Verif.Proofs.SteadyItems
import Verif.Proofs.SteadyBlocks

/-!
# What `Display` writes for a list that was read
-/

namespace Yamd.Round

open Yamd Yamd.Spec Yamd.Lexer Yamd.Ref

/-! ### Trimming -/

theorem trim_solid {q : Paragraph} (hs : q.all solid = true) (hc : noClash clashP q = true) :
    (ToYamd.trimTrailingNewline q).all solid = true ∧ noClash clashP (ToYamd.trimTrailingNewline q) = true ∧
      (trailingText (ToYamd.trimTrailingNewline q)).getLast? ≠ some '\n' ∧
      ∃ n, (paraW q).map Prod.snd = (paraW (ToYamd.trimTrailingNewline q)).map Prod.snd ++ List.replicate n '\n' := by
  unfold ToYamd.trimTrailingNewline
  split
  · rename_i t e
    obtain ⟨q0, rfl⟩ := List.getLast?_eq_some_iff.1 e
    obtain ⟨n, hn⟩ := trimEndNl_rest t
    have hlast := trimEnd_last t
    have hW : ∀ s : Str, (paraW (q0 ++ [.text s])).map Prod.snd = (paraW q0).map Prod.snd ++ s := by
      intro s
      simp [paraW, nodeW, textV_chars]
    simp only [List.dropLast_concat]
    rw [List.all_append, Bool.and_eq_true] at hs
    split
    · rename_i h0
      rw [h0, List.nil_append] at hn
      refine ⟨hs.1, noClash_left hc, ?_, n, by rw [hW, hn]⟩
      rcases List.eq_nil_or_concat q0 with rfl | ⟨q1, x, rfl⟩
      · simp [trailingText]
      · rw [List.concat_eq_append] at hc ⊢
        have hx := noClash_mid (a := q1) (x := x) (y := .text t) (r := []) (by simpa using hc)
        cases x with
        | text s => simp [clashP] at hx
        | _ => simp [trailingText]
    · rename_i h0
      refine ⟨?_, noClash_set (x := .text t) (fun z => by cases z <;> rfl) hc, ?_, n, ?_⟩
      · rw [List.all_append, hs.1]
        simp [solid, h0]
      · simpa [trailingText] using hlast
      · rw [hW, hW, List.append_assoc, ← hn]
  · rename_i h
    refine ⟨hs, hc, ?_, 0, by simp⟩
    unfold trailingText
    split
    · rename_i s e; exact absurd e (h s)
    · simp

mutual
/-- Every text of the list is written as its view. -/
def solidList : YList → Bool
  | .mk _ _ items => solidItems items
def solidItems : List YItem → Bool
  | [] => true
  | i :: r => solidItem i && solidItems r
def solidItem : YItem → Bool
  | .mk text none => text.all solid
  | .mk text (some l) => text.all solid && solidList l
end

mutual
theorem item_written {level : Nat} : ∀ {i : YItem}, solidItem i = true →
    itemLevelsOk level i = true → YItem.display i = render (itemBodyV [] i)
  | .mk text none, h, _ => by
    simp only [solidItem] at h
    simp only [YItem.display, itemBodyV, mk_none]
    exact paraW_solid h
  | .mk text (some (.mk ty level' items)), h, hl => by
    simp only [solidItem, solidList, Bool.and_eq_true] at h
    simp only [itemLevelsOk, levelsOk, Bool.and_eq_true, beq_iff_eq, Bool.not_eq_true'] at hl
    obtain ⟨rfl, hne, hlev⟩ := hl
    simp only [YItem.display, YList.display, itemBodyV, listV, render_append, mk_none, List.nil_append]
    rw [items_written (ty := ty) h.2 hlev, paraW_solid h.1]
    rfl
theorem items_written {level : Nat} {ty : ListTypes} : ∀ {l : List YItem}, solidItems l = true →
    itemsLevelsOk level l = true → joinWith (cs! "\n") (YList.displayItems ty level l) = render (itemsV [ty.marker] ty level l)
  | [], _, _ => rfl
  | [i], h, hl => by
    simp only [solidItems, Bool.and_true] at h
    simp only [itemsLevelsOk, Bool.and_true] at hl
    have ih := item_written h hl
    have hm := marker_isMarker ty
    simp only [YList.displayItems, joinWith, itemsV, restV, List.append_nil]
    rw [ih, replace_mk hm, mk_body hm (by simp [Markers]) hl, itemV_body, render_append, markV_render]
    simp
  | i :: j :: r, h, hl => by
    simp only [solidItems] at h
    rw [Bool.and_eq_true] at h
    simp only [itemsLevelsOk] at hl
    rw [Bool.and_eq_true] at hl
    have ih := item_written h.1 hl.1
    have ih2 := items_written (ty := ty) (level := level) (l := j :: r) (by simp only [solidItems]; exact h.2)
      (by simp only [itemsLevelsOk]; exact hl.2)
    have hm := marker_isMarker ty
    have e : itemsV [ty.marker] ty level (i :: j :: r) =
        itemV [ty.marker] ty level i ++ (free ['\n'] ++ itemsV [ty.marker] ty level (j :: r)) := by
      simp only [itemsV, restV]
    rw [e, render_append, render_append, ← ih2]
    simp only [YList.displayItems, joinWith]
    rw [ih, replace_mk hm, mk_body hm (by simp [Markers]) hl.1, itemV_body, render_append, markV_render]
    simp [render_free_all]
end

theorem items_read {src : Str} : ∀ {level want} {I : Items}, I.Ok level want → Live src I.toks →
    solidItems (I.denote src level) = true ∧ itemsLevelsOk level (I.denote src level) = true
  | _, _, .nil, _, _ => ⟨rfl, rfl⟩
  | level, _, .cons k m p n r, ok, hl => by
    obtain ⟨-, -, okp, okn, okr⟩ := ok
    rw [Items.toks] at hl
    have hl1 := hl.right
    have t1 := (trim_solid (para_solid okp hl1.left).1 (para_solid okp hl1.left).2).1
    have hn := items_read okn hl1.right.left
    have hr := items_read okr hl1.right.right
    simp only [Items.denote, solidItems, itemsLevelsOk, hr.1, hr.2, Bool.and_true]
    cases n with
    | nil => exact ⟨by simpa [Items.kind, wrapDenote, solidItem] using t1, rfl⟩
    | cons k' m' p' n' r' =>
      simp only [Items.kind, wrapDenote, Option.map_some, solidItem, solidList, itemLevelsOk, levelsOk, hn.1, hn.2, t1]
      simp [Items.denote]

theorem list_written {src : Str} {I : Items} {ty : ListTypes} (ok : I.Ok 0 none) (hl : Live src I.toks) :
    dispB (.list (.mk ty 0 (I.denote src 0))) = render (listV [] (.mk ty 0 (I.denote src 0))) := by
  obtain ⟨h1, h2⟩ := items_read ok hl
  have := items_written (ty := ty) h1 h2
  simpa [dispB, YamdNode.display, YList.display, listV] using this

mutual
theorem itemV_valid {M ty level} : ∀ (i : YItem), Valid (itemV M ty level i)
  | .mk text none => by
    simp only [itemV]
    exact (markV_valid _ _).append ((mk_more _ _).more.valid (paraW_valid _))
  | .mk text (some l) => by
    simp only [itemV]
    exact (markV_valid _ _).append (((mk_more _ _).more.valid (paraW_valid _)).append ((valid_free (by decide)).append (listV_valid l)))
theorem itemsV_valid {M ty level} : ∀ (l : List YItem), Valid (itemsV M ty level l) ∧ Valid (restV M ty level l)
  | [] => by simp [itemsV, restV, Valid]
  | i :: r => by
    have h1 := itemV_valid (M := M) (ty := ty) (level := level) i
    have h2 := itemsV_valid (M := M) (ty := ty) (level := level) r
    simp only [itemsV, restV]
    exact ⟨h1.append h2.2, (valid_free (by decide)).append (h1.append h2.2)⟩
theorem listV_valid {M} : ∀ (l : YList), Valid (listV M l)
  | .mk ty level items => by
    simp only [listV]
    exact (itemsV_valid items).1
end

/-- A list starts with its marker. -/
theorem listV_marker {M ty} {l : List YItem} (h : l ≠ []) : ∃ r, listV M (.mk ty 0 l) = (false, ty.marker) :: r := by
  cases l with
  | nil => exact absurd rfl h
  | cons i l =>
    obtain ⟨t, n⟩ := i
    cases n <;> exact ⟨_, rfl⟩

end Yamd.Round
