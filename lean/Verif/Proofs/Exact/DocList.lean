import Verif.Proofs.Exact.ListItems

/-!
# The first block of a document: a list
-/

namespace Yamd.Round

open Yamd Yamd.Spec Yamd.Lexer Yamd.Ref

/-- The first list is safe. -/
theorem first_list {c S} {d : Str} {l : YList} {b t1 t2 v X} (hn : isPlain (.list l) = true) (h : First c S d (.list l) b t1 t2 v X) :
    safeBlock c (.list l) = true := by
  have den := h.den
  obtain ⟨I, rfl, hden⟩ : ∃ I, b = .list I ∧ YList.mk (listType (I.kind.getD .Unordered)) 0 (I.denote d 0) = l := by
    cases b with
    | list I =>
      simp only [Block.denote, YamdNode.list.injEq] at den
      exact ⟨I, rfl, den⟩
    | images l =>
      match l with
      | [] => simp [Block.denote] at den
      | [i] => simp [Block.denote] at den
      | i :: j :: l => simp [Block.denote] at den
    | _ => simp [Block.denote, YamdNode.newCode] at den
  obtain ⟨ok, hne⟩ := h.ok
  have hshow := h.shown
  rw [← hden, list_written ok h.live] at hshow
  have ev := render_inj (listV_valid _) h.valid.left hshow
  have hI : I.denote d 0 ≠ [] := by
    cases I with
    | nil => exact absurd rfl hne
    | cons => simp [Items.denote]
  obtain ⟨k, hk⟩ : ∃ k, I.kind = some k := by
    cases I with
    | nil => exact absurd rfl hne
    | cons k => exact ⟨k, rfl⟩
  rw [hk, Option.getD_some] at ev hden
  obtain ⟨r, hr⟩ := listV_marker (M := []) (ty := listType k) hI
  have hsp := h.spells
  have hvv := h.valid
  have hall := h.all
  obtain ⟨D, hD⟩ := h.read
  generalize t1 ++ t2 = ts at hsp hD hall
  rw [← ev] at hsp hvv
  cases ts with
  | nil =>
    have := spv_text hvv hsp
    rw [hr] at this
    simp [textOfToks] at this
  | cons t ts =>
    have htext := spv_text hvv hsp
    rw [hr, text_cons] at htext
    have key : ∀ {c : Char} {s : Str}, sliceD d t = c :: s → c = (listType k).marker := by
      intro c s e
      rw [e] at htext
      simp only [List.cons_append, List.map_cons, List.cons.injEq] at htext
      exact htext.1
    have no : ∀ {f : Token → Bool} {c : Char} {s : Str}, (f t = true → sliceD d t = c :: s) → c ≠ '-' → c ≠ '+' → f t = false := by
      intro f c s hf h1 h2
      cases hft : f t with
      | false => rfl
      | true =>
        have := key (hf hft)
        cases k
        · exact absurd this h1
        · exact absurd this h2
    have hleaf := docB_plain hD
      (no (c := '{') (s := ['%']) (fun h => fixed_slice hall (by simp) (k := .CollapsibleStart) (by simp [isCollapsibleStart] at h; exact h.1) rfl)
        (by decide) (by decide))
      (no (c := '`') (s := ['`', '`']) (fun h => run_slice hall (by simp) (k := .Backtick) (n := 3) (by simp [isBacktick3] at h; simp [h.1.1, h.2]) rfl)
        (by decide) (by decide))
      (no (c := '{') (s := ['{']) (fun h => run_slice hall (by simp) (k := .LeftCurlyBrace) (n := 2) (by simp [isLeftCurly2] at h; simp [h.1.1, h.2]) rfl)
        (by decide) (by decide))
      (no (c := '!') (s := ['!']) (fun h => run_slice hall (by simp) (k := .Bang) (n := 2) (by simp [isTwoBangs] at h; simp [h.1.1, h.2]) rfl)
        (by decide) (by decide))
    rcases leafB_cases (.Terminator :: S) (t :: ts) with ⟨k', m, p, n, r, rest, e1, e2⟩ | ⟨i, l, r, e1, e2⟩ | e | e | e
    · rw [e2] at hleaf
      simp only [Block.list.injEq] at hleaf
      rw [hleaf] at e1
      obtain ⟨s1, -⟩ := items_exact h.place (src := d) 0 none (t :: ts) (listType k) [(listType k).marker] (I.denote d 0) X
        (markers_one (marker_isMarker _)) hall hI (by rw [e1]) (fun k' hk' => by rw [e1, hk] at hk'; rw [Option.some.inj hk'])
        (by simpa [listV] using hsp) hvv.right (by
          rcases h.after with rfl | ⟨Y, rfl⟩ | ⟨hc, Y, rfl⟩
          · exact .inl rfl
          · exact .inr (.inr (.inl ⟨Y, rfl⟩))
          · exact .inr (.inr (.inr ⟨hc, Y, rfl⟩))) (by rw [← hden] at hn; simpa [isPlain, plainList] using hn)
      have hlev := (items_read ok h.live).2
      rw [← hden]
      have hIe : (I.denote d 0).isEmpty = false := by simpa using hI
      simp [safeBlock, safeLeaf, levelsOk, safeList, hlev, hIe, s1]
    · rw [e2] at hleaf; simp at hleaf
    · rw [thematicB] at e
      split at e
      · have := Option.some.inj e
        rw [← this] at hleaf; simp at hleaf
      · simp at e
    · unfold headingB at e
      split at e
      · have := Option.some.inj e
        rw [← this] at hleaf; simp at hleaf
      · simp at e
    · rw [e] at hleaf; simp at hleaf

end Yamd.Round
