import Verif.Proofs.Round.ListBlock

/-!
# Lists read back: what `Display` writes
-/

namespace Yamd.Round

open Yamd Yamd.Spec Yamd.Lexer Yamd.Ref

/-! ### Items and nested lists -/

/-- The view of an item after its marker. -/
def itemBodyV (M : List Char) : YItem → V
  | .mk text none => mk M false (paraW text)
  | .mk text (some l) => mk M false (paraW text) ++ (free ['\n'] ++ listV M l)

theorem itemV_body (M ty level) (i : YItem) : itemV M ty level i = markV level ty ++ itemBodyV M i := by
  obtain ⟨t, n⟩ := i
  cases n <;> simp [itemV, itemBodyV]

theorem mk_none : ∀ (p : Bool) (v : V), mk [] p v = v
  | _, [] => rfl
  | p, x :: r => by rw [mk, mk_none, if_neg (by simp)]

theorem markers_one {m} (h : isMarker m) : Markers [m] := by intro x hx; rw [List.mem_singleton.1 hx]; exact h

theorem Markers.snoc {M m} (hM : Markers M) (h : isMarker m) : Markers (M ++ [m]) := by
  intro x hx
  rcases List.mem_append.1 hx with hx | hx
  · exact hM x hx
  · exact markers_one h x hx

mutual
/-- Escaping the marker of the list around an item. -/
theorem mk_body {m M level} (hm : isMarker m) (hM : Markers M) : ∀ {i : YItem}, itemLevelsOk level i = true →
    mk [m] false (itemBodyV M i) = itemBodyV (m :: M) i
  | .mk text none, _ => by simp only [itemBodyV]; exact mk_mk hM _ _
  | .mk text (some (.mk ty level' items)), hl => by
    simp only [itemLevelsOk, levelsOk, Bool.and_eq_true, beq_iff_eq, Bool.not_eq_true'] at hl
    obtain ⟨rfl, -, hlev⟩ := hl
    have ih := (mk_items (p := true) (ty := ty) hm (hM.snoc (marker_isMarker ty)) hlev).1
    simp only [itemBodyV, listV]
    rw [mk_append (by simp [free]), mk_mk hM, mk_nl (markers_one hm), ih]
    rfl
theorem mk_items {m M level p ty} (hm : isMarker m) (hM : Markers M) : ∀ {l : List YItem}, itemsLevelsOk (level + 1) l = true →
    mk [m] p (itemsV M ty (level + 1) l) = itemsV (m :: M) ty (level + 1) l ∧
    mk [m] p (restV M ty (level + 1) l) = restV (m :: M) ty (level + 1) l
  | [], _ => by simp [itemsV, restV, mk]
  | i :: r, hl => by
    simp only [itemsLevelsOk, Bool.and_eq_true] at hl
    have h1 := mk_body (level := level + 1) hm hM hl.1
    have key : ∀ q, mk [m] q (itemV M ty (level + 1) i ++ restV M ty (level + 1) r) =
        itemV (m :: M) ty (level + 1) i ++ restV (m :: M) ty (level + 1) r := by
      intro q
      have h2 := (mk_items (level := level) (p := endNl false (itemBodyV M i)) (ty := ty) hm hM hl.2).2
      rw [itemV_body, itemV_body, List.append_assoc, mk_mark (markers_one hm), mk_append (restV_head M ty _ r), h1, h2, List.append_assoc]
    simp only [itemsV, restV]
    refine ⟨key p, ?_⟩
    rw [mk_nl (markers_one hm), key]
end

theorem markV_render (level : Nat) (ty : ListTypes) : render (markV level ty) = List.replicate level ' ' ++ [ty.marker, ' '] := by
  simp only [markV, render_append, render_free_all]
  simp

mutual
theorem item_display {pl : Place} {it : ItemPlace} {level : Nat} : ∀ {i : YItem}, safeListItem pl it i = true →
    itemLevelsOk level i = true → YItem.display i = render (itemBodyV [] i)
  | .mk text none, h, _ => by
    simp only [safeListItem, safeItemText, safeInline, Bool.and_eq_true] at h
    simp only [YItem.display, itemBodyV, mk_none]
    exact paraW_eq h.1.1.1.1
  | .mk text (some (.mk ty level' items)), h, hl => by
    simp only [safeListItem, safeItemText, safeInline, safeList, Bool.and_eq_true] at h
    simp only [itemLevelsOk, levelsOk, Bool.and_eq_true, beq_iff_eq, Bool.not_eq_true'] at hl
    obtain ⟨rfl, hne, hlev⟩ := hl
    simp only [YItem.display, YList.display, itemBodyV, listV, render_append, mk_none, List.nil_append]
    rw [items_display (ty := ty) h.2 hlev, paraW_eq h.1.1.1.1.1]
    rfl
theorem items_display {pl : Place} {it : ItemPlace} {level : Nat} {ty : ListTypes} : ∀ {l : List YItem}, safeListItems pl it l = true →
    itemsLevelsOk level l = true → joinWith (cs! "\n") (YList.displayItems ty level l) = render (itemsV [ty.marker] ty level l)
  | [], _, _ => rfl
  | [i], h, hl => by
    simp only [safeListItems, Bool.and_true] at h
    simp only [itemsLevelsOk, Bool.and_true] at hl
    have ih := item_display h hl
    have hm := marker_isMarker ty
    simp only [YList.displayItems, joinWith, itemsV, restV, List.append_nil]
    rw [ih, replace_mk hm, mk_body hm (by simp [Markers]) hl, itemV_body, render_append, markV_render]
    simp
  | i :: j :: r, h, hl => by
    simp only [safeListItems] at h
    rw [Bool.and_eq_true] at h
    simp only [itemsLevelsOk] at hl
    rw [Bool.and_eq_true] at hl
    have ih := item_display h.1 hl.1
    have ih2 := items_display (pl := pl) (it := it) (ty := ty) (level := level) (l := j :: r) (by simp only [safeListItems]; exact h.2)
      (by simp only [itemsLevelsOk]; exact hl.2)
    have hm := marker_isMarker ty
    have e : itemsV [ty.marker] ty level (i :: j :: r) =
        itemV [ty.marker] ty level i ++ (free ['\n'] ++ itemsV [ty.marker] ty level (j :: r)) := by
      simp only [itemsV, restV]
    rw [e, render_append, render_append, ← ih2]
    simp only [YList.displayItems, joinWith]
    rw [ih, replace_mk hm, mk_body hm (by simp [Markers]) hl.1, itemV_body, render_append, markV_render]
    simp [render_free_all]
end

/-! ### The list block -/

theorem itemP_of {c stops M level own p} (hi : Inside c stops) (hM : Markers M) (h : safeItemText ⟨c⟩ ⟨level, own, M⟩ p = true) :
    ItemP stops M level own p := by
  simp only [safeItemText, safeInline, Bool.and_eq_true, Bool.not_eq_true', List.all_eq_true (p := noItemLine _)] at h
  obtain ⟨⟨⟨⟨hall, hcl⟩, hsp⟩, he⟩, hno⟩ := h
  have hv : ParaV (.Terminator :: stops) false p (paraW p) := paraW_ok hi.placed hall
  refine ⟨para_marked hv ((mk_more false _).mono hM.marks), chainP hcl, he, text_ne hall, ?_,
    noItem_mk hM (paraW_noEsc p) (noItem_para hall hno hcl)⟩
  rw [mk_head]
  intro hh
  have hf : free [' '] <+: paraW p := by
    cases hp : paraW p with
    | nil => rw [hp] at hh; simp at hh
    | cons x r =>
      rw [hp] at hh
      simp only [List.head?_cons, Option.some.injEq] at hh
      rw [hh]
      exact ⟨r, rfl⟩
  have := para_prefix hv (chainP hcl) (pat := [' ']) (by decide) hf
  simp only [starts] at hsp
  rw [← List.isPrefixOf_iff_prefix] at this
  simp [this] at hsp

mutual
theorem itemOk_of {c stops M level own lv} (hi : Inside c stops) (hM : Markers M) : ∀ {i : YItem},
    safeListItem ⟨c⟩ ⟨level, own, M⟩ i = true → itemLevelsOk lv i = true → ItemOk stops M level own i
  | .mk text none, h, _ => by
    simp only [safeListItem] at h
    simp only [ItemOk]
    exact itemP_of hi hM h
  | .mk text (some l), h, hl => by
    simp only [safeListItem, Bool.and_eq_true] at h
    simp only [itemLevelsOk] at hl
    simp only [ItemOk]
    exact ⟨itemP_of hi hM h.1, listOk_of hi hM h.2 hl⟩
theorem itemsOk_of {c stops M level own lv} (hi : Inside c stops) (hM : Markers M) : ∀ {l : List YItem},
    safeListItems ⟨c⟩ ⟨level, own, M⟩ l = true → itemsLevelsOk lv l = true → ItemsOk stops M level own l
  | [], _, _ => by simp [ItemsOk]
  | i :: r, h, hl => by
    simp only [safeListItems, Bool.and_eq_true] at h
    simp only [itemsLevelsOk, Bool.and_eq_true] at hl
    simp only [ItemsOk]
    exact ⟨itemOk_of hi hM h.1 hl.1, itemsOk_of hi hM h.2 hl.2⟩
theorem listOk_of {c stops M lv} (hi : Inside c stops) (hM : Markers M) : ∀ {l : YList}, safeList ⟨c⟩ M l = true →
    levelsOk lv l = true → ListOk stops M l
  | .mk ty level' items, h, hl => by
    simp only [safeList] at h
    simp only [levelsOk, Bool.and_eq_true, beq_iff_eq, Bool.not_eq_true'] at hl
    simp only [ListOk]
    exact ⟨by simpa using hl.2.1, itemsOk_of hi (hM.snoc (marker_isMarker ty)) h hl.2.2⟩
end

/-- A safe list is written so that it reads back. -/
theorem good_list {c stops l} (hi : Inside c stops) (h : safeLeaf ⟨c⟩ (.list l) = true) :
    Good stops (.list l) l.display := by
  simp only [safeLeaf, Bool.and_eq_true] at h
  have hok := listOk_of hi (M := []) (by simp [Markers]) h.2 h.1
  have hV := listV_ok hok
  obtain ⟨ty, level, items⟩ := l
  have hl := h.1
  simp only [levelsOk, Bool.and_eq_true, beq_iff_eq, Bool.not_eq_true'] at hl
  obtain ⟨rfl, -, hlev⟩ := hl
  have hL := hok
  simp only [ListOk] at hL
  refine ⟨listV [] (.mk ty 0 items), ?_, ⟨hV.1, listV_ne hok, ?_⟩, fun _ => hV.2, fun _ => by simpa using listV_clean_start hok []⟩
  · simp only [YList.display, listV]
    exact items_display (by simpa only [safeList] using h.2) hlev
  · intro src ts hs
    simp only [listV] at hs
    obtain ⟨m, r, rfl, hm⟩ := items_marked hL.2 hL.1 hs
    rcases hm with ⟨-, a, s, rfl, h1, h2, h3⟩ | ⟨h0, -⟩
    · refine reads_other (fun rest hr => ?_)
      obtain ⟨I, e1, e2, e3⟩ := items_exec (b := 0) (want := none) hi.1 hL.2 hlev hL.1 (.inl rfl) hs (.done hr) (.inl rfl)
      rw [List.nil_append] at e1
      have hk := tryFrom_kind h2
      have hk2 : a.kind ≠ .CollapsibleEnd ∧ a.kind ≠ .Eol ∧ a.kind ≠ .Backtick ∧ a.kind ≠ .LeftCurlyBrace ∧ a.kind ≠ .Bang ∧
          a.kind ≠ .Terminator ∧ a.kind ≠ .CollapsibleStart := by
        rcases hk with e | e <;> simp [e]
      obtain ⟨k1, k2, k3, k4, k5, k6, k7⟩ := hk2
      have eo : otherB stops ([a, s] ++ r ++ rest) = (.list I, rest) := by
        rw [show [a, s] ++ r ++ rest = a :: (s :: (r ++ rest)) by simp, otherB_leaf k4 (by simp [isTwoBangs, k5])]
        rw [show [a, s] ++ r ++ rest = a :: (s :: (r ++ rest)) by simp] at e1
        unfold leafB
        rw [e1]
        cases I with
        | nil => simp [Items.kind] at e2
        | cons => rfl
      refine ⟨stop_kind hi.1 k1 k2, by simp [tokenIs, isTerminator, k6], codeB_no k3, by simp [tokenIs, isCollapsibleStart, k7], ?_, ?_⟩
      · rw [eo]
        simp only [Block.denote, e2, Option.getD_some, listType_kindOf, e3]
      · rw [eo]; exact .inl rfl
    · exact absurd rfl h0

end Yamd.Round
