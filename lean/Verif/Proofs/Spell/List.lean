import Verif.Proofs.Spell.Highlight
import Verif.Proofs.Round.ListDisplay

/-!
# Lists whose texts are escaped throughout
-/

namespace Yamd.Round.SpellL

open Yamd Yamd.Spec Yamd.Lexer Yamd.Ref

mutual
/-- The view of a list with its texts escaped throughout. -/
def listV : YList → V
  | .mk ty level items => itemsV ty level items
/-- The view of items. -/
def itemsV (ty : ListTypes) (level : Nat) : List YItem → V
  | [] => []
  | i :: r => itemV ty level i ++ restV ty level r
/-- The view of the items after the first. -/
def restV (ty : ListTypes) (level : Nat) : List YItem → V
  | [] => []
  | i :: r => free ['\n'] ++ (itemV ty level i ++ restV ty level r)
/-- The view of an item. -/
def itemV (ty : ListTypes) (level : Nat) : YItem → V
  | .mk text none => markV level ty ++ hidPara text
  | .mk text (some l) => markV level ty ++ (hidPara text ++ (free ['\n'] ++ listV l))
end

/-- The text of an item. -/
structure ItemP (stops : List Stop) (level : Nat) (own : Char) (p : Paragraph) : Prop where
  view : ParaV (.Terminator :: stops) false p (hidPara p)
  chain : Chain nodeShape p
  all : p.all exprNode = true
  ends : (trailingText p).getLast? ≠ some '\n'
  texts : ∀ s, ParagraphNode.text s ∈ p → s ≠ []
  space : (hidPara p).head? ≠ some (false, ' ')
  noItem : NoItem level own (hidPara p)

theorem ItemP.clean {stops level own p} (h : ItemP stops level own p) : CleanEnd (hidPara p) := by
  exact hidPara_cleanEnd h.all

theorem ItemP.valid {stops level own p} (h : ItemP stops level own p) : Valid (hidPara p) := para_valid h.view

/-- The text of an item reads back. -/
theorem item_text {src stops level ty p r e rest} (hd : DStops stops) (hp : ItemP stops level ty.marker p)
    (hs : SpV src false r (hidPara p)) (ha : After src stops (level + 1) level (kindOf ty) e rest) :
    ∃ l, paraB (.ListBoundary level (kindOf ty) :: .Terminator :: stops) [] (r ++ (e ++ rest)) = (l, rest) ∧
      ToYamd.trimTrailingNewline (paraDenote src l) = p := by
  have hno := hp.noItem
  rw [← markOf_kindOf] at hno
  cases ha with
  | done h =>
    obtain ⟨l, e1, ok, np, den⟩ := para_tree hp.view hp.chain hs
    refine ⟨l, ?_, by rw [den, trim_id hp.ends hp.texts]⟩
    rw [List.nil_append, ← e1]
    refine para_in_item hd ok np ?_ ?_ ?_
    · have := h.stop
      cases rest with
      | nil => rfl
      | cons t r =>
        simp only [stopAt, List.any_cons, Bool.or_eq_true] at this ⊢
        exact .inr this
    · exact h.calm [.CollapsibleEnd] (by simp)
    · rw [e1]; exact spv_unstopped hp.valid hs h.noMark hno
  | @more x _ l' k' hx h hl hk =>
    have hs2 : SpV src false (r ++ [x]) (hidPara p ++ free ['\n']) := by
      refine spv_append hp.valid (w := free ['\n']) ?_ hs ?_
      · simpa using join_nl (w := []) hp.valid hp.clean
      · rw [flag_clean hp.clean]
        unfold SpV
        rw [render_free_all, show pieces ['\n'] = [⟨false, .Eol, ['\n']⟩] from pieces_one rfl]
        exact ⟨hx, trivial⟩
    obtain ⟨l, e1, ok, np, den⟩ := para_tree (para_nl hp.view hp.clean) (chain_appendNl hp.chain) hs2
    refine ⟨l, ?_, by rw [den, trim_add hp.ends hp.texts]⟩
    rw [← List.append_assoc, ← e1]
    refine para_in_item hd ok np (marked_stop h hl hk) (marked_calm (S := [.CollapsibleEnd]) h (by simp)) ?_
    rw [e1]
    refine Unstopped.append (spv_unstopped hp.valid hs (noMark_of_kind ?_) hno) (unstopped_eol hx)
    intro t ht
    simp only [List.cons_append, List.nil_append, List.head?_cons, Option.mem_def, Option.some.injEq] at ht
    exact .inl (by rw [← ht]; exact hx.kind)

/-- The views of the parts of a list. -/
theorem itemV_ne (ty : ListTypes) (level : Nat) (i : YItem) : itemV ty level i ≠ [] := by
  obtain ⟨t, n⟩ := i
  cases n <;> simp [itemV, markV, free]

mutual
def ItemsOk (stops : List Stop) (level : Nat) (own : Char) : List YItem → Prop
  | [] => True
  | i :: r => ItemOk stops level own i ∧ ItemsOk stops level own r
def ItemOk (stops : List Stop) (level : Nat) (own : Char) : YItem → Prop
  | .mk text none => ItemP stops level own text
  | .mk text (some l) => ItemP stops level own text ∧ ListOk stops l
def ListOk (stops : List Stop) : YList → Prop
  | .mk ty level items => items ≠ [] ∧ ItemsOk stops level ty.marker items
end

theorem itemV_clean_start (ty : ListTypes) (level : Nat) (i : YItem) (w : V) : CleanStart (itemV ty level i ++ w) := by
  obtain ⟨c, X, e, h1, h2⟩ := markV_head level ty
  obtain ⟨t, n⟩ := i
  cases n <;> exact cleanStart_of_head (c := c) (by simp [itemV, e]) h1 h2

theorem listV_clean_start {stops l} (h : ListOk stops l) (w : V) : CleanStart (listV l ++ w) := by
  obtain ⟨ty, level, items⟩ := l
  cases items with
  | nil => simp [ListOk] at h
  | cons i r => simp only [listV, itemsV, List.append_assoc]; exact itemV_clean_start ..

theorem listV_ne {stops l} (h : ListOk stops l) : listV l ≠ [] := by
  obtain ⟨ty, level, items⟩ := l
  cases items with
  | nil => simp [ListOk] at h
  | cons i r => simp [listV, itemsV, itemV_ne]

mutual
theorem itemV_ok {stops ty level own} : ∀ {i : YItem}, ItemOk stops level own i → Valid (itemV ty level i) ∧ CleanEnd (itemV ty level i)
  | .mk text none, h => by
    simp only [ItemOk] at h
    simp only [itemV]
    exact ⟨(markV_valid _ _).append h.valid, h.clean.left (markV_clean _ _)⟩
  | .mk text (some l), h => by
    simp only [ItemOk] at h
    have ih := listV_ok h.2
    simp only [itemV]
    refine ⟨(markV_valid _ _).append (h.1.valid.append ((valid_free (by decide)).append ih.1)), ?_⟩
    unfold CleanEnd at ih ⊢
    have := listV_ne h.2
    rw [last_append (by simp [free]), last_append (by simp [free]), last_append this]
    exact ih.2
theorem itemsV_ok {stops ty level own} : ∀ {l : List YItem}, ItemsOk stops level own l →
    Valid (itemsV ty level l) ∧ CleanEnd (itemsV ty level l) ∧ Valid (restV ty level l) ∧ CleanEnd (restV ty level l)
  | [], _ => by simp [itemsV, restV, Valid, cleanEnd_nil]
  | i :: r, h => by
    simp only [ItemsOk] at h
    have h1 := itemV_ok (ty := ty) (level := level) h.1
    have h2 := itemsV_ok (ty := ty) (level := level) h.2
    simp only [itemsV, restV]
    refine ⟨h1.1.append h2.2.2.1, h2.2.2.2.left h1.2, (valid_free (by decide)).append (h1.1.append h2.2.2.1), ?_⟩
    have := h2.2.2.2.left h1.2
    unfold CleanEnd at this ⊢
    rwa [last_append (by simp [itemV_ne])]
theorem listV_ok {stops} : ∀ {l : YList}, ListOk stops l → Valid (listV l) ∧ CleanEnd (listV l)
  | .mk ty level items, h => by
    simp only [ListOk] at h
    have := itemsV_ok (ty := ty) (level := level) h.2
    exact ⟨this.1, this.2.1⟩
end

/-- Tokens of an item start with its marker. -/
theorem item_marked {src ts stops ty level own i} (h : ItemOk stops level own i) {w : V} (hw : w.head? ≠ some (false, ' '))
    (hs : SpV src true ts (itemV ty level i ++ w)) : Marked level (kindOf ty) ts := by
  obtain ⟨text, n⟩ := i
  cases n with
  | none =>
    simp only [ItemOk] at h
    simp only [itemV, List.append_assoc] at hs
    have hsp := h.space
    obtain ⟨m, r, e, hm, -⟩ := mark_split (w := hidPara text ++ w) (by
      cases hp : hidPara text with
      | nil => simpa using hw
      | cons x y => rw [hp] at hsp; simpa using hsp) hs
    exact ⟨m, r, e, hm⟩
  | some l =>
    simp only [ItemOk] at h
    simp only [itemV, List.append_assoc] at hs
    have hsp := h.1.space
    obtain ⟨m, r, e, hm, -⟩ := mark_split (w := hidPara text ++ _) (by
      cases hp : hidPara text with
      | nil => simp [free]
      | cons x y => rw [hp] at hsp; simpa using hsp) hs
    exact ⟨m, r, e, hm⟩

theorem restV_head (ty level) (l : List YItem) : (restV ty level l).head? ≠ some (false, ' ') := by
  cases l <;> simp [restV, free]

theorem items_marked {src ts stops ty level own l} (h : ItemsOk stops level own l) (hl : l ≠ [])
    (hs : SpV src true ts (itemsV ty level l)) : Marked level (kindOf ty) ts := by
  cases l with
  | nil => exact absurd rfl hl
  | cons i r =>
    simp only [ItemsOk] at h
    simp only [itemsV] at hs
    exact item_marked h.1 (restV_head ty level r) hs

mutual
theorem item_exec {src stops ty level} (hd : DStops stops) : ∀ {i : YItem} {ts e rest : List Token} {want : Option ListKind},
    ItemOk stops level ty.marker i → itemLevelsOk level i = true → (want = none ∨ want = some (kindOf ty)) →
    SpV src true ts (itemV ty level i) → After src stops level level (kindOf ty) e rest →
    ∃ m r l N, markerB level want (ts ++ (e ++ rest)) = some (kindOf ty, m, r) ∧
      (itemPara (.Terminator :: stops) level (kindOf ty) r).1 = l ∧
      itemNested (.Terminator :: stops) level (itemPara (.Terminator :: stops) level (kindOf ty) r).2 = (N, rest) ∧
      .mk (ToYamd.trimTrailingNewline (paraDenote src l)) (wrapDenote N.kind (level + 1) (N.denote src (level + 1))) = i
  | .mk text none, ts, e, rest, want, h, hl, hw, hs, ha => by
    simp only [ItemOk] at h
    simp only [itemV] at hs
    obtain ⟨m, r, rfl, hm, hr⟩ := mark_split h.space hs
    obtain ⟨l, e1, e2⟩ := item_text hd h hr (ha.weaken (Nat.le_succ _))
    refine ⟨m, r ++ (e ++ rest), l, .nil, ?_, by rw [itemPara, e1], by rw [itemPara, e1]; exact nested_none hd ha, ?_⟩
    · rw [List.append_assoc]; exact marker_some hm hw
    · rw [e2]; rfl
  | .mk text (some (.mk ty' level' items)), ts, e, rest, want, h, hl, hw, hs, ha => by
    simp only [ItemOk] at h
    simp only [itemV] at hs
    simp only [itemLevelsOk, levelsOk, Bool.and_eq_true, beq_iff_eq, Bool.not_eq_true'] at hl
    obtain ⟨rfl, hne, hlev⟩ := hl
    have hsp : (hidPara text ++ (free ['\n'] ++ listV (.mk ty' (level + 1) items))).head? ≠ some (false, ' ') := by
      have := h.1.space
      cases hp : hidPara text with
      | nil => simp [free]
      | cons x y => rw [hp] at this; simpa using this
    obtain ⟨m, r, rfl, hm, hr⟩ := mark_split hsp hs
    obtain ⟨r1, r2, rfl, g1, g2⟩ := spv_split h.1.valid (join_nl h.1.valid h.1.clean) hr
    rw [flag_clean h.1.clean] at g2
    have hcs := listV_clean_start h.2 []
    rw [List.append_nil] at hcs
    obtain ⟨x', rn, rfl, g3, g4⟩ := spv_split (valid_free (by decide)) (join_eol hcs) g2
    obtain ⟨x, rfl, sx⟩ := spv_one (p := ⟨false, .Eol, ['\n']⟩) rfl g3
    have hfl : flag false (free ['\n']) = true := rfl
    rw [hfl] at g4
    have hL := h.2
    simp only [ListOk] at hL
    simp only [listV] at g4
    have hmk : Marked (level + 1) (kindOf ty') rn := items_marked hL.2 hL.1 g4
    have ha2 : After src stops (level + 1) level (kindOf ty) [x] (rn ++ (e ++ rest)) :=
      .more sx (hmk.append _) (Nat.le_refl _) (fun h => absurd h (by omega))
    obtain ⟨l, e1, e2⟩ := item_text hd h.1 g1 ha2
    have ha3 : After src stops level (level + 1) (kindOf ty') e rest := by
      cases ha with
      | done h => exact .done h
      | more hx h hl hk => exact .more hx h hl (fun e => absurd e (by omega))
    obtain ⟨N, n1, n2, n3⟩ := items_exec hd hL.2 hlev hL.1 (.inl rfl) g4 ha3 (.inr (Nat.lt_succ_self _))
    refine ⟨m, r1 ++ ([x] ++ (rn ++ (e ++ rest))), l, N, ?_, by rw [itemPara, e1], ?_, ?_⟩
    · rw [List.append_assoc, show ((r1 ++ ([x] ++ rn)) ++ (e ++ rest)) = r1 ++ ([x] ++ (rn ++ (e ++ rest))) by simp]
      exact marker_some hm hw
    · rw [itemPara, e1, itemNested, if_neg (by simp [marked_nostop hd (hmk.append _)])]
      exact n1
    · rw [e2, n2, n3, wrapDenote, Option.map_some, listType_kindOf]
theorem items_exec {src stops ty level} (hd : DStops stops) : ∀ {l : List YItem} {ts e rest : List Token} {want : Option ListKind} {b : Nat},
    ItemsOk stops level ty.marker l → itemsLevelsOk level l = true → l ≠ [] → (want = none ∨ want = some (kindOf ty)) →
    SpV src true ts (itemsV ty level l) → After src stops b level (kindOf ty) e rest → (e = [] ∨ b < level) →
    ∃ I, itemsB (.Terminator :: stops) level want (ts ++ (e ++ rest)) = (I, rest) ∧ I.kind = some (kindOf ty) ∧
      I.denote src level = l
  | [], _, _, _, _, _, _, _, hne, _, _, _, _ => absurd rfl hne
  | [i], ts, e, rest, want, b, h, hl, hne, hw, hs, ha, hb => by
    simp only [ItemsOk] at h
    simp only [itemsLevelsOk, Bool.and_eq_true] at hl
    simp only [itemsV, restV, List.append_nil] at hs
    have ha2 : After src stops level level (kindOf ty) e rest := by
      cases ha with
      | done h => exact .done h
      | more hx h hl hk => exact .more hx h (by have := hb.resolve_left (by simp); omega) hk
    obtain ⟨m, r, l, N, e1, e2, e3, e4⟩ := item_exec hd h.1 hl.1 hw hs ha2
    have hlast : markerB level (some (kindOf ty)) rest = none := by
      cases ha with
      | done h => exact marker_bd h
      | more hx h hl hk => exact marker_other h (by have := hb.resolve_left (by simp); omega)
    refine ⟨.cons (kindOf ty) m l N .nil, ?_, ?_, ?_⟩
    · rw [itemsB_some e1, e3, itemsB_none hlast, e2]
    · rfl
    · simp only [Items.denote, e4]
  | i :: j :: r, ts, e, rest, want, b, h, hl, hne, hw, hs, ha, hb => by
    simp only [ItemsOk] at h
    simp only [itemsLevelsOk] at hl
    rw [Bool.and_eq_true] at hl
    obtain ⟨hi, hr⟩ := h
    have hv := itemV_ok (ty := ty) (level := level) hi
    have hs1 : SpV src true ts (itemV ty level i ++ (free ['\n'] ++ itemsV ty level (j :: r))) := by
      simpa only [itemsV, restV] using hs
    obtain ⟨t1, r1, rfl, g1, g2⟩ := spv_split hv.1 (join_nl hv.1 hv.2) hs1
    have hfl : flag true (itemV ty level i) = false := by
      rw [← flag_clean hv.2]
      unfold flag
      cases e : (itemV ty level i).getLast? with
      | none => exact absurd (List.getLast?_eq_none_iff.1 e) (itemV_ne ty level i)
      | some x => rfl
    rw [hfl] at g2
    have hcs : CleanStart (itemsV ty level (j :: r)) := by simp only [itemsV]; exact itemV_clean_start ..
    obtain ⟨x', rn, rfl, g3, g4⟩ := spv_split (valid_free (by decide)) (join_eol hcs) g2
    obtain ⟨x, rfl, sx⟩ := spv_one (p := ⟨false, .Eol, ['\n']⟩) rfl g3
    have hfl : flag false (free ['\n']) = true := rfl
    rw [hfl] at g4
    have hr' : ItemsOk stops level ty.marker (j :: r) := by simpa only [ItemsOk] using hr
    have hmk : Marked level (kindOf ty) rn := items_marked hr' (by simp) g4
    have ha2 : After src stops level level (kindOf ty) [x] (rn ++ (e ++ rest)) :=
      .more sx (hmk.append _) (Nat.le_refl _) (fun _ => rfl)
    obtain ⟨m, r', l, N, e1, e2, e3, e4⟩ := item_exec hd hi hl.1 hw g1 ha2
    obtain ⟨I, n1, n2, n3⟩ := items_exec hd hr' (by simpa only [itemsLevelsOk] using hl.2) (by simp) (.inr rfl) g4 ha hb
    refine ⟨.cons (kindOf ty) m l N I, ?_, ?_, ?_⟩
    · rw [show t1 ++ ([x] ++ rn) ++ (e ++ rest) = t1 ++ ([x] ++ (rn ++ (e ++ rest))) by simp, itemsB_some e1, e3, n1, e2]
    · rfl
    · simp only [Items.denote, e4, n3]
end


theorem hidPara_noNl (p : Paragraph) : (false, '\n') ∉ hidPara p := by
  simp only [hidPara, List.mem_flatMap, not_exists, not_and]
  intro n _ hn
  cases n <;> simp [hidP, free, hid, linkV] at hn
  obtain ⟨m, -, hm⟩ := hn
  cases m <;> simp [hidB, free, hid] at hm

theorem hidPara_space {p : Paragraph} (h : p.all exprNode = true) : (hidPara p).head? ≠ some (false, ' ') := by
  cases e : hidPara p with
  | nil => simp
  | cons x r =>
    rcases hidPara_head h e with ⟨c, rfl⟩ | ⟨c, rfl, hc⟩
    · simp
    · intro h
      simp only [List.head?_cons, Option.some.injEq, Prod.mk.injEq, true_and] at h
      subst h
      exact absurd hc (by decide)

theorem itemP_of {stops level own p} (h : exprTrim p = true) : ItemP stops level own p := by
  obtain ⟨h1, h2, h3⟩ := exprTrim_parts h
  have hp := hidPara_ok (stops := .Terminator :: stops) (b := false) h1
  exact ⟨hp.1, hp.2, h2, h3, expr_text_ne h2, hidPara_space h2, fun u w e => absurd (by rw [e]; simp) (hidPara_noNl p)⟩

mutual
theorem itemOk_of {stops level own lv} : ∀ {i : YItem}, (itemText i).all exprTrim = true → itemLevelsOk lv i = true → ItemOk stops level own i
  | .mk text none, h, _ => by
    simp only [itemText, List.all_cons, Bool.and_eq_true] at h
    simp only [ItemOk]
    exact itemP_of h.1
  | .mk text (some l), h, hl => by
    simp only [itemText, List.all_cons, Bool.and_eq_true] at h
    simp only [itemLevelsOk] at hl
    simp only [ItemOk]
    exact ⟨itemP_of h.1, listOk_of h.2 hl⟩
theorem itemsOk_of {stops level own lv} : ∀ {l : List YItem}, (itemsTexts l).all exprTrim = true → itemsLevelsOk lv l = true → ItemsOk stops level own l
  | [], _, _ => by simp [ItemsOk]
  | i :: r, h, hl => by
    simp only [itemsTexts, List.all_append, Bool.and_eq_true] at h
    simp only [itemsLevelsOk, Bool.and_eq_true] at hl
    simp only [ItemsOk]
    exact ⟨itemOk_of h.1 hl.1, itemsOk_of h.2 hl.2⟩
theorem listOk_of {stops lv} : ∀ {l : YList}, (itemTexts l).all exprTrim = true → levelsOk lv l = true → ListOk stops l
  | .mk ty level' items, h, hl => by
    simp only [itemTexts] at h
    simp only [levelsOk, Bool.and_eq_true, beq_iff_eq, Bool.not_eq_true'] at hl
    simp only [ListOk]
    exact ⟨by simpa using hl.2.1, itemsOk_of h hl.2.2⟩
end

mutual
theorem render_item {ty level} : ∀ i : YItem, render (itemV ty level i) = spellItem ty level i
  | .mk text none => by
    rw [itemV, spellItem, render_append, markV_render, render_hidPara]
  | .mk text (some l) => by
    rw [itemV, spellItem, render_append, markV_render, render_append, render_append, render_free_all, render_hidPara, render_list l]
    simp
theorem render_items {ty level} : ∀ l : List YItem, render (itemsV ty level l) = spellItems ty level l ∧
    render (restV ty level l) = (if l.isEmpty then [] else cs! "\n") ++ spellItems ty level l
  | [] => by simp [itemsV, restV, spellItems, render]
  | i :: r => by
    have h1 := render_item (ty := ty) (level := level) i
    have h2 := render_items (ty := ty) (level := level) r
    simp only [itemsV, restV, spellItems, render_append, render_free_all, h1, h2]
    simp
theorem render_list : ∀ l : YList, render (listV l) = spellList l
  | .mk ty level items => by rw [listV, spellList, (render_items items).1]
end

/-- A list with its texts escaped throughout reads as the list. -/
theorem hid_list {stops l} (hd : DStops stops) (h : exprBlock (.list l) = true) : GoodV stops (.list l) (listV l) := by
  simp only [exprBlock, Bool.and_eq_true] at h
  have hok := listOk_of (stops := stops) h.2 h.1
  have hV := listV_ok hok
  obtain ⟨ty, level, items⟩ := l
  have hl := h.1
  simp only [levelsOk, Bool.and_eq_true, beq_iff_eq, Bool.not_eq_true'] at hl
  obtain ⟨rfl, -, hlev⟩ := hl
  have hL := hok
  simp only [ListOk] at hL
  refine ⟨⟨hV.1, listV_ne hok, ?_⟩, hV.2, by simpa using listV_clean_start hok []⟩
  · intro src ts hs
    simp only [listV] at hs
    obtain ⟨m, r, rfl, hm⟩ := items_marked hL.2 hL.1 hs
    rcases hm with ⟨-, a, s, rfl, h1, h2, h3⟩ | ⟨h0, -⟩
    · refine reads_other (fun rest hr => ?_)
      obtain ⟨I, e1, e2, e3⟩ := items_exec (b := 0) (want := none) hd hL.2 hlev hL.1 (.inl rfl) hs (.done hr) (.inl rfl)
      rw [List.nil_append] at e1
      have hk := tryFrom_kind h2
      have hk2 : a.kind ≠ .CollapsibleEnd ∧ a.kind ≠ .Eol ∧ a.kind ≠ .Backtick ∧ a.kind ≠ .LeftCurlyBrace ∧ a.kind ≠ .Bang ∧
          a.kind ≠ .Terminator ∧ a.kind ≠ .CollapsibleStart := by
        rcases hk with e | e <;> simp [e]
      obtain ⟨k1, k2, k3, k4, k5, k6, k7⟩ := hk2
      have eo : otherB stops ([a, s] ++ r ++ rest) = (.list I, rest) := by
        rw [show [a, s] ++ r ++ rest = a :: (s :: (r ++ rest)) by simp, otherB_leaf k4 (by simp [isTwoBangs, k5])]
        rw [show [a, s] ++ r ++ rest = a :: (s :: (r ++ rest)) by simp] at e1
        unfold leafB
        rw [e1]
        cases I with
        | nil => simp [Items.kind] at e2
        | cons => rfl
      refine ⟨stop_kind hd k1 k2, by simp [tokenIs, isTerminator, k6], codeB_no k3, by simp [tokenIs, isCollapsibleStart, k7], ?_, ?_⟩
      · rw [eo]
        simp only [Block.denote, e2, Option.getD_some, listType_kindOf, e3]
      · rw [eo]; exact .inl rfl
    · exact absurd rfl h0

end Yamd.Round.SpellL
