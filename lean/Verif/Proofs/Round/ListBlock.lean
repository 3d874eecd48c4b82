import Verif.Proofs.Round.ItemToks

/-!
# Lists read back: items, nested lists
-/

namespace Yamd.Round

open Yamd Yamd.Spec Yamd.Lexer Yamd.Ref

mutual
/-- The view of a list. The line-leading markers in `M` and that of the list itself are escaped in its texts. -/
def listV (M : List Char) : YList → V
  | .mk ty level items => itemsV (M ++ [ty.marker]) ty level items
/-- The view of items. -/
def itemsV (M : List Char) (ty : ListTypes) (level : Nat) : List YItem → V
  | [] => []
  | i :: r => itemV M ty level i ++ restV M ty level r
/-- The view of the items after the first. -/
def restV (M : List Char) (ty : ListTypes) (level : Nat) : List YItem → V
  | [] => []
  | i :: r => free ['\n'] ++ (itemV M ty level i ++ restV M ty level r)
/-- The view of an item. -/
def itemV (M : List Char) (ty : ListTypes) (level : Nat) : YItem → V
  | .mk text none => markV level ty ++ mk M false (paraW text)
  | .mk text (some l) => markV level ty ++ (mk M false (paraW text) ++ (free ['\n'] ++ listV M l))
end

/-- What may follow the text of an item of a list: the end of the list, or a line break and another
item that is not deeper than `bound`. -/
inductive After (src : Str) (stops : List Stop) (bound level : Nat) (k : ListKind) : List Token → List Token → Prop
  | done {rest} (h : Bd stops rest) : After src stops bound level k [] rest
  | more {x rest l' k'} (hx : SpT src false x ⟨false, .Eol, ['\n']⟩) (h : Marked l' k' rest) (hl : l' ≤ bound)
      (hk : l' = level → k' = k) : After src stops bound level k [x] rest

/-- The text of an item. -/
structure ItemP (stops : List Stop) (M : List Char) (level : Nat) (own : Char) (p : Paragraph) : Prop where
  view : ParaV (.Terminator :: stops) false p (mk M false (paraW p))
  chain : Chain nodeShape p
  ends : endsLine (trailingText p) = false
  texts : ∀ s, ParagraphNode.text s ∈ p → s ≠ []
  space : (mk M false (paraW p)).head? ≠ some (false, ' ')
  noItem : NoItem level own (mk M false (paraW p))

theorem ItemP.clean {stops M level own p} (h : ItemP stops M level own p) : CleanEnd (Round.mk M false (paraW p)) := by
  by_cases hp : p = []
  · subst hp; exact cleanEnd_nil
  · exact para_clean_end h.view hp h.ends

theorem ItemP.valid {stops M level own p} (h : ItemP stops M level own p) : Valid (Round.mk M false (paraW p)) := para_valid h.view

theorem flag_clean {v : V} (h : CleanEnd v) : flag false v = false := by
  unfold flag
  cases e : v.getLast? with
  | none => rfl
  | some x =>
    obtain ⟨b, c⟩ := x
    cases b with
    | true => rfl
    | false =>
      by_cases hc : c = '\n'
      · subst hc; exact absurd e h.1
      · simp [hc]

/-- A text that reads back by itself reads back in an item, if none of its lines starts an item. -/
theorem para_in_item {stops level k l rest} (hd : DStops stops) (ok : ∀ x ∈ l, InlOk (.Terminator :: stops) x)
    (np : NoPair isTextI l) (hs : stopAt (.ListBoundary level k :: .Terminator :: stops) rest = true)
    (hr : closesColl rest = false) (hu : Unstopped [.ListBoundary level k] (paraToks l) rest) :
    paraB (.ListBoundary level k :: .Terminator :: stops) [] (paraToks l ++ rest) = (l, rest) := by
  have e1 := paraB_exec (rest := []) ok np rfl (fun _ => rfl)
  have h1 := paraB_extent (.Terminator :: stops) (paraToks l ++ [])
  rw [e1] at h1
  have h2 := paraB_own (S := .Terminator :: stops) (E := []) rfl [] (paraToks l) h1.2
  rw [e1] at h2
  rw [paraB_own hs [] _ (unstopped_cons hu (unstopped_rest hd hr h1.2)), ← (Prod.mk.inj h2).1]

theorem noMark_of_kind {E : List Token} (h : ∀ t ∈ E.head?, t.kind = .Eol ∨ t.kind = .Terminator) : NoMark E := by
  intro t ht
  rcases h t ht with e | e <;> simp [e]

theorem Bd.noMark {stops rest} (h : Bd stops rest) : NoMark rest := by
  refine noMark_of_kind ?_
  cases h with
  | nil => simp
  | term t r h => simp [h]
  | close e c r hm he hc h0 => simp [he]

theorem unstopped_eol {src x rest level k} (hx : SpT src false x ⟨false, .Eol, ['\n']⟩) :
    Unstopped [.ListBoundary level k] [x] rest := by
  refine ⟨?_, trivial⟩
  have := hx.col
  simp only [stopAt, List.any_cons, List.any_nil, Bool.or_false, stopHere, this, Bool.false_and]

/-- The text of an item reads back. -/
theorem item_text {src stops level ty M p r e rest} (hd : DStops stops) (hp : ItemP stops M level ty.marker p)
    (hs : SpV src false r (mk M false (paraW p))) (ha : After src stops (level + 1) level (kindOf ty) e rest) :
    ∃ l, paraB (.ListBoundary level (kindOf ty) :: .Terminator :: stops) [] (r ++ (e ++ rest)) = (l, rest) ∧
      ToYamd.trimTrailingNewline (paraDenote src l) = p := by
  have hno := hp.noItem
  rw [← markOf_kindOf] at hno
  cases ha with
  | done h =>
    obtain ⟨l, e1, ok, np, den⟩ := para_tree hp.view hp.chain hs
    refine ⟨l, ?_, by rw [den, trim_same hp.ends hp.texts]⟩
    rw [List.nil_append, ← e1]
    refine para_in_item hd ok np ?_ ?_ ?_
    · have := h.stop
      cases rest with
      | nil => rfl
      | cons t r =>
        simp only [stopAt, List.any_cons, Bool.or_eq_true] at this ⊢
        exact .inr this
    · exact h.calm [.CollapsibleEnd] (by simp)
    · rw [e1]; exact spv_unstopped hp.valid hs h.noMark hno
  | @more x _ l' k' hx h hl hk =>
    have hs2 : SpV src false (r ++ [x]) (mk M false (paraW p) ++ free ['\n']) := by
      refine spv_append hp.valid (w := free ['\n']) ?_ hs ?_
      · simpa using join_nl (w := []) hp.valid hp.clean
      · rw [flag_clean hp.clean]
        unfold SpV
        rw [render_free_all, show pieces ['\n'] = [⟨false, .Eol, ['\n']⟩] from pieces_one rfl]
        exact ⟨hx, trivial⟩
    obtain ⟨l, e1, ok, np, den⟩ := para_tree (para_nl hp.view hp.clean) (chain_appendNl hp.chain) hs2
    refine ⟨l, ?_, by rw [den, trim_appendNl hp.ends hp.texts]⟩
    rw [← List.append_assoc, ← e1]
    refine para_in_item hd ok np (marked_stop h hl hk) (marked_calm (S := [.CollapsibleEnd]) h (by simp)) ?_
    rw [e1]
    refine Unstopped.append (spv_unstopped hp.valid hs (noMark_of_kind ?_) hno) (unstopped_eol hx)
    intro t ht
    simp only [List.cons_append, List.nil_append, List.head?_cons, Option.mem_def, Option.some.injEq] at ht
    exact .inl (by rw [← ht]; exact hx.kind)

/-- After the text of an item without a nested list, no nested list is read. -/
theorem nested_none {src stops level k e rest} (hd : DStops stops) (ha : After src stops level level k e rest) :
    itemNested (.Terminator :: stops) level rest = (.nil, rest) := by
  unfold itemNested
  cases ha with
  | done h => rw [if_pos h.stop]
  | more hx h hl hk =>
    rw [if_neg (by simp [marked_nostop hd h]), itemsB_none (marker_other h (by omega))]

/-- The views of the parts of a list. -/
theorem itemV_ne (M : List Char) (ty : ListTypes) (level : Nat) (i : YItem) : itemV M ty level i ≠ [] := by
  obtain ⟨t, n⟩ := i
  cases n <;> simp [itemV, markV, free]

mutual
def ItemsOk (stops : List Stop) (M : List Char) (level : Nat) (own : Char) : List YItem → Prop
  | [] => True
  | i :: r => ItemOk stops M level own i ∧ ItemsOk stops M level own r
def ItemOk (stops : List Stop) (M : List Char) (level : Nat) (own : Char) : YItem → Prop
  | .mk text none => ItemP stops M level own text
  | .mk text (some l) => ItemP stops M level own text ∧ ListOk stops M l
def ListOk (stops : List Stop) (M : List Char) : YList → Prop
  | .mk ty level items => items ≠ [] ∧ ItemsOk stops (M ++ [ty.marker]) level ty.marker items
end

theorem markV_head (level : Nat) (ty : ListTypes) : ∃ c X, markV level ty = (false, c) :: X ∧ c ≠ '\n' ∧ c ≠ '\r' := by
  cases level with
  | zero => cases ty <;> exact ⟨_, _, rfl, by decide, by decide⟩
  | succ n => exact ⟨' ', _, by simp [markV, free, List.replicate_succ]; rfl, by decide, by decide⟩

theorem itemV_clean_start (M : List Char) (ty : ListTypes) (level : Nat) (i : YItem) (w : V) : CleanStart (itemV M ty level i ++ w) := by
  obtain ⟨c, X, e, h1, h2⟩ := markV_head level ty
  obtain ⟨t, n⟩ := i
  cases n <;> exact cleanStart_of_head (c := c) (by simp [itemV, e]) h1 h2

theorem listV_clean_start {stops M l} (h : ListOk stops M l) (w : V) : CleanStart (listV M l ++ w) := by
  obtain ⟨ty, level, items⟩ := l
  cases items with
  | nil => simp [ListOk] at h
  | cons i r => simp only [listV, itemsV, List.append_assoc]; exact itemV_clean_start ..

theorem listV_ne {stops M l} (h : ListOk stops M l) : listV M l ≠ [] := by
  obtain ⟨ty, level, items⟩ := l
  cases items with
  | nil => simp [ListOk] at h
  | cons i r => simp [listV, itemsV, itemV_ne]

theorem markV_last (level : Nat) (ty : ListTypes) : (markV level ty).getLast? = some (false, ' ') := by
  rw [markV, last_append (by simp [free]), last_append (by simp [free])]; rfl

theorem CleanEnd.left {v w : V} (h : CleanEnd w) (hv : CleanEnd v) : CleanEnd (v ++ w) := by
  by_cases hw : w = []
  · subst hw; simpa using hv
  · unfold CleanEnd at h ⊢; rwa [last_append hw]

theorem markV_clean (level ty) : CleanEnd (markV level ty) := by simp [CleanEnd, markV_last]

mutual
theorem itemV_ok {stops M ty level own} : ∀ {i : YItem}, ItemOk stops M level own i → Valid (itemV M ty level i) ∧ CleanEnd (itemV M ty level i)
  | .mk text none, h => by
    simp only [ItemOk] at h
    simp only [itemV]
    exact ⟨(markV_valid _ _).append h.valid, h.clean.left (markV_clean _ _)⟩
  | .mk text (some l), h => by
    simp only [ItemOk] at h
    have ih := listV_ok h.2
    simp only [itemV]
    refine ⟨(markV_valid _ _).append (h.1.valid.append ((valid_free (by decide)).append ih.1)), ?_⟩
    unfold CleanEnd at ih ⊢
    have := listV_ne h.2
    rw [last_append (by simp [free]), last_append (by simp [free]), last_append this]
    exact ih.2
theorem itemsV_ok {stops M ty level own} : ∀ {l : List YItem}, ItemsOk stops M level own l →
    Valid (itemsV M ty level l) ∧ CleanEnd (itemsV M ty level l) ∧ Valid (restV M ty level l) ∧ CleanEnd (restV M ty level l)
  | [], _ => by simp [itemsV, restV, Valid, cleanEnd_nil]
  | i :: r, h => by
    simp only [ItemsOk] at h
    have h1 := itemV_ok (ty := ty) (level := level) h.1
    have h2 := itemsV_ok (ty := ty) (level := level) h.2
    simp only [itemsV, restV]
    refine ⟨h1.1.append h2.2.2.1, h2.2.2.2.left h1.2, (valid_free (by decide)).append (h1.1.append h2.2.2.1), ?_⟩
    have := h2.2.2.2.left h1.2
    unfold CleanEnd at this ⊢
    rwa [last_append (by simp [itemV_ne])]
theorem listV_ok {stops M} : ∀ {l : YList}, ListOk stops M l → Valid (listV M l) ∧ CleanEnd (listV M l)
  | .mk ty level items, h => by
    simp only [ListOk] at h
    have := itemsV_ok (ty := ty) (level := level) h.2
    exact ⟨this.1, this.2.1⟩
end

def YList.ty : YList → ListTypes
  | .mk ty _ _ => ty

/-- Tokens of an item start with its marker. -/
theorem item_marked {src ts stops M ty level own i} (h : ItemOk stops M level own i) {w : V} (hw : w.head? ≠ some (false, ' '))
    (hs : SpV src true ts (itemV M ty level i ++ w)) : Marked level (kindOf ty) ts := by
  obtain ⟨text, n⟩ := i
  cases n with
  | none =>
    simp only [ItemOk] at h
    simp only [itemV, List.append_assoc] at hs
    have hsp := h.space
    obtain ⟨m, r, e, hm, -⟩ := mark_split (w := mk M false (paraW text) ++ w) (by
      cases hp : mk M false (paraW text) with
      | nil => simpa using hw
      | cons x y => rw [hp] at hsp; simpa using hsp) hs
    exact ⟨m, r, e, hm⟩
  | some l =>
    simp only [ItemOk] at h
    simp only [itemV, List.append_assoc] at hs
    have hsp := h.1.space
    obtain ⟨m, r, e, hm, -⟩ := mark_split (w := mk M false (paraW text) ++ _) (by
      cases hp : mk M false (paraW text) with
      | nil => simp [free]
      | cons x y => rw [hp] at hsp; simpa using hsp) hs
    exact ⟨m, r, e, hm⟩

theorem restV_head (M ty level) (l : List YItem) : (restV M ty level l).head? ≠ some (false, ' ') := by
  cases l <;> simp [restV, free]

theorem items_marked {src ts stops M ty level own l} (h : ItemsOk stops M level own l) (hl : l ≠ [])
    (hs : SpV src true ts (itemsV M ty level l)) : Marked level (kindOf ty) ts := by
  cases l with
  | nil => exact absurd rfl hl
  | cons i r =>
    simp only [ItemsOk] at h
    simp only [itemsV] at hs
    exact item_marked h.1 (restV_head M ty level r) hs

theorem After.weaken {src stops b b' level k e rest} (h : After src stops b level k e rest) (hb : b ≤ b') :
    After src stops b' level k e rest := by
  cases h with
  | done h => exact .done h
  | more hx h hl hk => exact .more hx h (by omega) hk

mutual
theorem item_exec {src stops M ty level} (hd : DStops stops) : ∀ {i : YItem} {ts e rest : List Token} {want : Option ListKind},
    ItemOk stops M level ty.marker i → itemLevelsOk level i = true → (want = none ∨ want = some (kindOf ty)) →
    SpV src true ts (itemV M ty level i) → After src stops level level (kindOf ty) e rest →
    ∃ m r l N, markerB level want (ts ++ (e ++ rest)) = some (kindOf ty, m, r) ∧
      (itemPara (.Terminator :: stops) level (kindOf ty) r).1 = l ∧
      itemNested (.Terminator :: stops) level (itemPara (.Terminator :: stops) level (kindOf ty) r).2 = (N, rest) ∧
      .mk (ToYamd.trimTrailingNewline (paraDenote src l)) (wrapDenote N.kind (level + 1) (N.denote src (level + 1))) = i
  | .mk text none, ts, e, rest, want, h, hl, hw, hs, ha => by
    simp only [ItemOk] at h
    simp only [itemV] at hs
    obtain ⟨m, r, rfl, hm, hr⟩ := mark_split h.space hs
    obtain ⟨l, e1, e2⟩ := item_text hd h hr (ha.weaken (Nat.le_succ _))
    refine ⟨m, r ++ (e ++ rest), l, .nil, ?_, by rw [itemPara, e1], by rw [itemPara, e1]; exact nested_none hd ha, ?_⟩
    · rw [List.append_assoc]; exact marker_some hm hw
    · rw [e2]; rfl
  | .mk text (some (.mk ty' level' items)), ts, e, rest, want, h, hl, hw, hs, ha => by
    simp only [ItemOk] at h
    simp only [itemV] at hs
    simp only [itemLevelsOk, levelsOk, Bool.and_eq_true, beq_iff_eq, Bool.not_eq_true'] at hl
    obtain ⟨rfl, hne, hlev⟩ := hl
    have hsp : (mk M false (paraW text) ++ (free ['\n'] ++ listV M (.mk ty' (level + 1) items))).head? ≠ some (false, ' ') := by
      have := h.1.space
      cases hp : mk M false (paraW text) with
      | nil => simp [free]
      | cons x y => rw [hp] at this; simpa using this
    obtain ⟨m, r, rfl, hm, hr⟩ := mark_split hsp hs
    obtain ⟨r1, r2, rfl, g1, g2⟩ := spv_split h.1.valid (join_nl h.1.valid h.1.clean) hr
    rw [flag_clean h.1.clean] at g2
    have hcs := listV_clean_start h.2 []
    rw [List.append_nil] at hcs
    obtain ⟨x', rn, rfl, g3, g4⟩ := spv_split (valid_free (by decide)) (join_eol hcs) g2
    obtain ⟨x, rfl, sx⟩ := spv_one (p := ⟨false, .Eol, ['\n']⟩) rfl g3
    have hfl : flag false (free ['\n']) = true := rfl
    rw [hfl] at g4
    have hL := h.2
    simp only [ListOk] at hL
    simp only [listV] at g4
    have hmk : Marked (level + 1) (kindOf ty') rn := items_marked hL.2 hL.1 g4
    have ha2 : After src stops (level + 1) level (kindOf ty) [x] (rn ++ (e ++ rest)) :=
      .more sx (hmk.append _) (Nat.le_refl _) (fun h => absurd h (by omega))
    obtain ⟨l, e1, e2⟩ := item_text hd h.1 g1 ha2
    have ha3 : After src stops level (level + 1) (kindOf ty') e rest := by
      cases ha with
      | done h => exact .done h
      | more hx h hl hk => exact .more hx h hl (fun e => absurd e (by omega))
    obtain ⟨N, n1, n2, n3⟩ := items_exec hd hL.2 hlev hL.1 (.inl rfl) g4 ha3 (.inr (Nat.lt_succ_self _))
    refine ⟨m, r1 ++ ([x] ++ (rn ++ (e ++ rest))), l, N, ?_, by rw [itemPara, e1], ?_, ?_⟩
    · rw [List.append_assoc, show ((r1 ++ ([x] ++ rn)) ++ (e ++ rest)) = r1 ++ ([x] ++ (rn ++ (e ++ rest))) by simp]
      exact marker_some hm hw
    · rw [itemPara, e1, itemNested, if_neg (by simp [marked_nostop hd (hmk.append _)])]
      exact n1
    · rw [e2, n2, n3, wrapDenote, Option.map_some, listType_kindOf]
theorem items_exec {src stops M ty level} (hd : DStops stops) : ∀ {l : List YItem} {ts e rest : List Token} {want : Option ListKind} {b : Nat},
    ItemsOk stops M level ty.marker l → itemsLevelsOk level l = true → l ≠ [] → (want = none ∨ want = some (kindOf ty)) →
    SpV src true ts (itemsV M ty level l) → After src stops b level (kindOf ty) e rest → (e = [] ∨ b < level) →
    ∃ I, itemsB (.Terminator :: stops) level want (ts ++ (e ++ rest)) = (I, rest) ∧ I.kind = some (kindOf ty) ∧
      I.denote src level = l
  | [], _, _, _, _, _, _, _, hne, _, _, _, _ => absurd rfl hne
  | [i], ts, e, rest, want, b, h, hl, hne, hw, hs, ha, hb => by
    simp only [ItemsOk] at h
    simp only [itemsLevelsOk, Bool.and_eq_true] at hl
    simp only [itemsV, restV, List.append_nil] at hs
    have ha2 : After src stops level level (kindOf ty) e rest := by
      cases ha with
      | done h => exact .done h
      | more hx h hl hk => exact .more hx h (by have := hb.resolve_left (by simp); omega) hk
    obtain ⟨m, r, l, N, e1, e2, e3, e4⟩ := item_exec hd h.1 hl.1 hw hs ha2
    have hlast : markerB level (some (kindOf ty)) rest = none := by
      cases ha with
      | done h => exact marker_bd h
      | more hx h hl hk => exact marker_other h (by have := hb.resolve_left (by simp); omega)
    refine ⟨.cons (kindOf ty) m l N .nil, ?_, ?_, ?_⟩
    · rw [itemsB_some e1, e3, itemsB_none hlast, e2]
    · rfl
    · simp only [Items.denote, e4]
  | i :: j :: r, ts, e, rest, want, b, h, hl, hne, hw, hs, ha, hb => by
    simp only [ItemsOk] at h
    simp only [itemsLevelsOk] at hl
    rw [Bool.and_eq_true] at hl
    obtain ⟨hi, hr⟩ := h
    have hv := itemV_ok (ty := ty) (level := level) hi
    have hs1 : SpV src true ts (itemV M ty level i ++ (free ['\n'] ++ itemsV M ty level (j :: r))) := by
      simpa only [itemsV, restV] using hs
    obtain ⟨t1, r1, rfl, g1, g2⟩ := spv_split hv.1 (join_nl hv.1 hv.2) hs1
    have hfl : flag true (itemV M ty level i) = false := by
      rw [← flag_clean hv.2]
      unfold flag
      cases e : (itemV M ty level i).getLast? with
      | none => exact absurd (List.getLast?_eq_none_iff.1 e) (itemV_ne M ty level i)
      | some x => rfl
    rw [hfl] at g2
    have hcs : CleanStart (itemsV M ty level (j :: r)) := by simp only [itemsV]; exact itemV_clean_start ..
    obtain ⟨x', rn, rfl, g3, g4⟩ := spv_split (valid_free (by decide)) (join_eol hcs) g2
    obtain ⟨x, rfl, sx⟩ := spv_one (p := ⟨false, .Eol, ['\n']⟩) rfl g3
    have hfl : flag false (free ['\n']) = true := rfl
    rw [hfl] at g4
    have hr' : ItemsOk stops M level ty.marker (j :: r) := by simpa only [ItemsOk] using hr
    have hmk : Marked level (kindOf ty) rn := items_marked hr' (by simp) g4
    have ha2 : After src stops level level (kindOf ty) [x] (rn ++ (e ++ rest)) :=
      .more sx (hmk.append _) (Nat.le_refl _) (fun _ => rfl)
    obtain ⟨m, r', l, N, e1, e2, e3, e4⟩ := item_exec hd hi hl.1 hw g1 ha2
    obtain ⟨I, n1, n2, n3⟩ := items_exec hd hr' (by simpa only [itemsLevelsOk] using hl.2) (by simp) (.inr rfl) g4 ha hb
    refine ⟨.cons (kindOf ty) m l N I, ?_, ?_, ?_⟩
    · rw [show t1 ++ ([x] ++ rn) ++ (e ++ rest) = t1 ++ ([x] ++ (rn ++ (e ++ rest))) by simp, itemsB_some e1, e3, n1, e2]
    · rfl
    · simp only [Items.denote, e4, n3]
end

end Yamd.Round
