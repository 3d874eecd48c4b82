import Verif.Proofs.Round.Escape

/-!
# Displayed paragraphs
-/

namespace Yamd.Round

open Yamd Yamd.Spec Yamd.Lexer Yamd.Ref

/-! ### Reading the safe class -/

/-- The stop conditions of a place. -/
def Placed (pl : Place) (stops : List Stop) : Prop :=
  ∀ st ∈ stops, st = .Terminator ∨ (st = .CollapsibleEnd ∧ pl.inCollapsible = true)

theorem occurs_false {pat s : Str} (h : occurs pat s = false) : ¬ pat <:+: s := by simpa [occurs] using h

theorem safeBody_q {pl : Place} {stops s} (hp : Placed pl stops) (h : safeBody pl s = true) : ∀ st ∈ stops, strq s st := by
  simp only [safeBody, Bool.and_eq_true, Bool.not_eq_true'] at h
  obtain ⟨h1, h4⟩ := h
  intro st hst
  rcases hp st hst with rfl | ⟨rfl, hc⟩
  · exact h1
  · simp only [noCloseLine, hc, Bool.not_true, Bool.false_or, Bool.not_eq_true'] at h4
    exact occurs_false h4

theorem safeText_q {pl : Place} {stops s} (hp : Placed pl stops) (h : safeText s = true) :
    s ≠ [] ∧ ∀ st ∈ stops, textq s st := by
  simp only [safeText, Bool.and_eq_true, Bool.not_eq_true'] at h
  obtain ⟨h1, h2⟩ := h
  refine ⟨by simpa using h1, fun st hst => ?_⟩
  rcases hp st hst with rfl | ⟨rfl, hc⟩
  · exact h2
  · trivial

theorem chain_of {α : Type} {shape : α → Shape} {clash : α → α → Bool}
    (h : ∀ x y, clash x y = false → compat (shape x) (shape y) = true) : ∀ {l : List α}, noClash clash l = true → Chain shape l
  | [], _ => trivial
  | [_], _ => trivial
  | x :: y :: r, hl => by
    simp only [noClash, Bool.and_eq_true, Bool.not_eq_true'] at hl
    exact ⟨h x y hl.1, chain_of h hl.2⟩

theorem chainB {l : List BoldNode} (h : noClash clashB l = true) : Chain boldShape l :=
  chain_of (fun x y h => by cases x <;> cases y <;> first | rfl | simp [clashB] at h) h

theorem chainP {l : Paragraph} (h : noClash clashP l = true) : Chain nodeShape l :=
  chain_of (fun x y h => by cases x <;> cases y <;> first | rfl | simp [clashP] at h) h

theorem chainH {l : List HeadingNode} (h : noClash clashH l = true) : Chain headShape l :=
  chain_of (fun x y h => by cases x <;> cases y <;> first | rfl | simp [clashH] at h) h

/-! ### Views of nodes -/

/-- The view of a displayed node. -/
def nodeW : ParagraphNode → V
  | .text s => textV s
  | .italic s => free ['_'] ++ (bodyV ['_', '\\'] s ++ free ['_'])
  | .strikethrough s => free ['~', '~'] ++ (bodyV ['~', '\\'] s ++ free ['~', '~'])
  | .emphasis s => free ['*'] ++ (bodyV ['*', '\\'] s ++ free ['*'])
  | .codeSpan s => free ['`'] ++ (bodyV ['`', '\\'] s ++ free ['`'])
  | .anchor a => linkV (bodyV [']', '[', '\\'] a.text) (bodyV [')', '(', '\\'] a.url)
  | .bold l => free ['*', '*'] ++ (l.flatMap boldItemV ++ free ['*', '*'])

theorem render_flatMap {α : Type} (f : α → V) : ∀ l : List α, render (l.flatMap f) = (l.map (fun x => render (f x))).flatten
  | [] => rfl
  | x :: l => by rw [List.flatMap_cons, render_append, render_flatMap f l, List.map_cons, List.flatten_cons]

theorem nodeW_eq {pl : Place} {n : ParagraphNode} (h : safeNode pl n = true) : n.display = render (nodeW n) := by
  cases n with
  | text s => exact displayText_eq s
  | italic s => exact displayItalic_eq s
  | strikethrough s => exact displayStrikethrough_eq s
  | emphasis s => exact displayEmphasis_eq s
  | codeSpan s =>
    simp only [safeNode, Bool.and_eq_true] at h
    exact displayCodeSpan_eq (by simpa using h.1)
  | anchor a => exact anchor_eq a
  | bold l =>
    simp only [safeNode, Bool.and_eq_true] at h
    obtain ⟨⟨h1, h2⟩, h3⟩ := h
    have hany : l.any BoldNode.hasContent = true := by
      cases l with
      | nil => simp at h1
      | cons x l =>
        rw [List.all_cons, Bool.and_eq_true] at h2
        have : x.hasContent = true := by
          cases x with
          | text s => simp only [safeBoldNode, Bool.and_eq_true] at h2; exact h2.1.1
          | italic s => rfl
          | strikethrough s => rfl
        simp [this]
    simp only [ParagraphNode.display, displayBold, if_pos hany, nodeW]
    rw [render_append, render_append, render_free_all, render_flatMap, List.append_assoc]
    congr 2
    congr 1
    exact List.map_congr_left (fun n _ => boldItem_eq n)

theorem boldItemV_ok {pl : Place} {stops} (hp : Placed pl stops) {n : BoldNode} (h : safeBoldNode pl n = true) :
    BoldItemV stops false n (boldItemV n) := by
  cases n with
  | text s =>
    simp only [safeBoldNode, Bool.and_eq_true] at h
    exact ⟨by simpa using h.1, bodyV_body (by simp) (by simp) (safeBody_q hp h.2)⟩
  | italic s =>
    exact ⟨_, rfl, (bodyV_body (by simp) (by simp) (safeBody_q hp h)).more (more_mark2 _)⟩
  | strikethrough s =>
    simp only [safeBoldNode, Bool.and_eq_true] at h
    exact ⟨by simpa using h.1, _, rfl, (bodyV_body (by simp) (by simp) (safeBody_q hp h.2)).more (more_mark2 _)⟩

theorem boldV_ok {pl : Place} {stops} (hp : Placed pl stops) : ∀ {l : List BoldNode}, l.all (safeBoldNode pl) = true →
    BoldV stops l (l.flatMap boldItemV)
  | [], _ => rfl
  | n :: l, h => by
    rw [List.all_cons, Bool.and_eq_true] at h
    exact ⟨_, _, rfl, boldItemV_ok hp h.1, boldV_ok hp h.2⟩

theorem nodeW_ok {pl : Place} {stops} (hp : Placed pl stops) {b : Bool}
    {n : ParagraphNode} (h : safeNode pl n = true) : NodeV stops b n (nodeW n) := by
  cases n with
  | text s =>
    obtain ⟨h1, h2⟩ := safeText_q hp h
    refine ⟨h1, textV_body h2 (fun st hst => ?_)⟩
    rcases hp st hst with rfl | ⟨rfl, hc⟩
    · trivial
    · trivial
  | italic s => exact ⟨_, rfl, bodyV_body (by simp) (by simp) (safeBody_q hp h)⟩
  | strikethrough s =>
    simp only [safeNode, Bool.and_eq_true] at h
    exact ⟨by simpa using h.1, _, rfl, bodyV_body (by simp) (by simp) (safeBody_q hp h.2)⟩
  | emphasis s =>
    simp only [safeNode, Bool.and_eq_true] at h
    exact ⟨by simpa using h.1, _, rfl, bodyV_body (by simp) (by simp) (safeBody_q hp h.2)⟩
  | codeSpan s =>
    simp only [safeNode, Bool.and_eq_true] at h
    exact ⟨by simpa using h.1, _, rfl, bodyV_body (by simp) (by simp) (safeBody_q hp h.2)⟩
  | anchor a =>
    simp only [safeNode, safeAnchor, Bool.and_eq_true] at h
    exact ⟨_, _, rfl, bodyV_body (by simp) (by simp) (safeBody_q hp h.1), bodyV_body (by simp) (by simp) (safeBody_q hp h.2)⟩
  | bold l =>
    simp only [safeNode, Bool.and_eq_true] at h
    exact ⟨by simpa using h.1.1, chainB h.2, _, rfl, boldV_ok hp h.1.2⟩

/-- The view of a displayed paragraph. -/
def paraW (p : Paragraph) : V := p.flatMap nodeW

theorem paraW_eq {pl : Place} : ∀ {p : Paragraph}, p.all (safeNode pl) = true → displayParagraph p = render (paraW p)
  | [], _ => rfl
  | n :: p, h => by
    rw [List.all_cons, Bool.and_eq_true] at h
    have ih := paraW_eq h.2
    simp only [displayParagraph] at ih
    rw [paraW, List.flatMap_cons, render_append, ← nodeW_eq h.1, displayParagraph, List.map_cons, List.flatten_cons, ih]
    rfl

theorem paraW_ok {pl : Place} {stops} (hp : Placed pl stops) : ∀ {p : Paragraph} {b : Bool},
    p.all (safeNode pl) = true → ParaV stops b p (paraW p)
  | [], _, _ => rfl
  | n :: p, b, h => by
    rw [List.all_cons, Bool.and_eq_true] at h
    exact ⟨_, _, rfl, nodeW_ok hp h.1, paraW_ok hp h.2⟩

/-! ### Highlights: double bangs are escaped in the whole paragraph -/

theorem body_bang {stops stops' : List Stop} {b S s w} (h : Body stops b S s w)
    (hst : ∀ st ∈ stops', st = .HighlightEnd ∨ st ∈ stops) : Body stops' b S s (mark2 '!' '!' false w) := by
  have hm := more_mark2 (a := '!') (b := '!') (fb := false) w
  refine ⟨hm.valid h.valid, by rw [hm.chars, h.chars], fun c hc => hm.notFree (h.notFree c hc), fun st h1 => ?_⟩
  rcases hst st h1 with rfl | h2
  · exact noStart_mark2 (by decide) w b
  · exact hm.vq (h.vq st h2)

theorem mark2_last {a b : Char} {fb : Bool} {v w : V} {x} (hl : v.getLast? = some x) (hx : x.2 ≠ a ∧ x.2 ≠ b) :
    mark2 a b fb (v ++ w) = mark2 a b fb v ++ mark2 a b fb w := by
  obtain ⟨u, rfl⟩ := List.getLast?_eq_some_iff.1 hl
  have h1 := mark2_append (fb := fb) (x := x) (.inl hx) u w
  have h2 := mark2_append (fb := fb) (x := x) (.inl hx) u []
  rw [List.append_assoc, List.singleton_append, h1, h2]
  simp [mark2]

theorem mark2_first {a b : Char} {fb : Bool} {v w : V} {x} (hl : w.head? = some x) (hx : x.2 ≠ a ∧ x.2 ≠ b) :
    mark2 a b fb (v ++ w) = mark2 a b fb v ++ mark2 a b fb w := by
  cases w with
  | nil => simp at hl
  | cons y w =>
    simp only [List.head?_cons, Option.some.injEq] at hl
    subst hl
    have h1 := mark2_append (fb := fb) (x := y) (.inl hx) v w
    have h2 := mark2_append (fb := fb) (x := y) (.inl hx) [] w
    rw [h1]
    simp only [List.nil_append] at h2
    rw [h2]
    simp [mark2]

theorem seq_bang {α : Type} {NV NV' : Bool → α → V → Prop} {shape : α → Shape} {S : List Char}
    (hshape : ∀ b n v, NV b n v → HasShape S (shape n) v ∧ ShapeOk S (shape n))
    (hbang : ∀ n o c, shape n = .delim o c → o ≠ '!' ∧ c ≠ '!')
    (hn : ∀ b n v, NV b n v → NV' b n (mark2 '!' '!' false v)) :
    ∀ {l : List α} {b : Bool} {v : V}, Chain shape l → SeqV NV b l v → SeqV NV' b l (mark2 '!' '!' false v)
  | [], b, v, _, h => by
    have : v = [] := h
    rw [this]; rfl
  | n :: r, b, v, hc, h => by
    obtain ⟨v1, v2, rfl, h1, h2⟩ := h
    refine ⟨mark2 '!' '!' false v1, mark2 '!' '!' false v2, ?_, hn _ _ _ h1, seq_bang hshape hbang hn hc.tail h2⟩
    cases r with
    | nil =>
      have : v2 = [] := h2
      rw [this]; simp [mark2]
    | cons m r =>
      obtain ⟨u1, u2, rfl, g1, -⟩ := h2
      have s1 := (hshape _ _ _ h1).1
      have s2 := (hshape _ _ _ g1).1
      have hcm := hc.1
      cases e1 : shape n with
      | delim o c =>
        rw [e1] at s1
        have := (hbang n o c e1).2
        exact mark2_last s1.ends.2 ⟨this, this⟩
      | text =>
        cases e2 : shape m with
        | text => rw [e1, e2] at hcm; simp [compat] at hcm
        | delim o c =>
          rw [e2] at s2
          have := (hbang m o c e2).1
          refine mark2_first (x := (false, o)) ?_ ⟨this, this⟩
          have := s2.ends.1
          cases u1 with
          | nil => simp at this
          | cons y u1 => exact this

theorem boldItem_bang {stops stops' : List Stop} (hst : ∀ st ∈ stops', st = .HighlightEnd ∨ st ∈ stops) (b : Bool)
    (n : BoldNode) (v : V) (h : BoldItemV stops b n v) : BoldItemV stops' b n (mark2 '!' '!' false v) := by
  cases n with
  | text s => exact ⟨h.1, body_bang h.2 hst⟩
  | italic s =>
    obtain ⟨w, rfl, hw⟩ := h
    exact ⟨_, mark2_delim (by decide) w, body_bang hw hst⟩
  | strikethrough s =>
    obtain ⟨h1, w, rfl, hw⟩ := h
    exact ⟨h1, _, mark2_delim2 (by decide) w, body_bang hw hst⟩

theorem mark2_link {w1 w2 : V} : mark2 '!' '!' false (linkV w1 w2) = linkV (mark2 '!' '!' false w1) (mark2 '!' '!' false w2) := by
  have h : ∀ (c : Char), c ≠ '!' → ∀ v w : V, mark2 '!' '!' false (v ++ (free [c] ++ w)) =
      mark2 '!' '!' false v ++ (free [c] ++ mark2 '!' '!' false w) := by
    intro c hc v w
    exact mark2_append (x := (false, c)) (.inl ⟨hc, hc⟩) v w
  have h0 : ∀ (c : Char), c ≠ '!' → ∀ w : V, mark2 '!' '!' false (free [c] ++ w) = free [c] ++ mark2 '!' '!' false w :=
    fun c hc w => h c hc [] w
  unfold linkV
  rw [h0 _ (by decide), h _ (by decide), h0 _ (by decide)]
  have := h ')' (by decide) w2 []
  rw [List.append_nil] at this
  rw [this]
  simp [mark2]

theorem node_bang {stops stops' : List Stop} (hst : ∀ st ∈ stops', st = .HighlightEnd ∨ st ∈ stops) (b : Bool)
    (n : ParagraphNode) (v : V) (h : NodeV stops b n v) : NodeV stops' b n (mark2 '!' '!' false v) := by
  cases n with
  | text s => exact ⟨h.1, body_bang h.2 hst⟩
  | italic s =>
    obtain ⟨w, rfl, hw⟩ := h
    exact ⟨_, mark2_delim (by decide) w, body_bang hw hst⟩
  | strikethrough s =>
    obtain ⟨h1, w, rfl, hw⟩ := h
    exact ⟨h1, _, mark2_delim2 (by decide) w, body_bang hw hst⟩
  | emphasis s =>
    obtain ⟨h1, w, rfl, hw⟩ := h
    exact ⟨h1, _, mark2_delim (by decide) w, body_bang hw hst⟩
  | codeSpan s =>
    obtain ⟨h1, w, rfl, hw⟩ := h
    exact ⟨h1, _, mark2_delim (by decide) w, body_bang hw hst⟩
  | anchor a =>
    obtain ⟨w1, w2, rfl, h1, h2⟩ := h
    exact ⟨_, _, mark2_link, body_bang h1 hst, body_bang h2 hst⟩
  | bold l =>
    obtain ⟨h1, h2, w, rfl, hw⟩ := h
    refine ⟨h1, h2, _, mark2_delim2 (by decide) w, ?_⟩
    exact seq_bang bold_shape (by
      intro n o c h
      cases n <;> simp only [boldShape, reduceCtorEq, Shape.delim.injEq] at h
      all_goals (obtain ⟨rfl, rfl⟩ := h; decide)) (boldItem_bang hst) h2 hw

theorem para_bang {stops stops' : List Stop} (hst : ∀ st ∈ stops', st = .HighlightEnd ∨ st ∈ stops) {b : Bool}
    {p : Paragraph} {v : V} (hc : Chain nodeShape p) (h : ParaV stops b p v) : ParaV stops' b p (mark2 '!' '!' false v) :=
  seq_bang node_shape (by
    intro n o c h
    cases n <;> simp only [nodeShape, reduceCtorEq, Shape.delim.injEq] at h
    all_goals (obtain ⟨rfl, rfl⟩ := h; decide)) (node_bang hst) hc h

/-! ### Markers at the start of a block -/

/-- The view starts with none of the markers that `escape_leading_block_marker` looks for. -/
def NoMarker (v : V) : Prop := ¬ free ['-', ' '] <+: v ∧ ¬ free ['+', ' '] <+: v ∧ ¬ free ['#', ' '] <+: v ∧
  ¬ free ['!', '!'] <+: v ∧ ¬ free ['-', '-', '-'] <+: v

theorem render_prefix {pat : Str} (hp : '\\' ∉ pat) : ∀ {v : V}, pat <+: render v ↔ free pat <+: v := by
  induction pat with
  | nil => intro v; simp [free]
  | cons c pat ih =>
    intro v
    have hc : c ≠ '\\' := fun h => hp (by simp [h])
    have hp' : '\\' ∉ pat := fun h => hp (by simp [h])
    match v with
    | [] => simp [render, free]
    | (true, d) :: v =>
      rw [render_esc]
      simp only [free, List.map_cons]
      rw [List.cons_prefix_cons, List.cons_prefix_cons]
      simp [hc]
    | (false, d) :: v =>
      rw [render_free]
      simp only [free, List.map_cons]
      rw [List.cons_prefix_cons, List.cons_prefix_cons, ih hp']
      simp [free]

theorem mark1_noMarker {x} {v : V} : NoMarker (mark1 (x :: v)) := by
  have : ∀ c pat, ¬ free (c :: pat) <+: mark1 (x :: v) := by
    intro c pat h
    simp only [free, List.map_cons, mark1] at h
    rw [List.cons_prefix_cons] at h
    simp at h
  exact ⟨this _ _, this _ _, this _ _, this _ _, this _ _⟩

/-- Escaping the leading marker escapes the first character or nothing. -/
theorem escapeLeading_view {v : V} : ∃ v', escapeLeadingBlockMarker (render v) = render v' ∧
    NoMarker v' ∧ (v' = v ∨ v' = mark1 v ∧ ∃ c ∈ ['-', '+', '#', '!'], v.head? = some (false, c)) := by
  unfold escapeLeadingBlockMarker
  split
  · rename_i h
    have hh : ∃ c ∈ ['-', '+', '#', '!'], v.head? = some (false, c) := by
      simp only [Bool.or_eq_true, List.isPrefixOf_iff_prefix] at h
      have key : ∀ c pat, c ≠ '\\' → (c :: pat) <+: render v → v.head? = some (false, c) := by
        intro c pat hc hp
        refine render_head hc ?_
        obtain ⟨r, e⟩ := hp
        rw [← e]; rfl
      rcases h with (((h | h) | h) | h) | h
      · exact ⟨_, by decide, key _ _ (by decide) h⟩
      · exact ⟨_, by decide, key _ _ (by decide) h⟩
      · exact ⟨_, by decide, key _ _ (by decide) h⟩
      · exact ⟨_, by decide, key _ _ (by decide) h⟩
      · exact ⟨_, by decide, key _ _ (by decide) h⟩
    obtain ⟨c, hc, hv⟩ := hh
    cases v with
    | nil => simp at hv
    | cons x v =>
      have : x = (false, c) := by simpa using hv
      subst this
      exact ⟨mark1 ((false, c) :: v), rfl, mark1_noMarker, .inr ⟨rfl, c, hc, rfl⟩⟩
  · rename_i h
    refine ⟨v, rfl, ?_, .inl rfl⟩
    simp only [Bool.or_eq_true, List.isPrefixOf_iff_prefix, not_or] at h
    obtain ⟨⟨⟨⟨h1, h2⟩, h3⟩, h4⟩, h5⟩ := h
    rw [render_prefix (by decide)] at h1 h2 h3 h4 h5
    exact ⟨h1, h2, h3, h4, h5⟩

/-- The paragraph with its leading marker escaped. -/
theorem para_lead {stops b} {p : Paragraph} {v : V} (h : ParaV stops b p v) : ∃ v',
    escapeLeadingBlockMarker (render v) = render v' ∧ NoMarker v' ∧ ParaV stops b p v' ∧ More v v' ∧
    (v' = v ∨ v' = mark1 v) := by
  obtain ⟨v', e, hm, hor⟩ := escapeLeading_view (v := v)
  refine ⟨v', e, hm, ?_, ?_, hor.imp_right And.left⟩
  · rcases hor with rfl | ⟨rfl, c, hc, hv⟩
    · exact h
    · cases p with
      | nil =>
        have : v = [] := h
        rw [this] at hv; simp at hv
      | cons n r =>
        obtain ⟨v1, v2, rfl, h1, h2⟩ := h
        have sh := (node_shape _ _ _ h1).1
        cases v1 with
        | nil => exact absurd rfl sh.ne
        | cons x v1 =>
          refine ⟨mark1 (x :: v1), v2, rfl, ?_, h2⟩
          have hx : x = (false, c) := by simpa using hv
          cases n with
          | text s => exact ⟨h1.1, h1.2.more (more_mark1 _)⟩
          | _ =>
            exfalso
            have := sh.ends.1
            rw [hx] at this
            simp only [List.head?_cons, Option.some.injEq, Prod.mk.injEq, true_and] at this
            subst this
            revert hc; decide
  · rcases hor with rfl | ⟨rfl, -⟩
    · exact More.refl _
    · exact more_mark1 _

end Yamd.Round
