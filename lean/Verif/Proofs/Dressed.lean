import Verif.Spec.Dressed

/-!
# `Display` inserts syntax characters only (C71)
-/

namespace Yamd.Spec

open Yamd

theorem Dressed.refl : ∀ s : Str, Dressed s s
  | [] => .nil
  | c :: s => .keep c (Dressed.refl s)

theorem Dressed.append {s s' d d' : Str} (h : Dressed s d) (h' : Dressed s' d') : Dressed (s ++ s') (d ++ d') := by
  induction h with
  | nil => exact h'
  | keep c _ ih => exact .keep c ih
  | add hc _ ih => exact .add hc ih

theorem Dressed.trans {s d e : Str} (h : Dressed s d) (h' : Dressed d e) : Dressed s e := by
  induction h' generalizing s with
  | nil => exact h
  | keep c _ ih =>
    cases h with
    | keep _ h => exact .keep c (ih h)
    | add hc h => exact .add hc (ih h)
  | add hc _ ih => exact .add hc (ih h)

/-- Only syntax. -/
theorem Dressed.only : ∀ {d : Str}, (∀ c ∈ d, c ∈ markChars) → Dressed [] d
  | [], _ => .nil
  | c :: d, h => .add (h c (by simp)) (Dressed.only (fun x hx => h x (by simp [hx])))

theorem Dressed.left {s d p : Str} (hp : ∀ c ∈ p, c ∈ markChars) (h : Dressed s d) : Dressed s (p ++ d) :=
  (Dressed.only hp).append h

theorem Dressed.right {s d p : Str} (h : Dressed s d) (hp : ∀ c ∈ p, c ∈ markChars) : Dressed s (d ++ p) := by
  have := h.append (Dressed.only hp)
  rwa [List.append_nil] at this

theorem dressed_go {pat rep : Str} (hr : Dressed pat rep) (hne : pat ≠ []) :
    ∀ (s : Str) (k : Nat), Dressed (s.drop k) (replaceGo pat rep k s)
  | [], k => by
    have : replaceGo pat rep k [] = [] := by cases k <;> rfl
    rw [this]; simpa using Dressed.nil
  | c :: s, k + 1 => by
    simp only [replaceGo, List.drop_succ_cons]
    exact dressed_go hr hne s k
  | c :: s, 0 => by
    simp only [replaceGo, List.drop_zero]
    split
    · rename_i h
      have h1 := List.isPrefixOf_iff_prefix.1 h
      obtain ⟨t, ht⟩ := h1
      cases pat with
      | nil => exact absurd rfl hne
      | cons p pat =>
        have e : s.drop ((p :: pat).length - 1) = t := by
          simp only [List.cons_append, List.cons.injEq] at ht
          rw [← ht.2]
          simp
        have ih := dressed_go hr hne s ((p :: pat).length - 1)
        rw [e] at ih
        rw [← ht]
        exact hr.append ih
    · have ih := dressed_go hr hne s 0
      rw [List.drop_zero] at ih
      exact .keep c ih

/-- Replacing a pattern by itself with syntax inserted. -/
theorem Dressed.replace {s d pat rep : Str} (h : Dressed s d) (hr : Dressed pat rep) (hne : pat ≠ []) :
    Dressed s (replace pat rep d) := by
  refine h.trans ?_
  have := dressed_go hr hne d 0
  rwa [List.drop_zero] at this

/-- A backslash in front. -/
theorem dressed_escape (p : Str) : Dressed p ('\\' :: p) := .add (by decide) (Dressed.refl p)

theorem Dressed.esc {s d pat : Str} (h : Dressed s d) (hne : pat ≠ []) : Dressed s (Yamd.replace pat ('\\' :: pat) d) :=
  h.replace (dressed_escape pat) hne

theorem dressed_flat {α : Type} {f g : α → Str} : ∀ l : List α, (∀ x ∈ l, Dressed (f x) (g x)) →
    Dressed (l.flatMap f) (l.map g).flatten
  | [], _ => .nil
  | x :: l, h => by
    simp only [List.flatMap_cons, List.map_cons, List.flatten_cons]
    exact (h x (by simp)).append (dressed_flat l (fun y hy => h y (by simp [hy])))

theorem dressed_join {sep : Str} (hs : ∀ c ∈ sep, c ∈ markChars) {α : Type} {f g : α → Str} : ∀ l : List α,
    (∀ x ∈ l, Dressed (f x) (g x)) → Dressed (l.flatMap f) (joinWith sep (l.map g))
  | [], _ => .nil
  | [x], h => by simpa [joinWith] using h x (by simp)
  | x :: y :: l, h => by
    have ih := dressed_join hs (y :: l) (fun z hz => h z (by simp [hz]))
    simp only [List.map_cons, joinWith, List.flatMap_cons] at ih ⊢
    exact ((h x (by simp)).right hs).append ih

theorem dressed_anchor (a : Anchor) : Dressed (a.text ++ a.url) a.display := by
  unfold Anchor.display
  refine Dressed.right (Dressed.append (Dressed.right (Dressed.left (by decide) ?_) (by decide)) ?_) (by decide)
  · exact ((((Dressed.refl _).esc (by decide)).esc (by decide)).esc (by decide)).esc (by decide)
  · exact ((((Dressed.refl _).esc (by decide)).esc (by decide)).esc (by decide)).esc (by decide)

theorem dressed_image (i : Image) : Dressed (i.alt ++ i.src) i.display := by
  unfold Image.display
  refine Dressed.right (Dressed.append (Dressed.right (Dressed.left (by decide) ?_) (by decide)) ?_) (by decide)
  · exact (((Dressed.refl _).esc (by decide)).esc (by decide)).esc (by decide)
  · exact ((((Dressed.refl _).esc (by decide)).esc (by decide)).esc (by decide)).esc (by decide)

theorem dressed_italic (s : Str) : Dressed s (displayItalic s) := by
  unfold displayItalic
  exact ((((Dressed.refl _).esc (by decide)).esc (by decide)).esc (by decide) |>.left (by decide)).right (by decide)

theorem dressed_strike (s : Str) : Dressed s (displayStrikethrough s) := by
  unfold displayStrikethrough
  exact ((((Dressed.refl _).esc (by decide)).esc (by decide)).esc (by decide) |>.left (by decide)).right (by decide)

theorem dressed_emphasis (s : Str) : Dressed s (displayEmphasis s) := by
  unfold displayEmphasis
  exact ((((Dressed.refl _).esc (by decide)).esc (by decide)).esc (by decide) |>.left (by decide)).right (by decide)

theorem dressed_code (s : Str) : Dressed s (displayCodeSpan s) := by
  unfold displayCodeSpan
  split
  · rename_i h; rw [h]; exact .nil
  · exact ((((Dressed.refl _).esc (by decide)).esc (by decide)).esc (by decide) |>.left (by decide)).right (by decide)

theorem dressed_boldNode (n : BoldNode) : Dressed (stringB n) n.display := by
  cases n with
  | italic s => exact dressed_italic s
  | strikethrough s => exact dressed_strike s
  | text s => exact (((((Dressed.refl _).esc (by decide)).esc (by decide)).esc (by decide)).esc (by decide)).esc (by decide)

theorem dressed_bold (l : List BoldNode) : Dressed (l.flatMap stringB) (displayBold l) := by
  unfold displayBold
  split
  · refine Dressed.right (Dressed.left (by decide) (dressed_flat l (fun n _ => (dressed_boldNode n).esc (by decide)))) (by decide)
  · rename_i h
    have : l.flatMap stringB = [] := by
      rw [List.flatMap_eq_nil_iff]
      intro n hn
      simp only [List.any_eq_true, not_exists, not_and] at h
      have := h n hn
      cases n <;> simp_all [BoldNode.hasContent, stringB]
    rw [this]
    exact .nil

theorem dressed_text (t : Str) : Dressed t (displayText t) := by
  unfold displayText
  refine Dressed.esc (Dressed.replace ?_ ?_ (by decide)) (by decide)
  · exact (((((((Dressed.refl _).esc (by decide)).esc (by decide)).esc (by decide)).esc (by decide)).esc (by decide)).esc
      (by decide)).esc (by decide)
  · exact .add (by decide) (.keep _ (.add (by decide) (.keep _ .nil)))

theorem dressed_inline (n : ParagraphNode) : Dressed (stringP n) n.display := by
  cases n with
  | anchor a => exact dressed_anchor a
  | bold l => exact dressed_bold l
  | italic s => exact dressed_italic s
  | strikethrough s => exact dressed_strike s
  | text s => exact dressed_text s
  | codeSpan s => exact dressed_code s
  | emphasis s => exact dressed_emphasis s

theorem dressed_paragraph (p : Paragraph) : Dressed (paragraphString p) (displayParagraph p) :=
  dressed_flat p (fun n _ => dressed_inline n)

theorem dressed_leading {s d : Str} (h : Dressed s d) : Dressed s (escapeLeadingBlockMarker d) := by
  unfold escapeLeadingBlockMarker
  split
  · exact .add (by decide) h
  · exact h

theorem dressed_headingNode (n : HeadingNode) : Dressed (stringH n) n.display := by
  cases n with
  | text t => exact (((Dressed.refl _).esc (by decide)).esc (by decide)).esc (by decide)
  | anchor a => exact dressed_anchor a

theorem dressed_heading (k : Nat) (b : List HeadingNode) : Dressed (b.flatMap stringH) (displayHeading k b) := by
  unfold displayHeading
  refine Dressed.left (fun c hc => ?_) (.add (by decide) (dressed_flat b (fun n _ => dressed_headingNode n)))
  rw [List.eq_of_mem_replicate hc]
  decide

theorem dressed_codeBlock (lang code : Str) : Dressed (lang ++ code) (displayCode lang code) := by
  unfold displayCode
  refine Dressed.right (Dressed.append (Dressed.left (by decide) ?_) (.add (by decide) ?_)) (by decide)
  · exact (((Dressed.refl _).esc (by decide)).esc (by decide)).esc (by decide)
  · exact ((Dressed.refl _).esc (by decide)).esc (by decide)

theorem dressed_embed (k a : Str) : Dressed (k ++ a) (displayEmbed k a) := by
  unfold displayEmbed
  refine Dressed.right (Dressed.append (Dressed.left (by decide) ?_) (.add (by decide) ?_)) (by decide)
  · exact (((Dressed.refl _).esc (by decide)).esc (by decide)).esc (by decide)
  · exact ((((Dressed.refl _).esc (by decide)).esc (by decide)).esc (by decide)).esc (by decide)

theorem dressed_highlight (t i : Option Str) (ps : List Paragraph) :
    Dressed (t.getD [] ++ i.getD [] ++ ps.flatMap paragraphString) (displayHighlight t i ps) := by
  unfold displayHighlight
  rw [List.append_assoc]
  refine Dressed.right ?_ (by decide)
  rw [List.append_assoc]
  refine Dressed.append (Dressed.left (by decide) ?_) (.add (by decide) (Dressed.append ?_ ?_))
  · cases t with
    | none => exact .nil
    | some t => exact .add (by decide) ((Dressed.refl _).esc (by decide))
  · cases i with
    | none => exact .nil
    | some i => exact Dressed.right (Dressed.left (by decide) ((Dressed.refl _).esc (by decide))) (by decide)
  · exact dressed_join (by decide) ps (fun p _ => dressed_leading ((dressed_paragraph p).esc (by decide)))

theorem marker_syntax (t : ListTypes) : t.marker ∈ markChars := by cases t <;> decide

mutual
theorem dressed_list : ∀ l : YList, Dressed ((itemTexts l).flatMap paragraphString) l.display
  | .mk t k items => by
    rw [itemTexts, YList.display]
    exact dressed_items t k items
theorem dressed_items (t : ListTypes) (k : Nat) : ∀ l : List YItem,
    Dressed ((itemsTexts l).flatMap paragraphString) (joinWith (cs! "\n") (YList.displayItems t k l))
  | [] => by simpa [itemsTexts, YList.displayItems, joinWith] using Dressed.nil
  | i :: r => by
    have hi : Dressed ((itemText i).flatMap paragraphString) (List.replicate k ' ' ++ t.marker :: ' ' ::
        replace ['\n', t.marker, ' '] ['\n', '\\', t.marker, ' '] (YItem.display i)) := by
      refine Dressed.left (fun c hc => by rw [List.eq_of_mem_replicate hc]; decide)
        (.add (marker_syntax t) (.add (by decide) (Dressed.replace (dressed_item i) ?_ (by simp))))
      exact .keep _ (.add (by decide) (Dressed.refl _))
    have hr := dressed_items t k r
    rw [itemsTexts, List.flatMap_append]
    cases r with
    | nil => simpa [itemsTexts, YList.displayItems, joinWith] using hi
    | cons j r =>
      simp only [YList.displayItems, joinWith] at hr ⊢
      exact (hi.right (by decide)).append hr
theorem dressed_item : ∀ i : YItem, Dressed ((itemText i).flatMap paragraphString) (YItem.display i)
  | .mk text none => by
    simpa [itemText, YItem.display] using dressed_paragraph text
  | .mk text (some l) => by
    simp only [itemText, YItem.display, List.flatMap_cons]
    exact (dressed_paragraph text).append (.add (by decide) (dressed_list l))
end

mutual
theorem dressed_node : ∀ n : YamdNode, Dressed (stringN n) n.display
  | .paragraph p => by rw [stringN, YamdNode.display]; exact dressed_paragraph p
  | .heading k b => by rw [stringN, YamdNode.display]; exact dressed_heading k b
  | .image i => by rw [stringN, YamdNode.display]; exact dressed_image i
  | .images l => by
    rw [stringN, YamdNode.display]
    exact dressed_join (by decide) l (fun i _ => dressed_image i)
  | .code lang c => by rw [stringN, YamdNode.display]; exact dressed_codeBlock lang c
  | .list l => by rw [stringN, YamdNode.display]; exact dressed_list l
  | .highlight t i ps => by rw [stringN, YamdNode.display]; exact dressed_highlight t i ps
  | .thematicBreak => by rw [stringN, YamdNode.display]; exact Dressed.only (by decide)
  | .embed k a => by rw [stringN, YamdNode.display]; exact dressed_embed k a
  | .collapsible t b => by
    rw [stringN, YamdNode.display]
    refine Dressed.right (Dressed.append (Dressed.left (by decide) ?_) (.add (by decide) (dressed_blocks b))) (by decide)
    exact ((Dressed.refl _).esc (by decide)).esc (by decide)
theorem dressed_blocks : ∀ l : List YamdNode, Dressed (stringsN l) (joinWith (cs! "\n\n") (displayBlocks l))
  | [] => by simpa [stringsN, displayBlocks, joinWith] using Dressed.nil
  | n :: r => by
    obtain ⟨b, hb, hn⟩ : ∃ b, displayBlocks (n :: r) = b :: displayBlocks r ∧ Dressed (stringN n) b := by
      have := dressed_node n
      cases n with
      | paragraph p =>
        exact ⟨_, rfl, by rw [stringN]; exact dressed_leading (dressed_paragraph p)⟩
      | _ => exact ⟨_, rfl, this⟩
    have hr := dressed_blocks r
    rw [stringsN, hb]
    cases hd : displayBlocks r with
    | nil =>
      have : r = [] := by cases r with | nil => rfl | cons m r => exact absurd hd (by cases m <;> exact List.cons_ne_nil _ _)
      subst this
      simpa [stringsN, joinWith] using hn
    | cons x xs =>
      rw [hd] at hr
      exact (hn.right (by decide)).append hr
end

theorem dressed_document (y : Yamd) : Dressed (documentString y) y.display := by
  unfold documentString Yamd.display
  cases y.metadata with
  | none => exact dressed_blocks y.body
  | some m =>
    refine Dressed.append (Dressed.right (Dressed.right (Dressed.left (by decide) (Dressed.refl _)) ?_) (by decide))
      (dressed_blocks y.body)
    intro c hc
    split at hc
    · simp at hc
    · revert c; decide

end Yamd.Spec
