import Verif.Proofs.Final.Tail
import Verif.Spec.Final

/-!
# A line break at the very end (C73): blocks
-/

namespace Yamd.Spec

open Yamd

theorem withBreak_cons (n : YamdNode) {r : List YamdNode} (h : r ≠ []) : withBreak (n :: r) = n :: withBreak r := by
  cases r with
  | nil => exact absurd rfl h
  | cons m r => cases n <;> rfl

theorem breakInParagraph_cons2 (x y : ParagraphNode) (r : Paragraph) :
    breakInParagraph (x :: y :: r) = x :: breakInParagraph (y :: r) := by cases x <;> rfl

theorem breakInHeading_cons2 (x y : HeadingNode) (r : List HeadingNode) :
    breakInHeading (x :: y :: r) = x :: breakInHeading (y :: r) := by cases x <;> rfl

theorem trim_break : ∀ p : Paragraph, ToYamd.trimTrailingNewline (breakInParagraph p) = ToYamd.trimTrailingNewline p
  | [] => by decide
  | [x] => by
    have ht : ∀ s : Str, trimEndNl (s ++ ['\n']) = trimEndNl s := by
      intro s; simp [trimEndNl]
    have h1 : trimEndNl ['\n'] = [] := by decide
    cases x <;> simp [breakInParagraph, ToYamd.trimTrailingNewline, ht, h1]
  | x :: y :: r => by
    have ih := trim_break (y :: r)
    have hne : breakInParagraph (y :: r) ≠ [] := by
      cases r with
      | nil => cases y <;> simp [breakInParagraph]
      | cons z r => rw [breakInParagraph_cons2]; simp
    have key : ∀ q : Paragraph, q ≠ [] → ToYamd.trimTrailingNewline (x :: q) = x :: ToYamd.trimTrailingNewline q := by
      intro q hq
      unfold ToYamd.trimTrailingNewline
      obtain ⟨a, z, rfl⟩ : ∃ a z, q = a ++ [z] := ⟨q.dropLast, q.getLast hq, (List.dropLast_concat_getLast hq).symm⟩
      rw [← List.cons_append, List.getLast?_concat, List.getLast?_concat]
      cases z with
      | text t => simp only [List.dropLast_concat]; split <;> rfl
      | _ => rfl
    rw [breakInParagraph_cons2, key _ hne, ih, key _ (by simp)]

end Yamd.Spec

namespace Yamd.Ref

open Yamd Yamd.Spec

/-- The last token is no line break. -/
def NoBreakEnd (ts : List Token) : Prop := ∀ a t, ts = a ++ [t] → isEolOrTerminator t = false

theorem NoBreakEnd.right {a b : List Token} (h : NoBreakEnd (a ++ b)) : NoBreakEnd b := by
  rintro x t rfl
  exact h (a ++ x) t (by simp)

theorem NoBreakEnd.tail {t r} (h : NoBreakEnd (t :: r)) : NoBreakEnd r := NoBreakEnd.right (a := [t]) h

/-- Behind a line break there is more. -/
theorem NoBreakEnd.more {t : Token} {r : List Token} (h : NoBreakEnd (t :: r)) (ht : isEolOrTerminator t = true) : r ≠ [] := by
  rintro rfl
  have := h [] t rfl
  rw [this] at ht; simp at ht

section
variable {E : Token} {src : Str} (hE : E.kind = .Eol) (h0 : col0 E = false) (hs : sliceD src E = ['\n'])

include hs in
theorem addI_denote : ∀ l : List Inl, paraDenote src (addI E l) = breakInParagraph (paraDenote src l)
  | [] => by simp [addI, paraDenote, Inl.denote, breakInParagraph, textOfToks, hs]
  | [x] => by
    cases x with
    | text ts => simp [addI, paraDenote, Inl.denote, breakInParagraph, textOfToks, hs]
    | delim d => cases h : d.node <;> simp [addI, paraDenote, Inl.denote, breakInParagraph, textOfToks, hs, h]
    | _ => simp [addI, paraDenote, Inl.denote, breakInParagraph, textOfToks, hs]
  | x :: y :: r => by
    have ih := addI_denote (y :: r)
    rw [addI_cons2]
    simp only [paraDenote, List.map_cons] at ih ⊢
    rw [ih, breakInParagraph_cons2]

include hs in
theorem addHI_denote : ∀ l : List HeadItem,
    (addHI E l).map (HeadItem.denote src) = breakInHeading (l.map (HeadItem.denote src))
  | [] => by simp [addHI, HeadItem.denote, breakInHeading, textOfToks, hs]
  | [x] => by
    cases x <;> simp [addHI, HeadItem.denote, breakInHeading, textOfToks, hs]
  | x :: y :: r => by
    have ih := addHI_denote (y :: r)
    rw [addHI_cons2]
    simp only [List.map_cons] at ih ⊢
    rw [ih, breakInHeading_cons2]

/-- How the result on the tokens and the one on the tokens and the final line break are related. -/
def Ends (E : Token) (src : Str) (x y : Block × List Token) : Prop :=
  (x.2 ≠ [] ∧ y = mapE [E] x) ∨
  (x.2 = [] ∧ y.2 = [] ∧ withBreak [x.1.denote src] = [y.1.denote src]) ∨
  (x.2 = [] ∧ y = mapE [E] x ∧ x.1.denote src = .thematicBreak)

/-- The same for results that may be missing. -/
def OptEnds (E : Token) (src : Str) : Option (Block × List Token) → Option (Block × List Token) → Prop
  | none, none => True
  | some x, some y => Ends E src x y
  | _, _ => False

theorem OptEnds.none : OptEnds E src none none := trivial

include hE h0

/-! ### Lists -/

theorem markerB_fin (level : Nat) (want : Option ListKind) (ts : List Token) :
    markerB level want (ts ++ [E]) = (markerB level want ts).map (fun x => (x.1, x.2.1, x.2.2 ++ [E])) := by
  unfold markerB
  simp only [tokenIs_fin h0, tokenIs_fin (L_marker hE _), tokenIs_fin (L_space1 hE),
    tokenIs_fin (E := E) (f := fun t => decide (t.kind = .Space) && decide (t.len = level)) (by simp [hE])]
  split
  · split
    · split
      · rename_i h
        rw [Bool.and_eq_true] at h
        have := tokenIs_length h.2
        rw [List.take_append_of_le_length (by omega), List.drop_append_of_le_length (by omega),
          List.getElem?_append_left (by omega)]
        cases ts[0]?.bind ListKind.tryFrom <;> rfl
      · rfl
    · split
      · rename_i h
        rw [Bool.and_eq_true] at h
        have := tokenIs_length h.2
        rw [List.take_append_of_le_length (by omega), List.drop_append_of_le_length (by omega),
          List.getElem?_append_left (by omega)]
        cases ts[1]?.bind ListKind.tryFrom <;> rfl
      · rfl
  · rfl

/-- Items and the final line break. -/
def ItEnds (E : Token) (src : Str) (x y : Items × List Token) : Prop :=
  (x.2 ≠ [] ∧ y = mapE [E] x) ∨
  (x.2 = [] ∧ y.2 = [] ∧ y.1.kind = x.1.kind ∧ ∀ level, y.1.denote src level = x.1.denote src level)

omit hE h0 in
theorem itemsB_nil (S : List Stop) (level : Nat) (want : Option ListKind) : itemsB S level want [] = (.nil, []) :=
  itemsB_none (by unfold markerB; simp [tokenIs])

include hs in
theorem itemsB_fin {S : List Stop} (level : Nat) (want : Option ListKind) (ts : List Token) : ts ≠ [] →
    ItEnds E src (itemsB S level want ts) (itemsB S level want (ts ++ [E])) := by
  induction level, want, ts using itemsB_ind S with
  | none level want ts hm =>
    intro hne
    have hm' := markerB_fin hE h0 level want ts
    rw [hm] at hm'
    rw [itemsB_none hm, itemsB_none hm']
    exact .inl ⟨hne, rfl⟩
  | some level want ts k m r hm ih1 ih2 =>
    intro _
    have hm' := markerB_fin hE h0 level want ts
    rw [hm] at hm'
    rw [itemsB_some hm, itemsB_some hm']
    simp only
    have hp : itemPara S level k (r ++ [E]) = endsP E (itemPara S level k r) := paraB_fin hE h0 [] r
    by_cases hr : (itemPara S level k r).2 = []
    · rw [hp, endsP, if_pos hr]
      simp only
      have hn : itemNested S level [] = (.nil, []) := by simp [itemNested, stopAt]
      rw [hr, hn]
      simp only
      rw [itemsB_nil]
      refine .inr ⟨rfl, rfl, rfl, fun level => ?_⟩
      simp only [Items.denote, addI_denote hs, trim_break]
    · rw [hp, endsP, if_neg hr]
      simp only [mapE]
      have hn : ItEnds E src (itemNested S level (itemPara S level k r).2)
          (itemNested S level ((itemPara S level k r).2 ++ [E])) := by
        unfold itemNested
        rw [stopAt_fin hE h0 hr]
        split
        · exact .inl ⟨hr, rfl⟩
        · exact ih1 hr
      rcases hn with ⟨h1, h2⟩ | ⟨h1, h2, h3, h4⟩
      · have h5 := ih2 h1
        rw [h2]
        simp only [mapE]
        rcases h5 with ⟨h5, h6⟩ | ⟨h5, h6, h7, h8⟩
        · rw [h6]; exact .inl ⟨h5, rfl⟩
        · refine .inr ⟨h5, h6, rfl, fun level => ?_⟩
          simp only [Items.denote, h8]
      · rw [h1, h2, itemsB_nil]
        refine .inr ⟨rfl, rfl, rfl, fun level => ?_⟩
        simp only [Items.denote, h3, h4]

/-! ### Images -/

theorem imageB_fin {S : List Stop} (ts : List Token) (hn : NoBreakEnd ts) :
    imageB S (ts ++ [E]) = (imageB S ts).map (fun x => if x.2 = [] then ({ x.1 with eol := [E] }, []) else mapE [E] x) := by
  cases ts with
  | nil => simp [imageB, isBang1, hE]
  | cons t r =>
    rw [List.cons_append]
    unfold imageB
    simp only
    rw [linkB_fin hE h0]
    cases hl : linkB S r with
    | none => split <;> rfl
    | some x =>
      obtain ⟨l, r'⟩ := x
      simp only [Option.map_some, mapE]
      split
      · cases r' with
        | nil => simp [tokenIs, L_eol hE, stopAt]
        | cons a q =>
          have hne : isEol a = true → q ≠ [] := by
            intro ha
            rw [linkB_toks hl] at hn
            refine (NoBreakEnd.right hn.tail).more ?_
            simp only [isEol, decide_eq_true_eq] at ha
            simp [isEolOrTerminator, ha]
          have e1 : tokenIs (a :: q ++ [E]) 0 isEol = tokenIs (a :: q) 0 isEol := rfl
          rw [e1, stopAt_fin hE h0 (by simp)]
          cases ha : tokenIs (a :: q) 0 isEol with
          | true =>
            have := hne ha
            simp [this]
          | false =>
            simp only [Bool.false_eq_true, if_false]
            split
            · simp
            · rfl
      · rfl

/-- Image lines and the final line break. -/
def ImEnds (E : Token) (src : Str) : Option (List Img × List Token) → Option (List Img × List Token) → Prop
  | none, none => True
  | some x, some y => (x.2 ≠ [] ∧ y = mapE [E] x) ∨
      (x.2 = [] ∧ y.2 = [] ∧ y.1.map (Img.denote src) = x.1.map (Img.denote src))
  | _, _ => False

theorem imagesB_fin {S : List Stop} (ts : List Token) : NoBreakEnd ts → ts ≠ [] →
    ImEnds E src (imagesB S ts) (imagesB S (ts ++ [E])) := by
  induction ts using imagesB_ind S with
  | none ts h =>
    intro hn hne
    have h' := imageB_fin hE h0 (S := S) ts hn
    rw [h] at h'
    rw [imagesB_none h, imagesB_none h', stopAt_fin hE h0 hne]
    split
    · exact .inl ⟨hne, rfl⟩
    · trivial
  | some ts i r h ih =>
    intro hn _
    have h' := imageB_fin hE h0 (S := S) ts hn
    rw [h] at h'
    have hn' : NoBreakEnd r := by rw [imageB_toks h] at hn; exact hn.right
    have nil : imagesB S [] = some ([], []) := by rw [imagesB_none rfl]; rfl
    by_cases hr : r = []
    · subst hr
      simp only [Option.map_some, if_true] at h'
      rw [imagesB_some h, imagesB_some h', nil]
      exact .inr ⟨rfl, rfl, rfl⟩
    · simp only [Option.map_some, if_neg hr, mapE] at h'
      rw [imagesB_some h, imagesB_some h']
      have := ih hn' hr
      cases h1 : imagesB S r with
      | none =>
        cases h2 : imagesB S (r ++ [E]) with
        | none => trivial
        | some y => rw [h1, h2] at this; exact this.elim
      | some x =>
        cases h2 : imagesB S (r ++ [E]) with
        | none => rw [h1, h2] at this; exact this.elim
        | some y =>
          rw [h1, h2] at this
          rcases this with ⟨h3, h4⟩ | ⟨h3, h4, h5⟩
          · exact .inl ⟨h3, by rw [h4]; rfl⟩
          · exact .inr ⟨h3, h4, by simp only [List.map_cons, h5]⟩

/-! ### Blocks that end at a blank line -/

include hs in
theorem headingB_fin {S : List Stop} (ts : List Token) : OptEnds E src (headingB S ts) (headingB S (ts ++ [E])) := by
  unfold headingB
  rw [tokenIs_fin (by simp [isHash, hE]), tokenIs_fin (L_space1 hE)]
  split
  · rename_i h
    rw [Bool.and_eq_true] at h
    have := tokenIs_length h.2
    rw [List.take_append_of_le_length (by omega), List.drop_append_of_le_length (by omega), headB_fin hE h0, endsH]
    split
    · rename_i hr
      refine .inr (.inl ⟨hr, rfl, ?_⟩)
      simp only [Block.denote, withBreak, addHI_denote hs]
    · rename_i hr
      exact .inl ⟨hr, rfl⟩
  · trivial

omit hE h0 in
theorem denote_images {l l' : List Img} (h : l'.map (Img.denote src) = l.map (Img.denote src)) :
    (Block.images l').denote src = (Block.images l).denote src := by
  match l, l', h with
  | [], [], _ => rfl
  | [i], [j], h => simpa [Block.denote] using h
  | i :: j :: l, i' :: j' :: l', h => simpa [Block.denote] using h
  | [], _ :: _, h => simp at h
  | _ :: _, [], h => simp at h
  | [i], _ :: _ :: _, h => simp at h
  | _ :: _ :: _, [i], h => simp at h

include hs in
theorem leafB_fin {S : List Stop} {ts : List Token} (hn : NoBreakEnd ts) (hne : ts ≠ []) :
    Ends E src (leafB S ts) (leafB S (ts ++ [E])) := by
  have hit := itemsB_fin hE h0 hs (S := S) 0 none ts hne
  have him := imagesB_fin hE h0 (src := src) (S := S) ts hn hne
  have hhd := headingB_fin hE h0 hs (S := S) ts
  have hpa := paraB_fin hE h0 (S := S) [] ts
  have hth : thematicB (ts ++ [E]) = (thematicB ts).map (mapE [E]) := by
    cases ts with
    | nil => exact absurd rfl hne
    | cons t r => rw [List.cons_append, thematicB, thematicB]; split <;> rfl
  have thick : ∀ b, thematicB ts = some b → b.1.denote src = .thematicBreak := by
    intro b hb
    cases ts with
    | nil => exact absurd rfl hne
    | cons t r =>
      rw [thematicB] at hb
      split at hb
      · cases hb; rfl
      · simp at hb
  have rest : Ends E src
      (match thematicB ts with
        | some x => x
        | none =>
          match headingB S ts with
          | some x => x
          | none => (.para (paraB S [] ts).1, (paraB S [] ts).2))
      (match thematicB (ts ++ [E]) with
        | some x => x
        | none =>
          match headingB S (ts ++ [E]) with
          | some x => x
          | none => (.para (paraB S [] (ts ++ [E])).1, (paraB S [] (ts ++ [E])).2)) := by
    rw [hth, hpa]
    cases h1 : thematicB ts with
    | some b =>
      simp only [Option.map_some]
      by_cases hb : b.2 = []
      · exact .inr (.inr ⟨hb, rfl, thick b h1⟩)
      · exact .inl ⟨hb, rfl⟩
    | none =>
      simp only [Option.map_none]
      cases h2 : headingB S ts with
      | some x =>
        cases h3 : headingB S (ts ++ [E]) with
        | some y => rw [h2, h3] at hhd; exact hhd
        | none => rw [h2, h3] at hhd; exact hhd.elim
      | none =>
        cases h3 : headingB S (ts ++ [E]) with
        | some y => rw [h2, h3] at hhd; exact hhd.elim
        | none =>
          simp only [endsP]
          split
          · rename_i hr
            refine .inr (.inl ⟨hr, rfl, ?_⟩)
            simp only [Block.denote, withBreak, addI_denote hs]
          · rename_i hr
            exact .inl ⟨hr, rfl⟩
  unfold leafB
  rcases h1 : itemsB S 0 none ts with ⟨i, r⟩
  rcases h2 : itemsB S 0 none (ts ++ [E]) with ⟨i', r'⟩
  rw [h1, h2] at hit
  have hk : i'.kind = i.kind := by
    rcases hit with ⟨-, h⟩ | ⟨-, -, h, -⟩
    · cases h; rfl
    · exact h
  cases i with
  | cons k m p n q =>
    cases i' with
    | nil => simp [Items.kind] at hk
    | cons k' m' p' n' q' =>
      simp only
      rcases hit with ⟨h3, h4⟩ | ⟨h3, h4, h5, h6⟩
      · refine .inl ⟨h3, ?_⟩
        simp only [mapE, Prod.mk.injEq] at h4
        rw [h4.1, h4.2]; rfl
      · refine .inr (.inl ⟨h3, h4, ?_⟩)
        simp only [Block.denote, withBreak]
        rw [h6, hk]
  | nil =>
    cases i' with
    | cons k' m' p' n' q' => simp [Items.kind] at hk
    | nil =>
      simp only
      rcases h3 : imagesB S ts with _ | ⟨_ | ⟨j, l⟩, q⟩
      · rcases h4 : imagesB S (ts ++ [E]) with _ | ⟨_ | ⟨j', l'⟩, q'⟩
        · exact rest
        · exact rest
        · rw [h3, h4] at him; exact him.elim
      · rcases h4 : imagesB S (ts ++ [E]) with _ | ⟨_ | ⟨j', l'⟩, q'⟩
        · exact rest
        · exact rest
        · rw [h3, h4] at him
          rcases him with ⟨-, h⟩ | ⟨-, -, h⟩
          · simp [mapE] at h
          · simp at h
      · rcases h4 : imagesB S (ts ++ [E]) with _ | ⟨_ | ⟨j', l'⟩, q'⟩
        · rw [h3, h4] at him; exact him.elim
        · rw [h3, h4] at him
          rcases him with ⟨-, h⟩ | ⟨-, -, h⟩
          · simp [mapE] at h
          · simp at h
        · rw [h3, h4] at him
          simp only
          rcases him with ⟨h5, h6⟩ | ⟨h5, h6, h7⟩
          · refine .inl ⟨h5, ?_⟩
            simp only [mapE, Prod.mk.injEq] at h6
            rw [h6.1, h6.2]; rfl
          · refine .inr (.inl ⟨h5, h6, ?_⟩)
            rw [denote_images h7]
            cases l <;> rfl

end

end Yamd.Ref
