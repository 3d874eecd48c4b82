import Verif.Proofs.Final.Doc

/-!
# A line break at the very end (C73): documents, the induction
-/

namespace Yamd.Ref

open Yamd Yamd.Spec Yamd.Round

section
variable {E : Token} {src : Str} (hE : E.kind = .Eol) (h0 : col0 E = false) (hs : sliceD src E = ['\n'])

/-- The first block with and without the line break; it was read from `u` and the line break. -/
def LeafEnd (E : Token) (src : Str) (u : List Token) (x y : Block × List Token) : Prop :=
  (x.2 ≠ [] ∧ y.1.denote src = x.1.denote src ∧ y.1.toks = x.1.toks ∧ ∃ w, LastFlip x.2 w ∧ y.2 = w ++ [E]) ∨
  (x.2 = [] ∧ ((y.2 = [] ∧ withBreak [x.1.denote src] = [y.1.denote src] ∧ y.1.toks = u ++ [E]) ∨
    (y.2 = [E] ∧ x.1.denote src = .thematicBreak ∧ y.1.denote src = .thematicBreak ∧ y.1.toks = u)))

theorem leafEnd {ts u : List Token} {x z y : Block × List Token} (h : LastFlip ts u)
    (hx : ts = x.1.toks ++ x.2) (hz : u = z.1.toks ++ z.2) (hy : u ++ [E] = y.1.toks ++ y.2)
    (h1 : z.1.mapT norm = x.1.mapT norm) (h2 : z.2.map norm = x.2.map norm) (he : Ends E src z y) :
    LeafEnd E src u x y := by
  have hl := map_length_eq h2
  have hd := mapT_denote (src := src) h1
  rcases he with ⟨g1, g2⟩ | ⟨g1, g2, g3⟩ | ⟨g1, g2, g3⟩
  · have hne : x.2 ≠ [] := by
      intro hc
      rw [hc] at hl
      exact g1 (List.length_eq_zero_iff.1 hl)
    subst hx; subst hz
    obtain ⟨e1, e2⟩ := h.split hl hne
    left
    rw [g2]
    exact ⟨hne, hd, e1, z.2, e2, rfl⟩
  · right
    rw [g1] at hl
    refine ⟨List.length_eq_zero_iff.1 hl.symm, .inl ⟨g2, ?_, ?_⟩⟩
    · rw [← hd]; exact g3
    · rw [g2, List.append_nil] at hy; exact hy.symm
  · right
    rw [g1] at hl
    refine ⟨List.length_eq_zero_iff.1 hl.symm, .inr ⟨?_, ?_, ?_, ?_⟩⟩
    · rw [g2]; simp [mapE, g1]
    · rw [← hd]; exact g3
    · rw [g2]; exact g3
    · rw [g2, hz, g1]; simp [mapE]

/-- A document with and without the line break. -/
def FinD (E : Token) (src : Str) (ts : List Token) (x y : Doc × List Token) : Prop :=
  (x.2 ≠ [] ∧ y.1.denote src = x.1.denote src ∧ y.1.toks = x.1.toks ∧ ∃ w, LastFlip x.2 w ∧ y.2 = w ++ [E]) ∨
  (x.2 = [] ∧ y.2 = [] ∧ y.1.denote src = withBreak (x.1.denote src) ∧
    (∃ w, LastFlip x.1.toks w ∧ y.1.toks = w ++ [E]) ∧ (ts ≠ [] → x.1.denote src ≠ []))

include hE h0 hs

/-- The line break on its own. -/
theorem docE (S : List Stop) : ∃ y, docB S [E] = (.block y .nil, []) ∧ y.denote src = .paragraph [.text ['\n']] ∧
    y.toks = [E] := by
  have h1 := collOpenB_fin hE h0 (S := S) []
  have h2 : flipOpen [E] = [E] := by simp [flipOpen, tokenIs, isCollapsibleStart, hE]
  have h3 : otherB S [E] = (.para [.text [E]], []) := by
    unfold otherB
    rw [embedB_head (by simp [isLeftCurly2, hE]), highlightB_head (by simp [isTwoBangs, hE])]
    simp only
    have hp := paraB_fin hE h0 (S := .Terminator :: S) [] []
    rw [List.nil_append, paraB_stop (ts := []) rfl] at hp
    have e1 : markerB 0 none [E] = none := by unfold markerB; simp [tokenIs, h0]
    have e2 : imageB (.Terminator :: S) [E] = none := by simp [imageB, isBang1, hE]
    have e3 : thematicB [E] = none := by simp [thematicB, isDash5, hE]
    have e4 : headingB (.Terminator :: S) [E] = none := by simp [headingB, tokenIs, isHash, hE]
    unfold leafB
    rw [itemsB_none e1, imagesB_none e2, stopAt_E hE h0, e3, e4, hp]
    rfl
  rw [List.nil_append] at h1
  rw [docB_plain (stopAt_E hE h0 S) (by simp [tokenIs, isTerminator, hE]) (codeB_head (by simp [isBacktick3, hE])) h1, h2, h3]
  refine ⟨_, by rw [docB_stop rfl], ?_, ?_⟩
  · simp [Block.denote, paraDenote, Inl.denote, textOfToks, hs]
  · simp [Block.toks, paraToks, Inl.toks]

omit h0 hs in
theorem flipOpen_fin {ts u : List Token} (h : LastFlip ts u) (hne : ts ≠ []) :
    ∃ w, LastFlip (flipOpen ts) w ∧ flipOpen (u ++ [E]) = w ++ [E] := by
  have hb : isCollapsibleStart E = false := by simp [isCollapsibleStart, hE]
  have key : ∀ v : List Token, v ≠ [] → ∃ w, LastFlip (flipOpen v) w ∧ flipOpen (v ++ [E]) = w ++ [E] := by
    intro v hv
    match v, hv with
    | [c], _ =>
      have e1 : flipOpen [c] = [c] := by simp [flipOpen, tokenIs]
      rw [e1]
      cases hc : isCollapsibleStart c with
      | true =>
        refine ⟨[{ c with kind := .Literal }], .inr ⟨[], c, rfl, ?_, rfl⟩, ?_⟩
        · simp only [isCollapsibleStart, Bool.and_eq_true, decide_eq_true_eq] at hc; exact hc.1
        · unfold flipOpen
          rw [if_pos (by simp [tokenIs, hc, isSpaceOrEol, hE])]
          rfl
      | false =>
        refine ⟨[c], .same _, ?_⟩
        unfold flipOpen
        rw [if_neg (by simp [tokenIs, hc])]
    | a :: b :: v, _ =>
      refine ⟨flipOpen (a :: b :: v), .same _, ?_⟩
      unfold flipOpen
      have e1 : tokenIs (a :: b :: v ++ [E]) 0 isCollapsibleStart = tokenIs (a :: b :: v) 0 isCollapsibleStart := rfl
      have e2 : tokenIs (a :: b :: v ++ [E]) 1 isSpaceOrEol = tokenIs (a :: b :: v) 1 isSpaceOrEol := rfl
      rw [e1, e2]
      split <;> rfl
  rcases h with rfl | ⟨a, c, rfl, hk, rfl⟩
  · exact key _ hne
  · match a with
    | [] =>
      refine ⟨[{ c with kind := .Literal }], .inr ⟨[], c, ?_, hk, rfl⟩, ?_⟩
      · simp [flipOpen, tokenIs]
      · simp [flipOpen, tokenIs, isCollapsibleStart]
    | [t] =>
      refine ⟨[t, { c with kind := .Literal }], .inr ⟨[t], c, ?_, hk, rfl⟩, ?_⟩
      · simp [flipOpen, tokenIs, isSpaceOrEol, hk]
      · simp [flipOpen, tokenIs, isSpaceOrEol]
    | t :: t2 :: a =>
      have e1 : tokenIs (t :: t2 :: a ++ [{ c with kind := .Literal }] ++ [E]) 0 isCollapsibleStart
          = tokenIs (t :: t2 :: a ++ [c]) 0 isCollapsibleStart := rfl
      have e2 : tokenIs (t :: t2 :: a ++ [{ c with kind := .Literal }] ++ [E]) 1 isSpaceOrEol
          = tokenIs (t :: t2 :: a ++ [c]) 1 isSpaceOrEol := rfl
      unfold flipOpen
      rw [e1, e2]
      split
      · exact ⟨{ t with kind := .Literal } :: t2 :: a ++ [{ c with kind := .Literal }],
          .inr ⟨{ t with kind := .Literal } :: t2 :: a, c, rfl, hk, rfl⟩, rfl⟩
      · exact ⟨t :: t2 :: a ++ [{ c with kind := .Literal }], .inr ⟨t :: t2 :: a, c, rfl, hk, rfl⟩, rfl⟩

/-- A block and the rest. -/
theorem finBlock {S : List Stop} {ts u : List Token} {x y : Block × List Token} (hne : ts ≠ [])
    (hx : LastFlip (x.1.toks ++ x.2) u) (h : LeafEnd E src u x y)
    (ih : ∀ w, LastFlip x.2 w → FinD E src x.2 (docB S x.2) (docB S (w ++ [E]))) :
    FinD E src ts (.block x.1 (docB S x.2).1, (docB S x.2).2) (.block y.1 (docB S y.2).1, (docB S y.2).2) := by
  rcases h with ⟨h1, h2, h3, w, hw, h4⟩ | ⟨h1, ⟨h2, h3, h4⟩ | ⟨h2, h3, h4, h5⟩⟩
  · rw [h4]
    rcases ih w hw with ⟨g1, g2, g3, v, g4, g5⟩ | ⟨g1, g2, g3, ⟨v, g4, g5⟩, g6⟩
    · exact .inl ⟨g1, by simp only [Doc.denote, h2, g2], by simp only [Doc.toks, h3, g3], v, g4, g5⟩
    · refine .inr ⟨g1, g2, ?_, ⟨x.1.toks ++ v, g4.append _, ?_⟩, fun _ => ?_⟩
      · simp only [Doc.denote, h2, g3]
        rw [withBreak_cons _ (g6 h1)]
      · simp only [Doc.toks, h3, g5, List.append_assoc]
      · simp [Doc.denote]
  · rw [h1, h2, docB_stop rfl]
    refine .inr ⟨rfl, rfl, ?_, ⟨u, ?_, ?_⟩, fun _ => ?_⟩
    · simp only [Doc.denote, h3]
    · rw [h1] at hx; exact hx
    · simp only [Doc.toks, h4, List.append_nil]
    · simp [Doc.denote]
  · obtain ⟨z, e1, e2, e3⟩ := docE hE h0 hs S
    rw [h1, h2, docB_stop rfl, e1]
    refine .inr ⟨rfl, rfl, ?_, ⟨u, ?_, ?_⟩, fun _ => ?_⟩
    · simp only [Doc.denote, h3, h4, e2]; rfl
    · rw [h1] at hx; exact hx
    · simp only [Doc.toks, h5, e3, List.append_nil]
    · simp [Doc.denote]

/-- A block that is not a collapsible, from tokens with a flipped end. -/
theorem otherEnd {S : List Stop} {ts u : List Token} (h : LastFlip ts u) (hne : ts ≠ []) (hc : Cols ts) (hn : NoBreakEnd ts) :
    LeafEnd E src u (otherB S ts) (otherB S (u ++ [E])) := by
  obtain ⟨h1, h2⟩ := otherB_flip h S
  exact leafEnd h (otherB_toks ..) (otherB_toks ..) (otherB_toks ..) h1 h2
    (otherB_fin hE h0 hs (h.flips.cols hc) (hn.flips h.flips) (h.ne hne))

theorem docB_fin (S : List Stop) (ts : List Token) : DStops S → Cols ts → NoBreakEnd ts → ∀ u, LastFlip ts u →
    FinD E src ts (docB S ts) (docB S (u ++ [E])) := by
  induction S, ts using docB_ind with
  | stop s ts hst e =>
    intro hd hc hn u hu
    rw [e]
    by_cases hne : ts = []
    · subst hne
      rw [hu.nil]
      obtain ⟨z, e1, e2, e3⟩ := docE hE h0 hs s
      rw [List.nil_append, e1]
      refine .inr ⟨rfl, rfl, ?_, ⟨[], .same _, ?_⟩, fun h => absurd rfl h⟩
      · simp only [Doc.denote, e2]; rfl
      · simp only [Doc.toks, e3, List.append_nil, List.nil_append]
    · rw [docB_stop (by rw [stopAt_fin hE h0 (hu.ne hne), stopAt_flip hu]; exact hst)]
      exact .inl ⟨hne, rfl, rfl, u, hu, rfl⟩
  | term s t r hst ht e ih =>
    intro hd hc hn u hu
    have hr : r ≠ [] := hn.more (by
      simp only [isTerminator, decide_eq_true_eq] at ht
      simp [isEolOrTerminator, ht])
    obtain ⟨v, rfl, hv⟩ := LastFlip.cut (p := [t]) hu hr
    have hs' : stopAt s (t :: (v ++ [E])) = false := by
      have := stopAt_fin hE h0 (S := s) (ts := [t] ++ v) (by simp)
      rw [stopAt_flip hu, hst] at this
      simpa using this
    rw [e, List.append_assoc, List.singleton_append, docB_term hs' ht]
    rcases ih hd hc.tail hn.tail v hv with ⟨g1, g2, g3, w, g4, g5⟩ | ⟨g1, g2, g3, ⟨w, g4, g5⟩, g6⟩
    · exact .inl ⟨g1, by simp only [Doc.denote, g2], by simp only [Doc.toks, g3], w, g4, g5⟩
    · refine .inr ⟨g1, g2, by simp only [Doc.denote, g3], ⟨t :: w, g4.append [t], by simp only [Doc.toks, g5]; rfl⟩, fun _ => ?_⟩
      simp only [Doc.denote]; exact g6 hr
  | code s t r b rest hst ht hcd e ih =>
    intro hd hc hn u hu
    have hs' : stopAt s (u ++ [E]) = false := by rw [stopAt_fin hE h0 (hu.ne (by simp)), stopAt_flip hu]; exact hst
    have ht' : tokenIs (u ++ [E]) 0 isTerminator = false := by
      rw [tokenIs_fin (by simp [isTerminator, hE]), tokenIs_flip hu (keeps_terminator resp_norm)]
      simpa [tokenIs] using ht
    obtain ⟨z, hz, z1, z2⟩ := codeB_flip_some hu hcd
    have hf := codeB_fin hE h0 (src := src) (S := s) (hu.flips.cols hc) (hn.flips hu.flips)
    rw [hz] at hf
    cases hy : codeB s (u ++ [E]) with
    | none => rw [hy] at hf; exact hf.elim
    | some y =>
      rw [hy] at hf
      have tk := codeB_toks hcd
      have tk2 := codeB_toks (b := z.1) (rest := z.2) hz
      have tk3 := codeB_toks (b := y.1) (rest := y.2) hy
      have hle := leafEnd (x := (b, rest)) hu tk tk2 tk3 z1 z2 hf
      rw [e, docB_code hs' ht' (b := y.1) (rest := y.2) hy]
      rw [tk] at hc hn
      exact finBlock hE h0 hs (x := (b, rest)) (by simp) (by rw [← tk]; exact hu) hle
        (ih hd hc.right hn.right)
  | coll s t r o m r1 c r4 hst ht hcd ho hcl e ih1 ih2 =>
    intro hd hc hn u hu
    have hs' : stopAt s (u ++ [E]) = false := by rw [stopAt_fin hE h0 (hu.ne (by simp)), stopAt_flip hu]; exact hst
    have ht' : tokenIs (u ++ [E]) 0 isTerminator = false := by
      rw [tokenIs_fin (by simp [isTerminator, hE]), tokenIs_flip hu (keeps_terminator resp_norm)]
      simpa [tokenIs] using ht
    have hcd' : codeB s (u ++ [E]) = none := by
      have hf := codeB_fin hE h0 (src := src) (S := s) (hu.flips.cols hc) (hn.flips hu.flips)
      rw [codeB_flip_none hu hcd] at hf
      cases hy : codeB s (u ++ [E]) with
      | none => rfl
      | some y => rw [hy] at hf; exact hf.elim
    obtain ⟨u1, hu1, hl1, tu⟩ := collOpenB_flip_some hu ho
    have ho' := collOpenB_fin hE h0 (S := s) u
    rw [hu1, Option.map_some] at ho'
    obtain ⟨tk, -, -⟩ := collOpenB_toks ho
    have hc1 : Cols r1 := by rw [tk] at hc; exact hc.right.right
    have hn1 : NoBreakEnd r1 := by rw [tk] at hn; exact hn.right.right
    have hfl := docB_flips (.CollapsibleEnd :: s) r1
    have hsk := skipEolB_toks (docB (.CollapsibleEnd :: s) r1).2
    have hck := collCloseB_toks hcl
    rcases ih1 hd.coll hc1 hn1 u1 hl1 with ⟨g1, g2, g3, w, g4, g5⟩ | ⟨g1, -⟩
    · obtain ⟨k1, k2⟩ := skipEolB_flip g4
      obtain ⟨w4, k3, k4⟩ := collCloseB_flip k2 hcl
      have hcx : Cols (docB (.CollapsibleEnd :: s) r1).2 := (hfl.cols hc1).right
      have hnx : NoBreakEnd (docB (.CollapsibleEnd :: s) r1).2 := (hn1.flips hfl).right
      have hnw : NoBreakEnd (skipEolB w).2 := by
        have := hnx.flips g4.flips
        rw [skipEolB_toks w] at this
        exact this.right
      have hc4 : Cols r4 := by rw [hsk, hck] at hcx; exact hcx.right.right
      have hn4 : NoBreakEnd r4 := by rw [hsk, hck] at hnx; exact hnx.right.right
      have hsk' : skipEolB (docB (.CollapsibleEnd :: s) (u1 ++ [E])).2 = mapE [E] (skipEolB w) := by
        rw [g5, skipEolB_fin hE h0 (g4.ne g1)]
      rcases collCloseB_fin hE h0 hnw k3 with ⟨k5, k6⟩ | ⟨k5, k6⟩
      · have hr4 : r4 ≠ [] := by
          rintro rfl
          exact k5 k4.nil
        rw [e, docB_coll hs' ht' hcd' ho' (c := c) (r4 := w4 ++ [E]) (by rw [hsk']; exact k6), hsk']
        rcases ih2 hd hc4 hn4 w4 k4 with ⟨f1, f2, f3, v, f4, f5⟩ | ⟨f1, f2, f3, ⟨v, f4, f5⟩, f6⟩
        · exact .inl ⟨f1, by simp only [Doc.denote, g2, f2], by simp only [Doc.toks, g3, mapE, k1, f3], v, f4, f5⟩
        · refine .inr ⟨f1, f2, ?_, ⟨o ++ (modToks m ++ ((docB (.CollapsibleEnd :: s) r1).1.toks ++
            ((skipEolB (docB (.CollapsibleEnd :: s) r1).2).1 ++ (c ++ v)))), ?_, ?_⟩, fun _ => ?_⟩
          · simp only [Doc.denote, g2, f3]
            rw [withBreak_cons _ (f6 hr4)]
          · exact ((((f4.append _).append _).append _).append _).append _
          · simp only [Doc.toks, g3, mapE, k1, f5, List.append_assoc]
          · simp [Doc.denote]
      · have hr4 : r4 = [] := by
          have := k4.length
          rw [k5] at this
          exact List.length_eq_zero_iff.1 this.symm
        subst hr4
        rw [e, docB_coll hs' ht' hcd' ho' (c := c ++ [E]) (r4 := []) (by rw [hsk']; exact k6), hsk', docB_stop (ts := []) rfl]
        refine .inr ⟨rfl, rfl, ?_, ⟨_, .same _, ?_⟩, fun _ => ?_⟩
        · simp only [Doc.denote, g2]; rfl
        · simp only [Doc.toks, g3, mapE, k1, List.append_assoc, List.append_nil]
        · simp [Doc.denote]
    · exfalso
      rw [g1] at hcl
      simp [skipEolB, collCloseB, tokenIs] at hcl
  | fallback s t r o m r1 x hst ht hcd ho hcl hx hl hstx e ih1 ih2 =>
    intro hd hc hn u hu
    have hs' : stopAt s (u ++ [E]) = false := by rw [stopAt_fin hE h0 (hu.ne (by simp)), stopAt_flip hu]; exact hst
    have ht' : tokenIs (u ++ [E]) 0 isTerminator = false := by
      rw [tokenIs_fin (by simp [isTerminator, hE]), tokenIs_flip hu (keeps_terminator resp_norm)]
      simpa [tokenIs] using ht
    have hcd' : codeB s (u ++ [E]) = none := by
      have hf := codeB_fin hE h0 (src := src) (S := s) (hu.flips.cols hc) (hn.flips hu.flips)
      rw [codeB_flip_none hu hcd] at hf
      cases hy : codeB s (u ++ [E]) with
      | none => rfl
      | some y => rw [hy] at hf; exact hf.elim
    obtain ⟨u1, hu1, hl1, tu⟩ := collOpenB_flip_some hu ho
    have ho' := collOpenB_fin hE h0 (S := s) u
    rw [hu1, Option.map_some] at ho'
    obtain ⟨tk, ol, hk⟩ := collOpenB_toks ho
    have hc1 : Cols r1 := by rw [tk] at hc; exact hc.right.right
    have hn1 : NoBreakEnd r1 := by rw [tk] at hn; exact hn.right.right
    have hfl := docB_flips (.CollapsibleEnd :: s) r1
    have hun := unclosed hd hcl
    rcases ih1 hd.coll hc1 hn1 u1 hl1 with ⟨g1, -⟩ | ⟨g1, g2, g3, ⟨w, g4, g5⟩, -⟩
    · exact absurd hun g1
    · rw [g1, List.append_nil] at hx hfl
      match o, ol with
      | [a, b], _ =>
        have hak : a.kind = .CollapsibleStart := by
          unfold collOpenB at ho
          split at ho
          · rename_i hh
            simp only [Bool.and_eq_true] at hh
            have h1 := hh.1
            rw [tk] at h1
            simp [tokenIs, isCollapsibleStart] at h1
            exact h1.1
          · simp at ho
        have hx1 : x = [{ a with kind := .Literal }, b] ++ modToks m ++ (docB (.CollapsibleEnd :: s) r1).1.toks := by
          rw [hx]; simp [flipHead]
        have hxl : LastFlip x ([{ a with kind := .Literal }, b] ++ modToks m ++ w) := by
          rw [hx1]; exact g4.append _
        have hx' : ([{ a with kind := .Literal }, b] ++ modToks m ++ w) ++ [E]
            = flipHead ([a, b] ++ (modToks m ++ ((docB (.CollapsibleEnd :: s) (u1 ++ [E])).1.toks ++
              (docB (.CollapsibleEnd :: s) (u1 ++ [E])).2))) := by
          rw [g2, g5]; simp [flipHead]
        have hfx : Flips (t :: r) x := by
          rw [tk, hx1, List.append_assoc]
          exact Flips.cons (.inr ⟨hak, rfl⟩) (.cons (.inl rfl) ((Flips.refl (modToks m)).append hfl))
        have hcx := hfx.cols hc
        have hnx := hn.flips hfx
        have hxne : x ≠ [] := by rw [hx1]; simp
        have hle := otherEnd hE h0 hs (S := s) hxl hxne hcx hnx
        rw [e, docB_fallback hs' ht' hcd' ho' (x := ([{ a with kind := .Literal }, b] ++ modToks m ++ w) ++ [E])
          (by rw [g2]; rfl) hx']
        have tkx := otherB_toks s x
        rw [tkx] at hcx hnx
        exact finBlock hE h0 hs (by simp) (by rw [← tkx]; exact hxl) hle (ih2 hd hcx.right hnx.right)
  | other s t r hst ht hcd ho hstx e ih =>
    intro hd hc hn u hu
    have hs' : stopAt s (u ++ [E]) = false := by rw [stopAt_fin hE h0 (hu.ne (by simp)), stopAt_flip hu]; exact hst
    have ht' : tokenIs (u ++ [E]) 0 isTerminator = false := by
      rw [tokenIs_fin (by simp [isTerminator, hE]), tokenIs_flip hu (keeps_terminator resp_norm)]
      simpa [tokenIs] using ht
    have hcd' : codeB s (u ++ [E]) = none := by
      have hf := codeB_fin hE h0 (src := src) (S := s) (hu.flips.cols hc) (hn.flips hu.flips)
      rw [codeB_flip_none hu hcd] at hf
      cases hy : codeB s (u ++ [E]) with
      | none => rfl
      | some y => rw [hy] at hf; exact hf.elim
    have ho' := collOpenB_fin hE h0 (S := s) u
    rw [collOpenB_flip_none hu ho, Option.map_none] at ho'
    obtain ⟨w, hw, ew⟩ := flipOpen_fin hE hu (by simp)
    have hfx := flips_flipOpen (t :: r)
    have hcx := hfx.cols hc
    have hnx := hn.flips hfx
    have hxne : flipOpen (t :: r) ≠ [] := by
      intro h
      have := flipOpen_length (t :: r)
      rw [h] at this; simp at this
    have hle := otherEnd hE h0 hs (S := s) hw hxne hcx hnx
    rw [e, docB_plain hs' ht' hcd' ho', ew]
    have tkx := otherB_toks s (flipOpen (t :: r))
    rw [tkx] at hcx hnx
    exact finBlock hE h0 hs (by simp) (by rw [← tkx]; exact hw) hle (ih hd hcx.right hnx.right)

end

end Yamd.Ref
