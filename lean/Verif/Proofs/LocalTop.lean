import Verif.Proofs.LocalDoc
import Verif.Proofs.SubstDoc
import Verif.Proofs.Fits

/-!
# Text after a blank line does not change what was read before it (C49): texts
-/

namespace Yamd.Spec

open Yamd

theorem Anchor.mapText_same (x : Anchor) : Anchor.mapText id x = x := rfl
theorem Image.mapText_same (x : Image) : Image.mapText id x = x := rfl

theorem BoldNode.mapText_same (x : BoldNode) : BoldNode.mapText id x = x := by cases x <;> rfl

theorem map_same {α : Type} {f : α → α} (h : ∀ x, f x = x) (l : List α) : l.map f = l := by
  induction l with
  | nil => rfl
  | cons x l ih => rw [List.map_cons, h, ih]

theorem ParagraphNode.mapText_same (x : ParagraphNode) : ParagraphNode.mapText id x = x := by
  cases x with
  | bold b => rw [ParagraphNode.mapText, map_same BoldNode.mapText_same]
  | _ => rfl

theorem HeadingNode.mapText_same (x : HeadingNode) : HeadingNode.mapText id x = x := by cases x <;> rfl

mutual
theorem YList.mapText_same : ∀ x : YList, YList.mapText id x = x
  | .mk t l b => by rw [YList.mapText, YItem.mapTexts_same b]
theorem YItem.mapText_same : ∀ x : YItem, YItem.mapText id x = x
  | .mk t none => by rw [YItem.mapText, map_same ParagraphNode.mapText_same]
  | .mk t (some n) => by rw [YItem.mapText, map_same ParagraphNode.mapText_same, YList.mapText_same n]
theorem YItem.mapTexts_same : ∀ x : List YItem, YItem.mapTexts id x = x
  | [] => rfl
  | x :: r => by rw [YItem.mapTexts, YItem.mapText_same x, YItem.mapTexts_same r]
end

mutual
theorem YamdNode.mapText_same : ∀ x : YamdNode, YamdNode.mapText id x = x
  | .paragraph p => by rw [YamdNode.mapText, map_same ParagraphNode.mapText_same]
  | .heading l b => by rw [YamdNode.mapText, map_same HeadingNode.mapText_same]
  | .image i => rfl
  | .images l => by rw [YamdNode.mapText, map_same Image.mapText_same]
  | .code l c => rfl
  | .list l => by rw [YamdNode.mapText, YList.mapText_same]
  | .highlight t i b => by
    rw [YamdNode.mapText, map_same (map_same ParagraphNode.mapText_same), Option.map_id]; rfl
  | .thematicBreak => rfl
  | .embed k a => rfl
  | .collapsible t b => by rw [YamdNode.mapText, YamdNode.mapTexts_same b]; rfl
theorem YamdNode.mapTexts_same : ∀ x : List YamdNode, YamdNode.mapTexts id x = x
  | [] => rfl
  | x :: r => by rw [YamdNode.mapTexts, YamdNode.mapText_same x, YamdNode.mapTexts_same r]
end

theorem Yamd.mapText_same (y : Yamd) : Yamd.mapText id y = y := by
  unfold Yamd.mapText
  rw [YamdNode.mapTexts_same, Option.map_id]; rfl

theorem subst_same : subst (fun c => [c]) = id := by
  funext s
  induction s with
  | nil => rfl
  | cons c r ih => simp only [subst, id] at ih ⊢; rw [List.flatMap_cons, ih]; rfl

theorem ordinary_same : Ordinary (fun c => [c]) :=
  ⟨fun _ _ => rfl, fun c hc => ⟨by simp, by simpa using hc⟩⟩

end Yamd.Spec

namespace Yamd.Ref

open Yamd Yamd.Spec Yamd.Round Yamd.Lexer

/-- The same texts elsewhere give the same document. -/
theorem doc_moved {f : Token → Token} (hr : Resp f) {s s' : Str} {A : List Token} (S : List Stop)
    (h : ∀ t ∈ A, sliceD s' (f t) = sliceD s t) : (docB S (A.map f)).1.denote s' = (docB S A).1.denote s := by
  rw [docB_nat hr]
  have hm : Moves (fun c => [c]) s s' f (docB S A).1.toks := by
    intro u hu
    rw [subst_same]
    obtain ⟨t, ht, hf⟩ := (docB_flips S A).mem_left u (by simp [hu])
    rcases hf with rfl | ⟨hk, rfl⟩
    · exact h _ ht
    · rw [hr.flip t hk]; exact h _ ht
  have := Doc.denote_subst ordinary_same _ hm
  rw [subst_same, YamdNode.mapTexts_same] at this
  exact this

theorem resp_same : Resp id := ⟨fun _ => rfl, fun _ => rfl, fun _ _ => rfl, fun _ _ => rfl⟩

theorem resp_shift (k m : Nat) : Resp (shiftToken k m) := by
  refine ⟨fun _ => rfl, fun _ => rfl, fun t _ => ?_, fun _ _ => rfl⟩
  simp only [shiftToken, Token.len]; omega

theorem doc_elsewhere {s s' : Str} {A : List Token} (S : List Stop)
    (h : ∀ t ∈ A, sliceD s' t = sliceD s t) : (docB S A).1.denote s' = (docB S A).1.denote s := by
  have := doc_moved resp_same (A := A) (s := s) (s' := s') S h
  rwa [List.map_id] at this

theorem slice_left {a b : Str} {t} (ht : t ∈ tokens a) : sliceD (a ++ b) t = sliceD a t := by
  obtain ⟨x, p, c, h1, h2, h3, -⟩ := Props.tokens_facts ht
  unfold sliceD
  rw [h3, ← h2, h1, slice_append _ _ _ _ rfl]
  rw [List.append_assoc, List.append_assoc, slice_append _ _ _ _ rfl]

theorem slice_right {a b : Str} {t} (m : Nat) (ht : t ∈ tokens b) :
    sliceD (a ++ b) (shiftToken (blen a) m t) = sliceD b t := by
  obtain ⟨x, p, c, h1, h2, h3, -⟩ := Props.tokens_facts ht
  unfold sliceD shiftToken
  simp only
  rw [h3, ← h2, h1, slice_append _ _ _ _ rfl, ← List.append_assoc,
    show blen x + blen a = blen (a ++ x) by rw [blen_append]; omega,
    show blen x + blen p.text + blen a = blen (a ++ x) + blen p.text by rw [blen_append]; omega,
    slice_append _ _ _ _ rfl]

theorem placed_tokens (a : Str) : Placed a (tokens a) := by
  refine ⟨cols_tokens a, fun t ht ho => ?_⟩
  have hl : t.kind ≠ .Literal → Lexed a t := fun _ => lexed_tokens ht
  simp only [opener, Bool.or_eq_true] at ho
  rcases ho with ((ho | ho) | ho) | ho
  · rw [RunPred.text (f := isBacktick3) (n := 3) (runPred_col rfl) hl ho]; decide
  · rw [RunPred.text (f := isTwoBangs) (n := 2) (runPred_col rfl) hl ho]; decide
  · rw [RunPred.text (f := isLeftCurly2) (n := 2) (runPred_col rfl) hl ho]; decide
  · have hk : t.kind = .CollapsibleStart := by
      simp only [isCollapsibleStart, Bool.and_eq_true, decide_eq_true_eq] at ho; exact ho.1
    have := fixed_text (input := a) (t := t) (f := cs! "{%") (by rw [hk]; rfl) hl
    rw [text_one] at this
    rw [this]; decide

/-- A text whose first token is a line of three dashes starts with them. -/
theorem dashes_start {a : Str} {t r} (h : tokens a = t :: r) (ht : isThreeDashes t = true) :
    (cs! "---").isPrefixOf a = true := by
  have hmem : t ∈ tokens a := by rw [h]; simp
  have hl : t.kind ≠ .Literal → Lexed a t := fun _ => lexed_tokens hmem
  have h1 := RunPred.text (f := isThreeDashes) (n := 3) (runPred_col rfl) hl ht
  unfold tokens at h
  cases hp : tok1 a with
  | none => rw [pieces_none hp] at h; simp [place] at h
  | some x =>
    obtain ⟨p, q⟩ := x
    have hs := tok1_src hp
    have hform := tok1_form hp
    rw [pieces_some hp, place] at h
    simp only [List.cons.injEq] at h
    have hk : p.kind = .Minus := by
      have : t.kind = .Minus := by
        simp only [isThreeDashes, Bool.and_eq_true, decide_eq_true_eq] at ht; exact ht.1.1
      rw [← h.1] at this; exact this
    have he : p.esc = false := by
      cases hx : p.esc with
      | false => rfl
      | true => have := hform.2 hx; rw [hk] at this; simp at this
    have hsrc : p.src = p.text := by simp [Piece.src, he]
    have h2 : sliceD a t = p.text := by
      rw [← h.1, hs, hsrc]
      unfold sliceD tokenOf
      simp only [he]
      have := slice_append [] p.text q (blen p.text) (by simp [blen])
      simp only [blen, List.nil_append] at this
      simp [this]
    rw [h1] at h2
    rw [hs, hsrc, ← h2]
    rfl

/-- The document of a text followed by a blank line and another text. -/
theorem denote_local {a b : Str} {T : Token} {m : Nat} (hT : T.kind = .Terminator)
    (ht : tokens (a ++ ['\n', '\n'] ++ b) = tokens a ++ T :: (tokens b).map (shiftToken (blen a + 2) m))
    (h3 : ((topB (tokens a)).denote a).metadata.isSome ∨ (cs! "---").isPrefixOf a = false)
    (h4 : settledBlocks ((topB (tokens a)).denote a).body = true)
    (h5 : ((topB (tokens b)).denote b).metadata = none) :
    (topB (tokens (a ++ ['\n', '\n'] ++ b))).denote (a ++ ['\n', '\n'] ++ b)
      = ⟨((topB (tokens a)).denote a).metadata,
          ((topB (tokens a)).denote a).body ++ ((topB (tokens b)).denote b).body⟩ := by
  have hA : ∀ t ∈ tokens a, sliceD (a ++ ['\n', '\n'] ++ b) t = sliceD a t := by
    intro t h; rw [List.append_assoc]; exact slice_left h
  have hB : (docB [] ((tokens b).map (shiftToken (blen a + 2) m))).1.denote (a ++ ['\n', '\n'] ++ b)
      = ((topB (tokens b)).denote b).body := by
    have e : (docB [] (tokens b)).1.denote b = ((topB (tokens b)).denote b).body := by
      unfold topB at h5 ⊢
      cases hd : delimB isThreeDashes isThreeDashes .Metadata [] (tokens b) with
      | none => rfl
      | some x => rw [hd] at h5; simp [Top.denote, Yamd.new] at h5
    rw [← e]
    refine doc_moved (resp_shift _ _) [] fun t h => ?_
    have := slice_right (a := a ++ ['\n', '\n']) (b := b) m h
    rw [blen_append, show blen ['\n', '\n'] = 2 by decide] at this
    exact this
  have key : ∀ r : List Token, (∃ x, tokens a = x ++ r) → settledBlocks ((docB [] r).1.denote a) = true →
      (docB [] (r ++ T :: (tokens b).map (shiftToken (blen a + 2) m))).1.denote (a ++ ['\n', '\n'] ++ b)
        = (docB [] r).1.denote a ++ ((topB (tokens b)).denote b).body := by
    rintro r ⟨x, hx⟩ hs
    have hp := placed_tokens a
    rw [hx] at hp
    rw [docB_local hT a [] r (by intro st hst; cases hst) hp.right hs]
    unfold joinE
    rw [if_pos (docB_nil r)]
    simp only
    rw [Doc.denote_append, Doc.denote, hB]
    congr 1
    exact doc_elsewhere [] fun t h => hA t (by rw [hx]; simp [h])
  rw [ht]
  unfold topB at h3 h4 ⊢
  cases hd : delimB isThreeDashes isThreeDashes .Metadata [] (tokens a) with
  | some x =>
    obtain ⟨d, r⟩ := x
    rw [hd] at h4
    have hx := delimB_toks hd
    have hd' : delimB isThreeDashes isThreeDashes .Metadata []
        (tokens a ++ T :: (tokens b).map (shiftToken (blen a + 2) m))
        = some (d, r ++ T :: (tokens b).map (shiftToken (blen a + 2) m)) := by
      cases hta : tokens a with
      | nil => rw [hta] at hd; simp [delimB] at hd
      | cons t q =>
        rw [hta, delimB] at hd
        rw [List.cons_append, delimB]
        split at hd
        · rename_i ho
          rw [if_pos ho]
          simp only [Option.map_eq_some_iff] at hd
          obtain ⟨⟨b1, c1, r1⟩, e1, e2⟩ := hd
          simp only [Prod.mk.injEq] at e2
          obtain ⟨rfl, rfl⟩ := e2
          rw [untilB_more hT e1]; rfl
        · simp at hd
    rw [hd']
    simp only [Top.denote, Yamd.new] at h4 ⊢
    rw [key r ⟨_, hx⟩ h4]
    simp only [Option.map_some]
    congr 3
    unfold textOfToks
    rw [List.flatMap_def, List.flatMap_def]
    refine congrArg (fun l : List Str => trimNl l.flatten) (List.map_congr_left fun t h => hA t ?_)
    rw [hx]; simp [Delim.toks, h]
  | none =>
    rw [hd] at h3 h4
    have hd' : delimB isThreeDashes isThreeDashes .Metadata []
        (tokens a ++ T :: (tokens b).map (shiftToken (blen a + 2) m)) = none := by
      cases hta : tokens a with
      | nil => simp [delimB, isThreeDashes, hT]
      | cons t q =>
        rw [List.cons_append, delimB, if_neg]
        intro hcon
        have := dashes_start hta hcon
        simp [Top.denote, Yamd.new, this] at h3
    rw [hd']
    simp only [Top.denote, Yamd.new] at h4 ⊢
    rw [key (tokens a) ⟨[], rfl⟩ h4]
    rfl

end Yamd.Ref
