import Verif.Proofs.Spell.Document
import Verif.Proofs.Exact.ParaText
import Verif.Proofs.OpTotal
import Verif.Proofs.SteadyBlocks

/-!
# Every document that is read is expressible
-/

namespace Yamd.Round.SpellC

open Yamd Yamd.Spec Yamd.Lexer Yamd.Ref Yamd.ToYamd

theorem exprB_of {n : BoldNode} (h : solidB n = true) : exprBold n = true := by cases n <;> exact h

theorem exprN_of {n : ParagraphNode} (h : solid n = true) : exprNode n = true := by
  cases n with
  | bold l =>
    simp only [solid, exprNode, Bool.and_eq_true, List.all_eq_true] at h ⊢
    exact ⟨⟨h.1.1, fun x hx => exprB_of (h.1.2 x hx)⟩, h.2⟩
  | _ => exact h

theorem exprPara_of {src : Str} {l : List Inl} (hl : ParaOk l) (h : Live src (paraToks l)) : exprPara (paraDenote src l) = true := by
  obtain ⟨h1, h2⟩ := para_solid hl h
  simp only [exprPara, Bool.and_eq_true, List.all_eq_true] at h1 ⊢
  exact ⟨fun x hx => exprN_of (h1 x hx), h2⟩

theorem exprPara_trim {p : Paragraph} (h : exprPara p = true) : exprPara (trimTrailingNewline p) = true := by
  rcases trim_cases p with e | ⟨q, t, rfl, ⟨ht, e⟩ | ⟨ht, e⟩⟩
  · rw [e]; exact h
  · rw [e]
    unfold exprPara at h ⊢
    simp only [Bool.and_eq_true, List.all_append] at h ⊢
    exact ⟨h.1.1, noClash_left h.2⟩
  · rw [e]
    unfold exprPara at h ⊢
    simp only [Bool.and_eq_true, List.all_append, List.all_cons, List.all_nil, and_true] at h ⊢
    refine ⟨⟨h.1.1, ?_⟩, noClash_set ?_ h.2⟩
    · simpa [exprNode] using ht
    · intro z; cases z <;> rfl

theorem exprTrim_of {src : Str} {l : List Inl} (hl : ParaOk l) (h : Live src (paraToks l)) :
    exprTrim (trimTrailingNewline (paraDenote src l)) = true := by
  simp only [exprTrim, Bool.and_eq_true, bne_iff_ne, ne_eq]
  refine ⟨exprPara_trim (exprPara_of hl h), ?_⟩
  unfold trailingText
  split
  · rename_i s e
    exact trim_last e (normal_para hl h).2.1
  · simp

/-- No paragraph of a document is empty. -/
theorem Doc.para_ne {src : Str} : ∀ {d : Doc}, d.Dense → ∀ p, .paragraph p ∈ blocksOf (d.denote src) → p ≠ []
  | .nil, _, p, hn => by simp [Doc.denote, blocksOf] at hn
  | .term t d, h, p, hn => Doc.para_ne (d := d) h p hn
  | .block b d, h, p, hn => by
    rw [Doc.denote, blocksOf, blocksIn_leaf, List.mem_append, List.mem_singleton] at hn
    rcases hn with hn | hn
    · cases b with
      | para l =>
        simp only [Block.denote, YamdNode.paragraph.injEq] at hn
        rw [hn]
        have h1 : paraToks l ≠ [] := h.1
        intro e
        refine h1 ?_
        have : l = [] := by simpa [paraDenote] using e
        rw [this]; rfl
      | images l => match l, hn with
        | [], h3 => simp [Block.denote] at h3
        | [_], h3 => simp [Block.denote] at h3
        | _ :: _ :: _, h3 => simp [Block.denote] at h3
      | _ => simp [Block.denote, YamdNode.newCode] at hn
    · exact Doc.para_ne (d := d) h.2 p hn
  | .coll o m i s c d, h, p, hn => by
    rw [Doc.denote, blocksOf, blocksIn, List.mem_append, List.mem_cons] at hn
    rcases hn with (hn | hn) | hn
    · cases hn
    · exact Doc.para_ne (d := i) h.1 p hn
    · exact Doc.para_ne (d := d) h.2 p hn

/-- A block that is read is expressible. -/
theorem block_expr {src : Str} {b : Block} (h : b.Ok) (live : Live src b.toks) (hne : ∀ p, b.denote src = .paragraph p → p ≠ []) :
    exprBlock (b.denote src) = true := by
  have htr : ∀ p ∈ trimmedParagraphsIn (b.denote src), exprTrim p = true := by
    intro p hp
    have hp' : p ∈ paragraphsIn (b.denote src) := by
      revert hp
      cases b.denote src <;> simp [trimmedParagraphsIn, paragraphsIn]
    obtain ⟨l, e1, e2, ⟨e3, -⟩ | e3⟩ := block_paras h p hp'
    · exact absurd hp e3
    · subst e3
      exact exprTrim_of e1 (live.infix e2)
  cases b with
  | para l =>
    simp only [Block.denote, exprBlock, Bool.and_eq_true, Bool.not_eq_true']
    exact ⟨by simpa using hne _ rfl, exprPara_of h live⟩
  | heading m b =>
    obtain ⟨h0, h3, h4, -⟩ := h
    simp only [Block.denote, exprBlock, Bool.and_eq_true, decide_eq_true_eq, List.all_eq_true]
    refine ⟨⟨heading_level live.left h0, ?_⟩, ?_⟩
    · intro y hy
      obtain ⟨x, hx, rfl⟩ := List.mem_map.1 hy
      cases x with
      | text ts =>
        have : textOfToks src ts ≠ [] := live_text (live.right.mem hx) (h3 _ hx)
        simpa [HeadItem.denote, exprHead] using this
      | anchor l => rfl
    · refine noClash_map (src := src) (f := HeadItem.isText) (toks := HeadItem.toks) (ok := fun _ => True) ?_ (fun _ _ => trivial) h4 live.right
      intro x y _ _ _ hn
      cases x <;> cases y <;> first | rfl | exact absurd ⟨rfl, rfl⟩ hn
  | images l => match l, h with
    | [], h => exact absurd rfl h.1
    | [_], _ => rfl
    | _ :: _ :: _, _ => simp [Block.denote, exprBlock]
  | list i =>
    simp only [Block.denote, exprBlock, Bool.and_eq_true, List.all_eq_true]
    refine ⟨?_, fun p hp => htr p hp⟩
    cases i with
    | nil => exact absurd rfl h.2
    | cons k m p n q =>
      rw [levelsOk, levels_items h.1]
      rfl
  | highlight o m i b c =>
    simp only [Block.denote, exprBlock, List.all_eq_true]
    exact fun p hp => htr p hp
  | code o m b c =>
    simp only [Block.denote, newCode_eq, exprBlock, bne_iff_ne, ne_eq]
    exact trimEndNl_last _
  | thematic t => rfl
  | embed o l p r c => rfl

/-- Whatever is read is expressible. -/
theorem read_expressible (input : Str) : expressible ((topB (tokens input)).denote input) = true := by
  simp only [expressible, Bool.and_eq_true, List.all_eq_true]
  constructor
  · split
    · rfl
    · rename_i m hm
      simp only [Top.denote, Yamd.new, Option.map_eq_some_iff] at hm
      obtain ⟨x, -, rfl⟩ := hm
      simp [trimNl_idem]
  · intro n hn
    rcases node_cases input n hn with ⟨t, b, rfl⟩ | ⟨b, h1, h2, rfl⟩
    · rfl
    · exact block_expr h1 h2 (fun p e => Doc.para_ne (topB_dense _) p (e ▸ hn))

end Yamd.Round.SpellC
