import Verif.Proofs.Exact.Invert

/-!
# A paragraph that is read back is safe
-/

namespace Yamd.Round

open Yamd Yamd.Spec Yamd.Lexer Yamd.Ref

theorem placed_out : Placed ⟨false⟩ [.Terminator] := by
  intro st hst; simp at hst; exact .inl hst

theorem bodyV_valid {S : List Char} (h : '\\' ∈ S) (s : Str) : Valid (bodyV S s) := mark2_valid (markSet_valid h s)

theorem boldItemV_valid (n : BoldNode) : Valid (boldItemV n) := by
  cases n with
  | text s => exact bodyV_valid (by simp) s
  | italic s => exact (valid_free (by decide)).append ((mark2_valid (bodyV_valid (by simp) s)).append (valid_free (by decide)))
  | strikethrough s => exact (valid_free (by decide)).append ((mark2_valid (bodyV_valid (by simp) s)).append (valid_free (by decide)))

theorem nodeW_valid (n : ParagraphNode) : Valid (nodeW n) := by
  cases n with
  | text s => exact textV_valid s
  | italic s => exact valid_delim (by decide) (bodyV_valid (by simp) s)
  | strikethrough s => exact valid_delim (by decide) (bodyV_valid (by simp) s)
  | emphasis s => exact valid_delim (by decide) (bodyV_valid (by simp) s)
  | codeSpan s => exact valid_delim (by decide) (bodyV_valid (by simp) s)
  | anchor a => exact (link_shape (bodyV_valid (by simp) _) (bodyV_valid (by simp) _)).1
  | bold l =>
    refine valid_delim (by decide) ?_
    intro hm
    obtain ⟨n, hn, hx⟩ := List.mem_flatMap.1 hm
    exact boldItemV_valid n hx

theorem paraW_valid (p : Paragraph) : Valid (paraW p) := by
  intro hm
  obtain ⟨n, hn, hx⟩ := List.mem_flatMap.1 hm
  exact nodeW_valid n hx

/-- The inline conditions. -/
theorem para_inline {p : Paragraph} (h : deserialize (escapeLeadingBlockMarker (displayParagraph p)) = .ok ⟨none, [.paragraph p]⟩) :
    p ≠ [] ∧ safeInline ⟨false⟩ p = true ∧
      ∃ l D, (docB [] (tokens (escapeLeadingBlockMarker (displayParagraph p)))).1 = .block (.para l) D := by
  generalize hd : escapeLeadingBlockMarker (displayParagraph p) = d at h ⊢
  obtain ⟨t1, b, t2, D, hf, hl, b1, b2, ok, den, hD⟩ := reads_one (fun _ _ => by simp) h
  have hp : p ≠ [] := by
    rintro rfl
    have : d = [] := by rw [← hd]; rfl
    subst this
    revert h; decide +kernel
  obtain ⟨l, rfl, hden⟩ : ∃ l, b = .para l ∧ paraDenote d l = p := by
    cases b with
    | para l =>
      simp only [Block.denote, YamdNode.paragraph.injEq] at den
      exact ⟨l, rfl, den⟩
    | images l =>
      match l with
      | [] => simp [Block.denote] at den
      | [i] => simp [Block.denote] at den
      | i :: j :: l => simp [Block.denote] at den
    | _ => simp [Block.denote, YamdNode.newCode] at den
  have okp : ParaOk l := ok
  have hll : Live d (paraToks l) := hl.infix ⟨t1, t2, by simp [Block.toks]⟩
  obtain ⟨s1, s2⟩ := para_solid okp hll
  rw [hden] at s1 s2
  have htext := para_text okp.1 hll
  rw [hden] at htext
  obtain ⟨v, ev, -, hv⟩ := escapeLeading_view (v := paraW p)
  rw [← paraW_solid s1, hd] at ev
  have hvalid : Valid v := by
    rcases hv with rfl | ⟨rfl, -⟩
    · exact paraW_valid p
    · exact (more_mark1 _).valid (paraW_valid p)
  have hch : v.map Prod.snd = (paraW p).map Prod.snd := by
    rcases hv with rfl | ⟨rfl, c, -, hc⟩
    · rfl
    · cases hq : paraW p with
      | nil => rfl
      | cons x r => simp [mark1]
  have hu : unescape d = v.map Prod.snd := by rw [ev, unescape_render hvalid]
  obtain ⟨rfl, rfl⟩ := no_blanks hf hl (by rw [hu, hch, ← htext]; rfl)
  have hnt : NoTerm (tokens d) := by
    refine hf.noTerm ?_
    simp only [List.nil_append, List.append_nil]
    exact okp.2.2
  have hs : SpV d true (tokens d) v := by
    unfold SpV; rw [← ev]; exact sp_tokens d
  have hnb : NB v := vq_of_noTerm hvalid hs hnt
  have hnb' : NB (paraW p) := by
    rcases hv with rfl | ⟨rfl, c, hc, hh⟩
    · exact hnb
    · exact hnb.of_mark1 (c := c) (by rintro rfl; simp at hc) hh
  refine ⟨hp, ?_, l, D, hD rfl⟩
  unfold safeInline
  rw [calm_solid s1 hnb'.para, s2]; rfl

end Yamd.Round
