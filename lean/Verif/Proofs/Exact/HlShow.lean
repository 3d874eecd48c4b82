import Verif.Proofs.Exact.ListShow
import Verif.Proofs.Exact.Close

/-!
# What `Display` writes for a highlight that was read
-/

namespace Yamd.Round

open Yamd Yamd.Spec Yamd.Lexer Yamd.Ref

/-- A paragraph of a highlight and the view of what is written for it. -/
structure HV (p : Paragraph) (v : V) : Prop where
  shown : hlPara p = render v
  valid : Valid v
  chars : v.map Prod.snd = (paraW p).map Prod.snd
  calm : NB v → NB (paraW p)
  start : ∀ {pat : Str}, pat ≠ [] → (∀ c ∈ pat, c = '\n' ∨ c = '\r') → free pat <+: paraW p → free pat <+: v
  keep : Keep (paraW p) v

theorem hv_of {p : Paragraph} (h : p.all solid = true) : ∃ v, HV p v := by
  obtain ⟨v, ev, -, hv⟩ := escapeLeading_view (v := mark2 '!' '!' false (paraW p))
  have hs : hlPara p = render v := by
    rw [hlPara, paraW_solid h,
      replace_two (a := '!') (b := '!') (fb := false) (rep := cs! "\\!!") (by decide) (by decide) rfl (paraW_bang p), ev]
  have key : ∀ {pat : Str}, (∀ c ∈ pat, c = '\n' ∨ c = '\r') → free pat <+: paraW p → free pat <+: mark2 '!' '!' false (paraW p) := by
    rintro pat hp ⟨w, e⟩
    rw [← e, mark2_free (fun hm => by rcases hp _ hm with h | h <;> simp at h) (fun hm => by rcases hp _ hm with h | h <;> simp at h)]
    exact ⟨_, rfl⟩
  refine ⟨v, hs, ?_, ?_, ?_, ?_, ?_⟩
  · rcases hv with rfl | ⟨rfl, -⟩
    · exact mark2_valid (paraW_valid p)
    · exact (more_mark1 _).valid (mark2_valid (paraW_valid p))
  · rcases hv with rfl | ⟨rfl, -⟩
    · exact mark2_chars _
    · rw [(more_mark1 _).chars, mark2_chars]
  · intro hnb
    rcases hv with rfl | ⟨rfl, c, hc, hh⟩
    · exact hnb.of_mark2 (by decide) (by decide)
    · exact (hnb.of_mark1 (c := c) (by rintro rfl; simp at hc) hh).of_mark2 (by decide) (by decide)
  · intro pat hne hp hf
    have h1 := key hp hf
    rcases hv with rfl | ⟨rfl, c, hc, hh⟩
    · exact h1
    · exfalso
      cases pat with
      | nil => exact hne rfl
      | cons x pat =>
        obtain ⟨w, e⟩ := h1
        rw [← e] at hh
        simp [free] at hh
        rw [← hh] at hc
        rcases hp x (by simp) with rfl | rfl <;> simp at hc
  · refine (keep_mark2 (a := '!') (b := '!') (fb := false) (by decide) (by decide) _).trans ?_
    rcases hv with rfl | ⟨rfl, c, hc, hh⟩
    · exact Keep.refl _
    · refine keep_mark1 (c := c) (fun hm => ?_) hh
      simp only [closeChars, List.mem_cons, List.not_mem_nil, or_false] at hm
      rcases hm with rfl | rfl | rfl <;> simp at hc

/-- The views of the paragraphs. -/
inductive HVs : List Paragraph → List V → Prop
  | nil : HVs [] []
  | cons {p l v w} : HV p v → HVs l w → HVs (p :: l) (v :: w)

theorem hvs_of : ∀ {ps : List Paragraph}, (∀ p ∈ ps, p.all solid = true) → ∃ vs, HVs ps vs
  | [], _ => ⟨[], .nil⟩
  | p :: ps, h => by
    obtain ⟨v, hv⟩ := hv_of (h p (by simp))
    obtain ⟨vs, hvs⟩ := hvs_of (ps := ps) (fun q hq => h q (by simp [hq]))
    exact ⟨v :: vs, .cons hv hvs⟩

theorem HVs.shown : ∀ {ps : List Paragraph} {vs : List V}, HVs ps vs → ps.map hlPara = vs.map render
  | _, _, .nil => rfl
  | _, _, .cons h hr => by rw [List.map_cons, List.map_cons, h.shown, hr.shown]

theorem HVs.valid : ∀ {ps : List Paragraph} {vs : List V}, HVs ps vs → Valid (joinV vs)
  | _, _, .nil => by simp [joinV, Valid]
  | _, _, .cons h .nil => h.valid
  | _, _, .cons h (.cons h2 hr) => h.valid.append ((valid_free (by decide)).append (HVs.valid (.cons h2 hr)))

theorem titleV_valid (title : Option Str) : Valid (titleV title) := by
  cases title with
  | none => simp [titleV, Valid]
  | some t => exact (valid_free (by decide)).append (lineV_valid t)

theorem iconV_valid (icon : Option Str) : Valid (iconV icon) := by
  cases icon with
  | none => simp [iconV, Valid]
  | some t => exact (valid_free (by decide)).append ((valid_free (by decide)).append ((lineV_valid t).append (valid_free (by decide))))

theorem HVs.all {title icon} {ps : List Paragraph} {vs : List V} (h : HVs ps vs) : Valid (hlV title icon vs) :=
  (valid_free (by decide)).append ((titleV_valid _).append ((valid_free (by decide)).append ((iconV_valid _).append
    ((h.valid.append (valid_free (by decide))).append (valid_free (by decide))))))

/-- The paragraphs of a highlight that was read. -/
theorem hparas_solid {src : Str} {l : List HPara} (ok : ∀ x ∈ l, x.Ok) (hl : Live src (l.flatMap HPara.toks)) :
    ∀ p ∈ l.map (fun h => ToYamd.trimTrailingNewline (paraDenote src h.para)), p.all solid = true := by
  intro p hp
  obtain ⟨x, hx, rfl⟩ := List.mem_map.1 hp
  obtain ⟨a, b, e⟩ := List.append_of_mem hx
  have hl' : Live src (paraToks x.para) := hl.infix ⟨a.flatMap HPara.toks ++ x.term, b.flatMap HPara.toks, by
    rw [e]; simp [HPara.toks]⟩
  have := para_solid (ok x hx).2 hl'
  exact (trim_solid this.1 this.2).1

end Yamd.Round
