import Verif.Proofs.Exact.HlShow
import Verif.Proofs.Exact.DocPara
import Verif.Proofs.Exact.ListText

/-!
# The paragraphs of a highlight that was read back
-/

namespace Yamd.Round

open Yamd Yamd.Spec Yamd.Lexer Yamd.Ref

/-- The condition on a paragraph of a highlight. -/
def plainH (p : Paragraph) : Bool := !p.isEmpty && p.all noBlankText && (trailingText p).getLast? != some '\r'

/-- One paragraph: what was read is its view and `n` line feeds. -/
theorem hpara_step {c : Bool} {src : Str} {l : List Inl} {R : List Token} {p : Paragraph} {v w : V} (ok : ParaOk l) (hl : Live src (paraToks l))
    (hd : ToYamd.trimTrailingNewline (paraDenote src l) = p) (hv : HV p v) (hp : plainH p = true) (hw : Valid w) (hend : c = true → NoEnd (paraToks l))
    (hs : SpV src true (paraToks l ++ R) (v ++ w)) :
    ∃ n, List.replicate n '\n' ++ textOfToks src R = w.map Prod.snd ∧
      ∀ a, w = free (List.replicate n '\n') ++ a → safeHighlightParagraph ⟨c⟩ p = true ∧
        SpV src (flag true (v ++ free (List.replicate n '\n'))) R a ∧ NB (v ++ free (List.replicate n '\n')) ∧
        ∀ b, a = free ['\n'] ++ b → CleanEnd (v ++ free (List.replicate n '\n')) := by
  obtain ⟨s1, s2⟩ := para_solid ok hl
  obtain ⟨t1, t2, t3, n, t4⟩ := trim_solid s1 s2
  rw [hd] at t1 t2 t3 t4
  have htext := para_text ok.1 hl
  rw [t4, ← hv.chars] at htext
  have hall := spv_text (hv.valid.append hw) hs
  rw [text_append, htext, List.map_append, List.append_assoc] at hall
  have hall := List.append_cancel_left hall
  refine ⟨n, hall, ?_⟩
  rintro a rfl
  have hs' : SpV src true (paraToks l ++ R) ((v ++ free (List.replicate n '\n')) ++ a) := by simpa using hs
  have hv' : Valid ((v ++ free (List.replicate n '\n')) ++ a) := by simpa using hv.valid.append hw
  obtain ⟨g1, g2, g3⟩ := spv_take hv' hs' (by rw [htext]; simp [free])
  have hnb : NB (v ++ free (List.replicate n '\n')) := vq_of_noTerm hv'.left g1 ok.2.2
  refine ⟨?_, g2, hnb, ?_⟩
  · have hin : safeInline ⟨c⟩ p = true := by
      refine inline_close ?_ (fun hc hcl => spv_close hv'.left g1 (hend hc) ((hcl.keep hv.keep).infix ⟨[], free (List.replicate n '\n'), by simp⟩))
      unfold safeInline
      rw [calm_solid t1 (hv.calm (hnb.infix ⟨[], free (List.replicate n '\n'), by simp⟩)).para, t2]; rfl
    simp only [plainH, Bool.and_eq_true, bne_iff_ne, ne_eq] at hp
    unfold safeHighlightParagraph
    rw [hp.1.1, hin]
    have h1 : ((trailingText p).getLast? == some '\n') = false := by simpa using t3
    have h2 : ((trailingText p).getLast? == some '\r') = false := by simpa using hp.2
    rw [endsLine, h1, h2]; rfl
  · rintro b rfl
    exact cut_clean hv'.left g1 ok.2.2 g3

/-- The paragraphs are safe. -/
theorem hparas_exact {f : Bool} {src : Str} {c : Token} {rest : List Token} {X : V} (hc : isTwoBangs c = true) (hX : Valid X) :
    ∀ {h : HPara} {hs : List HPara} {ps : List Paragraph} {vs : List V}, HVs ps vs →
      (h :: hs).map (fun h => ToYamd.trimTrailingNewline (paraDenote src h.para)) = ps → (∀ x ∈ h :: hs, x.Ok) → (∀ x ∈ hs, x.term ≠ []) →
      (f = true → ∀ x ∈ h :: hs, NoEnd (paraToks x.para)) →
      Live src (paraToks h.para ++ (hs.flatMap HPara.toks ++ c :: rest)) →
      SpV src true (paraToks h.para ++ (hs.flatMap HPara.toks ++ c :: rest)) (hlTail vs ++ X) → ps.all plainH = true →
      ps.all (safeHighlightParagraph ⟨f⟩) = true
  | h, [], _, _, .cons (v := v) hv .nil, hd, hok, _, hend, hl, hs, hp => by
    simp only [List.map_cons, List.map_nil, List.cons.injEq, and_true] at hd
    simp only [List.all_cons, List.all_nil, Bool.and_true] at hp ⊢
    have e : hlTail [v] ++ X = v ++ (free ['\n'] ++ (free ['!', '!'] ++ X)) := by simp [hlTail, joinV]
    rw [e] at hs
    have hval : Valid (free ['\n'] ++ (free ['!', '!'] ++ X)) := (valid_free (by decide)).append ((valid_free (by decide)).append hX)
    obtain ⟨n, h1, h2⟩ := hpara_step (hok h (by simp)).2 hl.left hd hv hp hval (fun hf => hend hf h (by simp)) hs
    have hck : c.kind = .Bang ∧ c.len = 2 := by simp [isTwoBangs] at hc; exact ⟨hc.1.1, hc.2⟩
    have hcs : sliceD src c = ['!', '!'] := run_slice hl (t := c) (by simp) (k := .Bang) (n := 2) (by simp [hck]) rfl
    simp only [List.flatMap_nil, List.nil_append, text_cons, hcs] at h1
    match n, h1, h2 with
    | 0, h1, _ => simp [free] at h1
    | 1, _, h2 => exact (h2 _ rfl).1
    | n + 2, h1, _ => simp [free, List.replicate_succ] at h1
  | h, h2 :: hs, _, _, .cons (v := v) hv (.cons (v := v2) (w := vs) hv2 hvs), hd, hok, ht, hend, hl, hs', hp => by
    simp only [List.map_cons, List.cons.injEq] at hd
    rw [List.all_cons, Bool.and_eq_true] at hp ⊢
    have e : hlTail (v :: v2 :: vs) ++ X = v ++ (free ['\n', '\n'] ++ (hlTail (v2 :: vs) ++ X)) := by simp [hlTail, joinV]
    rw [e] at hs'
    have hval2 : Valid (hlTail (v2 :: vs) ++ X) :=
      (((HVs.cons hv2 hvs).valid.append (valid_free (by decide))).append (valid_free (by decide))).append hX
    obtain ⟨n, h1, h3⟩ := hpara_step (hok h (by simp)).2 hl.left hd.1 hv hp.1 ((valid_free (by decide)).append hval2) (fun hf => hend hf h (by simp)) hs'
    obtain ⟨T, hT, hTk⟩ : ∃ T, h2.term = [T] ∧ isTerminator T = true := by
      rcases (hok h2 (by simp)).1 with e | e
      · exact absurd e (ht h2 (by simp))
      · exact e
    have h0 : n = 0 := by
      match n, h1, h3 with
      | 0, _, _ => rfl
      | 1, _, h3 =>
        exfalso
        obtain ⟨-, -, -, h4⟩ := h3 (free ['\n'] ++ (hlTail (v2 :: vs) ++ X)) (by simp [free])
        exact (h4 _ rfl).1 (by simp [free])
      | n + 2, h1, h3 =>
        exfalso
        obtain ⟨m, a, -, hle, hm⟩ : ∃ m a, 2 ≤ m ∧ m ≤ n + 2 ∧ (free ['\n', '\n'] ++ (hlTail (v2 :: vs) ++ X) : V) = free ['\n', '\n'] ++ a :=
          ⟨2, _, Nat.le_refl _, by omega, rfl⟩
        obtain ⟨v1, w1, e1, g1, -, -⟩ := spv_cut (hv.valid.append ((valid_free (by decide)).append hval2)) hs'
        have hv1 : Valid v1 := by
          have := hv.valid.append ((valid_free (by decide : '\\' ∉ ['\n', '\n'])).append hval2)
          rw [e1] at this; exact this.left
        have htx := spv_text hv1 g1
        have hnb := vq_of_noTerm hv1 g1 (hok h (by simp)).2.2.2
        have hlen : v.length + (n + 2) ≤ v1.length := by
          have a1 := congrArg List.length h1
          have a2 := congrArg List.length (congrArg (List.map Prod.snd) e1)
          have a3 := congrArg List.length (spv_text (hv.valid.append ((valid_free (by decide)).append hval2)) hs')
          have a4 := congrArg List.length htx
          rw [text_append] at a3
          simp only [List.length_append, List.length_map, List.length_replicate] at a1 a2 a3 a4
          omega
        have hpre : v ++ free ['\n', '\n'] <+: v1 := by
          refine List.prefix_of_prefix_length_le ⟨hlTail (v2 :: vs) ++ X, by simp⟩ (⟨w1, e1.symm⟩ : v1 <+: v ++ (free ['\n', '\n'] ++ (hlTail (v2 :: vs) ++ X))) ?_
          simp [free]; omega
        obtain ⟨z, rfl⟩ := hpre
        exact hnb.1 ⟨v, z, by simp⟩
    subst h0
    obtain ⟨g1, g2, -, -⟩ := h3 _ rfl
    refine ⟨g1, ?_⟩
    obtain ⟨t3, t4, e4, s3, s4⟩ := spv_split (valid_free (by decide)) (join_after_blank _) g2
    obtain ⟨b, rfl, sb⟩ := spv_one (p := ⟨false, .Terminator, ['\n', '\n']⟩) rfl s3
    have hfl : ∀ g, flag g (free ['\n', '\n']) = true := fun _ => rfl
    rw [hfl] at s4
    have e5 : paraToks h2.para ++ (hs.flatMap HPara.toks ++ c :: rest) = t4 := by
      simp only [List.flatMap_cons, HPara.toks, hT, List.append_assoc, List.singleton_append] at e4
      exact (List.cons.inj e4).2
    refine hparas_exact hc hX (.cons hv2 hvs) (h := h2) (hs := hs) (by rw [List.map_cons, hd.2.1, hd.2.2]) (fun x hx => hok x (by simp [List.mem_cons.1 hx]))
      (fun x hx => ht x (by simp [hx])) (fun hf x hx => hend hf x (by simp [List.mem_cons.1 hx])) ?_ (by rw [e5]; exact s4) hp.2
    refine hl.infix ⟨paraToks h.para ++ h2.term, [], ?_⟩
    simp [HPara.toks]

end Yamd.Round
