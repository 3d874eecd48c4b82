import Verif.Proofs.Round.SpaceEnds
import Verif.Spec.RoundTrip

/-!
# When a paragraph reads as images
-/

namespace Yamd.Round

open Yamd Yamd.Spec Yamd.Lexer Yamd.Ref

theorem inl_head {stops x} (h : InlOk stops x) : ∃ t r, x.toks = t :: r ∧
    (isTextI x = true → x = .text (t :: r) ∧ ∀ u ∈ t :: r, u.kind ∉ inlineOpen) ∧
    (isTextI x = false → t.kind ∈ inlineOpen ∧ isBacktick3 t = false ∧ (t.kind = .LeftSquareBracket → ∃ l, x = .anchor l)) := by
  cases x with
  | text ts =>
    cases ts with
    | nil => exact absurd rfl h.1
    | cons t r => exact ⟨t, r, rfl, fun _ => ⟨rfl, fun u hu => (h.2 u hu).2⟩, by simp [isTextI]⟩
  | delim d =>
    refine ⟨d.opening, d.body ++ [d.closing], rfl, by simp [isTextI], fun _ => ?_⟩
    rcases h with h | h | h | h
    · have := tilde2_kind h.opening
      simp [inlineOpen, isBacktick3, this]
    · have := underscore_kind h.opening
      simp [inlineOpen, isBacktick3, this]
    · have := backtick1_kind h.opening
      simp [inlineOpen, isBacktick3, this]
    · have := star1_kind h.opening
      simp [inlineOpen, isBacktick3, this]
  | bold o items c =>
    refine ⟨o, items.flatMap BoldItem.toks ++ [c], rfl, by simp [isTextI], fun _ => ?_⟩
    have := star2_kind h.1
    simp [inlineOpen, isBacktick3, this]
  | anchor l =>
    refine ⟨l.title.opening, l.title.body ++ [l.title.closing] ++ l.dest.toks, by simp [Inl.toks, Link.toks, Delim.toks],
      by simp [isTextI], fun _ => ?_⟩
    have := leftBracket_kind (LinkOk.title h).opening
    simp [inlineOpen, isBacktick3, this]

/-- The tokens of image lines; `w` is what is left of a text. -/
inductive ImgToks : List Token → List Inl → Prop
  | done : ImgToks [] []
  | last (t a) (h : isBang1 t = true) : ImgToks [t] [.anchor a]
  | more (t a e w l) (h : isBang1 t = true) (he : isEol e = true) (hw : ImgToks w l) :
      ImgToks [t] (.anchor a :: .text (e :: w) :: l)

/-- The first construct is not a text. -/
def NoText : List Inl → Prop
  | [] => True
  | x :: _ => isTextI x = false

theorem eol_isEol {t : Token} : isEol t = true ↔ t.kind = .Eol := by simp [isEol]

theorem imagesB_shape {stops rest} (hr : Bd stops rest) : ∀ (n : Nat) {w : List Token} {l : List Inl}, l.length ≤ n →
    (∀ x ∈ l, InlOk (.Terminator :: stops) x) → NoPair isTextI l → NoText l →
    (∀ t ∈ w, quiet (.Terminator :: stops) t = true ∧ t.kind ∉ inlineOpen) →
    (imagesB (.Terminator :: stops) (w ++ (paraToks l ++ rest)) ≠ none ↔ ImgToks w l) := by
  have hcalm : ∀ {w : List Token} {l : List Inl}, (∀ x ∈ l, InlOk (.Terminator :: stops) x) →
      (∀ t ∈ w, quiet (.Terminator :: stops) t = true) → Calm (.Terminator :: stops) (w ++ (paraToks l ++ rest)) := by
    intro w l hl hw
    exact calm_append hw (calm_append (para_quiet hl) (hr.calm _))
  have hend : ∀ u, tokenIs u 0 isBang1 = false → stopAt (.Terminator :: stops) u = true → imagesB (.Terminator :: stops) u ≠ none := by
    intro u hb hs
    have : imageB (.Terminator :: stops) u = none := by
      cases u with
      | nil => rfl
      | cons t u => rw [imageB, if_neg (by simpa [tokenIs] using hb)]
    rw [imagesB_none this, if_pos hs]; simp
  have hfail : ∀ t u, isBang1 t = true → quiet (.Terminator :: stops) t = true → Calm (.Terminator :: stops) u →
      imageB (.Terminator :: stops) (t :: u) = none → imagesB (.Terminator :: stops) (t :: u) = none := by
    intro t u _ hq hc hn
    rw [imagesB_none hn, if_neg (by rw [quiet_stop hq hc]; simp)]
  have hrest : imagesB (.Terminator :: stops) rest ≠ none :=
    hend rest (hr.head (fun t ht => by rcases ht with e | e <;> simp [isBang1, e])) hr.stop
  intro n
  induction n with
  | zero =>
    intro w l hn hl np nt hw
    obtain rfl : l = [] := List.length_eq_zero_iff.1 (by omega)
    cases w with
    | nil =>
      simp only [paraToks, List.flatMap_nil, List.nil_append]
      exact ⟨fun _ => .done, fun _ => hrest⟩
    | cons t w =>
      have hq := hw t (by simp)
      refine ⟨fun h => absurd ?_ h, fun h => by cases h⟩
      have hi : imageB (.Terminator :: stops) (t :: (w ++ (paraToks [] ++ rest))) = none := by
        rw [imageB]
        split
        · have : linkB (.Terminator :: stops) (w ++ (paraToks [] ++ rest)) = none := by
            cases w with
            | nil =>
              simp only [paraToks, List.flatMap_nil, List.nil_append]
              cases hr with
              | nil => rfl
              | term t1 r hk1 => exact linkB_no (by rw [hk1]; decide)
              | close e c r hm he hc h0 => exact linkB_no (by rw [he]; decide)
            | cons u w =>
              refine linkB_no (fun hu => (hw u (by simp)).2 (by rw [hu]; simp [inlineOpen]))
          rw [this]
        · rfl
      rw [List.cons_append, imagesB_none hi, if_neg]
      rw [quiet_stop hq.1 (hcalm hl (fun u hu => (hw u (by simp [hu])).1))]
      simp
  | succ n ih =>
    intro w l hn hl np nt hw
    cases l with
    | nil => exact ih (by simp) hl np nt hw
    | cons x l =>
      have hx := hl x (by simp)
      have hl' : ∀ y ∈ l, InlOk (.Terminator :: stops) y := fun y hy => hl y (by simp [hy])
      obtain ⟨t0, r0, e0, -, hother⟩ := inl_head hx
      obtain ⟨hk0, hb0, ha0⟩ := hother nt
      have hq0 : quiet (.Terminator :: stops) t0 = true := inl_quiet hx t0 (by rw [e0]; simp)
      have hqr : ∀ u ∈ r0, quiet (.Terminator :: stops) u = true := fun u hu => inl_quiet hx u (by rw [e0]; simp [hu])
      have ep : paraToks (x :: l) ++ rest = t0 :: (r0 ++ (paraToks l ++ rest)) := by
        rw [paraToks, List.flatMap_cons, e0]; simp [paraToks]
      match w, hw with
      | [], _ =>
        refine ⟨fun h => absurd ?_ h, fun h => by cases h⟩
        have hnb : isBang1 t0 = false := by
          simp only [inlineOpen, List.mem_cons, List.not_mem_nil, or_false] at hk0
          rcases hk0 with e | e | e | e | e <;> simp [isBang1, e]
        rw [List.nil_append, ep, imagesB_none (by rw [imageB, if_neg (by simp [hnb])]), if_neg]
        rw [quiet_stop hq0 (hcalm hl' hqr)]; simp
      | t :: u :: w, hw =>
        refine ⟨fun h => absurd ?_ h, fun h => by cases h⟩
        have hq := hw t (by simp)
        have hi : imageB (.Terminator :: stops) (t :: (u :: w ++ (paraToks (x :: l) ++ rest))) = none := by
          rw [imageB]
          split
          · rw [List.cons_append, linkB_no (fun hu => (hw u (by simp)).2 (by rw [hu]; simp [inlineOpen]))]
          · rfl
        rw [List.cons_append, imagesB_none hi, if_neg]
        rw [quiet_stop hq.1 (hcalm hl (fun v hv => (hw v (by simp only [List.mem_cons] at hv ⊢; exact .inr hv)).1))]
        simp
      | [t], hw =>
        have hq := (hw t (by simp)).1
        rw [List.cons_append, List.nil_append]
        cases hb : isBang1 t with
        | false =>
          refine ⟨fun h => absurd ?_ h, fun h => by cases h <;> simp_all⟩
          rw [imagesB_none (by rw [imageB, if_neg (by simp [hb])]), if_neg]
          have := hcalm (w := []) hl (by simp)
          rw [quiet_stop hq (by simpa using this)]; simp
        | true =>
          -- the construct must be an anchor
          cases x with
          | anchor a =>
            have hlink : linkB (.Terminator :: stops) (paraToks (.anchor a :: l) ++ rest) = some (a, paraToks l ++ rest) := by
              have e : paraToks (.anchor a :: l) ++ rest = a.toks ++ (paraToks l ++ rest) := by
                rw [paraToks, List.flatMap_cons]; simp [paraToks, Inl.toks]
              rw [e]
              exact linkB_exec hx (by simpa using hcalm (w := []) hl' (by simp))
            have hcl : Calm (.Terminator :: stops) (paraToks (.anchor a :: l) ++ rest) := by
              simpa using hcalm (w := []) hl (by simp)
            cases l with
            | nil =>
              simp only [paraToks, List.flatMap_nil, List.nil_append] at hlink ⊢
              refine ⟨fun _ => .last t a hb, fun _ => ?_⟩
              cases hr with
              | nil =>
                rw [imagesB_some (i := ⟨t, a, []⟩) (r := [])]
                · simpa [Option.map_eq_none_iff] using hrest
                · rw [imageB, if_pos hb, hlink]; simp [tokenIs, stopAt]
              | term e r h =>
                have hstop : stopAt (.Terminator :: stops) (e :: r) = true := (Bd.term e r h : Bd stops _).stop
                rw [imagesB_some (i := ⟨t, a, []⟩) (r := e :: r)]
                · simpa [Option.map_eq_none_iff] using hrest
                · rw [imageB, if_pos hb, hlink]; simp [tokenIs, hstop, isEol, h]
              | close e c r hm he hc h0 =>
                have hstop : stopAt (.Terminator :: stops) (c :: r) = true := by
                  simp only [stopAt, List.any_eq_true]
                  exact ⟨.CollapsibleEnd, by simp [hm], by simp [stopHere, hc, h0]⟩
                rw [imagesB_some (i := ⟨t, a, [e]⟩) (r := c :: r)]
                · have := hend (c :: r) (by simp [tokenIs, isBang1, hc]) hstop
                  simpa [Option.map_eq_none_iff] using this
                · rw [imageB, if_pos hb, hlink]; simp [tokenIs, isEol, he]
            | cons y l =>
              have hy := hl' y (by simp)
              obtain ⟨t1, r1, e1, htext1, hother1⟩ := inl_head hy
              have hq1 : quiet (.Terminator :: stops) t1 = true := inl_quiet hy t1 (by rw [e1]; simp)
              have hqr1 : ∀ u ∈ r1, quiet (.Terminator :: stops) u = true := fun u hu => inl_quiet hy u (by rw [e1]; simp [hu])
              have hl2 : ∀ z ∈ l, InlOk (.Terminator :: stops) z := fun z hz => hl' z (by simp [hz])
              have ep1 : paraToks (y :: l) ++ rest = t1 :: (r1 ++ (paraToks l ++ rest)) := by
                rw [paraToks, List.flatMap_cons, e1]; simp [paraToks]
              rw [ep1] at hlink
              have hns : stopAt (.Terminator :: stops) (t1 :: (r1 ++ (paraToks l ++ rest))) = false :=
                quiet_stop hq1 (hcalm hl2 hqr1)
              cases he : isEol t1 with
              | false =>
                refine ⟨fun h => absurd (hfail t _ hb hq hcl ?_) h, fun h => ?_⟩
                · rw [imageB, if_pos hb, hlink]; simp [tokenIs, he, hns]
                · cases h with
                  | more _ _ e w l hb' he' hw' =>
                    simp only [Inl.toks, List.cons.injEq] at e1
                    rw [e1.1] at he'
                    rw [he] at he'; simp at he'
              | true =>
                have hty : isTextI y = true := by
                  cases hty : isTextI y with
                  | true => rfl
                  | false =>
                    have := (hother1 hty).1
                    rw [eol_isEol.1 he] at this
                    simp [inlineOpen] at this
                obtain ⟨rfl, hk1⟩ := htext1 hty
                have hnt : NoText l := by
                  cases l with
                  | nil => trivial
                  | cons z l =>
                    show isTextI z = false
                    cases hz : isTextI z with
                    | false => rfl
                    | true => exact absurd ⟨hty, hz⟩ np.2.1
                have hnp : NoPair isTextI l := by
                  cases l with
                  | nil => trivial
                  | cons z l => exact np.2.2
                have := ih (w := r1) (l := l) (by simp at hn; omega) hl2 hnp hnt
                  (fun u hu => ⟨hqr1 u hu, hk1 u (by simp [hu])⟩)
                rw [imagesB_some (i := ⟨t, a, [t1]⟩) (r := r1 ++ (paraToks l ++ rest))]
                · rw [ne_eq, Option.map_eq_none_iff, ← ne_eq, this]
                  exact ⟨fun h => .more t a t1 r1 l hb he h, fun h => by cases h; assumption⟩
                · rw [imageB, if_pos hb, hlink]; simp [tokenIs, he]
          | _ =>
            refine ⟨fun h => absurd ?_ h, fun h => by cases h⟩
            refine hfail t _ hb hq (by simpa using hcalm (w := []) hl (by simp)) ?_
            rw [imageB, if_pos hb, ep, linkB_no (fun hu => by obtain ⟨l, e⟩ := ha0 hu; cases e)]

/-- The texts of exclamation marks and line breaks. -/
theorem img_slices {src b ts v t} (hv : Valid v) (hs : SpV src b ts v) (ht : t ∈ ts) :
    (isBang1 t = true → sliceD src t = ['!']) ∧ (isEol t = true → sliceD src t = ['\n'] ∨ sliceD src t = ['\r', '\n']) := by
  obtain ⟨p, v1, v2, e, hp, hf, he⟩ := spv_mem hv hs ht
  constructor
  · intro hb
    simp only [isBang1, Bool.and_eq_true, decide_eq_true_eq] at hb
    have hk : runCharOf p.kind = some '!' := by rw [← hp.kind, hb.1]; rfl
    have h2 := run_len hf hk
    have hl := hp.len
    rw [hb.2, h2] at hl
    rw [hp.text]
    have h1 := kindText_run hk p.esc p.text
    rw [h1] at hf
    rw [List.eq_replicate_of_mem hf.2, ← hl]
    rfl
  · intro hb
    rw [eol_isEol, hp.kind] at hb
    rw [hp.text]
    rw [hb] at hf
    simpa [KindText, runCharOf, fixedText, IsBreak] using hf

theorem imgToks_text {src : Str} {w : List Token} {l : List Inl} (h : ImgToks w l) :
    (∀ t ∈ w ++ paraToks l, (isBang1 t = true → sliceD src t = ['!']) ∧
      (isEol t = true → sliceD src t = ['\n'] ∨ sliceD src t = ['\r', '\n'])) →
    (∀ e : Str, e = ['\n'] ∨ e = ['\r', '\n'] → moreImageLines (.text (e ++ textOfToks src w) :: paraDenote src l) = true) ∧
    (w ≠ [] → imageLines (.text (textOfToks src w) :: paraDenote src l) = true) := by
  induction h with
  | done =>
    intro _
    refine ⟨fun e he => ?_, fun h => absurd rfl h⟩
    rcases he with rfl | rfl <;> rfl
  | last t a hb =>
    intro hall
    have ht := (hall t (by simp)).1 hb
    have e1 : textOfToks src [t] = ['!'] := by simp [textOfToks, ht]
    rw [e1]
    refine ⟨fun e he => ?_, fun _ => rfl⟩
    rcases he with rfl | rfl <;> rfl
  | more t a e w l hb he hw ih =>
    intro hall
    have ht := (hall t (by simp)).1 hb
    have e1 : textOfToks src [t] = ['!'] := by simp [textOfToks, ht]
    have he' := (hall e (by simp [paraToks, Inl.toks])).2 he
    have h1 := (ih (fun u hu => hall u (by
      simp only [paraToks, List.flatMap_cons, Inl.toks, List.mem_append, List.mem_cons] at hu ⊢
      rcases hu with h | h <;> simp [h]))).1 _ he'
    have e2 : paraDenote src (.anchor a :: .text (e :: w) :: l)
        = .anchor (a.denote src) :: .text (sliceD src e ++ textOfToks src w) :: paraDenote src l := by
      simp [paraDenote, Inl.denote, textOfToks]
    rw [e1, e2]
    refine ⟨fun e he => ?_, fun _ => ?_⟩
    · rcases he with rfl | rfl <;> simpa [moreImageLines] using h1
    · simpa [imageLines] using h1

end Yamd.Round
