import Verif.Proofs.Round.CodeBlock

/-!
# Paragraphs that swallow the line break after them

Paragraphs of highlights and the texts of list items end at a stop condition that is met only after a line
break; the parser reads the line break as text and drops it later.
-/

namespace Yamd.Round

open Yamd Yamd.Spec Yamd.Lexer Yamd.Ref

/-- The paragraph with a line break read as text. -/
def appendNl : Paragraph → Paragraph
  | [] => [.text ['\n']]
  | [.text s] => [.text (s ++ ['\n'])]
  | n :: r => n :: appendNl r

theorem appendNl_cons {n m : ParagraphNode} {r : Paragraph} : appendNl (n :: m :: r) = n :: appendNl (m :: r) := by
  cases n <;> rfl

theorem appendNl_last : ∀ p : Paragraph, (∃ q s, p = q ++ [.text s] ∧ appendNl p = q ++ [.text (s ++ ['\n'])]) ∨
    ((∀ q s, p ≠ q ++ [.text s]) ∧ appendNl p = p ++ [.text ['\n']])
  | [] => .inr ⟨by simp, rfl⟩
  | [n] => by
    cases n with
    | text s => exact .inl ⟨[], s, rfl, rfl⟩
    | _ =>
      refine .inr ⟨?_, rfl⟩
      intro q s
      cases q with
      | nil => simp
      | cons x q => simp
  | n :: m :: r => by
    rw [appendNl_cons]
    rcases appendNl_last (m :: r) with ⟨q, s, e1, e2⟩ | ⟨h1, e2⟩
    · exact .inl ⟨n :: q, s, by rw [e1]; rfl, by rw [e2]; rfl⟩
    · refine .inr ⟨?_, by rw [e2]; rfl⟩
      intro q s e
      cases q with
      | nil => simp at e
      | cons x q =>
        simp only [List.cons_append, List.cons.injEq] at e
        exact h1 q s e.2

/-- A line break at the end of the last text is dropped. -/
theorem trim_appendNl {p : Paragraph} (h : endsLine (trailingText p) = false) (hne : ∀ s, ParagraphNode.text s ∈ p → s ≠ []) :
    ToYamd.trimTrailingNewline (appendNl p) = p := by
  rcases appendNl_last p with ⟨q, s, rfl, e2⟩ | ⟨h1, e2⟩
  · rw [e2]
    have hs : s ≠ [] := hne s (by simp)
    simp only [trailingText, List.getLast?_append, List.getLast?_singleton, Option.some_or, endsLine, Bool.or_eq_false_iff,
      beq_eq_false_iff_ne, ne_eq] at h
    unfold ToYamd.trimTrailingNewline
    simp only [List.getLast?_append, List.getLast?_singleton, Option.some_or, List.dropLast_concat]
    rw [trimEnd_nl h.1, if_neg hs]
  · rw [e2]
    unfold ToYamd.trimTrailingNewline
    simp only [List.getLast?_append, List.getLast?_singleton, Option.some_or, List.dropLast_concat]
    rw [if_pos (by decide)]

/-- Nothing to drop. -/
theorem trim_same {p : Paragraph} (h : endsLine (trailingText p) = false) (hne : ∀ s, ParagraphNode.text s ∈ p → s ≠ []) :
    ToYamd.trimTrailingNewline p = p := by
  unfold ToYamd.trimTrailingNewline
  split
  · rename_i t e
    have hs : t ≠ [] := hne t (List.mem_of_getLast? e)
    rw [trailingText, e] at h
    simp only [endsLine, Bool.or_eq_false_iff, beq_eq_false_iff_ne, ne_eq] at h
    simp only [trimEnd_id h.1, if_neg hs]
    obtain ⟨q, rfl⟩ := List.getLast?_eq_some_iff.1 e
    simp
  · rfl

/-! ### Views -/

theorem noInf_end {pat : Str} {c : Char} {v : V} (h : NoInf (pat ++ [c, '\n']) v) (hc : v.getLast? ≠ some (false, c)) :
    NoInf (pat ++ [c, '\n']) (v ++ free ['\n']) := by
  rintro ⟨a, b, e⟩
  rcases List.eq_nil_or_concat b with rfl | ⟨b', y, rfl⟩
  · rw [List.append_nil] at e
    have e1 : a ++ free (pat ++ [c, '\n']) = (a ++ (free pat ++ [(false, c)])) ++ [(false, '\n')] := by simp [free]
    rw [e1] at e
    have := List.append_inj_left' (show _ = v ++ [(false, '\n')] from e) rfl
    apply hc
    rw [← this]
    simp
  · rw [List.concat_eq_append, ← List.append_assoc] at e
    have := List.append_inj_left' e (by simp [free])
    exact h ⟨a, b', this⟩

theorem vq_nl {b : Bool} {v : V} {st : Stop} (hc : CleanEnd v) (h : vq b v st) : vq b (v ++ free ['\n']) st := by
  cases st with
  | Terminator => exact ⟨noInf_end (pat := []) h.1 hc.1, noInf_end (pat := ['\n']) h.2 hc.2⟩
  | CollapsibleEnd => exact noStart_nl h (by decide) (by decide)
  | HighlightEnd => exact noStart_nl h (by decide) (by decide)
  | ListBoundary l k =>
    exact ⟨noStart_nl h.1 (by decide) (by decide), noStart_nl h.2.1 (by decide) (by decide), noStart_nl h.2.2 (by decide) (by decide)⟩

theorem body_nl {stops b S s w} (h : Body stops b S s w) (hc : CleanEnd w) (hS : '\n' ∉ S) :
    Body stops b S (s ++ ['\n']) (w ++ free ['\n']) := by
  refine ⟨h.valid.append (valid_free (by decide)), by rw [List.map_append, h.chars]; rfl, ?_, fun st hst => vq_nl hc (h.vq st hst)⟩
  intro c hc1 hm
  rcases List.mem_append.1 hm with h1 | h1
  · exact h.notFree c hc1 h1
  · simp only [free, List.map_cons, List.map_nil, List.mem_singleton, Prod.mk.injEq, true_and] at h1
    exact hS (h1 ▸ hc1)

theorem cleanEnd_nil : CleanEnd [] := by simp [CleanEnd]

theorem CleanEnd.right {v w : V} (h : CleanEnd (v ++ w)) : CleanEnd w := by
  by_cases hw : w = []
  · rw [hw]; exact cleanEnd_nil
  · unfold CleanEnd at h ⊢
    rwa [last_append hw] at h

theorem chain_appendNl : ∀ {p : Paragraph}, Chain nodeShape p → Chain nodeShape (appendNl p)
  | [], _ => trivial
  | [n], _ => by
    cases n with
    | text s => trivial
    | _ => exact ⟨rfl, trivial⟩
  | n :: m :: r, h => by
    have ih := chain_appendNl h.2
    rw [appendNl_cons]
    cases r with
    | nil =>
      cases m with
      | text s => exact ⟨h.1, ih⟩
      | _ => exact ⟨h.1, ih⟩
    | cons k r =>
      rw [appendNl_cons] at ih ⊢
      exact ⟨h.1, ih⟩

/-- The view of the paragraph with the line break. -/
theorem para_nl {stops} : ∀ {p : Paragraph} {b : Bool} {v : V}, ParaV stops b p v → CleanEnd v →
    ParaV stops b (appendNl p) (v ++ free ['\n'])
  | [], b, v, h, hc => by
    have : v = [] := h
    subst this
    exact ⟨free ['\n'], [], rfl, ⟨by simp, body_nl Body.nil cleanEnd_nil (by decide)⟩, rfl⟩
  | [n], b, v, h, hc => by
    obtain ⟨v1, v2, rfl, h1, h2⟩ := h
    have : v2 = [] := h2
    subst this
    rw [List.append_nil] at hc ⊢
    have other : ParaV stops b [n, .text ['\n']] (v1 ++ free ['\n']) :=
      ⟨v1, free ['\n'], rfl, h1, free ['\n'], [], rfl, ⟨by simp, body_nl Body.nil cleanEnd_nil (by decide)⟩, rfl⟩
    cases n with
    | text s => exact ⟨v1 ++ free ['\n'], [], by simp, ⟨by simp, body_nl h1.2 hc (by decide)⟩, rfl⟩
    | _ => exact other
  | n :: m :: r, b, v, h, hc => by
    obtain ⟨v1, v2, rfl, h1, h2⟩ := h
    rw [appendNl_cons, List.append_assoc]
    exact ⟨v1, _, rfl, h1, para_nl h2 hc.right⟩

theorem text_ne {pl : Place} {p : Paragraph} (h : p.all (safeNode pl) = true) : ∀ s, ParagraphNode.text s ∈ p → s ≠ [] := by
  intro s hs
  have := List.all_eq_true.1 h _ hs
  simp only [safeNode, safeText, Bool.and_eq_true] at this
  simpa using this.1

end Yamd.Round
