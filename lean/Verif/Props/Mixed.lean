import Verif.Proofs.MixedCr
import Verif.Props.Final
import Verif.Props.Crlf

/-!
# C78: line ends may be mixed

C74 compares a file with Unix line ends with the one where every line ends in the Windows way. Here each line may end
in its own way.
-/

namespace Yamd.Props

open Yamd Yamd.Spec Yamd.Ref

/-- **C78.** Take a text whose carriage returns all belong to line ends, Windows and Unix line ends mixed in any way.
Reading it, taking the carriage returns out of the texts of the document and dropping the line feeds that this leaves
at the end of front matter, code, items and highlight paragraphs is the same as reading the text with Unix line ends. -/
theorem C78_mixed_line_ends {s : Str} {y z : Yamd} (hs : crInBreaks s = true) (hz : deserialize s = .ok z)
    (hy : deserialize (noCr s) = .ok y) : settle (Yamd.mapText noCr z) = y := by
  rw [deserialize_eq] at hy hz
  cases hy
  cases hz
  exact denote_mixed hs

/-- **C78.** Two texts that differ in the kind of their line ends only: their documents are the same up to carriage
returns and the line feeds that are dropped. -/
theorem C78_same_up_to_line_ends {s t : Str} {y z : Yamd} (hs : crInBreaks s = true) (ht : crInBreaks t = true)
    (he : noCr s = noCr t) (hy : deserialize s = .ok y) (hz : deserialize t = .ok z) :
    settle (Yamd.mapText noCr y) = settle (Yamd.mapText noCr z) := by
  have e : deserialize (noCr s) = .ok ((topB (tokens (noCr s))).denote (noCr s)) := deserialize_eq _
  rw [C78_mixed_line_ends hs hy e, C78_mixed_line_ends ht hz (he ▸ e), he]

/-- A text without carriage returns may have its last line end written in the Windows way. -/
theorem C78_last_break {s : Str} (hr : '\r' ∉ s) (he : dangling s = false) : crInBreaks (s ++ cs! "\r\n") = true := by
  suffices ∀ n (s : Str), s.length ≤ n → '\r' ∉ s → dangling s = false → crInBreaks (s ++ cs! "\r\n") = true from
    this _ s (Nat.le_refl _) hr he
  intro n
  induction n with
  | zero =>
    intro s hl _ _
    rw [List.length_eq_zero_iff.1 (Nat.le_zero.1 hl)]
    decide
  | succ n ih =>
    intro s hl hr he
    match s, hl, hr, he with
    | [], _, _, _ => decide
    | [c], _, hr, he =>
      have h1 : c ≠ '\\' := by rintro rfl; exact absurd he (by decide)
      have h2 : c ≠ '\r' := by rintro rfl; simp at hr
      rw [List.cons_append, crInBreaks_cons h1 h2]; decide
    | c :: d :: r, hl, hr, he =>
      simp only [List.length_cons] at hl
      have h2 : c ≠ '\r' := by rintro rfl; simp at hr
      have h3 : d ≠ '\r' := by rintro rfl; simp at hr
      by_cases h1 : c = '\\'
      · subst h1
        have he : dangling r = false := by rw [dangling.eq_def] at he; simpa using he
        have := ih r (by omega) (fun h => hr (by simp [h])) he
        simp [crInBreaks, h3, this]
      · have he : dangling (d :: r) = false := by rw [dangling.eq_def] at he; simpa [h1] using he
        have := ih (d :: r) (by simp only [List.length_cons]; omega) (fun h => hr (List.mem_cons_of_mem _ h)) he
        rw [List.cons_append, crInBreaks_cons h1 h2]
        exact this

/-- **C73 for Windows.** A Windows line end behind a text without carriage returns that ends inside a line. -/
theorem C78_final_windows_line_break {s : Str} {y z : Yamd} (hs : deserialize s = .ok y) (hr : '\r' ∉ s)
    (h : cleanEnd s = true) (hz : deserialize (s ++ cs! "\r\n") = .ok z) :
    settle (Yamd.mapText noCr z) = ⟨y.metadata, withBreak y.body⟩ := by
  refine C78_mixed_line_ends (C78_last_break hr ?_) hz ?_
  · simp only [cleanEnd, Bool.and_eq_true, Bool.not_eq_true'] at h; exact h.2
  · rw [noCr_append, noCr_same hr]
    exact C73_final_line_break hs h

/-! ### Concrete cases -/

/-- A file with front matter, a paragraph, a list, code and a highlight, edited on both systems. -/
def mixedFile : Str :=
  cs! "---\r\nt: 1\n---\n\r\na\r\nb\n\n- c\r\n- d\n\r\n```x\r\ny\n```\r\n\n!! h\r\np\r\n!!"

example : crInBreaks mixedFile = true
    ∧ noCr mixedFile = cs! "---\nt: 1\n---\n\na\nb\n\n- c\n- d\n\n```x\ny\n```\n\n!! h\np\n!!"
    ∧ deserialize (noCr mixedFile) = .ok ⟨some (cs! "t: 1"),
      [.paragraph [.text (cs! "a\nb")],
       .list (.mk .Unordered 0 [.mk [.text (cs! "c")] none, .mk [.text (cs! "d")] none]),
       .code (cs! "x") (cs! "y"),
       .highlight (some (cs! "h")) none [[.text (cs! "p")]]]⟩
    ∧ deserialize mixedFile = .ok ⟨some (cs! "\r\nt: 1"),
      [.paragraph [.text (cs! "a\r\nb")],
       .list (.mk .Unordered 0 [.mk [.text (cs! "c\r")] none, .mk [.text (cs! "d")] none]),
       .code (cs! "x") (cs! "y"),
       .highlight (some (cs! "h")) none [[.text (cs! "p\r")]]]⟩ := by
  decide +kernel

/-- The conclusion of `C78_mixed_line_ends`, for a given text. -/
def C78_holds (s : Str) : Bool :=
  match deserialize s, deserialize (noCr s) with
  | .ok z, .ok y => settle (Yamd.mapText noCr z) == y
  | _, _ => false

/-- A carriage return on its own is a character like any other, and so is an escaped one. -/
theorem C78_condition_needed :
    C78_holds (cs! "*\r*a*") = false ∧ crInBreaks (cs! "*\r*a*") = false ∧
    C78_holds (cs! "a\\\r\n\nb") = false ∧ crInBreaks (cs! "a\\\r\n\nb") = false := by
  decide +kernel

/-- The last line of a Windows file. -/
example : '\r' ∉ cs! "# a\n\nb" ∧ cleanEnd (cs! "# a\n\nb") = true
    ∧ deserialize (cs! "# a\n\nb" ++ cs! "\r\n") = .ok ⟨none, [.heading 1 [.text (cs! "a")], .paragraph [.text (cs! "b\r\n")]]⟩
    ∧ deserialize (cs! "# a\n\nb") = .ok ⟨none, [.heading 1 [.text (cs! "a")], .paragraph [.text (cs! "b")]]⟩
    ∧ withBreak [.heading 1 [.text (cs! "a")], .paragraph [.text (cs! "b")]]
      = [.heading 1 [.text (cs! "a")], .paragraph [.text (cs! "b\n")]] := by
  decide +kernel

end Yamd.Props
