import Verif.Proofs.Final.Top
import Verif.Spec.Final

/-!
# C73: a line break at the end of the text

Text files end with a line break. The theorem says exactly what that last line break changes
(`Spec/Final.lean`): the front matter never, the blocks only at the end.
-/

namespace Yamd.Props

open Yamd Yamd.Spec Yamd.Ref

/-- **C73.** Putting a line break behind a text that ends inside a line adds it to the last paragraph or
heading, makes it a paragraph of its own when there is no block before it or a thematic break, and changes
nothing else. -/
theorem C73_final_line_break {s : Str} {y : Yamd} (hs : deserialize s = .ok y) (h : cleanEnd s = true) :
    deserialize (s ++ cs! "\n") = .ok ⟨y.metadata, withBreak y.body⟩ := by
  by_cases hne : s = []
  · subst hne
    have e1 : deserialize [] = .ok ⟨none, []⟩ := by decide +kernel
    have e2 : deserialize ([] ++ cs! "\n") = .ok ⟨none, withBreak []⟩ := by decide +kernel
    rw [e1] at hs
    cases hs
    exact e2
  · rw [deserialize_eq] at hs ⊢
    cases hs
    exact congrArg Except.ok (denote_fin h hne)

/-- A block that takes no notice of a line break behind it. -/
def closedBlock : YamdNode → Bool
  | .paragraph _ | .heading _ _ | .thematicBreak => false
  | _ => true

/-- **C73, files.** A text that ends with a list, image, code block, highlight, embed or collapsible gives
the same document with and without the line break at the end of the file. -/
theorem C73_same_document {s : Str} {y : Yamd} {l : List YamdNode} {n : YamdNode} (hs : deserialize s = .ok y)
    (h : cleanEnd s = true) (hb : y.body = l ++ [n]) (hn : closedBlock n = true) :
    deserialize (s ++ cs! "\n") = .ok y := by
  rw [C73_final_line_break hs h, hb]
  have : ∀ l : List YamdNode, withBreak (l ++ [n]) = l ++ [n] := by
    intro l
    induction l with
    | nil => cases n <;> first | rfl | simp [closedBlock] at hn
    | cons m l ih =>
      rw [List.cons_append, withBreak_cons m (by simp), ih]
  rw [this, ← hb]

/-- **C73, paragraphs.** A text that ends with a paragraph: only that paragraph changes, and only at its
end, where the line break is now part of the text. -/
theorem C73_paragraph {s : Str} {y : Yamd} {l : List YamdNode} {p : Paragraph} (hs : deserialize s = .ok y)
    (h : cleanEnd s = true) (hb : y.body = l ++ [.paragraph p]) :
    ∃ q, deserialize (s ++ cs! "\n") = .ok ⟨y.metadata, l ++ [.paragraph q]⟩ ∧
      ((∃ p0 t, p = p0 ++ [.text t] ∧ q = p0 ++ [.text (t ++ cs! "\n")]) ∨ q = p ++ [.text (cs! "\n")]) := by
  refine ⟨breakInParagraph p, ?_, ?_⟩
  · rw [C73_final_line_break hs h, hb]
    congr 2
    clear hb hs
    induction l with
    | nil => rfl
    | cons m l ih => rw [List.cons_append, withBreak_cons m (by simp), ih, List.cons_append]
  · clear hb hs
    induction p with
    | nil => exact .inr rfl
    | cons x p ih =>
      cases p with
      | nil =>
        cases x with
        | text t => exact .inl ⟨[], t, rfl, rfl⟩
        | _ => exact .inr rfl
      | cons z p =>
        have e : breakInParagraph (x :: z :: p) = x :: breakInParagraph (z :: p) := by cases x <;> rfl
        rw [e]
        rcases ih with ⟨p0, t, h1, h2⟩ | h1
        · exact .inl ⟨x :: p0, t, by rw [h1]; rfl, by rw [h2]; rfl⟩
        · exact .inr (by rw [h1]; rfl)

/-! ### Concrete cases -/

/-- The hypotheses hold of texts with each kind of last block; what the line break does to them. -/
example :
    deserialize (cs! "# a\n\nb **c**") = .ok ⟨none, [.heading 1 [.text (cs! "a")], .paragraph [.text (cs! "b "), .bold [.text (cs! "c")]]]⟩
    ∧ cleanEnd (cs! "# a\n\nb **c**") = true
    ∧ deserialize (cs! "# a\n\nb **c**\n")
      = .ok ⟨none, [.heading 1 [.text (cs! "a")], .paragraph [.text (cs! "b "), .bold [.text (cs! "c")], .text (cs! "\n")]]⟩ := by
  decide +kernel

example : cleanEnd (cs! "---\nt: 1\n---\n\n- a\n - b") = true ∧
    deserialize (cs! "---\nt: 1\n---\n\n- a\n - b") = .ok ⟨some (cs! "t: 1"),
      [.list (.mk .Unordered 0 [.mk [.text (cs! "a")] (some (.mk .Unordered 1 [.mk [.text (cs! "b")] none]))])]⟩ ∧
    deserialize (cs! "---\nt: 1\n---\n\n- a\n - b\n") = .ok ⟨some (cs! "t: 1"),
      [.list (.mk .Unordered 0 [.mk [.text (cs! "a")] (some (.mk .Unordered 1 [.mk [.text (cs! "b")] none]))])]⟩ := by
  decide +kernel

example : cleanEnd (cs! "-----") = true ∧ deserialize (cs! "-----") = .ok ⟨none, [.thematicBreak]⟩ ∧
    deserialize (cs! "-----\n") = .ok ⟨none, [.thematicBreak, .paragraph [.text (cs! "\n")]]⟩ := by
  decide +kernel

/-- The conclusion of `C73_final_line_break`, for a given text. -/
def C73_holds (s : Str) : Bool :=
  match deserialize s with
  | .ok y => deserialize (s ++ cs! "\n") == .ok ⟨y.metadata, withBreak y.body⟩
  | _ => false

/-- None of the three parts of `cleanEnd` can be left out: a second line break makes a blank line, a
carriage return joins the line break, and a backslash escapes it. In each of these texts only one part
fails, and so does the conclusion. -/
theorem C73_conditions_needed :
    (C73_holds (cs! "a\n") = false ∧ dangling (cs! "a\n") = false) ∧
    (C73_holds (cs! "{%\na\n%}\r") = false ∧ dangling (cs! "{%\na\n%}\r") = false) ∧
    (C73_holds (cs! "```\na\n```\\") = false ∧ dangling (cs! "```\na\n```\\") = true) := by
  decide +kernel

end Yamd.Props
