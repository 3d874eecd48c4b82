import Verif.Proofs.BlankTop
import Verif.Props.Local

/-!
# C75: blank lines around and between blocks

Blank lines before the first block, behind the last one and between two blocks have no meaning of their own, as long
as there is a whole number of them: a blank line is two line breaks.
-/

namespace Yamd.Props

open Yamd Yamd.Spec Yamd.Ref

/-- **C75, behind.** Blank lines at the end of a text change nothing. Nothing is assumed about the blocks: an
unfinished code block, highlight or collapsible stays as it is. -/
theorem C75_blank_lines_behind {s : Str} (h : cleanEnd s = true) (n : Nat) :
    deserialize (s ++ blankLines n) = deserialize s := by
  rw [deserialize_eq, deserialize_eq, denote_blanks h]

/-- **C75, before.** Blank lines at the start of a text change nothing if it has no front matter. -/
theorem C75_blank_lines_before {s : Str} {y : Yamd} (hs : deserialize s = .ok y) (h : y.metadata = none) (n : Nat) :
    deserialize (blankLines n ++ s) = .ok y := by
  obtain ⟨m, b⟩ := y
  cases h
  induction n with
  | zero => exact hs
  | succ n ih =>
    have e : deserialize [] = .ok ⟨none, []⟩ := by decide +kernel
    exact C49_parts (a := []) (b := blankLines n ++ s) e ih (by decide) (by decide) (.inr (by decide)) rfl

/-- **C75, between.** Between two parts any number of blank lines means what one means (the conditions are those of
C49). -/
theorem C75_blank_lines_between {a b : Str} {y z : Yamd} (ha : deserialize a = .ok y) (hb : deserialize b = .ok z)
    (h1 : cleanEnd a = true) (h2 : settledBlocks y.body = true)
    (h3 : y.metadata.isSome = true ∨ startsDashes a = false) (h4 : z.metadata = none) (n : Nat) :
    deserialize (a ++ blankLines (n + 1) ++ b) = .ok ⟨y.metadata, y.body ++ z.body⟩ := by
  have e := C49_parts ha (C75_blank_lines_before hb h4 n) h1 h2 h3 h4
  rw [← List.append_assoc] at e
  rw [← e]
  simp [blankLines]

/-! ### Concrete cases -/

/-- Unfinished blocks of every kind, and front matter, at the end of a text. -/
example : cleanEnd (cs! "---\nt: 1\n---\n\n```\na") = true ∧ cleanEnd (cs! "{% a") = true ∧ cleanEnd (cs! "!! b\nc") = true
    ∧ cleanEnd (cs! "- a\n- {{b|c") = true
    ∧ deserialize (cs! "{% a\n\n\n\n") = .ok ⟨none, [.paragraph [.text (cs! "{% a")]]⟩
    ∧ deserialize (cs! "---\nt: 1\n---\n\n```\na\n\n") = .ok ⟨some (cs! "t: 1"), [.paragraph [.text (cs! "```\na")]]⟩ := by
  decide +kernel

example : deserialize (cs! "\n\n\n\n# a") = .ok ⟨none, [.heading 1 [.text (cs! "a")]]⟩ ∧
    deserialize (cs! "# a") = .ok ⟨none, [.heading 1 [.text (cs! "a")]]⟩ := by
  decide +kernel

/-- **C75, finding.** An odd number of line breaks is not a number of blank lines: the last one starts the next
block, which is a paragraph then, whatever mark follows; behind the text it makes a paragraph of its own. Blank
lines before front matter make it text. -/
theorem C75_odd_line_breaks :
    deserialize (cs! "a\n\n\nb") = .ok ⟨none, [.paragraph [.text (cs! "a")], .paragraph [.text (cs! "\nb")]]⟩ ∧
    deserialize (cs! "a\n\n\n# b") = .ok ⟨none, [.paragraph [.text (cs! "a")], .paragraph [.text (cs! "\n# b")]]⟩ ∧
    deserialize (cs! "a\n\n\n") = .ok ⟨none, [.paragraph [.text (cs! "a")], .paragraph [.text (cs! "\n")]]⟩ ∧
    deserialize (cs! "\n\n---\nt: 1\n---") = .ok ⟨none, [.paragraph [.text (cs! "---\nt: 1\n---")]]⟩ := by
  decide +kernel

/-- **C75, finding.** A blank line directly behind `{%` is not the same as none: the mark has to be followed by a
space or one line break, and two line breaks are one token. -/
theorem C75_blank_line_after_mark :
    deserialize (cs! "{%\n%}") = .ok ⟨none, [.collapsible [] []]⟩ ∧
    deserialize (cs! "{%\n\n%}") = .ok ⟨none, [.paragraph [.text (cs! "{%")], .paragraph [.text (cs! "%}")]]⟩ := by
  decide +kernel

end Yamd.Props
