import Verif.Proofs.Spell.Range
import Verif.Props.RoundTrip

/-!
# C76: which documents can be written at all

`expressible` (`Spec/Expressible.lean`) lists the restrictions on a document that `deserialize` can return: what
C18 to C24 say and what follows from runs of one character being one token. The theorems say that the list is
complete: there is nothing else to know about the result, and a text for it can be given, `spell`.
-/

namespace Yamd.Props

open Yamd Yamd.Lexer Yamd.Spec Yamd.Ref Yamd.ToYamd Yamd.Round

/-- **C76.** A document is the result of reading some text exactly when it is expressible. -/
theorem C76_range (y : Yamd) : (∃ s, deserialize s = .ok y) ↔ expressible y = true := by
  refine ⟨fun ⟨s, h⟩ => ?_, fun h => ⟨_, SpellC.spell_reads h⟩⟩
  rw [deserialize_eq] at h
  rw [← Except.ok.inj h]
  exact SpellC.read_expressible s

/-- **C76.** The text with all content behind backslashes is one that reads as the document. -/
theorem C76_spelling (y : Yamd) (h : expressible y = true) : deserialize (spell y) = .ok y := SpellC.spell_reads h

/-- A document whose display is not read back, with markers, line breaks and closing fences in its texts. -/
def hardDocument : Yamd := ⟨some (cs! "a: ---"),
  [.highlight (some (cs! "a\nb")) (some []) [[], [.text (cs! "x\r\ny"), .bold [.text (cs! "**")]]],
   .collapsible (cs! "%}\n") [.list (.mk .Unordered 0 [.mk [.text (cs! "- a\n- b")] (some (.mk .Ordered 1 [.mk [] none]))])],
   .code (cs! "```") (cs! "\n```\n "), .embed (cs! "|") (cs! "}}\n\n"), .heading 6 []]⟩

example : expressible hardDocument = true ∧ ¬ RoundTrips hardDocument := by
  constructor
  · decide
  · unfold RoundTrips; decide +kernel

example : deserialize (cs! "- \\-\\ \\a\\\n\\b\n + \\c") =
    .ok (one (.list (.mk .Unordered 0 [.mk [.text (cs! "- a\nb")] (some (.mk .Ordered 1 [.mk [.text (cs! "c")] none]))]))) ∧
    spell (one (.list (.mk .Unordered 0 [.mk [.text (cs! "- a\nb")] (some (.mk .Ordered 1 [.mk [.text (cs! "c")] none]))]))) =
      cs! "- \\-\\ \\a\\\n\\b\n + \\c" := by decide +kernel

/-- What no text can produce: adjacent texts or adjacent bold, an empty paragraph, text or emphasis, a level 7 heading, a group
of one image, a nested list that is two levels deeper, code that ends with a line break. -/
example : ∀ y ∈ [one (.paragraph [.text (cs! "a"), .text (cs! "b")]), one (.paragraph [.bold [.text (cs! "a")], .emphasis (cs! "b")]),
    one (.paragraph []), one (.paragraph [.text []]), one (.paragraph [.emphasis []]), one (.heading 7 []), one (.images [⟨[], []⟩]),
    one (.list (.mk .Unordered 0 [.mk [] (some (.mk .Unordered 2 [.mk [] none]))])), one (.code [] (cs! "a\n")),
    ⟨some (cs! "\n"), []⟩], ¬ ∃ s, deserialize s = .ok y := by
  intro y hy
  rw [C76_range]
  revert hy
  revert y
  decide

/-- **C76.** Every text has the same document as the spelling of its document: there is a normal form for texts, and
two texts have the same document exactly when they have the same normal form. -/
theorem C76_normal_form (a b : Str) : ∃ x y, deserialize a = .ok x ∧ deserialize b = .ok y ∧ deserialize (spell x) = .ok x ∧
    (spell x = spell y ↔ x = y) := by
  have ha := SpellC.spell_reads (SpellC.read_expressible a)
  have hb := SpellC.spell_reads (SpellC.read_expressible b)
  refine ⟨_, _, deserialize_eq a, deserialize_eq b, ha, fun h => ?_, fun h => by rw [h]⟩
  rw [h, hb] at ha
  exact (Except.ok.inj ha).symm

/-- Texts with one document and one normal form; another text with another. -/
example : (deserialize (cs! "*a*\\b\n\n")).map spell = .ok (cs! "*\\a*\\b") ∧ (deserialize (cs! "*a*b")).map spell = .ok (cs! "*\\a*\\b") ∧
    (deserialize (cs! "*a* b")).map spell = .ok (cs! "*\\a*\\ \\b") := by decide +kernel

/-- **C76.** A document that is read back from its display is expressible. -/
theorem C76_displayed (y : Yamd) (h : RoundTrips y) : expressible y = true := (C76_range y).1 ⟨_, h⟩

example : RoundTrips (one (.paragraph [.text (cs! "a"), .italic (cs! "b")])) := by unfold RoundTrips; decide +kernel

end Yamd.Props
