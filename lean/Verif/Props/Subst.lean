import Verif.Proofs.SubstDoc
import Verif.Props.RoundTrip

/-!
# Properties C45, C48: what the parse does not depend on

Two runs of the parser on related inputs. The vocabulary (`crlf`, `subst`, `Ordinary`, `mapText`) is in
`Spec/Subst.lean`.
-/

namespace Yamd.Props

open Yamd Yamd.Lexer Yamd.Spec Yamd.Ref

/-- **C45.** Replacing every line feed by a carriage return and a line feed changes no op kind, and
changes the text of every op only by the same replacement. -/
theorem C45_crlf_keeps_structure (input : Str) (hr : '\r' ∉ input) (he : noEscapedLf input = true) :
    ∃ ops ops', parse input = .ok ops ∧ parse (crlf input) = .ok ops' ∧
      ops'.map (fun op => (op.kind, opText (crlf input) op))
        = ops.map (fun op => (op.kind, crlf (opText input op))) := by
  refine ⟨_, _, parse_eq input, parse_eq (crlf input), ?_⟩
  exact subst_ops (g := crlf) rfl (fun a b => List.flatMap_append) (pieces_crlf hr he) (crlf_ok input)

/-- The hypotheses hold of a text with line feeds and backslashes. -/
example : '\r' ∉ cs! "# a\n\n- b\\*\n- c\n\n```x\ny\n```" ∧
    noEscapedLf (cs! "# a\n\n- b\\*\n- c\n\n```x\ny\n```") = true := by decide

/-- **C45, finding.** The side condition is needed: a backslash before a line feed escapes the line
feed, a backslash before a carriage return and a line feed escapes only the carriage return. -/
theorem C45_escaped_line_feed_differs :
    deserialize (cs! "a\\\n\nb") = .ok ⟨none, [.paragraph [.text (cs! "a\n\nb")]]⟩ ∧
    deserialize (crlf (cs! "a\\\n\nb"))
      = .ok ⟨none, [.paragraph [.text (cs! "a\r")], .paragraph [.text (cs! "b")]]⟩ := by decide +kernel

/-- **C45, finding.** In the document the carriage return before a trimmed line feed stays: the text of
a list item that is followed by another one ends with it. -/
theorem C45_carriage_return_stays_in_document :
    deserialize (crlf (cs! "- a\n- b")) = .ok ⟨none, [.list (.mk .Unordered 0
      [.mk [.text (cs! "a\r")] none, .mk [.text (cs! "b")] none])]⟩ := by decide +kernel

/-- **C48.** Only the syntax characters decide the structure. Replacing every other character by any
non-empty text without syntax characters gives the same document with the same replacement in its
texts. -/
theorem C48_ordinary_characters (φ : Char → Str) (h : Ordinary φ) (input : Str) :
    ∃ y, deserialize input = .ok y ∧
      deserialize (subst φ input) = .ok (Yamd.mapText (subst φ) y) :=
  ⟨_, deserialize_eq input, by rw [deserialize_eq, denote_subst_src h]⟩

/-- **C48**, for the op stream. -/
theorem C48_ordinary_characters_ops (φ : Char → Str) (h : Ordinary φ) (input : Str) :
    ∃ ops ops', parse input = .ok ops ∧ parse (subst φ input) = .ok ops' ∧
      ops'.map (fun op => (op.kind, opText (subst φ input) op))
        = ops.map (fun op => (op.kind, subst φ (opText input op))) := by
  refine ⟨_, _, parse_eq input, parse_eq (subst φ input), ?_⟩
  exact subst_ops (g := subst φ) rfl (fun a b => List.flatMap_append) (pieces_subst h input) (subst_ok h input)

/-- A substitution that meets the hypotheses: letters become longer non-ASCII texts. -/
def greek (c : Char) : Str := if c = 'a' then cs! "αβγ" else if c = 'b' then cs! "ж\t" else [c]

theorem greek_ordinary : Ordinary greek := by
  constructor
  · intro c hc
    have ha : c ≠ 'a' := by rintro rfl; exact absurd hc (by decide)
    have hb : c ≠ 'b' := by rintro rfl; exact absurd hc (by decide)
    simp [greek, ha, hb]
  · intro c hc
    unfold greek
    split
    · decide
    · split
      · decide
      · exact ⟨by simp, by simpa using hc⟩

/-- The two documents of a concrete source. -/
example : deserialize (cs! "# a b\n\n{{a|b}}") = .ok ⟨none, [.heading 1 [.text (cs! "a b")], .embed (cs! "a") (cs! "b")]⟩ ∧
    deserialize (subst greek (cs! "# a b\n\n{{a|b}}"))
      = .ok ⟨none, [.heading 1 [.text (cs! "αβγ ж\t")], .embed (cs! "αβγ") (cs! "ж\t")]⟩ := by decide +kernel

end Yamd.Props
