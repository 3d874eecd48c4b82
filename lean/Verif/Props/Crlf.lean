import Verif.Proofs.Crlf

/-!
# C74: files with Windows line ends

C45 says that the operations of a file with Windows line ends are those of the same file with Unix line
ends. Here is what that means for documents, where line feeds are dropped in some places.
-/

namespace Yamd.Props

open Yamd Yamd.Spec Yamd.Ref

/-- **C74.** Read a file with Windows line ends, take the carriage returns out of the texts of its document
and drop the line feeds that this leaves at the end of front matter, code, items and highlight paragraphs: the
result is the document of the file with Unix line ends. -/
theorem C74_windows_line_ends {s : Str} {y z : Yamd} (hr : '\r' ∉ s) (he : noEscapedLf s = true)
    (hy : deserialize s = .ok y) (hz : deserialize (crlf s) = .ok z) : settle (Yamd.mapText noCr z) = y := by
  rw [deserialize_eq] at hy hz
  cases hy
  cases hz
  exact denote_noCr hr he

/-- **C74, both ways.** The two documents have one common origin: an untrimmed document, whose texts get the line
ends of the file before they are trimmed. -/
theorem C74_common_origin {s : Str} (hr : '\r' ∉ s) (he : noEscapedLf s = true) :
    ∃ x : Yamd, deserialize s = .ok (settle x) ∧ deserialize (crlf s) = .ok (settle (Yamd.mapText crlf x)) := by
  refine ⟨(topB (tokens s)).raw s, ?_, ?_⟩
  · rw [deserialize_eq, Top.settle_raw]
  · rw [deserialize_eq, denote_crlf hr he]

/-- So a Windows file is read as one document only: it decides the Unix document. -/
theorem C74_same_unix_document {s t : Str} {y z : Yamd} (hs : '\r' ∉ s ∧ noEscapedLf s = true)
    (ht : '\r' ∉ t ∧ noEscapedLf t = true) (hy : deserialize s = .ok y) (hz : deserialize t = .ok z)
    (h : deserialize (crlf s) = deserialize (crlf t)) : y = z := by
  have e : deserialize (crlf s) = .ok ((topB (tokens (crlf s))).denote (crlf s)) := deserialize_eq _
  rw [← C74_windows_line_ends hs.1 hs.2 hy e, ← C74_windows_line_ends ht.1 ht.2 hz (h ▸ e)]

/-! ### Concrete cases -/

/-- A file with front matter, a paragraph of two lines, a list and code: the two documents. -/
def winFile : Str := cs! "---\nt: 1\n---\n\na\nb\n\n- c\n- d\n\n```x\ny\n```"

example : '\r' ∉ winFile ∧ noEscapedLf winFile = true
    ∧ deserialize winFile = .ok ⟨some (cs! "t: 1"),
      [.paragraph [.text (cs! "a\nb")],
       .list (.mk .Unordered 0 [.mk [.text (cs! "c")] none, .mk [.text (cs! "d")] none]),
       .code (cs! "x") (cs! "y")]⟩
    ∧ deserialize (crlf winFile) = .ok ⟨some (cs! "\r\nt: 1\r"),
      [.paragraph [.text (cs! "a\r\nb")],
       .list (.mk .Unordered 0 [.mk [.text (cs! "c\r")] none, .mk [.text (cs! "d")] none]),
       .code (cs! "x") (cs! "y\r")]⟩ := by
  decide +kernel

/-- The conclusion of `C74_windows_line_ends`, for a given text. -/
def C74_holds (s : Str) : Bool :=
  match deserialize s, deserialize (crlf s) with
  | .ok y, .ok z => settle (Yamd.mapText noCr z) == y
  | _, _ => false

/-- Both conditions and the trimming are needed: an escaped line feed is a line feed again behind a carriage
return, a carriage return of the Unix file is lost, and a code text keeps the line feed in front of its last
carriage return. -/
theorem C74_conditions_needed :
    (C74_holds (cs! "a\\\n\nb") = false ∧ '\r' ∉ cs! "a\\\n\nb") ∧
    (C74_holds (cs! "a\rb") = false ∧ noEscapedLf (cs! "a\rb") = true) ∧
    (C74_holds (cs! "```\na\n\n```") = true ∧
      deserialize (crlf (cs! "```\na\n\n```")) = .ok ⟨none, [.code [] (cs! "a\r\n\r")]⟩ ∧
      deserialize (cs! "```\na\n\n```") = .ok ⟨none, [.code [] (cs! "a")]⟩) := by
  decide +kernel

end Yamd.Props
