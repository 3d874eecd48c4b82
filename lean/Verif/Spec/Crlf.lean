import Verif.Spec.Subst
import Verif.Spec.OpsOf

/-!
# Vocabulary of C74 (files with Windows line ends)

`crlf` (`Spec/Subst.lean`) turns every line feed of a text into a carriage return and a line feed; `settle`
(`Spec/OpsOf.lean`) drops line feeds at the end of front matter, code, items and highlight paragraphs.
-/

namespace Yamd.Spec

open Yamd

/-- The text without its carriage returns. -/
def noCr (s : Str) : Str := s.filter (· != '\r')

/-- Every carriage return of the text stands directly before a line feed, and none is escaped: carriage returns
occur as parts of line ends only. -/
def crInBreaks : Str → Bool
  | '\\' :: d :: r => d != '\r' && crInBreaks r
  | '\r' :: r => r.head? == some '\n' && crInBreaks r
  | _ :: r => crInBreaks r
  | [] => true

end Yamd.Spec
