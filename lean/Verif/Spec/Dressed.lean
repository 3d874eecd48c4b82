import Verif.Spec.Doc

/-!
# Vocabulary of C71 (what `Display` adds to the text of a document)
-/

namespace Yamd.Spec

open Yamd

/-- The characters the syntax is made of, with the backslash, the space and the line feed. -/
def markChars : List Char := cs! "\\~*{}-#!`+[]_()%| \n"

/-- `d` is `s` with syntax characters inserted: nothing of `s` is lost, changed or reordered. -/
inductive Dressed : Str → Str → Prop
  | nil : Dressed [] []
  | keep (c : Char) {s d : Str} : Dressed s d → Dressed (c :: s) (c :: d)
  | add {c : Char} {s d : Str} : c ∈ markChars → Dressed s d → Dressed s (c :: d)

end Yamd.Spec
