import Verif.Model.ToYamd
import Verif.Model.Nodes

/-!
# Vocabulary of C79 (formatting again and again)
-/

namespace Yamd.Spec

open Yamd

/-- What a formatter does with a text: read it and write the document. -/
def format (s : Str) : Str :=
  match deserialize s with
  | .ok y => y.display
  | .error _ => []

/-- The text after `n` passes of the formatter. -/
def formatted : Nat → Str → Str
  | 0, s => s
  | n + 1, s => formatted n (format s)

end Yamd.Spec
