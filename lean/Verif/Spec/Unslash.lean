import Verif.Spec.Subst
import Verif.Spec.LexProps

/-!
# Vocabulary of property C77: backslashes that escape nothing
-/

namespace Yamd.Spec

open Yamd

/-- The text without the backslashes that stand before a character which is no syntax anyway. The
character after a backslash is never read as a backslash itself. -/
def unslash : Str → Str
  | [] => []
  | [c] => [c]
  | c :: d :: r =>
    if c = '\\' then (if d ∈ syntaxChars then c :: d :: unslash r else d :: unslash r)
    else c :: unslash (d :: r)

end Yamd.Spec
