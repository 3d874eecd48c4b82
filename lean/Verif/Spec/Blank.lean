import Verif.Spec.Local

/-!
# Vocabulary of C75 (blank lines around and between blocks)
-/

namespace Yamd.Spec

open Yamd

/-- `n` blank lines: `2 * n` line feeds. -/
def blankLines : Nat → Str
  | 0 => []
  | n + 1 => cs! "\n\n" ++ blankLines n

end Yamd.Spec
