import Verif.Model.Parser

/-!
# Conversions of the public API that the parser itself does not use
-/

namespace Yamd.Content

/-- `From<&[Token]> for Content`, src/op/mod.rs 112-122, and the impls for arrays and vectors that forward to it
(124-134). Through these `Op::new_value`, `new_start` and `new_end` (203-224) accept tokens. -/
def ofTokens : List Token → Content
  | [] => .Span 0 0
  | t :: r => .Span t.start (lastStop t r)

end Yamd.Content
