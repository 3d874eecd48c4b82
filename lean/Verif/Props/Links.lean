import Verif.Proofs.Dest
import Verif.Props.Ops
import Verif.Model.ToYamd

/-!
# Property C46: where a destination ends

The vocabulary (`parensOpen`, `DestinationEnds`) is in `Spec/Dest.lean`, `Segmentation` is in
`Spec/Ops.lean`.
-/

namespace Yamd.Props

open Yamd Yamd.Lexer Yamd.Spec Yamd.Ref

/-- **C46.** The tokens of the source can be distributed over the ops of `parse` such that every
destination is an opening parenthesis, a text and a closing parenthesis where the text does not balance
the opening parenthesis, and the closing one either does or is the last one before a block boundary. -/
theorem C46_destination_parentheses (input : Str) :
    ∃ ts ops segs, Lexer.lex input = .ok ts ∧ parse input = .ok ops ∧ Segmentation input ts ops segs ∧
      ∀ l1 s l, ops.zip segs = l1 ++ s :: l → s.1.kind = .Start .Destination →
        ∃ v e l2, l = v :: e :: l2 ∧ v.1.kind = .Value ∧ e.1.kind = .End .Destination ∧
          DestinationEnds v.2.2 (l2.flatMap (fun x => x.2.1 ++ x.2.2)) := by
  obtain ⟨ops, ss, h1, h2, h3⟩ := parse_dests input
  exact ⟨_, ops, ss, lex_eq input, h1, h2, h3⟩

/-- Balanced parentheses inside a destination belong to it. -/
example : deserialize (cs! "[a](b(c)d) e)") = .ok ⟨none, [.paragraph
    [.anchor ⟨cs! "a", cs! "b(c)d"⟩, .text (cs! " e)")]]⟩ := by decide +kernel

/-- Not enough closing parentheses: the destination ends at the last one. -/
example : deserialize (cs! "[a](b(c)d") = .ok ⟨none, [.paragraph
    [.anchor ⟨cs! "a", cs! "b(c"⟩, .text (cs! "d")]]⟩ := by decide +kernel

/-- No closing parenthesis before the block ends: no link. -/
example : deserialize (cs! "[a](b\n\n)") = .ok ⟨none, [.paragraph [.text (cs! "[a](b")],
    .paragraph [.text (cs! ")")]]⟩ := by decide +kernel

end Yamd.Props
