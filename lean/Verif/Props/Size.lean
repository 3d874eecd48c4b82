import Verif.Proofs.OpTotal
import Verif.Proofs.StepsErase
import Verif.Props.Doc
import Verif.Props.RoundTrip

/-!
# C61-C64: cost and size

The cost model is `Model/Steps.lean`, sizes are in `Spec/Size.lean`.
-/

namespace Yamd.Props

open Yamd Yamd.Spec Yamd.Ref Yamd.Lexer

/-- **C61.** Parsing takes polynomially many steps: the parser with a step counter computes what `parse`
computes, and the number of steps is at most `93 * (2n + 9)^5` for an input of `n` bytes. -/
theorem C61_parse_is_polynomial (input : Str) :
    (Steps.parse input).val = parse input ∧ (Steps.parse input).cost ≤ 93 * (2 * blen input + 9) ^ 5 :=
  ⟨Steps.parse_val input, parse_cost input⟩

/-- The counter counts: an unclosed collapsible is read, given up and read again as text. -/
example : (Steps.parse (cs! "{%\n[")).cost = 112 ∧ (Steps.parse (cs! "- a\n")).cost = 66 ∧
    (Steps.parse (cs! "a")).cost < (Steps.parse (cs! "ab [")).cost := by decide +kernel

/-- **C62.** The op stream is linear in the input: at most three ops per token and two for the document, and
at most one token per character. -/
theorem C62_op_stream_is_linear (input : Str) : ∃ toks ops, lex input = .ok toks ∧ parse input = .ok ops ∧
    ops.length ≤ 3 * toks.length + 2 ∧ toks.length ≤ input.length :=
  ⟨_, _, lex_eq input, parse_eq input, top_count _, tokens_length input⟩

/-- The bound is reached. -/
example : (parse (cs! "a")).map List.length = .ok 5 ∧ (parse (cs! "-----")).map List.length = .ok 5 ∧
    (parse (cs! "# [](\\))")).map List.length = .ok 12 := by decide +kernel

/-- **C63.** The document is linear in the input: it has at most two nodes per character, and all its
strings together are no longer than the input. -/
theorem C63_document_is_linear (input : Str) : ∃ y, deserialize input = .ok y ∧
    nodeCount y ≤ 2 * input.length ∧ (documentString y).length ≤ input.length := by
  obtain ⟨y, h1, -, h2⟩ := C25_no_invented_text input
  refine ⟨y, h1, ?_, h2.length_le⟩
  rw [deserialize_eq] at h1
  cases h1
  have := (top_nodes (src := input) (tokens input)).1
  have := tokens_length input
  omega

/-- The bound is reached. -/
example : (deserialize (cs! "a")).map nodeCount = .ok 2 ∧
    (deserialize (cs! "- a\n - **b _c_**")).map nodeCount = .ok 10 := by decide +kernel

/-- **C64.** Collapsibles nest to a depth of at most a third of the input. -/
theorem C64_nesting_is_bounded_by_the_input (input : Str) : ∃ y, deserialize input = .ok y ∧
    3 * collapsibleDepth y ≤ input.length := by
  refine ⟨_, deserialize_eq input, ?_⟩
  have := (top_nodes (src := input) (tokens input)).2
  have := tokens_length input
  omega

/-- Collapsibles without title, nested `d` deep. -/
def nested : Nat → List YamdNode
  | 0 => []
  | d + 1 => [.collapsible [] (nested d)]

theorem nested_safe (inColl : Bool) : ∀ d, safeBlocks inColl (nested d) = true
  | 0 => by cases inColl <;> rfl
  | d + 1 => by
    have h := nested_safe true d
    have h3 : safeLine [] = true := by decide
    cases d with
    | zero => simp [nested, safeBlocks, safeBlock, h3]
    | succ d =>
      simp only [nested] at h
      have h4 : safeBlock true (.collapsible [] (nested d)) = true := by simpa [safeBlocks] using h
      have e1 : endsClean (.collapsible [] (nested d)) = true := rfl
      have e2 : startsClean (.collapsible [] (nested d)) = true := rfl
      rw [nested, nested, safeBlocks, safeBlock]
      simp only [safeBlocks, h3, h4, e1, e2, List.all_cons, List.all_nil, Bool.and_self]

theorem nested_depth : ∀ d, depthNs (nested d) = d
  | 0 => rfl
  | d + 1 => by simp only [nested, depthNs, depthN, nested_depth d]; omega

theorem nested_length : ∀ d, (joinWith (cs! "\n\n") (displayBlocks (nested d))).length = 7 * d
  | 0 => rfl
  | d + 1 => by
    have := nested_length d
    have e : replace (cs! "%}") (cs! "\\%}") (replace (cs! "\\") (cs! "\\\\") []) = [] := by decide +kernel
    simp only [nested, displayBlocks, YamdNode.display, joinWith, e, List.append_nil, List.length_append, List.length_cons,
      this]
    simp only [List.length_nil]
    omega

/-- **C64, finding.** There is no other limit: for every `d` there is an input of `7d` characters whose
document is nested `d` deep. The parser, `Display` and dropping the document recurse that deep. -/
theorem C64_nesting_has_no_limit (d : Nat) : ∃ input y, input.length = 7 * d ∧ deserialize input = .ok y ∧
    collapsibleDepth y = d := by
  refine ⟨(Yamd.mk none (nested d)).display, ⟨none, nested d⟩, nested_length d, ?_, nested_depth d⟩
  apply C41_documents_round_trip
  have h2 : (nested d).dropLast.all endsClean = true := by cases d <;> rfl
  simp [safeDocument, nested_safe, h2]

/-- Three levels, read from the text. -/
example : deserialize (cs! "{%\n{%\n{%\n%}\n%}\n%}") = .ok ⟨none, nested 3⟩ ∧
    collapsibleDepth ⟨none, nested 3⟩ = 3 := by decide +kernel

end Yamd.Props
