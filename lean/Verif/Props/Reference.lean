import Verif.Proofs.Denote

/-!
# Property C51: the parser refines a grammar

The reference side is purely functional: `Spec/Lex.lean` cuts the text into tokens, `Ref/Parser.lean`
builds a concrete syntax tree by ordered choice over the tokens still to be read (no op buffer, no
positions, no truncation, no fuel), `Ref/Cst.lean` reads the op stream off the tree and `Ref/Denote.lean`
the document. The model of the code works with a growing op buffer, insertion, truncation and a position.
-/

namespace Yamd.Props

open Yamd Yamd.Lexer Yamd.Spec Yamd.Ref

theorem flips_zip {a b : List Token} (h : Flips a b) : b.length = a.length ∧
    ∀ x ∈ a.zip b, x.2 = x.1 ∨ (x.1.kind = .CollapsibleStart ∧ x.2 = { x.1 with kind := .Literal }) := by
  induction h with
  | nil => simp
  | cons h _ ih =>
    refine ⟨by simp [ih.1], ?_⟩
    intro x hx
    simp only [List.zip_cons_cons, List.mem_cons] at hx
    rcases hx with rfl | hx
    · exact h
    · exact ih.2 x hx

/-- **C51.** The op stream of `parse` is the op stream of the tree the reference grammar builds. -/
theorem C51_parse_refines_grammar (input : Str) :
    parse input = .ok ((topB (tokens input)).ops input) := parse_eq input

/-- **C51**, for documents. -/
theorem C51_deserialize_refines_grammar (input : Str) :
    deserialize input = .ok ((topB (tokens input)).denote input) := deserialize_eq input

/-- **C51.** The tree covers the tokens: reading its leaves from left to right gives the tokens of the
source, up to the kind of the `{%` that did not become a collapsible. -/
theorem C51_tree_covers_tokens (input : Str) :
    (topB (tokens input)).toks.length = (tokens input).length ∧
      ∀ x ∈ (tokens input).zip (topB (tokens input)).toks,
        x.2 = x.1 ∨ (x.1.kind = .CollapsibleStart ∧ x.2 = { x.1 with kind := .Literal }) :=
  flips_zip (top_flips (tokens input))

/-- A source with most constructs, for which both sides are not trivial. -/
example : (parse (cs! "# a\n\n- b\n - [c](d)\n\n{% e\n**f**\n%}")).toOption.map List.length = some 40 := by
  decide +kernel

end Yamd.Props
