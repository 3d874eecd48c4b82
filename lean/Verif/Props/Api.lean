import Verif.Model.Api
import Verif.Props.Doc

/-!
# C43, continued: making contents from tokens without the source
-/

namespace Yamd.Props

open Yamd Yamd.Lexer Yamd.Spec Yamd.Ref

/-- **C43.** For tokens with valid ranges and no gap between them, converting without the source gives the same content as
`from_tokens` with it: a span of exactly their text. -/
theorem C43_tokens_into_content (source : Str) (ts : List Token) (h : ∀ t ∈ ts, ∃ s, textOf source t = some s)
    (hn : NoGap ts) : Content.fromTokens ts source = .ok (Content.ofTokens ts) ∧
      (Content.ofTokens ts).asStr source = .ok (textOfTokens source ts) := by
  cases ts with
  | nil => exact ⟨rfl, rfl⟩
  | cons t r =>
    refine ⟨?_, span_asStr (slice_tokens h hn)⟩
    simp only [Content.fromTokens, noGap_iff.1 hn, if_true, Content.ofTokens]

/-- Any stretch of the tokens of a text without an escaped token (except possibly the first) meets the hypotheses: the
content made of it reads the text of the stretch. -/
theorem C43_stretch_of_tokens (input : Str) :
    ∃ ts, lex input = .ok ts ∧ ∀ a run b, ts = a ++ run ++ b → (∀ t ∈ run.tail, t.escaped = false) →
      (Content.ofTokens run).asStr input = .ok (textOfTokens input run) := by
  obtain ⟨ts, h1, h2, -⟩ := C02_token_ranges_valid_and_ordered input
  refine ⟨ts, h1, fun a run b e he => ?_⟩
  refine (C43_tokens_into_content input run (fun t ht => ?_) ?_).2
  · obtain ⟨s, hs, -⟩ := (h2 t (by rw [e]; simp [ht])).2.2.2
    exact ⟨s, hs⟩
  · have ha : Adj ts := by
      rw [lex_eq] at h1
      cases h1
      exact adj_tokens input
    rw [e] at ha
    exact adj_noGap ha.left.right he

/-- The stretch of the four tokens behind the first of `- \*b_`. -/
example : (lex (cs! "- \\*b_")).map (fun ts => (Content.ofTokens (ts.drop 2)).asStr (cs! "- \\*b_")) =
    .ok (.ok (cs! "*b_")) := by decide +kernel

/-- With a gap the two differ: the conversion without the source keeps the escape backslash. -/
theorem C43_conversion_keeps_backslash : ∃ ts, lex (cs! "a\\*b") = .ok ts ∧
    (Content.ofTokens ts).asStr (cs! "a\\*b") = .ok (cs! "a\\*b") ∧
    (Content.fromTokens ts (cs! "a\\*b")) = .ok (.Materialized (cs! "a*b")) := by
  refine ⟨_, lex_eq _, ?_⟩
  decide +kernel

end Yamd.Props
