import Verif.Proofs.LocalTop
import Verif.Props.Lexer

/-!
# C49: a document is the sequence of its parts

What is read from a text does not change when a blank line and more text are added, and what is read from
the added text is what it gives on its own. The conditions (`Spec/Local.lean`) are about the observable
results of the two parts; each of them is needed, as the witnesses below show.
-/

namespace Yamd.Props

open Yamd Yamd.Spec Yamd.Ref

/-- **C49.** Two texts joined by a blank line give the blocks of the first followed by the blocks of the
second, and the front matter of the first. -/
theorem C49_parts {a b : Str} {y z : Yamd} (ha : deserialize a = .ok y) (hb : deserialize b = .ok z)
    (h1 : cleanEnd a = true) (h2 : settledBlocks y.body = true)
    (h3 : y.metadata.isSome = true ∨ startsDashes a = false) (h4 : z.metadata = none) :
    deserialize (a ++ cs! "\n\n" ++ b) = .ok ⟨y.metadata, y.body ++ z.body⟩ := by
  rw [deserialize_eq] at ha hb ⊢
  cases ha; cases hb
  simp only [cleanEnd, Bool.and_eq_true, bne_iff_ne, ne_eq, Bool.not_eq_true'] at h1
  obtain ⟨ta, tb, T, e1, e2, e3, hT, -⟩ := C07_blank_line_is_boundary a b h1.1.1 h1.1.2 h1.2
  rw [Lexer.lex_eq] at e1 e2 e3
  cases e1; cases e2
  have e3 := Except.ok.inj e3
  exact congrArg Except.ok (denote_local hT e3 h3 h2 h4)

/-- A text with every kind of block meets the hypotheses on the first part. -/
def C49_first : Str :=
  cs! "---\nt: 1\n---\n# h\n\ntext **b**\n\n```rust\nx\n\ny\n```\n\n!! T\n! i\nbody\n!!\n\n- a\n - b\n\n{% c\n# d\n\n- e\n%}\n\n{{youtube|x}}"

example : cleanEnd C49_first = true ∧
    (deserialize C49_first).toOption.any (fun y => settledBlocks y.body && y.metadata.isSome && y.body.length == 7)
      = true ∧
    (deserialize (cs! "after `c`\n\n![a](u)")).toOption.any (fun z => z.metadata.isNone && z.body.length == 2)
      = true := by
  decide +kernel

/-- The two parts meet the four conditions, in this order, as listed. -/
def C49_conditions (a b : Str) : Option (Bool × Bool × Bool × Bool) :=
  match deserialize a, deserialize b with
  | .ok y, .ok z =>
    some (cleanEnd a, settledBlocks y.body, y.metadata.isSome || !startsDashes a, z.metadata.isNone)
  | _, _ => none

/-- The conclusion of `C49_parts`, for two given texts. -/
def C49_holds (a b : Str) : Bool :=
  match deserialize a, deserialize b with
  | .ok y, .ok z => deserialize (a ++ cs! "\n\n" ++ b) == .ok ⟨y.metadata, y.body ++ z.body⟩
  | _, _ => false

/-- None of the four conditions of `C49_parts` can be left out: in each of these pairs only one of them
fails, and so does the conclusion. -/
theorem C49_conditions_needed :
    (C49_conditions (cs! "p\n") (cs! "q") = some (false, true, true, true) ∧ C49_holds (cs! "p\n") (cs! "q") = false) ∧
    (C49_conditions (cs! "p\\") (cs! "q") = some (false, true, true, true) ∧ C49_holds (cs! "p\\") (cs! "q") = false) ∧
    (C49_conditions (cs! "```a") (cs! "b\n```") = some (true, false, true, true)
      ∧ C49_holds (cs! "```a") (cs! "b\n```") = false) ∧
    (C49_conditions (cs! "---") (cs! "x\n---") = some (true, true, false, true)
      ∧ C49_holds (cs! "---") (cs! "x\n---") = false) ∧
    (C49_conditions (cs! "p") (cs! "---\nx\n---") = some (true, true, true, false)
      ∧ C49_holds (cs! "p") (cs! "---\nx\n---") = false) := by
  decide +kernel

/-- A text that can be followed by others. -/
structure Part (a : Str) (body : List YamdNode) : Prop where
  reads : deserialize a = .ok ⟨none, body⟩
  clean : cleanEnd a = true
  settled : settledBlocks body = true
  plain : startsDashes a = false

/-- **C49, many parts.** Finished texts joined by blank lines give the concatenation of their blocks. -/
theorem C49_many (l : List (Str × List YamdNode)) (h : ∀ x ∈ l, Part x.1 x.2) :
    deserialize (joinWith (cs! "\n\n") (l.map (·.1))) = .ok ⟨none, l.flatMap (·.2)⟩ := by
  induction l with
  | nil => decide +kernel
  | cons x l ih =>
    have hx := h x (by simp)
    have ih := ih fun y hy => h y (by simp [hy])
    cases l with
    | nil => simpa [joinWith] using hx.reads
    | cons y l =>
      simp only [List.map_cons, joinWith] at ih ⊢
      rw [C49_parts hx.reads ih hx.clean hx.settled (Or.inr hx.plain) rfl]
      rfl

example : Part (cs! "# h") [.heading 1 [.text (cs! "h")]] ∧
    Part (cs! "```\na\n\nb```\n```") [.code [] (cs! "a\n\nb```")] := by
  refine ⟨⟨?_, ?_, ?_, ?_⟩, ⟨?_, ?_, ?_, ?_⟩⟩ <;> decide +kernel

/-- **C49, later edits.** Whatever is written after the blank line, the blocks before it stay the same. -/
theorem C49_prefix_stays {a b b' : Str} {y z z' : Yamd} (ha : deserialize a = .ok y) (h1 : cleanEnd a = true)
    (h2 : settledBlocks y.body = true) (h3 : y.metadata.isSome = true ∨ startsDashes a = false)
    (hb : deserialize b = .ok z) (hb' : deserialize b' = .ok z') (h4 : z.metadata = none)
    (h4' : z'.metadata = none) :
    ∃ r r', deserialize (a ++ cs! "\n\n" ++ b) = .ok r ∧ deserialize (a ++ cs! "\n\n" ++ b') = .ok r' ∧
      r.metadata = r'.metadata ∧ r.body.take y.body.length = r'.body.take y.body.length ∧
      r.body.drop y.body.length = z.body ∧ r'.body.drop y.body.length = z'.body := by
  refine ⟨_, _, C49_parts ha hb h1 h2 h3 h4, C49_parts ha hb' h1 h2 h3 h4', rfl, ?_, ?_, ?_⟩ <;> simp

end Yamd.Props
