import Verif.Proofs.Dressed
import Verif.Props.Doc

/-!
# C71: `Display` writes the text of a document and only syntax around it
-/

namespace Yamd.Props

open Yamd Yamd.Spec

/-- **C71.** For every document, whatever is in it: what `to_string` gives is the text of the document in document
order, complete and unchanged, with syntax characters inserted. -/
theorem C71_display_only_adds_syntax (y : Yamd) : Dressed (documentString y) y.display := dressed_document y

/-- Nothing is lost. -/
theorem C71_no_text_is_lost (y : Yamd) : (documentString y).Sublist y.display := by
  have h := dressed_document y
  revert h
  generalize documentString y = s
  generalize y.display = d
  intro h
  induction h with
  | nil => exact .slnil
  | keep c _ ih => exact ih.cons_cons c
  | add _ _ ih => exact ih.cons _

/-- Nothing but syntax is added: the other characters are those of the text, in the same number and order. -/
theorem C71_no_text_is_added (y : Yamd) :
    y.display.filter (fun c => !markChars.contains c) = (documentString y).filter (fun c => !markChars.contains c) := by
  have h := dressed_document y
  revert h
  generalize documentString y = s
  generalize y.display = d
  intro h
  induction h with
  | nil => rfl
  | keep c _ ih => simp only [List.filter_cons, ih]
  | add hc _ ih =>
    rw [List.filter_cons_of_neg (by simpa using hc), ih]

/-- Reading and writing again: the letters of the result are among the letters of the input, in order. -/
theorem C71_reading_and_writing_adds_only_syntax (input : Str) :
    ∃ y, deserialize input = .ok y ∧
      (y.display.filter (fun c => !markChars.contains c)).Sublist (input.filter (fun c => !markChars.contains c)) := by
  obtain ⟨y, h, -, hs⟩ := C25_no_invented_text input
  refine ⟨y, h, ?_⟩
  rw [C71_no_text_is_added]
  exact hs.filter _

/-! ### Examples -/

example : (Yamd.mk (some (cs! "m")) [.collapsible (cs! "a%}") [.paragraph [.text (cs! "+ x_y")]],
      .list (.mk .Unordered 1 [.mk [.bold [.text (cs! "**")]] none])]).display =
    cs! "---\nm\n---\n\n{% a\\%}\n\\+ x\\_y\n%}\n\n - **\\*\\***" ∧
  documentString (Yamd.mk (some (cs! "m")) [.collapsible (cs! "a%}") [.paragraph [.text (cs! "+ x_y")]],
      .list (.mk .Unordered 1 [.mk [.bold [.text (cs! "**")]] none])]) = cs! "ma%}+ x_y**" := by decide +kernel

/-- `Dressed` is not trivial: a letter cannot be inserted, nothing can be dropped. -/
example : ¬ Dressed (cs! "a") (cs! "ab") := by
  intro h
  have := congrArg List.length (show List.filter (fun c => !markChars.contains c) (cs! "ab") = cs! "a" by
    cases h with
    | keep _ h => cases h with | add h _ => revert h; decide
    | add h _ => revert h; decide)
  revert this
  decide
example : ¬ Dressed (cs! "*") (cs! "") := by rintro ⟨⟩

end Yamd.Props
