import Verif.Proofs.WrapTop
import Verif.Props.Lexer

/-!
# C66: a text put into a collapsible

What is read from a text does not change when the text becomes the body of a collapsible: put between the line
`{% title` and the line `%}`, it gives one collapsible with that title, whose body is what the text gave on its
own. The conditions (`Spec/Wrap.lean`, `Spec/Local.lean`) are about the observable result of the text alone and
about its first and last characters; each of them is needed, as the witnesses below show.
-/

namespace Yamd.Props

open Yamd Yamd.Spec Yamd.Ref

/-- The text put into a collapsible. -/
def inCollapsible (title x : Str) : Str := cs! "{% " ++ title ++ cs! "\n" ++ x ++ cs! "\n%}"

/-- **C66.** A finished text without front matter, put into a collapsible. -/
theorem C66_wrap {x t : Str} {body : List YamdNode} (hx : deserialize x = .ok ⟨none, body⟩)
    (h1 : cleanEnd x = true) (h2 : startsLine x = false) (h3 : settledBlocks body = true)
    (h4 : body.all wrappable = true) (ht : plainTitle t = true) :
    deserialize (inCollapsible t x) = .ok ⟨none, [.collapsible t body]⟩ := by
  rw [deserialize_eq] at hx ⊢
  have hx := Except.ok.inj hx
  by_cases h0 : x = []
  · subst h0
    have : body = [] := by
      rw [← doc_body hx, show tokens [] = [] by rw [tokens, pieces_none rfl]; rfl, docB_stop rfl]; rfl
    subst this
    have := denote_empty ht
    rw [inCollapsible, show cs! "{% " ++ t ++ cs! "\n" ++ [] ++ cs! "\n%}" = cs! "{% " ++ t ++ cs! "\n\n%}" by simp]
    exact congrArg Except.ok this
  · exact congrArg Except.ok (denote_wrapped hx h0 h1 h2 h3 h4 ht)

/-- **C66, without a title.** -/
theorem C66_wrap_untitled {x : Str} {body : List YamdNode} (hx : deserialize x = .ok ⟨none, body⟩) (h0 : x ≠ [])
    (h1 : cleanEnd x = true) (h2 : startsLine x = false) (h3 : settledBlocks body = true)
    (h4 : body.all wrappable = true) :
    deserialize (cs! "{%\n" ++ x ++ cs! "\n%}") = .ok ⟨none, [.collapsible [] body]⟩ := by
  rw [deserialize_eq] at hx ⊢
  exact congrArg Except.ok (denote_wrapped_untitled (Except.ok.inj hx) h0 h1 h2 h3 h4)

/-- A text with every kind of block, among them a collapsible and a code block with a line `%}`. -/
def C66_text : Str :=
  cs! "# h [l](u)\n\ntext **b** %} c\nd\n\n{% a\nb\n%}\n\n```x\n%}\n```\n\n- a\n - b\n\n![a](u)\n\n{{k|v}}\n\n-----\n\n!! t\n! i\nb\n!!"

example : cleanEnd C66_text = true ∧ startsLine C66_text = false ∧ plainTitle (cs! "a title") = true ∧
    (deserialize C66_text).toOption.any (fun y => y.metadata.isNone && settledBlocks y.body && y.body.all wrappable
      && y.body.length == 9) = true := by
  decide +kernel

/-- A text inside collapsibles with the given titles, the first one outermost. -/
def nestedIn (titles : List Str) (x : Str) : Str := titles.foldr inCollapsible x

/-- Blocks inside collapsibles with the given titles. -/
def nestedBody (titles : List Str) (body : List YamdNode) : List YamdNode :=
  titles.foldr (fun t b => [.collapsible t b]) body

/-- **C66, any depth.** A finished, non-empty text inside any number of collapsibles. -/
theorem C66_nested {x : Str} {body : List YamdNode} (hx : deserialize x = .ok ⟨none, body⟩) (h0 : body ≠ [])
    (h1 : cleanEnd x = true) (h2 : startsLine x = false) (h3 : settledBlocks body = true)
    (h4 : body.all wrappable = true) (titles : List Str) (ht : titles.all plainTitle = true) :
    deserialize (nestedIn titles x) = .ok ⟨none, nestedBody titles body⟩ := by
  have key : deserialize (nestedIn titles x) = .ok ⟨none, nestedBody titles body⟩ ∧ nestedBody titles body ≠ [] ∧
      cleanEnd (nestedIn titles x) = true ∧ startsLine (nestedIn titles x) = false ∧
      settledBlocks (nestedBody titles body) = true ∧ (nestedBody titles body).all wrappable = true := by
    induction titles with
    | nil => exact ⟨hx, h0, h1, h2, h3, h4⟩
    | cons t ts ih =>
      rw [List.all_cons, Bool.and_eq_true] at ht
      obtain ⟨i1, i2, i3, i4, i5, i6⟩ := ih ht.2
      refine ⟨C66_wrap i1 i3 i4 i5 i6 ht.1, by simp [nestedBody], ?_, ?_, ?_, ?_⟩
      · have hd : dangling (inCollapsible t (nestedIn ts x)) = false := by
          simp only [cleanEnd, Bool.and_eq_true, Bool.not_eq_true'] at i3
          have ht' := ht.1
          simp only [plainTitle, Bool.and_eq_true, Bool.not_eq_true'] at ht'
          have hb : '\\' ∉ cs! "{% " ++ t ++ cs! "\n" := by
            have : '\\' ∉ t := by simpa using ht'.1.2
            simp [this]
          unfold inCollapsible
          rw [List.append_assoc (cs! "{% " ++ t ++ cs! "\n"), dangling_append hb, dangling_join _ _ i3.2]
          decide
        have hl : (inCollapsible t (nestedIn ts x)).getLast? = some '}' := by
          unfold inCollapsible
          rw [List.getLast?_append]; rfl
        show cleanEnd (inCollapsible t (nestedIn ts x)) = true
        simp [cleanEnd, hd, hl]
      · rfl
      · show settledBlocks [.collapsible t (nestedBody ts body)] = true
        rw [settledBlocks, settledBlock, i5]; rfl
      · show ([.collapsible t (nestedBody ts body)] : List YamdNode).all wrappable = true
        cases hb : nestedBody ts body with
        | nil => exact absurd hb i2
        | cons => rfl
  exact key.1

example : deserialize (nestedIn [cs! "a", cs! "b", cs! "c"] (cs! "- x\n\ny")) =
    .ok ⟨none, [.collapsible (cs! "a") [.collapsible (cs! "b") [.collapsible (cs! "c")
      [.list (.mk .Unordered 0 [.mk [.text (cs! "x")] none]), .paragraph [.text (cs! "y")]]]]]⟩ :=
  C66_nested (by decide +kernel) (by decide) (by decide +kernel) (by decide +kernel) (by decide +kernel)
    (by decide +kernel) _ (by decide +kernel)

/-- The conditions of `C66_wrap` on a text and a title, in this order. -/
def C66_conditions (t x : Str) : Option (List Bool) :=
  match deserialize x with
  | .ok y => some [y.metadata.isNone, cleanEnd x, !startsLine x, settledBlocks y.body, y.body.all wrappable, plainTitle t]
  | _ => none

/-- The conclusion of `C66_wrap`, for a given text and title. -/
def C66_holds (t x : Str) : Bool :=
  match deserialize x with
  | .ok y => deserialize (inCollapsible t x) == .ok ⟨none, [.collapsible t y.body]⟩
  | _ => false

/-- None of the conditions can be left out: in each of these only one of them fails, and so does the conclusion. -/
theorem C66_conditions_needed :
    (C66_conditions (cs! "t") (cs! "---\na\n---\nx") = some [false, true, true, true, true, true] ∧
      C66_holds (cs! "t") (cs! "---\na\n---\nx") = false) ∧
    (C66_conditions (cs! "t") (cs! "a\n") = some [true, false, true, true, true, true] ∧ C66_holds (cs! "t") (cs! "a\n") = false) ∧
    (C66_conditions (cs! "t") (cs! "a\\") = some [true, false, true, true, true, true] ∧ C66_holds (cs! "t") (cs! "a\\") = false) ∧
    (C66_conditions (cs! "t") (cs! "\na") = some [true, true, false, true, true, true] ∧ C66_holds (cs! "t") (cs! "\na") = false) ∧
    (C66_conditions (cs! "t") (cs! "{% a\nb") = some [true, true, true, false, true, true] ∧ C66_holds (cs! "t") (cs! "{% a\nb") = false) ∧
    (C66_conditions (cs! "t") (cs! "a\n%} b") = some [true, true, true, true, false, true] ∧
      C66_holds (cs! "t") (cs! "a\n%} b") = false) ∧
    (C66_conditions (cs! "t") (cs! "{{a|b\n%}}}") = some [true, true, true, true, false, true] ∧
      C66_holds (cs! "t") (cs! "{{a|b\n%}}}") = false) ∧
    (C66_conditions (cs! "a\\b") (cs! "b") = some [true, true, true, true, true, false] ∧ C66_holds (cs! "a\\b") (cs! "b") = false) ∧
    (C66_conditions (cs! " a") (cs! "b") = some [true, true, true, true, true, false] ∧ C66_holds (cs! " a") (cs! "b") = false) := by
  refine ⟨⟨?_, ?_⟩, ⟨?_, ?_⟩, ⟨?_, ?_⟩, ⟨?_, ?_⟩, ⟨?_, ?_⟩, ⟨?_, ?_⟩, ⟨?_, ?_⟩, ⟨?_, ?_⟩, ⟨?_, ?_⟩⟩ <;> decide +kernel

/-- **Finding.** An empty collapsible with a title is a collapsible on its own, but inside another collapsible it is
text, and the closing line of the outer one is left over as a paragraph. -/
theorem C66_empty_inside :
    deserialize (cs! "{% b\n%}") = .ok ⟨none, [.collapsible (cs! "b") []]⟩ ∧
    deserialize (inCollapsible (cs! "a") (cs! "{% b\n%}")) =
      .ok ⟨none, [.collapsible (cs! "a") [.paragraph [.text (cs! "{% b")]], .paragraph [.text (cs! "%}")]]⟩ := by
  decide +kernel

end Yamd.Props
