import Verif.Proofs.OpsOf
import Verif.Proofs.OpsOrder
import Verif.Proofs.Round.CodeBlock
import Verif.Props.Doc

/-!
# C70: op streams written by hand
-/

namespace Yamd.Props

open Yamd Yamd.Spec Yamd.Ref Yamd.Round Yamd.ToYamd

/-- **C70.** The stream written down for a document gives that document, whatever the source is; `to_yamd` only sets
the levels of lists to their nesting and drops line feeds at the end of code, of front matter (both ends) and of the
paragraphs of list items and highlights. -/
theorem C70_every_document_can_be_given_as_ops (y : Yamd) (src : Str) : toYamd (opsOf y) src = .ok (settle y) :=
  toYamd_opsOf y src

/-- The same for `try_to_yamd`: no error. -/
theorem C70_no_error (y : Yamd) (src : Str) : tryToYamd (opsOf y) src = .ok (some (settle y)) := by
  have h := toYamd_opsOf y src
  simp only [toYamd] at h
  cases h1 : tryToYamd (opsOf y) src with
  | error e => rw [h1] at h; cases h
  | ok x =>
    rw [h1] at h
    cases x with
    | none => cases h
    | some z =>
      simp only [bind, Except.bind, pure, Except.pure, Except.ok.injEq] at h
      rw [h]

theorem settle_paragraph {p : Paragraph} (h : ParagraphNode.text [] ∉ p)
    (h' : ∀ t, p.getLast? = some (.text t) → t.getLast? ≠ some '\n') : dropLastNl p = p := by
  rw [← dropLastNl_trim]
  unfold trimTrailingNewline
  cases hl : p.getLast? with
  | none => rfl
  | some x =>
    cases x with
    | text t =>
      have e : p.dropLast ++ [.text t] = p := by
        obtain ⟨q, rfl⟩ := List.getLast?_eq_some_iff.1 hl
        simp
      have ht : t ≠ [] := fun e' => h (by rw [← e, e']; simp)
      have : trimEndNl t = t := trimEnd_id (h' t hl)
      simp only [this, ht, if_false, e]
    | _ => rfl

mutual
theorem settle_list {level : Nat} : ∀ {l : YList}, levelsOk level l = true → (∀ p ∈ itemTexts l, dropLastNl p = p) →
    settleList level l = l
  | .mk t k items, h, hp => by
    simp only [levelsOk, Bool.and_eq_true, beq_iff_eq] at h
    rw [settleList, settle_items h.2.2 hp, h.1]
theorem settle_items {level : Nat} : ∀ {l : List YItem}, itemsLevelsOk level l = true →
    (∀ p ∈ itemsTexts l, dropLastNl p = p) → settleItems level l = l
  | [], _, _ => rfl
  | i :: r, h, hp => by
    simp only [itemsLevelsOk, Bool.and_eq_true] at h
    simp only [itemsTexts, List.mem_append] at hp
    rw [settleItems, settle_item h.1 (fun p h => hp p (.inl h)), settle_items h.2 (fun p h => hp p (.inr h))]
theorem settle_item {level : Nat} : ∀ {i : YItem}, itemLevelsOk level i = true →
    (∀ p ∈ itemText i, dropLastNl p = p) → settleItem level i = i
  | .mk t none, _, hp => by rw [settleItem, hp t (by simp [itemText])]
  | .mk t (some l), h, hp => by
    rw [settleItem, hp t (by simp [itemText]), settle_list h (fun p h => hp p (by simp [itemText, h]))]
end

mutual
theorem settle_node : ∀ {n : YamdNode}, (∀ b ∈ blocksIn n, (∀ level body, b = .heading level body → level ≤ 6) ∧
      (∀ l, b = .list l → levelsOk 0 l = true) ∧ (∀ lang code, b = .code lang code → code.getLast? ≠ some '\n') ∧
      ∀ p ∈ trimmedParagraphsIn b, dropLastNl p = p) → settleNode n = n
  | .paragraph _, _ => rfl
  | .heading level b, h => by
    have := (h _ (by simp [blocksIn])).1 level b rfl
    rw [settleNode, Nat.mod_eq_of_lt (by omega)]
  | .image _, _ => rfl
  | .images _, _ => rfl
  | .code lang code, h => by
    have := (h _ (by simp [blocksIn])).2.2.1 lang code rfl
    rw [settleNode, trimEnd_id this]
  | .list l, h => by
    have := h (.list l) (by simp [blocksIn])
    rw [settleNode, settle_list (this.2.1 l rfl) this.2.2.2]
  | .highlight t i ps, h => by
    have := (h (.highlight t i ps) (by simp [blocksIn])).2.2.2
    rw [settleNode]
    congr 1
    calc ps.map dropLastNl = ps.map id := List.map_congr_left (fun p hp => this p hp)
      _ = ps := by simp
  | .thematicBreak, _ => rfl
  | .embed _ _, _ => rfl
  | .collapsible t b, h => by
    rw [settleNode, settle_nodes (fun b' hb => h b' (by simp [blocksIn, hb]))]
theorem settle_nodes : ∀ {l : List YamdNode}, (∀ b ∈ blocksOf l, (∀ level body, b = .heading level body → level ≤ 6) ∧
      (∀ l, b = .list l → levelsOk 0 l = true) ∧ (∀ lang code, b = .code lang code → code.getLast? ≠ some '\n') ∧
      ∀ p ∈ trimmedParagraphsIn b, dropLastNl p = p) → settleNodes l = l
  | [], _ => rfl
  | n :: r, h => by
    simp only [blocksOf, List.mem_append] at h
    rw [settleNodes, settle_node (fun b hb => h b (.inl hb)), settle_nodes (fun b hb => h b (.inr hb))]
end

/-- **C70.** Nothing is left to settle in a document that was read: its hand-written stream gives it back exactly. -/
theorem C70_documents_read_are_given_exactly (input src : Str) :
    ∃ y, deserialize input = .ok y ∧ toYamd (opsOf y) src = .ok y := by
  obtain ⟨y, h0, h1⟩ := C18_heading_levels input
  obtain ⟨y1, h2, h3⟩ := C19_list_levels input
  obtain ⟨y2, h4, h5, h6, h7⟩ := C21_trailing_newlines_trimmed input
  obtain ⟨y3, h8, h9⟩ := C23_inline_text_normalised input
  rw [h0] at h2 h4 h8
  cases h2
  cases h4
  cases h8
  refine ⟨y, h0, ?_⟩
  rw [toYamd_opsOf]
  have hb : settleNodes y.body = y.body := by
    refine settle_nodes (fun b hb => ⟨?_, ?_, ?_, ?_⟩)
    · rintro level body rfl; exact (h1 level body hb).2
    · rintro l rfl; exact h3 l hb
    · rintro lang code rfl; exact h5 lang code hb
    · intro p hp
      refine settle_paragraph ((h9 b hb).1 p ?_).1 (h7 b hb p hp)
      revert hp
      cases b <;> simp [trimmedParagraphsIn, paragraphsIn]
  have hm : y.metadata.map trimNl = y.metadata := by
    rw [deserialize_eq] at h0
    cases h0
    simp only [Top.denote, Yamd.new, Option.map_map]
    congr 1
    funext m
    simp [trimNl_idem]
  rw [settle, hb, hm]

/-- **C70.** `to_yamd` reads the contents of values and of heading starts only: every other content may be replaced by
any other, also by one that does not resolve, and the stream may be moved to another source. -/
theorem C70_delimiters_do_not_matter (src src' : Str) (ops ops' : List Op) (h : SameReading src src' ops ops') :
    tryToYamd ops src = tryToYamd ops' src' ∧ toYamd ops src = toYamd ops' src' := by
  have key : ∀ s, run src ops s = run src' ops' s := by
    induction h with
    | nil => intro s; rfl
    | @cons o o' r r' hk hc _ ih =>
      intro s
      have hs : step src o s = step src' o' s := by
        unfold step
        rw [← hk]
        cases hkk : o.kind with
        | Start n =>
          rw [hkk] at hc
          cases n with
          | Heading =>
            have := hc trivial
            simp only [onStart, extractHeadingLevel, this]
          | _ => rfl
        | Value =>
          rw [hkk] at hc
          have := hc trivial
          simp only [onValue, this]
        | End n => rfl
      simp only [run, hs, ih]
  have : tryToYamd ops src = tryToYamd ops' src' := by simp only [tryToYamd, key]
  exact ⟨this, by simp only [toYamd, this]⟩

/-! ### The parts of a node may come in any order -/

/-- The text of a list item and its nested list, wherever the item stands in whatever stream. -/
theorem C70_item_parts_in_any_order (pre post : List Op) (src : Str) (text : Paragraph) (l : YList) :
    tryToYamd (pre ++ around .ListItem [] [] (opsOfParagraph text ++ opsOfList l) ++ post) src =
      tryToYamd (pre ++ around .ListItem [] [] (opsOfList l ++ opsOfParagraph text) ++ post) src :=
  run_replace (item_order text l) pre post

/-- Title, icon and paragraphs of a highlight. -/
theorem C70_highlight_parts_in_any_order (pre post : List Op) (src : Str) (title icon : Option Str) (ps qs : List Paragraph) :
    tryToYamd (pre ++ around .Highlight (cs! "!!") (cs! "!!")
        (opsOfOption .Modifier title ++ opsOfOption .Icon icon ++ (ps ++ qs).flatMap opsOfParagraph) ++ post) src =
      tryToYamd (pre ++ around .Highlight (cs! "!!") (cs! "!!")
        (ps.flatMap opsOfParagraph ++ opsOfOption .Icon icon ++ qs.flatMap opsOfParagraph ++ opsOfOption .Modifier title) ++ post) src :=
  run_replace (highlight_order title icon ps qs) pre post

/-- Text and destination of an anchor. -/
theorem C70_anchor_parts_in_any_order (pre post : List Op) (src : Str) (a : Anchor) :
    tryToYamd (pre ++ opsOfAnchor a ++ post) src =
      tryToYamd (pre ++ around .Anchor [] [] (around .Destination (cs! "(") (cs! ")") [valueOp a.url] ++
        around .Title (cs! "[") (cs! "]") [valueOp a.text]) ++ post) src :=
  run_replace (anchor_order a) pre post

/-- Alt text and source of an image. -/
theorem C70_image_parts_in_any_order (pre post : List Op) (src : Str) (i : Image) :
    tryToYamd (pre ++ opsOfImage i ++ post) src =
      tryToYamd (pre ++ around .Image [] [] (around .Destination (cs! "(") (cs! ")") [valueOp i.src] ++
        around .Title (cs! "![") (cs! "]") [valueOp i.alt]) ++ post) src :=
  run_replace (image_order i) pre post

/-- Language and text of a code block. -/
theorem C70_code_parts_in_any_order (pre post : List Op) (src lang code : Str) :
    tryToYamd (pre ++ opsOfNode (.code lang code) ++ post) src =
      tryToYamd (pre ++ around .Code (cs! "```") (cs! "```") ([valueOp code] ++ around .Modifier [] [] [valueOp lang]) ++ post) src :=
  run_replace (code_order lang code) pre post

/-- Title and body of a collapsible, between any other blocks of a document. -/
theorem C70_collapsible_parts_in_any_order (src title : Str) (before body after : List YamdNode) :
    toYamd (around .Document [] [] (opsOfNodes before ++ around .Collapsible (cs! "{%") (cs! "%}")
        (around .Document [] [] (opsOfNodes body) ++ around .Modifier [] [] [valueOp title]) ++ opsOfNodes after)) src =
      .ok (settle ⟨none, before ++ [.collapsible title body] ++ after⟩) := by
  have happ : ∀ l1 l2 : List YamdNode, settleNodes (l1 ++ l2) = settleNodes l1 ++ settleNodes l2 := by
    intro l1 l2
    induction l1 with
    | nil => rfl
    | cons n r ih => simp only [List.cons_append, settleNodes, ih]
  have h : Turns src (around .Document [] [] (opsOfNodes before ++ around .Collapsible (cs! "{%") (cs! "%}")
        (around .Document [] [] (opsOfNodes body) ++ around .Modifier [] [] [valueOp title]) ++ opsOfNodes after))
      [.Yamd none []] [.Yamd none ([] ++ settleNodes (before ++ [.collapsible title body] ++ after))] := by
    refine turns_around (f := .Document [])
      (g := .Document ([] ++ settleNodes (before ++ [.collapsible title body] ++ after)))
      (t := [.Yamd none []]) rfl ?_ rfl
    have := ((turns_nodes (src := src) before [] [.Yamd none []] rfl).append
      (collapsible_order title body ([] ++ settleNodes before) [.Yamd none []] rfl)).append
      (turns_nodes after _ [.Yamd none []] rfl)
    rw [happ, happ]
    simpa only [List.append_assoc, settleNodes] using this
  unfold Turns at h
  simp only [toYamd, tryToYamd, h]
  simp only [bind, Except.bind, pure, Except.pure, finish, Yamd.new, settle, List.nil_append]

/-! ### Examples -/

/-- A document with every kind of node; list levels and trailing line feeds as a careless caller may give them. -/
def carelessDocument : Yamd :=
  ⟨some (cs! "\na: b\n"), [.heading 2 [.text (cs! "T"), .anchor ⟨cs! "x", cs! "y"⟩],
    .paragraph [.bold [.italic (cs! "i"), .text (cs! "t"), .strikethrough (cs! "s")], .emphasis (cs! "e"), .text (cs! "p\n")],
    .list (.mk .Ordered 7 [.mk [.text (cs! "a"), .codeSpan (cs! "c"), .text (cs! "\n")]
      (some (.mk .Unordered 0 [.mk [.text (cs! "b\n\n")] none]))]),
    .image ⟨cs! "a", cs! "s"⟩, .images [⟨cs! "a", cs! "s"⟩, ⟨cs! "b", cs! "t"⟩], .embed (cs! "k") (cs! "v"),
    .highlight none (some (cs! "i")) [[.text (cs! "e\n")]], .collapsible (cs! "t") [.thematicBreak, .code [] (cs! "z\n")]]⟩

example : toYamd (opsOf carelessDocument) (cs! "unrelated") =
  .ok ⟨some (cs! "a: b"), [.heading 2 [.text (cs! "T"), .anchor ⟨cs! "x", cs! "y"⟩],
    .paragraph [.bold [.italic (cs! "i"), .text (cs! "t"), .strikethrough (cs! "s")], .emphasis (cs! "e"), .text (cs! "p\n")],
    .list (.mk .Ordered 0 [.mk [.text (cs! "a"), .codeSpan (cs! "c")]
      (some (.mk .Unordered 1 [.mk [.text (cs! "b")] none]))]),
    .image ⟨cs! "a", cs! "s"⟩, .images [⟨cs! "a", cs! "s"⟩, ⟨cs! "b", cs! "t"⟩], .embed (cs! "k") (cs! "v"),
    .highlight none (some (cs! "i")) [[.text (cs! "e")]], .collapsible (cs! "t") [.thematicBreak, .code [] (cs! "z")]]⟩ := by
  decide +kernel

/-- The ops of `_a_` and the same with other, partly unresolvable, delimiter contents and the value in another source. -/
example : SameReading (cs! "_a_") (cs! "xxa")
    [⟨.Start .Italic, .Span 0 1⟩, ⟨.Value, .Span 1 2⟩, ⟨.End .Italic, .Span 2 3⟩]
    [⟨.Start .Italic, .Span 9 99⟩, ⟨.Value, .Span 2 3⟩, ⟨.End .Italic, .Materialized (cs! "?")⟩] :=
  .cons rfl (fun h => h.elim) (.cons rfl (fun _ => by decide +kernel) (.cons rfl (fun h => h.elim) .nil))

/-- The parser's own stream and the hand-written one of its document give the same. -/
example : (parse (cs! "- a\n - b\n\n**c** [d](e)")).bind (fun ops => toYamd ops (cs! "- a\n - b\n\n**c** [d](e)")) =
    toYamd (opsOf ⟨none, [.list (.mk .Unordered 0 [.mk [.text (cs! "a")] (some (.mk .Unordered 1 [.mk [.text (cs! "b")] none]))]),
      .paragraph [.bold [.text (cs! "c")], .text (cs! " "), .anchor ⟨cs! "d", cs! "e"⟩]]⟩) [] := by decide +kernel

/-- An item whose nested list comes before its text: the item of the other order. -/
example : toYamd (around .Document [] [] (around .UnorderedList [] [] (around .ListItem [] []
      (opsOfList (.mk .Ordered 1 [.mk [.text (cs! "b")] none]) ++ opsOfParagraph [.text (cs! "a\n")])))) [] =
    .ok ⟨none, [.list (.mk .Unordered 0 [.mk [.text (cs! "a")] (some (.mk .Ordered 1 [.mk [.text (cs! "b")] none]))])]⟩ := by
  decide +kernel

/-- A collapsible whose body comes before its title, and a highlight with its title last. -/
example : toYamd (around .Document [] [] (around .Collapsible (cs! "{%") (cs! "%}")
      (around .Document [] [] (opsOfNodes [.thematicBreak]) ++ around .Modifier [] [] [valueOp (cs! "t")]) ++
      around .Highlight [] [] (opsOfParagraph [.text (cs! "p")] ++ opsOfOption .Modifier (some (cs! "m"))))) [] =
    .ok ⟨none, [.collapsible (cs! "t") [.thematicBreak], .highlight (some (cs! "m")) none [[.text (cs! "p")]]]⟩ := by
  decide +kernel

end Yamd.Props
