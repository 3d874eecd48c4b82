import Verif.Proofs.SteadyDoc
import Verif.Proofs.Round.Fence
import Verif.Props.RoundTrip

/-!
# C52: what was read can be written

`steadyDocument` (`Spec/Steady.lean`) lists the shapes of documents that `Display` cannot write.
-/

namespace Yamd.Ref

open Yamd Yamd.Spec Yamd.ToYamd

theorem slice_sub {src : Str} {t : Token} : sliceD src t ⊆ src := by
  unfold sliceD
  cases h : slice src t.start t.stop with
  | none => simp
  | some s =>
    obtain ⟨p, q, rfl, -⟩ := slice_iff.1 h
    intro c hc
    simp only [Option.getD_some] at hc
    simp [hc]

theorem text_sub {src : Str} {ts : List Token} : textOfToks src ts ⊆ src := by
  intro c hc
  obtain ⟨t, -, h⟩ := List.mem_flatMap.1 hc
  exact slice_sub h

theorem steady_safe {input : Str} (hb : '\\' ∉ input) (hr : '\r' ∉ input)
    (h : steadyDocument ((topB (tokens input)).denote input) = true) :
    safeDocument ((topB (tokens input)).denote input) = true := by
  have ht := tidy_tokens hb hr
  have key : ∀ ts, Tidy input ts → steadyBlocks ((docB [] ts).1.denote input) = true →
      safeBlocks false ((docB [] ts).1.denote input) = true ∧ ((docB [] ts).1.denote input).dropLast.all endsClean = true := by
    intro ts ht hs
    have := settled [] ts false (by simp) (fun x hx => by simp at hx) ht hs
    exact ⟨this.1, this.2.1⟩
  unfold topB at h ⊢
  split at h <;> rename_i hd
  · rename_i d r
    rw [delimB_toks hd] at ht
    simp only [Top.denote, Yamd.new, Option.map_some, steadyDocument, safeDocument, Bool.and_eq_true] at h ⊢
    obtain ⟨k1, k2⟩ := key r ht.right h
    obtain ⟨f1, f2⟩ := Round.read_noFence hb hd
    refine ⟨⟨?_, k1⟩, k2⟩
    simp only [safeMetadata, Bool.and_eq_true, Bool.not_eq_true', beq_iff_eq]
    refine ⟨⟨⟨by simp [trimNl_idem], ?_⟩, by rw [trimNl_idem]; exact f1⟩, by rw [trimNl_idem]; exact f2⟩
    rw [List.contains_eq_mem]
    simp only [decide_eq_false_iff_not]
    intro hm
    exact hb (text_sub ((trimNl_sublist _).subset ((trimNl_sublist _).subset hm)))
  · simp only [Top.denote, Yamd.new, Option.map_none, steadyDocument, safeDocument, Bool.true_and] at h ⊢
    obtain ⟨k1, k2⟩ := key _ ht h
    rw [k1, k2]; rfl

end Yamd.Ref

namespace Yamd.Props

open Yamd Yamd.Spec Yamd.Ref

/-- **C52.** A document read from a text without backslashes and carriage returns is read back from what
`Display` writes for it, unless it has one of the listed shapes. -/
theorem C52_read_documents_round_trip (input : Str) (hb : '\\' ∉ input) (hr : '\r' ∉ input) (y : Yamd)
    (hy : deserialize input = .ok y) (hs : steadyDocument y = true) : RoundTrips y := by
  rw [deserialize_eq] at hy
  obtain rfl := Except.ok.inj hy
  exact C41_documents_round_trip _ (steady_safe hb hr hs)

/-- **C52.** So formatting such a text twice gives the same text as formatting it once. -/
theorem C52_formatting_is_idempotent (input : Str) (hb : '\\' ∉ input) (hr : '\r' ∉ input) (y : Yamd)
    (hy : deserialize input = .ok y) (hs : steadyDocument y = true) :
    ∃ y', deserialize y.display = .ok y' ∧ y'.display = y.display :=
  ⟨y, C52_read_documents_round_trip input hb hr y hy hs, rfl⟩

/-- Texts that meet the hypotheses, with front matter and all kinds of blocks. -/
def sampleTexts : List Str :=
  [cs! "---\nt\n---\n# A [a](b)\n\nx **b _i_** `c`\ny", cs! "- a\n   - x\n+ y\n - b\n + z\n- c\n\n![i](j)\n![k](l)", cs! "```rust\nx;\n\n y\n```\n{{a|b}}",
   cs! "!! T\n! I\np\n\nq\n!!\n-----", cs! "{% m\n## h\n\n{% n\nx\n%}\n%}\n\nl"]

/-- The hypotheses are met. -/
example : ∀ input ∈ sampleTexts, '\\' ∉ input ∧ '\r' ∉ input ∧ ∃ y, deserialize input = .ok y ∧ steadyDocument y = true ∧
    2 ≤ y.body.length := by
  intro input h
  have key : sampleTexts.all (fun i => !i.contains '\\' && !i.contains '\r' && (deserialize i).toOption.any
      (fun y => steadyDocument y && decide (2 ≤ y.body.length))) = true := by decide +kernel
  have := List.all_eq_true.1 key input h
  simp only [Bool.and_eq_true, Bool.not_eq_true', List.contains_eq_mem, decide_eq_false_iff_not] at this
  refine ⟨this.1.1, this.1.2, ?_⟩
  have h2 := this.2
  cases hd : deserialize input with
  | error e => rw [hd] at h2; simp [Except.toOption] at h2
  | ok y =>
    rw [hd] at h2
    simp only [Except.toOption, Option.any_some, Bool.and_eq_true, decide_eq_true_eq] at h2
    exact ⟨y, rfl, h2.1, h2.2⟩

/-- **C52, finding.** The documents read from these texts, all without backslashes and carriage returns, are not
read back from what `Display` writes: a heading marker after `-----`, a highlight without text, a line break at
the start of a collapsible, of a highlight and of code. -/
theorem C52_conditions_are_needed :
    ∀ input ∈ [cs! "-----## x", cs! "!!\n!!", cs! "{% a\n\n\nx\n%}", cs! "!! a\n\n\nx\n!!", cs! "```\n\n\nx\n```"],
      '\\' ∉ input ∧ '\r' ∉ input ∧ ∃ y, deserialize input = .ok y ∧ steadyDocument y = false ∧ ¬ RoundTrips y := by
  intro input h
  have key : [cs! "-----## x", cs! "!!\n!!", cs! "{% a\n\n\nx\n%}", cs! "!! a\n\n\nx\n!!", cs! "```\n\n\nx\n```"].all
      (fun i => !i.contains '\\' && !i.contains '\r' && (deserialize i).toOption.any
        (fun y => !steadyDocument y && !decide (deserialize y.display = .ok y))) = true := by decide +kernel
  have := List.all_eq_true.1 key input h
  simp only [Bool.and_eq_true, Bool.not_eq_true', List.contains_eq_mem, decide_eq_false_iff_not] at this
  refine ⟨this.1.1, this.1.2, ?_⟩
  have h2 := this.2
  cases hd : deserialize input with
  | error e => rw [hd] at h2; simp [Except.toOption] at h2
  | ok y =>
    rw [hd] at h2
    simp only [Except.toOption, Option.any_some, Bool.and_eq_true, Bool.not_eq_true', decide_eq_false_iff_not] at h2
    exact ⟨y, rfl, h2.1, h2.2⟩

end Yamd.Props
