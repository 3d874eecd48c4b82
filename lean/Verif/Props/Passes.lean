import Verif.Props.Range
import Verif.Props.Steady
import Verif.Spec.Passes

/-!
# C79: how often a text has to be formatted until nothing changes any more

`Display` writes front matter as it is, the lexer removes a backslash before every character of it: every pass of a
formatter halves a run of backslashes. So there is no number of passes after which every text stays the same.
-/

namespace Yamd.Props

open Yamd Yamd.Spec Yamd.Ref

theorem format_of {s : Str} {y : Yamd} (h : deserialize s = .ok y) : format s = y.display := by
  unfold format
  rw [h]

/-- **C79.** A text without backslashes and carriage returns, with a document of none of the shapes of C52, does not
change after the first pass. -/
theorem C79_one_pass_is_enough (input : Str) (hb : '\\' ∉ input) (hr : '\r' ∉ input) (y : Yamd)
    (hy : deserialize input = .ok y) (hs : steadyDocument y = true) (n : Nat) :
    formatted (n + 1) input = format input := by
  have h1 : format y.display = y.display := format_of (C52_read_documents_round_trip input hb hr y hy hs)
  show formatted n (format input) = format input
  rw [format_of hy]
  induction n with
  | zero => rfl
  | succ n ih => show formatted n (format y.display) = _; rw [h1]; exact ih

theorem last_of_trim {m : Str} (h : trimNl m = m) : m.getLast? ≠ some '\n' := by
  intro hl
  have : (trimNl m).getLast? ≠ some '\n' := by
    unfold trimNl trimEndNl
    rw [List.getLast?_reverse]
    intro h'
    have := List.head?_dropWhile_not (· == '\n') (m.dropWhile (· == '\n')).reverse
    rw [h'] at this
    simp at this
  exact this (h.symm ▸ hl)

theorem hide_last : ∀ m : Str, (hide m).getLast? = m.getLast?
  | [] => rfl
  | [c] => rfl
  | c :: d :: r => by
    have ih := hide_last (d :: r)
    have e : hide (c :: d :: r) = '\\' :: c :: hide (d :: r) := rfl
    obtain ⟨a, t, ht⟩ : ∃ a t, hide (d :: r) = a :: t := ⟨_, _, rfl⟩
    rw [e, List.getLast?_cons_cons, show (c :: d :: r).getLast? = (d :: r).getLast? from List.getLast?_cons_cons, ← ih, ht,
      List.getLast?_cons_cons]

/-- **C79.** Front matter in which every character is behind a backslash loses all these backslashes when it is written
and read again. -/
theorem C79_front_matter_loses_backslashes (m : Str) (h : trimNl m = m) :
    deserialize (Yamd.display ⟨some (hide m), []⟩) = .ok ⟨some m, []⟩ := by
  have e : Yamd.display ⟨some (hide m), []⟩ = spell ⟨some m, []⟩ := by
    have hl : ¬ (hide m).getLast? = some '\n' := by rw [hide_last]; exact last_of_trim h
    simp [Yamd.display, spell, hl, displayBlocks, spellBlocks, joinWith]
  rw [e]
  exact C76_spelling _ (by simp [expressible, h, blocksOf])

/-- The letter `a` behind `k` layers of backslashes. -/
def layers : Nat → Str
  | 0 => cs! "a"
  | k + 1 => hide (layers k)

theorem layers_shape : ∀ k, (layers k).head? ≠ some '\n' ∧ (layers k).getLast? = some 'a'
  | 0 => by decide
  | k + 1 => by
    obtain ⟨h1, h2⟩ := layers_shape k
    refine ⟨?_, by rw [layers, hide_last]; exact h2⟩
    cases hl : layers k with
    | nil => rw [hl] at h2; simp at h2
    | cons c r => simp [layers, hl, hide]

theorem layers_trim (k : Nat) : trimNl (layers k) = layers k := by
  obtain ⟨h1, h2⟩ := layers_shape k
  have d : ∀ s : Str, s.head? ≠ some '\n' → s.dropWhile (· == '\n') = s := by
    intro s hs
    cases s with
    | nil => rfl
    | cons c r => rw [List.dropWhile_cons_of_neg]; simpa using hs
  unfold trimNl trimEndNl
  rw [d _ h1, d _ (by rw [List.head?_reverse, h2]; decide), List.reverse_reverse]

theorem layers_length : ∀ k, (layers k).length = 2 ^ k
  | 0 => rfl
  | k + 1 => by
    have : ∀ s : Str, (hide s).length = 2 * s.length := by
      intro s
      induction s with
      | nil => rfl
      | cons c r ih => simp only [hide, List.flatMap_cons, List.length_append, List.length_cons, List.length_nil] at ih ⊢; omega
    rw [layers, this, layers_length k, Nat.pow_succ]; omega

/-- The text of the front matter with `k` layers. -/
def layered (k : Nat) : Str := Yamd.display ⟨some (layers k), []⟩

theorem layered_format (k : Nat) : format (layered (k + 1)) = layered k :=
  format_of (C79_front_matter_loses_backslashes (layers k) (layers_trim k))

theorem layered_zero : format (layered 0) = layered 0 :=
  format_of (y := ⟨some (layers 0), []⟩) (by unfold layered layers; decide +kernel)

theorem layered_formatted : ∀ i k, formatted i (layered (i + k)) = layered k
  | 0, k => by rw [Nat.zero_add]; rfl
  | i + 1, k => by
    show formatted i (format (layered (i + 1 + k))) = _
    rw [show i + 1 + k = (i + k) + 1 by omega, layered_format, layered_formatted i k]

theorem layered_ne (k : Nat) : layered (k + 1) ≠ layered k := by
  intro h
  have hl : ∀ k, ¬ (layers k).getLast? = some '\n' := fun k => by rw [(layers_shape k).2]; decide
  have := congrArg List.length h
  simp [layered, Yamd.display, hl, layers_length, Nat.pow_succ] at this
  have : 0 < 2 ^ k := Nat.two_pow_pos k
  omega

/-- **C79, finding.** For every `k` there is a text that takes exactly `k` passes until it stays the same, every one of
them making it shorter by another layer of backslashes. -/
theorem C79_any_number_of_passes (k : Nat) :
    ∃ s, (∀ i < k, formatted (i + 1) s ≠ formatted i s) ∧ formatted (k + 1) s = formatted k s := by
  refine ⟨layered k, fun i hi => ?_, ?_⟩
  · obtain ⟨j, rfl⟩ : ∃ j, k = i + 1 + j := ⟨k - (i + 1), by omega⟩
    rw [layered_formatted (i + 1) j, show i + 1 + j = i + (j + 1) by omega, layered_formatted i (j + 1)]
    exact (layered_ne j).symm
  · have key : ∀ n s, formatted (n + 1) s = format (formatted n s) := by
      intro n
      induction n with
      | zero => intro s; rfl
      | succ n ih => intro s; exact ih (format s)
    rw [key, show layered k = layered (k + 0) from rfl, layered_formatted k 0, layered_zero]

/-- Three passes. -/
example : format (cs! "---\n\\\\\\\\\\\\\\a\n---\n\n") = cs! "---\n\\\\\\a\n---\n\n" ∧
    formatted 2 (cs! "---\n\\\\\\\\\\\\\\a\n---\n\n") = cs! "---\n\\a\n---\n\n" ∧
    formatted 3 (cs! "---\n\\\\\\\\\\\\\\a\n---\n\n") = cs! "---\na\n---\n\n" ∧
    formatted 4 (cs! "---\n\\\\\\\\\\\\\\a\n---\n\n") = cs! "---\na\n---\n\n" := by decide +kernel

/-- Two passes without front matter: escaped line breaks and a line feed behind a carriage return. -/
example : formatted 1 (cs! "%} - \\\n\n\n\n") ≠ cs! "%} - \\\n\n\n\n" ∧
    formatted 2 (cs! "%} - \\\n\n\n\n") ≠ formatted 1 (cs! "%} - \\\n\n\n\n") := by decide +kernel

end Yamd.Props
