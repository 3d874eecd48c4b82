import Verif.Proofs.UnslashDoc

/-!
# C77: a backslash before a character that is no syntax changes nothing
-/

namespace Yamd.Props

open Yamd Yamd.Spec Yamd.Ref

/-- **C77.** The document does not depend on the backslashes that stand before a character which is no syntax. -/
theorem C77_superfluous_backslashes (s : Str) : deserialize (unslash s) = deserialize s := by
  rw [deserialize_eq, deserialize_eq, denote_unslash s]

/-- A text that does not end in an escaping backslash is cut there without changing either half. -/
theorem C77_unslash_append (b : Str) : ∀ (n : Nat) (a : Str), a.length ≤ n → dangling a = false →
    unslash (a ++ b) = unslash a ++ unslash b
  | _, [], _, _ => rfl
  | _, [c], _, h => by
    have hc : c ≠ '\\' := by
      intro e; subst e; exact absurd h (by decide)
    rw [List.singleton_append, unslash_cons hc, unslash_cons hc, unslash_nil]
    rfl
  | 0, _ :: _ :: _, hl, _ => by simp at hl
  | n + 1, c :: d :: r, hl, h => by
    simp only [List.length_cons] at hl
    by_cases hc : c = '\\'
    · subst hc
      rw [dangling, if_pos rfl] at h
      have ih := C77_unslash_append b n r (by omega) h
      by_cases hd : d ∈ syntaxChars
      · rw [List.cons_append, List.cons_append, unslash_key hd, unslash_key hd, ih]; rfl
      · rw [List.cons_append, List.cons_append, unslash_other hd, unslash_other hd, ih]; rfl
    · rw [dangling, if_neg hc] at h
      have ih := C77_unslash_append b n (d :: r) (by simp only [List.length_cons]; omega) h
      rw [List.cons_append, unslash_cons hc, unslash_cons hc, ih]; rfl

/-- **C77, one backslash.** Anywhere in a text, a backslash that is not escaped itself and that stands before a
character which is no syntax may be left out. -/
theorem C77_drop_one {c : Char} (hc : c ∉ syntaxChars) {a : Str} (ha : dangling a = false) (b : Str) :
    deserialize (a ++ '\\' :: c :: b) = deserialize (a ++ c :: b) := by
  have hb : c ≠ '\\' := by intro e; subst e; exact hc (by decide)
  rw [← C77_superfluous_backslashes (a ++ '\\' :: c :: b), ← C77_superfluous_backslashes (a ++ c :: b),
    C77_unslash_append _ _ a (Nat.le_refl _) ha, C77_unslash_append _ _ a (Nat.le_refl _) ha,
    unslash_other hc, unslash_cons hb]

/-- **C77, everything at once.** Two texts which differ in such backslashes only are the same document. -/
theorem C77_same_document {s t : Str} (h : unslash s = unslash t) : deserialize s = deserialize t := by
  rw [← C77_superfluous_backslashes s, h, C77_superfluous_backslashes]

/-- What remains has no such backslash left. -/
theorem C77_unslash_stable : ∀ (n : Nat) (s : Str), s.length ≤ n → unslash (unslash s) = unslash s
  | _, [], _ => rfl
  | _, [c], _ => rfl
  | 0, _ :: _ :: _, hl => by simp at hl
  | n + 1, c :: d :: r, hl => by
    simp only [List.length_cons] at hl
    by_cases hc : c = '\\'
    · subst hc
      have ih := C77_unslash_stable n r (by omega)
      by_cases hd : d ∈ syntaxChars
      · rw [unslash_key hd, unslash_key hd, ih]
      · have hb : d ≠ '\\' := by intro e; subst e; exact hd (by decide)
        rw [unslash_other hd, unslash_cons hb, ih]
    · have ih := C77_unslash_stable n (d :: r) (by simp only [List.length_cons]; omega)
      rw [unslash_cons hc, unslash_cons hc, ih]

/-! ### Concrete cases -/

/-- Front matter, a heading, bold and a link, a list, code and a collapsible, all dressed with backslashes. -/
def slashed : Str :=
  cs! "---\n\\t: \\1\n---\n\n# \\a b\n\n**\\x\\y** [\\l](\\u\\r)\n\n- \\i\n- \\j\n\n```\\z\n\\q\n```\n\n{% \\w\n\\v\n%}"

def unslashed : Str :=
  cs! "---\nt: 1\n---\n\n# a b\n\n**xy** [l](ur)\n\n- i\n- j\n\n```z\nq\n```\n\n{% w\nv\n%}"

example : unslash slashed = unslashed ∧ deserialize slashed = deserialize unslashed
    ∧ deserialize slashed = .ok ⟨some (cs! "t: 1"),
      [.heading 1 [.text (cs! "a b")],
       .paragraph [.bold [.text (cs! "xy")], .text (cs! " "), .anchor ⟨cs! "l", cs! "ur"⟩],
       .list (.mk .Unordered 0 [.mk [.text (cs! "i")] none, .mk [.text (cs! "j")] none]),
       .code (cs! "z") (cs! "q"),
       .collapsible (cs! "w") [.paragraph [.text (cs! "v")]]]⟩ := by
  decide +kernel

/-- `C77_drop_one` in the middle of a word, behind an escaped backslash. -/
example : 'b' ∉ syntaxChars ∧ dangling (cs! "a\\\\") = false
    ∧ deserialize (cs! "a\\\\\\bc") = deserialize (cs! "a\\\\bc")
    ∧ deserialize (cs! "a\\\\bc") = .ok ⟨none, [.paragraph [.text (cs! "a\\bc")]]⟩ := by
  decide +kernel

/-- Before a syntax character a backslash does matter. -/
theorem C77_syntax_needed : '*' ∈ syntaxChars ∧ dangling ([] : Str) = false
    ∧ deserialize (cs! "\\**a**") ≠ deserialize (cs! "**a**") := by
  decide +kernel

/-- And so it does behind an escaping backslash: there, it is a character of its own. -/
theorem C77_escapes_needed : 'a' ∉ syntaxChars ∧ dangling (cs! "\\") = true
    ∧ deserialize (cs! "\\" ++ cs! "\\a") ≠ deserialize (cs! "\\" ++ cs! "a") := by
  decide +kernel

end Yamd.Props
