import Verif.Proofs.Exact.Blank
import Verif.Proofs.Exact.ParaText

/-!
# A view without a blank line comes from strings in which none is left
-/

namespace Yamd.Round

open Yamd Yamd.Spec Yamd.Lexer Yamd.Ref

/-- No blank line in a view. -/
def NB (v : V) : Prop := NoInf ['\n', '\n'] v ∧ NoInf ['\n', '\r', '\n'] v

theorem NB.infix {v w : V} (h : NB w) (hi : v <:+: w) : NB v :=
  ⟨fun h1 => h.1 (h1.trans hi), fun h1 => h.2 (h1.trans hi)⟩

theorem mark2_free {a b : Char} {fb : Bool} : ∀ {pat : Str}, a ∉ pat → b ∉ pat → ∀ w : V,
    mark2 a b fb (free pat ++ w) = free pat ++ mark2 a b fb w
  | [], _, _, w => rfl
  | c :: pat, ha, hb, w => by
    have hc : c ≠ a ∧ c ≠ b := ⟨fun h => ha (by simp [h]), fun h => hb (by simp [h])⟩
    have := mark2_append (fb := fb) (x := (false, c)) (.inl hc) [] (free pat ++ w)
    simp only [List.nil_append] at this
    have ih := mark2_free (a := a) (b := b) (fb := fb) (pat := pat) (fun h => ha (List.mem_cons_of_mem _ h)) (fun h => hb (List.mem_cons_of_mem _ h)) w
    show mark2 a b fb ((false, c) :: (free pat ++ w)) = _
    rw [this, ih]
    rfl

theorem infix_mark2 {a b : Char} {fb : Bool} {pat : Str} (hne : pat ≠ []) (ha : a ∉ pat) (hb : b ∉ pat) {v : V}
    (h : free pat <:+: v) : free pat <:+: mark2 a b fb v := by
  obtain ⟨x, y, rfl⟩ := h
  cases pat with
  | nil => exact absurd rfl hne
  | cons c pat =>
    have hc : c ≠ a ∧ c ≠ b := ⟨fun h => ha (by simp [h]), fun h => hb (by simp [h])⟩
    have h1 := mark2_append (fb := fb) (x := (false, c)) (.inl hc) x (free pat ++ y)
    have h2 := mark2_free (a := a) (b := b) (fb := fb) (pat := pat) (fun h => ha (List.mem_cons_of_mem _ h)) (fun h => hb (List.mem_cons_of_mem _ h)) y
    have e : x ++ free (c :: pat) ++ y = x ++ (false, c) :: (free pat ++ y) := by simp [free]
    rw [e, h1, h2]
    exact ⟨mark2 a b fb x, mark2 a b fb y, by simp [free]⟩

theorem NB.of_mark2 {a b : Char} {fb : Bool} {v : V} (ha : a ≠ '\n' ∧ a ≠ '\r') (hb : b ≠ '\n' ∧ b ≠ '\r')
    (h : NB (mark2 a b fb v)) : NB v :=
  ⟨fun hi => h.1 (infix_mark2 (by simp) (by simp [ha]) (by simp [hb]) hi),
    fun hi => h.2 (infix_mark2 (by simp) (by simp [ha]) (by simp [hb]) hi)⟩

theorem NB.of_mark1 {c : Char} {v : V} (hc : c ≠ '\n') (hv : v.head? = some (false, c)) (h : NB (mark1 v)) : NB v := by
  cases v with
  | nil => simp at hv
  | cons x v =>
    have hx : x = (false, c) := by simpa using hv
    subst hx
    have key : ∀ {pat : Str}, free ('\n' :: pat) <:+: (false, c) :: v → free ('\n' :: pat) <:+: mark1 ((false, c) :: v) := by
      rintro pat ⟨a, b, e⟩
      cases a with
      | nil =>
        simp only [free, List.map_cons, List.cons_append, List.nil_append, List.cons.injEq, Prod.mk.injEq, true_and] at e
        exact absurd e.1.symm hc
      | cons y a =>
        simp only [List.cons_append, List.cons.injEq] at e
        exact ⟨(true, c) :: a, b, by simp only [mark1, List.cons_append, List.cons.injEq, true_and]; exact e.2⟩
    exact ⟨fun hi => h.1 (key hi), fun hi => h.2 (key hi)⟩

theorem NB.body {S : List Char} {s : Str} (h1 : '\n' ∉ S) (h2 : '\r' ∉ S) (h : NB (bodyV S s)) : leftBlank s = false :=
  (leftBlank_iff h1 h2 s).2 h

theorem NB.text {s : Str} (h : NB (textV s)) : leftBlankText s = false := by
  have h := (NB.of_mark2 (by decide) (by decide) h).2
  have e := replace_ink (fb := true) (rep := cs! "\\\\") rfl
    (markSet_notEsc (S := ['{', '[', '`', '~', '_', '*', '\\']) (c := '\n') (by decide) s)
  rw [markSet_chars] at e
  have hr : (true, '\r') ∉ mark2 '\n' '\n' true (markSet ['{', '[', '`', '~', '_', '*', '\\'] s) :=
    fun hm => markSet_notEsc (by decide) s (mark2_mem hm (by decide) (by decide))
  simp only [leftBlankText, occurs, decide_eq_false_iff_not]
  rw [e]
  exact fun hi => h (ink_infix (by decide) (by simpa using hr) hi)

theorem NB.mid {x w y : V} (h : NB (x ++ (w ++ y))) : NB w := h.infix ⟨x, y, by simp⟩

theorem NB.link {w1 w2 : V} (h : NB (linkV w1 w2)) : NB w1 ∧ NB w2 :=
  ⟨h.infix ⟨free ['['], free [']'] ++ (free ['('] ++ (w2 ++ free [')'])), by simp [linkV]⟩,
    h.infix ⟨free ['['] ++ (w1 ++ (free [']'] ++ free ['('])), free [')'], by simp [linkV]⟩⟩

theorem NB.boldItem {n : BoldNode} (h : NB (boldItemV n)) : calmB n = true := by
  cases n with
  | text s => simpa [calmB] using h.body (by decide) (by decide)
  | italic s => simpa [calmB] using (h.mid.of_mark2 (by decide) (by decide)).body (by decide) (by decide)
  | strikethrough s => simpa [calmB] using (h.mid.of_mark2 (by decide) (by decide)).body (by decide) (by decide)

theorem NB.node {n : ParagraphNode} (h : NB (nodeW n)) : calmP n = true := by
  cases n with
  | text s => simpa [calmP] using NB.text h
  | italic s => simpa [calmP] using h.mid.body (by decide) (by decide)
  | strikethrough s => simpa [calmP] using h.mid.body (by decide) (by decide)
  | emphasis s => simpa [calmP] using h.mid.body (by decide) (by decide)
  | codeSpan s => simpa [calmP] using h.mid.body (by decide) (by decide)
  | anchor a =>
    obtain ⟨h1, h2⟩ := NB.link h
    simpa [calmP] using ⟨h1.body (by decide) (by decide), h2.body (by decide) (by decide)⟩
  | bold l =>
    simp only [calmP, List.all_eq_true]
    intro x hx
    obtain ⟨a, b, rfl⟩ := List.append_of_mem hx
    have h := NB.mid h
    rw [List.flatMap_append, List.flatMap_cons] at h
    exact NB.boldItem h.mid

theorem NB.para {p : Paragraph} (h : NB (paraW p)) : p.all calmP = true := by
  rw [List.all_eq_true]
  intro x hx
  obtain ⟨a, b, rfl⟩ := List.append_of_mem hx
  rw [paraW, List.flatMap_append, List.flatMap_cons] at h
  exact NB.node h.mid

theorem calm_solid {p : Paragraph} (h1 : p.all solid = true) (h2 : p.all calmP = true) : p.all (safeNode ⟨false⟩) = true := by
  rw [List.all_eq_true] at *
  intro x hx
  rw [safe_split, h1 x hx, h2 x hx]; rfl

end Yamd.Round
