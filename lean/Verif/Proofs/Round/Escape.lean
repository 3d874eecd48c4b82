import Verif.Proofs.Round.Nodes
import Verif.Spec.RoundTrip

/-!
# The views of displayed inline nodes
-/

namespace Yamd.Round

open Yamd Yamd.Spec Yamd.Lexer Yamd.Ref

/-! ### Marks -/

theorem markSet_chars (S : List Char) (s : Str) : (markSet S s).map Prod.snd = s := by
  rw [(more_markSet S s).chars]; simp [free, Function.comp_def]

theorem mark2_chars {a b : Char} {fb : Bool} (v : V) : (mark2 a b fb v).map Prod.snd = v.map Prod.snd :=
  (more_mark2 v).chars

theorem markSet_valid {S : List Char} (h : '\\' ∈ S) (s : Str) : Valid (markSet S s) := markSet_notFree h s

theorem mark2_valid {a b : Char} {fb : Bool} {v : V} (h : Valid v) : Valid (mark2 a b fb v) := (more_mark2 v).valid h

/-- Marks do not depend on the order of the set. -/
theorem markSet_congr {S T : List Char} (h : ∀ c, c ∈ S ↔ c ∈ T) (s : Str) : markSet S s = markSet T s := by
  unfold markSet
  refine List.map_congr_left (fun c _ => ?_)
  have : S.contains c = T.contains c := by
    rw [Bool.eq_iff_iff, List.contains_iff_mem, List.contains_iff_mem]; exact h c
  rw [this]

/-! ### Conditions on texts -/

/-- What a text must not contain, for each stop condition. -/
def strq (s : Str) : Stop → Prop
  | .Terminator => leftBlank s = false
  | .CollapsibleEnd => ¬ ['\n', '%', '}'] <:+: s
  | .HighlightEnd => ¬ ['\n', '!', '!'] <:+: s
  | .ListBoundary _ _ => ¬ ['\n', ' '] <:+: s ∧ ¬ ['\n', '-'] <:+: s ∧ ¬ ['\n', '+'] <:+: s

/-- The same for plain text, where blank lines and `%}` are escaped. -/
def textq (s : Str) : Stop → Prop
  | .Terminator => leftBlankText s = false
  | .CollapsibleEnd => True
  | st => strq s st

/-- The view of a body: some characters and the blank lines are escaped. -/
def bodyV (S : List Char) (s : Str) : V := mark2 '\n' '\n' false (markSet S s)

theorem bodyV_chars (S : List Char) (s : Str) : (bodyV S s).map Prod.snd = s := by
  rw [bodyV, mark2_chars, markSet_chars]

theorem noStart_of {pat : Str} {v : V} (h : ¬ ('\n' :: pat) <:+: v.map Prod.snd) : NoStart false pat v :=
  ⟨fun h => by simp at h, noInf_chars h⟩

/-! ### Blank lines that are left -/

/-- A backslash in the place of an escaped line feed. -/
def ink (x : Bool × Char) : Char := if x = (true, '\n') then '\\' else x.2

theorem ink_free (c : Char) : ink (false, c) = c := by simp [ink]

theorem infix_ink {pat : Str} {v : V} (h : free pat <:+: v) : pat <:+: v.map ink := by
  have := h.map ink
  rwa [show (free pat).map ink = pat by simp [free, Function.comp_def, ink_free]] at this

theorem replace_ink {fb : Bool} {rep : Str} (hr : rep = [ink (true, '\n'), ink (fb, '\n')]) :
    ∀ {v : V}, (true, '\n') ∉ v → replace ['\n', '\n'] rep (v.map Prod.snd) = (mark2 '\n' '\n' fb v).map ink
  | [], _ => rfl
  | [x], h => by
    have : ink x = x.2 := by
      simp only [ink]; rw [if_neg]; rintro rfl; simp at h
    simp [mark2, this, replace, replaceGo]
  | x :: y :: r, h => by
    have hx : x ≠ (true, '\n') := by rintro rfl; simp at h
    have hy : y ≠ (true, '\n') := by rintro rfl; simp at h
    have hr' : (true, '\n') ∉ r := fun hm => h (by simp [hm])
    by_cases hc : x = (false, '\n') ∧ y = (false, '\n')
    · obtain ⟨rfl, rfl⟩ := hc
      rw [mark2_yes, List.map_cons, List.map_cons, show ((false, '\n') : Bool × Char).2 = '\n' from rfl]
      have := replace_yes (pat := ['\n', '\n']) (rep := rep) (s := r.map Prod.snd) (by simp)
      simp only [List.cons_append, List.nil_append] at this
      rw [this, replace_ink hr hr', hr]
      simp
    · have ih := replace_ink hr (v := y :: r) (fun hm => h (by simp only [List.mem_cons] at hm ⊢; exact .inr hm))
      rw [mark2_no hc, List.map_cons, List.map_cons, replace_no, ← List.map_cons, ih, List.map_cons, ink, if_neg hx]
      obtain ⟨f, c⟩ := x
      obtain ⟨g, d⟩ := y
      rw [Bool.eq_false_iff]
      intro hp
      simp only [List.map_cons, List.isPrefixOf_cons₂, Bool.and_eq_true, beq_iff_eq, List.isPrefixOf_nil_left] at hp
      obtain ⟨rfl, rfl, -⟩ := hp
      cases f <;> cases g <;> simp_all

theorem noInf_head {c : Char} {pat : Str} {v : V} (h : (false, c) ∉ v) : NoInf (c :: pat) v := fun hi =>
  h (hi.subset (by simp [free]))

/-- The blank lines left in a body are the ones left in its view. -/
theorem bodyV_blank {S : List Char} {s : Str} (h : leftBlank s = false) :
    NoInf ['\n', '\n'] (bodyV S s) ∧ NoInf ['\n', '\r', '\n'] (bodyV S s) := by
  by_cases hS : '\n' ∈ S
  · have := (more_mark2 (a := '\n') (b := '\n') (fb := false) _).notFree (markSet_notFree hS s)
    exact ⟨noInf_head this, noInf_head this⟩
  · have e := replace_ink (fb := false) (rep := cs! "\\\n") rfl (markSet_notEsc hS s)
    rw [markSet_chars] at e
    simp only [leftBlank, Bool.or_eq_false_iff] at h
    rw [e] at h
    exact ⟨fun hi => absurd (infix_ink hi) (by simpa [occurs, bodyV] using h.1),
      fun hi => absurd (infix_ink hi) (by simpa [occurs, bodyV] using h.2)⟩

theorem textV_blank {s : Str} (h : leftBlankText s = false) : NoInf ['\n', '\r', '\n']
    (mark2 '\n' '\n' true (markSet ['{', '[', '`', '~', '_', '*', '\\'] s)) := by
  have e := replace_ink (fb := true) (rep := cs! "\\\\") rfl
    (markSet_notEsc (S := ['{', '[', '`', '~', '_', '*', '\\']) (c := '\n') (by decide) s)
  rw [markSet_chars] at e
  simp only [leftBlankText] at h
  rw [e] at h
  exact fun hi => absurd (infix_ink hi) (by simpa [occurs] using h)

theorem ink_eq {x : Bool × Char} {c : Char} (hc : c ≠ '\\') (h : ink x = c) : x.2 = c ∧ x ≠ (true, '\n') := by
  unfold ink at h
  split at h
  · exact absurd h.symm hc
  · rename_i h2; exact ⟨h, h2⟩

theorem ink_infix {pat : Str} (hb : '\\' ∉ pat) : ∀ {v : V}, (∀ c ∈ pat, c ≠ '\n' → (true, c) ∉ v) → pat <:+: v.map ink →
    free pat <:+: v := by
  intro v hv ⟨a, b, e⟩
  rw [List.append_assoc] at e
  obtain ⟨v1, v2, rfl, -, e2⟩ := List.append_eq_map_iff.1 e
  obtain ⟨v3, v4, rfl, e3, -⟩ := List.map_eq_append_iff.1 e2
  refine ⟨v1, v4, ?_⟩
  rw [List.append_assoc]
  congr 2
  have : ∀ x ∈ v3, x = (false, ink x) := by
    intro x hx
    have hm : ink x ∈ pat := by rw [← e3]; exact List.mem_map_of_mem hx
    obtain ⟨h1, h2⟩ := ink_eq (c := ink x) (fun h => hb (h ▸ hm)) rfl
    obtain ⟨f, d⟩ := x
    rw [← h1]
    cases f with
    | false => rfl
    | true =>
      refine absurd ?_ (hv _ hm ?_)
      · rw [← h1]; simp [hx]
      · rw [← h1]; rintro rfl; exact h2 rfl
  rw [← e3, free, List.map_map]
  conv => rhs; rw [← List.map_id v3]
  exact List.map_congr_left (fun x hx => (this x hx).symm)

theorem leftBlank_iff {S : List Char} (h1 : '\n' ∉ S) (h2 : '\r' ∉ S) (s : Str) :
    leftBlank s = false ↔ NoInf ['\n', '\n'] (bodyV S s) ∧ NoInf ['\n', '\r', '\n'] (bodyV S s) := by
  refine ⟨bodyV_blank, fun ⟨ha, hb⟩ => ?_⟩
  have e := replace_ink (fb := false) (rep := cs! "\\\n") rfl (markSet_notEsc h1 s)
  rw [markSet_chars] at e
  have hr : (true, '\r') ∉ bodyV S s := fun hm => markSet_notEsc h2 s (mark2_mem hm (by decide) (by decide))
  simp only [leftBlank, Bool.or_eq_false_iff, occurs, decide_eq_false_iff_not]
  rw [e]
  exact ⟨fun hi => ha (ink_infix (by decide) (by simp) hi), fun hi => hb (ink_infix (by decide) (by simpa using hr) hi)⟩

/-- Without three line feeds in a row, or two with a carriage return between them, no blank line is left. -/
theorem leftBlank_of {s : Str} (h1 : ¬ ['\n', '\n', '\n'] <:+: s) (h2 : ¬ ['\n', '\r', '\n'] <:+: s) : leftBlank s = false :=
  (leftBlank_iff (S := []) (by simp) (by simp) s).2 ⟨noInf_mark2_false (noInf_chars (by rw [markSet_chars]; exact h1)),
    noInf_chars (by rw [bodyV_chars]; exact h2)⟩

theorem leftBlankText_of {s : Str} (h : ¬ ['\n', '\r', '\n'] <:+: s) : leftBlankText s = false := by
  have e := replace_ink (fb := true) (rep := cs! "\\\\") rfl (markSet_notEsc (S := []) (c := '\n') (by simp) s)
  rw [markSet_chars] at e
  simp only [leftBlankText, occurs, decide_eq_false_iff_not]
  rw [e]
  intro hi
  have hr : (true, '\r') ∉ mark2 '\n' '\n' true (markSet [] s) := fun hm => markSet_notEsc (by simp) s (mark2_mem hm (by decide) (by decide))
  have := ink_infix (by decide) (by simpa using hr) hi
  exact noInf_chars (by rw [mark2_chars, markSet_chars]; exact h) this

/-- A text that does not end in a line feed is replaced by itself. -/
theorem replace_append {a : Char} {rep : Str} : ∀ {s : Str} (t : Str), s.getLast? ≠ some a →
    replace [a, a] rep (s ++ t) = replace [a, a] rep s ++ replace [a, a] rep t
  | [], t, _ => by simp [replace, replaceGo]
  | [c], t, h => by
    have hc : c ≠ a := by simpa using h
    have hp : ∀ u : Str, ([a, a] : Str).isPrefixOf (c :: u) = false := fun u => by
      simp [List.isPrefixOf, Ne.symm hc]
    rw [List.cons_append, List.nil_append, replace_no (hp _), replace_no (hp _)]
    simp [replace, replaceGo]
  | c :: d :: s, t, h => by
    by_cases hp : c = a ∧ d = a
    · obtain ⟨rfl, rfl⟩ := hp
      have hs : s.getLast? ≠ some d := by
        cases s with
        | nil => simp at h
        | cons x s => simpa [List.getLast?_cons_cons] using h
      have h1 := replace_yes (pat := [d, d]) (rep := rep) (s := s ++ t) (by simp)
      have h2 := replace_yes (pat := [d, d]) (rep := rep) (s := s) (by simp)
      simp only [List.cons_append, List.nil_append] at h1 h2 ⊢
      rw [h1, h2, replace_append t hs, List.append_assoc]
    · have hq : ∀ u : Str, ([a, a] : Str).isPrefixOf (c :: d :: u) = false := fun u => by
        rw [Bool.eq_false_iff]
        intro h
        simp only [List.isPrefixOf_cons_cons, Bool.and_eq_true, beq_iff_eq] at h
        exact hp ⟨h.1.symm, h.2.1.symm⟩
      have ih := replace_append (rep := rep) (s := d :: s) t (by rwa [List.getLast?_cons_cons] at h)
      rw [List.cons_append, List.cons_append, replace_no (hq _), replace_no (hq _), ← List.cons_append, ih]
      rfl

theorem bodyV_vq {S s stops} (h : ∀ st ∈ stops, strq s st) : VQ stops false (bodyV S s) := by
  intro st hst
  have := h st hst
  cases st with
  | Terminator =>
    exact bodyV_blank this
  | CollapsibleEnd => exact noStart_of (by rw [bodyV_chars]; exact this)
  | HighlightEnd => exact noStart_of (by rw [bodyV_chars]; exact this)
  | ListBoundary l k =>
    exact ⟨noStart_of (by rw [bodyV_chars]; exact this.1), noStart_of (by rw [bodyV_chars]; exact this.2.1),
      noStart_of (by rw [bodyV_chars]; exact this.2.2)⟩

theorem bodyV_body {S S' s stops} (hb : '\\' ∈ S') (hS : ∀ c ∈ S, c ∈ S') (h : ∀ st ∈ stops, strq s st) :
    Body stops false S s (bodyV S' s) :=
  ⟨mark2_valid (markSet_valid hb s), bodyV_chars _ _,
    fun c hc => (more_mark2 _).notFree (markSet_notFree (hS c hc) s), bodyV_vq h⟩

/-- The blank lines of a view are escaped by the replacement `"\n\n" → "\\\n\n"`. -/
theorem replace_blank {S : List Char} (h : '\n' ∉ S) (s : Str) :
    replace (cs! "\n\n") (cs! "\\\n\n") (render (markSet S s)) = render (bodyV S s) :=
  replace_two (fb := false) (by decide) (by decide) rfl (markSet_notEsc h s)

/-! ### Displays of delimited nodes -/

theorem displayItalic_eq (s : Str) : displayItalic s = render (free ['_'] ++ (bodyV ['_', '\\'] s ++ free ['_'])) := by
  rw [displayItalic, replace_backslash, replace_char (by decide) (by decide), replace_blank (by decide)]
  rw [render_append, render_append, render_free_all, List.append_assoc]

theorem displayStrikethrough_eq (s : Str) :
    displayStrikethrough s = render (free ['~', '~'] ++ (bodyV ['~', '\\'] s ++ free ['~', '~'])) := by
  rw [displayStrikethrough, replace_backslash, replace_char (by decide) (by decide), replace_blank (by decide)]
  rw [render_append, render_append, render_free_all, List.append_assoc]

theorem displayEmphasis_eq (s : Str) : displayEmphasis s = render (free ['*'] ++ (bodyV ['*', '\\'] s ++ free ['*'])) := by
  rw [displayEmphasis, replace_backslash, replace_char (by decide) (by decide), replace_blank (by decide)]
  rw [render_append, render_append, render_free_all, List.append_assoc]

theorem displayCodeSpan_eq {s : Str} (h : s ≠ []) :
    displayCodeSpan s = render (free ['`'] ++ (bodyV ['`', '\\'] s ++ free ['`'])) := by
  rw [displayCodeSpan, if_neg h, replace_backslash, replace_char (by decide) (by decide), replace_blank (by decide)]
  rw [render_append, render_append, render_free_all, List.append_assoc]

theorem anchor_eq (a : Anchor) : a.display =
    render (linkV (bodyV [']', '[', '\\'] a.text) (bodyV [')', '(', '\\'] a.url)) := by
  rw [Anchor.display, replace_backslash, replace_char (by decide) (by decide), replace_char (by decide) (by decide),
    replace_blank (by decide), replace_backslash, replace_char (by decide) (by decide),
    replace_char (by decide) (by decide), replace_blank (by decide)]
  simp only [linkV, render_append, render_free_all, List.append_assoc]
  rfl

theorem image_eq (i : Image) : i.display =
    render (free ['!'] ++ linkV (bodyV [']', '\\'] i.alt) (bodyV [')', '(', '\\'] i.src)) := by
  rw [Image.display, replace_backslash, replace_char (by decide) (by decide), replace_blank (by decide),
    replace_backslash, replace_char (by decide) (by decide), replace_char (by decide) (by decide),
    replace_blank (by decide)]
  simp only [linkV, render_append, render_free_all, List.append_assoc]
  rfl

/-! ### Text -/

/-- The view of the text of a paragraph. -/
def textV (s : Str) : V :=
  mark2 '%' '}' false (mark2 '\n' '\n' true (markSet ['{', '[', '`', '~', '_', '*', '\\'] s))

theorem displayText_eq (s : Str) : displayText s = render (textV s) := by
  rw [displayText, replace_backslash]
  iterate 6 rw [replace_char (by decide) (by decide)]
  rw [replace_two (a := '\n') (b := '\n') (fb := true) (rep := cs! "\\\n\\\n") (by decide) (by decide) rfl (markSet_notEsc (by decide) s),
    replace_two (a := '%') (b := '}') (fb := false) (rep := cs! "\\%}") (by decide) (by decide) rfl]
  · rfl
  · intro h
    exact markSet_notEsc (by decide) s (mark2_mem h (by decide) (by decide))

theorem textV_chars (s : Str) : (textV s).map Prod.snd = s := by
  rw [textV, mark2_chars, mark2_chars, markSet_chars]

theorem textV_notFree {s : Str} {c : Char} (h : c ∈ ['{', '[', '`', '~', '_', '*', '\\']) : (false, c) ∉ textV s :=
  ((more_mark2 _).trans (more_mark2 _)).notFree (markSet_notFree h s)

theorem textV_valid (s : Str) : Valid (textV s) := textV_notFree (by simp)

theorem noPrefix_of_noInf {pat : Str} {v : V} (h : NoInf pat v) : ¬ free pat <+: v := fun hp => h hp.isInfix

theorem noInf_of_tail {c : Char} {pat : Str} {v : V} (h : NoInf pat v) : NoInf (c :: pat) v := by
  rintro ⟨a, b, e⟩
  exact h ⟨a ++ [(false, c)], b, by rw [← e]; simp [free]⟩

/-- What plain text must avoid at the start of a line, besides what is escaped. -/
def frontq (b : Bool) (s : Str) : Stop → Prop
  | .HighlightEnd => b = true → ¬ ['!', '!'] <+: s
  | .ListBoundary _ _ => b = true → ¬ [' '] <+: s ∧ ¬ ['-'] <+: s ∧ ¬ ['+'] <+: s
  | _ => True

theorem textV_vq {s stops b} (h : ∀ st ∈ stops, textq s st) (hb : ∀ st ∈ stops, frontq b s st) : VQ stops b (textV s) := by
  intro st hst
  have h1 := h st hst
  have h2 := hb st hst
  have key : ∀ pat, ¬ ('\n' :: pat) <:+: s → (b = true → ¬ pat <+: s) → NoStart b pat (textV s) := by
    intro pat h3 h4
    exact ⟨fun hb => noFront_chars (by rw [textV_chars]; exact h4 hb), noInf_chars (by rw [textV_chars]; exact h3)⟩
  cases st with
  | Terminator =>
    exact ⟨(more_mark2 _).noInf (noInf_mark2_true _), (more_mark2 _).noInf (textV_blank h1)⟩
  | CollapsibleEnd =>
    have : NoInf ['%', '}'] (textV s) := noInf_mark2_ne (by decide) _
    exact ⟨fun _ => noPrefix_of_noInf this, noInf_of_tail this⟩
  | HighlightEnd => exact key _ h1 h2
  | ListBoundary l k =>
    exact ⟨key _ h1.1 (fun hb => (h2 hb).1), key _ h1.2.1 (fun hb => (h2 hb).2.1), key _ h1.2.2 (fun hb => (h2 hb).2.2)⟩

theorem textV_body {s stops b} (h : ∀ st ∈ stops, textq s st) (hb : ∀ st ∈ stops, frontq b s st) :
    Body stops b textSet s (textV s) :=
  ⟨textV_valid s, textV_chars s, fun c hc => textV_notFree (by
    simp only [textSet, List.mem_cons, List.not_mem_nil, or_false] at hc ⊢
    rcases hc with h | h | h | h | h <;> simp [h]), textV_vq h hb⟩

/-! ### Bold -/

/-- Without free stars there is no double star. -/
theorem no_star_pair {v : V} (h : (false, '*') ∉ v) : ¬ ['*', '*'] <:+: render v := by
  rintro ⟨a, b, e⟩
  have hkey : ∀ (v : V) (a b : Str), (false, '*') ∉ v → a ++ ['*', '*'] ++ b = render v → False := by
    intro v
    induction v with
    | nil => intro a b _ e; simp [render] at e
    | cons x v ih =>
      intro a b h e
      have ht : (false, '*') ∉ v := fun hm => h (by simp [hm])
      obtain ⟨f, c⟩ := x
      cases f with
      | false =>
        have hc : c ≠ '*' := by rintro rfl; simp at h
        rw [render_free] at e
        cases a with
        | nil => simp at e; exact hc e.1.symm
        | cons d a =>
          simp only [List.cons_append, List.cons.injEq] at e
          exact ih a b ht e.2
      | true =>
        rw [render_esc] at e
        match a, e with
        | [], e => simp at e
        | [d], e =>
          simp only [List.cons_append, List.nil_append, List.cons.injEq] at e
          have e3 := e.2.2
          -- a star right after an escaped star starts the rest
          cases v with
          | nil => simp [render] at e3
          | cons y v =>
            obtain ⟨g, c'⟩ := y
            cases g with
            | false =>
              rw [render_free] at e3
              simp only [List.cons.injEq] at e3
              exact ht (by rw [e3.1]; simp)
            | true => rw [render_esc] at e3; simp at e3
        | d :: d' :: a, e =>
          simp only [List.cons_append, List.cons.injEq] at e
          exact ih a b ht e.2.2
  exact hkey v a b h e

theorem mark2_append {a b : Char} {fb : Bool} {x : Bool × Char} (hx : x.2 ≠ a ∧ x.2 ≠ b ∨ x.1 = true) :
    ∀ (v w : V), mark2 a b fb (v ++ x :: w) = mark2 a b fb v ++ x :: mark2 a b fb w
  | [], w => by
    have hxa : x ≠ (false, a) := by rintro rfl; simp at hx
    cases w with
    | nil => rfl
    | cons y w => rw [List.nil_append, mark2_no (fun h => hxa h.1)]; rfl
  | [y], w => by
    have hxb : x ≠ (false, b) := by rintro rfl; simp at hx
    have ih := mark2_append (fb := fb) hx [] w
    rw [List.nil_append] at ih
    rw [List.cons_append, List.nil_append, mark2_no (fun h => hxb h.2), ih]
    rfl
  | y :: z :: v, w => by
    by_cases h : y = (false, a) ∧ z = (false, b)
    · obtain ⟨rfl, rfl⟩ := h
      rw [List.cons_append, List.cons_append, mark2_yes, mark2_yes, mark2_append hx v w]
      rfl
    · have ih := mark2_append (fb := fb) hx (z :: v) w
      rw [List.cons_append] at ih
      rw [List.cons_append, List.cons_append, mark2_no h, mark2_no h, ih]
      rfl

/-- Around a delimited body the marks are those of the body. -/
theorem mark2_delim {a b c : Char} {fb : Bool} (hc : c ≠ a ∧ c ≠ b) (w : V) :
    mark2 a b fb (free [c] ++ (w ++ free [c])) = free [c] ++ (mark2 a b fb w ++ free [c]) := by
  have h1 := mark2_append (x := (false, c)) (a := a) (b := b) (fb := fb) (.inl hc) [] (w ++ free [c])
  have h2 := mark2_append (x := (false, c)) (a := a) (b := b) (fb := fb) (.inl hc) w []
  simp only [List.nil_append] at h1
  show mark2 a b fb ((false, c) :: (w ++ [(false, c)])) = _
  rw [show (free [c] : V) = [(false, c)] from rfl] at *
  rw [h1, h2]
  rfl

theorem mark2_delim2 {a b c : Char} {fb : Bool} (hc : c ≠ a ∧ c ≠ b) (w : V) :
    mark2 a b fb (free [c, c] ++ (w ++ free [c, c])) = free [c, c] ++ (mark2 a b fb w ++ free [c, c]) := by
  have h := mark2_delim (fb := fb) hc (free [c] ++ (w ++ free [c]))
  rw [mark2_delim hc w] at h
  have e : ∀ u : V, free [c] ++ ((free [c] ++ (u ++ free [c])) ++ free [c]) = free [c, c] ++ (u ++ free [c, c]) := by
    intro u; simp [free]
  rw [e, e] at h
  exact h

/-- The view of a child of a bold, after the escaping of double stars. -/
def boldItemV : BoldNode → V
  | .text s => bodyV ['~', '_', '*', '\\'] s
  | .italic s => free ['_'] ++ (mark2 '*' '*' false (bodyV ['_', '\\'] s) ++ free ['_'])
  | .strikethrough s => free ['~', '~'] ++ (mark2 '*' '*' false (bodyV ['~', '\\'] s) ++ free ['~', '~'])

theorem notEsc_append {c : Char} {v w : V} (h1 : (true, c) ∉ v) (h2 : (true, c) ∉ w) : (true, c) ∉ v ++ w := by
  simp [h1, h2]

theorem notEsc_free {c : Char} {s : Str} : (true, c) ∉ free s := by simp [free]

theorem bodyV_notEsc {S : List Char} {s : Str} {c : Char} (h : c ∉ S) (hn : c ≠ '\n') : (true, c) ∉ bodyV S s :=
  fun hm => markSet_notEsc h s (mark2_mem hm hn hn)

theorem boldItem_eq (n : BoldNode) : replace (cs! "**") (cs! "\\**") n.display = render (boldItemV n) := by
  cases n with
  | text s =>
    have e : BoldNode.display (.text s) = render (bodyV ['~', '_', '*', '\\'] s) := by
      simp only [BoldNode.display]
      rw [replace_backslash]
      iterate 3 rw [replace_char (by decide) (by decide)]
      rw [replace_blank (by decide)]
    rw [e, replace_id]
    · rfl
    · exact no_star_pair ((more_mark2 _).notFree (markSet_notFree (by simp) s))
  | italic s =>
    simp only [BoldNode.display]
    rw [displayItalic_eq, replace_two (a := '*') (b := '*') (fb := false) (rep := cs! "\\**") (by decide) (by decide) rfl, mark2_delim (by decide)]
    · rfl
    · exact notEsc_append notEsc_free (notEsc_append (bodyV_notEsc (by decide) (by decide)) notEsc_free)
  | strikethrough s =>
    simp only [BoldNode.display]
    rw [displayStrikethrough_eq, replace_two (a := '*') (b := '*') (fb := false) (rep := cs! "\\**") (by decide) (by decide) rfl, mark2_delim2 (by decide)]
    · rfl
    · exact notEsc_append notEsc_free (notEsc_append (bodyV_notEsc (by decide) (by decide)) notEsc_free)

end Yamd.Round
