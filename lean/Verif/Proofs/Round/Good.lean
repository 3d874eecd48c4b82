import Verif.Proofs.Round.ParaBlock

/-!
# Blocks that are written so that they read back
-/

namespace Yamd.Round

open Yamd Yamd.Spec Yamd.Lexer Yamd.Ref

/-- The view does not start with a free line break. -/
def CleanStart (v : V) : Prop := ¬ free ['\n'] <+: v ∧ ¬ free ['\r', '\n'] <+: v

/-- The text `s` written for a block `n` reads back as `n`. -/
def Good (stops : List Stop) (n : YamdNode) (s : Str) : Prop :=
  ∃ v, s = render v ∧ BlockV stops n v ∧ (endsClean n = true → CleanEnd v) ∧ (startsClean n = true → CleanStart v)

/-- The stop conditions of a document, and whether it is inside a collapsible. -/
def Inside (c : Bool) (stops : List Stop) : Prop := DStops stops ∧ (stops ≠ [] → c = true)

theorem Inside.top : Inside false [] := ⟨fun _ h => by simp at h, fun h => absurd rfl h⟩

theorem Inside.coll {c stops} (h : Inside c stops) : Inside true (.CollapsibleEnd :: stops) := ⟨h.1.coll, fun _ => rfl⟩

theorem Inside.placed {c stops} (h : Inside c stops) : Placed ⟨c⟩ (.Terminator :: stops) := by
  intro st hst
  rcases List.mem_cons.1 hst with rfl | h1
  · exact .inl rfl
  · exact .inr ⟨h.1 st h1, h.2 (List.ne_nil_of_mem h1)⟩

/-! ### The ends of a paragraph view -/

theorem last_append {v w : V} (h : w ≠ []) : (v ++ w).getLast? = w.getLast? := by
  rw [List.getLast?_append]
  cases e : w.getLast? with
  | none => exact absurd (List.getLast?_eq_none_iff.1 e) h
  | some x => rfl

theorem seq_last {α : Type} {NV : Bool → α → V → Prop} {shape : α → Shape} {S : List Char}
    (hshape : ∀ b n v, NV b n v → HasShape S (shape n) v ∧ ShapeOk S (shape n)) :
    ∀ {l : List α} {b : Bool} {v : V}, SeqV NV b l v → l ≠ [] → ∃ b' n w, l.getLast? = some n ∧ NV b' n w ∧ v.getLast? = w.getLast?
  | [], _, _, _, h => absurd rfl h
  | [n], b, v, h, _ => by
    obtain ⟨v1, v2, rfl, h1, h2⟩ := h
    have : v2 = [] := h2
    subst this
    exact ⟨b, n, v1, rfl, h1, by simp⟩
  | n :: m :: r, b, v, h, _ => by
    obtain ⟨v1, v2, rfl, h1, h2⟩ := h
    obtain ⟨b', k, w, e, hk, hl⟩ := seq_last hshape h2 (by simp)
    refine ⟨b', k, w, by rw [List.getLast?_cons_cons]; exact e, hk, ?_⟩
    rw [last_append, hl]
    obtain ⟨u1, u2, rfl, g1, -⟩ := h2
    have := (hshape _ _ _ g1).1.ne
    simp [this]

theorem last_chars {v : V} {c : Char} (h : v.getLast? = some (false, c)) : (v.map Prod.snd).getLast? = some c := by
  rw [List.getLast?_map, h]; rfl

theorem para_clean_end {stops b p v} (h : ParaV stops b p v) (hp : p ≠ []) (he : endsLine (trailingText p) = false) : CleanEnd v := by
  obtain ⟨b', n, w, e, hn, hl⟩ := seq_last node_shape h hp
  have key : ∀ c, (c = '\n' ∨ c = '\r') → v.getLast? ≠ some (false, c) := by
    intro c hc hv
    rw [hl] at hv
    have hsh := (node_shape _ _ _ hn).1.ends
    cases hs : nodeShape n with
    | text =>
      cases n with
      | text s =>
        have := last_chars hv
        rw [hn.2.chars] at this
        rw [trailingText, e] at he
        simp only [endsLine, this] at he
        rcases hc with rfl | rfl <;> simp at he
      | _ => simp [nodeShape] at hs
    | delim o d =>
      rw [hs] at hsh
      rw [hsh.2] at hv
      simp only [Option.some.injEq, Prod.mk.injEq, true_and] at hv
      subst hv
      have := shapeOk_node n
      rw [hs] at this
      rcases hc with rfl | rfl
      · have := this.2.2.2.2.1; revert this; decide
      · have := this.2.2.2.2.1; revert this; decide
  exact ⟨key _ (.inl rfl), key _ (.inr rfl)⟩

theorem free_cons_prefix {c : Char} {r : Str} {x} {v : V} : free (c :: r) <+: x :: v ↔ x = (false, c) ∧ free r <+: v := by
  rw [free, List.map_cons, List.cons_prefix_cons]
  constructor
  · rintro ⟨h1, h2⟩; exact ⟨h1.symm, h2⟩
  · rintro ⟨h1, h2⟩; exact ⟨h1.symm, h2⟩

theorem free_prefix_chars {s : Str} {v : V} (h : free s <+: v) : s <+: v.map Prod.snd := by
  have := h.map Prod.snd
  simpa [free, Function.comp_def] using this

theorem para_clean_start_of {stops b p v} (h : ParaV stops b p v) (hc : Chain nodeShape p)
    (he : ∀ s r, p = .text s :: r → ∀ w1 w2, v = w1 ++ w2 → w1.map Prod.snd = s → CleanStart w1) : CleanStart v := by
  cases p with
  | nil => have : v = [] := h; subst this; simp [CleanStart, free]
  | cons n p =>
    obtain ⟨v1, v2, rfl, h1, h2⟩ := h
    have hsh := (node_shape _ _ _ h1).1
    have hok := shapeOk_node n
    cases hs : nodeShape n with
    | delim o d =>
      rw [hs] at hsh hok
      have hh := hsh.ends.1
      have ho : o ∈ textSet ∨ (o ∈ singles ∧ o ∈ closers) := hok.1
      cases v1 with
      | nil => simp at hh
      | cons x v1 =>
        simp only [List.head?_cons, Option.some.injEq] at hh
        subst hh
        constructor
        · rw [List.cons_append, free_cons_prefix]
          rintro ⟨e, -⟩
          simp only [Prod.mk.injEq, true_and] at e
          subst e; revert ho; decide
        · rw [List.cons_append, free_cons_prefix]
          rintro ⟨e, -⟩
          simp only [Prod.mk.injEq, true_and] at e
          subst e; revert ho; decide
    | text =>
      cases n with
      | text s =>
        have he := he s p rfl v1 v2 rfl h1.2.chars
        constructor
        · intro hf
          cases v1 with
          | nil => exact hsh.ne rfl
          | cons x v1 =>
            rw [List.cons_append, free_cons_prefix] at hf
            exact he.1 (free_cons_prefix.2 ⟨hf.1, List.nil_prefix⟩)
        · intro hf
          cases v1 with
          | nil => exact hsh.ne rfl
          | cons x v1 =>
            rw [List.cons_append, free_cons_prefix] at hf
            cases v1 with
            | cons y v1 =>
              rw [List.cons_append, free_cons_prefix] at hf
              exact he.2 (free_cons_prefix.2 ⟨hf.1, free_cons_prefix.2 ⟨hf.2.1, List.nil_prefix⟩⟩)
            | nil =>
              rw [List.nil_append] at hf
              cases p with
              | nil => have : v2 = [] := h2; subst this; simp [free] at hf
              | cons m p =>
                obtain ⟨u1, u2, rfl, g1, -⟩ := h2
                have gsh := (node_shape _ _ _ g1).1
                have gok := shapeOk_node m
                have := hc.1
                cases hm : nodeShape m with
                | text => rw [hs, hm] at this; simp [compat] at this
                | delim o d =>
                  rw [hm] at gsh gok
                  have hh := gsh.ends.1
                  cases u1 with
                  | nil => simp at hh
                  | cons y u1 =>
                    simp only [List.head?_cons, Option.some.injEq] at hh
                    subst hh
                    rw [List.cons_append, free_cons_prefix] at hf
                    have := hf.2.1
                    simp only [Prod.mk.injEq, true_and] at this
                    subst this
                    have := gok.1
                    revert this; decide
      | _ => simp [nodeShape] at hs

theorem para_clean_start {stops b p v} (h : ParaV stops b p v) (hc : Chain nodeShape p)
    (he : startsLine (leadingText p) = false) : CleanStart v := by
  refine para_clean_start_of h hc ?_
  rintro s r rfl w1 w2 - e
  simp only [leadingText, startsLine, Bool.or_eq_false_iff, starts] at he
  have hno : ∀ pat : Str, pat.isPrefixOf s = false → ¬ free pat <+: w1 := by
    intro pat hp hf
    have := free_prefix_chars hf
    rw [e, ← List.isPrefixOf_iff_prefix, hp] at this
    simp at this
  exact ⟨hno _ he.1, hno _ he.2⟩

theorem CleanEnd.more {v w} (h : CleanEnd v) (hm : More v w) : CleanEnd w := ⟨fun e => h.1 (hm.last e), fun e => h.2 (hm.last e)⟩
theorem CleanStart.more {v w} (h : CleanStart v) (hm : More v w) : CleanStart w :=
  ⟨fun e => h.1 (hm.prefix e), fun e => h.2 (hm.prefix e)⟩

theorem paraW_curly {p : Paragraph} : (paraW p).head? ≠ some (false, '{') ∨ (∃ s r, p = .text s :: r ∧ s = []) := by
  cases p with
  | nil => left; simp [paraW]
  | cons n p =>
    cases n with
    | text s =>
      by_cases hs : s = []
      · right; exact ⟨s, p, rfl, hs⟩
      · left
        rw [paraW, List.flatMap_cons, nodeW]
        have hn : textV s ≠ [] := by
          intro e
          have := textV_chars s
          rw [e] at this
          exact hs this.symm
        obtain ⟨x, r, e⟩ := List.exists_cons_of_ne_nil hn
        rw [e]
        intro h
        simp only [List.cons_append, List.head?_cons, Option.some.injEq] at h
        exact textV_notFree (s := s) (c := '{') (by simp) (by rw [e, h]; simp)
    | _ => left; simp [paraW, nodeW, free, linkV]

theorem mark1_head {v : V} {c : Char} (h : (mark1 v).head? = some (false, c)) : False := by
  cases v <;> simp [mark1] at h

theorem textV_space (s : Str) : (true, ' ') ∉ textV s := by
  intro h
  exact markSet_notEsc (by decide) s (mark2_mem (mark2_mem h (by decide) (by decide)) (by decide) (by decide))

theorem para_spaces {p : Paragraph} {v' : V} (hor : v' = paraW p ∨ v' = mark1 (paraW p)) :
    ∀ s r, p = .text s :: r → ∃ w1 w2, v' = w1 ++ w2 ∧ w1.map Prod.snd = s ∧ (true, ' ') ∉ w1.tail := by
  rintro s r rfl
  have e : paraW (.text s :: r) = textV s ++ paraW r := by rw [paraW, List.flatMap_cons]; rfl
  rw [e] at hor
  have hn := textV_space s
  rcases hor with rfl | rfl
  · exact ⟨textV s, paraW r, rfl, textV_chars s, fun h => hn (List.mem_of_mem_tail h)⟩
  · cases ht : textV s with
    | nil =>
      refine ⟨[], mark1 ([] ++ paraW r), rfl, ?_, by simp⟩
      rw [← textV_chars s, ht]
    | cons x t =>
      refine ⟨(true, x.2) :: t, paraW r, rfl, ?_, ?_⟩
      · rw [← textV_chars s, ht]; rfl
      · rw [ht] at hn
        exact fun h => hn (List.mem_cons_of_mem _ h)

/-! ### The ends of a paragraph as they are shown -/

theorem shownText_view (s : Str) :
    shownText s = (mark2 '\n' '\n' true (markSet ['{', '[', '`', '~', '_', '*', '\\'] s)).map ink := by
  have := replace_ink (fb := true) (rep := cs! "\\\\") rfl (markSet_notEsc (S := ['{', '[', '`', '~', '_', '*', '\\']) (c := '\n') (by decide) s)
  rw [markSet_chars] at this
  exact this

theorem ink_line {x : Bool × Char} (h : ink x = '\n' ∨ ink x = '\r') : x.2 = ink x := by
  unfold ink at h ⊢
  split
  · rename_i e; rw [if_pos e] at h; simp at h
  · rfl

/-- What does not end with a line break is not shown with one there. -/
theorem endsLine_shown {s : Str} (h : endsLine s = false) : endsLine (shownText s) = false := by
  generalize hv : mark2 '\n' '\n' true (markSet ['{', '[', '`', '~', '_', '*', '\\'] s) = v
  have e1 := shownText_view s
  have e2 : v.map Prod.snd = s := by rw [← hv, mark2_chars, markSet_chars]
  rw [hv] at e1
  rw [e1, endsLine]
  rw [← e2, endsLine] at h
  rw [List.getLast?_map] at h ⊢
  cases hg : v.getLast? with
  | none => rfl
  | some x =>
    rw [hg] at h
    simp only [Option.map_some] at h ⊢
    by_cases hx : ink x = '\n' ∨ ink x = '\r'
    · rw [ink_line hx] at h; exact h
    · simp only [not_or] at hx
      simp [hx.1, hx.2]

/-- What does not start with a line break is not shown with one there. -/
theorem startsLine_shown {s : Str} (h : startsLine s = false) : startsLine (shownText s) = false := by
  generalize hv : mark2 '\n' '\n' true (markSet ['{', '[', '`', '~', '_', '*', '\\'] s) = v
  have e1 := shownText_view s
  have e2 : v.map Prod.snd = s := by rw [← hv, mark2_chars, markSet_chars]
  rw [hv] at e1
  rw [e1]
  rw [← e2] at h
  rw [Bool.eq_false_iff] at h ⊢
  intro hs
  apply h
  match v with
  | [] => exact hs
  | [x] =>
    have hx : ink x = '\n' := by
      have : '\n' = ink x := by simpa [startsLine, starts, List.isPrefixOf] using hs
      exact this.symm
    have := ink_line (.inl hx)
    simp [startsLine, starts, this, hx]
  | x :: y :: r =>
    have hx : ink x = '\n' ∨ (ink x = '\r' ∧ ink y = '\n') := by
      simp only [startsLine, starts, List.map_cons, List.isPrefixOf_cons_cons, List.isPrefixOf_nil_left, Bool.and_true, Bool.or_eq_true,
        Bool.and_eq_true, beq_iff_eq] at hs
      rcases hs with hs | hs
      · exact .inl hs.symm
      · exact .inr ⟨hs.1.symm, hs.2.symm⟩
    rcases hx with hx | ⟨hx, hy⟩
    · have := ink_line (.inl hx)
      simp [startsLine, starts, this, hx]
    · have h1 := ink_line (.inr hx)
      have h2 := ink_line (.inl hy)
      simp [startsLine, starts, h1, h2, hx, hy]

theorem textV_clean_end {s : Str} (h : endsLine (shownText s) = false) : CleanEnd (textV s) := by
  have key : ∀ c, (c = '\n' ∨ c = '\r') → (textV s).getLast? ≠ some (false, c) := by
    intro c hc hv
    have h1 := (more_mark2 _).last hv
    have h2 : (shownText s).getLast? = some c := by
      rw [shownText_view, List.getLast?_map, h1]
      simp [ink_free]
    simp only [endsLine, h2] at h
    rcases hc with rfl | rfl <;> simp at h
  exact ⟨key _ (.inl rfl), key _ (.inr rfl)⟩

theorem cleanEnd_append {v w : V} (hw : w ≠ []) (h : CleanEnd w) : CleanEnd (v ++ w) := by
  unfold CleanEnd; rw [last_append hw]; exact h

theorem paraW_concat (q : Paragraph) (n : ParagraphNode) : paraW (q ++ [n]) = paraW q ++ nodeW n := by
  simp [paraW]

theorem paraW_clean_end {pl p} (hall : p.all (safeNode pl) = true) (he : endsLine (shownText (trailingText p)) = false) :
    CleanEnd (paraW p) := by
  rcases List.eq_nil_or_concat p with rfl | ⟨q, n, rfl⟩
  · simp [paraW, CleanEnd]
  · rw [List.concat_eq_append] at *
    rw [paraW_concat]
    have hn : safeNode pl n = true := by
      rw [List.all_append, Bool.and_eq_true] at hall
      simpa using hall.2
    cases n with
    | text s =>
      have hne : textV s ≠ [] := by
        intro e
        have := textV_chars s
        rw [e] at this
        rw [← this] at hn
        simp [safeNode, safeText] at hn
      have hs : endsLine (shownText s) = false := by simpa [trailingText] using he
      unfold CleanEnd
      rw [show nodeW (.text s) = textV s from rfl, last_append hne]
      exact textV_clean_end hs
    | anchor a =>
      rw [nodeW, linkV]
      repeat refine cleanEnd_append (by simp [free]) ?_
      simp [CleanEnd, free]
    | _ =>
      rw [nodeW]
      repeat refine cleanEnd_append (by simp [free]) ?_
      simp [CleanEnd, free]

theorem textV_clean_start {s : Str} (h : startsLine (shownText s) = false) : CleanStart (textV s) := by
  have key : ∀ pat : Str, starts pat (shownText s) = false → ¬ free pat <+: textV s := by
    intro pat hp hf
    have h1 := (more_mark2 _).prefix hf
    have h2 := h1.map ink
    rw [← shownText_view, show (free pat).map ink = pat by simp [free, Function.comp_def, ink_free]] at h2
    rw [starts, List.isPrefixOf_iff_prefix.2 h2] at hp
    simp at hp
  simp only [startsLine, Bool.or_eq_false_iff] at h
  exact ⟨key _ h.1, key _ h.2⟩

/-- A safe paragraph is written so that it reads back. -/
theorem good_paragraph {c stops p} (hi : Inside c stops) (h : safeLeaf ⟨c⟩ (.paragraph p) = true) :
    Good stops (.paragraph p) (escapeLeadingBlockMarker (displayParagraph p)) := by
  simp only [safeLeaf, Bool.and_eq_true, Bool.not_eq_true', safeInline] at h
  obtain ⟨⟨⟨hne, hall, hcl⟩, hh⟩, himg⟩ := h
  have hne : p ≠ [] := by simpa using hne
  have hpv : ParaV (.Terminator :: stops) true p (paraW p) := paraW_ok hi.placed hall
  obtain ⟨v', e, hnm, hv', hm, hor⟩ := para_lead hpv
  have hchain := chainP hcl
  refine ⟨v', by rw [paraW_eq hall, e], para_block hne hv' hchain ⟨hnm, ?_, hh, himg, para_spaces hor⟩, ?_, ?_⟩
  · rcases hor with rfl | rfl
    · rcases paraW_curly (p := p) with h1 | ⟨s, r, rfl, rfl⟩
      · exact h1
      · simp [safeNode, safeText] at hall
    · exact fun h => mark1_head h
  · intro he
    exact (paraW_clean_end hall (by simpa [endsClean] using he)).more hm
  · intro he
    refine CleanStart.more (para_clean_start_of hpv hchain ?_) hm
    rintro s r rfl w1 w2 e1 e2
    have he' : startsLine (shownText s) = false := by simpa [startsClean, leadingText] using he
    have e3 : paraW (.text s :: r) = textV s ++ paraW r := by rw [paraW, List.flatMap_cons]; rfl
    have hlen : w1.length = (textV s).length := by
      have := congrArg List.length (e2.trans (textV_chars s).symm)
      simpa using this
    have := (List.append_inj (e3.symm.trans e1) hlen.symm).1
    rw [← this]
    exact textV_clean_start he'

end Yamd.Round
