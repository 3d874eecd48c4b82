import Verif.Proofs.Round.ItemMark

/-!
# Lists read back: no line of the text of an item starts an item
-/

namespace Yamd.Round

open Yamd Yamd.Spec Yamd.Lexer Yamd.Ref

/-! ### Strings -/

theorem spaces_split : ∀ s : Str, s = List.replicate (s.takeWhile (· == ' ')).length ' ' ++ s.dropWhile (· == ' ')
  | [] => rfl
  | c :: s => by
    by_cases h : c = ' '
    · subst h
      have := spaces_split s
      rw [List.takeWhile_cons_of_pos (by rfl), List.dropWhile_cons_of_pos (by rfl), List.length_cons, List.replicate_succ,
        List.cons_append, ← this]
    · rw [List.takeWhile_cons_of_neg (by simp [h]), List.dropWhile_cons_of_neg (by simp [h])]; rfl

theorem spaces_of {n : Nat} {m : Char} {y : Str} (hm : m ≠ ' ') :
    ((List.replicate n ' ' ++ m :: y).takeWhile (· == ' ')).length = n ∧ (List.replicate n ' ' ++ m :: y).dropWhile (· == ' ') = m :: y := by
  induction n with
  | zero => simp [hm]
  | succ n ih =>
    rw [List.replicate_succ, List.cons_append, List.takeWhile_cons_of_pos (by rfl), List.dropWhile_cons_of_pos (by rfl),
      List.length_cons]
    exact ⟨by rw [ih.1], ih.2⟩

theorem startsItem_iff {it : ItemPlace} {s : Str} : startsItem it s = true ↔ ∃ n m y, s = List.replicate n ' ' ++ m :: ' ' :: y ∧
    isMarker m ∧ n ≤ it.level + 1 ∧ (n = it.level → m = it.own) ∧ ¬ (n = 0 ∧ m ∈ it.escaped) ∧ y.head? ≠ some ' ' := by
  constructor
  · intro h
    unfold startsItem at h
    split at h
    · rename_i m y e
      have hs := spaces_split s
      rw [e] at hs
      simp only [Bool.and_eq_true, Bool.or_eq_true, beq_iff_eq, decide_eq_true_eq, bne_iff_ne, Bool.not_eq_true',
        Bool.and_eq_false_iff, beq_eq_false_iff_ne, List.contains_eq_mem, decide_eq_false_iff_not] at h
      obtain ⟨⟨⟨⟨h1, h2⟩, h3⟩, h4⟩, h5⟩ := h
      refine ⟨_, m, y, hs, h1, h2, fun e => ?_, fun ⟨a, b⟩ => ?_, h5⟩
      · rcases h3 with h3 | h3
        · exact absurd e h3
        · exact h3
      · rcases h4 with h4 | h4
        · exact h4 a
        · exact h4 b
    · simp at h
  · rintro ⟨n, m, y, rfl, h1, h2, h3, h4, h5⟩
    have hm := (marker_ne_nl h1).2.1
    unfold startsItem
    obtain ⟨e1, e2⟩ := spaces_of (n := n) (m := m) (y := ' ' :: y) hm
    rw [e2]
    simp only
    rw [e1]
    simp only [Bool.and_eq_true, Bool.or_eq_true, beq_iff_eq, decide_eq_true_eq, bne_iff_ne, Bool.not_eq_true',
        Bool.and_eq_false_iff, beq_eq_false_iff_ne, List.contains_eq_mem, decide_eq_false_iff_not]
    refine ⟨⟨⟨⟨h1, h2⟩, ?_⟩, ?_⟩, h5⟩
    · by_cases e : n = it.level
      · exact .inr (h3 e)
      · exact .inl e
    · by_cases e : n = 0
      · exact .inr (fun hb => h4 ⟨e, hb⟩)
      · exact .inl e

theorem noItemLine_iff {it : ItemPlace} : ∀ {s : Str}, noItemLine it s = true ↔ ∀ u r, s = u ++ '\n' :: r → startsItem it r = false
  | [] => by simp [noItemLine]
  | c :: s => by
    rw [noItemLine, Bool.and_eq_true, noItemLine_iff (s := s)]
    constructor
    · rintro ⟨h1, h2⟩ u r e
      cases u with
      | nil =>
        simp only [List.nil_append, List.cons.injEq] at e
        obtain ⟨rfl, rfl⟩ := e
        simpa using h1
      | cons x u =>
        simp only [List.cons_append, List.cons.injEq] at e
        exact h2 u r e.2
    · intro h
      refine ⟨?_, fun u r e => h (c :: u) r (by rw [e]; rfl)⟩
      by_cases hc : c = '\n'
      · subst hc
        have := h [] s rfl
        simp [this]
      · simp [hc]

/-- Characters at the start of an item. -/
def itemChars : List Char := [' ', '-', '+']

theorem startsItem_append {it : ItemPlace} {r y : Str} (h : (∃ d ∈ r, d ∉ itemChars) ∨ ∀ d ∈ y.head?, d ∉ itemChars)
    (hs : startsItem it (r ++ y) = true) : startsItem it r = true := by
  obtain ⟨n, m, y', e, h1, h2, h3, h4, h5⟩ := startsItem_iff.1 hs
  have e' : r ++ y = (List.replicate n ' ' ++ [m, ' ']) ++ y' := by rw [e]; simp
  have hP : ∀ d ∈ List.replicate n ' ' ++ [m, ' '], d ∈ itemChars := by
    intro d hd
    rcases List.mem_append.1 hd with hd | hd
    · rw [(List.mem_replicate.1 hd).2]; simp [itemChars]
    · rcases h1 with rfl | rfl <;> simp [itemChars] at hd ⊢ <;> rcases hd with rfl | rfl <;> decide
  rcases List.append_eq_append_iff.1 e' with ⟨z, hz, hy⟩ | ⟨z, hz, hy⟩
  · cases z with
    | nil =>
      rw [List.append_nil] at hz
      refine startsItem_iff.2 ⟨n, m, [], by rw [← hz], h1, h2, h3, h4, by simp⟩
    | cons d z =>
      exfalso
      rcases h with ⟨x, hx, hx2⟩ | h
      · exact hx2 (hP x (by rw [hz]; simp [hx]))
      · exact h d (by rw [hy]; simp) (hP d (by rw [hz]; simp))
  · refine startsItem_iff.2 ⟨n, m, z, by rw [hz]; simp, h1, h2, h3, h4, ?_⟩
    cases z with
    | nil => simp
    | cons x z => rw [hy] at h5; simpa using h5

theorem noItem_append {it : ItemPlace} {x y : Str} (hx : noItemLine it x = true) (hy : noItemLine it y = true)
    (h : (∃ d, x.getLast? = some d ∧ d ≠ '\n' ∧ d ∉ itemChars) ∨ ∀ d ∈ y.head?, d ∉ itemChars) : noItemLine it (x ++ y) = true := by
  rw [noItemLine_iff] at hx hy ⊢
  intro u r e
  rcases List.append_eq_append_iff.1 e with ⟨z, hz, hr⟩ | ⟨z, hz, hr⟩
  · exact hy z r hr
  · cases z with
    | nil => exact hy [] r (by simpa using hr.symm)
    | cons c z =>
      simp only [List.cons_append, List.cons.injEq] at hr
      obtain ⟨rfl, rfl⟩ := hr
      have h1 := hx u z (by rw [hz])
      cases hs : startsItem it (z ++ y) with
      | false => rfl
      | true =>
        rw [startsItem_append ?_ hs] at h1
        · cases h1
        · rcases h with ⟨d, hd, hdn, hdc⟩ | h
          · left
            rw [hz, List.getLast?_append] at hd
            cases z with
            | nil => simp at hd; exact absurd hd.symm hdn
            | cons a z =>
              rw [List.getLast?_cons_cons] at hd
              cases hl : (a :: z).getLast? with
              | none => simp at hl
              | some w =>
                rw [hl] at hd
                simp only [Option.some_or, Option.some.injEq] at hd
                subst hd
                exact ⟨w, List.mem_of_getLast? hl, hdc⟩
          · exact .inr h

theorem noItem_noNl {it : ItemPlace} : ∀ {s : Str}, '\n' ∉ s → noItemLine it s = true
  | [], _ => rfl
  | c :: s, h => by
    have hc : c ≠ '\n' := fun e => h (by simp [e])
    rw [noItemLine, noItem_noNl (fun hm => h (by simp [hm]))]
    simp [hc]

theorem noItem_left {it : ItemPlace} {x y : Str} (h : noItemLine it (x ++ y) = true) (hy : ∀ d ∈ y.head?, d ∉ itemChars) :
    noItemLine it x = true := by
  rw [noItemLine_iff] at h ⊢
  intro u r e
  have := h u (r ++ y) (by rw [e]; simp)
  cases hs : startsItem it r with
  | false => rfl
  | true =>
    obtain ⟨n, m, y', e, h1, h2, h3, h4, h5⟩ := startsItem_iff.1 hs
    have : startsItem it (r ++ y) = true := by
      refine startsItem_iff.2 ⟨n, m, y' ++ y, by rw [e]; simp, h1, h2, h3, h4, ?_⟩
      cases y' with
      | nil =>
        cases y with
        | nil => simp
        | cons a y =>
          have := hy a (by simp)
          intro hh
          simp only [List.nil_append, List.head?_cons, Option.some.injEq] at hh
          exact this (by rw [hh]; simp [itemChars])
      | cons a y' => simpa using h5
    simp_all

theorem noItem_delim {it : ItemPlace} {o s c : Str} (ho : '\n' ∉ o) (hol : ∃ d, o.getLast? = some d ∧ d ∉ itemChars)
    (hs : noItemLine it s = true) (hc : '\n' ∉ c) (hm : ∀ d ∈ c.head?, d ∉ itemChars) : noItemLine it (o ++ (s ++ c)) = true := by
  obtain ⟨d, hd, hdc⟩ := hol
  refine noItem_append (noItem_noNl ho) (noItem_append hs (noItem_noNl hc) (.inr hm)) (.inl ⟨d, hd, ?_, hdc⟩)
  rintro rfl
  exact ho (List.mem_of_getLast? hd)

/-- A sequence of pieces. -/
theorem noItem_seq {it : ItemPlace} {α : Type} (f : α → Str) (clash : α → α → Bool) (hclash : ∀ x y, clash x y = false →
    (∃ d, (f x).getLast? = some d ∧ d ≠ '\n' ∧ d ∉ itemChars) ∨ ∀ d ∈ (f y).head?, d ∉ itemChars) : ∀ {l : List α},
    (∀ x ∈ l, noItemLine it (f x) = true ∧ f x ≠ []) → noClash clash l = true → noItemLine it (l.flatMap f) = true
  | [], _, _ => rfl
  | [x], h, _ => by simpa using (h x (by simp)).1
  | x :: y :: r, h, hc => by
    simp only [noClash, Bool.and_eq_true, Bool.not_eq_true'] at hc
    have ih := noItem_seq f clash hclash (l := y :: r) (fun z hz => h z (List.mem_cons_of_mem _ hz)) hc.2
    rw [List.flatMap_cons]
    refine noItem_append (h x (by simp)).1 ih ?_
    have hy := (h y (by simp)).2
    rcases hclash x y hc.1 with h1 | h1
    · exact .inl h1
    · right
      rw [List.flatMap_cons]
      cases hf : f y with
      | nil => exact absurd hf hy
      | cons c z => rw [hf] at h1; simpa using h1

theorem free_chars (s : Str) : (free s).map Prod.snd = s := by simp [free, Function.comp_def]

theorem flatMap_snd {α : Type} (f : α → V) (l : List α) : (l.flatMap f).map Prod.snd = l.flatMap (fun x => (f x).map Prod.snd) := by
  induction l with
  | nil => rfl
  | cons x l ih => rw [List.flatMap_cons, List.map_append, ih, List.flatMap_cons]

theorem delim_last {x y : V} {z : Str} (hz : z ≠ []) : ((x ++ (y ++ free z)).map Prod.snd).getLast? = z.getLast? := by
  rw [List.map_append, List.map_append, free_chars, ← List.append_assoc, List.getLast?_append]
  cases h : z.getLast? with
  | none => exact absurd (List.getLast?_eq_none_iff.1 h) hz
  | some c => rfl

theorem noItem_bold {it : ItemPlace} {pl : Place} {l : List BoldNode} (ha : l.all (safeBoldNode pl) = true)
    (h : ∀ s ∈ inlineStrings [.bold l], noItemLine it s = true) (hc : noClash clashB l = true) :
    noItemLine it ((l.flatMap boldItemV).map Prod.snd) = true := by
  rw [flatMap_snd]
  refine noItem_seq _ clashB ?_ ?_ hc
  · intro x y hxy
    cases y with
    | text s =>
      left
      cases x with
      | text s => simp [clashB] at hxy
      | italic s => rw [boldItemV, delim_last (by simp)]; exact ⟨'_', rfl, by decide, by decide⟩
      | strikethrough s => rw [boldItemV, delim_last (by simp)]; exact ⟨'~', rfl, by decide, by decide⟩
    | italic s => right; simp [boldItemV, free, itemChars]
    | strikethrough s => right; simp [boldItemV, free, itemChars]
  · intro x hx
    have ha := List.all_eq_true.1 ha x hx
    have key : ∀ s, (match x with | .text s => s | .italic s => s | .strikethrough s => s) = s → noItemLine it s = true := by
      rintro s rfl
      refine h _ ?_
      simp only [inlineStrings, List.flatMap_cons, List.flatMap_nil, List.append_nil, List.mem_map]
      exact ⟨x, hx, by cases x <;> rfl⟩
    cases x with
    | text s =>
      simp only [safeBoldNode, Bool.and_eq_true, Bool.not_eq_true'] at ha
      simp only [boldItemV, bodyV_chars]
      exact ⟨key s rfl, by simpa using ha.1⟩
    | italic s =>
      simp only [boldItemV, List.map_append, mark2_chars, bodyV_chars, free_chars]
      exact ⟨noItem_delim (by decide) ⟨'_', rfl, by decide⟩ (key s rfl) (by decide) (by decide), by simp⟩
    | strikethrough s =>
      simp only [boldItemV, List.map_append, mark2_chars, bodyV_chars, free_chars]
      exact ⟨noItem_delim (by decide) ⟨'~', rfl, by decide⟩ (key s rfl) (by decide) (by decide), by simp⟩

theorem noItem_para {it : ItemPlace} {pl : Place} {p : Paragraph} (ha : p.all (safeNode pl) = true)
    (h : ∀ s ∈ inlineStrings p, noItemLine it s = true) (hc : noClash clashP p = true) :
    noItemLine it ((paraW p).map Prod.snd) = true := by
  rw [paraW, flatMap_snd]
  refine noItem_seq _ clashP ?_ ?_ hc
  · intro x y hxy
    cases y with
    | text s =>
      left
      cases x with
      | text s => simp [clashP] at hxy
      | anchor a =>
        have : nodeW (.anchor a) = (free ['['] ++ (bodyV [']', '[', '\\'] a.text ++ (free [']'] ++ free ['(']))) ++
            (bodyV [')', '(', '\\'] a.url ++ free [')']) := by simp [nodeW, linkV]
        rw [this, delim_last (by simp)]
        exact ⟨')', rfl, by decide, by decide⟩
      | italic => rw [nodeW, delim_last (by simp)]; exact ⟨'_', rfl, by decide, by decide⟩
      | strikethrough => rw [nodeW, delim_last (by simp)]; exact ⟨'~', rfl, by decide, by decide⟩
      | codeSpan => rw [nodeW, delim_last (by simp)]; exact ⟨'`', rfl, by decide, by decide⟩
      | emphasis => rw [nodeW, delim_last (by simp)]; exact ⟨'*', rfl, by decide, by decide⟩
      | bold => rw [nodeW, delim_last (by simp)]; exact ⟨'*', rfl, by decide, by decide⟩
    | _ => right; simp [nodeW, free, linkV, itemChars]
  · intro x hx
    have ha := List.all_eq_true.1 ha x hx
    have h' : ∀ s ∈ inlineStrings [x], noItemLine it s = true := by
      intro s hs
      refine h s ?_
      unfold inlineStrings at hs ⊢
      simp only [List.flatMap_cons, List.flatMap_nil, List.append_nil] at hs
      exact List.mem_flatMap.2 ⟨x, hx, hs⟩
    cases x with
    | text s =>
      simp only [safeNode, safeText, Bool.and_eq_true, Bool.not_eq_true'] at ha
      simp only [nodeW, textV_chars]
      exact ⟨h' s (by simp [inlineStrings]), by simpa using ha.1⟩
    | italic s =>
      simp only [nodeW, List.map_append, bodyV_chars, free_chars]
      exact ⟨noItem_delim (by decide) ⟨'_', rfl, by decide⟩ (h' s (by simp [inlineStrings])) (by decide) (by decide), by simp⟩
    | strikethrough s =>
      simp only [nodeW, List.map_append, bodyV_chars, free_chars]
      exact ⟨noItem_delim (by decide) ⟨'~', rfl, by decide⟩ (h' s (by simp [inlineStrings])) (by decide) (by decide), by simp⟩
    | emphasis s =>
      simp only [nodeW, List.map_append, bodyV_chars, free_chars]
      exact ⟨noItem_delim (by decide) ⟨'*', rfl, by decide⟩ (h' s (by simp [inlineStrings])) (by decide) (by decide), by simp⟩
    | codeSpan s =>
      simp only [nodeW, List.map_append, bodyV_chars, free_chars]
      exact ⟨noItem_delim (by decide) ⟨'`', rfl, by decide⟩ (h' s (by simp [inlineStrings])) (by decide) (by decide), by simp⟩
    | bold l =>
      simp only [safeNode, Bool.and_eq_true] at ha
      simp only [nodeW, List.map_append, free_chars]
      exact ⟨noItem_delim (by decide) ⟨'*', rfl, by decide⟩ (noItem_bold ha.1.2 h' ha.2) (by decide) (by decide), by simp⟩
    | anchor a =>
      simp only [nodeW, linkV, List.map_append, bodyV_chars, free_chars]
      have h2 := noItem_delim (it := it) (o := ['(']) (c := [')']) (by decide) ⟨'(', rfl, by decide⟩ (h' a.url (by simp [inlineStrings])) (by decide) (by decide)
      have h3 := noItem_append (it := it) (x := [']']) (noItem_noNl (by decide)) h2 (.inl ⟨']', rfl, by decide, by decide⟩)
      have h4 := noItem_append (h' a.text (by simp [inlineStrings])) h3 (.inr (by simp [itemChars]))
      exact ⟨noItem_append (it := it) (x := ['[']) (noItem_noNl (by decide)) h4 (.inl ⟨'[', rfl, by decide, by decide⟩), by simp⟩

/-! ### Views -/

/-- The view starts an item that ends an item of the list. -/
def startsV (level : Nat) (own : Char) (w : V) : Prop := ∃ n m B, w = free (List.replicate n ' ' ++ [m, ' ']) ++ B ∧
  isMarker m ∧ n ≤ level + 1 ∧ (n = level → m = own) ∧ B.head? ≠ some (false, ' ')

/-- No line of the view starts an item. -/
def NoItem (level : Nat) (own : Char) (v : V) : Prop := ∀ u w, v = u ++ (false, '\n') :: w → ¬ startsV level own w

theorem mk_split {M} : ∀ {p : Bool} {v u : V} {x} {w : V}, mk M p v = u ++ x :: w →
    ∃ u0 x0 w0, v = u0 ++ x0 :: w0 ∧ (x = x0 ∨ x = (true, x0.2)) ∧ w = mk M (x0.2 == '\n') w0
  | _, [], u, x, w, h => by simp [mk] at h
  | p, y :: v, [], x, w, h => by
    rw [mk, List.nil_append, List.cons.injEq] at h
    refine ⟨[], y, v, rfl, ?_, h.2.symm⟩
    rw [← h.1]
    split
    · exact .inr rfl
    · exact .inl rfl
  | p, y :: v, z :: u, x, w, h => by
    rw [mk, List.cons_append, List.cons.injEq] at h
    obtain ⟨u0, x0, w0, rfl, h1, h2⟩ := mk_split h.2
    exact ⟨y :: u0, x0, w0, rfl, h1, h2⟩

theorem MoreIn.free_left {M} : ∀ {s : Str} {v B : V}, MoreIn M v (Round.free s ++ B) → ∃ B0, v = Round.free s ++ B0 ∧ MoreIn M B0 B
  | [], v, _, h => ⟨v, rfl, h⟩
  | c :: s, [], B, h => by simp [Round.free, MoreIn] at h
  | c :: s, x :: v, B, h => by
    have h1 : ((false, c) = x ∨ ((false, c) = (true, x.2) ∧ x.2 ∈ M)) ∧ MoreIn M v (Round.free s ++ B) := h
    obtain ⟨B0, rfl, hB⟩ := MoreIn.free_left h1.2
    rcases h1.1 with rfl | ⟨e, -⟩
    · exact ⟨B0, rfl, hB⟩
    · simp at e

theorem noItem_mk {level own esc} {v : V} (hM : Markers esc) (hs : (true, ' ') ∉ v)
    (h : noItemLine ⟨level, own, esc⟩ (v.map Prod.snd) = true) : NoItem level own (mk esc false v) := by
  rintro u w e ⟨n, m, B, rfl, h1, h2, h3, h4⟩
  obtain ⟨u0, x0, w0, rfl, hx, hw⟩ := mk_split e
  have hx0 : x0 = (false, '\n') := by
    rcases hx with hx | hx
    · exact hx.symm
    · simp at hx
  subst hx0
  have hm : MoreIn esc w0 (free (List.replicate n ' ' ++ [m, ' ']) ++ B) := by rw [hw]; exact mk_more _ _
  obtain ⟨B0, rfl, hB⟩ := hm.free_left
  have hst : startsItem ⟨level, own, esc⟩ ((free (List.replicate n ' ' ++ [m, ' ']) ++ B0).map Prod.snd) = true := by
    refine startsItem_iff.2 ⟨n, m, B0.map Prod.snd, by rw [List.map_append, free_chars]; simp, h1, h2, h3, ?_, ?_⟩
    · rintro ⟨rfl, hme⟩
      rw [show (((false, '\n') : Bool × Char).2 == '\n') = true from rfl] at hw
      simp [free, mk] at hw
      exact hw.1 hme
    · intro hh
      cases B0 with
      | nil => simp at hh
      | cons y B0 =>
        obtain ⟨f, c⟩ := y
        simp only [List.map_cons, List.head?_cons, Option.some.injEq] at hh
        subst hh
        cases f with
        | true => exact hs (by simp)
        | false =>
          cases B with
          | nil => simp [MoreIn] at hB
          | cons z B =>
            have hz := hB.1
            rcases hz with rfl | ⟨-, hz⟩
            · exact h4 rfl
            · exact hM.space hz
  rw [noItemLine_iff] at h
  have := h (u0.map Prod.snd) _ (by rw [List.map_append, List.map_cons])
  rw [hst] at this
  cases this

theorem free_noEsc {c : Char} {s : Str} : (true, c) ∉ free s := by simp [free]

theorem bodyV_noEsc {S : List Char} {s : Str} (h : ' ' ∉ S) : (true, ' ') ∉ bodyV S s := fun hm =>
  markSet_notEsc h s (mark2_mem hm (by decide) (by decide))

theorem boldItemV_noEsc (n : BoldNode) : (true, ' ') ∉ boldItemV n := by
  cases n with
  | text s => exact bodyV_noEsc (by decide)
  | italic s =>
    simp only [boldItemV, List.mem_append, not_or]
    exact ⟨free_noEsc, fun hm => bodyV_noEsc (by decide) (mark2_mem hm (by decide) (by decide)), free_noEsc⟩
  | strikethrough s =>
    simp only [boldItemV, List.mem_append, not_or]
    exact ⟨free_noEsc, fun hm => bodyV_noEsc (by decide) (mark2_mem hm (by decide) (by decide)), free_noEsc⟩

theorem nodeW_noEsc (n : ParagraphNode) : (true, ' ') ∉ nodeW n := by
  cases n with
  | text s => exact fun hm => markSet_notEsc (by decide) s (mark2_mem (mark2_mem hm (by decide) (by decide)) (by decide) (by decide))
  | anchor a =>
    simp only [nodeW, linkV, List.mem_append, not_or]
    exact ⟨free_noEsc, bodyV_noEsc (by decide), free_noEsc, free_noEsc, bodyV_noEsc (by decide), free_noEsc⟩
  | bold l =>
    simp only [nodeW, List.mem_append, not_or]
    refine ⟨free_noEsc, fun hm => ?_, free_noEsc⟩
    obtain ⟨n, -, hn⟩ := List.mem_flatMap.1 hm
    exact boldItemV_noEsc n hn
  | _ =>
    simp only [nodeW, List.mem_append, not_or]
    exact ⟨free_noEsc, bodyV_noEsc (by decide), free_noEsc⟩

theorem paraW_noEsc (p : Paragraph) : (true, ' ') ∉ paraW p := by
  intro hm
  obtain ⟨n, -, hn⟩ := List.mem_flatMap.1 hm
  exact nodeW_noEsc n hn

end Yamd.Round
