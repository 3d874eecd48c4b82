import Verif.Proofs.Round.Escape
import Verif.Proofs.Calm
import Verif.Spec.Steady

/-!
# What is read can be written
-/

namespace Yamd.Ref

open Yamd Yamd.Spec Yamd.ToYamd

section
variable {src : Str}

/-! ### Texts of tidy tokens -/

theorem flat_split : ∀ {b : List Token} {x : Str} {c : Char} {y : Str}, textOfToks src b = x ++ c :: y →
    ∃ b1 t b2 u v, b = b1 ++ t :: b2 ∧ sliceD src t = u ++ c :: v ∧ x = textOfToks src b1 ++ u ∧
      y = v ++ textOfToks src b2
  | [], x, c, y, h => by simp [textOfToks] at h
  | t :: b, x, c, y, h => by
    rw [text_cons] at h
    rcases List.append_eq_append_iff.1 h with ⟨w, h1, h2⟩ | ⟨w, h1, h2⟩
    · obtain ⟨b1, t', b2, u, v, rfl, e2, e3, e4⟩ := flat_split h2
      exact ⟨t :: b1, t', b2, u, v, rfl, e2, by rw [h1, e3, text_cons]; simp, e4⟩
    · cases w with
      | nil =>
        simp only [List.append_nil, List.nil_append] at h1 h2
        obtain ⟨b1, t', b2, u, v, rfl, e2, e3, e4⟩ := flat_split (x := []) (by simpa using h2.symm)
        exact ⟨t :: b1, t', b2, u, v, rfl, e2, by rw [← h1, text_cons, List.append_assoc, ← e3]; simp, e4⟩
      | cons d w =>
        simp only [List.cons_append, List.cons.injEq] at h2
        obtain ⟨rfl, rfl⟩ := h2
        exact ⟨[], t, b, x, w, rfl, h1, by simp [textOfToks], rfl⟩

theorem text_head {t : Token} {b} (h : TokOk src t) : (textOfToks src (t :: b)).head? = (sliceD src t).head? := by
  rw [text_cons]
  have := h.ne
  cases hs : sliceD src t with
  | nil => exact absurd hs this
  | cons c s => rfl

/-- A line feed comes from a line break or a blank line. -/
theorem nl_tok {t : Token} (h : TokOk src t) {u v : Str} (e : sliceD src t = u ++ '\n' :: v) :
    (t.kind = .Eol ∧ u = [] ∧ v = []) ∨ (t.kind = .Terminator ∧ (v = [] ∨ v = ['\n'])) := by
  by_cases h1 : t.kind = .Eol
  · have := h.eol h1
    rw [e] at this
    left
    cases u with
    | nil => simpa [h1] using this
    | cons c u => simp at this
  · by_cases h2 : t.kind = .Terminator
    · right
      have := h.term h2
      rw [e] at this
      refine ⟨h2, ?_⟩
      cases u with
      | nil => right; simpa using this
      | cons c u =>
        left
        simp only [List.cons_append, List.cons.injEq] at this
        cases u with
        | nil => simpa using this.2
        | cons d u => simp at this
    · exact absurd (by rw [e]; simp) (h.nl h1 h2)

theorem no_blank {b} (h : Tidy src b) (hT : NoTerm b) : ¬ ['\n', '\n'] <:+: textOfToks src b := by
  rintro ⟨x, y, e⟩
  rw [List.append_assoc] at e
  obtain ⟨b1, t, b2, u, v, rfl, e2, -, e4⟩ := flat_split (y := '\n' :: y) e.symm
  rcases nl_tok (h.mem (by simp)) e2 with ⟨hk, -, rfl⟩ | ⟨hk, -⟩
  · cases b2 with
    | nil => simp [textOfToks] at e4
    | cons w b2 =>
      have hw := h.right.tail.head
      have hh := text_head (b := b2) hw
      rw [List.nil_append] at e4
      rw [← e4] at hh
      have hadj := (Tidy.pair h).eol hk
      have hm : '\n' ∈ sliceD src w := List.mem_of_mem_head? hh.symm
      exact hw.nl hadj.1 hadj.2 hm
  · exact hT t (by simp) hk

theorem no_close {b} (h : Tidy src b) (hE : NoEnd b) : ¬ ['\n', '%', '}'] <:+: textOfToks src b := by
  rintro ⟨x, y, e⟩
  rw [List.append_assoc] at e
  obtain ⟨b1, t, b2, u, v, rfl, e2, -, e4⟩ := flat_split (y := '%' :: '}' :: y) e.symm
  have hv : v = [] ∧ (t.kind = .Eol ∨ t.kind = .Terminator) := by
    rcases nl_tok (h.mem (by simp)) e2 with ⟨hk, -, rfl⟩ | ⟨hk, rfl | rfl⟩
    · exact ⟨rfl, .inl hk⟩
    · exact ⟨rfl, .inr hk⟩
    · simp at e4
  obtain ⟨rfl, hk⟩ := hv
  rw [List.nil_append] at e4
  cases b2 with
  | nil => simp [textOfToks] at e4
  | cons w b2 =>
    have hw := h.right.tail.head
    have hcol := (Tidy.pair h).col.2 hk
    have close : ['%', '}'] <+: sliceD src w → False := by
      intro hp
      have := hE w (by simp) (hw.close hp)
      rw [hcol] at this; cases this
    rw [text_cons] at e4
    match hs : sliceD src w with
    | [] => exact hw.ne hs
    | [c] =>
      rw [hs] at e4
      simp only [List.cons_append, List.nil_append, List.cons.injEq] at e4
      obtain ⟨rfl, e4⟩ := e4
      cases b2 with
      | nil => simp [textOfToks] at e4
      | cons z b2 =>
        have hz := h.right.tail.tail.head
        have hh := text_head (b := b2) hz
        rw [← e4] at hh
        have := (Tidy.pair (l1 := b1 ++ [t]) (t := w) (u := z) (l2 := b2) (by simpa using h)).pct hs
        exact this hh.symm
    | c :: d :: s =>
      rw [hs] at e4
      simp only [List.cons_append, List.cons.injEq] at e4
      obtain ⟨rfl, rfl, -⟩ := e4
      exact close ⟨s, by rw [hs]; rfl⟩

theorem no_cr {b} (h : Tidy src b) : '\r' ∉ textOfToks src b := by
  intro hm
  obtain ⟨t, ht, hm⟩ := List.mem_flatMap.1 hm
  exact (h.mem ht).cr hm

theorem occurs_false {pat s : Str} (h : ¬ pat <:+: s) : occurs pat s = false := by
  simp [occurs, h]

theorem occurs_char {pat s : Str} {c : Char} (hc : c ∈ pat) (h : c ∉ s) : occurs pat s = false :=
  occurs_false (fun hi => h (hi.subset hc))

/-- The place of a block. -/
abbrev at' (c : Bool) : Place := ⟨c⟩

/-- What is known about the tokens of inline content. -/
structure Calm (src : Str) (c : Bool) (b : List Token) : Prop where
  tidy : Tidy src b
  noTerm : NoTerm b
  noEnd : c = true → NoEnd b

theorem Tidy.infix {a b} (h : Tidy src b) (hi : a <:+: b) : Tidy src a := by
  obtain ⟨x, y, rfl⟩ := hi
  exact h.left.right

theorem Calm.infix {c a b} (h : Calm src c b) (hi : a <:+: b) : Calm src c a :=
  ⟨h.tidy.infix hi, fun t ht => h.noTerm t (hi.subset ht), fun e => (h.noEnd e).infix hi⟩

theorem Calm.mem {c} {α : Type} {f : α → List Token} {l : List α} (h : Calm src c (l.flatMap f)) {x} (hx : x ∈ l) :
    Calm src c (f x) := by
  obtain ⟨a, b, rfl⟩ := List.append_of_mem hx
  rw [List.flatMap_append, List.flatMap_cons] at h
  exact h.infix ⟨a.flatMap f, b.flatMap f, by simp⟩

theorem noClose_of {pl : Place} {b} (h : Tidy src b) (hE : pl.inCollapsible = true → NoEnd b) :
    noCloseLine pl (textOfToks src b) = true := by
  unfold noCloseLine
  cases hc : pl.inCollapsible with
  | false => rfl
  | true =>
    have := occurs_false (no_close h (hE hc))
    simpa using this

theorem calm_body {pl : Place} {b} (h : Calm src pl.inCollapsible b) :
    safeBody pl (textOfToks src b) = true := by
  have h1 : leftBlank (textOfToks src b) = false := Round.leftBlank_of
    (fun hi => no_blank h.tidy h.noTerm (List.IsInfix.trans ⟨[], ['\n'], rfl⟩ hi))
    (fun hi => no_cr h.tidy (hi.subset (by decide)))
  unfold safeBody
  rw [h1, noClose_of h.tidy h.noEnd]
  rfl

theorem calm_text {pl : Place} {b} (h : Calm src pl.inCollapsible b) (hne : b ≠ []) :
    safeText (textOfToks src b) = true := by
  have h2 : leftBlankText (textOfToks src b) = false := Round.leftBlankText_of
    (fun hi => no_cr h.tidy (hi.subset (by decide)))
  have h3 := live_text h.tidy.live hne
  unfold safeText
  rw [h2]
  simpa using h3

/-! ### Neighbours -/

theorem meet {x y : List Token} {a b l1 l2} (h : Live src (x ++ y)) (hx : x = l1 ++ [a]) (hy : y = b :: l2)
    (hk : a.kind = b.kind) : runCharOf a.kind = none := by
  subst hx hy
  exact h.chain l1 a b l2 (by simp) hk

theorem delim_end (d : Delim) : d.toks = (d.opening :: d.body) ++ [d.closing] := rfl

theorem clashB_free {x y : BoldItem} (hx : x.Ok) (hy : y.Ok) (ht : Live src (x.toks ++ y.toks))
    (hn : ¬ (x.isText = true ∧ y.isText = true)) : clashB (x.denote src) (y.denote src) = false := by
  cases x with
  | text a =>
    cases y with
    | text b => exact absurd ⟨rfl, rfl⟩ hn
    | delim e => rcases hy with ⟨n, o, c⟩ | ⟨n, o, c⟩ <;> simp [BoldItem.denote, n, clashB]
  | delim d =>
    cases y with
    | text b => rcases hx with ⟨n, o, c⟩ | ⟨n, o, c⟩ <;> simp [BoldItem.denote, n, clashB]
    | delim e =>
      have m := meet ht (delim_end d) (y := e.toks) rfl
      rcases hx with ⟨n, o, c⟩ | ⟨n, o, c⟩ <;> rcases hy with ⟨n', o', c'⟩ | ⟨n', o', c'⟩
      · have := m ((kind_of_len c).trans (kind_of_len o').symm)
        rw [kind_of_len c] at this; simp [runCharOf] at this
      all_goals simp [BoldItem.denote, n, n', clashB]

theorem clashP_free {x y : Inl} (hx : x.Ok) (hy : y.Ok) (ht : Live src (x.toks ++ y.toks))
    (hn : ¬ (x.isText = true ∧ y.isText = true)) : clashP (x.denote src) (y.denote src) = false := by
  have no : ∀ {k k' : TokenKind} {c : Char}, runCharOf k = some c → k = k' → runCharOf k = none → False := by
    intro k k' c h1 _ h2; rw [h1] at h2; cases h2
  cases x with
  | text a =>
    cases y with
    | text b => exact absurd ⟨rfl, rfl⟩ hn
    | delim e => rcases hy with ⟨n, o, c⟩ | ⟨n, o, c⟩ | ⟨n, o, c⟩ | ⟨n, o, c⟩ <;> simp [Inl.denote, n, clashP]
    | bold o i c => simp [Inl.denote, clashP]
    | anchor l => simp [Inl.denote, clashP]
  | anchor l =>
    cases y with
    | delim e => rcases hy with ⟨n, o, c⟩ | ⟨n, o, c⟩ | ⟨n, o, c⟩ | ⟨n, o, c⟩ <;> simp [Inl.denote, n, clashP]
    | _ => simp [Inl.denote, clashP]
  | bold o i c =>
    obtain ⟨h1, h2, -⟩ := hx
    have hc : (Inl.bold o i c).toks = (o :: i.flatMap BoldItem.toks) ++ [c] := rfl
    cases y with
    | text b => simp [Inl.denote, clashP]
    | anchor l => simp [Inl.denote, clashP]
    | delim e =>
      have m := meet ht hc (y := e.toks) rfl
      rcases hy with ⟨n, o, c⟩ | ⟨n, o, c⟩ | ⟨n, o, c⟩ | ⟨n, o, c⟩
      · simp [Inl.denote, n, clashP]
      · simp [Inl.denote, n, clashP]
      · simp [Inl.denote, n, clashP]
      · have := m ((kind_of_len h2).trans (kind_of_len o).symm)
        rw [kind_of_len h2] at this; simp [runCharOf] at this
    | bold o' i' c' =>
      have m := meet ht hc (y := (Inl.bold o' i' c').toks) rfl
      have := m ((kind_of_len h2).trans (kind_of_len hy.1).symm)
      rw [kind_of_len h2] at this; simp [runCharOf] at this
  | delim d =>
    cases y with
    | text b => rcases hx with ⟨n, o, c⟩ | ⟨n, o, c⟩ | ⟨n, o, c⟩ | ⟨n, o, c⟩ <;> simp [Inl.denote, n, clashP]
    | anchor b => rcases hx with ⟨n, o, c⟩ | ⟨n, o, c⟩ | ⟨n, o, c⟩ | ⟨n, o, c⟩ <;> simp [Inl.denote, n, clashP]
    | bold o' i' c' =>
      have m := meet ht (delim_end d) (y := (Inl.bold o' i' c').toks) rfl
      rcases hx with ⟨n, o, c⟩ | ⟨n, o, c⟩ | ⟨n, o, c⟩ | ⟨n, o, c⟩
      · simp [Inl.denote, n, clashP]
      · simp [Inl.denote, n, clashP]
      · simp [Inl.denote, n, clashP]
      · have := m ((kind_of_len c).trans (kind_of_len hy.1).symm)
        rw [kind_of_len c] at this; simp [runCharOf] at this
    | delim e =>
      have m := meet ht (delim_end d) (y := e.toks) rfl
      have bad : ∀ {k : TokenKind} {c : Char}, runCharOf k = some c → d.closing.kind = k → e.opening.kind = k → False := by
        intro k c h1 h2 h3
        have := m (h2.trans h3.symm)
        rw [h2, h1] at this; cases this
      rcases hx with ⟨n, o, c⟩ | ⟨n, o, c⟩ | ⟨n, o, c⟩ | ⟨n, o, c⟩ <;>
        rcases hy with ⟨n', o', c'⟩ | ⟨n', o', c'⟩ | ⟨n', o', c'⟩ | ⟨n', o', c'⟩ <;>
        first
        | (simp [Inl.denote, n, n', clashP]; done)
        | exact (bad (c := '~') rfl (kind_of_len c) (kind_of_len o')).elim
        | exact (bad (c := '`') rfl (kind_of_len c) (kind_of_len o')).elim
        | exact (bad (c := '*') rfl (kind_of_len c) (kind_of_len o')).elim

theorem noClash_map {α β : Type} {f : α → Bool} {toks : α → List Token} {ok : α → Prop} {den : α → β} {clash : β → β → Bool}
    (key : ∀ {x y}, ok x → ok y → Live src (toks x ++ toks y) → ¬ (f x = true ∧ f y = true) → clash (den x) (den y) = false) :
    ∀ {l : List α}, (∀ x ∈ l, ok x) → NoAdj f l → Live src (l.flatMap toks) → noClash clash (l.map den) = true
  | [], _, _, _ => rfl
  | [_], _, _, _ => rfl
  | x :: y :: r, h1, h2, h3 => by
    simp only [List.map_cons, noClash, Bool.and_eq_true, Bool.not_eq_true']
    simp only [List.flatMap_cons, ← List.append_assoc] at h3
    refine ⟨key (h1 x (by simp)) (h1 y (by simp)) h3.left h2.1, ?_⟩
    have := noClash_map (clash := clash) (den := den) key (l := y :: r) (fun z hz => h1 z (by simp [hz])) h2.2
      (by rw [List.append_assoc] at h3; simpa using h3.right)
    simpa using this

/-! ### Inline content -/

theorem delim_infix (d : Delim) : d.body <:+: d.toks := ⟨[d.opening], [d.closing], by simp [Delim.toks]⟩

theorem link_safe {pl : Place} {l : Link} (h : Calm src pl.inCollapsible l.toks) :
    safeAnchor pl (l.denote src) = true := by
  unfold safeAnchor
  rw [Bool.and_eq_true]
  have e1 : l.title.toks <:+: l.toks := ⟨[], l.dest.toks, by simp [Link.toks]⟩
  have e2 : l.dest.toks <:+: l.toks := ⟨l.title.toks, [], by simp [Link.toks]⟩
  exact ⟨calm_body (h.infix ((delim_infix l.title).trans e1)), calm_body (h.infix ((delim_infix l.dest).trans e2))⟩

theorem boldItem_safe {pl : Place} {x : BoldItem} (hx : x.Ok) (h : Calm src pl.inCollapsible x.toks) : safeBoldNode pl (x.denote src) = true := by
  cases x with
  | text ts =>
    simp only [BoldItem.denote, safeBoldNode, Bool.and_eq_true]
    have : textOfToks src ts ≠ [] := live_text h.tidy.live hx
    exact ⟨by simpa using this, calm_body h⟩
  | delim d =>
    have hb : Calm src pl.inCollapsible d.body := h.infix (delim_infix d)
    have hl : Live src d.toks := h.tidy.live
    rcases hx with ⟨n, o, c⟩ | ⟨n, o, c⟩
    · have := delim_body hl (kind_of_len o) (kind_of_len c) (c := '~') rfl
      simp only [BoldItem.denote, n]
      simp only [safeBoldNode, Bool.and_eq_true]
      exact ⟨by simpa using this, calm_body hb⟩
    · simp only [BoldItem.denote, n]
      exact calm_body hb

theorem inl_safe {pl : Place} {x : Inl} (hx : x.Ok) (h : Calm src pl.inCollapsible x.toks) : safeNode pl (x.denote src) = true := by
  cases x with
  | text ts =>
    exact calm_text h hx
  | anchor l =>
    exact link_safe h
  | bold o items c =>
    obtain ⟨a1, a2, a3, a4⟩ := hx
    have hitems : Calm src pl.inCollapsible (items.flatMap BoldItem.toks) := h.infix ⟨[o], [c], by simp [Inl.toks]⟩
    simp only [Inl.denote, safeNode, Bool.and_eq_true]
    refine ⟨⟨?_, ?_⟩, noClash_map (fun hx hy => clashB_free hx hy) a3 a4 hitems.tidy.live⟩
    · cases items with
      | nil =>
        have := Live.pair (a := o) (b := c) (r := []) h.tidy.live ((kind_of_len a1).trans (kind_of_len a2).symm)
        rw [kind_of_len a1] at this
        simp [runCharOf] at this
      | cons => rfl
    · rw [List.all_eq_true]
      intro y hy
      obtain ⟨z, hz, rfl⟩ := List.mem_map.1 hy
      exact boldItem_safe (a3 z hz) (hitems.mem hz)
  | delim d =>
    have hb : Calm src pl.inCollapsible d.body := h.infix (delim_infix d)
    have hl : Live src d.toks := h.tidy.live
    have hne : ∀ {k : TokenKind} {c : Char}, d.opening.kind = k → d.closing.kind = k → runCharOf k = some c →
        (textOfToks src d.body).isEmpty = false := by
      intro k c h1 h2 h3
      have := delim_body hl h1 h2 h3
      simpa using this
    rcases hx with ⟨n, o, c⟩ | ⟨n, o, c⟩ | ⟨n, o, c⟩ | ⟨n, o, c⟩ <;>
      simp only [Inl.denote, n] <;>
      simp only [safeNode, Bool.and_eq_true, Bool.not_eq_true']
    · exact ⟨hne (kind_of_len o) (kind_of_len c) (c := '~') rfl, calm_body hb⟩
    · exact calm_body hb
    · exact ⟨hne (kind_of_len o) (kind_of_len c) (c := '`') rfl, calm_body hb⟩
    · exact ⟨hne (kind_of_len o) (kind_of_len c) (c := '*') rfl, calm_body hb⟩

theorem para_safe {pl : Place} {l : List Inl} (hl : ParaOk l) (h : Calm src pl.inCollapsible (paraToks l)) : safeInline pl (paraDenote src l) = true := by
  unfold safeInline
  rw [Bool.and_eq_true, List.all_eq_true]
  refine ⟨?_, noClash_map (fun hx hy => clashP_free hx hy) hl.1 hl.2.1 h.tidy.live⟩
  intro y hy
  obtain ⟨z, hz, rfl⟩ := List.mem_map.1 hy
  exact inl_safe (hl.1 z hz) (Calm.mem h hz)

end

end Yamd.Ref
