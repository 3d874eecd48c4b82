import Verif.Proofs.MarksOps
import Verif.Proofs.LocalDoc

/-!
# What a paragraph of a document cannot look like
-/

namespace Yamd.Ref

open Yamd Yamd.Spec

theorem lineA_iff {k : TokenKind} {n : Nat} {t : Token} :
    (decide (t.kind = k) && col0 t && decide (t.len = n)) = true ↔ atColumn0 t ∧ tokenIsA k n t := by
  unfold tokenIsA Token.len
  rw [← atColumn0_iff]
  simp only [Bool.and_eq_true, decide_eq_true_eq]
  constructor
  · rintro ⟨⟨a, b⟩, c⟩; exact ⟨b, a, c⟩
  · rintro ⟨b, a, c⟩; exact ⟨⟨a, b⟩, c⟩

theorem isTwoBangs_iff {t} : isTwoBangs t = true ↔ isHighlightMark t := lineA_iff
theorem isFence_iff {t} : isBacktick3 t = true ↔ isFence t := lineA_iff
theorem isDash5_iff {t} : isDash5 t = true ↔ atColumn0 t ∧ tokenIsA .Minus 5 t := lineA_iff
theorem isLeftCurly2_iff {t} : isLeftCurly2 t = true ↔ atColumn0 t ∧ tokenIsA .LeftCurlyBrace 2 t := lineA_iff
theorem isSpace1_iff {t} : isSpace1 t = true ↔ tokenIsA .Space 1 t := isA_iff
theorem isBang1_iff {t} : isBang1 t = true ↔ tokenIsA .Bang 1 t := isA_iff

theorem Cols.left : ∀ {a b : List Token}, Cols (a ++ b) → Cols a
  | [], _, _ => trivial
  | [_], _, _ => trivial
  | x :: y :: a, b, h => ⟨h.1, Cols.left (a := y :: a) h.2⟩

section
variable {o : List Node} {stops : List Stop} (hs : StopsFor o stops)
include hs

theorem coll_ends {t : Token} {r} : stopAt stops (t :: r) = true ↔ CollapsibleEnds (.Document :: o) (t :: r) :=
  coll_stops (o := .Document :: o) ⟨hs.1, by rw [hs.2]; simp⟩

/-- Scanning for a token that is there: it is found, or there is a stop before. -/
theorem untilB_reach {m : Token → Bool} : ∀ {c : List Token} {u d}, (∀ x ∈ c, m x = false) → m u = true →
    untilB stops m (c ++ u :: d) = some (c, u, d) ∨ EndsWithin (.Document :: o) (c ++ [u]) d
  | [], u, d, _, hu => by
    cases h : stopAt stops (u :: d) with
    | true => exact .inr ⟨[], u, [], rfl, (coll_ends hs).1 h⟩
    | false => left; rw [List.nil_append, untilB_go h, if_pos hu]
  | x :: c, u, d, hc, hu => by
    cases h : stopAt stops (x :: (c ++ u :: d)) with
    | true => exact .inr ⟨[], x, c ++ [u], rfl, by rw [List.append_assoc]; exact (coll_ends hs).1 h⟩
    | false =>
      rw [List.cons_append, untilB_go h, if_neg (by rw [hc x (by simp)]; simp)]
      rcases untilB_reach (c := c) (u := u) (d := d) (fun y hy => hc y (by simp [hy])) hu with h1 | ⟨a, t, b, e, h1⟩
      · left; rw [h1]; rfl
      · exact .inr ⟨x :: a, t, b, by rw [List.cons_append, e]; rfl, h1⟩

theorem closeLine_left {u d} (h : closeLineB stops u d = none) : ¬ LineEnds (.Document :: o) d := by
  unfold closeLineB at h
  split at h
  · cases h
  · rename_i t r
    split at h
    · cases h
    · split at h
      · cases h
      · rename_i h1 h2
        rintro (h3 | ⟨t', r', e, h3⟩)
        · rw [ends_doc hs] at h3
          simp only [Ref.stopAt, List.any_cons, Bool.or_eq_true, decide_eq_true_eq, not_or, stopHere] at h2 h3
          rcases h3 with h3 | h3
          · exact h2.2 h3
          · exact h2.1 h3
        · cases e
          exact h1 (by simp [isEol, h3])

theorem embed_left {f l p a c d} (h : embedB stops (f :: (l ++ p :: (a ++ c :: d))) = none)
    (h0 : atColumn0 f) (h1 : tokenIsA .LeftCurlyBrace 2 f)
    (h2 : ∀ t ∈ l, ¬ tokenIsA .Pipe 1 t) (h3 : tokenIsA .Pipe 1 p) (h4 : ∀ t ∈ a, ¬ tokenIsA .RightCurlyBrace 2 t)
    (h5 : tokenIsA .RightCurlyBrace 2 c) :
    ¬ LineEnds (.Document :: o) d ∨ EndsWithin (.Document :: o) (l ++ p :: (a ++ [c])) d := by
  have neg : ∀ {m : Token → Bool} {P : Token → Prop} {l : List Token}, (∀ t, m t = true ↔ P t) → (∀ t ∈ l, ¬ P t) → ∀ t ∈ l, m t = false := by
    intro m P l h1 h2 t ht
    cases h : m t with
    | false => rfl
    | true => exact absurd ((h1 t).1 h) (h2 t ht)
  unfold embedB at h
  simp only at h
  rw [if_pos (isLeftCurly2_iff.2 ⟨h0, h1⟩)] at h
  rcases untilB_reach hs (d := a ++ c :: d) (neg (fun _ => isPipe_iff) h2) (isPipe_iff.2 h3) with e1 | ⟨x, t, y, e, h6⟩
  · rw [e1] at h
    simp only at h
    rcases untilB_reach hs (d := d) (neg (fun _ => isRightCurly2_iff) h4) (isRightCurly2_iff.2 h5) with e2 | ⟨x, t, y, e, h6⟩
    · rw [e2] at h
      simp only [Option.map_eq_none_iff] at h
      exact .inl (closeLine_left hs h)
    · exact .inr ⟨l ++ p :: x, t, y, by rw [e]; simp, h6⟩
  · refine .inr ⟨x, t, y ++ (a ++ [c]), ?_, ?_⟩
    · have := congrArg (· ++ (a ++ [c])) e
      simpa using this
    · simpa using h6

theorem code_left {f c u d} (hc : Cols (f :: (c ++ u :: d))) (h : codeB stops (f :: (c ++ u :: d)) = none)
    (h1 : isFence f) (h2 : ∀ x ∈ c, ¬ isFence x) (h3 : isFence u) : ¬ LineEnds (.Document :: o) d := by
  have h2' : ∀ x ∈ c, isBacktick3 x = false := by
    intro x hx
    cases h : isBacktick3 x with
    | false => rfl
    | true => exact absurd (isFence_iff.1 h) (h2 x hx)
  have hf : isEolOrTerminator f = false := kind_noBreak h1.2.1 (by decide) (by decide)
  have fin : ∀ {op m c'}, (∀ x ∈ c', isBacktick3 x = false) → codeRestB stops op m (c' ++ u :: d) = none →
      ¬ LineEnds (.Document :: o) d := by
    intro op m c' hc' h
    unfold codeRestB at h
    rw [untilB_first hc' (isFence_iff.2 h3)] at h
    simp only [Option.map_eq_none_iff] at h
    exact closeLine_left hs h
  unfold codeB at h
  simp only at h
  rw [if_pos (isFence_iff.2 h1)] at h
  split at h
  · rename_i he
    cases c with
    | nil =>
      exfalso
      have he : isEol u = true := he
      have := h3.2.1
      simp [isEol, this] at he
    | cons e c => exact fin (fun x hx => h2' x (by simp [hx])) h
  · unfold optModB modifierB at h
    have h0 : tokenIs (c ++ u :: d) 0 col0 = false := tokenIs_col hc hf
    rw [if_neg (by rw [h0]; simp)] at h
    cases hu : untilB [] isEolOrTerminator (c ++ u :: d) with
    | none => rw [hu] at h; exact fin h2' h
    | some x =>
      obtain ⟨b, e, r2⟩ := x
      rw [hu] at h
      have e1 := untilB_length hu
      have hb := untilB_free hu
      rcases cut_append e1.symm with ⟨d', e2, e3⟩ | ⟨c', e2, e3⟩
      · exfalso
        have hcc := hc
        rw [e1] at hcc
        have := Cols.break_before (t := f) (r := b) (by
          rw [← List.cons_append] at hcc; exact hcc.left) hf hb u (by rw [e2]; simp)
        rw [atColumn0_iff.2 h3.1] at this
        cases this
      · cases c' with
        | nil =>
          exfalso
          cases e3
          have he := (untilB_ok hu).1
          rw [kind_noBreak h3.2.1 (by decide) (by decide)] at he
          cases he
        | cons w c' =>
          obtain ⟨rfl, e4⟩ := List.cons.inj (show w :: (c' ++ u :: d) = e :: r2 from e3.symm)
          rw [← e4] at h
          exact fin (fun x hx => h2' x (by rw [e2]; simp [hx])) h

theorem hlParas_left : ∀ (n : Nat) {ts : List Token}, ts.length ≤ n → hlParasB stops ts = none →
    ∀ c u d, ts = c ++ u :: d → isHighlightMark u → EndsWithin (.Document :: o) c (u :: d) := by
  intro n
  induction n with
  | zero => intro ts hn _ c u d e; rw [e] at hn; simp at hn
  | succ n ih =>
    intro ts hn h c u d e hu
    rw [hlParasB.eq_def] at h
    have notu : stopAt stops (u :: d) = false := by
      cases hk : stopAt stops (u :: d) with
      | false => rfl
      | true =>
        obtain ⟨-, ⟨t, r, e1, h1, -⟩ | ⟨t, r, e1, h1, -⟩⟩ := (coll_ends hs).1 hk
        · cases e1; rw [hu.2.1] at h1; cases h1
        · cases e1; rw [hu.2.1] at h1; cases h1
    split at h
    · rename_i hst
      cases c with
      | nil =>
        rw [List.nil_append] at e
        rw [e, notu] at hst; cases hst
      | cons t c =>
        rw [e] at hst
        exact ⟨[], t, c, rfl, (coll_ends hs).1 hst⟩
    · rename_i hst
      split at h
      · split at h <;> cases h
      · rename_i hb
        simp only at h
        have ec : ∃ c', (termB ts).1 ++ c' = c ∧ (termB ts).2 = c' ++ u :: d := by
          unfold termB
          split
          · rename_i ht
            cases c with
            | nil =>
              rw [List.nil_append] at e
              rw [e] at ht
              have ht : isTerminator u = true := ht
              simp [isTerminator, hu.2.1] at ht
            | cons t c => exact ⟨c, by rw [e]; rfl, by rw [e]; rfl⟩
          · exact ⟨c, rfl, e⟩
        obtain ⟨c', e1, e2⟩ := ec
        have et := paraB_toks (stops := .Terminator :: .HighlightEnd :: stops) (acc := []) _
          (Nat.le_refl (termB ts).2.length)
        have ex := paraB_extent (.Terminator :: .HighlightEnd :: stops) (termB ts).2
        rw [List.nil_append] at et
        have hk : ∃ c2, c' = paraToks (paraB (.Terminator :: .HighlightEnd :: stops) [] (termB ts).2).1 ++ c2 ∧
            (paraB (.Terminator :: .HighlightEnd :: stops) [] (termB ts).2).2 = c2 ++ u :: d := by
          have e3 := et.symm.trans e2
          rcases cut_append e3 with ⟨d', e4, e5⟩ | ⟨c2, e4, e5⟩
          · exfalso
            have := ex.2
            rw [e4] at this
            have := this.right.1
            simp only [Ref.stopAt, List.any_cons, stopHere, Bool.or_eq_false_iff] at this
            have h2 := this.2.1
            rw [lineA_iff.2 hu] at h2
            cases h2
          · exact ⟨c2, e4, e5⟩
        obtain ⟨c2, e4, e5⟩ := hk
        split at h
        · rename_i hlt
          simp only [Option.map_eq_none_iff] at h
          obtain ⟨x, t, y, e6, h6⟩ := ih (by omega) h c2 u d e5 hu
          refine ⟨(termB ts).1 ++ (paraToks (paraB (.Terminator :: .HighlightEnd :: stops) [] (termB ts).2).1 ++ x), t, y, ?_, h6⟩
          rw [← e1, e4, e6]; simp
        · rename_i hlt
          exfalso
          have hlen : (termB ts).2.length = (paraToks (paraB (.Terminator :: .HighlightEnd :: stops) [] (termB ts).2).1).length +
              (paraB (.Terminator :: .HighlightEnd :: stops) [] (termB ts).2).2.length := by
            rw [← List.length_append, ← et]
          unfold termB at hlt hlen ex
          split at hlen
          · rename_i ht
            rw [if_pos ht] at hlt
            simp only [List.length_drop] at hlt hlen
            rw [e] at hlt hlen
            simp only [List.length_append, List.length_cons] at hlt hlen
            omega
          · rename_i ht
            rw [if_neg ht] at hlt ex
            simp only at hlt hlen ex
            have h0 : paraToks (paraB (.Terminator :: .HighlightEnd :: stops) [] ts).1 = [] :=
              List.length_eq_zero_iff.1 (by omega)
            have h1 := paraB_toks (stops := .Terminator :: .HighlightEnd :: stops) (acc := []) _ (Nat.le_refl ts.length)
            rw [h0, List.nil_append, List.nil_append] at h1
            have h2 := ex.1
            rw [← h1] at h2
            cases ts with
            | nil => cases c <;> cases e
            | cons t r =>
              simp only [Ref.stopAt, List.any_cons, stopHere, Bool.or_eq_true, decide_eq_true_eq] at h2
              rcases h2 with h2 | h2 | h2
              · exact ht (by simp [tokenIs, isTerminator, h2])
              · exact hb (by simpa [tokenIs, isTwoBangs] using h2)
              · exact hst h2

theorem highlight_left {f s c u d} (hc : Cols (f :: s :: (c ++ u :: d))) (h : highlightB stops (f :: s :: (c ++ u :: d)) = none)
    (h1 : isHighlightMark f) (h2 : tokenIsA .Space 1 s ∨ s.kind = .Eol) (h3 : isHighlightMark u) :
    EndsWithin (.Document :: o) (s :: c) (u :: d) := by
  have wide : ∀ {a c'}, c = a ++ c' → EndsWithin (.Document :: o) c' (u :: d) → EndsWithin (.Document :: o) (s :: c) (u :: d) := by
    rintro a c' e ⟨x, t, y, e', h⟩
    exact ⟨s :: (a ++ x), t, y, by rw [e, e']; simp, h⟩
  -- the body
  have body : ∀ {op m a c'}, c = a ++ c' → tokenIs (c' ++ u :: d) 0 col0 = true → Cols (c' ++ u :: d) →
      hlRestB stops op m (c' ++ u :: d) = none → EndsWithin (.Document :: o) (s :: c) (u :: d) := by
    intro op m a c' ea h0 hc h
    unfold hlRestB optIconB iconB at h
    simp only at h
    have plain : (if tokenIs (c' ++ u :: d) 0 col0 = true then
        Option.map (fun x => (Block.highlight op m none x.1 x.2.1, x.2.2)) (hlParasB stops (c' ++ u :: d)) else none) = none →
        EndsWithin (.Document :: o) (s :: c) (u :: d) := by
      intro h
      rw [if_pos h0, Option.map_eq_none_iff] at h
      exact wide ea (hlParas_left hs _ (Nat.le_refl _) h _ _ _ rfl h3)
    split at h
    · rename_i m' r' hi
      split at hi
      · rename_i hic
        simp only [Option.map_eq_some_iff, Prod.mk.injEq] at hi
        obtain ⟨⟨b, e, r2⟩, hu, rfl, rfl⟩ := hi
        simp only at h
        -- the icon line ends before the mark
        match c', hic, hu, hc, ea with
        | [], hic, _, _, _ =>
          exfalso
          simp only [Bool.and_eq_true] at hic
          have := hic.1
          have : isOneBang u = true := this
          simp only [isOneBang, Bool.and_eq_true, decide_eq_true_eq] at this
          have h4 := h3.2.2
          have h5 : u.stop - u.start = 1 := this.2
          omega
        | [x], hic, _, _, _ =>
          exfalso
          simp only [Bool.and_eq_true] at hic
          have := hic.2
          have : isSpace1 u = true := this
          have h4 := h3.2.1
          simp [isSpace1, h4] at this
        | x :: y :: c', hic, hu, hc, ea =>
          have hu : untilB (.Terminator :: stops) isEol (c' ++ u :: d) = some (b, e, r2) := hu
          have e1 := untilB_length hu
          have hb := untilB_free hu
          obtain ⟨he, -, hnt⟩ := untilB_ok hu
          have hy : isEolOrTerminator y = false := by
            simp only [Bool.and_eq_true] at hic
            have := hic.2
            have : isSpace1 y = true := this
            exact kind_noBreak (isSpace1_iff.1 this).1 (by decide) (by decide)
          have hcy : Cols (y :: (b ++ e :: r2)) := by
            have : Cols (y :: (c' ++ u :: d)) := hc.tail
            rw [e1] at this
            exact this
          have hb2 : ∀ t ∈ b, isEolOrTerminator t = false := by
            intro t ht
            have a1 := hb t ht
            have a2 := hnt (by simp) t (by simp [ht])
            simp only [isEol, decide_eq_false_iff_not] at a1
            simp [isEolOrTerminator, a1, a2]
          rcases cut_append e1.symm with ⟨d', e2, e3⟩ | ⟨c2, e2, e3⟩
          · exfalso
            have := Cols.break_before (t := y) (r := b) (by rw [← List.cons_append] at hcy; exact hcy.left) hy hb2 u (by rw [e2]; simp)
            rw [atColumn0_iff.2 h3.1] at this
            cases this
          · cases c2 with
            | nil =>
              exfalso
              cases e3
              simp [isEol, h3.2.1] at he
            | cons w c2 =>
              obtain ⟨rfl, e4⟩ := List.cons.inj (show w :: (c2 ++ u :: d) = e :: r2 from e3.symm)
              rw [← e4] at h hcy
              have h7 : tokenIs (c2 ++ u :: d) 0 col0 = true := by
                have := hcy.tail.right (a := b)
                cases c2 with
                | nil => exact this.1.1 (by simp [isEolOrTerminator, isEol] at he ⊢; exact .inl he)
                | cons v c2 => exact this.1.1 (by simp [isEolOrTerminator, isEol] at he ⊢; exact .inl he)
              rw [if_pos h7, Option.map_eq_none_iff] at h
              refine wide (a := a ++ x :: y :: (b ++ [w])) (c' := c2) ?_ (hlParas_left hs _ (Nat.le_refl _) h _ _ _ rfl h3)
              rw [ea, e2]; simp
      · cases hi
    · exact plain h
  unfold highlightB at h
  have hopen : (tokenIs (f :: s :: (c ++ u :: d)) 0 isTwoBangs &&
      tokenIs (f :: s :: (c ++ u :: d)) 1 fun t => isSpace1 t || isEol t) = true := by
    rw [Bool.and_eq_true]
    refine ⟨isTwoBangs_iff.2 h1, ?_⟩
    show (isSpace1 s || isEol s) = true
    rw [Bool.or_eq_true]
    rcases h2 with h2 | h2
    · exact .inl (isSpace1_iff.2 h2)
    · exact .inr (by simp [isEol, h2])
  rw [if_pos hopen] at h
  have hcr : Cols (c ++ u :: d) := hc.tail.tail
  split at h
  · rename_i he
    have he : isEol s = true := he
    refine body (a := []) (c' := c) rfl ?_ hcr h
    have := hc.tail
    have hb : isEolOrTerminator s = true := by simp [isEolOrTerminator, isEol] at he ⊢; exact .inl he
    cases c with
    | nil => exact this.1.1 hb
    | cons v c => exact this.1.1 hb
  · rename_i he
    have hsp : isEolOrTerminator s = false := by
      rcases h2 with h2 | h2
      · exact kind_noBreak h2.1 (by decide) (by decide)
      · exact absurd (show isEol s = true by simp [isEol, h2]) he
    have h0 : tokenIs (c ++ u :: d) 0 col0 = false := tokenIs_col hc.tail hsp
    have hd : List.drop 2 (f :: s :: (c ++ u :: d)) = c ++ u :: d := rfl
    rw [hd] at h
    -- the first line break
    obtain ⟨b, e, r2, e1, hb, hbr⟩ : ∃ b e r2, c ++ u :: d = b ++ e :: r2 ∧ (∀ t ∈ b, isEolOrTerminator t = false) ∧
        isEolOrTerminator e = true := by
      obtain ⟨t, ht, hbt⟩ := Cols.break_within hcr (c := u) (by simp) (atColumn0_iff.2 h3.1) h0
      cases hq : untilB [] isEolOrTerminator (c ++ u :: d) with
      | none => rw [untilB_none_mem hq t ht] at hbt; cases hbt
      | some x =>
        obtain ⟨b, e, r2⟩ := x
        exact ⟨b, e, r2, untilB_length hq, untilB_free hq, (untilB_ok hq).1⟩
    have hcb : Cols (s :: (b ++ e :: r2)) := by have := hc.tail; rw [e1] at this; exact this
    rcases cut_append e1.symm with ⟨d', e2, e3⟩ | ⟨c2, e2, e3⟩
    · exfalso
      have := Cols.break_before (t := s) (r := b) (by rw [← List.cons_append] at hcb; exact hcb.left) hsp hb u (by rw [e2]; simp)
      rw [atColumn0_iff.2 h3.1] at this
      cases this
    · cases c2 with
      | nil =>
        exfalso
        cases e3
        rw [kind_noBreak h3.2.1 (by decide) (by decide)] at hbr
        cases hbr
      | cons w c2 =>
        obtain ⟨rfl, e4⟩ := List.cons.inj (show w :: (c2 ++ u :: d) = e :: r2 from e3.symm)
        rcases untilB_reach hs (m := isEolOrTerminator) (d := c2 ++ u :: d) hb hbr with hq | ⟨x, t, y, e5, h5⟩
        · have hm : optModB stops (c ++ u :: d) = (some ⟨b, w⟩, c2 ++ u :: d) := by
            unfold optModB modifierB
            have e0 : c ++ u :: d = b ++ w :: (c2 ++ u :: d) := by rw [e2]; simp
            rw [if_neg (by rw [h0]; simp), e0, hq]
            rfl
          rw [hm] at h
          refine body (a := b ++ [w]) (c' := c2) (by rw [e2]; simp) ?_ ?_ h
          · have := hcb.tail.right (a := b)
            rw [← e4] at this
            cases c2 with
            | nil => exact this.1.1 hbr
            | cons v c2 => exact this.1.1 hbr
          · have := (hcb.tail.right (a := b)).tail
            rw [← e4] at this
            exact this
        · refine ⟨s :: x, t, y ++ c2, ?_, ?_⟩
          · rw [e2]
            have := congrArg (fun l => s :: (l ++ c2)) e5
            simpa using this
          · simpa using h5

end

/-! ### Images -/

theorem untilB_open {S : List Stop} {m : Token → Bool} : ∀ {c : List Token} {u d}, Unstopped S (c ++ [u]) d →
    (∀ x ∈ c, m x = false) → m u = true → untilB S m (c ++ u :: d) = some (c, u, d)
  | [], u, d, h, _, hu => by
    have h1 : stopAt S (u :: d) = false := h.1
    rw [List.nil_append, untilB_go h1, if_pos hu]
  | x :: c, u, d, h, hc, hu => by
    have h1 : stopAt S (x :: ((c ++ [u]) ++ d)) = false := h.1
    rw [List.append_assoc, List.singleton_append] at h1
    rw [List.cons_append, untilB_go h1, if_neg (by rw [hc x (by simp)]; simp),
      untilB_open h.2 (fun y hy => hc y (by simp [hy])) hu]
    rfl

theorem destScan_open {S : List Stop} : ∀ {c : List Token} {u d}, Unstopped S (c ++ [u]) d →
    (∀ t ∈ c, t.kind ≠ .LeftParenthesis ∧ t.kind ≠ .RightParenthesis) → u.kind = .RightParenthesis →
    destScan S 1 (c ++ u :: d) = some (c, u, d)
  | [], u, d, h, _, hu => by
    have h1 : stopAt S (u :: d) = false := h.1
    rw [List.nil_append, destScan_go h1, if_neg (by rw [hu]; decide), if_pos hu]; rfl
  | x :: c, u, d, h, hc, hu => by
    have h1 : stopAt S (x :: ((c ++ [u]) ++ d)) = false := h.1
    rw [List.append_assoc, List.singleton_append] at h1
    have hx := hc x (by simp)
    rw [List.cons_append, destScan_go h1, if_neg hx.1, if_neg hx.2,
      destScan_open h.2 (fun y hy => hc y (by simp [hy])) hu]
    rfl

/-- An image line is read as an image when it ends its line. -/
theorem image_reads {S : List Stop} {l rest : List Token} (h : ImageLine l) (hu : Unstopped S l rest) :
    ∃ b k, linkB S (l.tail ++ rest) = some (k, rest) ∧ l = b :: l.tail ∧ isBang1 b = true := by
  obtain ⟨b, o, c, x, p, d, q, rfl, h1, h2, h3, h4, h5, h6, h7⟩ := h
  refine ⟨b, ⟨⟨.Title, o, c, x⟩, ⟨.Destination, p, d, q⟩⟩, ?_, rfl, isBang1_iff.2 h1⟩
  show linkB S (o :: ((c ++ x :: p :: (d ++ [q])) ++ rest)) = _
  have hu2 : Unstopped S (c ++ ([x] ++ p :: (d ++ [q]))) rest := hu.2.2
  rw [← List.append_assoc] at hu2
  have e : (c ++ x :: p :: (d ++ [q])) ++ rest = c ++ x :: (p :: (d ++ q :: rest)) := by simp
  have u1 : Unstopped S (c ++ [x]) (p :: (d ++ q :: rest)) := by
    have := hu2.left
    simpa using this
  have u2 : Unstopped S (d ++ [q]) rest := hu2.right.2
  unfold linkB titleB
  rw [delimB, if_pos (isLeftBracket_iff.2 h2), e, untilB_open u1 (fun t ht => ?_) (isRightBracket_iff.2 h4)]
  · simp only [Option.map_some]
    rw [destB, if_pos (isLeftParen_iff.2 h5), destScan_open u2 h6 h7]
    rfl
  · cases hk : isRightBracket t with
    | false => rfl
    | true => exact absurd (isRightBracket_iff.1 hk) (h3 t ht)

theorem images_reads {S : List Stop} {rest : List Token} (hr : imagesB S rest = some ([], rest)) (hst : stopAt S rest = true)
    (hr2 : tokenIs rest 0 isEol = true → imagesB S (rest.drop 1) = some ([], rest.drop 1)) :
    ∀ {own : List Token}, ImageLines own → Unstopped S own rest → ∃ i l r, imagesB S (own ++ rest) = some (i :: l, r) := by
  intro own h
  induction h with
  | last l h =>
    intro hu
    obtain ⟨b, k, e1, e2, e3⟩ := image_reads h hu
    rw [e2, List.cons_append]
    have hi : imageB S (b :: (l.tail ++ rest)) =
        (if tokenIs rest 0 isEol then some (⟨b, k, rest.take 1⟩, rest.drop 1)
        else if stopAt S rest then some (⟨b, k, []⟩, rest) else none) := by
      unfold imageB
      simp only
      rw [if_pos e3, e1]
    cases ht : tokenIs rest 0 isEol with
    | true =>
      rw [ht, if_pos rfl] at hi
      rw [imagesB.eq_def]
      split
      · rename_i i r h1
        rw [hi] at h1
        simp only [Option.some.injEq, Prod.mk.injEq] at h1
        rw [← h1.2, hr2 ht]
        exact ⟨_, _, _, rfl⟩
      · rename_i h1; rw [hi] at h1; cases h1
    | false =>
      rw [ht, if_neg (by simp), if_pos hst] at hi
      rw [imagesB.eq_def]
      split
      · rename_i i r h1
        rw [hi] at h1
        simp only [Option.some.injEq, Prod.mk.injEq] at h1
        rw [← h1.2, hr]
        exact ⟨_, _, _, rfl⟩
      · rename_i h1; rw [hi] at h1; cases h1
  | more l e r h he _ ih =>
    intro hu
    obtain ⟨b, k, e1, e2, e3⟩ := image_reads h hu.left
    obtain ⟨i, l', r', hih⟩ := ih hu.right.2
    have e0 : (l ++ e :: r) ++ rest = b :: (l.tail ++ (e :: r ++ rest)) := by
      conv => lhs; rw [e2]
      simp
    have ht : tokenIs (e :: r ++ rest) 0 isEol = true := by simp [tokenIs, isEol, he]
    have hi : imageB S (b :: (l.tail ++ (e :: r ++ rest))) = some (⟨b, k, [e]⟩, r ++ rest) := by
      unfold imageB
      simp only
      rw [if_pos e3, e1]
      simp only
      rw [if_pos ht]
      rfl
    rw [e0, imagesB.eq_def]
    split
    · rename_i i r h1
      rw [hi] at h1
      simp only [Option.some.injEq, Prod.mk.injEq] at h1
      rw [← h1.2, hih]
      exact ⟨_, _, _, rfl⟩
    · rename_i h1; rw [hi] at h1; cases h1

theorem imagesB_end {S : List Stop} {ts} (h : tokenIs ts 0 isBang1 = false) (hs : stopAt S ts = true) :
    imagesB S ts = some ([], ts) := by
  have hi : imageB S ts = none := by
    unfold imageB
    split
    · rfl
    · rename_i t r
      rw [if_neg]
      have : isBang1 t = false := h
      rw [this]; simp
  rw [imagesB.eq_def]
  split
  · rename_i h1; rw [hi] at h1; cases h1
  · rw [if_pos hs]

theorem leafB_para {S : List Stop} {ts l r} (h : leafB S ts = (.para l, r)) :
    markerB 0 none ts = none ∧ (∀ i l r, imagesB S ts ≠ some (i :: l, r)) ∧ thematicB ts = none ∧ headingB S ts = none ∧
    (l, r) = paraB S [] ts := by
  unfold leafB at h
  split at h
  · cases h
  · rename_i h1
    split at h
    · cases h
    · rename_i h2
      split at h
      · rename_i x h3
        exfalso
        cases ts with
        | nil => simp [thematicB] at h3
        | cons t r =>
          rw [thematicB] at h3
          split at h3
          · cases h3; cases h
          · cases h3
      · rename_i h3
        split at h
        · rename_i x h4
          exfalso
          unfold headingB at h4
          split at h4
          · cases h4; cases h
          · cases h4
        · rename_i h4
          refine ⟨?_, fun i l r => h2 i l r, h3, h4, ?_⟩
          · cases hm : markerB 0 none ts with
            | none => rfl
            | some x =>
              obtain ⟨k, m, r⟩ := x
              rw [itemsB_some hm] at h1
              cases h1
          · simp only [Prod.mk.injEq, Block.para.injEq] at h
            rw [← h.1, ← h.2]

section
variable {o : List Node} {stops : List Stop} (hs : StopsFor o stops)
include hs

theorem para_left {ts l r} (hc : Cols ts) (h1 : codeB stops ts = none) (h2 : embedB stops ts = none)
    (h3 : highlightB stops ts = none) (h4 : leafB (.Terminator :: stops) ts = (.para l, r)) :
    BlockLeft (.Document :: o) (paraToks l) r := by
  obtain ⟨m1, m2, m3, m4, m5⟩ := leafB_para h4
  have et := paraB_toks (stops := .Terminator :: stops) (acc := []) _ (Nat.le_refl ts.length)
  have ex := paraB_extent (.Terminator :: stops) ts
  rw [← m5] at et ex
  rw [List.nil_append] at et
  simp only at et ex
  subst et
  refine ⟨?_, ?_, ?_, ?_, ?_, ?_, ?_⟩
  · intro h s q e a1 a2 a3 a4
    rw [e] at m4
    unfold headingB at m4
    rw [if_pos] at m4
    · cases m4
    · rw [Bool.and_eq_true]
      refine ⟨?_, isSpace1_iff.2 a4⟩
      show isHash h = true
      unfold isHash Token.len
      rw [atColumn0_iff.2 a1, a2]
      simpa using a3
  · rintro list (⟨-, b, s, q, e, a1, a2, a3⟩ | ⟨h, -⟩)
    · rw [e] at m1
      unfold markerB at m1
      have c1 : tokenIs (b :: s :: q) 0 col0 = true := atColumn0_iff.2 a1
      obtain ⟨k, hk⟩ : ∃ k, ListKind.tryFrom b = some k := by
        rcases a2 with ⟨-, a2⟩ | ⟨-, a2⟩
        · exact ⟨.Unordered, by have h1 := a2.1; have h2 := a2.2; simp [ListKind.tryFrom, Token.len, h1, h2]⟩
        · exact ⟨.Ordered, by have h1 := a2.1; have h2 := a2.2; simp [ListKind.tryFrom, Token.len, h1, h2]⟩
      have c2 : (tokenIs (b :: s :: q) 0 (isListMarker none) && tokenIs (b :: s :: q) 1 isSpace1) = true := by
        rw [Bool.and_eq_true]
        refine ⟨?_, isSpace1_iff.2 a3⟩
        show isListMarker none b = true
        simp [isListMarker, hk]
      rw [if_pos c1, if_pos rfl, if_pos c2] at m1
      simp [hk] at m1
    · exact h rfl
  · intro t q e a1 a2
    rw [e, thematicB, if_pos (isDash5_iff.2 ⟨a1, a2⟩)] at m3
    cases m3
  · intro hi
    have bang : ∀ ts, stopAt (.Terminator :: stops) ts = true → tokenIs ts 0 isBang1 = false := by
      intro ts h
      cases ts with
      | nil => rfl
      | cons t q =>
        cases hb : isBang1 t with
        | false => exact hb
        | true =>
          exfalso
          have hk := (isBang1_iff.1 hb).1
          simp only [Ref.stopAt, List.any_cons, Bool.or_eq_true, stopHere, decide_eq_true_eq] at h
          rcases h with h | h
          · rw [hk] at h; cases h
          · obtain ⟨-, ⟨t', q', e1, h1, -⟩ | ⟨t', q', e1, h1, -⟩⟩ := (coll_ends hs).1 h
            · cases e1; rw [hk] at h1; cases h1
            · cases e1; rw [hk] at h1; cases h1
    have key : tokenIs r 0 isEol = true → imagesB (.Terminator :: stops) (r.drop 1) = some ([], r.drop 1) := by
      intro ht
      have hst := ex.1
      cases r with
      | nil => simp [tokenIs] at ht
      | cons t q =>
        have ht : isEol t = true := ht
        simp only [isEol, decide_eq_true_eq] at ht
        have : stopAt (.Terminator :: stops) q = true := by
          simp only [Ref.stopAt, List.any_cons, Bool.or_eq_true, stopHere, decide_eq_true_eq] at hst
          rcases hst with h | h
          · rw [ht] at h; cases h
          · obtain ⟨hm, ⟨t', q', e1, h1, -⟩ | ⟨t', q', e1, -, h2⟩⟩ := (coll_ends hs).1 h
            · cases e1; rw [ht] at h1; cases h1
            · cases e1
              rw [← ends_doc hs]
              exact .inr (.inr (.inl ⟨hm, .inl h2⟩))
        exact imagesB_end (bang q this) this
    obtain ⟨i, l', r', he⟩ := images_reads (imagesB_end (bang r ex.1) ex.1) ex.1 key hi ex.2
    exact m2 _ _ _ he
  · intro f c u d e a1 a2 a3
    rw [e] at hc h1
    exact code_left hs hc h1 a1 a2 a3
  · intro f l p a c d e a0 a1 a2 a3 a4 a5
    rw [e] at h2
    exact embed_left hs h2 a0 a1 a2 a3 a4 a5
  · intro f s c u d e a1 a2 a3
    rw [e] at h3 hc
    exact highlight_left hs hc h3 a1 a2 a3

end

end Yamd.Ref
