import Verif.Proofs.Final.Blocks

/-!
# A line break at the very end (C73): blocks with an opening and a closing line
-/

namespace Yamd.Ref

open Yamd Yamd.Spec

section
variable {E : Token} {src : Str} (hE : E.kind = .Eol) (h0 : col0 E = false) (hs : sliceD src E = ['\n'])
include hE h0

/-- A scan for the end of a line that found one. -/
theorem untilB_found {S : List Stop} {m : Token → Bool} : ∀ {ts x}, untilB S m ts = some x →
    untilB S m (ts ++ [E]) = some (mapES [E] x) := by
  intro ts
  induction ts with
  | nil => intro x h; simp [untilB] at h
  | cons t ts ih =>
    intro x h
    rw [untilB] at h
    rw [List.cons_append, untilB, stopAt_cons_fin hE h0]
    split at h
    · simp at h
    · rename_i hs
      rw [if_neg hs]
      split at h
      · rename_i hm
        rw [if_pos hm]
        cases h; rfl
      · rename_i hm
        rw [if_neg hm]
        simp only [Option.map_eq_some_iff] at h
        obtain ⟨y, h1, rfl⟩ := h
        rw [ih h1]; rfl

/-- A scan for the end of a line that failed: it was stopped, or it now finds the final line break. -/
theorem untilB_miss {S : List Stop} {m : Token → Bool} (hm : m E = true) : ∀ {ts}, untilB S m ts = none →
    untilB S m (ts ++ [E]) = none ∨
      (untilB S m (ts ++ [E]) = some (ts, E, []) ∧ (∀ t ∈ ts, m t = false) ∧
        (Stop.Terminator ∈ S → ∀ t ∈ ts, t.kind ≠ .Terminator)) := by
  intro ts
  induction ts with
  | nil =>
    intro _
    right
    have := stopAt_E hE h0 S
    refine ⟨?_, by simp, by simp⟩
    rw [List.nil_append]
    simp [untilB, this, hm]
  | cons t ts ih =>
    intro h
    rw [untilB] at h
    rw [List.cons_append, untilB, stopAt_cons_fin hE h0]
    split at h
    · rename_i hs; left; rw [if_pos hs]
    · rename_i hs
      split at h
      · simp at h
      · rename_i hm
        rw [if_neg hs, if_neg hm]
        rw [Option.map_eq_none_iff] at h
        rcases ih h with h1 | ⟨h1, h2, h3⟩
        · left; rw [h1]; rfl
        · right
          refine ⟨by rw [h1]; rfl, ?_, ?_⟩
          · intro u hu
            rcases List.mem_cons.1 hu with rfl | hu
            · simpa using hm
            · exact h2 u hu
          · intro hT u hu
            rcases List.mem_cons.1 hu with rfl | hu
            · intro hk
              apply hs
              simp only [stopAt, List.any_eq_true]
              exact ⟨_, hT, by simp [stopHere, hk]⟩
            · exact h3 hT u hu

theorem optModB_fin {S : List Stop} {r : List Token} :
    optModB S (r ++ [E]) = mapE [E] (optModB S r) ∨
      ((optModB S (r ++ [E])).2 = [] ∧ optModB S r = (none, r) ∧ tokenIs r 0 col0 = false ∧
        ∀ t ∈ r, isEolOrTerminator t = false) := by
  have he : isEolOrTerminator E = true := by simp [isEolOrTerminator, hE]
  unfold optModB modifierB
  rw [tokenIs_fin h0]
  cases hc : tokenIs r 0 col0 with
  | true => left; rfl
  | false =>
    simp only [Bool.false_eq_true, if_false]
    cases hu : untilB S isEolOrTerminator r with
    | some x => left; rw [untilB_found hE h0 hu]; rfl
    | none =>
      rcases untilB_miss hE h0 he hu with h1 | ⟨h1, h2, -⟩
      · left; rw [h1]; rfl
      · right; rw [h1]; exact ⟨rfl, rfl, trivial, h2⟩

theorem closeLineB_fin {S : List Stop} {c : Token} {r : List Token} (hn : NoBreakEnd r) :
    (closeLineB S c r = none ∧ closeLineB S c (r ++ [E]) = none) ∨
    ∃ x y, closeLineB S c r = some x ∧ closeLineB S c (r ++ [E]) = some y ∧
      ((x.2 ≠ [] ∧ y = mapE [E] x) ∨ (x.2 = [] ∧ y.2 = [])) := by
  cases r with
  | nil =>
    right
    exact ⟨_, _, rfl, by rw [List.nil_append, closeLineB, if_pos (L_eol hE)], .inr ⟨rfl, rfl⟩⟩
  | cons t r =>
    rw [List.cons_append, closeLineB, closeLineB, stopAt_cons_fin hE h0]
    by_cases ht : isEol t = true
    · right
      rw [if_pos ht, if_pos ht]
      refine ⟨_, _, rfl, rfl, .inl ⟨hn.more ?_, rfl⟩⟩
      simp only [isEol, decide_eq_true_eq] at ht
      simp [isEolOrTerminator, ht]
    · rw [if_neg ht, if_neg ht]
      by_cases h2 : (stopAt S (t :: r) || decide (t.kind = .Terminator)) = true
      · right
        rw [if_pos h2, if_pos h2]
        exact ⟨_, _, rfl, rfl, .inl ⟨by simp, rfl⟩⟩
      · left
        rw [if_neg h2, if_neg h2]; exact ⟨rfl, rfl⟩

/-- A closing line, and the block it closes. -/
theorem closed_fin {S : List Stop} {c : Token} {r : List Token} (hn : NoBreakEnd r) (f : List Token → Block)
    (hf : ∀ l l', (f l).denote src = (f l').denote src) (hw : ∀ l, withBreak [(f l).denote src] = [(f l).denote src]) :
    OptEnds E src ((closeLineB S c r).map (fun x => (f x.1, x.2)))
      ((closeLineB S c (r ++ [E])).map (fun x => (f x.1, x.2))) := by
  rcases closeLineB_fin hE h0 (S := S) (c := c) hn with ⟨h1, h2⟩ | ⟨x, y, h1, h2, h3⟩
  · rw [h1, h2]; trivial
  · rw [h1, h2]
    rcases h3 with ⟨h3, rfl⟩ | ⟨h3, h4⟩
    · exact .inl ⟨h3, rfl⟩
    · exact .inr (.inl ⟨h3, h4, by rw [hw, hf]⟩)

/-! ### Code -/

theorem codeRestB_fin {S : List Stop} {o : List Token} {m : Option Mod} {r : List Token} (hn : NoBreakEnd r) :
    OptEnds E src (codeRestB S o m r) (codeRestB S o m (r ++ [E])) := by
  unfold codeRestB
  rw [untilB_fin hE h0 (by simp [isBacktick3, hE])]
  cases hu : untilB [] isBacktick3 r with
  | none => trivial
  | some x =>
    obtain ⟨b, c, q⟩ := x
    have hn' : NoBreakEnd q := by rw [untilB_length hu] at hn; exact hn.right.tail
    exact closed_fin hE h0 hn' (fun l => .code o m b l) (fun _ _ => rfl) (fun _ => rfl)

omit hE h0 in
theorem codeRestB_nil (S : List Stop) (o : List Token) (m : Option Mod) : codeRestB S o m [] = none := rfl

theorem codeB_fin {S : List Stop} {ts : List Token} (hc : Cols ts) (hn : NoBreakEnd ts) :
    OptEnds E src (codeB S ts) (codeB S (ts ++ [E])) := by
  cases ts with
  | nil => rw [List.nil_append, codeB_head (by simp [isBacktick3, hE])]; trivial
  | cons t r =>
    unfold codeB
    simp only [List.cons_append]
    by_cases ho : isBacktick3 t = true
    · rw [if_pos ho, if_pos ho]
      cases r with
      | nil =>
        have e1 : tokenIs ([] ++ [E]) 0 isEol = true := L_eol hE
        have e2 : tokenIs [] 0 isEol = false := rfl
        rw [if_pos e1, if_neg (by rw [e2]; simp)]
        exact OptEnds.none
      | cons a q =>
        have e1 : tokenIs (a :: q ++ [E]) 0 isEol = tokenIs (a :: q) 0 isEol := rfl
        rw [e1]
        split
        · exact codeRestB_fin hE h0 hn.tail.tail
        · rcases optModB_fin hE h0 (S := []) (r := a :: q) with h | ⟨h1, h2, h3, h4⟩
          · rw [h]
            simp only [mapE]
            refine codeRestB_fin hE h0 ?_
            unfold optModB
            cases hm : modifierB [] (a :: q) with
            | none => exact hn.tail
            | some x =>
              unfold modifierB at hm
              split at hm
              · simp at hm
              · simp only [Option.map_eq_some_iff] at hm
                obtain ⟨⟨b, c, p⟩, hu, rfl⟩ := hm
                have := hn.tail
                rw [untilB_length hu] at this
                exact this.right.tail
          · rw [h1, h2, codeRestB_nil]
            have : codeRestB S [t] none (a :: q) = none := by
              unfold codeRestB
              cases hu : untilB [] isBacktick3 (a :: q) with
              | none => rfl
              | some y =>
                obtain ⟨b, c, r'⟩ := y
                exfalso
                have hb := untilB_mem hu
                have hmem : c ∈ a :: q := by rw [untilB_length hu]; simp
                simp only [isBacktick3, Bool.and_eq_true] at hb
                obtain ⟨u, hu, hx⟩ := hc.tail.break_within hmem hb.1.2 h3
                rw [h4 u hu] at hx; simp at hx
            rw [this]; exact OptEnds.none
    · rw [if_neg ho, if_neg ho]; exact OptEnds.none

/-! ### Embeds -/

theorem embedB_fin {S : List Stop} {ts : List Token} (hn : NoBreakEnd ts) :
    OptEnds E src (embedB S ts) (embedB S (ts ++ [E])) := by
  cases ts with
  | nil => rw [List.nil_append, embedB_head (by simp [isLeftCurly2, hE])]; trivial
  | cons t r =>
    unfold embedB
    simp only [List.cons_append]
    split
    · rw [untilB_fin hE h0 (by simp [isPipe, hE])]
      cases hu : untilB S isPipe r with
      | none => exact OptEnds.none
      | some x =>
        obtain ⟨l, p, q⟩ := x
        simp only [Option.map_some, mapES]
        have hn' : NoBreakEnd q := by have := hn.tail; rw [untilB_length hu] at this; exact this.right.tail
        rw [untilB_fin hE h0 (by simp [isRightCurly2, hE])]
        cases hv : untilB S isRightCurly2 q with
        | none => exact OptEnds.none
        | some x =>
          obtain ⟨a, c, q'⟩ := x
          simp only [Option.map_some, mapES]
          have hn2 : NoBreakEnd q' := by rw [untilB_length hv] at hn'; exact hn'.right.tail
          exact closed_fin hE h0 hn2 (fun x => .embed t l p a x) (fun _ _ => rfl) (fun _ => rfl)
    · exact OptEnds.none

/-! ### Highlights -/

/-- The paragraphs of a highlight and the final line break. -/
def HlEnds (E : Token) : Option (List HPara × List Token × List Token) → Option (List HPara × List Token × List Token) → Prop
  | none, none => True
  | some x, some y => x.1 = y.1 ∧ ((x.2.2 ≠ [] ∧ y.2.1 = x.2.1 ∧ y.2.2 = x.2.2 ++ [E]) ∨ (x.2.2 = [] ∧ y.2.2 = []))
  | _, _ => False

omit hE h0 in
theorem hlParasB_nil (S : List Stop) : hlParasB S [] = none := by rw [hlParasB.eq_def]; rfl

omit h0 in
theorem termB_fin {ts : List Token} (hne : ts ≠ []) : termB (ts ++ [E]) = mapE [E] (termB ts) := by
  unfold termB
  rw [tokenIs_fin (by simp [isTerminator, hE])]
  split
  · have : 1 ≤ ts.length := List.length_pos_iff.2 hne
    rw [List.take_append_of_le_length this, List.drop_append_of_le_length this]; rfl
  · rfl

omit hE h0 in
theorem NoBreakEnd.drop {ts : List Token} (h : NoBreakEnd ts) (n : Nat) : NoBreakEnd (ts.drop n) := by
  rw [← List.take_append_drop n ts] at h
  exact h.right

omit hE h0 in
theorem NoBreakEnd.para {S : List Stop} {ts : List Token} (h : NoBreakEnd ts) : NoBreakEnd (paraB S [] ts).2 := by
  have := paraB_toks (stops := S) (acc := []) _ (Nat.le_refl ts.length)
  simp only [List.nil_append] at this
  rw [this] at h
  exact h.right

theorem hlParasB_fin {S : List Stop} : ∀ (n : Nat) {ts : List Token}, ts.length ≤ n → NoBreakEnd ts →
    HlEnds E (hlParasB S ts) (hlParasB S (ts ++ [E])) := by
  have hnil : HlEnds E (hlParasB S []) (hlParasB S ([] ++ [E])) := by
    rw [hlParasB_nil, List.nil_append, hlParasB.eq_def, stopAt_E hE h0]
    have e1 : tokenIs [E] 0 isTwoBangs = false := by simp [tokenIs, isTwoBangs, hE]
    have e2 : termB [E] = ([], [E]) := by simp [termB, tokenIs, isTerminator, hE]
    have e3 := paraB_fin hE h0 (S := .Terminator :: .HighlightEnd :: S) [] []
    rw [paraB_stop (ts := []) rfl, List.nil_append] at e3
    simp only [e1, e2, e3, Bool.false_eq_true, if_false, endsP, if_true, hlParasB_nil]
    split <;> trivial
  intro n
  induction n with
  | zero =>
    intro ts hl _
    have : ts = [] := by simpa using hl
    subst this
    exact hnil
  | succ n ih =>
    intro ts hl hn
    cases hts : ts with
    | nil => exact hnil
    | cons t r =>
      rw [← hts]
      have hne : ts ≠ [] := by rw [hts]; simp
      have hpos : 1 ≤ ts.length := List.length_pos_iff.2 hne
      rw [hlParasB.eq_def, hlParasB.eq_def S (ts ++ [E]), stopAt_fin hE h0 hne,
        tokenIs_fin (f := isTwoBangs) (by simp [isTwoBangs, hE])]
      cases hst : stopAt S ts with
      | true => trivial
      | false =>
        simp only [Bool.false_eq_true, if_false]
        cases hb : tokenIs ts 0 isTwoBangs with
        | true =>
          simp only [if_true]
          by_cases h2 : 2 ≤ ts.length
          · rw [tokenIs_inner (by omega)]
            rw [List.take_append_of_le_length h2, List.drop_append_of_le_length h2,
              List.take_append_of_le_length hpos, List.drop_append_of_le_length hpos]
            cases he : tokenIs ts 1 isEol with
            | true =>
              simp only [if_true]
              refine ⟨rfl, .inl ⟨?_, rfl, rfl⟩⟩
              rw [hts] at hn he h2 ⊢
              match r, h2 with
              | a :: q, _ =>
                refine hn.tail.more ?_
                simp only [tokenIs, List.getElem?_cons_succ, List.getElem?_cons_zero, isEol, decide_eq_true_eq] at he
                simp [isEolOrTerminator, he]
            | false =>
              simp only [Bool.false_eq_true, if_false]
              refine ⟨rfl, .inl ⟨?_, rfl, rfl⟩⟩
              intro h
              have := congrArg List.length h
              rw [List.length_drop] at this
              simp at this
              omega
          · rw [hts] at h2 ⊢
            cases r with
            | cons a q => simp at h2
            | nil =>
              have e1 : tokenIs ([t] ++ [E]) 1 isEol = true := L_eol hE
              have e2 : tokenIs [t] 1 isEol = false := rfl
              rw [e1, e2]
              exact ⟨rfl, .inr ⟨rfl, rfl⟩⟩
        | false =>
          simp only [Bool.false_eq_true, if_false]
          have e1 : (termB (ts ++ [E])).1 = (termB ts).1 := by rw [termB_fin hE hne]; rfl
          have e2 : (termB (ts ++ [E])).2 = (termB ts).2 ++ [E] := by rw [termB_fin hE hne]; rfl
          simp only [e1, e2, paraB_fin hE h0]
          generalize hp : paraB (.Terminator :: .HighlightEnd :: S) [] (termB ts).2 = p
          have hnt : NoBreakEnd (termB ts).2 := by
            unfold termB
            split
            · exact hn.drop 1
            · exact hn
          have hnp : NoBreakEnd p.2 := by rw [← hp]; exact hnt.para
          unfold endsP
          by_cases hr : p.2 = []
          · simp only [hr, if_true, hlParasB_nil]
            split <;> split <;> trivial
          · simp only [if_neg hr, mapE, List.length_append]
            by_cases hlt : p.2.length < ts.length
            · rw [dif_pos hlt, dif_pos (by omega)]
              have := ih (ts := p.2) (by omega) hnp
              cases h1 : hlParasB S p.2 with
              | none =>
                cases h2 : hlParasB S (p.2 ++ [E]) with
                | none => trivial
                | some y => rw [h1, h2] at this; exact this.elim
              | some x =>
                cases h2 : hlParasB S (p.2 ++ [E]) with
                | none => rw [h1, h2] at this; exact this.elim
                | some y =>
                  rw [h1, h2] at this
                  exact ⟨by simp only; rw [this.1], this.2⟩
            · rw [dif_neg hlt, dif_neg (by simp; omega)]
              trivial

theorem optIconB_fin {S : List Stop} (hT : Stop.Terminator ∈ S) {r : List Token} :
    optIconB S (r ++ [E]) = mapE [E] (optIconB S r) ∨
      ((optIconB S (r ++ [E])).2 = [] ∧ optIconB S r = (none, r) ∧ tokenIs r 0 isOneBang = true ∧
        tokenIs r 1 isSpace1 = true ∧ ∀ t ∈ r.drop 2, isEolOrTerminator t = false) := by
  have hb : isOneBang E = false := by simp [isOneBang, hE]
  unfold optIconB iconB
  rw [tokenIs_fin hb, tokenIs_fin (L_space1 hE)]
  cases hc : (tokenIs r 0 isOneBang && tokenIs r 1 isSpace1) with
  | false => left; rfl
  | true =>
    rw [Bool.and_eq_true] at hc
    have := tokenIs_length hc.2
    simp only [if_true]
    rw [List.take_append_of_le_length (by omega), List.drop_append_of_le_length (by omega)]
    cases hu : untilB S isEol (r.drop 2) with
    | some x => left; rw [untilB_found hE h0 hu]; rfl
    | none =>
      rcases untilB_miss hE h0 (L_eol hE) hu with h1 | ⟨h1, h2, h3⟩
      · left; rw [h1]; rfl
      · right
        rw [h1]
        refine ⟨rfl, rfl, hc.1, hc.2, fun t ht => ?_⟩
        have a := h2 t ht
        have b := h3 hT t ht
        simp only [isEol, decide_eq_false_iff_not] at a
        simp [isEolOrTerminator, a, b]

omit hE h0 in
/-- A highlight is closed by a line of its own. -/
theorem hlParasB_closes {S : List Stop} {ts l c r} (h : hlParasB S ts = some (l, c, r)) : ∃ b ∈ ts, isTwoBangs b = true := by
  refine hlParasB_ind S (P := fun ts _ _ _ => ∃ b ∈ ts, isTwoBangs b = true) ?_ ?_ ?_ ts l c r h
  · intro ts _ hb _
    cases ts with
    | nil => simp [tokenIs] at hb
    | cons t r => exact ⟨t, by simp, hb⟩
  · intro ts _ hb _
    cases ts with
    | nil => simp [tokenIs] at hb
    | cons t r => exact ⟨t, by simp, hb⟩
  · rintro ts l c r _ _ _ ⟨b, hb, hx⟩
    refine ⟨b, ?_, hx⟩
    have := paraB_toks (stops := .Terminator :: .HighlightEnd :: S) (acc := []) _ (Nat.le_refl (termB ts).2.length)
    simp only [List.nil_append] at this
    have hm : b ∈ (termB ts).2 := by rw [this]; simp [hb]
    unfold termB at hm
    split at hm
    · exact List.mem_of_mem_drop hm
    · exact hm

theorem hlRestB_fin {S : List Stop} {o : List Token} {m : Option Mod} {r : List Token} (hc : Cols r) (hn : NoBreakEnd r) :
    OptEnds E src (hlRestB S o m r) (hlRestB S o m (r ++ [E])) := by
  unfold hlRestB
  simp only
  rcases optIconB_fin hE h0 (S := .Terminator :: S) (by simp) (r := r) with h | ⟨h1, h2, h3, h4, h5⟩
  · simp only [h, mapE, tokenIs_fin h0]
    split
    · have hn' : NoBreakEnd (optIconB (.Terminator :: S) r).2 := by
        unfold optIconB
        cases hi : iconB (.Terminator :: S) r with
        | none => exact hn
        | some x =>
          unfold iconB at hi
          split at hi
          · simp only [Option.map_eq_some_iff] at hi
            obtain ⟨⟨b, c, q⟩, hu, rfl⟩ := hi
            have := hn.drop 2
            rw [untilB_length hu] at this
            exact this.right.tail
          · simp at hi
      generalize (optIconB (.Terminator :: S) r) = i at hn' ⊢
      have := hlParasB_fin hE h0 (S := S) _ (Nat.le_refl _) hn'
      cases h1 : hlParasB S i.2 with
      | none =>
        cases h2 : hlParasB S (i.2 ++ [E]) with
        | none => exact OptEnds.none
        | some y => rw [h1, h2] at this; exact this.elim
      | some x =>
        cases h2 : hlParasB S (i.2 ++ [E]) with
        | none => rw [h1, h2] at this; exact this.elim
        | some y =>
          rw [h1, h2] at this
          obtain ⟨e, ⟨e1, e2, e3⟩ | ⟨e1, e2⟩⟩ := this
          · exact .inl ⟨e1, by simp only [mapE, e, e2, e3]⟩
          · exact .inr (.inl ⟨e1, e2, by simp only [Block.denote, withBreak, e]⟩)
    · exact OptEnds.none
  · rw [h1, h2]
    have : hlParasB S r = none := by
      cases hp : hlParasB S r with
      | none => rfl
      | some x =>
        obtain ⟨l, c, q⟩ := x
        exfalso
        obtain ⟨b, hb, hx⟩ := hlParasB_closes hp
        match r, h3, h4, hc, hb with
        | [], h3, _, _, _ => simp [tokenIs] at h3
        | [a], _, h4, _, _ => simp [tokenIs] at h4
        | a :: d :: q, h3, h4, hc, hb =>
          simp only [tokenIs, List.getElem?_cons_zero, isOneBang, Bool.and_eq_true, decide_eq_true_eq] at h3
          simp only [tokenIs, List.getElem?_cons_succ, List.getElem?_cons_zero, isSpace1, Bool.and_eq_true, decide_eq_true_eq] at h4
          have hx' := hx
          simp only [isTwoBangs, Bool.and_eq_true, decide_eq_true_eq] at hx'
          rcases List.mem_cons.1 hb with rfl | hb
          · have := hx'.2; have := h3.2; omega
          · obtain ⟨u, hu, hbr⟩ := hc.tail.break_within hb hx'.1.2 (by
              cases hd : tokenIs (d :: q) 0 col0 with
              | false => rfl
              | true =>
                have := hc.1.2 hd
                simp [isEolOrTerminator, h3.1.1] at this)
            rcases List.mem_cons.1 hu with rfl | hu
            · simp [isEolOrTerminator, h4.1] at hbr
            · have := h5 u (by simpa using hu)
              rw [this] at hbr; simp at hbr
    simp only [this, Option.map_none]
    have e : tokenIs [] 0 col0 = false := rfl
    rw [e]
    simp only [Bool.false_eq_true, if_false]
    split <;> exact OptEnds.none

theorem highlightB_fin {S : List Stop} {ts : List Token} (hc : Cols ts) (hn : NoBreakEnd ts) :
    OptEnds E src (highlightB S ts) (highlightB S (ts ++ [E])) := by
  have hb : isTwoBangs E = false := by simp [isTwoBangs, hE]
  have nil : ∀ o m, hlRestB S o m [] = none := fun _ _ => rfl
  by_cases h2 : 2 ≤ ts.length
  · unfold highlightB
    rw [tokenIs_fin hb, tokenIs_inner (i := 1) (by omega), tokenIs_inner (i := 1) (by omega),
      List.take_append_of_le_length h2, List.drop_append_of_le_length h2]
    have hc' : Cols (ts.drop 2) := by rw [← List.take_append_drop 2 ts] at hc; exact hc.right
    split
    · split
      · exact hlRestB_fin hE h0 hc' (hn.drop 2)
      · rcases optModB_fin hE h0 (S := S) (r := ts.drop 2) with h | ⟨e1, e2, e3, e4⟩
        · rw [h]
          have hcut : Cols (optModB S (ts.drop 2)).2 ∧ NoBreakEnd (optModB S (ts.drop 2)).2 := by
            unfold optModB
            cases hm : modifierB S (ts.drop 2) with
            | none => exact ⟨hc', hn.drop 2⟩
            | some x =>
              unfold modifierB at hm
              split at hm
              · simp at hm
              · simp only [Option.map_eq_some_iff] at hm
                obtain ⟨⟨b, c, p⟩, hu, rfl⟩ := hm
                have h1 := hn.drop 2
                rw [untilB_length hu] at h1 hc'
                exact ⟨hc'.right.tail, h1.right.tail⟩
          exact hlRestB_fin hE h0 hcut.1 hcut.2
        · rw [e1, e2, nil, hlRestB_line e3 e4]
          exact OptEnds.none
    · exact OptEnds.none
  · match ts, h2 with
    | [], _ =>
      rw [List.nil_append, highlightB_head hb]
      exact OptEnds.none
    | [t], _ =>
      have e1 : highlightB S [t] = none := by
        unfold highlightB
        rw [if_neg]
        rw [show tokenIs [t] 1 (fun t => isSpace1 t || isEol t) = false from rfl]
        simp
      have e2 : highlightB S ([t] ++ [E]) = none := by
        unfold highlightB
        rw [if_pos (c := tokenIs ([t] ++ [E]) 1 isEol = true) (L_eol hE)]
        rw [show ([t] ++ [E]).drop 2 = [] from rfl, nil]
        split <;> rfl
      rw [e1, e2]
      exact OptEnds.none
    | _ :: _ :: _, h2 => simp at h2

include hs in
theorem otherB_fin {S : List Stop} {ts : List Token} (hc : Cols ts) (hn : NoBreakEnd ts) (hne : ts ≠ []) :
    Ends E src (otherB S ts) (otherB S (ts ++ [E])) := by
  have he := embedB_fin hE h0 (src := src) (S := S) hn
  have hh := highlightB_fin hE h0 (src := src) (S := S) hc hn
  unfold otherB
  cases h1 : embedB S ts with
  | some x =>
    cases h2 : embedB S (ts ++ [E]) with
    | some y => rw [h1, h2] at he; exact he
    | none => rw [h1, h2] at he; exact he.elim
  | none =>
    cases h2 : embedB S (ts ++ [E]) with
    | some y => rw [h1, h2] at he; exact he.elim
    | none =>
      simp only
      cases h3 : highlightB S ts with
      | some x =>
        cases h4 : highlightB S (ts ++ [E]) with
        | some y => rw [h3, h4] at hh; exact hh
        | none => rw [h3, h4] at hh; exact hh.elim
      | none =>
        cases h4 : highlightB S (ts ++ [E]) with
        | some y => rw [h3, h4] at hh; exact hh.elim
        | none => exact leafB_fin hE h0 hs hn hne

/-! ### Collapsibles -/

theorem collOpenB_fin {S : List Stop} (ts : List Token) :
    collOpenB S (ts ++ [E]) = (collOpenB S ts).map (fun x => (x.1, x.2.1, x.2.2 ++ [E])) := by
  have hb : isCollapsibleStart E = false := by simp [isCollapsibleStart, hE]
  have nil : tokenIs [] 0 col0 = false := rfl
  by_cases h2 : 2 ≤ ts.length
  · unfold collOpenB
    rw [tokenIs_fin hb, tokenIs_inner (by omega), List.take_append_of_le_length h2, List.drop_append_of_le_length h2]
    split
    · rcases optModB_fin hE h0 (S := S) (r := ts.drop 2) with h | ⟨e1, e2, e3, e4⟩
      · simp only [h, mapE, tokenIs_fin h0]
        split <;> rfl
      · rw [e1, e2]
        simp only [nil, e3]
        rfl
    · rfl
  · match ts, h2 with
    | [], _ => unfold collOpenB; simp [tokenIs, hb]
    | [t], _ =>
      have e1 : collOpenB S [t] = none := by
        unfold collOpenB
        rw [if_neg]
        rw [show tokenIs [t] 1 isSpaceOrEol = false from rfl]
        simp
      have e2 : collOpenB S ([t] ++ [E]) = none := by
        unfold collOpenB
        rw [show ([t] ++ [E]).drop 2 = [] from rfl]
        rw [if_neg (c := tokenIs (optModB S []).2 0 col0 = true) (by simp [optModB, modifierB, untilB, tokenIs])]
        split <;> rfl
      rw [e1, e2]; rfl
    | _ :: _ :: _, h2 => simp at h2

theorem skipEolB_fin {ts : List Token} (hne : ts ≠ []) : skipEolB (ts ++ [E]) = mapE [E] (skipEolB ts) := by
  have hpos : 1 ≤ ts.length := List.length_pos_iff.2 hne
  unfold skipEolB
  rw [tokenIs_inner hpos, List.take_append_of_le_length hpos, List.drop_append_of_le_length hpos]
  split <;> rfl

theorem collCloseB_fin {ts c r} (hn : NoBreakEnd ts) (h : collCloseB ts = some (c, r)) :
    (r ≠ [] ∧ collCloseB (ts ++ [E]) = some (c, r ++ [E])) ∨
    (r = [] ∧ collCloseB (ts ++ [E]) = some (c ++ [E], [])) := by
  have hb : isCollapsibleEnd E = false := by simp [isCollapsibleEnd, hE]
  unfold collCloseB at h ⊢
  rw [tokenIs_fin hb]
  split at h
  · rename_i hh
    rw [if_pos hh]
    have hl := tokenIs_length hh
    by_cases h2 : 2 ≤ ts.length
    · left
      rw [tokenIs_inner (by omega)]
      rw [List.take_append_of_le_length h2, List.drop_append_of_le_length h2,
              List.take_append_of_le_length hl, List.drop_append_of_le_length hl]
      match ts, h2, hn, h with
      | t :: a :: q, _, hn, h =>
        split at h
        · rename_i he
          rw [if_pos he]
          cases h
          refine ⟨hn.tail.more ?_, rfl⟩
          simp only [tokenIs, List.getElem?_cons_succ, List.getElem?_cons_zero, isEol, decide_eq_true_eq] at he
          simp [isEolOrTerminator, he]
        · rename_i he
          rw [if_neg he]
          cases h
          exact ⟨by simp, rfl⟩
    · right
      match ts, hl, h2, h with
      | [t], _, _, h =>
        have e1 : tokenIs ([t] ++ [E]) 1 isEol = true := L_eol hE
        have e2 : tokenIs [t] 1 isEol = false := rfl
        rw [e2] at h
        simp only [Bool.false_eq_true, if_false, Option.some.injEq, Prod.mk.injEq] at h
        obtain ⟨rfl, rfl⟩ := h
        rw [e1]
        exact ⟨rfl, rfl⟩
      | _ :: _ :: _, _, h2, _ => simp at h2
  · simp at h

end

end Yamd.Ref
