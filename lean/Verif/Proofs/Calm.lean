import Verif.Proofs.Tidy

/-!
# No closing line of a collapsible inside a block
-/

namespace Yamd.Ref

open Yamd Yamd.Spec

/-- No `%}` at the start of a line among the tokens. -/
def NoEnd (ts : List Token) : Prop := ∀ t ∈ ts, t.kind = .CollapsibleEnd → col0 t = false

theorem NoEnd.append {a b} (h1 : NoEnd a) (h2 : NoEnd b) : NoEnd (a ++ b) := by
  intro t ht; rcases List.mem_append.1 ht with h | h
  · exact h1 t h
  · exact h2 t h

theorem NoEnd.cons {t a} (h1 : t.kind ≠ .CollapsibleEnd) (h2 : NoEnd a) : NoEnd (t :: a) := by
  intro u hu; rcases List.mem_cons.1 hu with rfl | h
  · exact fun e => absurd e h1
  · exact h2 u h

theorem NoEnd.nil : NoEnd [] := by intro t ht; cases ht
theorem NoEnd.infix {a b} (h : NoEnd b) (hi : a <:+: b) : NoEnd a := fun t ht => h t (hi.subset ht)

theorem NoEnd.flatMap {α : Type} {f : α → List Token} {l : List α} (h : ∀ x ∈ l, NoEnd (f x)) :
    NoEnd (l.flatMap f) := by
  intro t ht
  obtain ⟨x, hx, ht⟩ := List.mem_flatMap.1 ht
  exact h x hx t ht

theorem Unstopped.noEnd {stops a rest} (hE : .CollapsibleEnd ∈ stops) (h : Unstopped stops a rest) : NoEnd a := by
  intro t ht hk
  obtain ⟨r, hr⟩ := h.mem t ht
  simp only [stopAt, List.any_eq_false] at hr
  have := hr _ hE
  simp only [stopHere, hk, decide_true, Bool.true_and, Bool.or_eq_true, not_or] at this
  simpa using this.1

theorem headB_un {stops} (acc ts : List Token) : Unstopped stops acc ts →
    Unstopped stops ((headB stops acc ts).1.flatMap HeadItem.toks) (headB stops acc ts).2 := by
  refine headB_ind stops (P := fun acc ts => Unstopped stops acc ts →
    Unstopped stops ((headB stops acc ts).1.flatMap HeadItem.toks) (headB stops acc ts).2) ?_ ?_ ?_ acc ts
  · intro acc ts hs ha
    rw [headB_stop hs]; simp only [accHead_toks]; exact ha
  · intro acc t r x r' hs hx ih ha
    have e := headB_toks (stops := stops) (acc := []) _ (Nat.le_refl r'.length)
    simp only [List.nil_append] at e
    rw [headB_some hs hx]
    simp only [List.flatMap_append, accHead_toks, List.flatMap_cons]
    refine Unstopped.append ?_ (Unstopped.append ?_ (ih trivial))
    · rw [linkB_toks hx, e] at ha; simpa [HeadItem.toks] using ha
    · have := linkB_un hx hs
      rw [e] at this; exact this
  · intro acc t r hs hx ih ha
    rw [headB_none hs hx]
    exact ih (Unstopped.append ha ⟨hs, trivial⟩)

section
variable {stops : List Stop} (hE : .CollapsibleEnd ∈ stops)
include hE

theorem paraB_noEnd (ts : List Token) : NoEnd (paraToks (paraB stops [] ts).1) :=
  (paraB_un [] ts trivial).noEnd hE

theorem headB_noEnd (ts : List Token) : NoEnd ((headB stops [] ts).1.flatMap HeadItem.toks) :=
  (headB_un [] ts trivial).noEnd hE

omit hE in
theorem stopAt_bracket {t r} (h : t.kind = .LeftSquareBracket) : stopAt stops (t :: r) = false := by
  simp only [stopAt, List.any_eq_false]
  intro s _
  cases s with
  | Terminator => simp [stopHere, h]
  | CollapsibleEnd => simp [stopHere, h]
  | HighlightEnd => simp [stopHere, h]
  | ListBoundary level kind =>
    simp only [stopHere, Bool.and_eq_true, List.any_eq_true, not_and, not_exists]
    intro _ l _
    unfold boundaryHere
    simp only
    split
    · simp [tokenIs, isListMarker, ListKind.tryFrom, h]
    · simp [tokenIs, h]

omit hE in
theorem linkB_stop {ts : List Token} {l r} (h : linkB stops ts = some (l, r)) : stopAt stops ts = false := by
  have ht := linkB_toks h
  obtain ⟨-, hk, -⟩ := (linkB_ok h).1
  rw [ht, Link.toks, Delim.toks]
  exact stopAt_bracket (kind_of_len hk)

theorem imageB_noEnd {ts i r} (h : imageB stops ts = some (i, r)) : NoEnd i.toks := by
  cases ts with
  | nil => simp [imageB] at h
  | cons t ts =>
    unfold imageB at h
    simp only at h
    split at h
    · rename_i hb
      have hbt : t.kind ≠ .CollapsibleEnd := by rw [kind_of_len hb]; decide
      split at h
      · simp at h
      · rename_i l r1 h1
        have hl : NoEnd l.toks := (linkB_un h1 (linkB_stop h1)).noEnd hE
        split at h
        · rename_i he
          simp only [Option.some.injEq, Prod.mk.injEq] at h
          obtain ⟨rfl, rfl⟩ := h
          cases r1 with
          | nil => simp [tokenIs] at he
          | cons e r1 =>
            have he : isEol e = true := he
            refine .cons hbt (hl.append (.cons ?_ .nil))
            simp only [isEol, decide_eq_true_eq] at he
            rw [he]; decide
        · split at h
          · simp only [Option.some.injEq, Prod.mk.injEq] at h
            obtain ⟨rfl, rfl⟩ := h
            exact .cons hbt (hl.append .nil)
          · simp at h
    · simp at h

theorem imagesB_noEnd (ts : List Token) : ∀ {l r},
    imagesB stops ts = some (l, r) → NoEnd (l.flatMap Img.toks) := by
  induction ts using imagesB_ind stops with
  | none ts h =>
    intro l r hl
    rw [imagesB_none h] at hl
    split at hl
    · simp only [Option.some.injEq, Prod.mk.injEq] at hl
      obtain ⟨rfl, rfl⟩ := hl
      exact .nil
    · simp at hl
  | some ts i r h ih =>
    intro l r hl
    rw [imagesB_some h] at hl
    simp only [Option.map_eq_some_iff] at hl
    obtain ⟨⟨l', r'⟩, h1, h2⟩ := hl
    simp only [Prod.mk.injEq] at h2
    obtain ⟨rfl, rfl⟩ := h2
    exact (imageB_noEnd hE h).append (ih h1)

omit hE in
theorem marker_noEnd {level k m} (h : MarkerOk level k m) : NoEnd m := by
  have hk : ∀ {a}, ListKind.tryFrom a = some k → a.kind ≠ .CollapsibleEnd := by
    intro a ha hk
    simp [ListKind.tryFrom, hk] at ha
  have hs : ∀ {b}, isSpace1 b = true → b.kind ≠ .CollapsibleEnd := by
    intro b hb; rw [kind_of_len hb]; decide
  rcases h with ⟨-, a, b, rfl, -, h1, h2⟩ | ⟨-, s, a, b, rfl, -, h0, -, h1, h2⟩
  · exact .cons (hk h1) (.cons (hs h2) .nil)
  · exact .cons (by rw [h0]; decide) (.cons (hk h1) (.cons (hs h2) .nil))

theorem itemsB_noEnd (level want ts) : NoEnd (itemsB stops level want ts).1.toks := by
  induction level, want, ts using itemsB_ind stops with
  | none level want ts h => rw [itemsB_none h]; exact .nil
  | some level want ts k m r h ih1 ih2 =>
    rw [itemsB_some h]
    obtain ⟨k1, k2⟩ := markerB_ok h
    refine (marker_noEnd k2).append ((paraB_noEnd (by simp [hE]) _).append (.append ?_ ih2))
    unfold itemNested
    split
    · exact .nil
    · exact ih1

omit hE in
theorem line_noEnd {f g : Token → Bool} {ts} (hf : ∀ t, f t = true → t.kind ≠ .CollapsibleEnd)
    (hg : ∀ t, g t = true → t.kind ≠ .CollapsibleEnd) (h : LineOf f g ts) : NoEnd ts := by
  rcases h with ⟨t, rfl, h⟩ | ⟨t, e, rfl, h1, h2⟩
  · exact .cons (hf _ h) .nil
  · exact .cons (hf _ h1) (.cons (hg _ h2) .nil)

omit hE in
theorem pair_noEnd {f g : Token → Bool} {ts} (hf : ∀ t, f t = true → t.kind ≠ .CollapsibleEnd)
    (hg : ∀ t, g t = true → t.kind ≠ .CollapsibleEnd) (h : PairOf f g ts) : NoEnd ts := by
  obtain ⟨t, e, rfl, h1, h2⟩ := h
  exact .cons (hf _ h1) (.cons (hg _ h2) .nil)

omit hE in
theorem eol_ne {t} (h : isEol t = true) : t.kind ≠ .CollapsibleEnd := by
  simp only [isEol, decide_eq_true_eq] at h; rw [h]; decide

theorem untilB_noEnd {m ts b c r} (h : untilB stops m ts = some (b, c, r)) : NoEnd (b ++ [c]) :=
  (untilB_un h).noEnd hE

theorem embedB_noEnd {ts b r} (h : embedB stops ts = some (b, r)) : NoEnd b.toks := by
  cases ts with
  | nil => simp [embedB] at h
  | cons t ts =>
    unfold embedB at h
    simp only at h
    split at h
    · rename_i ho
      split at h
      · simp at h
      · rename_i l p r1 h1
        split at h
        · simp at h
        · rename_i h3
          simp only [Option.map_eq_some_iff] at h
          obtain ⟨_, h4, h2⟩ := h
          simp only [Prod.mk.injEq] at h2
          obtain ⟨rfl, rfl⟩ := h2
          have hcl := closeLineB_ok (untilB_ok h3).1 h4
          have n1 := untilB_noEnd hE h1
          have n2 := untilB_noEnd hE h3
          simp only [isLeftCurly2, Bool.and_eq_true, decide_eq_true_eq] at ho
          refine .cons (by rw [ho.1.1]; decide) ?_
          have e : ∀ (a : List Token) (x : Token) (b c : List Token), a ++ x :: (b ++ c) = (a ++ [x]) ++ (b ++ c) := by simp
          show NoEnd (l ++ _ :: (_ ++ _))
          rw [e]
          exact n1.append ((n2.infix ⟨[], _, rfl⟩).append
            (line_noEnd (fun t ht => by rw [kind_of_len ht]; decide) (fun t => eol_ne) hcl))
    · simp at h

theorem optModB_noEnd (ts) : NoEnd (modToks (optModB stops ts).1) := by
  unfold optModB
  split
  · rename_i m r h
    unfold modifierB at h
    split at h
    · simp at h
    · simp only [Option.map_eq_some_iff] at h
      obtain ⟨⟨b, c, r'⟩, h3, h4⟩ := h
      simp only [Prod.mk.injEq] at h4
      obtain ⟨rfl, rfl⟩ := h4
      exact untilB_noEnd hE h3
  · exact .nil

theorem optIconB_noEnd (ts) : NoEnd (iconToks (optIconB stops ts).1) := by
  unfold optIconB
  split
  · rename_i m r h
    unfold iconB at h
    split at h
    · rename_i hh
      simp only [Bool.and_eq_true] at hh
      obtain ⟨h1, h2⟩ := hh
      simp only [Option.map_eq_some_iff] at h
      obtain ⟨⟨b, c, r'⟩, h3, h4⟩ := h
      simp only [Prod.mk.injEq] at h4
      obtain ⟨rfl, rfl⟩ := h4
      refine NoEnd.append ?_ (untilB_noEnd hE h3)
      match ts, h1, h2 with
      | a :: b :: ts, h1, h2 =>
        have h1 : isOneBang a = true := h1
        have h2 : isSpace1 b = true := h2
        refine .cons ?_ (.cons (by rw [kind_of_len h2]; decide) .nil)
        simp only [isOneBang, Bool.and_eq_true, decide_eq_true_eq] at h1
        rw [h1.1.1]; decide
    · simp at h
  · exact .nil

omit hE in
theorem twoBangs_ne {t} (h : isTwoBangs t = true) : t.kind ≠ .CollapsibleEnd := by
  simp only [isTwoBangs, Bool.and_eq_true, decide_eq_true_eq] at h
  rw [h.1.1]; decide

theorem hlParasB_noEnd {ts l c r} (h : hlParasB stops ts = some (l, c, r)) :
    NoEnd (l.flatMap HPara.toks ++ c) := by
  refine NoEnd.append ?_ (line_noEnd (fun t => twoBangs_ne) (fun t => eol_ne) (hlParasB_ok h).2)
  refine hlParasB_ind stops (P := fun _ l c _ => NoEnd (l.flatMap HPara.toks)) ?_ ?_ ?_ ts l c r h
  · intro ts _ h1 h2; exact .nil
  · intro ts _ h1 _; exact .nil
  · intro ts l c r _ _ _ ih
    refine NoEnd.append (NoEnd.append ?_ (paraB_noEnd (by simp [hE]) _)) ih
    rcases termB_ok ts with e | ⟨t, e, ht⟩
    · simp only [e]; exact .nil
    · simp only [e]
      refine .cons ?_ .nil
      simp only [isTerminator, decide_eq_true_eq] at ht
      rw [ht]; decide

theorem highlightB_noEnd {ts b r} (h : highlightB stops ts = some (b, r)) : NoEnd b.toks := by
  have key : ∀ {opening m r b rest}, hlRestB stops opening m r = some (b, rest) → NoEnd (modToks m) →
      PairOf isTwoBangs (fun t => isSpace1 t || isEol t) opening → NoEnd b.toks := by
    intro opening m r b rest h hm ho
    unfold hlRestB at h
    simp only at h
    split at h
    · simp only [Option.map_eq_some_iff] at h
      obtain ⟨⟨l, c, r'⟩, h1, h2⟩ := h
      simp only [Prod.mk.injEq] at h2
      obtain ⟨rfl, rfl⟩ := h2
      refine .append (pair_noEnd (fun t => twoBangs_ne) ?_ ho) (hm.append (.append (optIconB_noEnd (by simp [hE]) _) (hlParasB_noEnd hE h1)))
      intro t ht
      rcases Bool.or_eq_true_iff.1 ht with ht | ht
      · rw [kind_of_len ht]; decide
      · exact eol_ne ht
    · simp at h
  unfold highlightB at h
  split at h
  · rename_i hh
    simp only [Bool.and_eq_true] at hh
    have ho : PairOf isTwoBangs (fun t => isSpace1 t || isEol t) (ts.take 2) := by
      match ts, hh.1, hh.2 with
      | a :: b :: ts, h1, h2 => exact ⟨a, b, rfl, h1, h2⟩
    split at h
    · exact key h .nil ho
    · exact key h (optModB_noEnd hE _) ho
  · simp at h

theorem leafB_noEnd (ts) : NoEnd (leafB stops ts).1.toks := by
  rcases leafB_cases stops ts with ⟨k, m, p, n, r, rest, h1, h2⟩ | ⟨i, l, r, h1, h2⟩ | h | h | h
  · rw [h2]
    have := itemsB_noEnd hE 0 none ts
    rw [h1] at this
    exact this
  · rw [h2]
    exact imagesB_noEnd hE ts h1
  · generalize leafB stops ts = x at h
    cases ts with
    | nil => simp [thematicB] at h
    | cons t r =>
      rw [thematicB] at h
      split at h
      · rename_i hd
        simp only [Option.some.injEq] at h
        subst h
        refine .cons ?_ .nil
        simp only [isDash5, Bool.and_eq_true, decide_eq_true_eq] at hd
        rw [hd.1.1]; decide
      · simp at h
  · generalize leafB stops ts = x at h
    unfold headingB at h
    split at h
    · rename_i hh
      simp only [Bool.and_eq_true] at hh
      obtain ⟨h1, h2⟩ := hh
      simp only [Option.some.injEq] at h
      subst h
      match ts, h1, h2 with
      | a :: b :: ts, h1, h2 =>
        have h1 : isHash a = true := h1
        have h2 : isSpace1 b = true := h2
        refine .append (.cons ?_ (.cons (by rw [kind_of_len h2]; decide) .nil)) (headB_noEnd hE _)
        simp only [isHash, Bool.and_eq_true, decide_eq_true_eq] at h1
        rw [h1.1.1]; decide
    · simp at h
  · rw [h]
    exact paraB_noEnd hE _

theorem otherB_noEnd (ts) : NoEnd (otherB stops ts).1.toks := by
  rcases otherB_cases stops ts with h | h | h
  · exact embedB_noEnd hE h
  · exact highlightB_noEnd hE h
  · rw [h]; exact leafB_noEnd (by simp [hE]) ts

end

end Yamd.Ref
