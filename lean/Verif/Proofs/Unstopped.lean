import Verif.Proofs.TreeOk
import Verif.Proofs.Segmentation

/-!
# Stop conditions are honoured

`Unstopped stops a rest`: reading the tokens `a` in front of `rest`, no stop condition holds at any token
of `a`. Every construct of the reference parser covers only such tokens.
-/

namespace Yamd.Ref

open Yamd

/-- No stop condition holds at a token of `a`, when `rest` follows. -/
def Unstopped (stops : List Stop) : List Token → List Token → Prop
  | [], _ => True
  | t :: a, rest => stopAt stops (t :: (a ++ rest)) = false ∧ Unstopped stops a rest

theorem Unstopped.append {stops} : ∀ {a b rest}, Unstopped stops a (b ++ rest) → Unstopped stops b rest →
    Unstopped stops (a ++ b) rest
  | [], _, _, _, h => h
  | t :: a, b, rest, h1, h2 => by
    refine ⟨?_, Unstopped.append h1.2 h2⟩
    have := h1.1
    simpa using this

theorem Unstopped.left {stops} : ∀ {a b rest}, Unstopped stops (a ++ b) rest → Unstopped stops a (b ++ rest)
  | [], _, _, _ => trivial
  | t :: a, b, rest, h => by
    refine ⟨?_, Unstopped.left h.2⟩
    have := h.1
    simpa using this

theorem Unstopped.right {stops} : ∀ {a b rest}, Unstopped stops (a ++ b) rest → Unstopped stops b rest
  | [], _, _, h => h
  | _ :: _, _, _, h => Unstopped.right (stops := stops) h.2

theorem stopAt_sub {s1 s2 : List Stop} (h : s1 ⊆ s2) {ts} (hs : stopAt s2 ts = false) : stopAt s1 ts = false := by
  cases ts with
  | nil => simp [stopAt] at hs
  | cons t r =>
    simp only [stopAt, List.any_eq_false] at hs ⊢
    exact fun x hx => hs x (h hx)

theorem Unstopped.sub {s1 s2 : List Stop} (h : s1 ⊆ s2) : ∀ {a rest}, Unstopped s2 a rest → Unstopped s1 a rest
  | [], _, _ => trivial
  | _ :: _, _, hu => ⟨stopAt_sub h hu.1, hu.2.sub h⟩

theorem Unstopped.mem {stops} : ∀ {a rest}, Unstopped stops a rest → ∀ t ∈ a, ∃ r, stopAt stops (t :: r) = false
  | [], _, _, _, h => by cases h
  | u :: a, rest, h, t, ht => by
    rcases List.mem_cons.1 ht with rfl | ht
    · exact ⟨_, h.1⟩
    · exact h.2.mem t ht

/-- No stop condition holds at a parenthesis. -/
theorem stopAt_paren {stops t r} (h : t.kind = .LeftParenthesis) : stopAt stops (t :: r) = false := by
  simp only [stopAt, List.any_eq_false]
  intro s _
  cases s with
  | Terminator => simp [stopHere, h]
  | CollapsibleEnd => simp [stopHere, h]
  | HighlightEnd => simp [stopHere, h]
  | ListBoundary level kind =>
    simp only [stopHere, Bool.and_eq_true, List.any_eq_true, not_and, not_exists]
    intro _ l _
    unfold boundaryHere
    simp only
    split
    · simp [tokenIs, isListMarker, ListKind.tryFrom, h]
    · simp [tokenIs, h]

theorem untilB_un {stops m} : ∀ {ts b c r}, untilB stops m ts = some (b, c, r) → Unstopped stops (b ++ [c]) r := by
  intro ts
  induction ts with
  | nil => intro b c r h; simp [untilB] at h
  | cons t ts ih =>
    intro b c r h
    have ht := untilB_length h
    unfold untilB at h
    split at h
    · simp at h
    · rename_i hs
      have hs : stopAt stops (t :: ts) = false := by simpa using hs
      split at h
      · simp only [Option.some.injEq, Prod.mk.injEq] at h
        obtain ⟨rfl, rfl, rfl⟩ := h
        exact ⟨hs, trivial⟩
      · simp only [Option.map_eq_some_iff] at h
        obtain ⟨⟨b', c', r'⟩, h1, h2⟩ := h
        simp only [Prod.mk.injEq] at h2
        obtain ⟨rfl, rfl, rfl⟩ := h2
        refine ⟨?_, ih h1⟩
        have := untilB_length h1
        rw [this] at hs
        simpa using hs

theorem delimB_un {o c n stops} {ts : List Token} {d r} (h : delimB o c n stops ts = some (d, r))
    (hs : stopAt stops ts = false) : Unstopped stops d.toks r := by
  cases ts with
  | nil => simp [delimB] at h
  | cons t ts =>
    have ht := delimB_toks h
    rw [delimB] at h
    split at h
    · simp only [Option.map_eq_some_iff] at h
      obtain ⟨⟨b', c', r'⟩, h1, h2⟩ := h
      simp only [Prod.mk.injEq] at h2
      obtain ⟨rfl, rfl⟩ := h2
      refine ⟨?_, untilB_un h1⟩
      rw [ht] at hs; simpa [Delim.toks] using hs
    · simp at h

theorem destScan_un {stops} : ∀ {ts depth b c r}, destScan stops depth ts = some (b, c, r) →
    Unstopped stops (b ++ [c]) r := by
  intro ts
  induction ts with
  | nil => intro depth b c r h; simp [destScan] at h
  | cons t ts ih =>
    intro depth b c r h
    have ht := destScan_toks h
    unfold destScan at h
    split at h
    · simp at h
    · rename_i hs
      have hs : stopAt stops (t :: ts) = false := by simpa using hs
      have step : ∀ {b' c' r' n}, destScan stops n ts = some (b', c', r') → Unstopped stops (t :: b' ++ [c']) r' := by
        intro b' c' r' n h1
        refine ⟨?_, ih h1⟩
        have := destScan_toks h1
        rw [this] at hs
        simpa using hs
      split at h
      · simp only [Option.map_eq_some_iff] at h
        obtain ⟨⟨b', c', r'⟩, h1, h2⟩ := h
        simp only [Prod.mk.injEq] at h2
        obtain ⟨rfl, rfl, rfl⟩ := h2
        exact step h1
      · split at h
        · split at h
          · simp only [Option.some.injEq, Prod.mk.injEq] at h
            obtain ⟨rfl, rfl, rfl⟩ := h
            exact ⟨hs, trivial⟩
          · split at h
            · rename_i x hx
              obtain ⟨b', c', r'⟩ := x
              simp only [Option.some.injEq, Prod.mk.injEq] at h
              obtain ⟨rfl, rfl, rfl⟩ := h
              exact step hx
            · simp only [Option.some.injEq, Prod.mk.injEq] at h
              obtain ⟨rfl, rfl, rfl⟩ := h
              exact ⟨hs, trivial⟩
        · simp only [Option.map_eq_some_iff] at h
          obtain ⟨⟨b', c', r'⟩, h1, h2⟩ := h
          simp only [Prod.mk.injEq] at h2
          obtain ⟨rfl, rfl, rfl⟩ := h2
          exact step h1

theorem destB_un {stops} {ts : List Token} {d r} (h : destB stops ts = some (d, r)) : Unstopped stops d.toks r := by
  cases ts with
  | nil => simp [destB] at h
  | cons t ts =>
    rw [destB] at h
    split at h
    · rename_i ho
      simp only [Option.map_eq_some_iff] at h
      obtain ⟨⟨b', c', r'⟩, h1, h2⟩ := h
      simp only [Prod.mk.injEq] at h2
      obtain ⟨rfl, rfl⟩ := h2
      refine ⟨stopAt_paren ?_, destScan_un h1⟩
      simp only [isLeftParen, Bool.and_eq_true, decide_eq_true_eq] at ho
      exact ho.1
    · simp at h

theorem linkB_un {stops} {ts : List Token} {l r} (h : linkB stops ts = some (l, r))
    (hs : stopAt stops ts = false) : Unstopped stops l.toks r := by
  unfold linkB at h
  split at h
  · simp at h
  · rename_i t r1 h1
    split at h
    · simp at h
    · rename_i d r2 h2
      simp only [Option.some.injEq, Prod.mk.injEq] at h
      obtain ⟨rfl, rfl⟩ := h
      have := delimB_un h1 hs
      rw [destB_toks h2] at this
      exact this.append (destB_un h2)

theorem boldChildB_un {stops} {ts : List Token} {d r} (h : boldChildB stops ts = some (d, r))
    (hs : stopAt stops ts = false) : Unstopped stops d.toks r := by
  unfold boldChildB at h
  split at h
  · rename_i h1; rw [h] at h1; exact delimB_un h1 hs
  · exact delimB_un h hs

theorem accBold_toks (acc : List Token) :
    (if acc = [] then [] else [BoldItem.text acc]).flatMap BoldItem.toks = acc := by
  split
  · rename_i h; simp [h]
  · simp [BoldItem.toks]

theorem boldItemsB_un {stops} (acc ts : List Token) : ∀ {l c r}, boldItemsB stops acc ts = some (l, c, r) →
    Unstopped stops acc ts →
    acc ++ ts = l.flatMap BoldItem.toks ++ c :: r ∧ Unstopped stops (l.flatMap BoldItem.toks ++ [c]) r := by
  refine boldItemsB_ind stops (P := fun acc ts => ∀ {l c r}, boldItemsB stops acc ts = some (l, c, r) →
    Unstopped stops acc ts →
    acc ++ ts = l.flatMap BoldItem.toks ++ c :: r ∧ Unstopped stops (l.flatMap BoldItem.toks ++ [c]) r) ?_ ?_ ?_ ?_ acc ts
  · intro acc ts hs l c r h
    rw [boldItemsB_stop hs] at h; simp at h
  · intro acc t r hs h2 l c r' h ha
    rw [boldItemsB_close hs h2] at h
    simp only [Option.some.injEq, Prod.mk.injEq] at h
    obtain ⟨rfl, rfl, rfl⟩ := h
    rw [accBold_toks]
    exact ⟨rfl, Unstopped.append ha ⟨hs, trivial⟩⟩
  · intro acc t r x r' hs h2 hx ih l c r'' h ha
    rw [boldItemsB_some hs h2 hx] at h
    simp only [Option.map_eq_some_iff] at h
    obtain ⟨⟨l', c', r3⟩, h1, h3⟩ := h
    simp only [Prod.mk.injEq] at h3
    obtain ⟨rfl, rfl, rfl⟩ := h3
    obtain ⟨e, u⟩ := ih h1 trivial
    simp only [List.nil_append] at e
    have hd := boldChildB_un hx hs
    have ht := boldChildB_toks hx
    simp only [List.flatMap_append, accBold_toks, List.flatMap_cons, BoldItem.toks]
    constructor
    · rw [ht, e]; simp
    · rw [ht, e] at ha
      rw [e] at hd
      simp only [List.append_assoc] at ha hd ⊢
      refine Unstopped.append ?_ (Unstopped.append ?_ u)
      · simpa using ha
      · simpa using hd
  · intro acc t r hs h2 hx ih l c r' h ha
    rw [boldItemsB_none hs h2 hx] at h
    have := ih h (Unstopped.append ha ⟨hs, trivial⟩)
    simpa using this

theorem boldB_un {stops} {ts : List Token} {x r} (h : boldB stops ts = some (x, r))
    (hs : stopAt stops ts = false) : Unstopped stops x.toks r := by
  cases ts with
  | nil => simp [boldB] at h
  | cons t ts =>
    rw [boldB] at h
    split at h
    · simp only [Option.map_eq_some_iff] at h
      obtain ⟨⟨b', c', r'⟩, h1, h2⟩ := h
      simp only [Prod.mk.injEq] at h2
      obtain ⟨rfl, rfl⟩ := h2
      obtain ⟨e, u⟩ := boldItemsB_un [] ts h1 trivial
      simp only [List.nil_append] at e
      refine ⟨?_, u⟩
      rw [e] at hs; simpa using hs
    · simp at h

theorem inlineB_un {stops} {ts : List Token} {x r} (h : inlineB stops ts = some (x, r))
    (hs : stopAt stops ts = false) : Unstopped stops x.toks r := by
  have key : ∀ {o c n d r'}, delimB o c n stops ts = some (d, r') → some (Inl.delim d, r') = some (x, r) →
      Unstopped stops x.toks r := by
    intro o c n d r' h1 h2
    simp only [Option.some.injEq, Prod.mk.injEq] at h2
    obtain ⟨rfl, rfl⟩ := h2
    exact delimB_un h1 hs
  unfold inlineB at h
  split at h
  · rename_i h1; exact key h1 h
  · split at h
    · rename_i h1; exact key h1 h
    · split at h
      · rename_i h1
        simp only [Option.some.injEq] at h
        subst h
        exact boldB_un h1 hs
      · split at h
        · rename_i h1
          simp only [Option.some.injEq, Prod.mk.injEq] at h
          obtain ⟨rfl, rfl⟩ := h
          exact linkB_un h1 hs
        · split at h
          · rename_i h1; exact key h1 h
          · split at h
            · rename_i h1; exact key h1 h
            · simp at h

theorem accInl_toks (acc : List Token) : (if acc = [] then [] else [Inl.text acc]).flatMap Inl.toks = acc := by
  split
  · rename_i h; simp [h]
  · simp [Inl.toks]

theorem paraB_rest {stops} (acc ts : List Token) : stopAt stops (paraB stops acc ts).2 = true := by
  refine paraB_ind stops (P := fun acc ts => stopAt stops (paraB stops acc ts).2 = true) ?_ ?_ ?_ acc ts
  · intro acc ts hs; rw [paraB_stop hs]; exact hs
  · intro acc t r x r' hs hx ih; rw [paraB_some hs hx]; exact ih
  · intro acc t r hs hx ih; rw [paraB_none hs hx]; exact ih

theorem paraB_un {stops} (acc ts : List Token) : Unstopped stops acc ts →
    Unstopped stops (paraToks (paraB stops acc ts).1) (paraB stops acc ts).2 := by
  refine paraB_ind stops (P := fun acc ts => Unstopped stops acc ts →
    Unstopped stops (paraToks (paraB stops acc ts).1) (paraB stops acc ts).2) ?_ ?_ ?_ acc ts
  · intro acc ts hs ha
    rw [paraB_stop hs]; simp only [paraToks, accInl_toks]; exact ha
  · intro acc t r x r' hs hx ih ha
    have e := paraB_toks (stops := stops) (acc := []) _ (Nat.le_refl r'.length)
    simp only [List.nil_append] at e
    rw [paraB_some hs hx]
    simp only [paraToks, List.flatMap_append, accInl_toks, List.flatMap_cons]
    refine Unstopped.append ?_ (Unstopped.append ?_ (ih trivial))
    · rw [inlineB_toks hx, e] at ha; simpa [paraToks] using ha
    · have := inlineB_un hx hs
      rw [e] at this; exact this
  · intro acc t r hs hx ih ha
    rw [paraB_none hs hx]
    exact ih (Unstopped.append ha ⟨hs, trivial⟩)

theorem accHead_toks (acc : List Token) : (if acc = [] then [] else [HeadItem.text acc]).flatMap HeadItem.toks = acc := by
  split
  · rename_i h; simp [h]
  · simp [HeadItem.toks]

theorem headB_rest {stops} (acc ts : List Token) : stopAt stops (headB stops acc ts).2 = true := by
  refine headB_ind stops (P := fun acc ts => stopAt stops (headB stops acc ts).2 = true) ?_ ?_ ?_ acc ts
  · intro acc ts hs; rw [headB_stop hs]; exact hs
  · intro acc t r x r' hs hx ih; rw [headB_some hs hx]; exact ih
  · intro acc t r hs hx ih; rw [headB_none hs hx]; exact ih

end Yamd.Ref
