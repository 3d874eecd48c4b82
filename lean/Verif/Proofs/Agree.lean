import Verif.Proofs.LocalDoc

/-!
# Stop lists that agree (C66)

Two lists of stop conditions that hold at the same places of the tokens read give the same result.
-/

namespace Yamd.Ref

open Yamd Yamd.Spec Yamd.Round

/-- The two lists of stop conditions hold at the same places of `ts`. -/
def Agree (S S' : List Stop) : List Token → Prop
  | [] => True
  | t :: r => stopAt S' (t :: r) = stopAt S (t :: r) ∧ Agree S S' r

theorem Agree.all {S S' : List Stop} (h : ∀ ts, stopAt S' ts = stopAt S ts) : ∀ ts, Agree S S' ts
  | [] => trivial
  | t :: r => ⟨h _, Agree.all h r⟩

theorem Agree.stop {S S' : List Stop} {ts} (h : Agree S S' ts) : stopAt S' ts = stopAt S ts := by
  cases ts with
  | nil => rfl
  | cons t r => exact h.1

theorem Agree.right {S S' : List Stop} : ∀ {a b : List Token}, Agree S S' (a ++ b) → Agree S S' b
  | [], _, h => h
  | _ :: a, _, h => Agree.right (a := a) h.2

theorem Agree.cons {S S' : List Stop} (x : Stop) : ∀ {ts : List Token}, Agree S S' ts → Agree (x :: S) (x :: S') ts
  | [], _ => trivial
  | t :: r, h => by
    refine ⟨?_, h.2.cons x⟩
    have := h.1
    simp only [stopAt, List.any_cons] at this ⊢
    rw [this]

section
variable {S S' : List Stop}

theorem untilB_agree (m : Token → Bool) : ∀ {ts : List Token}, Agree S S' ts → untilB S' m ts = untilB S m ts
  | [], _ => rfl
  | t :: r, h => by rw [untilB, untilB, h.1, untilB_agree m h.2]

theorem destScan_agree : ∀ {ts : List Token}, Agree S S' ts → ∀ d, destScan S' d ts = destScan S d ts
  | [], _, _ => by rw [destScan, destScan]
  | t :: r, h, d => by
    rw [destScan, destScan, h.1]
    simp only [destScan_agree h.2]

theorem delimB_agree {o c : Token → Bool} (n : Node) {ts : List Token} (h : Agree S S' ts) :
    delimB o c n S' ts = delimB o c n S ts := by
  cases ts with
  | nil => rfl
  | cons t r => rw [delimB, delimB, untilB_agree c h.2]

theorem destB_agree {ts : List Token} (h : Agree S S' ts) : destB S' ts = destB S ts := by
  cases ts with
  | nil => rfl
  | cons t r => rw [destB, destB, destScan_agree h.2]

theorem linkB_agree {ts : List Token} (h : Agree S S' ts) : linkB S' ts = linkB S ts := by
  unfold linkB titleB
  rw [delimB_agree _ h]
  cases hd : delimB isLeftBracket isRightBracket .Title S ts with
  | none => rfl
  | some x =>
    obtain ⟨t, r⟩ := x
    have hr : Agree S S' r := by rw [delimB_toks hd] at h; exact h.right
    simp only
    rw [destB_agree hr]

theorem boldChildB_agree {ts : List Token} (h : Agree S S' ts) : boldChildB S' ts = boldChildB S ts := by
  unfold boldChildB strikeB italicB
  rw [delimB_agree _ h, delimB_agree _ h]

theorem boldItemsB_agree (acc ts : List Token) : Agree S S' ts → boldItemsB S' acc ts = boldItemsB S acc ts := by
  induction acc, ts using boldItemsB_ind S with
  | stop acc ts hs =>
    intro h
    rw [boldItemsB_stop hs, boldItemsB_stop (by rw [h.stop]; exact hs)]
  | close acc t r hs h2 =>
    intro h
    rw [boldItemsB_close hs h2, boldItemsB_close (by rw [h.stop]; exact hs) h2]
  | some acc t r d r' hs h2 hx ih =>
    intro h
    have hr : Agree S S' r' := by rw [boldChildB_toks hx] at h; exact h.right
    rw [boldItemsB_some hs h2 hx, boldItemsB_some (by rw [h.stop]; exact hs) h2 (by rw [boldChildB_agree h]; exact hx),
      ih hr]
  | none acc t r hs h2 hx ih =>
    intro h
    rw [boldItemsB_none hs h2 hx, boldItemsB_none (by rw [h.stop]; exact hs) h2 (by rw [boldChildB_agree h]; exact hx),
      ih h.2]

theorem boldB_agree {ts : List Token} (h : Agree S S' ts) : boldB S' ts = boldB S ts := by
  cases ts with
  | nil => rfl
  | cons t r => rw [boldB, boldB, boldItemsB_agree [] r h.2]

theorem inlineB_agree {ts : List Token} (h : Agree S S' ts) : inlineB S' ts = inlineB S ts := by
  unfold inlineB strikeB italicB codeSpanB emphasisB
  rw [delimB_agree _ h, delimB_agree _ h, boldB_agree h, linkB_agree h, delimB_agree _ h, delimB_agree _ h]

theorem paraB_agree (acc ts : List Token) : Agree S S' ts → paraB S' acc ts = paraB S acc ts := by
  induction acc, ts using paraB_ind S with
  | stop acc ts hs =>
    intro h
    rw [paraB_stop hs, paraB_stop (by rw [h.stop]; exact hs)]
  | some acc t r x r' hs hx ih =>
    intro h
    have hr : Agree S S' r' := by rw [inlineB_toks hx] at h; exact h.right
    rw [paraB_some hs hx, paraB_some (by rw [h.stop]; exact hs) (by rw [inlineB_agree h]; exact hx), ih hr]
  | none acc t r hs hx ih =>
    intro h
    rw [paraB_none hs hx, paraB_none (by rw [h.stop]; exact hs) (by rw [inlineB_agree h]; exact hx), ih h.2]

theorem headB_agree (acc ts : List Token) : Agree S S' ts → headB S' acc ts = headB S acc ts := by
  induction acc, ts using headB_ind S with
  | stop acc ts hs =>
    intro h
    rw [headB_stop hs, headB_stop (by rw [h.stop]; exact hs)]
  | some acc t r x r' hs hx ih =>
    intro h
    have hr : Agree S S' r' := by rw [linkB_toks hx] at h; exact h.right
    rw [headB_some hs hx, headB_some (by rw [h.stop]; exact hs) (by rw [linkB_agree h]; exact hx), ih hr]
  | none acc t r hs hx ih =>
    intro h
    rw [headB_none hs hx, headB_none (by rw [h.stop]; exact hs) (by rw [linkB_agree h]; exact hx), ih h.2]

theorem imageB_agree {ts : List Token} (h : Agree S S' ts) : imageB S' ts = imageB S ts := by
  cases ts with
  | nil => rfl
  | cons t r =>
    unfold imageB
    simp only
    rw [linkB_agree h.2]
    cases hl : linkB S r with
    | none => rfl
    | some x =>
      obtain ⟨l, r'⟩ := x
      have hr : Agree S S' r' := by
        have := h.2
        rw [linkB_toks hl] at this
        exact this.right
      simp only
      rw [hr.stop]

theorem imagesB_agree (ts : List Token) : Agree S S' ts → imagesB S' ts = imagesB S ts := by
  induction ts using imagesB_ind S with
  | none ts h =>
    intro ha
    rw [imagesB_none h, imagesB_none (by rw [imageB_agree ha]; exact h), ha.stop]
  | some ts i r h ih =>
    intro ha
    have hr : Agree S S' r := by rw [imageB_toks h] at ha; exact ha.right
    rw [imagesB_some h, imagesB_some (by rw [imageB_agree ha]; exact h), ih hr]

theorem paraB_agree_rest {acc ts : List Token} (h : Agree S S' ts) : acc = [] → Agree S S' (paraB S acc ts).2 := by
  rintro rfl
  have := paraB_toks (stops := S) (acc := []) _ (Nat.le_refl ts.length)
  rw [List.nil_append] at this
  rw [this] at h
  exact h.right

theorem itemsB_agree (level : Nat) (want : Option ListKind) (ts : List Token) : Agree S S' ts →
    itemsB S' level want ts = itemsB S level want ts := by
  induction level, want, ts using itemsB_ind S with
  | none level want ts hm => intro _; rw [itemsB_none hm, itemsB_none hm]
  | some level want ts k m r hm ih1 ih2 =>
    intro h
    have hr : Agree S S' r := by rw [(markerB_toks hm).1] at h; exact h.right
    have hp : itemPara S' level k r = itemPara S level k r := paraB_agree [] r (hr.cons _)
    have hr2 : Agree S S' (itemPara S level k r).2 := by
      have := paraB_toks (stops := .ListBoundary level k :: S) (acc := []) _ (Nat.le_refl r.length)
      rw [List.nil_append] at this
      rw [this] at hr
      exact hr.right
    have hn : itemNested S' level (itemPara S level k r).2 = itemNested S level (itemPara S level k r).2 := by
      unfold itemNested
      rw [hr2.stop, ih1 hr2]
    have hr3 : Agree S S' (itemNested S level (itemPara S level k r).2).2 := by
      unfold itemNested
      split
      · exact hr2
      · have := itemsB_toks (stops := S) (level := level + 1) (want := Option.none) _ (Nat.le_refl (itemPara S level k r).2.length)
        rw [this] at hr2
        exact hr2.right
    rw [itemsB_some hm, itemsB_some hm, hp, hn, ih2 hr3]

theorem leafB_agree {ts : List Token} (h : Agree S S' ts) : leafB S' ts = leafB S ts := by
  unfold leafB
  rw [itemsB_agree 0 none ts h, imagesB_agree ts h, paraB_agree [] ts h]
  have : headingB S' ts = headingB S ts := by
    unfold headingB
    have hd : Agree S S' (ts.drop 2) := by
      have h := h
      rw [← List.take_append_drop 2 ts] at h
      exact h.right
    rw [headB_agree [] _ hd]
  rw [this]

theorem drop_agree (n : Nat) {ts : List Token} (h : Agree S S' ts) : Agree S S' (ts.drop n) := by
  rw [← List.take_append_drop n ts] at h
  exact h.right

theorem modifierB_agree {ts : List Token} (h : Agree S S' ts) : modifierB S' ts = modifierB S ts := by
  unfold modifierB; rw [untilB_agree _ h]

theorem optModB_agree {ts : List Token} (h : Agree S S' ts) : optModB S' ts = optModB S ts := by
  unfold optModB; rw [modifierB_agree h]

theorem closeLineB_agree {c : Token} {r : List Token} (h : Agree S S' r) : closeLineB S' c r = closeLineB S c r := by
  cases r with
  | nil => rfl
  | cons t r => rw [closeLineB, closeLineB, h.1]

/-! ### The same stop conditions everywhere -/

variable (hA : ∀ ts, stopAt S' ts = stopAt S ts)
include hA

theorem codeB_agree (ts : List Token) : codeB S' ts = codeB S ts := by
  have hr : ∀ o m r, codeRestB S' o m r = codeRestB S o m r := by
    intro o m r
    unfold codeRestB
    cases untilB [] isBacktick3 r with
    | none => rfl
    | some x =>
      obtain ⟨b, c, r⟩ := x
      simp only
      rw [closeLineB_agree (Agree.all hA r)]
  unfold codeB
  cases ts with
  | nil => rfl
  | cons t r => simp only [hr]

theorem embedB_agree (ts : List Token) : embedB S' ts = embedB S ts := by
  unfold embedB
  cases ts with
  | nil => rfl
  | cons t r =>
    simp only
    rw [untilB_agree _ (Agree.all hA r)]
    cases untilB S isPipe r with
    | none => rfl
    | some x =>
      obtain ⟨l, p, r⟩ := x
      simp only
      rw [untilB_agree _ (Agree.all hA r)]
      cases untilB S isRightCurly2 r with
      | none => rfl
      | some x =>
        obtain ⟨l, p, r⟩ := x
        simp only
        rw [closeLineB_agree (Agree.all hA r)]

theorem hlParasB_agree : ∀ (n : Nat) (ts : List Token), ts.length ≤ n → hlParasB S' ts = hlParasB S ts := by
  intro n
  induction n with
  | zero =>
    intro ts hn
    have : ts = [] := by simpa using hn
    subst this
    rw [hlParasB.eq_def, hlParasB.eq_def S]; rfl
  | succ n ih =>
    intro ts hn
    rw [hlParasB.eq_def, hlParasB.eq_def S, hA, paraB_agree [] _ (((Agree.all hA _).cons _).cons _)]
    simp only
    split
    · rfl
    · split
      · rfl
      · split
        · rw [ih _ (by omega)]
        · rfl

theorem highlightB_agree (ts : List Token) : highlightB S' ts = highlightB S ts := by
  have hi : ∀ r, optIconB (.Terminator :: S') r = optIconB (.Terminator :: S) r := by
    intro r
    unfold optIconB iconB
    rw [untilB_agree _ ((Agree.all hA _).cons _)]
  have hr : ∀ o m r, hlRestB S' o m r = hlRestB S o m r := by
    intro o m r
    unfold hlRestB
    rw [hi]
    simp only
    rw [hlParasB_agree hA _ _ (Nat.le_refl _)]
  unfold highlightB
  rw [optModB_agree (Agree.all hA _)]
  simp only [hr]

theorem otherB_agree (ts : List Token) : otherB S' ts = otherB S ts := by
  unfold otherB
  rw [embedB_agree hA, highlightB_agree hA, leafB_agree ((Agree.all hA _).cons _)]

theorem collOpenB_agree (ts : List Token) : collOpenB S' ts = collOpenB S ts := by
  unfold collOpenB
  rw [optModB_agree (Agree.all hA _)]

end

theorem stopAt_cons_same {S S' : List Stop} (h : ∀ ts, stopAt S' ts = stopAt S ts) (x : Stop) :
    ∀ ts, stopAt (x :: S') ts = stopAt (x :: S) ts := fun ts => ((Agree.all h ts).cons x).stop

/-- Stop lists that always agree give the same document. -/
theorem docB_agree (S : List Stop) (ts : List Token) : ∀ {S' : List Stop}, (∀ ts, stopAt S' ts = stopAt S ts) →
    docB S' ts = docB S ts := by
  induction S, ts using docB_ind with
  | stop s ts h e => intro S' hA; rw [e, docB_stop (by rw [hA]; exact h)]
  | term s t r hs ht e ih => intro S' hA; rw [e, docB_term (by rw [hA]; exact hs) ht, ih hA]
  | code s t r b rest hs ht hc e ih =>
    intro S' hA
    rw [e, docB_code (by rw [hA]; exact hs) (by simpa [tokenIs] using ht) (by rw [codeB_agree hA]; exact hc), ih hA]
  | coll s t r o m r1 c r4 hs ht hc ho hcl e ih1 ih2 =>
    intro S' hA
    have i1 := ih1 (stopAt_cons_same hA _)
    have := docB_coll (stops := S') (ts := t :: r) (by rw [hA]; exact hs) (by simpa [tokenIs] using ht)
      (by rw [codeB_agree hA]; exact hc) (by rw [collOpenB_agree hA]; exact ho) (by rw [i1]; exact hcl)
    rw [e, this, i1, ih2 hA]
  | fallback s t r o m r1 x hs ht hc ho hcl hx hl hst e ih1 ih2 =>
    intro S' hA
    have i1 := ih1 (stopAt_cons_same hA _)
    have := docB_fallback (stops := S') (ts := t :: r) (by rw [hA]; exact hs) (by simpa [tokenIs] using ht)
      (by rw [codeB_agree hA]; exact hc) (by rw [collOpenB_agree hA]; exact ho) (by rw [i1]; exact hcl)
      (x := x) (by rw [i1]; exact hx)
    rw [e, this, otherB_agree hA, ih2 hA]
  | other s t r hs ht hc ho hst e ih =>
    intro S' hA
    cases docB_step (stops := S') (ts := t :: r) (by rw [hA]; exact hs) with
    | term t' r' h ht' e' => cases h; rw [ht] at ht'; simp at ht'
    | code t' r' h ht' b' rest' hc' e' => cases h; rw [codeB_agree hA, hc] at hc'; simp at hc'
    | coll t' r' h ht' o' m' r1' c' r4' hc' ho' hcl' e' =>
      cases h; rw [collOpenB_agree hA, ho] at ho'; simp at ho'
    | fallback t' r' h ht' o' m' r1' hc' ho' hcl' e' =>
      cases h; rw [collOpenB_agree hA, ho] at ho'; simp at ho'
    | other t' r' h ht' hc' ho' e' =>
      cases h
      rw [e, e', otherB_agree hA, ih hA]

end Yamd.Ref
