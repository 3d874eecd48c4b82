import Verif.Proofs.Fits
import Verif.Proofs.Induct
import Verif.Spec.Dest

/-!
# Where destinations end
-/

namespace Yamd.Ref

open Yamd Yamd.Spec

/-! ### `{%` tokens do not matter -/

/-- `{%` taken as a literal. -/
def norm (t : Token) : Token := if t.kind = .CollapsibleStart then { t with kind := .Literal } else t

theorem norm_flip {a b : Token} (h : FlipRel a b) : norm b = norm a := by
  rcases h with rfl | ⟨h, rfl⟩
  · rfl
  · unfold norm; simp [h]

theorem norm_flips {a b : List Token} (h : Flips a b) : b.map norm = a.map norm := by
  induction h with
  | nil => rfl
  | cons h _ ih => rw [List.map_cons, List.map_cons, ih, norm_flip h]

theorem norm_kind (t : Token) {k : TokenKind} (h1 : k ≠ .CollapsibleStart) (h2 : k ≠ .Literal) :
    ((norm t).kind = k) = (t.kind = k) := by
  unfold norm
  split
  · rename_i h; simp only [h, eq_iff_iff]; exact ⟨fun e => absurd e.symm h2, fun e => absurd e.symm h1⟩
  · rfl

theorem norm_kindB (t : Token) {k : TokenKind} (h1 : k ≠ .CollapsibleStart) (h2 : k ≠ .Literal) :
    ((norm t).kind == k) = (t.kind == k) := by
  rw [Bool.eq_iff_iff]; simp only [beq_iff_eq]; rw [norm_kind t h1 h2]

theorem norm_col (t : Token) : (norm t).position = t.position := by unfold norm; split <;> rfl
theorem norm_len (t : Token) : (norm t).len = t.len := by unfold norm; split <;> rfl

theorem parensOpen_norm : ∀ (l : List Token) n, parensOpen n (l.map norm) = parensOpen n l
  | [], _ => rfl
  | t :: r, n => by
    simp only [List.map_cons, parensOpen, norm_kind t (k := .LeftParenthesis) (by decide) (by decide),
      norm_kind t (k := .RightParenthesis) (by decide) (by decide), parensOpen_norm r]

theorem isItemMarker_norm (l : List Token) : isItemMarker (l.map norm) = isItemMarker l := by
  cases l with
  | nil => rfl
  | cons m l =>
    cases l with
    | nil => rfl
    | cons s l =>
      simp only [List.map_cons, isItemMarker, norm_len, norm_kindB m (k := .Minus) (by decide) (by decide),
        norm_kindB m (k := .Plus) (by decide) (by decide), norm_kindB s (k := .Space) (by decide) (by decide)]

theorem blockBoundary_norm (l : List Token) : blockBoundary (l.map norm) = blockBoundary l := by
  cases l with
  | nil => rfl
  | cons t r =>
    have e1 := isItemMarker_norm (t :: r)
    have e2 := isItemMarker_norm r
    simp only [List.map_cons] at e1
    simp only [List.map_cons, blockBoundary, e1, e2, norm_col, norm_len,
      norm_kindB t (k := .Terminator) (by decide) (by decide), norm_kindB t (k := .Bang) (by decide) (by decide),
      norm_kindB t (k := .CollapsibleEnd) (by decide) (by decide), norm_kindB t (k := .Eol) (by decide) (by decide),
      norm_kindB t (k := .Space) (by decide) (by decide)]
    cases r with
    | nil => rfl
    | cons u r =>
      simp only [List.map_cons, norm_col, norm_kindB u (k := .CollapsibleEnd) (by decide) (by decide)]

theorem noCloseAhead_norm : ∀ l : List Token, noCloseAhead (l.map norm) = noCloseAhead l
  | [] => rfl
  | t :: r => by
    have e := blockBoundary_norm (t :: r)
    simp only [List.map_cons] at e
    simp only [List.map_cons, noCloseAhead, e, noCloseAhead_norm r, bne,
      norm_kindB t (k := .RightParenthesis) (by decide) (by decide)]

theorem destEnds_flips {b b' r r' : List Token} (h1 : Flips b b') (h2 : Flips r r') :
    DestinationEnds b r ↔ DestinationEnds b' r' := by
  unfold DestinationEnds
  rw [← parensOpen_norm b, ← parensOpen_norm b', ← noCloseAhead_norm r, ← noCloseAhead_norm r', norm_flips h1,
    norm_flips h2]

/-! ### The scan -/

theorem stopHere_boundary {t r s} (h : stopHere t r s = true) : blockBoundary (t :: r) = true := by
  cases s with
  | Terminator => simp [stopHere] at h; simp [blockBoundary, h]
  | HighlightEnd =>
    simp [stopHere, col0] at h
    simp [blockBoundary, h]
  | CollapsibleEnd =>
    simp only [stopHere, Bool.or_eq_true, Bool.and_eq_true, decide_eq_true_eq, col0] at h
    rcases h with h | h
    · simp only [blockBoundary, Bool.or_eq_true, Bool.and_eq_true, beq_iff_eq]
      left; left; right; exact ⟨by simpa using h.2, h.1⟩
    · cases r with
      | nil => simp [tokenIs] at h
      | cons u r =>
        simp [tokenIs] at h
        simp [blockBoundary, h]
  | ListBoundary level kind =>
    simp only [stopHere, Bool.and_eq_true, List.any_eq_true] at h
    obtain ⟨hc, l, -, hl⟩ := h
    simp only [blockBoundary, Bool.or_eq_true, Bool.and_eq_true, beq_iff_eq]
    right
    refine ⟨by simpa [col0] using hc, ?_⟩
    have hm : ∀ (k : Option ListKind) (u : Token), isListMarker k u = true →
        (u.kind = .Minus ∨ u.kind = .Plus) ∧ u.len = 1 := by
      intro k u hu
      unfold isListMarker at hu
      unfold ListKind.tryFrom at hu
      cases hk : u.kind <;> simp [hk] at hu ⊢ <;> split at hu <;> simp_all
    have hsp : ∀ u : Token, isSpace1 u = true → u.kind = .Space ∧ u.len = 1 := by
      intro u hu; simpa [isSpace1] using hu
    unfold boundaryHere at hl
    simp only at hl
    split at hl
    · simp only [Bool.and_eq_true] at hl
      obtain ⟨⟨-, h1⟩, h2⟩ := hl
      left
      cases r with
      | nil => simp [tokenIs] at h2
      | cons u r =>
        have := hm _ _ (by simpa [tokenIs] using h1)
        have h3 := hsp u (by simpa [tokenIs] using h2)
        simp [isItemMarker, this, h3]
    · simp only [Bool.and_eq_true] at hl
      obtain ⟨⟨⟨-, h1⟩, h2⟩, h3⟩ := hl
      right
      cases r with
      | nil => simp [tokenIs] at h2
      | cons u r =>
        cases r with
        | nil => simp [tokenIs] at h3
        | cons v r =>
          have := hm _ _ (by simpa [tokenIs] using h2)
          have h4 := hsp v (by simpa [tokenIs] using h3)
          simp [tokenIs] at h1
          exact ⟨h1.1, by simp [isItemMarker, this, h4]⟩

theorem stopAt_boundary {stops ts} (h : stopAt stops ts = true) : blockBoundary ts = true := by
  cases ts with
  | nil => rfl
  | cons t r =>
    simp only [stopAt, List.any_eq_true] at h
    obtain ⟨s, -, hs⟩ := h
    exact stopHere_boundary hs

theorem destScan_none {stops} : ∀ {ts depth}, destScan stops depth ts = none → noCloseAhead ts = true := by
  intro ts
  induction ts with
  | nil => intros; rfl
  | cons t r ih =>
    intro depth h
    rw [destScan] at h
    rw [noCloseAhead]
    split at h
    · rename_i hs; rw [stopAt_boundary hs]; rfl
    · split at h
      · rename_i hk
        rw [ih (by simpa using h)]; simp [hk]
      · split at h
        · split at h
          · simp at h
          · split at h <;> simp at h
        · rename_i hk
          rw [ih (by simpa using h)]; simp [hk]

theorem destScan_some {stops} : ∀ {ts depth b c r}, 1 ≤ depth → destScan stops depth ts = some (b, c, r) →
    ∃ n, parensOpen depth b = some n ∧ (n = 1 ∨ noCloseAhead r = true) := by
  intro ts
  induction ts with
  | nil => intro _ _ _ _ _ h; simp [destScan] at h
  | cons t ts ih =>
    intro depth b c r hd h
    rw [destScan] at h
    split at h
    · simp at h
    · split at h
      · rename_i hk
        simp only [Option.map_eq_some_iff, Prod.mk.injEq] at h
        obtain ⟨⟨b', c', r'⟩, h1, rfl, rfl, rfl⟩ := h
        obtain ⟨n, h2, h3⟩ := ih (by omega) h1
        exact ⟨n, by rw [parensOpen, if_pos hk]; exact h2, h3⟩
      · rename_i hk0
        split at h
        · rename_i hk
          split at h
          · simp only [Option.some.injEq, Prod.mk.injEq] at h
            obtain ⟨rfl, rfl, rfl⟩ := h
            exact ⟨depth, rfl, .inl (by omega)⟩
          · split at h
            · rename_i x hx
              obtain ⟨b', c', r'⟩ := x
              simp only [Option.some.injEq, Prod.mk.injEq] at h
              obtain ⟨rfl, rfl, rfl⟩ := h
              obtain ⟨n, h2, h3⟩ := ih (by omega) hx
              exact ⟨n, by rw [parensOpen, if_neg hk0, if_pos hk, if_neg (by omega)]; exact h2, h3⟩
            · rename_i hx
              simp only [Option.some.injEq, Prod.mk.injEq] at h
              obtain ⟨rfl, rfl, rfl⟩ := h
              exact ⟨depth, rfl, .inr (destScan_none hx)⟩
        · rename_i hk
          simp only [Option.map_eq_some_iff, Prod.mk.injEq] at h
          obtain ⟨⟨b', c', r'⟩, h1, rfl, rfl, rfl⟩ := h
          obtain ⟨n, h2, h3⟩ := ih hd h1
          exact ⟨n, by rw [parensOpen, if_neg hk0, if_neg hk]; exact h2, h3⟩

theorem destB_ends {stops ts d r} (h : destB stops ts = some (d, r)) :
    d.node = .Destination ∧ DestinationEnds d.body r := by
  cases ts with
  | nil => simp [destB] at h
  | cons t ts =>
    rw [destB] at h
    split at h
    · simp only [Option.map_eq_some_iff, Prod.mk.injEq] at h
      obtain ⟨⟨b', c', r'⟩, h1, rfl, rfl⟩ := h
      exact ⟨rfl, destScan_some (Nat.le_refl 1) h1⟩
    · simp at h

/-! ### Along the ops -/

def toksOf (l : List Seg) : List Token := l.flatMap Seg.toks

/-- Every destination of the segments ends where it should; `rest` are the tokens after them. -/
def DestsEnd : List Seg → List Token → Prop
  | [], _ => True
  | s :: l, rest =>
    (s.kind = .Start .Destination → ∃ v e l2, l = v :: e :: l2 ∧ v.skip = [] ∧ v.kind = .Value ∧
      e.kind = .End .Destination ∧ DestinationEnds v.own (toksOf l2 ++ rest)) ∧ DestsEnd l rest

theorem DestsEnd.append : ∀ {a b : List Seg} {rest}, DestsEnd a (toksOf b ++ rest) → DestsEnd b rest →
    DestsEnd (a ++ b) rest
  | [], _, _, _, h2 => h2
  | s :: a, b, rest, h1, h2 => by
    refine ⟨fun hk => ?_, DestsEnd.append h1.2 h2⟩
    obtain ⟨v, e, l2, rfl, h3, h4, h5, h6⟩ := h1.1 hk
    exact ⟨v, e, l2 ++ b, rfl, h3, h4, h5, by simpa [toksOf] using h6⟩

theorem DestsEnd.flips : ∀ {a : List Seg} {rest rest'}, DestsEnd a rest → Flips rest rest' → DestsEnd a rest'
  | [], _, _, _, _ => trivial
  | s :: a, rest, rest', h1, h2 => by
    refine ⟨fun hk => ?_, DestsEnd.flips h1.2 h2⟩
    obtain ⟨v, e, l2, rfl, h3, h4, h5, h6⟩ := h1.1 hk
    exact ⟨v, e, l2, rfl, h3, h4, h5, (destEnds_flips (Flips.refl _) ((Flips.refl _).append h2)).1 h6⟩

theorem DestsEnd.other {s : Seg} {l rest} (hs : s.kind ≠ .Start .Destination) (h : DestsEnd l rest) :
    DestsEnd (s :: l) rest := ⟨fun hk => absurd hk hs, h⟩

theorem DestsEnd.plain : ∀ {l : List Seg} {rest}, (∀ s ∈ l, s.kind ≠ .Start .Destination) → DestsEnd l rest
  | [], _, _ => trivial
  | s :: l, rest, h => .other (h s (by simp)) (.plain (fun x hx => h x (by simp [hx])))

theorem delim_dests {d : Delim} {rest} (h : d.node ≠ .Destination) : DestsEnd d.segs rest := by
  apply DestsEnd.plain
  intro s hs
  simp only [Delim.segs, List.mem_cons, List.not_mem_nil, or_false] at hs
  rcases hs with rfl | rfl | rfl <;> simp [segStart, segValue, segEnd, h]

theorem link_dests {stops ts l r} (h : linkB stops ts = some (l, r)) : DestsEnd l.segs r := by
  unfold linkB at h
  split at h
  · simp at h
  · rename_i t r1 h1
    split at h
    · simp at h
    · rename_i d r2 h2
      simp only [Option.some.injEq, Prod.mk.injEq] at h
      obtain ⟨rfl, rfl⟩ := h
      have e1 := (delimB_ok h1).1
      obtain ⟨e2, e3⟩ := destB_ends h2
      refine DestsEnd.append (delim_dests (by rw [e1]; decide)) ?_
      refine ⟨fun _ => ⟨segValue d.body, segEnd d.node [d.closing], [], rfl, rfl, rfl, by rw [e2]; rfl, e3⟩, ?_⟩
      exact .other (by simp [segValue]) (.other (by simp [segEnd]) trivial)

theorem anchor_dests {stops ts l r} (h : linkB stops ts = some (l, r)) : DestsEnd (anchorSegs l) r := by
  refine .other (by simp [segStart]) (DestsEnd.append ?_ (.other (by simp [segEnd]) trivial))
  exact link_dests h

theorem boldItem_plain {b : BoldItem} (h : b.Ok) : ∀ s ∈ b.segs, s.kind ≠ .Start .Destination := by
  cases b with
  | text ts => intro s hs; simp only [BoldItem.segs, List.mem_singleton] at hs; subst hs; simp [segValue]
  | delim d =>
    intro s hs
    simp only [BoldItem.segs, Delim.segs, List.mem_cons, List.not_mem_nil, or_false] at hs
    rcases h with ⟨h, -⟩ | ⟨h, -⟩ <;> rcases hs with rfl | rfl | rfl <;> simp [segStart, segValue, segEnd, h]

theorem inline_dests {stops ts x r} (h : inlineB stops ts = some (x, r)) : DestsEnd x.segs r := by
  have hok := (inlineB_ok h).1
  unfold inlineB at h
  repeat' split at h
  all_goals simp only [Option.some.injEq, Prod.mk.injEq, reduceCtorEq] at h
  · obtain ⟨rfl, rfl⟩ := h; rename_i h1; exact delim_dests (by rw [(delimB_ok h1).1]; decide)
  · obtain ⟨rfl, rfl⟩ := h; rename_i h1; exact delim_dests (by rw [(delimB_ok h1).1]; decide)
  · rename_i h1; rw [h] at h1
    cases ts with
    | nil => simp [boldB] at h1
    | cons t ts =>
      rw [boldB] at h1
      split at h1
      · simp only [Option.map_eq_some_iff, Prod.mk.injEq] at h1
        obtain ⟨⟨l, c, r'⟩, h2, rfl, rfl⟩ := h1
        apply DestsEnd.plain
        intro s hs
        simp only [Inl.segs, List.mem_cons, List.mem_append, List.mem_flatMap, List.not_mem_nil, or_false] at hs
        rcases hs with rfl | ⟨b, hb, hs⟩ | rfl
        · simp [segStart]
        · exact boldItem_plain (hok.2.2.1 b hb) s hs
        · simp [segEnd]
      · simp at h1
  · obtain ⟨rfl, rfl⟩ := h; rename_i h1; exact anchor_dests h1
  · obtain ⟨rfl, rfl⟩ := h; rename_i h1; exact delim_dests (by rw [(delimB_ok h1).1]; decide)
  · obtain ⟨rfl, rfl⟩ := h; rename_i h1; exact delim_dests (by rw [(delimB_ok h1).1]; decide)

theorem accInl_dests (acc : List Token) {rest} :
    DestsEnd ((if acc = [] then [] else [Inl.text acc]).flatMap Inl.segs) rest := by
  split
  · trivial
  · exact .other (by simp [segValue]) trivial

theorem para_dests (stops : List Stop) (acc ts : List Token) :
    DestsEnd ((paraB stops acc ts).1.flatMap Inl.segs) (paraB stops acc ts).2 := by
  induction acc, ts using paraB_ind stops with
  | stop acc ts h => rw [paraB_stop h]; exact accInl_dests acc
  | some acc t r x r' hs hi ih =>
    rw [paraB_some hs hi]
    simp only [List.flatMap_append, List.flatMap_cons]
    refine (accInl_dests acc).append (DestsEnd.append ?_ ih)
    have := paraB_toks (stops := stops) (acc := []) _ (Nat.le_refl r'.length)
    rw [toksOf, flatMap_toks _ Inl.toks_segs, ← paraToks, ← this]
    exact inline_dests hi
  | none acc t r hs hi ih => rw [paraB_none hs hi]; exact ih

theorem paraSegs_dests (stops : List Stop) (ts : List Token) :
    DestsEnd (paraSegs (paraB stops [] ts).1) (paraB stops [] ts).2 :=
  .other (by simp [segStart]) ((para_dests stops [] ts).append (.other (by simp [segEnd]) trivial))

theorem accHead_dests (acc : List Token) {rest} :
    DestsEnd ((if acc = [] then [] else [HeadItem.text acc]).flatMap HeadItem.segs) rest := by
  split
  · trivial
  · exact .other (by simp [segValue]) trivial

theorem head_dests (stops : List Stop) (acc ts : List Token) :
    DestsEnd ((headB stops acc ts).1.flatMap HeadItem.segs) (headB stops acc ts).2 := by
  induction acc, ts using headB_ind stops with
  | stop acc ts h => rw [headB_stop h]; exact accHead_dests acc
  | some acc t r x r' hs hi ih =>
    rw [headB_some hs hi]
    simp only [List.flatMap_append, List.flatMap_cons]
    refine (accHead_dests acc).append (DestsEnd.append ?_ ih)
    have := headB_toks (stops := stops) (acc := []) _ (Nat.le_refl r'.length)
    rw [toksOf, flatMap_toks _ HeadItem.toks_segs, ← this]
    exact anchor_dests hi
  | none acc t r hs hi ih => rw [headB_none hs hi]; exact ih

theorem img_dests {stops ts i r} (h : imageB stops ts = some (i, r)) : DestsEnd i.segs r := by
  cases ts with
  | nil => simp [imageB] at h
  | cons t ts =>
    unfold imageB at h
    simp only at h
    split at h
    · split at h
      · simp at h
      · rename_i l r1 h1
        have key : ∀ e r, r1 = e ++ r → DestsEnd (Img.segs ⟨t, l, e⟩) r := by
          intro e r he
          refine .other (by simp [segStart]) (DestsEnd.append ?_ (.other (by simp [segEnd]) trivial))
          have : toksOf [segEnd .Image e] ++ r = r1 := by rw [he]; simp [toksOf, segEnd, Seg.toks]
          rw [this]; exact link_dests h1
        split at h
        · simp only [Option.some.injEq, Prod.mk.injEq] at h
          obtain ⟨rfl, rfl⟩ := h
          exact key _ _ (List.take_append_drop 1 r1).symm
        · split at h
          · simp only [Option.some.injEq, Prod.mk.injEq] at h
            obtain ⟨rfl, rfl⟩ := h
            exact key _ _ rfl
          · simp at h
    · simp at h

theorem imgs_dests (stops : List Stop) (ts : List Token) : ∀ {l r}, imagesB stops ts = some (l, r) →
    DestsEnd (l.flatMap Img.segs) r := by
  induction ts using imagesB_ind stops with
  | none ts h =>
    intro l r h1
    rw [imagesB_none h] at h1
    split at h1
    · simp only [Option.some.injEq, Prod.mk.injEq] at h1; obtain ⟨rfl, rfl⟩ := h1; trivial
    · simp at h1
  | some ts i r h ih =>
    intro l r' h1
    rw [imagesB_some h] at h1
    simp only [Option.map_eq_some_iff, Prod.mk.injEq] at h1
    obtain ⟨⟨l', r''⟩, h2, rfl, rfl⟩ := h1
    simp only [List.flatMap_cons]
    refine DestsEnd.append ?_ (ih h2)
    rw [toksOf, flatMap_toks _ Img.toks_segs, ← imagesB_toks _ (Nat.le_refl _) h2]
    exact img_dests h

theorem wrap_dests {k s rest} (h : DestsEnd s rest) : DestsEnd (wrapSegs k s) rest := by
  cases k with
  | none => trivial
  | some k =>
    refine .other ?_ (DestsEnd.append ?_ (.other (by simp [segEnd]) trivial))
    · cases k <;> simp [segStart, ListKind.node]
    · exact h

theorem items_dests (stops : List Stop) (level : Nat) (want : Option ListKind) (ts : List Token) :
    DestsEnd (itemsB stops level want ts).1.segs (itemsB stops level want ts).2 := by
  induction level, want, ts using itemsB_ind stops with
  | none level want ts h => rw [itemsB_none h]; trivial
  | some level want ts k m r h ih1 ih2 =>
    rw [itemsB_some h]
    simp only [Items.segs]
    have hn : DestsEnd (itemNested stops level (itemPara stops level k r).2).1.segs
        (itemNested stops level (itemPara stops level k r).2).2 := by
      unfold itemNested
      split
      · trivial
      · exact ih1
    have ht := itemsB_toks (stops := stops) (level := level) (want := some k)
      (ts := (itemNested stops level (itemPara stops level k r).2).2) _ (Nat.le_refl _)
    have hnt : (itemPara stops level k r).2 = (itemNested stops level (itemPara stops level k r).2).1.toks ++
        (itemNested stops level (itemPara stops level k r).2).2 := by
      unfold itemNested
      split
      · rfl
      · exact itemsB_toks _ (Nat.le_refl _)
    refine .other (by simp [segStart]) (DestsEnd.append ?_ (DestsEnd.append (wrap_dests ?_)
      (.other (by simp [segEnd]) ih2)))
    · have : toksOf (wrapSegs (itemNested stops level (itemPara stops level k r).2).1.kind
          (itemNested stops level (itemPara stops level k r).2).1.segs ++
          segEnd Node.ListItem [] :: (itemsB stops level (some k)
            (itemNested stops level (itemPara stops level k r).2).2).1.segs) ++
          (itemsB stops level (some k) (itemNested stops level (itemPara stops level k r).2).2).2
          = (itemPara stops level k r).2 := by
        rw [toksOf, List.flatMap_append, wrap_toks _ _ Items.kind_none, Items.toks_segs, List.flatMap_cons,
          Items.toks_segs]
        simp only [segEnd, Seg.toks, List.nil_append, List.append_assoc, ← ht]
        exact hnt.symm
      rw [this]; exact paraSegs_dests _ _
    · rw [toksOf, List.flatMap_cons, Items.toks_segs]
      simp only [segEnd, Seg.toks, List.nil_append, ← ht]
      exact hn

theorem mod_plain (m : Option Mod) : ∀ s ∈ modSegs m, s.kind ≠ .Start .Destination := by
  cases m with
  | none => intro s hs; cases hs
  | some m =>
    intro s hs
    simp only [modSegs, List.mem_cons, List.not_mem_nil, or_false] at hs
    rcases hs with rfl | rfl | rfl <;> simp [segStart, segValue, segEnd]

theorem icon_plain (m : Option IconLine) : ∀ s ∈ iconSegs m, s.kind ≠ .Start .Destination := by
  cases m with
  | none => intro s hs; cases hs
  | some m =>
    intro s hs
    simp only [iconSegs, List.mem_cons, List.not_mem_nil, or_false] at hs
    rcases hs with rfl | rfl | rfl <;> simp [segStart, segValue, segEnd]

theorem term_plain (ts : List Token) : ∀ s ∈ termSegs ts, s.kind ≠ .Start .Destination := by
  cases ts with
  | nil => intro s hs; cases hs
  | cons t r =>
    intro s hs
    simp only [termSegs, List.mem_cons, List.not_mem_nil, or_false] at hs
    subst hs; simp [segValue]

theorem hl_dests {stops ts l c r} (h : hlParasB stops ts = some (l, c, r)) :
    DestsEnd (l.flatMap HPara.segs) (c ++ r) := by
  refine hlParasB_ind stops (P := fun ts l c r => ts = l.flatMap HPara.toks ++ (c ++ r) ∧
    DestsEnd (l.flatMap HPara.segs) (c ++ r)) ?_ ?_ ?_ ts l c r h |>.2
  · intro ts _ _ _; exact ⟨(List.take_append_drop 2 ts).symm, trivial⟩
  · intro ts _ _ _; exact ⟨(List.take_append_drop 1 ts).symm, trivial⟩
  · intro ts l c r hs hb hl ⟨ih1, ih2⟩
    constructor
    · have h1 := termB_toks ts
      have h2 := paraB_toks (stops := .Terminator :: .HighlightEnd :: stops) (acc := []) _
        (Nat.le_refl (termB ts).2.length)
      simp only [List.nil_append] at h2
      simp only [List.flatMap_cons, HPara.toks, List.append_assoc]
      rw [← ih1, ← h2]; exact h1
    · simp only [List.flatMap_cons]
      refine DestsEnd.append ?_ ih2
      rw [toksOf, flatMap_toks _ HPara.toks_segs, ← ih1]
      exact (DestsEnd.plain (term_plain _)).append (paraSegs_dests _ _)

theorem hlRest_dests {stops o m r b rest} (h : hlRestB stops o m r = some (b, rest)) : DestsEnd b.segs rest := by
  unfold hlRestB at h
  simp only at h
  split at h
  · simp only [Option.map_eq_some_iff, Prod.mk.injEq] at h
    obtain ⟨⟨l, c, r'⟩, h1, rfl, rfl⟩ := h
    refine .other (by simp [segStart]) ((DestsEnd.plain (mod_plain _)).append ((DestsEnd.plain (icon_plain _)).append
      (DestsEnd.append ?_ (.other (by simp [segEnd]) trivial))))
    have := hl_dests h1
    simpa [toksOf, segEnd, Seg.toks] using this
  · simp at h

theorem highlight_dests {stops ts b rest} (h : highlightB stops ts = some (b, rest)) : DestsEnd b.segs rest := by
  unfold highlightB at h
  split at h
  · split at h
    · exact hlRest_dests h
    · exact hlRest_dests h
  · simp at h

theorem codeBlock_dests {o m b c rest} : DestsEnd (Block.segs (.code o m b c)) rest :=
  .other (by simp [segStart]) ((DestsEnd.plain (mod_plain _)).append
    (.other (by simp [segValue]) (.other (by simp [segEnd]) trivial)))

theorem code_dests {stops ts b r rest} (h : codeB stops ts = some (b, r)) : DestsEnd b.segs rest := by
  have key : ∀ {o m r0}, codeRestB stops o m r0 = some (b, r) → DestsEnd b.segs rest := by
    intro o m r0 h
    unfold codeRestB at h
    split at h
    · simp at h
    · simp only [Option.map_eq_some_iff, Prod.mk.injEq] at h
      obtain ⟨x, -, rfl, -⟩ := h
      exact codeBlock_dests
  unfold codeB at h
  split at h
  · simp at h
  · split at h
    · split at h
      · exact key h
      · exact key h
    · simp at h

theorem embed_dests {stops ts b r rest} (h : embedB stops ts = some (b, r)) : DestsEnd b.segs rest := by
  unfold embedB at h
  split at h
  · simp at h
  · split at h
    · split at h
      · simp at h
      · split at h
        · simp at h
        · simp only [Option.map_eq_some_iff, Prod.mk.injEq] at h
          obtain ⟨x, -, rfl, -⟩ := h
          exact .other (by simp [segStart]) (.other (by simp [segValue]) (.other (by simp [segValue])
            (.other (by simp [segValue]) (.other (by simp [segEnd]) trivial))))
    · simp at h

theorem leaf_dests (stops : List Stop) (ts : List Token) : DestsEnd (leafB stops ts).1.segs (leafB stops ts).2 := by
  rcases leafB_cases stops ts with ⟨k, m, p, n, r, rest, h1, h2⟩ | ⟨i, l, r, h1, h2⟩ | h | h | h
  · rw [h2]
    have := items_dests stops 0 none ts
    rw [h1] at this
    exact wrap_dests (k := some k) this
  · rw [h2]
    have := imgs_dests stops ts h1
    simp only [Block.segs]
    split
    · exact .other (by simp [segStart]) (this.append (.other (by simp [segEnd]) trivial))
    · exact this
  · generalize leafB stops ts = x at h
    cases ts with
    | nil => simp [thematicB] at h
    | cons t r =>
      rw [thematicB] at h
      split at h
      · simp only [Option.some.injEq] at h; subst h
        exact .other (by simp [segStart]) (.other (by simp [segValue]) (.other (by simp [segEnd]) trivial))
      · simp at h
  · generalize leafB stops ts = x at h
    unfold headingB at h
    split at h
    · simp only [Option.some.injEq] at h; subst h
      exact .other (by simp [segStart]) ((head_dests _ _ _).append (.other (by simp [segEnd]) trivial))
    · simp at h
  · rw [h]; exact paraSegs_dests _ _

theorem other_dests (stops : List Stop) (ts : List Token) : DestsEnd (otherB stops ts).1.segs (otherB stops ts).2 := by
  rcases otherB_cases stops ts with h | h | h
  · exact embed_dests h
  · exact highlight_dests h
  · rw [h]; exact leaf_dests _ _

theorem doc_dests (stops : List Stop) (ts : List Token) : DestsEnd (docB stops ts).1.segs (docB stops ts).2 := by
  induction stops, ts using docB_ind with
  | stop s ts h e => rw [e]; trivial
  | term s t r hs ht e ih => rw [e]; exact .other (by simp [segValue]) ih
  | code s t r b rest hs ht hc e ih => rw [e]; exact (code_dests hc).append ih
  | coll s t r o m r1 c r4 hs ht hc ho hcl e ih1 ih2 =>
    rw [e]
    refine .other (by simp [segStart]) ((DestsEnd.plain (mod_plain _)).append (.other (by simp [segStart])
      (DestsEnd.append ?_ (.other (by simp [segEnd]) (.other (by simp) ih2)))))
    refine ih1.flips ?_
    have h1 := skipEolB_toks (docB (.CollapsibleEnd :: s) r1).2
    have h2 := collCloseB_toks hcl
    have h3 := docB_flips s r4
    rw [toksOf, List.flatMap_cons, List.flatMap_cons, Doc.toks_segs]
    simp only [segEnd, Seg.toks, List.nil_append, List.append_assoc]
    conv => lhs; rw [h1, h2]
    exact (Flips.refl _).append ((Flips.refl _).append h3)
  | fallback s t r o m r1 x hs ht hc ho hcl hx hl hst e ih1 ih2 =>
    rw [e]
    refine DestsEnd.append ?_ ih2
    refine (other_dests s x).flips ?_
    rw [toksOf, Doc.toks_segs]
    exact docB_flips _ _
  | other s t r hs ht hc ho hst e ih =>
    rw [e]
    refine DestsEnd.append ?_ ih
    refine (other_dests s _).flips ?_
    rw [toksOf, Doc.toks_segs]
    exact docB_flips _ _

theorem top_dests (ts : List Token) : DestsEnd (topB ts).segs [] := by
  have hnil : ∀ ts, (docB [] ts).2 = [] := docB_nil
  have key : ∀ ts, DestsEnd (segStart .Document [] :: ((docB [] ts).1.segs ++ [segEnd .Document []])) [] := by
    intro ts
    have := doc_dests [] ts
    rw [hnil] at this
    exact .other (by simp [segStart]) (this.append (.other (by simp [segEnd]) trivial))
  unfold topB
  split
  · rename_i d r h
    exact (delim_dests (by rw [(delimB_ok h).1]; decide)).append (key r)
  · exact key ts

theorem DestsEnd.split : ∀ {l1 : List Seg} {s l rest}, DestsEnd (l1 ++ s :: l) rest → s.kind = .Start .Destination →
    ∃ v e l2, l = v :: e :: l2 ∧ v.skip = [] ∧ v.kind = .Value ∧ e.kind = .End .Destination ∧
      DestinationEnds v.own (toksOf l2 ++ rest)
  | [], _, _, _, h, hk => h.1 hk
  | _ :: l1, _, _, _, h, hk => DestsEnd.split (l1 := l1) h.2 hk

theorem zip_split {α β : Type} : ∀ {a : List α} {b : List β} {l1 x l2}, a.length = b.length →
    a.zip b = l1 ++ x :: l2 → ∃ a1 a2 b1 b2, a = a1 ++ x.1 :: a2 ∧ b = b1 ++ x.2 :: b2 ∧ a1.length = b1.length ∧
      l2 = a2.zip b2 ∧ a2.length = b2.length
  | [], _, l1, x, l2, _, h => by cases l1 <;> simp at h
  | _ :: _, [], _, _, _, hl, _ => by simp at hl
  | p :: a, q :: b, [], x, l2, hl, h => by
    simp only [List.zip_cons_cons, List.nil_append, List.cons.injEq] at h
    obtain ⟨rfl, rfl⟩ := h
    exact ⟨[], a, [], b, rfl, rfl, rfl, rfl, by simpa using hl⟩
  | p :: a, q :: b, y :: l1, x, l2, hl, h => by
    simp only [List.zip_cons_cons, List.cons_append, List.cons.injEq] at h
    obtain ⟨a1, a2, b1, b2, rfl, rfl, h3, h4, h5⟩ := zip_split (by simpa using hl) h.2
    exact ⟨p :: a1, a2, q :: b1, b2, rfl, rfl, by simp [h3], h4, h5⟩

theorem zip_flips : ∀ {segs : List Seg} {ss : List (List Token × List Token)}, segs.length = ss.length →
    (∀ x ∈ segs.zip ss, Flips x.2.1 x.1.skip ∧ Flips x.2.2 x.1.own) →
    Flips (ss.flatMap (fun x => x.1 ++ x.2)) (toksOf segs)
  | [], [], _, _ => .nil
  | [], _ :: _, h, _ => by simp at h
  | _ :: _, [], h, _ => by simp at h
  | g :: segs, x :: ss, hl, h => by
    have h0 := h (g, x) (by simp)
    rw [List.flatMap_cons, toksOf, List.flatMap_cons]
    exact (h0.1.append h0.2).append (zip_flips (by simpa using hl) (fun y hy => h y (by simp [hy])))

theorem zip_skip {input : Str} : ∀ {l2 : List Seg} {b2 : List (List Token × List Token)}, l2.length = b2.length →
    ((l2.zip b2).map (fun x => (Seg.op input x.1, x.2))).flatMap (fun x => x.2.1 ++ x.2.2)
      = b2.flatMap (fun x => x.1 ++ x.2)
  | [], [], _ => rfl
  | [], _ :: _, h => by simp at h
  | _ :: _, [], h => by simp at h
  | g :: l2, x :: b, h => by
    have := zip_skip (input := input) (l2 := l2) (b2 := b) (by simpa using h)
    simp only [List.zip_cons_cons, List.map_cons, List.flatMap_cons, this]

/-- The destinations of `parse`, with the tokens of the source distributed over the ops. -/
theorem parse_dests (input : Str) :
    ∃ ops ss, parse input = .ok ops ∧ Segmentation input (tokens input) ops ss ∧
      ∀ l1 s l, ops.zip ss = l1 ++ s :: l → s.1.kind = .Start .Destination →
        ∃ v e l2, l = v :: e :: l2 ∧ v.1.kind = .Value ∧ e.1.kind = .End .Destination ∧
          DestinationEnds v.2.2 (l2.flatMap (fun x => x.2.1 ++ x.2.2)) := by
  have hp := parse_eq input
  rw [Top.ops_segs] at hp
  have hw := walk_top (tokens input)
  have hf := top_flips (tokens input)
  have hd := top_dests (tokens input)
  rw [← Top.toks_segs] at hf
  generalize (topB (tokens input)).segs = segs at hp hf hw hd
  obtain ⟨ss, h1, -, -, h4⟩ := segmentation_of hw hf
  refine ⟨_, ss, hp, h1, ?_⟩
  intro l1 s l he hk
  have hlen : segs.length = ss.length := by have := h1.length; simpa using this.symm
  rw [zip_map_left] at he
  obtain ⟨m1, m2', e1, e2, e3⟩ := List.map_eq_append_iff.1 he
  obtain ⟨g, m2, e4, e5, e6⟩ := List.map_eq_cons_iff.1 e3
  subst e4
  obtain ⟨a1, a2, b1, b2, rfl, rfl, h5, rfl, h7⟩ := zip_split hlen e1
  rw [← e5] at hk
  obtain ⟨v, e, l2, rfl, h8, h9, h10, h11⟩ := hd.split hk
  obtain ⟨xv, b2, rfl⟩ : ∃ x b, b2 = x :: b := by
    cases b2 with
    | nil => simp at h7
    | cons x b => exact ⟨x, b, rfl⟩
  obtain ⟨xe, b2, rfl⟩ : ∃ x b, b2 = x :: b := by
    cases b2 with
    | nil => simp at h7
    | cons x b => exact ⟨x, b, rfl⟩
  simp only [List.zip_cons_cons, List.map_cons] at e6
  refine ⟨_, _, _, e6.symm, h9, h10, ?_⟩
  have hz : ∀ y ∈ (v, xv) :: (e, xe) :: l2.zip b2, Flips y.2.1 y.1.skip ∧ Flips y.2.2 y.1.own := by
    intro y hy
    apply h4
    rw [e1]
    simp only [List.zip_cons_cons, List.mem_append, List.mem_cons]
    simp only [List.mem_cons] at hy
    tauto
  have hv := (hz (v, xv) (by simp)).2
  have hl2 : l2.length = b2.length := by simpa using h7
  have hr := zip_flips hl2 (fun y hy => hz y (by simp [hy]))
  rw [zip_skip hl2]
  simp only [List.append_nil] at h11
  exact (destEnds_flips hv hr).2 h11

end Yamd.Ref
