import Verif.Proofs.Layout
import Verif.Proofs.Dest

/-!
# The layout of documents, along the ops
-/

namespace Yamd.Ref

open Yamd Yamd.Spec

/-! ### What may follow a list directly -/

/-- The tokens start like an item marker. -/
def ListFront : List Token → Prop
  | [] => False
  | t :: _ => t.kind = .Space ∨ (t.kind = .Minus ∧ t.len = 1) ∨ (t.kind = .Plus ∧ t.len = 1)

theorem marker_front {k t} (h : isListMarker k t = true) :
    (t.kind = .Minus ∧ t.len = 1) ∨ (t.kind = .Plus ∧ t.len = 1) := by
  have key : ∀ {x}, ListKind.tryFrom t = some x →
      (t.kind = .Minus ∧ t.len = 1) ∨ (t.kind = .Plus ∧ t.len = 1) := by
    intro x hx
    unfold ListKind.tryFrom at hx
    split at hx
    · rename_i h; exact .inl h
    · split at hx
      · rename_i h; exact .inr h
      · cases hx
  unfold isListMarker at h
  cases hx : ListKind.tryFrom t with
  | some x => exact key hx
  | none => rw [hx] at h; cases k <;> simp at h

theorem boundary_front {level kind t r} (h : stopHere t r (.ListBoundary level kind) = true) : ListFront (t :: r) := by
  simp only [stopHere, Bool.and_eq_true, List.any_eq_true] at h
  obtain ⟨-, l, -, h⟩ := h
  unfold boundaryHere at h
  simp only at h
  split at h
  · simp only [Bool.and_eq_true, tokenIs_zero] at h
    exact .inr (marker_front h.1.2)
  · simp only [Bool.and_eq_true, tokenIs_zero, decide_eq_true_eq] at h
    exact .inl h.1.1.2.1

theorem items_front (stops : List Stop) (level want ts) :
    (itemsB stops level want ts).1 ≠ .nil →
      stopAt stops (itemsB stops level want ts).2 = true ∨ ListFront (itemsB stops level want ts).2 := by
  induction level, want, ts using itemsB_ind stops with
  | none level want ts h => intro hn; rw [itemsB_none h] at hn; exact absurd rfl hn
  | some level want ts k m r h ih1 ih2 =>
    intro _
    rw [itemsB_some h]
    have hp : stopAt (.ListBoundary level k :: stops) (itemPara stops level k r).2 = true := paraB_rest _ _
    have h1 : stopAt stops (itemPara stops level k r).2 = true ∨ ListFront (itemPara stops level k r).2 := by
      cases hr : (itemPara stops level k r).2 with
      | nil => exact .inl rfl
      | cons t r' =>
        rw [hr] at hp
        simp only [stopAt, List.any_cons, Bool.or_eq_true] at hp
        rcases hp with hp | hp
        · exact .inr (boundary_front hp)
        · exact .inl hp
    have h2 : stopAt stops (itemNested stops level (itemPara stops level k r).2).2 = true ∨
        ListFront (itemNested stops level (itemPara stops level k r).2).2 := by
      unfold itemNested
      split
      · exact h1
      · by_cases hn : (itemsB stops (level + 1) none (itemPara stops level k r).2).1 = .nil
        · cases hm : markerB (level + 1) none (itemPara stops level k r).2 with
          | none => rw [itemsB_none hm]; exact h1
          | some x =>
            obtain ⟨k', m', r'⟩ := x
            rw [itemsB_some hm] at hn; cases hn
        · exact ih1 hn
    simp only
    by_cases hn : (itemsB stops level (some k) (itemNested stops level (itemPara stops level k r).2).2).1 = .nil
    · cases hm : markerB level (some k) (itemNested stops level (itemPara stops level k r).2).2 with
      | none => rw [itemsB_none hm]; exact h2
      | some x =>
        obtain ⟨k', m', r'⟩ := x
        rw [itemsB_some hm] at hn; cases hn
    · exact ih2 hn

def Block.isList : Block → Bool
  | .list _ => true
  | _ => false

def Block.isPara : Block → Bool
  | .para _ => true
  | _ => false

theorem listFront_block {stops t r} (h : ListFront (t :: r)) :
    codeB stops (t :: r) = none ∧ collOpenB stops (t :: r) = none ∧ flipOpen (t :: r) = t :: r ∧
      ((otherB stops (t :: r)).1.isList = true ∨ (otherB stops (t :: r)).1.isPara = true) := by
  have hk : t.kind = .Space ∨ t.kind = .Minus ∨ t.kind = .Plus := by
    rcases h with h | h | h
    · exact .inl h
    · exact .inr (.inl h.1)
    · exact .inr (.inr h.1)
  have hb : isBacktick3 t = false := by rcases hk with hk | hk | hk <;> simp [isBacktick3, hk]
  have hcs : isCollapsibleStart t = false := by rcases hk with hk | hk | hk <;> simp [isCollapsibleStart, hk]
  have hlc : isLeftCurly2 t = false := by rcases hk with hk | hk | hk <;> simp [isLeftCurly2, hk]
  have h2b : isTwoBangs t = false := by rcases hk with hk | hk | hk <;> simp [isTwoBangs, hk]
  have h1b : isBang1 t = false := by rcases hk with hk | hk | hk <;> simp [isBang1, hk]
  have hh : isHash t = false := by rcases hk with hk | hk | hk <;> simp [isHash, hk]
  have h5 : isDash5 t = false := by
    rcases h with h | h | h
    · simp [isDash5, h]
    · simp [isDash5, h.2]
    · simp [isDash5, h.1]
  refine ⟨by simp [codeB, hb], by simp [collOpenB, tokenIs_zero, hcs], by simp [flipOpen, tokenIs_zero, hcs], ?_⟩
  have e : otherB stops (t :: r) = leafB (.Terminator :: stops) (t :: r) := by
    simp [otherB, embedB, hlc, highlightB, tokenIs_zero, h2b]
  rw [e]
  rcases leafB_cases (.Terminator :: stops) (t :: r) with ⟨k, m, p, n, r', rest, h1, h2⟩ | ⟨i, l, r', h1, h2⟩ | h | h | h
  · rw [h2]; exact .inl rfl
  · rw [imagesB_none (by simp [imageB, h1b])] at h1
    split at h1 <;> simp at h1
  · simp [thematicB, h5] at h
  · simp [headingB, tokenIs_zero, hh] at h
  · rw [h]; exact .inr rfl

/-! ### The layout of a document -/

/-- What may stand directly after a block. -/
def NextOk (b : Block) (d : Doc) : Prop :=
  match d with
  | .nil | .term _ _ => True
  | .block b' _ => b.isText = false ∧ (b.isList = true → b'.isList = true ∨ b'.isPara = true)
  | .coll _ _ _ _ _ _ => b.isText = false ∧ b.isList = false

def Doc.Lay : Doc → List Token → Prop
  | .nil, _ => True
  | .term _ d, rest => d.Lay rest
  | .block b d, rest => b.Lay (d.toks ++ rest) ∧ NextOk b d ∧ d.Lay rest
  | .coll o m i s c d, rest => OpensWith o m ∧ i.Lay (s ++ (c ++ (d.toks ++ rest))) ∧ d.Lay rest

theorem ImgsLay.flips {a b} (h : Flips a b) : ∀ {l}, ImgsLay l a → ImgsLay l b
  | [], _ => trivial
  | _ :: _, hl => ⟨((Flips.refl _).append ((Flips.refl _).append h)).front hl.1, ImgsLay.flips h hl.2⟩

theorem Block.Lay.flips {a b} (h : Flips a b) : ∀ {x : Block}, x.Lay a → x.Lay b
  | .code .., hl => ⟨hl.1, hl.2.imp id h.front⟩
  | .embed .., hl => hl.imp id h.front
  | .highlight .., hl => hl
  | .images _, hl => ImgsLay.flips h hl
  | .list _, _ => trivial
  | .thematic _, _ => trivial
  | .heading .., _ => trivial
  | .para _, _ => trivial

theorem Doc.Lay.flips : ∀ {d : Doc} {a b}, Flips a b → d.Lay a → d.Lay b
  | .nil, _, _, _, _ => trivial
  | .term _ d, _, _, h, hl => Doc.Lay.flips (d := d) h hl
  | .block _ d, _, _, h, hl =>
    ⟨hl.1.flips ((Flips.refl _).append h), hl.2.1, Doc.Lay.flips (d := d) h hl.2.2⟩
  | .coll _ _ i _ _ d, _, _, h, hl =>
    ⟨hl.1, Doc.Lay.flips (d := i) ((Flips.refl _).append ((Flips.refl _).append ((Flips.refl _).append h))) hl.2.1,
      Doc.Lay.flips (d := d) h hl.2.2⟩

theorem collOpenB_lay {stops ts o m r} (h : collOpenB stops ts = some (o, m, r)) (hc : Cols ts) : OpensWith o m := by
  unfold collOpenB at h
  split at h
  · rename_i hh
    match ts, hc with
    | [], _ => simp [tokenIs] at hh
    | [_], _ => simp [tokenIs] at hh
    | t :: u :: r', hc =>
      have e0 : tokenIs (t :: u :: r') 0 isCollapsibleStart = isCollapsibleStart t := rfl
      have e1 : tokenIs (t :: u :: r') 1 isSpaceOrEol = isSpaceOrEol u := rfl
      rw [e0, e1] at hh
      simp only [Bool.and_eq_true] at hh
      have ht : isEolOrTerminator t = false := by
        have := hh.1
        simp only [isCollapsibleStart, Bool.and_eq_true, decide_eq_true_eq] at this
        exact kind_noBreak this.1 (by decide) (by decide)
      simp only [List.drop_succ_cons, List.drop_zero, List.take_succ_cons, List.take_zero] at h
      split at h
      · rename_i hcol
        simp only [Option.some.injEq, Prod.mk.injEq] at h
        obtain ⟨rfl, rfl, rfl⟩ := h
        simp only [OpensWith, List.any_cons, eol_false ht, List.any_nil, Bool.or_false, Bool.false_or]
        have hu : isSpaceOrEol u = true := hh.2
        simp only [isSpaceOrEol, Bool.or_eq_true, decide_eq_true_eq] at hu
        rcases hu with hu | hu
        · have hub : isEolOrTerminator u = false := kind_noBreak hu (by decide) (by decide)
          simp only [eol_false hub, iff_true]
          cases hm : (optModB stops r').1 with
          | some m => rfl
          | none =>
            rw [(optModB_none hm).1, tokenIs_col hc.2 hub] at hcol
            cases hcol
        · have hue : isEol u = true := by simp [isEol, hu]
          have hub : isEolOrTerminator u = true := by simp [isEolOrTerminator, hu]
          simp only [hue, reduceCtorEq, iff_false, Bool.not_eq_true, Option.isSome_eq_false_iff, Option.isNone_iff_eq_none]
          unfold optModB modifierB
          cases r' with
          | nil => rfl
          | cons v r' =>
            rw [tokenIs_zero, hc.2.1.1 hub]; rfl
      · cases h
  · cases h

theorem next_ok {s : List Stop} {b : Block} {rest : List Token}
    (h1 : b.isText = true → stopAt (.Terminator :: s) rest = true)
    (h2 : b.isList = true → stopAt (.Terminator :: s) rest = true ∨ ListFront rest) : NextOk b (docB s rest).1 := by
  have key : stopAt (.Terminator :: s) rest = true → NextOk b (docB s rest).1 := by
    intro hs
    cases h0 : stopAt s rest with
    | true => rw [docB_stop h0]; trivial
    | false =>
      cases rest with
      | nil => simp [stopAt] at h0
      | cons t r =>
        have ht : isTerminator t = true := by
          simp only [stopAt, List.any_cons, Bool.or_eq_true] at hs h0
          rcases hs with hs | hs
          · exact hs
          · rw [h0] at hs; cases hs
        rw [docB.eq_def, if_neg (by simp [h0])]
        simp only [ht, if_true]
        trivial
  cases hs : stopAt (.Terminator :: s) rest with
  | true => exact key hs
  | false =>
    have ht : b.isText = false := by
      cases h : b.isText with
      | false => rfl
      | true => rw [h1 h] at hs; cases hs
    cases hl : b.isList with
    | false =>
      cases (docB s rest).1 with
      | nil => trivial
      | term _ _ => trivial
      | block _ _ => exact ⟨ht, fun h => by rw [hl] at h; cases h⟩
      | coll _ _ _ _ _ _ => exact ⟨ht, hl⟩
    | true =>
      rcases h2 hl with h | h
      · rw [h] at hs; cases hs
      · cases rest with
        | nil => exact absurd h id
        | cons t r =>
          obtain ⟨a1, a2, a3, a4⟩ := listFront_block (stops := s) h
          rw [docB.eq_def]
          split
          · trivial
          · simp only
            split
            · trivial
            · rw [a1, a2]
              simp only [a3]
              split
              · exact ⟨ht, fun _ => a4⟩
              · trivial

theorem leafB_list (stops : List Stop) (ts : List Token) (h : (leafB stops ts).1.isList = true) :
    stopAt stops (leafB stops ts).2 = true ∨ ListFront (leafB stops ts).2 := by
  rcases leafB_cases stops ts with ⟨k, m, p, n, r, rest, h1, h2⟩ | ⟨i, l, r, h1, h2⟩ | h' | h' | h'
  · rw [h2]
    have := items_front stops 0 none ts (by rw [h1]; simp)
    rw [h1] at this; exact this
  · rw [h2] at h; cases h
  · cases ts with
    | nil => simp [thematicB] at h'
    | cons t ts =>
      rw [thematicB] at h'
      split at h'
      · simp only [Option.some.injEq] at h'
        rw [← h'] at h; cases h
      · cases h'
  · unfold headingB at h'
    split at h'
    · simp only [Option.some.injEq] at h'
      rw [← h'] at h; cases h
    · cases h'
  · rw [h'] at h; cases h

theorem otherB_list (stops : List Stop) (ts : List Token) (h : (otherB stops ts).1.isList = true) :
    stopAt (.Terminator :: stops) (otherB stops ts).2 = true ∨ ListFront (otherB stops ts).2 := by
  rcases otherB_cases stops ts with h' | h' | h'
  · exfalso
    cases ts with
    | nil => simp [embedB] at h'
    | cons t ts =>
      unfold embedB at h'
      simp only at h'
      split at h'
      · split at h'
        · cases h'
        · split at h'
          · cases h'
          · simp only [Option.map_eq_some_iff] at h'
            obtain ⟨y, -, h2⟩ := h'
            rw [← h2] at h; cases h
      · cases h'
  · exfalso
    have key : ∀ {o m r x}, hlRestB stops o m r = some x → x.1.isList = false := by
      intro o m r x hx
      unfold hlRestB at hx
      simp only at hx
      split at hx
      · simp only [Option.map_eq_some_iff] at hx
        obtain ⟨y, -, h2⟩ := hx
        rw [← h2]; rfl
      · cases hx
    unfold highlightB at h'
    split at h'
    · split at h'
      all_goals rw [key h'] at h; cases h
    · cases h'
  · rw [h'] at h ⊢; exact leafB_list _ _ h

theorem codeB_code {stops ts b rest} (h : codeB stops ts = some (b, rest)) : b.isText = false ∧ b.isList = false := by
  have key : ∀ {o m r}, codeRestB stops o m r = some (b, rest) → b.isText = false ∧ b.isList = false := by
    intro o m r hx
    unfold codeRestB at hx
    split at hx
    · cases hx
    · simp only [Option.map_eq_some_iff] at hx
      obtain ⟨y, -, h2⟩ := hx
      simp only [Prod.mk.injEq] at h2
      rw [← h2.1]; exact ⟨rfl, rfl⟩
  unfold codeB at h
  split at h
  · cases h
  · split at h
    · split at h <;> exact key h
    · cases h

theorem docB_lay (s : List Stop) (ts : List Token) : Cols ts → (docB s ts).1.Lay (docB s ts).2 := by
  induction s, ts using docB_ind with
  | stop s ts h e => intro _; rw [e]; trivial
  | term s t r hs ht e ih => intro hc; rw [e]; exact ih hc.tail
  | code s t r b rest hs ht hcode e ih =>
    intro hc
    rw [e]
    have hc' : Cols rest := by rw [codeB_toks hcode] at hc; exact hc.right
    obtain ⟨n1, n2⟩ := codeB_code hcode
    exact ⟨(codeB_lay hcode hc).flips (docB_flips s rest),
      next_ok (fun h => by rw [n1] at h; cases h) (fun h => by rw [n2] at h; cases h), ih hc'⟩
  | coll s t r o m r1 c r4 hs ht hcode ho hcl e ih1 ih2 =>
    intro hc
    rw [e]
    have h0 := (collOpenB_toks ho).1
    have hc1 : Cols r1 := by
      have := hc
      rw [h0] at this
      exact this.right.right
    have h1 := skipEolB_toks (docB (.CollapsibleEnd :: s) r1).2
    have h2 := collCloseB_toks hcl
    have hc2 : Cols (docB (.CollapsibleEnd :: s) r1).2 := ((docB_flips _ r1).cols hc1).right
    have hc4 : Cols r4 := by
      have := hc2
      rw [h1, h2] at this
      exact this.right.right
    refine ⟨collOpenB_lay ho hc, ?_, ih2 hc4⟩
    have := ih1 hc1
    refine this.flips ?_
    conv => lhs; rw [h1, h2]
    exact (Flips.refl _).append ((Flips.refl _).append (docB_flips s r4))
  | fallback s t r o m r1 x hs ht hcode ho hcl hx hl hst e ih1 ih2 =>
    intro hc
    rw [e]
    obtain ⟨h0, h1, h2⟩ := collOpenB_toks ho
    have hfx : Flips (t :: r) x := by
      have f1 : Flips (t :: r) (o ++ (modToks m ++ ((docB (.CollapsibleEnd :: s) r1).1.toks ++
            (docB (.CollapsibleEnd :: s) r1).2))) := by
        rw [h0]
        exact (Flips.refl _).append ((Flips.refl _).append (docB_flips _ r1))
      rw [hx]
      match o, h1 with
      | [a, b], _ =>
        simp only [List.cons_append, List.cons.injEq] at h0
        rw [tokenIs_zero] at h2
        simp only [isCollapsibleStart, Bool.and_eq_true, decide_eq_true_eq] at h2
        exact f1.trans (flips_flipHead (by rw [← h0.1]; exact h2.1))
    have hcx : Cols x := hfx.cols hc
    have hcr : Cols (otherB s x).2 := by
      have := hcx
      rw [otherB_toks s x] at this
      exact this.right
    obtain ⟨l1, l2⟩ := otherB_lay s x hcx
    exact ⟨l1.flips (docB_flips s _), next_ok l2 (otherB_list s x), ih2 hcr⟩
  | other s t r hs ht hcode ho hst e ih =>
    intro hc
    rw [e]
    have hcx : Cols (flipOpen (t :: r)) := (flips_flipOpen _).cols hc
    have hcr : Cols (otherB s (flipOpen (t :: r))).2 := by
      have := hcx
      rw [otherB_toks s (flipOpen (t :: r))] at this
      exact this.right
    obtain ⟨l1, l2⟩ := otherB_lay s _ hcx
    exact ⟨l1.flips (docB_flips s _), next_ok l2 (otherB_list s _), ih hcr⟩

end Yamd.Ref
