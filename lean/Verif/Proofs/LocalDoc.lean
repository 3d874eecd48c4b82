import Verif.Proofs.Local
import Verif.Proofs.NaturalOps
import Verif.Spec.Local

/-!
# Text after a blank line does not change what was read before it (C49): documents
-/

namespace Yamd.Ref

open Yamd Yamd.Spec Yamd.Round

/-- A token that may open a block other than those ending at a blank line. -/
def opener (t : Token) : Bool := isBacktick3 t || isTwoBangs t || isLeftCurly2 t || isCollapsibleStart t

/-- The tokens of a text: line breaks are in front of first columns, opening marks are what they are. -/
def Placed (src : Str) (ts : List Token) : Prop :=
  Cols ts ∧ ∀ t ∈ ts, opener t = true → opensBlock (sliceD src t) = true

theorem Placed.right {src a b} (h : Placed src (a ++ b)) : Placed src b :=
  ⟨h.1.right, fun t ht => h.2 t (by simp [ht])⟩

theorem Placed.tail {src t r} (h : Placed src (t :: r)) : Placed src r := Placed.right (a := [t]) h

theorem Placed.flips {src a b} (h : Placed src a) (hf : Flips a b) : Placed src b := by
  refine ⟨hf.cols h.1, fun t ht ho => ?_⟩
  obtain ⟨u, hu, hr⟩ := hf.mem_left t ht
  rcases hr with rfl | ⟨-, rfl⟩
  · exact h.2 _ hu ho
  · simp [opener, isBacktick3, isTwoBangs, isLeftCurly2, isCollapsibleStart] at ho

/-- A token that can neither start inline content nor a block that ends at a blank line. -/
structure NoOpen (t : Token) : Prop where
  tilde : isTilde2 t = false
  under : isUnderscore t = false
  star1 : isStar1 t = false
  star2 : isStar2 t = false
  tick1 : isBacktick1 t = false
  brack : isLeftBracket t = false
  bang1 : isBang1 t = false
  dash5 : isDash5 t = false
  hash : isHash t = false
  mark : ∀ k, isListMarker k t = false
  space : t.kind ≠ .Space

theorem listMarker_kind {t : Token} (h : t.kind ≠ .Minus) (h2 : t.kind ≠ .Plus) (k : Option ListKind) :
    isListMarker k t = false := by
  unfold isListMarker
  have : ListKind.tryFrom t = none := by
    unfold ListKind.tryFrom
    split <;> simp_all
  simp only [this]

theorem quiet_of {t : Token} (h : opener t = true ∨ t.kind = .Literal ∨ t.kind = .CollapsibleStart) : NoOpen t := by
  have key : t.kind ≠ .Tilde ∧ t.kind ≠ .Underscore ∧ t.kind ≠ .Star ∧ t.kind ≠ .LeftSquareBracket ∧
      t.kind ≠ .Minus ∧ t.kind ≠ .Hash ∧ t.kind ≠ .Plus ∧ t.kind ≠ .Space ∧
      (t.kind = .Backtick → t.len = 3) ∧ (t.kind = .Bang → t.len = 2) := by
    simp only [opener, isBacktick3, isTwoBangs, isLeftCurly2, isCollapsibleStart, Bool.or_eq_true, Bool.and_eq_true,
      decide_eq_true_eq] at h
    rcases h with (((h | h) | h) | h) | h | h
    · rw [h.1.1]; simp [h.2]
    · rw [h.1.1]; simp [h.2]
    · rw [h.1.1]; simp
    · rw [h.1]; simp
    · rw [h]; simp
    · rw [h]; simp
  obtain ⟨k1, k2, k3, k4, k5, k6, k7, k8, k9, k10⟩ := key
  constructor
  · simp [isTilde2, k1]
  · simp [isUnderscore, k2]
  · simp [isStar1, k3]
  · simp [isStar2, k3]
  · simp only [isBacktick1, Bool.and_eq_false_iff, decide_eq_false_iff_not]
    by_cases hk : t.kind = .Backtick
    · right; rw [k9 hk]; decide
    · left; exact hk
  · simp [isLeftBracket, k4]
  · simp only [isBang1, Bool.and_eq_false_iff, decide_eq_false_iff_not]
    by_cases hk : t.kind = .Bang
    · right; rw [k10 hk]; decide
    · left; exact hk
  · simp [isDash5, k5]
  · simp [isHash, k6]
  · exact listMarker_kind k5 k7
  · exact k8

theorem NoOpen.inline {t : Token} (h : NoOpen t) (S : List Stop) (r : List Token) : inlineB S (t :: r) = none := by
  have d : ∀ {o c : Token → Bool} {n}, o t = false → delimB o c n S (t :: r) = none := by
    intro o c n ho; simp [delimB, ho]
  unfold inlineB strikeB italicB linkB titleB codeSpanB emphasisB boldB
  simp only [d h.tilde, d h.under, d h.brack, d h.tick1, d h.star1, h.star2]
  rfl

theorem paraB_acc (S : List Stop) (acc ts : List Token) : acc ≠ [] →
    ∃ more rest, (paraB S acc ts).1 = .text (acc ++ more) :: rest := by
  induction acc, ts using paraB_ind S with
  | stop acc ts hs => intro ha; rw [paraB_stop hs]; exact ⟨[], [], by simp [ha]⟩
  | some acc t r x r' hs hx ih => intro ha; rw [paraB_some hs hx]; exact ⟨[], x :: (paraB S [] r').1, by simp [ha]⟩
  | none acc t r hs hx ih =>
    intro _
    rw [paraB_none hs hx]
    obtain ⟨m, rest, e⟩ := ih (by simp)
    exact ⟨t :: m, rest, by rw [e]; simp⟩

/-- Such a token starts a paragraph of plain text. -/
theorem NoOpen.leaf {t : Token} (h : NoOpen t) {S : List Stop} {r : List Token} (hs : stopAt S (t :: r) = false) :
    ∃ more rest, (leafB S (t :: r)).1 = .para (.text (t :: more) :: rest) := by
  have hm : markerB 0 none (t :: r) = none := by
    unfold markerB
    simp [tokenIs, h.mark]
  have hi : imageB S (t :: r) = none := by unfold imageB; simp [h.bang1]
  unfold leafB
  rw [itemsB_none hm, imagesB_none hi, hs]
  simp only [Bool.false_eq_true, if_false]
  have ht : thematicB (t :: r) = none := by simp [thematicB, h.dash5]
  have hh : headingB S (t :: r) = none := by unfold headingB; simp [tokenIs, h.hash]
  rw [ht, hh]
  simp only
  rw [paraB_none hs (h.inline S r), List.nil_append]
  obtain ⟨m, rest, e⟩ := paraB_acc S [t] r (by simp)
  exact ⟨m, rest, by rw [e]; simp⟩

theorem embedB_head {S t r} (h : isLeftCurly2 t = false) : embedB S (t :: r) = none := by
  unfold embedB; simp [h]

theorem highlightB_head {S t r} (h : isTwoBangs t = false) : highlightB S (t :: r) = none := by
  unfold highlightB; simp [tokenIs, h]

theorem codeB_head {S t r} (h : isBacktick3 t = false) : codeB S (t :: r) = none := by
  unfold codeB; simp [h]

theorem opens_append {a b : Str} (h : opensBlock a = true) : opensBlock (a ++ b) = true := by
  simp only [opensBlock, List.any_eq_true] at h ⊢
  obtain ⟨o, ho, hp⟩ := h
  refine ⟨o, ho, ?_⟩
  rw [List.isPrefixOf_iff_prefix] at hp ⊢
  exact hp.trans (List.prefix_append a b)

/-- A token which is not the start of an embed or a highlight and starts no leaf: a paragraph. -/
theorem other_text {src S t r} (h : t.kind = .Literal ∨ t.kind = .CollapsibleStart)
    (ho : opensBlock (sliceD src t) = true) (hs : stopAt (.Terminator :: S) (t :: r) = false) :
    settledBlock ((otherB S (t :: r)).1.denote src) = false := by
  have hq := quiet_of (t := t) (.inr h)
  have e1 : embedB S (t :: r) = none := embedB_head (by rcases h with h | h <;> simp [isLeftCurly2, h])
  have e2 : highlightB S (t :: r) = none := highlightB_head (by rcases h with h | h <;> simp [isTwoBangs, h])
  unfold otherB
  rw [e1, e2]
  simp only
  obtain ⟨m, rest, e⟩ := hq.leaf hs
  rw [e]
  simp only [Block.denote, paraDenote, List.map_cons, Inl.denote, settledBlock, Bool.not_eq_false']
  exact opens_append (b := textOfToks src m) ho

theorem Cols.break_within : ∀ {r : List Token} {c}, Cols r → c ∈ r → col0 c = true → tokenIs r 0 col0 = false →
    ∃ t ∈ r, isEolOrTerminator t = true
  | [], _, _, hc, _, _ => by cases hc
  | [a], c, _, hc, h0, h1 => by
    simp only [List.mem_singleton] at hc
    subst hc
    simp [tokenIs, h0] at h1
  | a :: b :: r, c, hr, hc, h0, h1 => by
    cases hb : col0 b with
    | true => exact ⟨a, by simp, hr.1.2 hb⟩
    | false =>
      rcases List.mem_cons.1 hc with rfl | hc
      · simp [tokenIs, h0] at h1
      · obtain ⟨t, ht, h⟩ := Cols.break_within (r := b :: r) hr.2 hc h0 (by simpa [tokenIs] using hb)
        exact ⟨t, List.mem_cons_of_mem _ ht, h⟩

section
variable {T : Token} {B : List Token} (hT : T.kind = .Terminator)
include hT

theorem codeB_more {S t r x} (hc : Cols (t :: r)) (h : codeB S (t :: r) = some x) :
    codeB S (t :: (r ++ T :: B)) = some (mapE (T :: B) x) := by
  have he : isEol T = false := by simp [isEol, hT]
  unfold codeB at h ⊢
  simp only at h ⊢
  rw [tokenIs_ext0 he]
  split at h
  · rename_i ho
    rw [if_pos ho]
    split at h
    · rename_i h1
      have hl := tokenIs_length h1
      rw [if_pos h1, List.take_append_of_le_length (by omega), List.drop_append_of_le_length (by omega)]
      exact codeRestB_more hT h
    · rename_i h1
      rw [if_neg h1]
      have hne : r ≠ [] := by
        rintro rfl
        simp [optModB, modifierB, tokenIs, untilB, codeRestB] at h
      rw [optModB_more hT hne]
      · exact codeRestB_more hT h
      · intro hm h0
        have e : optModB [] r = (none, r) := by unfold optModB; rw [hm]
        rw [e] at h
        unfold codeRestB at h
        cases hu : untilB [] isBacktick3 r with
        | none => rw [hu] at h; simp at h
        | some y =>
          obtain ⟨b, c, r'⟩ := y
          have h2 := untilB_mem hu
          have hmem : c ∈ r := by rw [untilB_length hu]; simp
          simp only [isBacktick3, Bool.and_eq_true] at h2
          exact hc.tail.break_within hmem h2.1.2 h0
  · simp at h

theorem collOpenB_more {S ts o m r} (h : collOpenB S ts = some (o, m, r)) :
    collOpenB S (ts ++ T :: B) = some (o, m, r ++ T :: B) := by
  unfold collOpenB at h ⊢
  rw [tokenIs_ext1 (by simp [isCollapsibleStart, hT]) (by simp [isSpaceOrEol, hT])]
  split at h
  · rename_i hh
    rw [if_pos hh]
    rw [Bool.and_eq_true] at hh
    have hl := tokenIs_length hh.2
    rw [List.take_append_of_le_length (by omega), List.drop_append_of_le_length (by omega)]
    split at h
    · rename_i hc
      have hne : ts.drop 2 ≠ [] := by
        intro e
        rw [e] at hc
        simp [optModB, modifierB, tokenIs, untilB] at hc
      rw [optModB_more hT hne]
      · have hc' : tokenIs (mapE (T :: B) (optModB S (ts.drop 2))).2 0 col0 = true := tokenIs_more _ hc
        rw [if_pos hc']
        simp only [Option.some.injEq, Prod.mk.injEq] at h
        obtain ⟨rfl, rfl, rfl⟩ := h
        rfl
      · intro hm h0
        have e : optModB S (ts.drop 2) = (none, ts.drop 2) := by unfold optModB; rw [hm]
        rw [e] at hc
        rw [h0] at hc
        simp at hc
    · simp at h
  · simp at h

theorem skipEolB_tail (ts : List Token) : skipEolB (ts ++ T :: B) = mapE (T :: B) (skipEolB ts) := by
  unfold skipEolB
  rw [tokenIs_ext0 (by simp [isEol, hT])]
  split
  · rename_i h
    have := tokenIs_length h
    rw [List.take_append_of_le_length (by omega), List.drop_append_of_le_length (by omega)]
    rfl
  · rfl

theorem collCloseB_more {ts c r} (h : collCloseB ts = some (c, r)) :
    collCloseB (ts ++ T :: B) = some (c, r ++ T :: B) := by
  have he : isEol T = false := by simp [isEol, hT]
  unfold collCloseB at h ⊢
  split at h
  · rename_i h0
    have hl := tokenIs_length h0
    rw [if_pos (tokenIs_more _ h0), tokenIs_tail he (by omega)]
    split at h
    · rename_i h1
      have hl := tokenIs_length h1
      rw [if_pos h1, List.take_append_of_le_length (by omega), List.drop_append_of_le_length (by omega)]
      simp only [Option.some.injEq, Prod.mk.injEq] at h
      obtain ⟨rfl, rfl⟩ := h
      rfl
    · rename_i h1
      rw [if_neg h1, List.take_append_of_le_length (by omega), List.drop_append_of_le_length (by omega)]
      simp only [Option.some.injEq, Prod.mk.injEq] at h
      obtain ⟨rfl, rfl⟩ := h
      rfl
  · simp at h

end

/-- One document behind another. -/
def Doc.append : Doc → Doc → Doc
  | .nil, e => e
  | .term t r, e => .term t (r.append e)
  | .block b r, e => .block b (r.append e)
  | .coll o m i s c r, e => .coll o m i s c (r.append e)

theorem Doc.denote_append (src : Str) (e : Doc) : ∀ d : Doc, (d.append e).denote src = d.denote src ++ e.denote src
  | .nil => rfl
  | .term t r => by simp [Doc.append, Doc.denote, denote_append src e r]
  | .block b r => by simp [Doc.append, Doc.denote, denote_append src e r]
  | .coll o m i s c r => by simp [Doc.append, Doc.denote, denote_append src e r]

/-- A document read before a blank line, and the rest. -/
def joinE (S : List Stop) (T : Token) (B : List Token) (x : Doc × List Token) : Doc × List Token :=
  if x.2 = [] then (x.1.append (.term T (docB S B).1), (docB S B).2) else (x.1, x.2 ++ T :: B)

theorem joinE_cons {S T B d r} (f : Doc → Doc) (hf : ∀ e x, f (Doc.append e x) = (f e).append x) :
    joinE S T B (f d, r) = (f (joinE S T B (d, r)).1, (joinE S T B (d, r)).2) := by
  unfold joinE
  split
  · simp [hf]
  · rfl

theorem settledBlocks_cons {n : YamdNode} {r : List YamdNode} (h : settledBlocks (n :: r) = true) :
    settledBlock n = true ∧ settledBlocks r = true := by
  rw [settledBlocks, Bool.and_eq_true] at h; exact h

/-- A settled document read up to a blank line reads the same when more text follows. -/
theorem docB_local {T : Token} {B : List Token} (hT : T.kind = .Terminator) (src : Str) (S : List Stop)
    (ts : List Token) : DStops S → Placed src ts → settledBlocks ((docB S ts).1.denote src) = true →
    docB S (ts ++ T :: B) = joinE S T B (docB S ts) := by
  induction S, ts using docB_ind with
  | stop s ts h e =>
    intro hd hp hs
    rw [e]
    cases ts with
    | nil => rw [List.nil_append, docB_term (stop_term hd hT) (by simp [isTerminator, hT])]; rfl
    | cons t r => rw [docB_stop (by rw [stopAt_more hT (by simp)]; exact h)]; rfl
  | term s t r hs ht e ih =>
    intro hd hp hst
    rw [e] at hst ⊢
    rw [List.cons_append, docB_term (by rw [stopAt_cons_tail hT]; exact hs) ht, ih hd hp.tail hst,
      joinE_cons (fun d => .term t d) (fun _ _ => rfl)]
  | code s t r b rest hs ht hc e ih =>
    intro hd hp hst
    rw [e] at hst ⊢
    simp only [Doc.denote] at hst
    have tk := codeB_toks hc
    have hp' : Placed src rest := by rw [tk] at hp; exact hp.right
    rw [List.cons_append, docB_code (by rw [stopAt_cons_tail hT]; exact hs) (by simpa [tokenIs] using ht)
      (codeB_more hT hp.1 hc), joinE_cons (fun d => .block b d) (fun _ _ => rfl)]
    simp only [mapE]
    rw [ih hd hp' (settledBlocks_cons hst).2]
  | coll s t r o m r1 c r4 hs ht hc ho hcl e ih1 ih2 =>
    intro hd hp hst
    rw [e] at hst ⊢
    simp only [Doc.denote] at hst
    obtain ⟨h1, h2⟩ := settledBlocks_cons hst
    rw [settledBlock] at h1
    obtain ⟨tk, ol, hcs⟩ := collOpenB_toks ho
    have hp1 : Placed src r1 := by rw [tk] at hp; exact hp.right.right
    have hp2 : Placed src r4 := by
      have := (hp1.flips (docB_flips (.CollapsibleEnd :: s) r1)).right
      rw [skipEolB_toks (docB (.CollapsibleEnd :: s) r1).2, collCloseB_toks hcl] at this
      exact this.right.right
    have i1 := ih1 hd.coll hp1 h1
    have hne : (docB (.CollapsibleEnd :: s) r1).2 ≠ [] := by
      intro h0
      rw [h0] at hcl
      simp [skipEolB, collCloseB, tokenIs] at hcl
    rw [joinE, if_neg hne] at i1
    have hcode : codeB s (t :: (r ++ T :: B)) = none := by
      refine codeB_head ?_
      simp only [tokenIs, List.getElem?_cons_zero, isCollapsibleStart, Bool.and_eq_true, decide_eq_true_eq] at hcs
      simp [isBacktick3, hcs.1]
    have hcl' : collCloseB (skipEolB (docB (.CollapsibleEnd :: s) (r1 ++ T :: B)).2).2 = some (c, r4 ++ T :: B) := by
      rw [i1]
      simp only
      rw [skipEolB_tail hT]
      simp only [mapE]
      exact collCloseB_more hT hcl
    have := docB_coll (stops := s) (ts := t :: (r ++ T :: B)) (by rw [stopAt_cons_tail hT]; exact hs)
      (by simpa [tokenIs] using ht) hcode (collOpenB_more hT ho) hcl'
    rw [List.cons_append, this, joinE_cons (fun d => .coll o m _ _ c d) (fun _ _ => rfl), i1]
    simp only
    rw [skipEolB_tail hT, ih2 hd hp2 h2]
    rfl
  | fallback s t r o m r1 x hs ht hc ho hcl hx hl hst e ih1 ih2 =>
    intro hd hp hset
    exfalso
    rw [e] at hset
    simp only [Doc.denote] at hset
    have h1 := (settledBlocks_cons hset).1
    obtain ⟨tk, ol, hcs⟩ := collOpenB_toks ho
    match o, ol with
    | [a, b], _ =>
      have ha : a = t := by simp at tk; exact tk.1.symm
      subst ha
      simp only [List.cons_append, flipHead] at hx
      subst hx
      have hop : opensBlock (sliceD src a) = true := hp.2 a (by simp) (by
        simp only [tokenIs, List.getElem?_cons_zero] at hcs
        simp [opener, hcs])
      rw [other_text (t := { a with kind := .Literal }) (.inl rfl) hop hst] at h1
      simp at h1
  | other s t r hs ht hc ho hst e ih =>
    intro hd hp hset
    rw [e] at hset
    simp only [Doc.denote] at hset
    obtain ⟨h1, h2⟩ := settledBlocks_cons hset
    cases hcs : isCollapsibleStart t with
    | true =>
      exfalso
      have hop : opensBlock (sliceD src t) = true := hp.2 t (by simp) (by simp [opener, hcs])
      have hk : t.kind = .CollapsibleStart := by
        simp only [isCollapsibleStart, Bool.and_eq_true, decide_eq_true_eq] at hcs; exact hcs.1
      unfold flipOpen at h1 hst
      split at h1
      · rename_i hf
        rw [if_pos hf] at hst
        rw [flipHead] at h1 hst
        rw [other_text (t := { t with kind := .Literal }) (.inl rfl) hop hst] at h1
        simp at h1
      · rename_i hf
        rw [if_neg hf] at hst
        rw [other_text (.inr hk) hop hst] at h1
        simp at h1
    | false =>
      have hf : ∀ r, flipOpen (t :: r) = t :: r := by
        intro r; unfold flipOpen; simp [tokenIs, hcs]
      rw [hf] at e h1 h2 hst ih
      have hcode : codeB s (t :: (r ++ T :: B)) = none ∧ otherB s (t :: (r ++ T :: B)) = mapE (T :: B) (otherB s (t :: r)) := by
        cases he : embedB s (t :: r) with
        | some x =>
          have hlc : isLeftCurly2 t = true := by
            by_contra hcon
            rw [embedB_head (by simpa using hcon)] at he; simp at he
          have hk : t.kind = .LeftCurlyBrace := by
            simp only [isLeftCurly2, Bool.and_eq_true, decide_eq_true_eq] at hlc; exact hlc.1.1
          refine ⟨codeB_head (by simp [isBacktick3, hk]), ?_⟩
          unfold otherB
          have := embedB_more (B := B) hT he
          rw [List.cons_append] at this
          rw [this, he]
        | none =>
          cases hh : highlightB s (t :: r) with
          | some x =>
            have hlc : isTwoBangs t = true := by
              by_contra hcon
              rw [highlightB_head (by simpa using hcon)] at hh; simp at hh
            have hk : t.kind = .Bang := by
              simp only [isTwoBangs, Bool.and_eq_true, decide_eq_true_eq] at hlc; exact hlc.1.1
            refine ⟨codeB_head (by simp [isBacktick3, hk]), ?_⟩
            unfold otherB
            have := highlightB_more (B := B) hT hh
            rw [List.cons_append] at this
            rw [embedB_head (by simp [isLeftCurly2, hk]), this, he, hh]
          | none =>
            cases hop : opener t with
            | true =>
              exfalso
              have hq := quiet_of (t := t) (.inl hop)
              unfold otherB at h1
              rw [he, hh] at h1
              obtain ⟨mo, re, eq⟩ := hq.leaf hst
              simp only at h1
              rw [eq] at h1
              simp only [Block.denote, paraDenote, List.map_cons, Inl.denote, settledBlock] at h1
              have := opens_append (b := textOfToks src mo) (hp.2 t (by simp) hop)
              rw [show textOfToks src (t :: mo) = sliceD src t ++ textOfToks src mo from rfl, this] at h1
              simp at h1
            | false =>
              simp only [opener, Bool.or_eq_false_iff] at hop
              refine ⟨codeB_head hop.1.1.1, ?_⟩
              unfold otherB
              rw [embedB_head hop.1.2, highlightB_head hop.1.1.2, he, hh]
              exact leafB_tail hT (by simp) (t :: r)
      have tk := otherB_toks s (t :: r)
      have hp' : Placed src (otherB s (t :: r)).2 := by rw [tk] at hp; exact hp.right
      rw [List.cons_append, docB_other (by rw [stopAt_cons_tail hT]; exact hs) (by simpa [tokenIs] using ht)
        hcode.1 (by simpa [tokenIs] using hcs), hcode.2, e, joinE_cons (fun d => .block _ d) (fun _ _ => rfl)]
      simp only [mapE]
      rw [ih hd hp' h2]

end Yamd.Ref
