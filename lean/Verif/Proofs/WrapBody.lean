import Verif.Proofs.WrapClose

/-!
# The closing line of a collapsible after a document (C66): documents

A settled document read with a line break and `%}` behind it denotes the same and leaves the `%}` (and, unless the
last block takes it, the line break).
-/

namespace Yamd.Ref

open Yamd Yamd.Spec Yamd.Round

/-- A document read with the closing line behind it. -/
def ShutDoc (e c : Token) (R : List Token) (src : Str) (x y : Doc × List Token) : Prop :=
  (x.2 ≠ [] ∧ y.2 = x.2 ++ e :: c :: R ∨ x.2 = [] ∧ (y.2 = e :: c :: R ∨ y.2 = c :: R)) ∧
    y.1.denote src = x.1.denote src

theorem ShutDoc.cons {e c R src d r d' r'} {f g : Doc → Doc}
    (hf : ∀ a b : Doc, a.denote src = b.denote src → (g a).denote src = (f b).denote src)
    (h : ShutDoc e c R src (d, r) (d', r')) : ShutDoc e c R src (f d, r) (g d', r') :=
  ⟨h.1, hf _ _ h.2⟩

theorem docB_shut {e c : Token} {R : List Token} (he : e.kind = .Eol) (hcb : isBang1 c = false) (src : Str)
    (S : List Stop) (ts : List Token) : stopAt S (e :: c :: R) = true → stopAt S (c :: R) = true → Placed src ts →
    settledBlocks ((docB S ts).1.denote src) = true →
    ShutDoc e c R src (docB S ts) (docB S (ts ++ e :: c :: R)) := by
  induction S, ts using docB_ind with
  | stop s ts h eq =>
    intro hS hS2 hp hs
    rw [eq]
    cases ts with
    | nil => rw [List.nil_append, docB_stop hS]; exact ⟨.inr ⟨rfl, .inl rfl⟩, rfl⟩
    | cons t r =>
      rw [docB_stop (by rw [stopAt_more_e he (by simp)]; exact h)]
      exact ⟨.inl ⟨by simp, rfl⟩, rfl⟩
  | term s t r hs ht eq ih =>
    intro hS hS2 hp hst
    rw [eq] at hst ⊢
    rw [List.cons_append, docB_term (by rw [stopAt_cons_etail he]; exact hs) ht]
    exact (ih hS hS2 hp.tail hst).cons (f := fun d => .term t d) (g := fun d => .term t d)
      (fun a b h => by simpa [Doc.denote] using h)
  | code s t r b rest hs ht hc eq ih =>
    intro hS hS2 hp hst
    rw [eq] at hst ⊢
    simp only [Doc.denote] at hst
    have tk := codeB_toks hc
    have hp' : Placed src rest := by rw [tk] at hp; exact hp.right
    obtain ⟨y, hy, hsh⟩ := codeB_emore (src := src) (c := c) (R := R) he hp.1 hc
    rw [List.cons_append, docB_code (by rw [stopAt_cons_etail he]; exact hs) (by simpa [tokenIs] using ht) hy]
    rcases hsh with rfl | ⟨h1, h2, h3⟩
    · simp only [mapE]
      exact (ih hS hS2 hp' (settledBlocks_cons hst).2).cons (f := fun d => .block b d) (g := fun d => .block b d)
        (fun a b' h => by simp [Doc.denote, h])
    · simp only at h1 h3
      subst h1
      rw [h2, docB_stop hS2, docB_stop (ts := []) rfl]
      exact ⟨.inr ⟨rfl, .inr rfl⟩, by simp [Doc.denote, h3]⟩
  | coll s t r o m r1 d r4 hs ht hc ho hcl eq ih1 ih2 =>
    intro hS hS2 hp hst
    rw [eq] at hst ⊢
    simp only [Doc.denote] at hst
    obtain ⟨h1, h2⟩ := settledBlocks_cons hst
    rw [settledBlock] at h1
    obtain ⟨tk, ol, hcs⟩ := collOpenB_toks ho
    have hp1 : Placed src r1 := by rw [tk] at hp; exact hp.right.right
    have hp2 : Placed src r4 := by
      have := (hp1.flips (docB_flips (.CollapsibleEnd :: s) r1)).right
      rw [skipEolB_toks (docB (.CollapsibleEnd :: s) r1).2, collCloseB_toks hcl] at this
      exact this.right.right
    have i1 := ih1 (stop_more _ hS) (stop_more _ hS2) hp1 h1
    have hne : (skipEolB (docB (.CollapsibleEnd :: s) r1).2).2 ≠ [] := by
      intro h0
      rw [h0] at hcl
      simp [collCloseB, tokenIs] at hcl
    have hne' : (docB (.CollapsibleEnd :: s) r1).2 ≠ [] := by
      intro h0
      rw [h0] at hne
      simp [skipEolB, tokenIs] at hne
    have i2 : (docB (.CollapsibleEnd :: s) (r1 ++ e :: c :: R)).2 =
        (docB (.CollapsibleEnd :: s) r1).2 ++ e :: c :: R := by
      rcases i1.1 with h | h
      · exact h.2
      · exact absurd h.1 hne'
    have hcode : codeB s (t :: (r ++ e :: c :: R)) = none := by
      refine codeB_head ?_
      simp only [tokenIs, List.getElem?_cons_zero, isCollapsibleStart, Bool.and_eq_true, decide_eq_true_eq] at hcs
      simp [isBacktick3, hcs.1]
    obtain ⟨d', r4', hcl', hor⟩ := collCloseB_emore (c := c) (R := R) he hcl
    have hcl2 : collCloseB (skipEolB (docB (.CollapsibleEnd :: s) (r1 ++ e :: c :: R)).2).2 = some (d', r4') := by
      rw [i2, skipEolB_left hne']
      exact hcl'
    have := docB_coll (stops := s) (ts := t :: (r ++ e :: c :: R)) (by rw [stopAt_cons_etail he]; exact hs)
      (by simpa [tokenIs] using ht) hcode (collOpenB_emore he ho) hcl2
    rw [List.cons_append, this]
    rcases hor with ⟨rfl, rfl⟩ | ⟨rfl, rfl⟩
    · exact (ih2 hS hS2 hp2 h2).cons (f := fun d => .coll o m _ _ _ d) (g := fun d => .coll o m _ _ _ d)
        (fun a b h => by simp [Doc.denote, h, i1.2])
    · rw [docB_stop hS2, docB_stop (ts := []) rfl]
      exact ⟨.inr ⟨rfl, .inr rfl⟩, by simp [Doc.denote, i1.2]⟩
  | fallback s t r o m r1 x hs ht hc ho hcl hx hl hst eq ih1 ih2 =>
    intro hS hS2 hp hset
    exfalso
    rw [eq] at hset
    simp only [Doc.denote] at hset
    have h1 := (settledBlocks_cons hset).1
    obtain ⟨tk, ol, hcs⟩ := collOpenB_toks ho
    match o, ol with
    | [a, b], _ =>
      have ha : a = t := by simp at tk; exact tk.1.symm
      subst ha
      simp only [List.cons_append, flipHead] at hx
      subst hx
      have hop : opensBlock (sliceD src a) = true := hp.2 a (by simp) (by
        simp only [tokenIs, List.getElem?_cons_zero] at hcs
        simp [opener, hcs])
      rw [other_text (t := { a with kind := .Literal }) (.inl rfl) hop hst] at h1
      simp at h1
  | other s t r hs ht hc ho hst eq ih =>
    intro hS hS2 hp hset
    rw [eq] at hset
    simp only [Doc.denote] at hset
    obtain ⟨h1, h2⟩ := settledBlocks_cons hset
    cases hcs : isCollapsibleStart t with
    | true =>
      exfalso
      have hop : opensBlock (sliceD src t) = true := hp.2 t (by simp) (by simp [opener, hcs])
      have hk : t.kind = .CollapsibleStart := by
        simp only [isCollapsibleStart, Bool.and_eq_true, decide_eq_true_eq] at hcs; exact hcs.1
      unfold flipOpen at h1 hst
      split at h1
      · rename_i hf
        rw [if_pos hf] at hst
        rw [flipHead] at h1 hst
        rw [other_text (t := { t with kind := .Literal }) (.inl rfl) hop hst] at h1
        simp at h1
      · rename_i hf
        rw [if_neg hf] at hst
        rw [other_text (.inr hk) hop hst] at h1
        simp at h1
    | false =>
      have hf : ∀ r, flipOpen (t :: r) = t :: r := by
        intro r; unfold flipOpen; simp [tokenIs, hcs]
      rw [hf] at eq h1 h2 hst ih
      have hcode : codeB s (t :: (r ++ e :: c :: R)) = none ∧
          Shut e c R src (otherB s (t :: r)) (otherB s (t :: (r ++ e :: c :: R))) := by
        cases hem : embedB s (t :: r) with
        | some x =>
          have hlc : isLeftCurly2 t = true := by
            by_contra hcon
            rw [embedB_head (by simpa using hcon)] at hem; simp at hem
          have hk : t.kind = .LeftCurlyBrace := by
            simp only [isLeftCurly2, Bool.and_eq_true, decide_eq_true_eq] at hlc; exact hlc.1.1
          refine ⟨codeB_head (by simp [isBacktick3, hk]), ?_⟩
          unfold otherB
          obtain ⟨y, hy, hsh⟩ := embedB_emore (src := src) (c := c) (R := R) he hem
          rw [List.cons_append] at hy
          rw [hy, hem]
          exact hsh
        | none =>
          cases hh : highlightB s (t :: r) with
          | some x =>
            have hlc : isTwoBangs t = true := by
              by_contra hcon
              rw [highlightB_head (by simpa using hcon)] at hh; simp at hh
            have hk : t.kind = .Bang := by
              simp only [isTwoBangs, Bool.and_eq_true, decide_eq_true_eq] at hlc; exact hlc.1.1
            refine ⟨codeB_head (by simp [isBacktick3, hk]), ?_⟩
            unfold otherB
            obtain ⟨y, hy, hsh⟩ := highlightB_emore (src := src) he hS hh
            rw [List.cons_append] at hy
            rw [hem, hh, embedB_head (by simp [isLeftCurly2, hk]), hy]
            exact hsh
          | none =>
            cases hop : opener t with
            | true =>
              exfalso
              have hq := quiet_of (t := t) (.inl hop)
              unfold otherB at h1
              rw [hem, hh] at h1
              obtain ⟨mo, re, eq⟩ := hq.leaf hst
              simp only at h1
              rw [eq] at h1
              simp only [Block.denote, paraDenote, List.map_cons, Inl.denote, settledBlock] at h1
              have := opens_append (b := textOfToks src mo) (hp.2 t (by simp) hop)
              rw [show textOfToks src (t :: mo) = sliceD src t ++ textOfToks src mo from rfl, this] at h1
              simp at h1
            | false =>
              simp only [opener, Bool.or_eq_false_iff] at hop
              refine ⟨codeB_head hop.1.1.1, ?_⟩
              unfold otherB
              rw [hem, hh, embedB_head hop.1.2, highlightB_head hop.1.1.2]
              exact leafB_emore he (stop_more _ hS) (stop_more _ hS2) hcb (t :: r)
      have tk := otherB_toks s (t :: r)
      have hp' : Placed src (otherB s (t :: r)).2 := by rw [tk] at hp; exact hp.right
      rw [List.cons_append, docB_other (by rw [stopAt_cons_etail he]; exact hs) (by simpa [tokenIs] using ht)
        hcode.1 (by simpa [tokenIs] using hcs), eq]
      rcases hcode.2 with hy | ⟨g1, g2, g3⟩
      · rw [hy]
        simp only [mapE]
        exact (ih hS hS2 hp' h2).cons (f := fun d => .block _ d) (g := fun d => .block _ d)
          (fun a b' h => by simp [Doc.denote, h])
      · rw [g1, g2, docB_stop hS2, docB_stop (ts := []) rfl]
        exact ⟨.inr ⟨rfl, .inr rfl⟩, by simp [Doc.denote, g3]⟩

end Yamd.Ref
