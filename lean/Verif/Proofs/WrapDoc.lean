import Verif.Proofs.Narrow
import Verif.Proofs.BlockLeft

/-!
# A document read inside a collapsible (C66): tokens

A document whose blocks contain no line starting with `%}` reads the same with the end of a collapsible as
a stop condition.
-/

namespace Yamd.Ref

open Yamd Yamd.Spec Yamd.Round

/-- The stop condition of a collapsible. -/
abbrev W : List Stop := [.CollapsibleEnd]

theorem stopW {t : Token} {r : List Token} : stopAt W (t :: r) =
    (isCollapsibleEnd t || (isEol t && tokenIs r 0 isCollapsibleEnd)) := by
  simp only [stopAt, W, List.any_cons, List.any_nil, Bool.or_false, stopHere, isCollapsibleEnd, isEol]
  rfl

theorem stopW_kind {t : Token} {r : List Token} (h1 : t.kind ≠ .CollapsibleEnd) (h2 : t.kind ≠ .Eol) :
    stopAt W (t :: r) = false := by
  rw [stopW]; simp [isCollapsibleEnd, isEol, h1, h2]

theorem free_unstopped : ∀ {a rest : List Token}, (∀ t ∈ a, isCollapsibleEnd t = false) →
    tokenIs rest 0 isCollapsibleEnd = false → Unstopped W a rest
  | [], _, _, _ => trivial
  | t :: a, rest, h, hr => by
    refine ⟨?_, free_unstopped (fun u hu => h u (by simp [hu])) hr⟩
    rw [stopW, h t (by simp)]
    cases a with
    | nil => rw [List.nil_append, hr]; simp
    | cons u a =>
      have : tokenIs (u :: a ++ rest) 0 isCollapsibleEnd = isCollapsibleEnd u := rfl
      rw [this, h u (by simp)]; simp

theorem agree_free {S : List Stop} : ∀ {a : List Token}, (∀ t ∈ a, isCollapsibleEnd t = false) → Agree S (S ++ W) a
  | [], _ => trivial
  | t :: a, h => by
    refine ⟨?_, agree_free fun u hu => h u (by simp [hu])⟩
    have hu := (free_unstopped (a := t :: a) (rest := []) h rfl).1
    rw [List.append_nil] at hu
    simp only [stopAt, List.any_append] at hu ⊢
    rw [hu]; simp

section
variable {S S' : List Stop} (hS : S ⊆ S')
include hS

theorem itemsB_narrow (level : Nat) (want : Option ListKind) (ts : List Token) :
    Unstopped S' (itemsB S level want ts).1.toks (itemsB S level want ts).2 →
    itemsB S' level want ts = itemsB S level want ts := by
  induction level, want, ts using itemsB_ind S with
  | none level want ts hm => intro _; rw [itemsB_none hm, itemsB_none hm]
  | some level want ts k m r hm ih1 ih2 =>
    intro hu
    rw [itemsB_some hm] at hu ⊢
    simp only [Items.toks] at hu
    generalize hp : itemPara S level k r = p at hu ih1 ih2 ⊢
    have hn0 := itemsB_toks (stops := S) (level := level + 1) (want := none) _ (Nat.le_refl p.2.length)
    have hntk : p.2 = (itemNested S level p.2).1.toks ++ (itemNested S level p.2).2 := by
      unfold itemNested
      split
      · rfl
      · exact hn0
    generalize hn : itemNested S level p.2 = n at hu ih2 hntk ⊢
    have hitk := itemsB_toks (stops := S) (level := level) (want := some k) _ (Nat.le_refl n.2.length)
    generalize hi : itemsB S level (some k) n.2 = i at hu ih2 hitk ⊢
    have hu1 := hu.right
    have hup : Unstopped S' (paraToks p.1) p.2 := by
      have := hu1.left
      rwa [show n.1.toks ++ i.1.toks ++ i.2 = p.2 by rw [hntk, hitk]; simp] at this
    have hun : Unstopped S' n.1.toks n.2 := by
      have := hu1.right.left
      rwa [← hitk] at this
    have hp' : itemPara S' level k r = p := by
      rw [← hp] at hup ⊢
      have hext := (paraB_extent (.ListBoundary level k :: S) r).2
      exact paraB_narrow (S := .ListBoundary level k :: S) (cons_sub hS _) (unstopped_cons (hext.sub (by simp)) hup)
    have hn' : itemNested S' level p.2 = n := by
      rw [← hn] at hun ⊢
      unfold itemNested at hun ⊢
      cases hs : stopAt S p.2 with
      | true => rw [stopAt_up hS hs]; simp
      | false =>
        rw [hs] at hun
        simp only [Bool.false_eq_true, if_false] at hun ⊢
        have e := ih1 hun
        cases hs' : stopAt S' p.2 with
        | false => simp only [Bool.false_eq_true, if_false]; exact e
        | true =>
          simp only [if_true]
          by_cases hz : (itemsB S (level + 1) none p.2).1.toks = []
          · cases hm2 : markerB (level + 1) none p.2 with
            | none => rw [itemsB_none hm2]
            | some y =>
              obtain ⟨k2, m2, r2⟩ := y
              rw [itemsB_some hm2] at hz
              have := (markerB_toks hm2).2
              simp only [Items.toks, List.append_eq_nil_iff] at hz
              rw [hz.1] at this
              simp at this
          · have := hun.head hz
            rw [← hn0, hs'] at this
            simp at this
    rw [itemsB_some hm, hp', hn', ih2 hu1.right.right, hp, hn, hi]

end

theorem Items.Ok.noTerm : ∀ {i : Items} {level want}, i.Ok level want → NoTerm i.toks
  | .nil, _, _, _ => NoTerm.nil
  | .cons _ _ _ _ _, _, _, h => h.2.1.noTerm.append (h.2.2.1.2.2.append (h.2.2.2.1.noTerm.append h.2.2.2.2.noTerm))

theorem imagesB_rest {S : List Stop} (ts : List Token) : ∀ {l r}, imagesB S ts = some (l, r) → stopAt S r = true := by
  induction ts using imagesB_ind S with
  | none ts h =>
    intro l r hh
    rw [imagesB_none h] at hh
    split at hh
    · rename_i hs
      simp only [Option.some.injEq, Prod.mk.injEq] at hh
      rw [← hh.2]; exact hs
    · simp at hh
  | some ts i r h ih =>
    intro l r' hh
    rw [imagesB_some h] at hh
    simp only [Option.map_eq_some_iff] at hh
    obtain ⟨⟨l', r''⟩, h1, h2⟩ := hh
    simp only [Prod.mk.injEq] at h2
    rw [← h2.2]
    exact ih h1

/-- A leaf without the closing mark of a collapsible at the start of a line. -/
theorem leafB_within {t : Token} {r : List Token}
    (hf : ∀ u ∈ (leafB [.Terminator] (t :: r)).1.toks, isCollapsibleEnd u = false)
    (hr : tokenIs (leafB [.Terminator] (t :: r)).2 0 isCollapsibleEnd = false) :
    leafB [.Terminator, .CollapsibleEnd] (t :: r) = leafB [.Terminator] (t :: r) := by
  have htk := leafB_toks [.Terminator] (t :: r)
  have hun := free_unstopped hf hr
  have key : stopAt [.Terminator] (leafB [.Terminator] (t :: r)).2 = true →
      leafB [.Terminator, .CollapsibleEnd] (t :: r) = leafB [.Terminator] (t :: r) := by
    intro hst
    generalize hx : leafB [.Terminator] (t :: r) = x at htk hf hst
    obtain ⟨b, rest⟩ := x
    simp only at htk hf hst
    cases rest with
    | nil =>
      rw [List.append_nil] at htk
      rw [← hx]
      rw [← htk] at hf
      exact leafB_agree (S' := [.Terminator] ++ W) (agree_free hf)
    | cons T B =>
      have hT : T.kind = .Terminator := by
        simpa [stopAt, stopHere] using hst
      rw [← hx, htk, leafB_tail hT (by simp), leafB_tail hT (by simp),
        show ([.Terminator, .CollapsibleEnd] : List Stop) = [.Terminator] ++ W from rfl, leafB_agree (agree_free hf)]
  rcases leafB_cases [.Terminator] (t :: r) with ⟨k, m, p, n, q, rest, h1, h2⟩ | ⟨i, l, q, h1, h2⟩ | h | h | h
  · have hu2 : Unstopped [.Terminator, .CollapsibleEnd] (Items.cons k m p n q).toks rest := by
      rw [h2] at hun
      refine unstopped_cons ?_ hun
      have hok := (itemsB_ok (stops := [.Terminator]) (by simp) 0 none (t :: r))
      rw [h1] at hok
      have : NoTerm (Items.cons k m p n q).toks := hok.noTerm
      clear h1 h2 hun hf hr key htk hok
      generalize (Items.cons k m p n q).toks = a at this
      induction a with
      | nil => trivial
      | cons u a ih =>
        exact ⟨by simp [stopAt, stopHere, this u (by simp)], ih fun v hv => this v (by simp [hv])⟩
    have e := itemsB_narrow (S := [.Terminator]) (S' := [.Terminator, .CollapsibleEnd]) (by simp) 0 none (t :: r)
      (by rw [h1]; exact hu2)
    rw [h1] at e
    rw [h2]
    unfold leafB
    rw [e]
  · refine key ?_
    rw [h2]
    exact imagesB_rest _ h1
  · rw [thematicB] at h
    split at h
    · rename_i hd
      have hk : t.kind = .Minus ∧ t.len = 5 := by
        simp only [isDash5, Bool.and_eq_true, decide_eq_true_eq] at hd
        exact ⟨hd.1.1, hd.2⟩
      have hm : markerB 0 none (t :: r) = none := by
        unfold markerB
        simp [tokenIs, isListMarker, ListKind.tryFrom, hk.1, hk.2]
      have hi : ∀ S, imageB S (t :: r) = none := by intro S; unfold imageB; simp [isBang1, hk.1]
      have : ∀ S, leafB S (t :: r) = (.thematic t, r) := by
        intro S
        unfold leafB
        rw [itemsB_none hm, imagesB_none (hi S)]
        simp only [thematicB, hd, if_true]
        split <;> rename_i hh
        · split at hh <;> simp at hh
        · rfl
      rw [this, this]
    · cases h
  · refine key ?_
    unfold headingB at h
    split at h
    · simp only [Option.some.injEq] at h
      rw [← h]; exact headB_rest _ _
    · cases h
  · refine key ?_
    rw [h]; exact paraB_rest _ _

/-- Blocks without lines that start with `%}`, except in fenced code and in collapsibles with something
in them. -/
def Doc.Free : Doc → Prop
  | .nil => True
  | .term _ r => r.Free
  | .block b r => ((∃ o m x c, b = .code o m x c) ∨ ∀ t ∈ b.toks, isCollapsibleEnd t = false) ∧ r.Free
  | .coll _ _ i _ _ r => i ≠ .nil ∧ r.Free

theorem kind_of_coll {t : Token} (h : isCollapsibleStart t = true) : t.kind = .CollapsibleStart := by
  simp only [isCollapsibleStart, Bool.and_eq_true, decide_eq_true_eq] at h; exact h.1

theorem not_end {t : Token} (h : t.kind ≠ .CollapsibleEnd) : isCollapsibleEnd t = false := by
  simp [isCollapsibleEnd, h]

theorem collOpenB_within {t : Token} {r o m r1} (hc : Cols (t :: r)) (h : collOpenB [] (t :: r) = some (o, m, r1))
    (h1 : tokenIs r1 0 isCollapsibleEnd = false) : collOpenB W (t :: r) = some (o, m, r1) := by
  unfold collOpenB at h ⊢
  split at h
  · rename_i hh
    rw [if_pos hh]
    split at h
    · rename_i hcol
      simp only [Option.some.injEq, Prod.mk.injEq] at h
      obtain ⟨rfl, rfl, rfl⟩ := h
      have hcd : Cols ((t :: r).drop 2) := by
        have h := hc
        rw [← List.take_append_drop 2 (t :: r)] at h
        exact h.right
      have : optModB W ((t :: r).drop 2) = optModB [] ((t :: r).drop 2) := by
        refine optModB_narrow (by simp) (free_unstopped ?_ h1)
        have htk := optModB_toks [] ((t :: r).drop 2)
        have hok := optModB_ok [] ((t :: r).drop 2)
        have h0 : ∀ m, (optModB [] ((t :: r).drop 2)).1 = some m → tokenIs ((t :: r).drop 2) 0 col0 = false := by
          intro m hm
          unfold optModB modifierB at hm
          cases hq : tokenIs ((t :: r).drop 2) 0 col0 with
          | false => rfl
          | true => rw [hq] at hm; simp at hm
        generalize optModB [] ((t :: r).drop 2) = x at htk hok h0
        obtain ⟨m, q⟩ := x
        cases m with
        | none => simp [modToks]
        | some m =>
          have h0 := h0 m rfl
          simp only [modToks, ModOk, Mod.Ok] at htk hok ⊢
          intro u hu
          rcases List.mem_append.1 hu with hu | hu
          · cases hx : isCollapsibleEnd u with
            | false => rfl
            | true =>
              exfalso
              simp only [isCollapsibleEnd, Bool.and_eq_true] at hx
              have hcb : Cols m.body := by
                rw [htk, List.append_assoc] at hcd
                exact hcd.left
              have h00 : tokenIs m.body 0 col0 = false := by
                cases hb : m.body with
                | nil => rfl
                | cons v w => rw [htk, hb] at h0; exact h0
              obtain ⟨v, hv, he⟩ := hcb.break_within hu hx.2 h00
              rw [hok.2 v hv] at he
              simp at he
          · simp only [List.mem_singleton] at hu
            subst hu
            refine not_end fun hk => ?_
            have := hok.1
            simp [isEolOrTerminator, hk] at this
      rw [this, if_pos hcol]
    · simp at h
  · simp at h

theorem otherB_not_code (S : List Stop) (ts : List Token) {o m x c} : (otherB S ts).1 ≠ .code o m x c := by
  intro hb
  rcases otherB_cases S ts with h | h | h
  · generalize otherB S ts = y at hb h
    unfold embedB at h
    repeat' split at h
    all_goals first
      | (simp only [Option.map_eq_some_iff] at h; obtain ⟨z, -, rfl⟩ := h; simp at hb)
      | simp at h
  · generalize otherB S ts = y at hb h
    have hr : ∀ {o m r}, hlRestB S o m r ≠ some y := by
      intro o m r h
      unfold hlRestB at h
      simp only at h
      split at h
      · simp only [Option.map_eq_some_iff] at h
        obtain ⟨z, -, rfl⟩ := h
        simp at hb
      · simp at h
    unfold highlightB at h
    split at h
    · split at h
      · exact hr h
      · exact hr h
    · simp at h
  · rw [h] at hb
    rcases leafB_cases (.Terminator :: S) ts with ⟨k, m, p, n, q, rest, h1, h2⟩ | ⟨i, l, q, h1, h2⟩ | h2 | h2 | h2
    · rw [h2] at hb; simp at hb
    · rw [h2] at hb; simp at hb
    · cases ts with
      | nil => simp [thematicB] at h2
      | cons t r =>
        rw [thematicB] at h2
        split at h2
        · simp only [Option.some.injEq] at h2; rw [← h2] at hb; simp at hb
        · simp at h2
    · unfold headingB at h2
      split at h2
      · simp only [Option.some.injEq] at h2; rw [← h2] at hb; simp at hb
      · simp at h2
    · rw [h2] at hb; simp at hb

theorem w_twice : ∀ ts, stopAt (.CollapsibleEnd :: W) ts = stopAt W ts := by
  intro ts
  cases ts with
  | nil => rfl
  | cons t r => simp [stopAt, W]

/-- A document whose blocks have no line starting with `%}` reads the same inside a collapsible. -/
theorem docB_within (src : Str) (S : List Stop) (ts : List Token) : S = [] → Placed src ts →
    settledBlocks ((docB S ts).1.denote src) = true → (docB S ts).1.Free →
    docB W ts = docB [] ts ∧ tokenIs ts 0 isCollapsibleEnd = false := by
  induction S, ts using docB_ind with
  | stop s ts h e =>
    rintro rfl hp hs hf
    have : ts = [] := by rw [stopAt_none] at h; simpa using h
    subst this
    rw [e]
    exact ⟨docB_stop rfl, rfl⟩
  | term s t r hs ht e ih =>
    rintro rfl hp hst hf
    rw [e] at hst hf ⊢
    have hk : t.kind = .Terminator := by simpa [isTerminator] using ht
    obtain ⟨h1, h2⟩ := ih rfl hp.tail hst hf
    refine ⟨?_, by simp [tokenIs, not_end, hk]⟩
    rw [docB_term (stopW_kind (by simp [hk]) (by simp [hk])) ht, h1]
  | code s t r b rest hs ht hc e ih =>
    rintro rfl hp hst hf
    rw [e] at hst hf ⊢
    simp only [Doc.denote] at hst
    have tk := codeB_toks hc
    have hp' : Placed src rest := by rw [tk] at hp; exact hp.right
    obtain ⟨h1, h2⟩ := ih rfl hp' (settledBlocks_cons hst).2 hf.2
    have hk : t.kind = .Backtick := by
      by_contra hcon
      rw [codeB_head (by simp [isBacktick3, hcon])] at hc
      simp at hc
    refine ⟨?_, by simp [tokenIs, not_end, hk]⟩
    rw [docB_code (stopW_kind (by simp [hk]) (by simp [hk])) (by simpa [tokenIs] using ht)
      (codeB_narrow (by simp) hc), h1]
  | coll s t r o m r1 c r4 hs ht hc ho hcl e ih1 ih2 =>
    rintro rfl hp hst hf
    rw [e] at hst hf ⊢
    simp only [Doc.denote] at hst
    obtain ⟨hs1, hs2⟩ := settledBlocks_cons hst
    obtain ⟨tk, ol, hcs⟩ := collOpenB_toks ho
    have hp1 : Placed src r1 := by rw [tk] at hp; exact hp.right.right
    have hp2 : Placed src r4 := by
      have := (hp1.flips (docB_flips [.CollapsibleEnd] r1)).right
      rw [skipEolB_toks (docB [.CollapsibleEnd] r1).2, collCloseB_toks hcl] at this
      exact this.right.right
    obtain ⟨h1, h2⟩ := ih2 rfl hp2 hs2 hf.2
    have hk : t.kind = .CollapsibleStart := kind_of_coll (by simpa [tokenIs] using hcs)
    have hst1 : stopAt W r1 = false := by
      cases hx : stopAt W r1 with
      | false => rfl
      | true => exact absurd (by rw [docB_stop hx]) hf.1
    have hr1 : tokenIs r1 0 isCollapsibleEnd = false := by
      cases r1 with
      | nil => rfl
      | cons u q =>
        rw [stopW, Bool.or_eq_false_iff] at hst1
        simpa [tokenIs] using hst1.1
    refine ⟨?_, by simp [tokenIs, not_end, hk]⟩
    have hi : docB (.CollapsibleEnd :: W) r1 = docB W r1 := docB_agree W r1 w_twice
    have := docB_coll (stops := W) (ts := t :: r) (stopW_kind (by simp [hk]) (by simp [hk]))
      (by simpa [tokenIs] using ht) (codeB_head (by simp [isBacktick3, hk])) (collOpenB_within hp.1 ho hr1)
      (by rw [hi]; exact hcl)
    rw [this, hi, h1]
  | fallback s t r o m r1 x hs ht hc ho hcl hx hl hst e ih1 ih2 =>
    rintro rfl hp hset hf
    exfalso
    rw [e] at hset
    simp only [Doc.denote] at hset
    have h1 := (settledBlocks_cons hset).1
    obtain ⟨tk, ol, hcs⟩ := collOpenB_toks ho
    match o, ol with
    | [a, b], _ =>
      have ha : a = t := by simp at tk; exact tk.1.symm
      subst ha
      simp only [List.cons_append, flipHead] at hx
      subst hx
      have hop : opensBlock (sliceD src a) = true := hp.2 a (by simp) (by
        simp only [tokenIs, List.getElem?_cons_zero] at hcs
        simp [opener, hcs])
      rw [other_text (t := { a with kind := .Literal }) (.inl rfl) hop hst] at h1
      simp at h1
  | other s t r hs ht hc ho hst e ih =>
    rintro rfl hp hset hf
    rw [e] at hset hf
    simp only [Doc.denote] at hset
    obtain ⟨h1, h2⟩ := settledBlocks_cons hset
    cases hcs : isCollapsibleStart t with
    | true =>
      exfalso
      have hop : opensBlock (sliceD src t) = true := hp.2 t (by simp) (by simp [opener, hcs])
      have hk : t.kind = .CollapsibleStart := kind_of_coll hcs
      unfold flipOpen at h1 hst
      split at h1
      · rename_i hff
        rw [if_pos hff] at hst
        rw [flipHead] at h1 hst
        rw [other_text (t := { t with kind := .Literal }) (.inl rfl) hop hst] at h1
        simp at h1
      · rename_i hff
        rw [if_neg hff] at hst
        rw [other_text (.inr hk) hop hst] at h1
        simp at h1
    | false =>
      have hfo : flipOpen (t :: r) = t :: r := by
        unfold flipOpen; simp [tokenIs, hcs]
      rw [hfo] at e h1 h2 hst ih hf
      have tk := otherB_toks [] (t :: r)
      have hp' : Placed src (otherB [] (t :: r)).2 := by rw [tk] at hp; exact hp.right
      obtain ⟨i1, i2⟩ := ih rfl hp' h2 hf.2
      have hnc : ¬ ∃ o m x c, (otherB [] (t :: r)).1 = Block.code o m x c := by
        rintro ⟨o, m, x, c, hx⟩
        exact otherB_not_code [] (t :: r) hx
      have hfree : ∀ u ∈ (otherB [] (t :: r)).1.toks, isCollapsibleEnd u = false := by
        rcases hf.1 with h | h
        · exact absurd h hnc
        · exact h
      have hun := free_unstopped hfree i2
      have hne : (otherB [] (t :: r)).1.toks ≠ [] := by
        intro h0
        have := otherB_lt (stops := []) (ts := t :: r) hst
        rw [h0, List.nil_append] at tk
        have hl := congrArg List.length tk
        omega
      have hstop : stopAt W (t :: r) = false := by
        have := hun.head hne
        rwa [← tk] at this
      have hhead : isCollapsibleEnd t = false := by
        rw [stopW, Bool.or_eq_false_iff] at hstop
        exact hstop.1
      have hcode : codeB W (t :: r) = none ∧ otherB W (t :: r) = otherB [] (t :: r) := by
        cases he : embedB [] (t :: r) with
        | some x =>
          have hlc : isLeftCurly2 t = true := by
            by_contra hcon
            rw [embedB_head (by simpa using hcon)] at he; simp at he
          have hk : t.kind = .LeftCurlyBrace := by
            simp only [isLeftCurly2, Bool.and_eq_true, decide_eq_true_eq] at hlc; exact hlc.1.1
          refine ⟨codeB_head (by simp [isBacktick3, hk]), ?_⟩
          have eo : otherB [] (t :: r) = x := by unfold otherB; rw [he]
          rw [eo] at hun
          have := embedB_narrow (S' := W) (by simp) (b := x.1) (rest := x.2) he hun
          rw [eo]
          unfold otherB
          rw [this]
        | none =>
          cases hh : highlightB [] (t :: r) with
          | some x =>
            have hlc : isTwoBangs t = true := by
              by_contra hcon
              rw [highlightB_head (by simpa using hcon)] at hh; simp at hh
            have hk : t.kind = .Bang := by
              simp only [isTwoBangs, Bool.and_eq_true, decide_eq_true_eq] at hlc; exact hlc.1.1
            refine ⟨codeB_head (by simp [isBacktick3, hk]), ?_⟩
            have eo : otherB [] (t :: r) = x := by unfold otherB; rw [he, hh]
            rw [eo] at hun
            have := highlightB_narrow (S' := W) (by simp) (b := x.1) (rest := x.2) hh hun
            rw [eo]
            unfold otherB
            rw [embedB_head (by simp [isLeftCurly2, hk]), this]
          | none =>
            cases hop : opener t with
            | true =>
              exfalso
              have hq := quiet_of (t := t) (.inl hop)
              unfold otherB at h1
              rw [he, hh] at h1
              obtain ⟨mo, re, eq⟩ := hq.leaf hst
              simp only at h1
              rw [eq] at h1
              simp only [Block.denote, paraDenote, List.map_cons, Inl.denote, settledBlock] at h1
              have := opens_append (b := textOfToks src mo) (hp.2 t (by simp) hop)
              rw [show textOfToks src (t :: mo) = sliceD src t ++ textOfToks src mo from rfl, this] at h1
              simp at h1
            | false =>
              simp only [opener, Bool.or_eq_false_iff] at hop
              refine ⟨codeB_head hop.1.1.1, ?_⟩
              have eo : otherB [] (t :: r) = leafB [.Terminator] (t :: r) := by unfold otherB; rw [he, hh]
              rw [eo] at hfree i2 ⊢
              unfold otherB
              rw [embedB_head hop.1.2, highlightB_head hop.1.1.2]
              exact leafB_within hfree i2
      refine ⟨?_, by simpa [tokenIs] using hhead⟩
      rw [docB_other hstop (by simpa [tokenIs] using ht) hcode.1 (by simpa [tokenIs] using hcs), hcode.2, e, i1]

end Yamd.Ref
