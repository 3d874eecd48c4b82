import Verif.Proofs.Final.Lines
import Verif.Proofs.Dest
import Verif.Proofs.LocalTop

/-!
# A line break at the very end (C73): documents
-/

namespace Yamd.Ref

open Yamd Yamd.Spec Yamd.Round

/-- The same tokens, but a `{%` at the end may have become a literal. -/
def LastFlip (ts u : List Token) : Prop :=
  u = ts ∨ ∃ a c, ts = a ++ [c] ∧ c.kind = .CollapsibleStart ∧ u = a ++ [{ c with kind := .Literal }]

theorem LastFlip.same (ts : List Token) : LastFlip ts ts := .inl rfl

theorem LastFlip.flips {ts u : List Token} (h : LastFlip ts u) : Flips ts u := by
  rcases h with rfl | ⟨a, c, rfl, hk, rfl⟩
  · exact .refl _
  · exact (Flips.refl a).append (.cons (.inr ⟨hk, rfl⟩) .nil)

theorem LastFlip.length {ts u : List Token} (h : LastFlip ts u) : u.length = ts.length := by
  rcases h with rfl | ⟨a, c, rfl, hk, rfl⟩
  · rfl
  · simp

theorem LastFlip.nil {u : List Token} (h : LastFlip [] u) : u = [] := by
  have := h.length
  simpa using this

theorem LastFlip.ne {ts u : List Token} (h : LastFlip ts u) (hne : ts ≠ []) : u ≠ [] := by
  rintro rfl
  have := h.length
  exact hne (List.length_eq_zero_iff.1 this.symm)

theorem LastFlip.append (p : List Token) {ts u : List Token} (h : LastFlip ts u) : LastFlip (p ++ ts) (p ++ u) := by
  rcases h with rfl | ⟨a, c, rfl, hk, rfl⟩
  · exact .inl rfl
  · exact .inr ⟨p ++ a, c, by simp, hk, by simp⟩

theorem LastFlip.cut {p q u : List Token} (h : LastFlip (p ++ q) u) (hq : q ≠ []) :
    ∃ q', u = p ++ q' ∧ LastFlip q q' := by
  rcases h with rfl | ⟨a, c, e, hk, rfl⟩
  · exact ⟨q, rfl, .same q⟩
  · obtain ⟨b, z, rfl⟩ : ∃ b z, q = b ++ [z] := ⟨q.dropLast, q.getLast hq, (List.dropLast_concat_getLast hq).symm⟩
    rw [← List.append_assoc] at e
    obtain ⟨rfl, e2⟩ := List.append_inj' e rfl
    simp only [List.cons.injEq, and_true] at e2
    subst e2
    exact ⟨b ++ [{ z with kind := .Literal }], by simp, .inr ⟨b, z, rfl, hk, rfl⟩⟩

/-- Where the tail begins, it does in both. -/
theorem LastFlip.split {p q p' q' : List Token} (h : LastFlip (p ++ q) (p' ++ q')) (hl : q'.length = q.length)
    (hq : q ≠ []) : p' = p ∧ LastFlip q q' := by
  obtain ⟨r, e, hr⟩ := h.cut hq
  obtain ⟨rfl, rfl⟩ := List.append_inj' e (by rw [hl, hr.length])
  exact ⟨rfl, hr⟩

theorem LastFlip.norm {ts u : List Token} (h : LastFlip ts u) : u.map norm = ts.map norm := norm_flips h.flips

theorem NoBreakEnd.flips {a b : List Token} (h : NoBreakEnd a) (hf : Flips a b) : NoBreakEnd b := by
  rintro x t rfl
  obtain ⟨m1, m2, rfl, -, h2⟩ := hf.split
  cases h2 with
  | cons h3 h4 =>
    cases h4
    have := h m1 _ rfl
    rcases h3 with rfl | ⟨hk, rfl⟩
    · exact this
    · simp [isEolOrTerminator]

theorem resp_norm : Resp0 norm := by
  refine ⟨fun t k h1 h2 => ?_, fun t => ?_, fun t _ => norm_len t⟩
  · rw [norm_kind t h2 h1]
  · simp only [col0, norm_col]

theorem norm_slice (src : Str) (t : Token) : sliceD src (norm t) = sliceD src t := by
  unfold norm; split <;> rfl

theorem Block.denote_norm (src : Str) (b : Block) : (b.mapT norm).denote src = b.denote src := by
  have := Block.denote_subst ordinary_same (s := src) (s' := src) (f := norm) b
    (fun t _ => by rw [subst_same, norm_slice]; rfl)
  rw [this, subst_same, YamdNode.mapText_same]

theorem mapT_denote {src : Str} {b b' : Block} (h : b'.mapT norm = b.mapT norm) : b'.denote src = b.denote src := by
  rw [← Block.denote_norm, h, Block.denote_norm]

theorem map_length_eq {a b : List Token} (h : b.map norm = a.map norm) : b.length = a.length := by
  have := congrArg List.length h; simpa using this

theorem tokenIs_flip {ts u : List Token} (h : LastFlip ts u) {m : Token → Bool} (hm : Keeps norm m) (i : Nat) :
    tokenIs u i m = tokenIs ts i m := by
  rw [← tokenIs_nat hm u, h.norm, tokenIs_nat hm ts]

theorem stopAt_flip {ts u : List Token} (h : LastFlip ts u) (S : List Stop) : stopAt S u = stopAt S ts := by
  rw [← stopAt_nat resp_norm, h.norm, stopAt_nat resp_norm]

theorem otherB_flip {ts u : List Token} (h : LastFlip ts u) (S : List Stop) :
    (otherB S u).1.mapT norm = (otherB S ts).1.mapT norm ∧ (otherB S u).2.map norm = (otherB S ts).2.map norm := by
  have h1 := otherB_nat resp_norm S u
  have h2 := otherB_nat resp_norm S ts
  rw [h.norm, h2] at h1
  simp only [mapR, Prod.mk.injEq] at h1
  exact ⟨h1.1.symm, h1.2.symm⟩

theorem codeB_flip_none {ts u : List Token} (h : LastFlip ts u) {S : List Stop} (hc : codeB S ts = none) :
    codeB S u = none := by
  have h1 := codeB_nat resp_norm S u
  have h2 := codeB_nat resp_norm S ts
  rw [h.norm, h2, hc] at h1
  cases hu : codeB S u with
  | none => rfl
  | some x => rw [hu] at h1; simp at h1

theorem codeB_flip_some {ts u : List Token} (h : LastFlip ts u) {S : List Stop} {x} (hc : codeB S ts = some x) :
    ∃ y, codeB S u = some y ∧ y.1.mapT norm = x.1.mapT norm ∧ y.2.map norm = x.2.map norm := by
  have h1 := codeB_nat resp_norm S u
  have h2 := codeB_nat resp_norm S ts
  rw [h.norm, h2, hc] at h1
  cases hu : codeB S u with
  | none => rw [hu] at h1; simp at h1
  | some y =>
    rw [hu] at h1
    simp only [Option.map_some, Option.some.injEq, mapR, Prod.mk.injEq] at h1
    exact ⟨y, rfl, h1.1.symm, h1.2.symm⟩

theorem collOpenB_flip_some {ts u : List Token} (h : LastFlip ts u) {S : List Stop} {o m r1}
    (hc : collOpenB S ts = some (o, m, r1)) :
    ∃ u1, collOpenB S u = some (o, m, u1) ∧ LastFlip r1 u1 ∧ u = o ++ (modToks m ++ u1) := by
  have hcs := hc
  obtain ⟨tk, ol, hk⟩ := collOpenB_toks hc
  unfold collOpenB at hc
  split at hc
  · rename_i hh
    split at hc
    · rename_i hcol
      simp only [Option.some.injEq, Prod.mk.injEq] at hc
      obtain ⟨ho, hm, hr⟩ := hc
      rw [hr] at hcol
      have hne : r1 ≠ [] := by rintro rfl; simp [tokenIs] at hcol
      rw [tk, ← List.append_assoc] at h
      obtain ⟨u1, e, h1⟩ := h.cut hne
      refine ⟨u1, ?_, h1, by rw [e, List.append_assoc]⟩
      rw [tk, ← List.append_assoc] at hh
      rw [e]
      match o, ol with
      | [a, b], _ =>
        have hd : ts.drop 2 = modToks m ++ r1 := by rw [tk]; rfl
        have h2 : LastFlip (modToks m ++ r1) (modToks m ++ u1) := h1.append _
        have n1 := optModB_nat resp_norm S (modToks m ++ u1)
        have n2 := optModB_nat resp_norm S (modToks m ++ r1)
        rw [h2.norm, n2, ← hd] at n1
        simp only [mapR, Prod.mk.injEq, hm, hr] at n1
        generalize hq : optModB S (modToks m ++ u1) = q at n1
        have htk : modToks m ++ u1 = modToks q.1 ++ q.2 := by
          rw [← hq]
          unfold optModB
          cases hmm : modifierB S (modToks m ++ u1) with
          | none => rfl
          | some x =>
            unfold modifierB at hmm
            split at hmm
            · simp at hmm
            · simp only [Option.map_eq_some_iff] at hmm
              obtain ⟨⟨b, c, p⟩, hu, rfl⟩ := hmm
              rw [untilB_length hu]
              simp [modToks]
        obtain ⟨e1, e2⟩ := List.append_inj' htk (by
          have := map_length_eq n1.2
          rw [← this, h1.length])
        have e3 : q.1 = m := by
          cases hq1 : q.1 with
          | none =>
            rw [hq1] at n1
            cases m with
            | none => rfl
            | some m => simp at n1
          | some x =>
            rw [hq1] at n1 e1
            cases m with
            | none => simp at n1
            | some m =>
              simp only [modToks] at e1
              obtain ⟨e4, e5⟩ := List.append_inj' e1 rfl
              simp only [List.cons.injEq, and_true] at e5
              cases x; cases m
              simp only at e4 e5
              subst e4; subst e5; rfl
        unfold collOpenB
        have hh' : (tokenIs ([a, b] ++ modToks m ++ u1) 0 isCollapsibleStart &&
            tokenIs ([a, b] ++ modToks m ++ u1) 1 isSpaceOrEol) = true := hh
        rw [if_pos hh']
        have hd' : ([a, b] ++ modToks m ++ u1).drop 2 = modToks m ++ u1 := rfl
        have hcol' : tokenIs u1 0 col0 = true := by rw [tokenIs_flip h1 (keeps_col0 resp_norm)]; exact hcol
        rw [hd', hq, e3, ← e2, if_pos hcol']
        rfl
    · simp at hc
  · simp at hc

theorem collOpenB_flip_none {ts u : List Token} (h : LastFlip ts u) {S : List Stop}
    (hc : collOpenB S ts = none) : collOpenB S u = none := by
  rcases h with rfl | ⟨a, c, rfl, hk, rfl⟩
  · exact hc
  · match a with
    | [] => unfold collOpenB; simp [tokenIs]
    | [t] => unfold collOpenB; simp [tokenIs, isSpaceOrEol]
    | t :: t2 :: a =>
      have h2 : LastFlip (a ++ [c]) (a ++ [{ c with kind := .Literal }]) := .inr ⟨a, c, rfl, hk, rfl⟩
      have n1 := optModB_nat resp_norm S (a ++ [{ c with kind := .Literal }])
      have n2 := optModB_nat resp_norm S (a ++ [c])
      rw [h2.norm, n2] at n1
      simp only [mapR, Prod.mk.injEq] at n1
      have e : tokenIs (optModB S (a ++ [{ c with kind := .Literal }])).2 0 col0
          = tokenIs (optModB S (a ++ [c])).2 0 col0 := by
        rw [← tokenIs_nat (keeps_col0 resp_norm), ← n1.2, tokenIs_nat (keeps_col0 resp_norm)]
      unfold collOpenB at hc ⊢
      have d1 : (t :: t2 :: a ++ [c]).drop 2 = a ++ [c] := rfl
      have d2 : (t :: t2 :: a ++ [{ c with kind := .Literal }]).drop 2 = a ++ [{ c with kind := .Literal }] := rfl
      rw [d1] at hc
      rw [d2, e]
      have hh : (tokenIs (t :: t2 :: a ++ [{ c with kind := .Literal }]) 0 isCollapsibleStart &&
          tokenIs (t :: t2 :: a ++ [{ c with kind := .Literal }]) 1 isSpaceOrEol)
          = (tokenIs (t :: t2 :: a ++ [c]) 0 isCollapsibleStart && tokenIs (t :: t2 :: a ++ [c]) 1 isSpaceOrEol) := rfl
      rw [hh]
      split
      · rename_i h3
        rw [if_pos h3] at hc
        split
        · rename_i h4
          rw [if_pos h4] at hc
          simp at hc
        · rfl
      · rfl

theorem collCloseB_flip {a w c r4 : List Token} (h : LastFlip a w) (hc : collCloseB a = some (c, r4)) :
    ∃ w4, collCloseB w = some (c, w4) ∧ LastFlip r4 w4 := by
  rcases h with rfl | ⟨b, k, rfl, hk, rfl⟩
  · exact ⟨r4, hc, .same _⟩
  · match b with
    | [] =>
      unfold collCloseB at hc
      simp [tokenIs, isCollapsibleEnd, hk] at hc
    | [t] =>
      unfold collCloseB at hc ⊢
      have e1 : tokenIs ([t] ++ [k]) 1 isEol = false := by simp [tokenIs, isEol, hk]
      have e2 : tokenIs ([t] ++ [{ k with kind := .Literal }]) 1 isEol = false := by simp [tokenIs, isEol]
      rw [e1] at hc
      rw [e2]
      have e3 : tokenIs ([t] ++ [{ k with kind := .Literal }]) 0 isCollapsibleEnd = tokenIs ([t] ++ [k]) 0 isCollapsibleEnd := rfl
      rw [e3]
      split at hc
      · rename_i h1
        rw [if_pos h1]
        simp only [Bool.false_eq_true, if_false, Option.some.injEq, Prod.mk.injEq] at hc ⊢
        obtain ⟨rfl, rfl⟩ := hc
        exact ⟨_, ⟨rfl, rfl⟩, .inr ⟨[], k, rfl, hk, rfl⟩⟩
      · simp at hc
    | t :: t2 :: b =>
      unfold collCloseB at hc ⊢
      have e1 : tokenIs (t :: t2 :: b ++ [{ k with kind := .Literal }]) 1 isEol = tokenIs (t :: t2 :: b ++ [k]) 1 isEol := rfl
      have e3 : tokenIs (t :: t2 :: b ++ [{ k with kind := .Literal }]) 0 isCollapsibleEnd
          = tokenIs (t :: t2 :: b ++ [k]) 0 isCollapsibleEnd := rfl
      rw [e1, e3]
      split at hc
      · rename_i h1
        rw [if_pos h1]
        split at hc
        · rename_i h2
          rw [if_pos h2]
          simp only [Option.some.injEq, Prod.mk.injEq] at hc ⊢
          obtain ⟨rfl, rfl⟩ := hc
          exact ⟨_, ⟨rfl, rfl⟩, .inr ⟨b, k, rfl, hk, rfl⟩⟩
        · rename_i h2
          rw [if_neg h2]
          simp only [Option.some.injEq, Prod.mk.injEq] at hc ⊢
          obtain ⟨rfl, rfl⟩ := hc
          exact ⟨_, ⟨rfl, rfl⟩, .inr ⟨t2 :: b, k, rfl, hk, rfl⟩⟩
      · simp at hc

theorem skipEolB_flip {a w : List Token} (h : LastFlip a w) :
    (skipEolB w).1 = (skipEolB a).1 ∧ LastFlip (skipEolB a).2 (skipEolB w).2 := by
  rcases h with rfl | ⟨b, k, rfl, hk, rfl⟩
  · exact ⟨rfl, .same _⟩
  · match b with
    | [] =>
      have e1 : tokenIs ([] ++ [k]) 0 isEol = false := by simp [tokenIs, isEol, hk]
      have e2 : tokenIs ([] ++ [{ k with kind := .Literal }]) 0 isEol = false := by simp [tokenIs, isEol]
      unfold skipEolB
      rw [e1, e2]
      exact ⟨rfl, .inr ⟨[], k, rfl, hk, rfl⟩⟩
    | t :: b =>
      unfold skipEolB
      have e1 : tokenIs (t :: b ++ [{ k with kind := .Literal }]) 0 isEol = tokenIs (t :: b ++ [k]) 0 isEol := rfl
      rw [e1]
      split
      · exact ⟨rfl, .inr ⟨b, k, rfl, hk, rfl⟩⟩
      · exact ⟨rfl, .inr ⟨t :: b, k, rfl, hk, rfl⟩⟩

/-- An unfinished collapsible runs to the end. -/
theorem unclosed {s : List Stop} (hd : DStops s) {ts : List Token}
    (h : collCloseB (skipEolB (docB (.CollapsibleEnd :: s) ts).2).2 = none) : (docB (.CollapsibleEnd :: s) ts).2 = [] := by
  have hr := docB_rest (.CollapsibleEnd :: s) ts
  generalize (docB (.CollapsibleEnd :: s) ts).2 = r at h hr
  cases r with
  | nil => rfl
  | cons t q =>
    exfalso
    simp only [stopAt, List.any_eq_true] at hr
    obtain ⟨st, hm, hst⟩ := hr
    rw [hd.coll st hm] at hst
    simp only [stopHere, Bool.or_eq_true, Bool.and_eq_true, decide_eq_true_eq] at hst
    rcases hst with ⟨h1, h2⟩ | ⟨h1, h2⟩
    · have e : skipEolB (t :: q) = ([], t :: q) := by simp [skipEolB, tokenIs, isEol, h1]
      rw [e] at h
      unfold collCloseB at h
      simp only at h
      rw [if_pos (by simp [tokenIs, isCollapsibleEnd, h1, h2])] at h
      split at h <;> simp at h
    · have e : skipEolB (t :: q) = ([t], q) := by simp [skipEolB, tokenIs, isEol, h1]
      rw [e] at h
      unfold collCloseB at h
      simp only at h
      have h3 : tokenIs q 0 isCollapsibleEnd = true := by
        cases q with
        | nil => simp [tokenIs] at h2
        | cons u q => simpa [tokenIs, isCollapsibleEnd] using h2
      rw [if_pos h3] at h
      split at h <;> simp at h

end Yamd.Ref
