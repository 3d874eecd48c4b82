import Verif.Proofs.Agree
import Verif.Proofs.Own

/-!
# More stop conditions, none of which is met (C66)

A block that was read under some stop conditions is read the same under more of them, when none of the
additional ones holds at its own tokens.
-/

namespace Yamd.Ref

open Yamd Yamd.Spec Yamd.Round

theorem untilB_narrow {S S' : List Stop} {m : Token → Bool} : ∀ {ts b c r}, untilB S m ts = some (b, c, r) →
    Unstopped S' (b ++ [c]) r → untilB S' m ts = some (b, c, r)
  | [], _, _, _, h, _ => by simp [untilB] at h
  | t :: ts, b, c, r, h, hu => by
    rw [untilB] at h
    split at h
    · simp at h
    · split at h
      · rename_i hm
        simp only [Option.some.injEq, Prod.mk.injEq] at h
        obtain ⟨rfl, rfl, rfl⟩ := h
        rw [untilB, if_neg (by simpa using hu.1), if_pos hm]
      · rename_i hm
        simp only [Option.map_eq_some_iff] at h
        obtain ⟨⟨b', c', r'⟩, h1, h2⟩ := h
        simp only [Prod.mk.injEq] at h2
        obtain ⟨rfl, rfl, rfl⟩ := h2
        have hs : stopAt S' (t :: ts) = false := by
          have := hu.1
          rw [untilB_length h1]
          simpa using this
        rw [untilB, if_neg (by simp [hs]), if_neg hm, untilB_narrow h1 hu.2]
        rfl

theorem untilB_sub {S S' : List Stop} (hS : S ⊆ S') {m : Token → Bool} {ts} (h : untilB S m ts = none) :
    untilB S' m ts = none := by
  cases h' : untilB S' m ts with
  | none => rfl
  | some x =>
    obtain ⟨b, c, r⟩ := x
    rw [untilB_narrow h' ((untilB_un h').sub hS)] at h
    simp at h

theorem stopAt_up {S S' : List Stop} (hS : S ⊆ S') {ts} (h : stopAt S ts = true) : stopAt S' ts = true := by
  cases h' : stopAt S' ts with
  | true => rfl
  | false => rw [stopAt_sub hS h'] at h; simp at h

theorem Unstopped.head {S : List Stop} {a r : List Token} (h : Unstopped S a r) (ha : a ≠ []) : stopAt S (a ++ r) = false := by
  cases a with
  | nil => exact absurd rfl ha
  | cons t a => exact h.1

theorem take_stop {S : List Stop} {ts : List Token} {n : Nat} (hn : 0 < n) (hl : 0 < ts.length)
    (h : Unstopped S (ts.take n) (ts.drop n)) : stopAt S ts = false := by
  have := h.head (by intro e; have := congrArg List.length e; rw [List.length_take, List.length_nil] at this; omega)
  rwa [List.take_append_drop] at this

theorem unstopped_cons {x : Stop} {S : List Stop} : ∀ {a r : List Token}, Unstopped [x] a r → Unstopped S a r →
    Unstopped (x :: S) a r
  | [], _, _, _ => trivial
  | t :: a, r, h1, h2 => by
    refine ⟨?_, unstopped_cons h1.2 h2.2⟩
    have a1 := h1.1
    have a2 := h2.1
    simp only [stopAt, List.any_cons, List.any_nil, Bool.or_false] at a1 a2 ⊢
    rw [a1, a2]; rfl

section
variable {S S' : List Stop} (hS : S ⊆ S')
include hS

omit hS in
theorem cons_sub (hS : S ⊆ S') (x : Stop) : x :: S ⊆ x :: S' := List.cons_subset_cons x hS

theorem paraB_narrow {ts : List Token} (hu : Unstopped S' (paraToks (paraB S [] ts).1) (paraB S [] ts).2) :
    paraB S' [] ts = paraB S [] ts := by
  have htk := paraB_toks (stops := S) (acc := []) _ (Nat.le_refl ts.length)
  rw [List.nil_append] at htk
  obtain ⟨hst, hun⟩ := paraB_extent S ts
  generalize hp : paraB S [] ts = x at htk hst hun hu
  obtain ⟨p, r⟩ := x
  simp only at htk hst hun hu
  have e1 := paraB_own hst [] (paraToks p) hun
  have e2 := paraB_own (stopAt_up hS hst) [] (paraToks p) hu
  rw [← htk] at e1 e2
  rw [e2, ← hp, e1]

theorem modifierB_none_narrow {r : List Token} (h : modifierB S r = none) : modifierB S' r = none := by
  unfold modifierB at h ⊢
  split at h
  · rename_i hc; rw [if_pos hc]
  · rename_i hc
    rw [Option.map_eq_none_iff] at h
    rw [if_neg hc, untilB_sub hS h]
    rfl

theorem optModB_narrow {ts : List Token} (hu : Unstopped S' (modToks (optModB S ts).1) (optModB S ts).2) :
    optModB S' ts = optModB S ts := by
  unfold optModB at hu ⊢
  cases h : modifierB S ts with
  | none => rw [modifierB_none_narrow hS h]
  | some x =>
    obtain ⟨m, r⟩ := x
    rw [h] at hu
    simp only [modToks] at hu
    have : modifierB S' ts = some (m, r) := by
      unfold modifierB at h ⊢
      split at h
      · simp at h
      · rename_i hc
        rw [if_neg hc]
        simp only [Option.map_eq_some_iff] at h
        obtain ⟨⟨b, c, r'⟩, h1, h2⟩ := h
        simp only [Prod.mk.injEq] at h2
        obtain ⟨rfl, rfl⟩ := h2
        rw [untilB_narrow h1 hu]
        rfl
    rw [this]

theorem optIconB_narrow {ts : List Token} (hu : Unstopped S' (iconToks (optIconB S ts).1) (optIconB S ts).2) :
    optIconB S' ts = optIconB S ts := by
  unfold optIconB at hu ⊢
  cases h : iconB S ts with
  | none =>
    have : iconB S' ts = none := by
      unfold iconB at h ⊢
      split at h
      · rename_i hc
        rw [Option.map_eq_none_iff] at h
        rw [if_pos hc, untilB_sub hS h]
        rfl
      · rename_i hc; rw [if_neg hc]
    rw [this]
  | some x =>
    obtain ⟨m, r⟩ := x
    rw [h] at hu
    simp only [iconToks] at hu
    have : iconB S' ts = some (m, r) := by
      unfold iconB at h ⊢
      split at h
      · rename_i hc
        rw [if_pos hc]
        simp only [Option.map_eq_some_iff] at h
        obtain ⟨⟨b, c, r'⟩, h1, h2⟩ := h
        simp only [Prod.mk.injEq] at h2
        obtain ⟨rfl, rfl⟩ := h2
        rw [untilB_narrow h1 hu.right]
        rfl
      · simp at h
    rw [this]

theorem closeLineB_narrow {c : Token} {r x} (h : closeLineB S c r = some x) : closeLineB S' c r = some x := by
  cases r with
  | nil => exact h
  | cons t r =>
    rw [closeLineB] at h ⊢
    split at h
    · rename_i he; rw [if_pos he]; exact h
    · rename_i he
      rw [if_neg he]
      split at h
      · rename_i h1
        rw [Bool.or_eq_true] at h1
        rw [if_pos]
        · exact h
        · rw [Bool.or_eq_true]
          exact h1.imp_left (stopAt_up hS)
      · simp at h

theorem codeB_narrow {ts x} (h : codeB S ts = some x) : codeB S' ts = some x := by
  have hr : ∀ {o m r x}, codeRestB S o m r = some x → codeRestB S' o m r = some x := by
    intro o m r x h
    unfold codeRestB at h ⊢
    cases hu : untilB [] isBacktick3 r with
    | none => rw [hu] at h; simp at h
    | some y =>
      obtain ⟨b, c, r⟩ := y
      rw [hu] at h
      simp only [Option.map_eq_some_iff] at h ⊢
      obtain ⟨z, h1, h2⟩ := h
      exact ⟨z, closeLineB_narrow hS h1, h2⟩
  unfold codeB at h ⊢
  cases ts with
  | nil => simp at h
  | cons t r =>
    simp only at h ⊢
    split at h
    · rename_i h1
      rw [if_pos h1]
      split at h
      · rename_i h2; rw [if_pos h2]; exact hr h
      · rename_i h2; rw [if_neg h2]; exact hr h
    · simp at h

theorem embedB_narrow {ts b rest} (h : embedB S ts = some (b, rest)) (hu : Unstopped S' b.toks rest) :
    embedB S' ts = some (b, rest) := by
  unfold embedB at h ⊢
  cases ts with
  | nil => simp at h
  | cons t r =>
    simp only at h ⊢
    split at h
    · rename_i h1
      rw [if_pos h1]
      cases h2 : untilB S isPipe r with
      | none => rw [h2] at h; simp at h
      | some y =>
        obtain ⟨l, p, r1⟩ := y
        rw [h2] at h
        simp only at h
        cases h3 : untilB S isRightCurly2 r1 with
        | none => rw [h3] at h; simp at h
        | some y =>
          obtain ⟨a, c, r2⟩ := y
          rw [h3] at h
          simp only [Option.map_eq_some_iff] at h
          obtain ⟨⟨x, y⟩, h4, h5⟩ := h
          simp only [Prod.mk.injEq] at h5
          obtain ⟨rfl, rfl⟩ := h5
          have htk := closeLineB_toks h4
          have e3 := untilB_length h3
          have hx : ∃ x', x = c :: x' := by
            cases r2 with
            | nil =>
              simp only [closeLineB, Option.some.injEq, Prod.mk.injEq] at h4
              exact ⟨[], h4.1.symm⟩
            | cons u r2 =>
              rw [closeLineB] at h4
              split at h4
              · simp only [Option.some.injEq, Prod.mk.injEq] at h4
                exact ⟨[u], h4.1.symm⟩
              · split at h4
                · simp only [Option.some.injEq, Prod.mk.injEq] at h4
                  exact ⟨[], h4.1.symm⟩
                · simp at h4
          obtain ⟨x', rfl⟩ := hx
          have hr2 : r2 = x' ++ y := by
            simp only [List.cons_append, List.cons.injEq, true_and] at htk
            exact htk
          have hu1 : Unstopped S' (l ++ [p]) r1 := by
            have h := hu.2
            rw [show l ++ p :: (a ++ c :: x') = (l ++ [p]) ++ (a ++ c :: x') by simp] at h
            have := h.left
            rwa [show a ++ c :: x' ++ y = r1 by rw [e3, hr2]; simp] at this
          have hu2 : Unstopped S' (a ++ [c]) r2 := by
            have h := hu.2
            rw [show l ++ p :: (a ++ c :: x') = (l ++ [p]) ++ (a ++ c :: x') by simp] at h
            have := h.right
            rw [show a ++ c :: x' = (a ++ [c]) ++ x' by simp] at this
            have := this.left
            rwa [← hr2] at this
          rw [untilB_narrow h2 hu1]
          simp only
          rw [untilB_narrow h3 hu2]
          simp only
          rw [closeLineB_narrow hS h4]
          rfl
    · simp at h

theorem hlParasB_narrow {ts l c r} (h : hlParasB S ts = some (l, c, r)) :
    Unstopped S' (l.flatMap HPara.toks ++ c) r → hlParasB S' ts = some (l, c, r) := by
  have main := hlParasB_ind S (P := fun ts l c r => ts = l.flatMap HPara.toks ++ (c ++ r) →
      Unstopped S' (l.flatMap HPara.toks ++ c) r → hlParasB S' ts = some (l, c, r)) ?_ ?_ ?_ ts l c r h
    (hlParasB_toks _ (Nat.le_refl _) h)
  · exact main
  · intro ts hs hb h1 _ hu
    have hl := tokenIs_length h1
    have hs' : stopAt S' ts = false := by
      refine take_stop (n := 2) (by omega) (by omega) ?_
      simpa using hu
    rw [hlParasB.eq_def, hs', hb, h1]
    rfl
  · intro ts hs hb h1 _ hu
    have hl := tokenIs_length hb
    have hs' : stopAt S' ts = false := by
      refine take_stop (n := 1) (by omega) (by omega) ?_
      rw [List.flatMap_nil, List.nil_append] at hu
      exact hu
    rw [hlParasB.eq_def, hs', hb, h1]
    rfl
  · intro ts l c r hs hb hl ih htk hu
    generalize hq : paraB (.Terminator :: .HighlightEnd :: S) [] (termB ts).2 = q at hl ih htk hu ⊢
    have hterm : ts = (termB ts).1 ++ (termB ts).2 := by
      unfold termB
      split
      · exact (List.take_append_drop 1 ts).symm
      · rfl
    have hqt : (termB ts).2 = paraToks q.1 ++ q.2 := by
      have := paraB_toks (stops := .Terminator :: .HighlightEnd :: S) (acc := []) _ (Nat.le_refl (termB ts).2.length)
      rwa [List.nil_append, hq] at this
    have hrest : q.2 = l.flatMap HPara.toks ++ (c ++ r) := by
      rw [List.flatMap_cons, HPara.toks] at htk
      have e : ts = (termB ts).1 ++ (paraToks q.1 ++ q.2) := by rw [← hqt]; exact hterm
      have h2 := e.symm.trans htk
      simp only [List.append_assoc] at h2
      have h3 := List.append_cancel_left h2
      exact List.append_cancel_left h3
    have hu0 : Unstopped S' ((termB ts).1 ++ (paraToks q.1 ++ (l.flatMap HPara.toks ++ c))) r := by
      simpa [HPara.toks] using hu
    have hup : Unstopped S' (paraToks q.1) q.2 := by
      have := hu0.right.left
      rwa [show l.flatMap HPara.toks ++ c ++ r = q.2 by rw [hrest]; simp] at this
    have hs' : stopAt S' ts = false := by
      have := hu.head (by
        intro e
        have h1 := htk
        have h2 := congrArg List.length h1
        have h3 := congrArg List.length hrest
        have h4 := congrArg List.length e
        simp only [List.length_append, List.length_nil] at h2 h3 h4
        omega)
      rwa [List.append_assoc, ← htk] at this
    have hq' : paraB (.Terminator :: .HighlightEnd :: S') [] (termB ts).2 = q := by
      have hun := (paraB_extent (.Terminator :: .HighlightEnd :: S) (termB ts).2).2
      rw [← hq] at hup ⊢
      refine paraB_narrow (S := .Terminator :: .HighlightEnd :: S) (cons_sub (cons_sub hS _) _) ?_
      refine unstopped_cons (hun.sub (by simp)) (unstopped_cons (hun.sub (by simp)) hup)
    rw [hlParasB.eq_def, hs', hb, hq']
    simp only [Bool.false_eq_true, if_false]
    rw [dif_pos hl, ih hrest hu0.right.right]
    rfl

theorem highlightB_narrow {ts b rest} (h : highlightB S ts = some (b, rest)) (hu : Unstopped S' b.toks rest) :
    highlightB S' ts = some (b, rest) := by
  have hr : ∀ {o m r}, hlRestB S o m r = some (b, rest) → hlRestB S' o m r = some (b, rest) ∧
      Unstopped S' (modToks m) r := by
    intro o m r h
    unfold hlRestB at h ⊢
    simp only at h ⊢
    split at h
    · rename_i hc
      simp only [Option.map_eq_some_iff] at h
      obtain ⟨⟨l, c, r'⟩, h1, h2⟩ := h
      simp only [Prod.mk.injEq] at h2
      obtain ⟨rfl, rfl⟩ := h2
      have e1 := optIconB_toks (.Terminator :: S) r
      have e2 := hlParasB_toks _ (Nat.le_refl _) h1
      simp only [Block.toks] at hu
      have hu1 := hu.right
      have hm := hu1.left
      rw [show iconToks (optIconB (.Terminator :: S) r).1 ++ (l.flatMap HPara.toks ++ c) ++ r' = r by
        conv => rhs; rw [e1, e2]
        simp] at hm
      have hi : optIconB (.Terminator :: S') r = optIconB (.Terminator :: S) r := by
        refine optIconB_narrow (cons_sub hS _) ?_
        refine unstopped_cons ?_ ?_
        · unfold optIconB iconB
          split
          · rename_i m' r'' hx
            split at hx
            · rename_i hcc
              simp only [Option.map_eq_some_iff] at hx
              obtain ⟨⟨b, c, r3⟩, h3, h4⟩ := hx
              simp only [Prod.mk.injEq] at h4
              obtain ⟨rfl, rfl⟩ := h4
              simp only [iconToks]
              refine Unstopped.append ?_ ((untilB_un h3).sub (by simp))
              match hm : r, hcc with
              | a :: d :: q, hcc =>
                simp only [Bool.and_eq_true, tokenIs, List.getElem?_cons_zero, List.getElem?_cons_succ] at hcc
                simp only [List.take_succ_cons, List.take_zero]
                refine ⟨?_, ?_, trivial⟩
                · have := hcc.1
                  simp only [isOneBang, Bool.and_eq_true, decide_eq_true_eq] at this
                  simp [stopAt, stopHere, this.1.1]
                · have := hcc.2
                  simp only [isSpace1, Bool.and_eq_true, decide_eq_true_eq] at this
                  simp [stopAt, stopHere, this.1]
            · simp at hx
          · trivial
        · have := hu1.right.left
          rwa [show l.flatMap HPara.toks ++ c ++ r' = (optIconB (.Terminator :: S) r).2 by rw [e2]; simp] at this
      rw [hi, if_pos hc, hlParasB_narrow hS h1 hu1.right.right]
      exact ⟨rfl, hm⟩
    · simp at h
  unfold highlightB at h ⊢
  split at h
  · rename_i h1
    rw [if_pos h1]
    split at h
    · rename_i h2; rw [if_pos h2]; exact (hr h).1
    · rename_i h2
      rw [if_neg h2]
      obtain ⟨h3, h4⟩ := hr h
      rw [optModB_narrow hS h4]
      exact h3
  · simp at h

end

end Yamd.Ref
