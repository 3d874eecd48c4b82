import Verif.Proofs.Exact.Single
import Verif.Proofs.Round.RunEnds
import Verif.Proofs.LexProps

/-!
# Cutting a text between two tokens

The tokens before the cut are the tokens of the text before the cut.
-/

namespace Yamd.Round

open Yamd Yamd.Spec Yamd.Lexer Yamd.Ref

theorem takeWhile_alone (f : Char → Bool) : ∀ s : Str, (s.takeWhile f).takeWhile f = s.takeWhile f ∧ (s.takeWhile f).dropWhile f = []
  | [] => ⟨rfl, rfl⟩
  | c :: s => by
    rw [List.takeWhile_cons]
    split
    · rename_i h
      have ih := takeWhile_alone f s
      rw [List.takeWhile_cons, List.dropWhile_cons, if_pos h, if_pos h, ih.1]
      exact ⟨rfl, ih.2⟩
    · exact ⟨rfl, rfl⟩

theorem takeLit_first (s : Str) : (takeLit s).1.head? = none ∨ (takeLit s).1.head? = s.head? := by
  cases s with
  | nil => exact .inl rfl
  | cons c r =>
    rw [takeLit]
    split
    · exact .inl rfl
    · exact .inr rfl

theorem takeLit_alone : ∀ s : Str, takeLit (takeLit s).1 = ((takeLit s).1, [])
  | [] => rfl
  | c :: r => by
    have ih := takeLit_alone r
    rw [takeLit]
    split
    · rfl
    · rename_i h
      have h2 : litStop (c :: (takeLit r).1) = false := by
        have h1 : litStop (c :: r) = false := by simpa using h
        simp only [litStop, Bool.or_eq_false_iff] at h1 ⊢
        rcases takeLit_first r with e | e <;> rw [e]
        · exact ⟨⟨h1.1.1, by simp⟩, by simp⟩
        · exact h1
      simp only
      rw [takeLit, if_neg (by simp [h2]), ih]

theorem takeLit_tailOk : ∀ s : Str, (takeLit s).1 ≠ [] → tailOk (takeLit s).1.getLast? (takeLit s).2 = true
  | [] => by simp [takeLit]
  | c :: r => by
    have ih := takeLit_tailOk r
    intro hne
    rw [takeLit] at hne ⊢
    split
    · rename_i h; rw [if_pos h] at hne; simp at hne
    · rename_i h
      have h1 : litStop (c :: r) = false := by simpa using h
      by_cases hl : (takeLit r).1 = []
      · simp only [hl]
        have e : (takeLit r).2 = r := by
          have := takeLit_append r
          rw [hl] at this
          simpa using this
        rw [e]
        simp only [litStop, Bool.or_eq_false_iff] at h1
        simp only [tailOk, List.getLast?_singleton, Option.some_beq_some]
        rw [h1.1.2, h1.2]; rfl
      · have := ih hl
        obtain ⟨x, l, e⟩ := List.exists_cons_of_ne_nil hl
        simp only [e] at this ⊢
        rw [List.getLast?_cons_cons]
        exact this

/-- A piece does not combine with what follows it. -/
theorem tok1_joinOk {s r : Str} {p : Piece} (h : tok1 s = some (p, r)) : joinOk p r = true := by
  have ht := Yamd.Props.tok1_tail h
  have h0 := h
  cases s with
  | nil => simp [tok1] at h
  | cons c s =>
    rw [tok1.eq_def] at h; simp only at h
    split at h
    · split at h
      · simp at h
      · rename_i d r' 
        simp only [Option.some.injEq, Prod.mk.injEq] at h; obtain ⟨rfl, rfl⟩ := h
        simp only [joinOk, Bool.and_eq_true]
        refine ⟨ht.1 rfl, ?_⟩
        simp only [if_true, List.tail_cons]
        by_cases hl : (takeLit r').1 = []
        · rw [hl]; simp [tailOk]
        · exact takeLit_tailOk _ hl
    · rename_i hc
      split at h
      · split at h
        · simp only [Option.some.injEq, Prod.mk.injEq] at h; obtain ⟨rfl, rfl⟩ := h; rfl
        · simp only [Option.some.injEq, Prod.mk.injEq] at h; obtain ⟨rfl, rfl⟩ := h
          simp only [joinOk]
          rw [ht.2.1 rfl]; rfl
      · rename_i hlb
        simp only [Option.some.injEq] at h
        rw [tokPlain] at h
        split at h
        · obtain ⟨rfl, rfl⟩ := Prod.mk.inj h; rfl
        · rename_i h1
          split at h
          · obtain ⟨rfl, rfl⟩ := Prod.mk.inj h; rfl
          · rename_i h2
            split at h
            · rename_i k hk
              obtain ⟨rfl, rfl⟩ := Prod.mk.inj h
              have hrun := runKind_char hk
              have hx := ht.2.2 c hrun
              by_cases hcur : k = .LeftCurlyBrace
              · subst hcur
                have hcc : c = '{' := by simpa [runCharOf] using hrun.symm
                subst hcc
                simp only [joinOk, Bool.and_eq_true, bne_iff_ne, ne_eq, Bool.not_eq_true']
                refine ⟨hx, ?_⟩
                rw [Bool.eq_false_iff]
                intro hb
                simp only [Bool.and_eq_true, beq_iff_eq, List.length_cons, Nat.add_eq_right, List.length_eq_zero_iff] at hb
                have e := List.takeWhile_append_dropWhile (p := (· == '{')) (l := s)
                rw [hb.1, List.nil_append] at e
                rw [e] at hb
                exact h1 ⟨rfl, hb.2⟩
              · have hlit : k ≠ .Literal := fun e => by rw [e] at hrun; simp [runCharOf] at hrun
                have heol : k ≠ .Eol := fun e => by rw [e] at hrun; simp [runCharOf] at hrun
                unfold joinOk
                cases k <;> first | exact absurd rfl hlit | exact absurd rfl heol | exact absurd rfl hcur | skip
                all_goals (simp only [runCharOf] at hrun ⊢; try (simp only [reduceCtorEq] at hrun))
                all_goals (obtain rfl := Option.some.inj hrun; simpa using hx)
            · split at h
              · rename_i k hk
                obtain ⟨rfl, rfl⟩ := Prod.mk.inj h
                have hrun : runCharOf k = none := by
                  have := singleKind_run c
                  rw [hk] at this
                  simpa using this
                have hlit : k ≠ .Literal := by
                  rintro rfl
                  have hall : ∀ x : Option TokenKind, x = some .Literal → x.all (fun k => decide (k ≠ .Literal)) = false := by
                    rintro _ rfl; rfl
                  have := hall _ hk
                  revert this
                  unfold singleKind
                  repeat' (split; · simp)
                  simp
                have heol : k ≠ .Eol := by
                  rintro rfl
                  revert hk
                  unfold singleKind
                  repeat' (split; · simp)
                  simp
                unfold joinOk
                cases k <;> first | exact absurd rfl hlit | exact absurd rfl heol | (simp [runCharOf] at hrun; done) | rfl
              · obtain ⟨rfl, rfl⟩ := Prod.mk.inj h
                simp only [joinOk, Bool.and_eq_true]
                refine ⟨ht.1 rfl, ?_⟩
                simp only [Bool.false_eq_true, if_false]
                by_cases hl : (takeLit s).1 = []
                · have e : (takeLit s).2 = s := by
                    have := takeLit_append s
                    rw [hl] at this
                    simpa using this
                  rw [hl, e]
                  simp only [tailOk, List.getLast?_singleton, Option.some_beq_some, Bool.and_eq_true, Bool.not_eq_true']
                  constructor
                  · rw [Bool.eq_false_iff]
                    intro hb
                    simp only [Bool.and_eq_true, beq_iff_eq] at hb
                    cases s with
                    | nil => simp at hb
                    | cons x s =>
                      obtain ⟨rfl, hx⟩ := hb
                      simp only [List.head?_cons, Option.some.injEq] at hx
                      subst hx
                      simp [lineBreak] at hlb
                  · rw [Bool.eq_false_iff]
                    intro hb
                    simp only [Bool.and_eq_true, beq_iff_eq] at hb
                    exact h2 hb
                · have := takeLit_tailOk s hl
                  obtain ⟨x, l, e⟩ := List.exists_cons_of_ne_nil hl
                  rw [e] at this ⊢
                  rw [List.getLast?_cons_cons]; exact this

/-- A piece alone reads as itself. -/
theorem tok1_alone {s r : Str} {p : Piece} (h : tok1 s = some (p, r)) : tok1 p.src = some (p, []) := by
  cases s with
  | nil => simp [tok1] at h
  | cons c s =>
    rw [tok1.eq_def] at h; simp only at h
    split at h
    · rename_i hc
      split at h
      · simp at h
      · simp only [Option.some.injEq, Prod.mk.injEq] at h; obtain ⟨rfl, rfl⟩ := h
        rw [Piece.src]
        simp only [if_true, List.cons_append, List.nil_append]
        rw [tok1, if_pos rfl, takeLit_alone]
    · rename_i hc
      split at h
      · rename_i l1 r1 h1
        have e1 : IsBreak l1 := by
          unfold lineBreak at h1
          split at h1
          · exact .inl (Prod.mk.inj (Option.some.inj h1)).1.symm
          · exact .inr (Prod.mk.inj (Option.some.inj h1)).1.symm
          · simp at h1
        split at h
        · rename_i l2 r2 h2
          have e2 : IsBreak l2 := by
            unfold lineBreak at h2
            split at h2
            · exact .inl (Prod.mk.inj (Option.some.inj h2)).1.symm
            · exact .inr (Prod.mk.inj (Option.some.inj h2)).1.symm
            · simp at h2
          simp only [Option.some.injEq, Prod.mk.injEq] at h; obtain ⟨rfl, rfl⟩ := h
          rcases e1 with rfl | rfl <;> rcases e2 with rfl | rfl <;> rfl
        · simp only [Option.some.injEq, Prod.mk.injEq] at h; obtain ⟨rfl, rfl⟩ := h
          rcases e1 with rfl | rfl <;> rfl
      · rename_i hlb
        simp only [Option.some.injEq] at h
        have key : ∀ {l : Str} {q : Piece}, (l.head? = none ∨ l.head? = s.head?) → q.src = c :: l → tokPlain c l = (q, []) →
            tok1 q.src = some (q, []) := by
          intro l q hl e hq
          have hb : lineBreak (c :: l) = none := by
            unfold lineBreak at hlb ⊢
            split
            · rename_i r e
              simp only [List.cons.injEq] at e
              obtain ⟨rfl, rfl⟩ := e
              simp at hlb
            · rename_i r e
              simp only [List.cons.injEq] at e
              obtain ⟨rfl, rfl⟩ := e
              rcases hl with hl | hl
              · simp at hl
              · cases s with
                | nil => simp at hl
                | cons x s =>
                  simp only [List.head?_cons, Option.some.injEq] at hl
                  subst hl; simp at hlb
            · rfl
          rw [e, tok1.eq_def]
          simp only
          rw [if_neg hc, hb]
          simp only
          rw [hq]
        rw [tokPlain] at h
        split at h
        · rename_i h1
          obtain ⟨rfl, rfl⟩ := Prod.mk.inj h; rfl
        · rename_i h1
          split at h
          · obtain ⟨rfl, rfl⟩ := Prod.mk.inj h; rfl
          · rename_i h2
            have no : ∀ {l : Str}, (l.head? = none ∨ l.head? = s.head?) → ¬ (c = '{' ∧ l.head? = some '%') ∧ ¬ (c = '%' ∧ l.head? = some '}') := by
              intro l hl
              rcases hl with hl | hl <;> rw [hl]
              · simp
              · exact ⟨h1, h2⟩
            split at h
            · rename_i k hk
              obtain ⟨rfl, rfl⟩ := Prod.mk.inj h
              have hl : (s.takeWhile (· == c)).head? = none ∨ (s.takeWhile (· == c)).head? = s.head? := by
                cases s with
                | nil => exact .inl rfl
                | cons x s =>
                  rw [List.takeWhile_cons]
                  split
                  · exact .inr rfl
                  · exact .inl rfl
              refine key hl rfl ?_
              rw [tokPlain, if_neg (no hl).1, if_neg (no hl).2, hk]
              simp only
              obtain ⟨e1, e2⟩ := takeWhile_alone (· == c) s
              rw [e1, e2]
            · rename_i hk
              split at h
              · rename_i k hk2
                obtain ⟨rfl, rfl⟩ := Prod.mk.inj h
                refine key (l := []) (.inl rfl) rfl ?_
                rw [tokPlain, if_neg (by simp), if_neg (by simp), hk]
                simp only
                rw [hk2]
              · rename_i hk2
                obtain ⟨rfl, rfl⟩ := Prod.mk.inj h
                have hl := takeLit_first s
                refine key hl rfl ?_
                rw [tokPlain, if_neg (no hl).1, if_neg (no hl).2, hk]
                simp only
                rw [hk2, takeLit_alone]

theorem tailOk_shorten {x : Option Char} {a b : Str} (h : tailOk x (a ++ b) = true) : tailOk x a = true := by
  cases a with
  | nil => simp [tailOk]
  | cons c a => exact h

theorem joinOk_shorten {p : Piece} {a b : Str} (h : joinOk p (a ++ b) = true) (h1 : a = ['\r'] → b.head? ≠ some '\n')
    (h2 : a = ['%'] → b.head? ≠ some '}') : joinOk p a = true := by
  have hh : ∀ c, ((a ++ b).head? != some c) = true → (a.head? != some c) = true := by
    intro c hc
    cases a with
    | nil => simp
    | cons x a => exact hc
  unfold joinOk at h ⊢
  split
  · rename_i hk
    rw [hk] at h
    simp only [Bool.and_eq_true] at h ⊢
    refine ⟨?_, tailOk_shorten h.2⟩
    match a with
    | [] => rfl
    | [c] =>
      have := h.1
      simp only [List.cons_append, List.nil_append, litStop, Bool.or_eq_true, Bool.and_eq_true, beq_iff_eq] at this
      simp only [litStop, Bool.or_eq_true]
      rcases this with (e | ⟨rfl, e⟩) | ⟨rfl, e⟩
      · exact .inl (.inl e)
      · exact absurd e (h1 rfl)
      · exact absurd e (h2 rfl)
    | c :: d :: a => rw [litStop_append'] at h; exact h.1
  · rename_i hk
    rw [hk] at h
    simp only [Option.isNone_iff_eq_none] at h ⊢
    cases hb : lineBreak a with
    | none => rfl
    | some x =>
      obtain ⟨l, r⟩ := x
      rw [lineBreak_append hb b] at h
      simp at h
  · rename_i hk
    rw [hk] at h
    simp only [Bool.and_eq_true] at h ⊢
    refine ⟨hh _ h.1, ?_⟩
    cases a with
    | nil => simp
    | cons x a => exact h.2
  · rename_i k1 k2 k3
    split at h
    · exact absurd ‹_› k1
    · exact absurd ‹_› k2
    · exact absurd ‹_› k3
    · split
      · rename_i c hc
        rw [hc] at h
        exact hh c h
      · rfl

theorem srcOf_cons (p : Piece) (ps : List Piece) : srcOf (p :: ps) = p.src ++ srcOf ps := by simp [srcOf]

/-- The pieces before a cut. -/
theorem pieces_cut {s : Str} (hd : dangling s = false) : ∀ {p1 p2 : List Piece}, pieces s = p1 ++ p2 →
    pieces (srcOf p1) = p1 ∧ pieces (srcOf p2) = p2 ∧ s = srcOf p1 ++ srcOf p2 ∧
      ∀ p, p1.getLast? = some p → joinOk p (srcOf p2) = true := by
  induction s using pieces_induction with
  | h0 s h =>
    intro p1 p2 e
    rw [pieces_none h] at e
    obtain ⟨rfl, rfl⟩ := List.append_eq_nil_iff.1 e.symm
    have hn : pieces (srcOf []) = [] := pieces_none rfl
    refine ⟨hn, hn, ?_, by simp⟩
    rcases tok1_none h with rfl | rfl
    · rfl
    · simp [dangling] at hd
  | h1 s p r h ih =>
    intro p1 p2 e
    have hd' : dangling r = false := by rw [← (tok1_dangling h).1]; exact hd
    cases p1 with
    | nil =>
      have e2 : srcOf (pieces s) = s := by
        have := pieces_src s
        rw [hd] at this
        simpa using this.symm
      rw [List.nil_append] at e
      rw [← e, e2]
      exact ⟨pieces_none rfl, rfl, rfl, by simp⟩
    | cons q p1 =>
      rw [pieces_some h] at e
      simp only [List.cons_append, List.cons.injEq] at e
      obtain ⟨rfl, e⟩ := e
      obtain ⟨i1, i2, i3, i4⟩ := ih hd' e
      have hs := tok1_src h
      have hlit : ∀ c : Char, (c = '\r' ∨ c = '%') → srcOf p1 = [c] → p1 = [⟨false, .Literal, [c]⟩] := by
        intro c hc e
        rw [e] at i1
        rw [← i1]
        rcases hc with rfl | rfl <;> exact pieces_one rfl
      have hj : joinOk p (srcOf p1) = true := by
        refine joinOk_shorten (b := srcOf p2) (by rw [← i3]; exact tok1_joinOk h) ?_ ?_
        · intro e1 e2
          have := i4 ⟨false, .Literal, ['\r']⟩ (by rw [hlit _ (.inl rfl) e1]; rfl)
          simp [joinOk, tailOk, e2] at this
        · intro e1 e2
          have := i4 ⟨false, .Literal, ['%']⟩ (by rw [hlit _ (.inr rfl) e1]; rfl)
          simp [joinOk, tailOk, e2] at this
      refine ⟨?_, i2, by rw [srcOf_cons, List.append_assoc, ← i3]; exact hs, ?_⟩
      · rw [srcOf_cons]
        have := tok1_join (s2 := srcOf p1) (tok1_alone h) (fun _ => hj) (by simp)
        rw [pieces_some this, List.nil_append, i1]
      · intro x hx
        cases p1 with
        | nil =>
          simp only [List.getLast?_singleton, Option.some.injEq] at hx
          subst hx
          have := tok1_joinOk h
          rw [i3] at this
          exact this
        | cons y p1 =>
          rw [List.getLast?_cons_cons] at hx
          exact i4 x hx

/-- The text of the tokens before a cut and after it. -/
theorem spv_cut {src : Str} {b : Bool} {t1 t2 : List Token} {v : V} (hv : Valid v) (h : SpV src b (t1 ++ t2) v) :
    ∃ v1 v2, v = v1 ++ v2 ∧ SpV src b t1 v1 ∧ SpV src (flag b v1) t2 v2 ∧
      ∀ p, (pieces (render v1)).getLast? = some p → joinOk p (render v2) = true := by
  obtain ⟨p1, p2, e, h1, h2⟩ := sp_cut h
  obtain ⟨c1, c2, c3, c4⟩ := pieces_cut (dangling_render hv) e
  have hform := pieces_form (render v)
  have hview := pieces_view hv
  rw [e] at hform hview
  have hr : ∀ {ps : List Piece}, (∀ p ∈ ps, p.text ≠ []) → render (ps.flatMap pview) = srcOf ps := by
    intro ps
    induction ps with
    | nil => intro _; rfl
    | cons p ps ih =>
      intro hp
      rw [List.flatMap_cons, render_append, pview_src (hp p (by simp)), ih (fun q hq => hp q (by simp [hq])), srcOf_cons]
  have hne : ∀ p ∈ p1 ++ p2, p.text ≠ [] := fun p hp => form_ne_nil (hform p hp).1
  have r1 := hr (ps := p1) (fun p hp => hne p (by simp [hp]))
  have r2 := hr (ps := p2) (fun p hp => hne p (by simp [hp]))
  refine ⟨p1.flatMap pview, p2.flatMap pview, by rw [← List.flatMap_append, hview], ?_, ?_, ?_⟩
  · unfold SpV; rw [r1, c1]; exact h1
  · unfold SpV; rw [r2, c2, flag_pieces (fun q hq => hform q (by simp [hq]))]; exact h2
  · rw [r1, r2, c1]; exact c4

/-- The same when it is known where the cut is. -/
theorem spv_take {src : Str} {b : Bool} {t1 t2 : List Token} {v X : V} (hv : Valid (v ++ X)) (h : SpV src b (t1 ++ t2) (v ++ X))
    (hl : (textOfToks src t1).length = v.length) : SpV src b t1 v ∧ SpV src (flag b v) t2 X ∧
      ∀ p, (pieces (render v)).getLast? = some p → joinOk p (render X) = true := by
  obtain ⟨v1, v2, e, h1, h2, h3⟩ := spv_cut hv h
  have hv1 : Valid v1 := by rw [e] at hv; exact hv.left
  have := congrArg List.length (spv_text hv1 h1)
  rw [hl, List.length_map] at this
  obtain ⟨rfl, rfl⟩ := List.append_inj e this
  exact ⟨h1, h2, h3⟩

/-- A text that is not the start of a blank line does not end with a line break where a line break follows. -/
theorem cut_clean {src : Str} {b : Bool} {ts : List Token} {v X : V} (hv : Valid v) (h : SpV src b ts v) (hn : NoTerm ts)
    (hj : ∀ p, (pieces (render v)).getLast? = some p → joinOk p (render (free ['\n'] ++ X)) = true) : CleanEnd v := by
  have hX : render (free ['\n'] ++ X) = '\n' :: render X := by rw [render_append, render_free_all]; rfl
  rw [hX] at hj
  cases hp : (pieces (render v)).getLast? with
  | none =>
    have h0 := pieces_view hv
    rw [List.getLast?_eq_none_iff.1 hp] at h0
    have : v = [] := h0.symm
    subst this
    simp [CleanEnd]
  | some p =>
    obtain ⟨hf, he, hl⟩ := last_piece hv hp
    have hjp := hj p hp
    have hpt : p.kind ≠ .Terminator := by
      intro e
      have hmem : p ∈ pieces (render v) := List.mem_of_getLast? hp
      have hk : ∀ {b : Bool} {ts : List Token} {ps : List Piece}, Sp src b ts ps → ∀ p ∈ ps, ∃ t ∈ ts, t.kind = p.kind := by
        intro b ts ps
        induction ps generalizing b ts with
        | nil => intro _ p hp; simp at hp
        | cons q ps ih =>
          intro hs p hp
          cases ts with
          | nil => simp [Sp] at hs
          | cons t ts =>
            rcases List.mem_cons.1 hp with rfl | hp
            · exact ⟨t, by simp, hs.1.kind⟩
            · obtain ⟨u, hu, e⟩ := ih hs.2 p hp
              exact ⟨u, by simp [hu], e⟩
      obtain ⟨t, ht, hk⟩ := hk h p hmem
      exact hn t ht (hk.trans e)
    have key : ∀ c, (c = '\n' ∨ c = '\r') → v.getLast? ≠ some (false, c) := by
      intro c hc hvc
      rw [hl] at hvc
      have hmem : (false, c) ∈ pview p := List.mem_of_getLast? hvc
      cases hk : p.kind with
      | Eol => rw [joinOk, hk] at hjp; simp [lineBreak] at hjp
      | Terminator => exact hpt hk
      | Literal =>
        rw [joinOk, hk] at hjp
        simp only [Bool.and_eq_true] at hjp
        have hlast : (if p.esc then p.text.tail else p.text).getLast? = some c := by
          unfold pview at hvc
          cases ht : p.text with
          | nil => rw [ht] at hvc; simp at hvc
          | cons x r =>
            rw [ht] at hvc
            cases hes : p.esc with
            | false =>
              rw [hes] at hvc
              simp only at hvc
              rw [show ((false, x) :: free r) = free (x :: r) from rfl, free_getLast] at hvc
              cases hq : (x :: r).getLast? with
              | none => rw [hq] at hvc; simp at hvc
              | some y => rw [hq] at hvc; simp at hvc; simp [hq, hvc]
            | true =>
              rw [hes] at hvc
              simp only at hvc
              cases r with
              | nil => simp [free] at hvc
              | cons y r =>
                rw [show free (y :: r) = (false, y) :: free r from rfl, List.getLast?_cons_cons,
                  show ((false, y) :: free r) = free (y :: r) from rfl, free_getLast] at hvc
                cases hq : (y :: r).getLast? with
                | none => rw [hq] at hvc; simp at hvc
                | some z => rw [hq] at hvc; simp at hvc; simp [hq, hvc]
        rcases hc with rfl | rfl
        · rcases nl_piece hf he hmem with h | h <;> rw [hk] at h <;> simp at h
        · rw [hlast] at hjp
          simp [tailOk] at hjp
      | _ =>
        rw [hk] at hf
        have ht : c ∈ p.text := by rw [← pview_chars]; exact List.mem_map.2 ⟨_, hmem, rfl⟩
        simp only [KindText, runCharOf, fixedText] at hf
        first
          | (have := hf.2 _ ht
             subst this
             revert hc; decide)
          | (simp only [Option.some.injEq] at hf
             rw [← hf] at ht
             rcases hc with rfl | rfl <;> (revert ht; decide))
    exact ⟨key _ (.inl rfl), key _ (.inr rfl)⟩

end Yamd.Round
