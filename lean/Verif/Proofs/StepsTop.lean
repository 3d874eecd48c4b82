import Verif.Proofs.StepsDoc
import Verif.Proofs.ParseEq

/-!
# The number of steps of `parse`
-/

namespace Yamd.Ref

open Yamd Counted Yamd.Spec Yamd.Props Lexer

theorem weight_place (s : Str) : ∀ (pos col row : Nat),
    weight (place pos col row (pieces s)) ≤ 2 * blen s := by
  induction s using pieces_induction with
  | h0 s h => intros; rw [pieces_none h]; simp [place, weight]
  | h1 s p r h ih =>
    intro pos col row
    rw [pieces_some h]
    have hsrc := tok1_src h
    have hpos := blen_pos (form_ne_nil (tok1_form h).1)
    have hb : blen p.text + blen r ≤ blen s := by
      rw [hsrc, blen_append]; simp only [Piece.src, blen_append]; omega
    simp only [place, weight_cons, tokenOf, Token.len]
    refine Nat.le_trans (Nat.add_le_add_left (ih _ _ _) _) ?_
    omega

theorem weight_tokens (input : Str) : weight (tokens input) ≤ 2 * blen input := weight_place _ _ _ _

theorem steps_arith {M n : Nat} (hM : n + 8 ≤ M) :
    M * (n + 3) + (1 + (92 * (M * M * M) * (n + 1) + 92 * (M * M * M) * M * n)) ≤ 93 * (M * M * M * M * M) := by
  have h1 : M * (n + 3) + 1 ≤ M * M := by
    have : M * (n + 4) ≤ M * M := Nat.mul_le_mul_left _ (by omega)
    rw [Nat.mul_add] at this ⊢; omega
  have h2 : 92 * (M * M * M) * (n + 1) ≤ 92 * (M * M * M) * M := Nat.mul_le_mul_left _ (by omega)
  have h3 : 92 * (M * M * M) * M * n + 92 * (M * M * M) * M + (M * M * M * M) ≤ 93 * (M * M * M * M * M) := by
    have e : 92 * (M * M * M) * M * n + 92 * (M * M * M) * M = 92 * (M * M * M) * M * (n + 1) := by
      rw [Nat.mul_add _ n 1, Nat.mul_one]
    have h : 92 * (M * M * M) * M * (n + 1) ≤ 92 * (M * M * M) * M * M := Nat.mul_le_mul_left _ (by omega)
    have e2 : 92 * (M * M * M) * M * M = 92 * (M * M * M * M * M) := by simp only [Nat.mul_assoc]
    have h4 : M * M * M * M * 1 ≤ M * M * M * M * M := Nat.mul_le_mul_left _ (by omega)
    omega
  have h5 : M * M * 1 ≤ M * M * (M * M) := Nat.mul_le_mul_left _ (Nat.mul_le_mul (m₁ := 1) (n₁ := 1) (by omega) (by omega))
  have e3 : M * M * (M * M) = M * M * M * M := by simp only [Nat.mul_assoc]
  omega

theorem document_cost {src : Str} {ts pre : List Token} {ops : List Op} {fuel M : Nat} (hf : 3 * ts.length + 4 ≤ fuel)
    (hg : Good src ts) (hw : weight (pre ++ ts) + 9 ≤ M) :
    (Steps.document fuel (st src pre ts [] ops)).cost ≤
      1 + (92 * (M * M * M) * (ts.length + 1) + 92 * (M * M * M) * M * ts.length) := by
  cases fuel with
  | zero => omega
  | succ f =>
    rw [Steps.document, cost_tick]
    refine Nat.add_le_add_left ?_ _
    have e : (st src pre ts [] ops).push (.start .Document emptyContent)
        = st src pre ts [] (ops ++ [.start .Document emptyContent]) := rfl
    rw [e]
    have hl := length_le_weight ts
    rw [weight_append] at hw
    have h := documentLoop_cost (src := src) (M := M) (Nat.le_refl _) (Nat.le_refl _) ts.length (ts := ts) (pre := pre)
      (ops := ops ++ [.start .Document emptyContent]) (fuel := f) (eof := []) (Nat.le_refl _) (by omega) hg
      (by rw [weight_append]; omega)
      (by show 1 + ts.length + 8 ≤ M; omega)
    have ho := collOpens_le ts
    have ho2 : 92 * (M * M * M) * M * Yamd.Ref.collOpens ts ≤ 92 * (M * M * M) * M * ts.length := Nat.mul_le_mul_left _ ho
    refine Nat.le_trans (cost_le (A := 92 * (M * M * M) * (ts.length + 1) + 92 * (M * M * M) * M * ts.length) (B := 0) ?_ ?_) (Nat.le_refl _)
    · omega
    · intros; exact Nat.le_refl _

/-- The number of steps is polynomial. -/
theorem parse_cost (input : Str) :
    (Steps.parse input).cost ≤ 93 * (2 * blen input + 9) ^ 5 := by
  have hw := weight_tokens input
  have hl := length_le_weight (tokens input)
  generalize hM : 2 * blen input + 9 = M
  have hg := good_tokens input
  have hv : (P.ofStr input) = .ok (st input [] (tokens input) [] []) := by
    unfold P.ofStr
    rw [Lexer.lex_eq]; rfl
  have e5 : M ^ 5 = M * M * M * M * M := by simp only [Nat.pow_succ, Nat.pow_zero, Nat.one_mul]
  rw [e5]
  refine Nat.le_trans ?_ (steps_arith (M := M) (n := (tokens input).length) (by omega))
  rw [Steps.parse, cost_ok (a := st input [] (tokens input) [] []) (by rw [Counted.val_paid]; exact hv), cost_paid, Nat.zero_add]
  have hmeta : (Steps.metadata (st input [] (tokens input) [] [])).val = _ :=
    val_of (Steps.metadata_val) (delimited_refines isThreeDashes isThreeDashes .Metadata) hg
  refine cost_le (delimited_cost' ⟨by simp only [List.nil_append]; omega, by show 1 + 2 ≤ M; omega⟩) ?_
  intro a ha
  rw [hmeta] at ha
  cases hd : delimB isThreeDashes isThreeDashes .Metadata [] (tokens input) with
  | none =>
    rw [hd] at ha
    cases ha
    refine Nat.le_trans (cost_le (B := 0) (document_cost (M := M) (by simp [st]) hg (by simp only [List.nil_append]; omega)) ?_) (Nat.le_refl _)
    intros; exact Nat.le_refl _
  | some x =>
    obtain ⟨d, r⟩ := x
    rw [hd] at ha
    cases ha
    have tk := delimB_toks hd
    have hr : r.length ≤ (tokens input).length := by rw [tk]; simp
    rw [tk] at hg
    refine Nat.le_trans (cost_le (B := 0) (document_cost (M := M) (by simp [st]; omega) hg.append_right ?_) ?_) ?_
    · simp only [List.nil_append]; rw [← tk]; omega
    · intros; exact Nat.le_refl _
    · have h1 : 92 * (M * M * M) * (r.length + 1) ≤ 92 * (M * M * M) * ((tokens input).length + 1) :=
        Nat.mul_le_mul_left _ (by omega)
      have h2 : 92 * (M * M * M) * M * r.length ≤ 92 * (M * M * M) * M * (tokens input).length :=
        Nat.mul_le_mul_left _ hr
      omega

end Yamd.Ref
