import Verif.Proofs.Round.DocExec

/-!
# After a run of spaces there is no space
-/

namespace Yamd.Round

open Yamd Yamd.Spec Yamd.Lexer Yamd.Ref

theorem ite_ne {c : Prop} [Decidable c] {x k : TokenKind} {y : Option TokenKind} (hx : x ≠ k) (hy : y ≠ some k) :
    (if c then some x else y) ≠ some k := by
  split
  · simpa using hx
  · exact hy

theorem singleKind_space (c : Char) : singleKind c ≠ some .Space := by
  unfold singleKind
  repeat' (first | refine ite_ne (by simp) ?_ | simp)

/-- After a run of spaces there is no space. -/
theorem tok1_spaceEnd {s : Str} {p : Piece} {r : Str} (h : tok1 s = some (p, r)) (hk : p.kind = .Space) : r.head? ≠ some ' ' := by
  cases s with
  | nil => simp [tok1] at h
  | cons c s =>
    rw [tok1.eq_def] at h; simp only at h
    split at h
    · split at h
      · simp at h
      · simp only [Option.some.injEq, Prod.mk.injEq] at h
        rw [← h.1] at hk; simp at hk
    · split at h
      · split at h
        · simp only [Option.some.injEq, Prod.mk.injEq] at h
          rw [← h.1] at hk; simp at hk
        · simp only [Option.some.injEq, Prod.mk.injEq] at h
          rw [← h.1] at hk; simp at hk
      · simp only [Option.some.injEq] at h
        rw [tokPlain] at h
        split at h
        · rw [← (Prod.mk.inj h).1] at hk; simp at hk
        · split at h
          · rw [← (Prod.mk.inj h).1] at hk; simp at hk
          · split at h
            · rename_i k hk2
              rw [← (Prod.mk.inj h).1] at hk
              simp only at hk
              subst hk
              have hc : c = ' ' := by
                rcases runKind_cases hk2 with h | h | h | h | h | h | h | h | h | h | h
                all_goals first | exact h.1 | exact absurd h.2 (by simp)
              subst hc
              rw [← (Prod.mk.inj h).2]
              intro hh
              have := List.head?_dropWhile_not (· == ' ') s
              rw [hh] at this
              simp at this
            · split at h
              · rename_i k hk2
                rw [← (Prod.mk.inj h).1] at hk
                simp only at hk
                subst hk
                exact absurd hk2 (singleKind_space c)
              · rw [← (Prod.mk.inj h).1] at hk; simp at hk

/-- The front of the view of some pieces. -/
def frontV : List Piece → Option (Bool × Char)
  | [] => none
  | p :: _ => (pview p).head?

/-- After a piece of spaces there is no space. -/
def SpaceEnds : List Piece → Prop
  | [] => True
  | p :: ps => (p.kind = .Space → frontV ps ≠ some (false, ' ')) ∧ SpaceEnds ps

theorem pieces_spaceEnds (s : Str) : SpaceEnds (pieces s) := by
  induction s using pieces_induction with
  | h0 s h => rw [pieces_none h]; trivial
  | h1 s p r h ih =>
    rw [pieces_some h]
    refine ⟨fun hk hf => ?_, ih⟩
    have h1 := tok1_spaceEnd h hk
    cases h2 : tok1 r with
    | none => rw [pieces_none h2] at hf; simp [frontV] at hf
    | some x =>
      obtain ⟨q, r'⟩ := x
      rw [pieces_some h2] at hf
      have h3 := tok1_src h2
      simp only [frontV, pview] at hf
      cases ht : q.text with
      | nil => rw [ht] at hf; simp at hf
      | cons c t =>
        rw [ht] at hf
        simp only [List.head?_cons, Option.some.injEq, Prod.mk.injEq] at hf
        rw [h3, Piece.src, ht, hf.1, hf.2] at h1
        simp at h1

theorem frontV_eq : ∀ {ps : List Piece}, (∀ p ∈ ps, KindText p.kind p.esc p.text ∧ (p.esc = true → p.kind = .Literal)) →
    (ps.flatMap pview).head? = frontV ps
  | [], _ => rfl
  | p :: ps, h => by
    have hne : pview p ≠ [] := by
      have := form_ne_nil (h p (by simp)).1
      unfold pview
      cases ht : p.text with
      | nil => exact absurd ht this
      | cons c r => simp
    rw [List.flatMap_cons]
    cases hp : pview p with
    | nil => exact absurd hp hne
    | cons x r => simp [frontV, hp]

/-- After a single space token the next unescaped character is not a space. -/
theorem spv_space {src : Str} {b : Bool} {t u : Token} {ts : List Token} {v : V} (hv : Valid v)
    (h : SpV src b (t :: u :: ts) v) (hu : u.kind = .Space) : ∃ p q v2, v = pview p ++ (pview q ++ v2) ∧
      SpT src b t p ∧ SpT src (isNl p) u q ∧ v2.head? ≠ some (false, ' ') := by
  unfold SpV at h
  have hform := pieces_form (render v)
  have hview := pieces_view hv
  have hend := pieces_spaceEnds (render v)
  cases hp : pieces (render v) with
  | nil => rw [hp] at h; simp [Sp] at h
  | cons p ps =>
    rw [hp] at h hform hview hend
    cases ps with
    | nil => simp [Sp] at h
    | cons q ps =>
      rw [List.flatMap_cons, List.flatMap_cons] at hview
      refine ⟨p, q, ps.flatMap pview, hview.symm, h.1, h.2.1, ?_⟩
      rw [frontV_eq (fun r hr => hform r (by simp [hr]))]
      exact hend.2.1 (by rw [← h.2.1.kind]; exact hu)

end Yamd.Round
