import Verif.Proofs.Round.ParaBlock

/-!
# After a run of a character there is none of it
-/

namespace Yamd.Round

open Yamd Yamd.Spec Yamd.Lexer Yamd.Ref

theorem ite_no {c : Prop} [Decidable c] {x : TokenKind} {y : Option TokenKind} (hx : runCharOf x = none) (hy : y.all (fun k => (runCharOf k).isNone) = true) :
    (if c then some x else y).all (fun k => (runCharOf k).isNone) = true := by
  split
  · simp [hx]
  · exact hy

theorem singleKind_run (c : Char) : (singleKind c).all (fun k => (runCharOf k).isNone) = true := by
  unfold singleKind
  repeat' (first | refine ite_no rfl ?_ | rfl)

theorem runKind_char {c : Char} {k : TokenKind} (h : runKind c = some k) : runCharOf k = some c := by
  rcases runKind_cases h with h | h | h | h | h | h | h | h | h | h | h
  all_goals (rw [h.1, h.2]; rfl)

/-- After a run of a character there is none of it. -/
theorem tok1_runEnd {s : Str} {p : Piece} {r : Str} {d : Char} (h : tok1 s = some (p, r)) (hk : runCharOf p.kind = some d) :
    r.head? ≠ some d := by
  cases s with
  | nil => simp [tok1] at h
  | cons c s =>
    rw [tok1.eq_def] at h; simp only at h
    split at h
    · split at h
      · simp at h
      · simp only [Option.some.injEq, Prod.mk.injEq] at h
        rw [← h.1] at hk; simp [runCharOf] at hk
    · split at h
      · split at h
        · simp only [Option.some.injEq, Prod.mk.injEq] at h
          rw [← h.1] at hk; simp [runCharOf] at hk
        · simp only [Option.some.injEq, Prod.mk.injEq] at h
          rw [← h.1] at hk; simp [runCharOf] at hk
      · simp only [Option.some.injEq] at h
        rw [tokPlain] at h
        split at h
        · rw [← (Prod.mk.inj h).1] at hk; simp [runCharOf] at hk
        · split at h
          · rw [← (Prod.mk.inj h).1] at hk; simp [runCharOf] at hk
          · split at h
            · rename_i k hk2
              rw [← (Prod.mk.inj h).1] at hk
              simp only at hk
              rw [runKind_char hk2] at hk
              have hcd := Option.some.inj hk
              rw [← (Prod.mk.inj h).2, ← hcd]
              intro hh
              have := List.head?_dropWhile_not (· == c) s
              rw [hh] at this
              simp at this
            · split at h
              · rename_i k hk2
                rw [← (Prod.mk.inj h).1] at hk
                simp only at hk
                have := singleKind_run c
                rw [hk2] at this
                simp [hk] at this
              · rw [← (Prod.mk.inj h).1] at hk; simp [runCharOf] at hk

/-- After a run of a character there is none of it. -/
def RunEnds : List Piece → Prop
  | [] => True
  | p :: ps => (∀ d, runCharOf p.kind = some d → frontV ps ≠ some (false, d)) ∧ RunEnds ps

theorem pieces_runEnds (s : Str) : RunEnds (pieces s) := by
  induction s using pieces_induction with
  | h0 s h => rw [pieces_none h]; trivial
  | h1 s p r h ih =>
    rw [pieces_some h]
    refine ⟨fun d hk hf => ?_, ih⟩
    have h1 := tok1_runEnd h hk
    cases h2 : tok1 r with
    | none => rw [pieces_none h2] at hf; simp [frontV] at hf
    | some x =>
      obtain ⟨q, r'⟩ := x
      rw [pieces_some h2] at hf
      have h3 := tok1_src h2
      simp only [frontV, pview] at hf
      cases ht : q.text with
      | nil => rw [ht] at hf; simp at hf
      | cons c t =>
        rw [ht] at hf
        simp only [List.head?_cons, Option.some.injEq, Prod.mk.injEq] at hf
        rw [h3, Piece.src, ht, hf.1, hf.2] at h1
        simp at h1

theorem RunEnds.right : ∀ {a b : List Piece}, RunEnds (a ++ b) → RunEnds b
  | [], _, h => h
  | _ :: a, _, h => RunEnds.right (a := a) h.2

theorem sp_cut {src : Str} : ∀ {b : Bool} {t1 t2 : List Token} {ps : List Piece}, Sp src b (t1 ++ t2) ps →
    ∃ p1 p2, ps = p1 ++ p2 ∧ Sp src b t1 p1 ∧ Sp src (endFlag b p1) t2 p2
  | b, [], t2, ps, h => ⟨[], ps, rfl, trivial, h⟩
  | b, t :: t1, t2, [], h => by simp [Sp] at h
  | b, t :: t1, t2, p :: ps, h => by
    obtain ⟨h1, h2⟩ := h
    obtain ⟨p1, p2, rfl, h3, h4⟩ := sp_cut h2
    exact ⟨p :: p1, p2, rfl, ⟨h1, h3⟩, by rw [endFlag_cons]; exact h4⟩

theorem pieces_chars (ps : List Piece) : (ps.flatMap pview).map Prod.snd = ps.flatMap Piece.text := by
  induction ps with
  | nil => rfl
  | cons p ps ih =>
    rw [List.flatMap_cons, List.map_append, ih, List.flatMap_cons]
    congr 1
    unfold pview
    cases p.text with
    | nil => rfl
    | cons c r => simp [free, Function.comp_def]

/-- A token that is a run, where it stands: what is before it and after it; the next unescaped character is another one. -/
theorem spv_at_run {src : Str} {b : Bool} {t1 t2 : List Token} {v : V} {t : Token} {c : Char} (hv : Valid v)
    (h : SpV src b (t1 ++ t :: t2) v) (hk : runCharOf t.kind = some c) :
    ∃ v1 v2, v = v1 ++ (free (List.replicate t.len c) ++ v2) ∧ v1.map Prod.snd = textOfToks src t1 ∧
      v2.map Prod.snd = textOfToks src t2 ∧ (col0 t = true → flag b v1 = true) ∧ v2.head? ≠ some (false, c) := by
  obtain ⟨p1, q, e, h1, h2⟩ := sp_cut h
  cases q with
  | nil => simp [Sp] at h2
  | cons p p2 =>
    obtain ⟨hs, h3⟩ := h2
    have hform := pieces_form (render v)
    have hview := pieces_view hv
    have hend := pieces_runEnds (render v)
    rw [e] at hview hform hend
    have hpf := hform p (by simp)
    refine ⟨p1.flatMap pview, p2.flatMap pview, ?_, ?_, ?_, ?_, ?_⟩
    · obtain ⟨e1, -, -⟩ := spt_run hs hpf.1 hpf.2 hk
      rw [← e1, ← hview]; simp
    · rw [pieces_chars, sp_text h1]
    · rw [pieces_chars, sp_text h3]
    · intro hc
      rw [flag_pieces (fun q hq => hform q (by simp [hq]))]
      rw [hs.col] at hc
      exact hc
    · have := RunEnds.right hend
      rw [frontV_eq (fun r hr => hform r (by simp [hr]))]
      exact this.1 c (by rw [← hs.kind]; exact hk)

/-- A token that is a run, where it stands: the next unescaped character is another one. -/
theorem spv_mem_run {src : Str} {b : Bool} {ts : List Token} {v : V} {t : Token} {c : Char} (hv : Valid v) (h : SpV src b ts v)
    (ht : t ∈ ts) (hk : runCharOf t.kind = some c) : ∃ v1 v2, v = v1 ++ (free (List.replicate t.len c) ++ v2) ∧
      (col0 t = true → flag b v1 = true) ∧ v2.head? ≠ some (false, c) := by
  obtain ⟨t1, t2, rfl⟩ := List.append_of_mem ht
  obtain ⟨v1, v2, e, -, -, h1, h2⟩ := spv_at_run hv h hk
  exact ⟨v1, v2, e, h1, h2⟩

end Yamd.Round
