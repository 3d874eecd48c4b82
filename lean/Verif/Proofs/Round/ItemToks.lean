import Verif.Proofs.Round.ItemLine
import Verif.Proofs.Own

/-!
# Lists read back: the tokens of the text of an item do not end it
-/

namespace Yamd.Round

open Yamd Yamd.Spec Yamd.Lexer Yamd.Ref

def markOf : ListKind → Char
  | .Unordered => '-'
  | .Ordered => '+'

theorem markOf_kindOf (ty : ListTypes) : markOf (kindOf ty) = ty.marker := by cases ty <;> rfl

section
variable {src : Str}

theorem run_one {b t p k c n} (hs : SpT src b t p) (hf : KindText p.kind p.esc p.text) (he : p.esc = true → p.kind = .Literal)
    (hk : runCharOf k = some c) (h : tokenIsA k n t) : pview p = free (List.replicate n c) := by
  have hk' : runCharOf p.kind = some c := by rw [← hs.kind, h.1]; exact hk
  obtain ⟨e1, e2⟩ := pview_run hf he hk'
  have e3 := run_len hf hk'
  have e4 : t.len = n := h.2
  rw [hs.len, e3] at e4
  rw [e1, e4]; simp [free]

theorem bullet_one {b t p other} (hs : SpT src b t p) (hf : KindText p.kind p.esc p.text) (he : p.esc = true → p.kind = .Literal)
    (h : bulletOf other t) : ∃ m, isMarker m ∧ pview p = free [m] ∧ ∀ k : ListKind, other = k.node → m = markOf k := by
  rcases h with ⟨rfl, h⟩ | ⟨rfl, h⟩
  · refine ⟨'-', .inl rfl, run_one hs hf he (by rfl) h, fun k hk => ?_⟩
    cases k <;> simp [ListKind.node] at hk ⊢; rfl
  · refine ⟨'+', .inr rfl, run_one hs hf he (by rfl) h, fun k hk => ?_⟩
    cases k <;> simp [ListKind.node] at hk ⊢; rfl

/-- Tokens that cannot be inside the marker of an item. -/
def NoMark (E : List Token) : Prop := ∀ t ∈ E.head?, t.kind ≠ .Space ∧ t.kind ≠ .Minus ∧ t.kind ≠ .Plus

theorem bullet_kind {other t} (h : bulletOf other t) : t.kind = .Minus ∨ t.kind = .Plus := by
  rcases h with ⟨-, h⟩ | ⟨-, h⟩
  · exact .inl h.1
  · exact .inr h.1

theorem NoItem.tail {level own} {u v : V} (h : NoItem level own (u ++ v)) : NoItem level own v := by
  intro x w e
  exact h (u ++ x) w (by rw [e]; simp)

/-- The tokens of a text without item lines do not end the item. -/
theorem sp_unstopped {level k E} (hE : NoMark E) : ∀ {b : Bool} {ts : List Token} {ps : List Piece}, Sp src b ts ps →
    (∀ p ∈ ps, KindText p.kind p.esc p.text ∧ (p.esc = true → p.kind = .Literal)) → SpaceEnds ps →
    (b = true → ¬ startsV level (markOf k) (ps.flatMap pview)) → NoItem level (markOf k) (ps.flatMap pview) →
    Unstopped [.ListBoundary level k] ts E
  | _, [], _, _, _, _, _, _ => trivial
  | _, _ :: _, [], h, _, _, _, _ => by simp [Sp] at h
  | b, t :: ts, p :: ps, h, hf, ha, hb, hn => by
    have hp := hf p (by simp)
    have hf' : ∀ q ∈ ps, KindText q.kind q.esc q.text ∧ (q.esc = true → q.kind = .Literal) := fun q hq => hf q (by simp [hq])
    rw [List.flatMap_cons] at hn hb
    refine ⟨?_, sp_unstopped hE h.2 hf' ha.2 ?_ hn.tail⟩
    · cases hst : stopAt [.ListBoundary level k] (t :: (ts ++ E)) with
      | false => rfl
      | true =>
        exfalso
        simp only [stopAt, List.any_cons, List.any_nil, Bool.or_false] at hst
        obtain ⟨n, other, h1, h2, h3⟩ := list_stop.1 hst
        rcases h3 with ⟨rfl, b', s, r', e, h4, h5, h6⟩ | ⟨h0, i, b', s, r', e, h4, h5, h6, h7⟩
        · simp only [List.cons.injEq] at e
          obtain ⟨rfl, e⟩ := e
          have hbt : b = true := by rw [← h.1.col]; exact atColumn0_iff.2 h4
          cases ts with
          | nil =>
            rw [List.nil_append] at e
            exact (hE s (by rw [e]; rfl)).1 h6.1
          | cons s' ts =>
            simp only [List.cons_append, List.cons.injEq] at e
            obtain ⟨rfl, -⟩ := e
            cases ps with
            | nil => have := h.2; simp [Sp] at this
            | cons q ps =>
              have hq := hf' q (by simp)
              obtain ⟨m, m1, m2, m3⟩ := bullet_one h.1 hp.1 hp.2 h5
              have e2 := run_one h.2.1 hq.1 hq.2 (c := ' ') (by rfl) h6
              refine hb hbt ⟨0, m, ps.flatMap pview, ?_, m1, h1, fun e => m3 k (h2 e), ?_⟩
              · rw [List.flatMap_cons, m2, e2]; rfl
              · rw [frontV_eq (fun x hx => hf' x (by simp [hx]))]
                exact ha.2.1 (by rw [← h.2.1.kind]; exact h6.1)
        · simp only [List.cons.injEq] at e
          obtain ⟨rfl, e⟩ := e
          have hbt : b = true := by rw [← h.1.col]; exact atColumn0_iff.2 h4
          match ts, ps, h, e with
          | [], ps, h, e =>
            rw [List.nil_append] at e
            have := hE b' (by rw [e]; rfl)
            rcases bullet_kind h6 with h | h
            · exact this.2.1 h
            · exact this.2.2 h
          | [x], ps, h, e =>
            simp only [List.cons_append, List.nil_append, List.cons.injEq] at e
            exact (hE s (by rw [e.2]; rfl)).1 h7.1
          | x :: y :: ts, [], h, e => have := h.2; simp [Sp] at this
          | x :: y :: ts, [q], h, e => have := h.2.2; simp [Sp] at this
          | x :: y :: ts, q :: z :: ps, h, e =>
            simp only [List.cons_append, List.cons.injEq] at e
            obtain ⟨rfl, rfl, -⟩ := e
            have hq := hf' q (by simp)
            have hz := hf' z (by simp)
            obtain ⟨m, m1, m2, m3⟩ := bullet_one h.2.1 hq.1 hq.2 h6
            have e1 := run_one h.1 hp.1 hp.2 (c := ' ') (by rfl) h5
            have e2 := run_one h.2.2.1 hz.1 hz.2 (c := ' ') (by rfl) h7
            refine hb hbt ⟨n, m, ps.flatMap pview, ?_, m1, h1, fun e => m3 k (h2 e), ?_⟩
            · rw [List.flatMap_cons, List.flatMap_cons, m2, e2, e1]; simp [free]
            · rw [frontV_eq (fun x hx => hf' x (by simp [hx]))]
              exact ha.2.2.1 (by rw [← h.2.2.1.kind]; exact h7.1)
    · intro hnl
      have := pview_nl hp.1 hp.2
      rw [hnl] at this
      simp only [beq_iff_eq] at this
      obtain ⟨u, hu⟩ := List.getLast?_eq_some_iff.1 this
      exact hn u _ (by rw [hu]; simp)

/-- The tokens of a view without item lines do not end the item. -/
theorem spv_unstopped {level k E v ts} (hv : Valid v) (h : SpV src false ts v) (hE : NoMark E) (hn : NoItem level (markOf k) v) :
    Unstopped [.ListBoundary level k] ts E := by
  refine sp_unstopped hE h (pieces_form (render v)) (pieces_spaceEnds _) (by simp) ?_
  rw [pieces_view hv]; exact hn

end

/-- Both kinds of stops. -/
theorem unstopped_cons {s : Stop} {S : List Stop} : ∀ {a rest : List Token}, Unstopped [s] a rest → Unstopped S a rest →
    Unstopped (s :: S) a rest
  | [], _, _, _ => trivial
  | t :: a, rest, h1, h2 => by
    refine ⟨?_, unstopped_cons h1.2 h2.2⟩
    have e1 := h1.1
    have e2 := h2.1
    simp only [stopAt, List.any_cons, List.any_nil, Bool.or_false] at e1 e2 ⊢
    rw [e1, e2]; rfl

/-- What follows does not matter, unless it closes a collapsible. -/
theorem unstopped_rest {stops : List Stop} (hd : DStops stops) {rest : List Token} (hr : closesColl rest = false) :
    ∀ {a : List Token}, Unstopped (.Terminator :: stops) a [] → Unstopped (.Terminator :: stops) a rest
  | [], _ => trivial
  | t :: a, h => by
    refine ⟨?_, unstopped_rest hd hr h.2⟩
    have h1 := h.1
    simp only [stopAt, List.any_cons, Bool.or_eq_false_iff, List.any_eq_false, List.append_nil] at h1 ⊢
    refine ⟨h1.1, fun s hs => ?_⟩
    have h2 := h1.2 s hs
    rw [hd s hs] at h2 ⊢
    cases a with
    | cons u a => exact h2
    | nil =>
      simp only [List.nil_append, stopHere] at h2 ⊢
      unfold closesColl at hr
      simp only [Bool.not_eq_true] at h2 ⊢
      rw [hr]
      simpa [tokenIs] using h2

end Yamd.Round
