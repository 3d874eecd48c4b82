import Verif.Proofs.Round.Quiet

/-!
# A blank line that is left makes a blank line token
-/

namespace Yamd.Round

open Yamd Yamd.Spec Yamd.Lexer Yamd.Ref

/-- The first piece of a rendered view is a part of the view. -/
theorem first_piece {v : V} (hv : Valid v) (hne : v ≠ []) : ∃ p v2, v = pview p ++ v2 ∧
    tok1 (render v) = some (p, render v2) ∧ pieces (render v) = p :: pieces (render v2) := by
  cases h : tok1 (render v) with
  | none =>
    exfalso
    cases v with
    | nil => exact hne rfl
    | cons x v =>
      obtain ⟨e, c⟩ := x
      rcases tok1_none h with h | h
      · cases e
        · rw [render_free] at h; simp at h
        · rw [render_esc] at h; simp at h
      · cases e
        · rw [render_free] at h
          simp only [List.cons.injEq] at h
          exact hv (by rw [h.1]; simp)
        · rw [render_esc] at h; simp at h
  | some x =>
    obtain ⟨p, r⟩ := x
    have h1 := pieces_some h
    have h2 := pieces_view hv
    rw [h1, List.flatMap_cons] at h2
    have h3 := tok1_src h
    have h4 : render v = p.src ++ render ((pieces r).flatMap pview) := by
      conv => lhs; rw [← h2]
      rw [render_append, pview_src (form_ne_nil (tok1_form h).1)]
    have h5 : r = render ((pieces r).flatMap pview) := by
      rw [h3] at h4
      exact List.append_cancel_left h4
    exact ⟨p, (pieces r).flatMap pview, h2.symm, by rw [← h5], by rw [h1, ← h5]⟩

/-- A piece with an unescaped line feed is a line break. -/
theorem nl_piece {p : Piece} (hf : KindText p.kind p.esc p.text) (he : p.esc = true → p.kind = .Literal)
    (h : (false, '\n') ∈ pview p) : p.kind = .Terminator ∨ p.kind = .Eol ∧ (pview p = free ['\n'] ∨ pview p = free ['\r', '\n']) := by
  have ht : '\n' ∈ p.text := by rw [← pview_chars]; exact List.mem_map.2 ⟨_, h, rfl⟩
  cases hk : p.kind with
  | Terminator => exact .inl rfl
  | Eol =>
    have hesc : p.esc = false := by
      cases h : p.esc with
      | false => rfl
      | true => rw [he h] at hk; cases hk
    rw [hk] at hf
    refine .inr ⟨rfl, ?_⟩
    rcases hf with e | e <;> simp [pview, e, hesc, free]
  | Literal =>
    exfalso
    rw [hk] at hf
    obtain ⟨c, r, e, h2, h3⟩ := hf
    unfold pview at h
    rw [e] at h
    rcases List.mem_cons.1 h with h4 | h4
    · simp only [Prod.mk.injEq] at h4
      exact (h3 h4.1.symm).1 (by rw [← h4.2]; simp [specials])
    · obtain ⟨x, hx, e2⟩ := List.mem_map.1 h4
      simp only [Prod.mk.injEq, true_and] at e2
      exact h2 x hx (by rw [e2]; simp [specials])
  | _ =>
    exfalso
    rw [hk] at hf
    simp only [KindText, runCharOf, fixedText] at hf
    first
      | (have := hf.2 _ ht
         revert this; decide)
      | (simp only [Option.some.injEq] at hf
         rw [← hf] at ht
         revert ht; decide)

theorem lineBreak_view {pat : Str} (hp : IsBreak pat) (w : V) : lineBreak (render (free pat ++ w)) ≠ none := by
  rw [render_append, render_free_all]
  rcases hp with rfl | rfl <;> simp [lineBreak]

/-- A line feed that is directly followed by a line break, both unescaped. -/
theorem blank_piece {pat : Str} (hp : IsBreak pat) : ∀ (n : Nat) {v : V}, v.length ≤ n → Valid v →
    free ('\n' :: pat) <:+: v → ∃ p ∈ pieces (render v), p.kind = .Terminator := by
  intro n
  induction n with
  | zero =>
    intro v hn _ h
    have : v = [] := List.length_eq_zero_iff.1 (by omega)
    subst this
    have := h.length_le
    simp [free] at this
  | succ n ih =>
    intro v hn hv h
    have hne : v ≠ [] := by
      rintro rfl
      have := h.length_le
      simp [free] at this
    obtain ⟨p, v2, e, h1, h2⟩ := first_piece hv hne
    have hform := tok1_form h1
    have hlen : (pview p).length ≠ 0 := by
      have : (pview p).length = p.text.length := by rw [← pview_chars p]; simp
      rw [this]; simpa using form_ne_nil hform.1
    have hn2 : v2.length ≤ n := by
      have : v.length = (pview p).length + v2.length := by rw [e]; simp
      omega
    have hv2 : Valid v2 := by rw [e] at hv; exact hv.right
    have again (hi : free ('\n' :: pat) <:+: v2) : ∃ p ∈ pieces (render v), p.kind = .Terminator := by
      obtain ⟨q, hq, hk⟩ := ih hn2 hv2 hi
      exact ⟨q, by rw [h2]; simp [hq], hk⟩
    obtain ⟨a, b, e2⟩ := h
    rw [e, List.append_assoc] at e2
    rcases List.append_eq_append_iff.1 e2 with ⟨c, e3, e4⟩ | ⟨c, e3, e4⟩
    · -- the pattern starts in the piece, or right after it
      cases c with
      | nil => exact again ⟨[], b, by simpa using e4⟩
      | cons x c =>
        have hx : x = (false, '\n') ∧ free pat ++ b = c ++ v2 := by
          simp only [free, List.map_cons, List.cons_append, List.cons.injEq] at e4
          exact ⟨e4.1.symm, e4.2⟩
        obtain ⟨rfl, e5⟩ := hx
        rcases nl_piece hform.1 hform.2 (by rw [e3]; simp) with hk | ⟨hk, hpv⟩
        · exact ⟨p, by rw [h2]; simp, hk⟩
        · exfalso
          have hc : c = [] := by
            rcases hpv with hpv | hpv <;> rw [hpv] at e3
            · cases a with
              | nil => simpa [free] using e3.symm
              | cons y a => simp [free] at e3
            · cases a with
              | nil => simp [free] at e3
              | cons y a =>
                cases a with
                | nil =>
                  have := congrArg List.length e3
                  simp [free] at this
                  exact this
                | cons z a => simp [free] at e3
          subst hc
          rw [List.nil_append] at e5
          have := (Props.tok1_tail h1).2.1 hk
          rw [← e5] at this
          exact lineBreak_view hp b this
    · exact again ⟨c, b, by rw [List.append_assoc]; exact e4.symm⟩

/-- Without a blank line token no blank line is left. -/
theorem vq_of_noTerm {src : Str} {b : Bool} {ts : List Token} {v : V} (hv : Valid v) (h : SpV src b ts v) (hT : NoTerm ts) :
    NoInf ['\n', '\n'] v ∧ NoInf ['\n', '\r', '\n'] v := by
  have key : ∀ p ∈ pieces (render v), p.kind ≠ .Terminator := by
    have : ∀ {b : Bool} {ts : List Token} {ps : List Piece}, Sp src b ts ps → NoTerm ts → ∀ p ∈ ps, p.kind ≠ .Terminator := by
      intro b ts
      induction ts generalizing b with
      | nil => intro ps h _ p hp; cases ps with
        | nil => simp at hp
        | cons => simp [Sp] at h
      | cons t ts ih =>
        intro ps h hT p hp
        cases ps with
        | nil => simp at hp
        | cons q ps =>
          rcases List.mem_cons.1 hp with rfl | hp
          · rw [← h.1.kind]; exact hT t (by simp)
          · exact ih h.2 (fun u hu => hT u (by simp [hu])) p hp
    exact this h hT
  refine ⟨fun hi => ?_, fun hi => ?_⟩
  · obtain ⟨p, hp, hk⟩ := blank_piece (pat := ['\n']) (.inl rfl) _ (Nat.le_refl _) hv hi
    exact key p hp hk
  · obtain ⟨p, hp, hk⟩ := blank_piece (pat := ['\r', '\n']) (.inr rfl) _ (Nat.le_refl _) hv hi
    exact key p hp hk

end Yamd.Round
