import Verif.Proofs.Final.Main
import Verif.Proofs.WrapTop

/-!
# A line break at the very end (C73): texts
-/

namespace Yamd.Ref

open Yamd Yamd.Spec Yamd.Round Yamd.Lexer

/-- The last token of a text that does not end with a line break is none. -/
theorem noBreak_tokens {s : Str} (h : cleanEnd s = true) : NoBreakEnd (tokens s) := by
  simp only [cleanEnd, Bool.and_eq_true, bne_iff_ne, ne_eq, Bool.not_eq_true'] at h
  have hsrc := pieces_src s
  rw [h.2] at hsrc
  simp only [Bool.false_eq_true, if_false, List.append_nil] at hsrc
  intro a t ht
  cases hp : (pieces s).getLast? with
  | none =>
    rw [List.getLast?_eq_none_iff] at hp
    rw [tokens, hp, place] at ht
    simp at ht
  | some p =>
    obtain ⟨l, hl⟩ := List.getLast?_eq_some_iff.1 hp
    obtain ⟨hf, hf2⟩ := pieces_form s p (by rw [hl]; simp)
    have hlast : s.getLast? = p.text.getLast? := by
      rw [hsrc, hl]
      have hne := form_ne_nil hf
      simp only [srcOf, List.flatMap_append, List.flatMap_cons, List.flatMap_nil, List.append_nil, Piece.src]
      rw [← List.append_assoc, List.getLast?_append]
      cases hpt : p.text.getLast? with
      | none => exact absurd (List.getLast?_eq_none_iff.1 hpt) hne
      | some x => rfl
    rw [tokens, hl, place_append, place, place] at ht
    obtain ⟨-, e⟩ := List.append_inj' ht rfl
    simp only [List.cons.injEq, and_true] at e
    have hk : t.kind = p.kind := by rw [← e]; rfl
    have g1 := h.1.1
    rw [hlast] at g1
    have n1 : p.kind ≠ .Eol := by
      intro hpk
      rw [hpk] at hf
      rcases hf with hf | hf <;> rw [hf] at g1 <;> simp at g1
    have n2 : p.kind ≠ .Terminator := by
      intro hpk
      rw [hpk] at hf
      obtain ⟨x, y, -, hy, e2⟩ := hf
      rw [e2] at g1
      rcases hy with rfl | rfl <;> simp [List.getLast?_append] at g1
    simp [isEolOrTerminator, hk, n1, n2]

theorem tokens_fin {s : Str} (h : cleanEnd s = true) (hne : s ≠ []) : ∃ E : Token, tokens (s ++ ['\n']) = tokens s ++ [E] ∧
    E.kind = .Eol ∧ col0 E = false ∧ sliceD (s ++ ['\n']) E = ['\n'] := by
  have hnb := noBreak_tokens h
  simp only [cleanEnd, Bool.and_eq_true, bne_iff_ne, ne_eq, Bool.not_eq_true'] at h
  have hsrc := pieces_src s
  rw [h.2] at hsrc
  simp only [Bool.false_eq_true, if_false, List.append_nil] at hsrc
  have hp : pieces (s ++ ['\n']) = pieces s ++ [⟨false, .Eol, ['\n']⟩] := by
    rw [pieces_append s _ h.2 (joinOk_nl h.1.1 h.1.2 h.2), pieces_some (s := ['\n']) (p := ⟨false, .Eol, ['\n']⟩) (r := []) (by decide),
      pieces_none (show tok1 [] = none from rfl)]
  have ht : tokens (s ++ ['\n']) = tokens s ++ [tokenOf ⟨false, .Eol, ['\n']⟩ (blen s) (endPos (0, 0, 0) (pieces s)).2.1
      (endPos (0, 0, 0) (pieces s)).2.2] := by
    rw [tokens, hp, place_append, place, place, ← tokens, endPos_off, ← hsrc, Nat.zero_add]
  refine ⟨_, ht, rfl, ?_, ?_⟩
  · have hc := cols_tokens (s ++ ['\n'])
    rw [ht] at hc
    have htn : tokens s ≠ [] := by
      intro hn
      have hpn : pieces s = [] := by
        cases hps : pieces s with
        | nil => rfl
        | cons p ps => rw [tokens, hps, place] at hn; simp at hn
      rw [hpn] at hsrc
      exact hne (by rw [hsrc]; rfl)
    obtain ⟨a, t, e⟩ : ∃ a t, tokens s = a ++ [t] := ⟨_, _, (List.dropLast_concat_getLast htn).symm⟩
    have hb := hnb a t e
    rw [e, List.append_assoc] at hc
    have := hc.right.1
    rw [hb] at this
    cases hx : col0 (tokenOf ⟨false, .Eol, ['\n']⟩ (blen s) (endPos (0, 0, 0) (pieces s)).2.1
      (endPos (0, 0, 0) (pieces s)).2.2) with
    | false => rfl
    | true => rw [hx] at this; simp at this
  · unfold sliceD tokenOf
    have := slice_append s ['\n'] [] _ rfl
    simp only [List.append_nil] at this
    simp [this]

theorem denote_fin {s : Str} (h : cleanEnd s = true) (hne : s ≠ []) :
    (topB (tokens (s ++ ['\n']))).denote (s ++ ['\n']) =
      ⟨((topB (tokens s)).denote s).metadata, withBreak ((topB (tokens s)).denote s).body⟩ := by
  obtain ⟨E, ht, hE, h0, hs⟩ := tokens_fin h hne
  have hA : ∀ t ∈ tokens s, sliceD (s ++ ['\n']) t = sliceD s t := fun t ht => slice_left ht
  have hnb := noBreak_tokens h
  have hcol := cols_tokens s
  have key : ∀ r : List Token, (∃ x, tokens s = x ++ r) →
      (docB [] (r ++ [E])).1.denote (s ++ ['\n']) = withBreak ((docB [] r).1.denote s) := by
    rintro r ⟨x, hx⟩
    have hc := hcol
    have hn := hnb
    rw [hx] at hc hn
    rw [← doc_elsewhere [] (s' := s ++ ['\n']) fun t ht => hA t (by rw [hx]; simp [ht])]
    rcases docB_fin hE h0 hs [] r (by intro st hst; cases hst) hc.right hn.right r (.same r) with ⟨g, -⟩ | ⟨-, -, g, -⟩
    · exact absurd (docB_nil r) g
    · exact g
  rw [ht]
  unfold topB
  rw [delimB_fin hE h0 _ (by simp [isThreeDashes, hE]) (by simp [isThreeDashes, hE])]
  cases hd : delimB isThreeDashes isThreeDashes .Metadata [] (tokens s) with
  | none =>
    simp only [Option.map_none, Top.denote, Yamd.new]
    rw [key (tokens s) ⟨[], rfl⟩]
  | some x =>
    obtain ⟨d, r⟩ := x
    have hx := delimB_toks hd
    simp only [Option.map_some, mapE, Top.denote, Yamd.new]
    rw [key r ⟨_, hx⟩]
    congr 3
    unfold textOfToks
    rw [List.flatMap_def, List.flatMap_def]
    refine congrArg (fun l : List Str => trimNl l.flatten) (List.map_congr_left fun t h => hA t ?_)
    rw [hx]; simp [Delim.toks, h]

end Yamd.Ref
