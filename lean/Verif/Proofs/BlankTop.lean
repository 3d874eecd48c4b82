import Verif.Proofs.Blank
import Verif.Proofs.BlockLeft
import Verif.Spec.Blank
import Verif.Props.Lexer

/-!
# Blank lines behind a text: tokens and documents (C75)
-/

namespace Yamd.Ref

open Yamd Yamd.Spec Yamd.Round

theorem topB_blank {ts : List Token} {T : Token} (hT : T.kind = .Terminator) (hc : Cols ts) (src : Str) :
    (topB (ts ++ [T])).denote src = (topB ts).denote src := by
  have hd : ∀ r, Cols r → (docB [] (r ++ [T])).1.denote src = (docB [] r).1.denote src := by
    intro r hr
    rw [docB_blank hT [] r (by intro st hst; cases hst) hr]
    unfold joinE
    rw [if_pos (docB_nil r), docB_stop (ts := []) rfl]
    simp only
    rw [Doc.denote_append]
    simp [Doc.denote]
  have hb : isThreeDashes T = false := by simp [isThreeDashes, hT]
  have key : delimB isThreeDashes isThreeDashes .Metadata [] (ts ++ [T])
      = (delimB isThreeDashes isThreeDashes .Metadata [] ts).map (mapE [T]) := by
    cases ts with
    | nil => simp [delimB, hb]
    | cons t r =>
      rw [List.cons_append, delimB, delimB]
      split
      · cases hu : untilB [] isThreeDashes r with
        | none => rw [untilB_still hT hb hu]; rfl
        | some x =>
          obtain ⟨b, c, q⟩ := x
          rw [untilB_more hT hu]; rfl
      · rfl
  unfold topB
  rw [key]
  cases h : delimB isThreeDashes isThreeDashes .Metadata [] ts with
  | none => simp only [Option.map_none, Top.denote, Yamd.new, hd ts hc]
  | some x =>
    obtain ⟨d, r⟩ := x
    rw [delimB_toks h] at hc
    simp only [Option.map_some, mapE, Top.denote, Yamd.new, hd r hc.right]

theorem topB_blanks {Ts : List Token} (hT : ∀ t ∈ Ts, t.kind = .Terminator) (src : Str) : ∀ {ts : List Token},
    Cols (ts ++ Ts) → (topB (ts ++ Ts)).denote src = (topB ts).denote src := by
  induction Ts with
  | nil => intro ts _; rw [List.append_nil]
  | cons T Ts ih =>
    intro ts hc
    have e : ts ++ T :: Ts = (ts ++ [T]) ++ Ts := by simp
    rw [e] at hc ⊢
    rw [ih (fun t ht => hT t (by simp [ht])) hc, topB_blank (hT T (by simp)) hc.left.left]

theorem top_elsewhere {s s' : Str} (h : ∀ t ∈ tokens s, sliceD s' t = sliceD s t) :
    (topB (tokens s)).denote s' = (topB (tokens s)).denote s := by
  unfold topB
  cases hd : delimB isThreeDashes isThreeDashes .Metadata [] (tokens s) with
  | none => simp only [Top.denote, doc_elsewhere [] h, Option.map_none]
  | some x =>
    obtain ⟨d, r⟩ := x
    have hx := delimB_toks hd
    have e : textOfToks s' d.body = textOfToks s d.body := by
      unfold textOfToks
      rw [List.flatMap_def, List.flatMap_def]
      refine congrArg List.flatten (List.map_congr_left fun t ht => h t ?_)
      rw [hx]; simp [Delim.toks, ht]
    have e2 : (docB [] r).1.denote s' = (docB [] r).1.denote s :=
      doc_elsewhere [] fun t ht => h t (by rw [hx]; exact List.mem_append_right _ ht)
    simp only [Top.denote, e2, Option.map_some, e]

theorem tokens_blank {a : Str} (h : cleanEnd a = true) (b : Str) : ∃ T m,
    tokens (a ++ ['\n', '\n'] ++ b) = tokens a ++ T :: (tokens b).map (shiftToken (blen a + 2) m) ∧
    T.kind = .Terminator := by
  simp only [cleanEnd, Bool.and_eq_true, bne_iff_ne, ne_eq, Bool.not_eq_true'] at h
  obtain ⟨ta, tb, T, e1, e2, e3, hT, -⟩ := Props.C07_blank_line_is_boundary a b h.1.1 h.1.2 h.2
  rw [Lexer.lex_eq] at e1 e2 e3
  cases e1; cases e2
  exact ⟨T, _, Except.ok.inj e3, hT⟩

theorem tokens_blankLines : ∀ n, ∀ t ∈ tokens (blankLines n), t.kind = .Terminator
  | 0 => by
    intro t ht
    rw [blankLines, show tokens [] = [] by rw [tokens, pieces_none rfl]; rfl] at ht
    cases ht
  | n + 1 => by
    obtain ⟨T, m, e, hT⟩ := tokens_blank (a := []) (by decide) (blankLines n)
    intro t ht
    have e' : tokens (blankLines (n + 1)) = tokens [] ++ T :: (tokens (blankLines n)).map (shiftToken (blen [] + 2) m) := e
    rw [e'] at ht
    have e0 : tokens [] = [] := by rw [tokens, pieces_none rfl]; rfl
    rw [e0, List.nil_append, List.mem_cons, List.mem_map] at ht
    rcases ht with rfl | ⟨u, hu, rfl⟩
    · exact hT
    · exact tokens_blankLines n u hu

/-- The document of a text with blank lines behind it. -/
theorem denote_blanks {s : Str} (h : cleanEnd s = true) (n : Nat) :
    (topB (tokens (s ++ blankLines n))).denote (s ++ blankLines n) = (topB (tokens s)).denote s := by
  have key : ∃ Ts, tokens (s ++ blankLines n) = tokens s ++ Ts ∧ ∀ t ∈ Ts, t.kind = .Terminator := by
    cases n with
    | zero => exact ⟨[], by simp [blankLines], by simp⟩
    | succ n =>
      obtain ⟨T, m, e, hT⟩ := tokens_blank h (blankLines n)
      refine ⟨_, by rw [← e, List.append_assoc]; rfl, ?_⟩
      intro t ht
      rw [List.mem_cons, List.mem_map] at ht
      rcases ht with rfl | ⟨u, hu, rfl⟩
      · exact hT
      · exact tokens_blankLines n u hu
  obtain ⟨Ts, e, hT⟩ := key
  have hc := cols_tokens (s ++ blankLines n)
  rw [e] at hc ⊢
  rw [topB_blanks hT _ hc]
  exact top_elsewhere fun t ht => slice_left ht

end Yamd.Ref
