import Verif.Proofs.Exact.Calm
import Verif.Proofs.DocFacts
import Verif.Proofs.Round.Document

/-!
# A document that is one block
-/

namespace Yamd.Round

open Yamd Yamd.Spec Yamd.Lexer Yamd.Ref

/-- All tokens are blank lines. -/
def Blanks (ts : List Token) : Prop := ∀ t ∈ ts, isTerminator t = true

theorem doc_nothing {src : Str} : ∀ {D : Doc}, D.Ok → D.denote src = [] → Blanks D.toks
  | .nil, _, _ => by intro t ht; simp [Doc.toks] at ht
  | .term t r, h, e => by
    have := doc_nothing h.2 e
    intro u hu
    rcases List.mem_cons.1 hu with rfl | hu
    · exact h.1
    · exact this u hu
  | .block b r, _, e => by simp [Doc.denote] at e
  | .coll .., _, e => by simp [Doc.denote] at e

/-- The tree of a document with one block that is not a collapsible. -/
theorem doc_single {src : Str} {n : YamdNode} (hn : ∀ t b, n ≠ .collapsible t b) : ∀ {D : Doc}, D.Ok → D.denote src = [n] →
    ∃ t1 b t2 D', D.toks = t1 ++ (b.toks ++ t2) ∧ Blanks t1 ∧ Blanks t2 ∧ b.Ok ∧ b.denote src = n ∧
      (t1 = [] → D = .block b D')
  | .nil, _, e => by simp [Doc.denote] at e
  | .term t r, h, e => by
    obtain ⟨t1, b, t2, D', e1, h1, h2, h3, h4, -⟩ := doc_single hn h.2 e
    refine ⟨t :: t1, b, t2, .nil, by simp [Doc.toks, e1], ?_, h2, h3, h4, by simp⟩
    intro u hu
    rcases List.mem_cons.1 hu with rfl | hu
    · exact h.1
    · exact h1 u hu
  | .block b r, h, e => by
    simp only [Doc.denote, List.cons.injEq] at e
    exact ⟨[], b, r.toks, r, rfl, by intro t ht; simp at ht, doc_nothing h.2 e.2, h.1, e.1, fun _ => rfl⟩
  | .coll .., _, e => by
    simp only [Doc.denote, List.cons.injEq] at e
    exact absurd e.1.symm (hn _ _)

theorem topB_none {ts : List Token} (h : (topB ts).meta? = none) : (topB ts).doc = (docB [] ts).1 ∧ (topB ts).toks = (topB ts).doc.toks := by
  unfold topB at h ⊢
  split
  · rename_i d r hd
    rw [hd] at h; simp at h
  · exact ⟨rfl, by simp [Top.toks]⟩

/-- What is known of a text that reads as one block. -/
theorem reads_one {d : Str} {n : YamdNode} (hn : ∀ t b, n ≠ .collapsible t b) (h : deserialize d = .ok ⟨none, [n]⟩) :
    ∃ t1 b t2 D', Flips (tokens d) (t1 ++ (b.toks ++ t2)) ∧ Live d (t1 ++ (b.toks ++ t2)) ∧ Blanks t1 ∧ Blanks t2 ∧ b.Ok ∧
      b.denote d = n ∧ (t1 = [] → (docB [] (tokens d)).1 = .block b D') := by
  rw [deserialize_eq] at h
  have h1 : (topB (tokens d)).denote d = ⟨none, [n]⟩ := Except.ok.inj h
  unfold Top.denote Yamd.new at h1
  simp only [Yamd.mk.injEq, Option.map_eq_none_iff] at h1
  obtain ⟨e1, e2⟩ := topB_none h1.1
  obtain ⟨t1, b, t2, D', e3, b1, b2, ok, den, hD⟩ := doc_single hn (topB_doc_ok (tokens d)) h1.2
  refine ⟨t1, b, t2, D', ?_, ?_, b1, b2, ok, den, ?_⟩
  · rw [← e3, ← e2]; exact top_flips _
  · rw [← e3, ← e2]; exact live_top d
  · rw [← e1]; exact hD

/-- If the block holds as many characters as there are, there are no blank lines around it. -/
theorem no_blanks_le {d : Str} {t1 b t2 : List Token} (hf : Flips (tokens d) (t1 ++ (b ++ t2))) (hl : Live d (t1 ++ (b ++ t2)))
    (ht : (unescape d).length ≤ (textOfToks d b).length) : t1 = [] ∧ t2 = [] := by
  have h1 : textOfToks d (t1 ++ (b ++ t2)) = unescape d := by
    rw [hf.text]
    have := sp_text (sp_tokens d)
    rw [this, pieces_text]
  have h2 := congrArg List.length h1
  simp only [textOfToks, List.flatMap_append, List.length_append] at h2 ht
  constructor
  · cases t1 with
    | nil => rfl
    | cons t r =>
      have := List.length_pos_iff.2 (hl.text t (by simp))
      rw [List.flatMap_cons, List.length_append] at h2
      omega
  · cases t2 with
    | nil => rfl
    | cons t r =>
      have := List.length_pos_iff.2 (hl.text t (by simp))
      rw [List.flatMap_cons, List.length_append] at h2
      omega

/-- If the block holds all characters there are no blank lines around it. -/
theorem no_blanks {d : Str} {t1 b t2 : List Token} (hf : Flips (tokens d) (t1 ++ (b ++ t2))) (hl : Live d (t1 ++ (b ++ t2)))
    (ht : textOfToks d b = unescape d) : t1 = [] ∧ t2 = [] :=
  no_blanks_le hf hl (by rw [ht]; exact Nat.le_refl _)

end Yamd.Round
