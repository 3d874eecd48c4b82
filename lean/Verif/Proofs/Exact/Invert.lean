import Verif.Proofs.Exact.Single

/-!
# What a block says about the text before it was read
-/

namespace Yamd.Round

open Yamd Yamd.Spec Yamd.Lexer Yamd.Ref

def isPara : Block → Bool
  | .para _ => true
  | _ => false

theorem leafB_para {stops ts} (h : isPara (leafB stops ts).1 = true) : headingB stops ts = none ∧
    (∀ i l r, imagesB stops ts ≠ some (i :: l, r)) := by
  unfold leafB at h
  cases h1 : itemsB stops 0 none ts with
  | mk i rest =>
    rw [h1] at h
    cases i with
    | cons k m p n r => simp [isPara] at h
    | nil =>
      simp only at h
      cases h2 : imagesB stops ts with
      | some x =>
        obtain ⟨l, r⟩ := x
        cases l with
        | cons i l => rw [h2] at h; simp [isPara] at h
        | nil =>
          rw [h2] at h
          simp only at h
          refine ⟨?_, by simp⟩
          cases h3 : thematicB ts with
          | some x =>
            rw [h3] at h
            cases ts with
            | nil => simp [thematicB] at h3
            | cons t q =>
              rw [thematicB] at h3
              split at h3
              · obtain rfl := Option.some.inj h3; simp [isPara] at h
              · simp at h3
          | none =>
            rw [h3] at h
            cases h4 : headingB stops ts with
            | none => rfl
            | some x =>
              rw [h4] at h
              unfold headingB at h4
              split at h4
              · obtain rfl := Option.some.inj h4; simp [isPara] at h
              · simp at h4
      | none =>
        rw [h2] at h
        simp only at h
        refine ⟨?_, by simp⟩
        cases h3 : thematicB ts with
        | some x =>
          rw [h3] at h
          cases ts with
          | nil => simp [thematicB] at h3
          | cons t q =>
            rw [thematicB] at h3
            split at h3
            · obtain rfl := Option.some.inj h3; simp [isPara] at h
            · simp at h3
        | none =>
          rw [h3] at h
          cases h4 : headingB stops ts with
          | none => rfl
          | some x =>
            rw [h4] at h
            unfold headingB at h4
            split at h4
            · obtain rfl := Option.some.inj h4; simp [isPara] at h
            · simp at h4

/-- A paragraph at the start is read by the parser of the blocks that end at a blank line. -/
theorem docB_leaf {S : List Stop} {ts : List Token} {b : Block} {D : Doc} (h : (docB S ts).1 = .block b D)
    (hc : tokenIs ts 0 isCollapsibleStart = false) :
    (codeB S ts).map Prod.fst = some b ∨ (embedB S ts).map Prod.fst = some b ∨ (highlightB S ts).map Prod.fst = some b ∨
      ((leafB (.Terminator :: S) ts).1 = b ∧ embedB S ts = none ∧ highlightB S ts = none) := by
  have hcoll : collOpenB S ts = none := by
    unfold collOpenB
    rw [hc]; simp
  have hflip : flipOpen ts = ts := by
    unfold flipOpen
    rw [hc]; simp
  have key := docB_step (stops := S) (ts := ts)
  cases hs : stopAt S ts with
  | true => rw [docB_stop hs] at h; simp at h
  | false =>
    cases key hs with
    | term t r _ ht e => rw [e] at h; simp at h
    | code t r _ ht b' rest hc' e =>
      rw [e] at h
      simp only [Doc.block.injEq] at h
      left; rw [hc', Option.map_some, h.1]
    | coll t r _ ht o m r1 c r4 _ ho => rw [hcoll] at ho; simp at ho
    | fallback t r _ ht o m r1 _ ho => rw [hcoll] at ho; simp at ho
    | other t r _ ht _ _ e =>
      rw [e, hflip] at h
      simp only [Doc.block.injEq] at h
      unfold otherB at h
      right
      cases h1 : embedB S ts with
      | some x => rw [h1] at h; left; simp only at h; rw [Option.map_some, h.1]
      | none =>
        right
        rw [h1] at h
        cases h2 : highlightB S ts with
        | some x => rw [h2] at h; left; simp only at h; rw [Option.map_some, h.1]
        | none => rw [h2] at h; right; exact ⟨h.1, rfl, rfl⟩

/-- The block that is read where no code, embed, highlight or collapsible starts. -/
theorem docB_plain {S : List Stop} {t : Token} {r : List Token} {b : Block} {D : Doc} (h : (docB S (t :: r)).1 = .block b D)
    (h1 : isCollapsibleStart t = false) (h2 : isBacktick3 t = false) (h3 : isLeftCurly2 t = false) (h4 : isTwoBangs t = false) :
    (leafB (.Terminator :: S) (t :: r)).1 = b := by
  rcases docB_leaf h h1 with g | g | g | g
  · rw [codeB, if_neg (by simp [h2])] at g; simp at g
  · rw [embedB, if_neg (by simp [h3])] at g; simp at g
  · rw [highlightB, if_neg (by simp [tokenIs, h4])] at g; simp at g
  · exact g.1

end Yamd.Round
