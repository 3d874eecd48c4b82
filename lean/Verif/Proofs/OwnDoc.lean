import Verif.Proofs.Own

/-!
# All running text of a document is read from its own tokens
-/

namespace Yamd.Ref

open Yamd Yamd.Spec

def Items.Own : Items → Prop
  | .nil => True
  | .cons _ _ p n q => ParaOwn p ∧ n.Own ∧ q.Own

/-- The title ends at the first bracket. -/
def Link.Short (l : Link) : Prop := ∀ t ∈ l.title.body, isRightBracket t = false

def Block.Own : Block → Prop
  | .para l => ParaOwn l
  | .heading _ b => HeadOwn b
  | .list i => i.Own
  | .highlight _ _ i b _ => (∀ x ∈ b, ParaOwn x.para) ∧ ∀ x, i = some x → ∀ t ∈ x.body, isEol t = false
  | .images l => ∀ i ∈ l, i.link.Short
  | _ => True

def Doc.Own : Doc → Prop
  | .nil => True
  | .term _ d => d.Own
  | .block b d => b.Own ∧ d.Own
  | .coll _ _ i _ _ d => i.Own ∧ d.Own

theorem itemsB_isOwn (stops : List Stop) (level want ts) : (itemsB stops level want ts).1.Own := by
  induction level, want, ts using itemsB_ind stops with
  | none level want ts h => rw [itemsB_none h]; trivial
  | some level want ts k m r h ih1 ih2 =>
    rw [itemsB_some h]
    refine ⟨paraB_isOwn _ _, ?_, ih2⟩
    unfold itemNested
    split
    · trivial
    · exact ih1

theorem untilB_free {stops m} : ∀ {ts b c r}, untilB stops m ts = some (b, c, r) → ∀ t ∈ b, m t = false := by
  intro ts
  induction ts with
  | nil => intro b c r h; simp [untilB] at h
  | cons t ts ih =>
    intro b c r h
    rw [untilB] at h
    split at h
    · cases h
    · split at h
      · simp only [Option.some.injEq, Prod.mk.injEq] at h
        obtain ⟨rfl, -, -⟩ := h
        intro u hu; cases hu
      · rename_i hm
        simp only [Option.map_eq_some_iff, Prod.mk.injEq] at h
        obtain ⟨⟨b', c', r'⟩, h1, rfl, -, -⟩ := h
        intro u hu
        rcases List.mem_cons.1 hu with rfl | hu
        · simpa using hm
        · exact ih h1 u hu

theorem delimB_free {o c n stops} {ts : List Token} {d r} (h : delimB o c n stops ts = some (d, r)) :
    ∀ t ∈ d.body, c t = false := by
  cases ts with
  | nil => simp [delimB] at h
  | cons t ts =>
    rw [delimB] at h
    split at h
    · simp only [Option.map_eq_some_iff, Prod.mk.injEq] at h
      obtain ⟨⟨b', c', r'⟩, h1, rfl, -⟩ := h
      exact untilB_free h1
    · cases h

theorem linkB_short {stops} {ts : List Token} {l r} (h : linkB stops ts = some (l, r)) : l.Short := by
  unfold linkB at h
  split at h
  · cases h
  · rename_i t r' h1
    split at h
    · cases h
    · simp only [Option.some.injEq, Prod.mk.injEq] at h
      obtain ⟨rfl, -⟩ := h
      exact delimB_free h1

theorem imageB_short {stops} {ts : List Token} {i r} (h : imageB stops ts = some (i, r)) : i.link.Short := by
  unfold imageB at h
  split at h
  · cases h
  · split at h
    · split at h
      · cases h
      · rename_i hl
        split at h
        · simp only [Option.some.injEq, Prod.mk.injEq] at h
          obtain ⟨rfl, -⟩ := h
          exact linkB_short hl
        · split at h
          · simp only [Option.some.injEq, Prod.mk.injEq] at h
            obtain ⟨rfl, -⟩ := h
            exact linkB_short hl
          · cases h
    · cases h

theorem imagesB_short {stops} (ts : List Token) : ∀ {l r}, imagesB stops ts = some (l, r) → ∀ i ∈ l, i.link.Short := by
  induction ts using imagesB_ind stops with
  | none ts h =>
    intro l r hl
    rw [imagesB.eq_def] at hl
    split at hl
    · rename_i h1; rw [h] at h1; cases h1
    · split at hl
      · simp only [Option.some.injEq, Prod.mk.injEq] at hl
        obtain ⟨rfl, -⟩ := hl
        intro i hi; cases hi
      · cases hl
  | some ts i r h ih =>
    intro l r' hl
    rw [imagesB.eq_def] at hl
    split at hl
    · rename_i h1
      rw [h] at h1
      cases h1
      simp only [Option.map_eq_some_iff, Prod.mk.injEq] at hl
      obtain ⟨⟨l', r2⟩, h2, rfl, -⟩ := hl
      intro j hj
      rcases List.mem_cons.1 hj with rfl | hj
      · exact imageB_short h
      · exact ih h2 j hj
    · rename_i h1; rw [h] at h1; cases h1

theorem hlParasB_isOwn {stops ts l c r} (h : hlParasB stops ts = some (l, c, r)) : ∀ x ∈ l, ParaOwn x.para := by
  refine hlParasB_ind stops (P := fun _ l _ _ => ∀ x ∈ l, ParaOwn x.para) ?_ ?_ ?_ ts l c r h
  · intro ts _ _ _ x hx; cases hx
  · intro ts _ _ _ x hx; cases hx
  · intro ts l c r h1 h2 h3 ih x hx
    rcases List.mem_cons.1 hx with rfl | hx
    · exact paraB_isOwn _ _
    · exact ih x hx

theorem hlRestB_isOwn {stops o m r b rest} (h : hlRestB stops o m r = some (b, rest)) : b.Own := by
  unfold hlRestB at h
  simp only at h
  split at h
  · simp only [Option.map_eq_some_iff, Prod.mk.injEq] at h
    obtain ⟨y, hy, rfl, -⟩ := h
    refine ⟨hlParasB_isOwn hy, fun x hx => ?_⟩
    unfold optIconB at hx
    split at hx
    · rename_i m' r' hi
      simp only [Option.some.injEq] at hx
      subst hx
      unfold iconB at hi
      split at hi
      · simp only [Option.map_eq_some_iff, Prod.mk.injEq] at hi
        obtain ⟨z, hz, rfl, -⟩ := hi
        exact untilB_free (b := z.1) (c := z.2.1) (r := z.2.2) hz
      · cases hi
    · cases hx
  · cases h

theorem highlightB_isOwn {stops ts b rest} (h : highlightB stops ts = some (b, rest)) : b.Own := by
  unfold highlightB at h
  split at h
  · split at h <;> exact hlRestB_isOwn h
  · cases h

theorem embedB_isOwn {stops ts b rest} (h : embedB stops ts = some (b, rest)) : b.Own := by
  unfold embedB at h
  split at h
  · cases h
  · split at h
    · split at h
      · cases h
      · split at h
        · cases h
        · simp only [Option.map_eq_some_iff] at h
          obtain ⟨⟨x, y⟩, h1, h2⟩ := h
          simp only [Prod.mk.injEq] at h2
          rw [← h2.1]; trivial
    · cases h

theorem codeB_isOwn {stops ts b rest} (h : codeB stops ts = some (b, rest)) : b.Own := by
  have key : ∀ {o m r}, codeRestB stops o m r = some (b, rest) → b.Own := by
    intro o m r hx
    unfold codeRestB at hx
    split at hx
    · cases hx
    · simp only [Option.map_eq_some_iff] at hx
      obtain ⟨y, -, h2⟩ := hx
      simp only [Prod.mk.injEq] at h2
      rw [← h2.1]; trivial
  unfold codeB at h
  split at h
  · cases h
  · split at h
    · split at h <;> exact key h
    · cases h

theorem leafB_isOwn (stops : List Stop) (ts : List Token) : (leafB stops ts).1.Own := by
  rcases leafB_cases stops ts with ⟨k, m, p, n, r, rest, h1, h2⟩ | ⟨i, l, r, h1, h2⟩ | h | h | h
  · rw [h2]
    have := itemsB_isOwn stops 0 none ts
    rw [h1] at this
    exact this
  · rw [h2]; exact imagesB_short ts h1
  · cases ts with
    | nil => simp [thematicB] at h
    | cons t ts =>
      rw [thematicB] at h
      split at h
      · simp only [Option.some.injEq] at h
        rw [← h]; trivial
      · cases h
  · unfold headingB at h
    split at h
    · simp only [Option.some.injEq] at h
      rw [← h]; exact headB_isOwn _ _
    · cases h
  · rw [h]; exact paraB_isOwn _ _

theorem otherB_isOwn (stops : List Stop) (ts : List Token) : (otherB stops ts).1.Own := by
  rcases otherB_cases stops ts with h | h | h
  · exact embedB_isOwn h
  · exact highlightB_isOwn h
  · rw [h]; exact leafB_isOwn _ _

theorem docB_isOwn (s : List Stop) (ts : List Token) : (docB s ts).1.Own := by
  induction s, ts using docB_ind with
  | stop s ts h e => rw [e]; trivial
  | term s t r hs ht e ih => rw [e]; exact ih
  | code s t r b rest hs ht hcode e ih => rw [e]; exact ⟨codeB_isOwn hcode, ih⟩
  | coll s t r o m r1 c r4 hs ht hcode ho hcl e ih1 ih2 => rw [e]; exact ⟨ih1, ih2⟩
  | fallback s t r o m r1 x hs ht hcode ho hcl hx hl hst e ih1 ih2 => rw [e]; exact ⟨otherB_isOwn s x, ih2⟩
  | other s t r hs ht hcode ho hst e ih => rw [e]; exact ⟨otherB_isOwn s _, ih⟩

end Yamd.Ref
