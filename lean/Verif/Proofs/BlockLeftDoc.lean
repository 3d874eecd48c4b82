import Verif.Proofs.BlockLeft
import Verif.Proofs.LayoutDoc

/-!
# No block mark is left at the start of a paragraph, in whole documents
-/

namespace Yamd.Ref

open Yamd Yamd.Spec

/-- Tokens that are no marks of anything but a collapsible. -/
def Hid (t : Token) : Prop := t.kind = .Literal ∨ t.kind = .CollapsibleStart

/-- Equal up to such tokens. -/
inductive Alike : List Token → List Token → Prop where
  | nil : Alike [] []
  | cons {t u r s} : t = u ∨ (Hid t ∧ Hid u) → Alike r s → Alike (t :: r) (u :: s)

theorem Alike.refl : ∀ (a : List Token), Alike a a
  | [] => .nil
  | _ :: a => .cons (.inl rfl) (Alike.refl a)

theorem Alike.symm {a b} (h : Alike a b) : Alike b a := by
  induction h with
  | nil => exact .nil
  | cons h _ ih => exact .cons (h.imp Eq.symm And.symm) ih

theorem Alike.append {a b c d} (h1 : Alike a b) (h2 : Alike c d) : Alike (a ++ c) (b ++ d) := by
  induction h1 with
  | nil => exact h2
  | cons h _ ih => exact .cons h ih

theorem Flips.alike {a b} (h : Flips a b) : Alike a b := by
  induction h with
  | nil => exact .nil
  | cons h _ ih =>
    refine .cons ?_ ih
    rcases h with rfl | ⟨h, rfl⟩
    · exact .inl rfl
    · exact .inr ⟨.inr h, .inl rfl⟩

theorem Alike.head {t r b} (h : Alike (t :: r) b) (hv : ¬ Hid t) : ∃ r', b = t :: r' ∧ Alike r r' := by
  cases h with
  | cons h hr =>
    rcases h with rfl | h
    · exact ⟨_, rfl, hr⟩
    · exact absurd h.1 hv

theorem Alike.cut : ∀ {c t d b}, Alike (c ++ t :: d) b → ¬ Hid t → ∃ c' d', b = c' ++ t :: d' ∧ Alike c c' ∧ Alike d d'
  | [], _, _, _, h, hv => by
    obtain ⟨r', e, h2⟩ := h.head hv
    exact ⟨[], r', e, .nil, h2⟩
  | x :: c, t, d, b, h, hv => by
    cases h with
    | cons h hr =>
      obtain ⟨c', d', e, h1, h2⟩ := Alike.cut hr hv
      exact ⟨_ :: c', d', by rw [e]; rfl, .cons h h1, h2⟩

theorem Alike.free {a b : List Token} {p : Token → Prop} (h : Alike a b) (hp : ∀ t, p t → ¬ Hid t) (ha : ∀ t ∈ a, ¬ p t) :
    ∀ t ∈ b, ¬ p t := by
  intro t ht hpt
  obtain ⟨c, d, rfl⟩ := List.append_of_mem ht
  obtain ⟨c', d', rfl, -, -⟩ := h.symm.cut (hp t hpt)
  exact ha t (by simp) hpt

theorem vis {t : Token} {k : TokenKind} (h : t.kind = k) (h1 : k ≠ .Literal := by decide) (h2 : k ≠ .CollapsibleStart := by decide) :
    ¬ Hid t := by
  rintro (h3 | h3)
  · exact h1 (h.symm.trans h3)
  · exact h2 (h.symm.trans h3)

theorem bullet_vis {l t} (h : bulletOf l t) : ¬ Hid t := by
  rcases h with ⟨-, h⟩ | ⟨-, h⟩
  · exact vis h.1
  · exact vis h.1

theorem Alike.closer {a b} (h : Alike a b) (hc : closerLine a) : closerLine b := by
  obtain ⟨c, r, rfl, h1, h2⟩ := hc
  obtain ⟨r', rfl, -⟩ := h.head (vis h1)
  exact ⟨c, r', rfl, h1, h2⟩

theorem Alike.collEnds {o a b} (h : Alike a b) (hc : CollapsibleEnds o a) : CollapsibleEnds o b := by
  refine ⟨hc.1, ?_⟩
  rcases hc.2 with hc | ⟨t, r, rfl, h1, h2⟩
  · exact .inl (h.closer hc)
  · obtain ⟨r', rfl, h3⟩ := h.head (vis h1)
    exact .inr ⟨t, r', rfl, h1, h3.closer h2⟩

theorem Alike.marker {n l a b} (h : Alike a b) (hm : markerLine n l a) : markerLine n l b := by
  rcases hm with ⟨h0, t, s, r, rfl, h1, h2, h3⟩ | ⟨h0, i, t, s, r, rfl, h1, h2, h3, h4⟩
  · obtain ⟨r', rfl, g⟩ := h.head (bullet_vis h2)
    obtain ⟨r', rfl, -⟩ := g.head (vis h3.1)
    exact .inl ⟨h0, _, _, _, rfl, h1, h2, h3⟩
  · obtain ⟨r', rfl, g⟩ := h.head (vis h2.1)
    obtain ⟨r', rfl, g2⟩ := g.head (bullet_vis h3)
    obtain ⟨r', rfl, -⟩ := g2.head (vis h4.1)
    exact .inr ⟨h0, _, _, _, _, rfl, h1, h2, h3, h4⟩

theorem Alike.textEnds {o a b} (h : Alike a b) (he : TextEnds o a) : TextEnds o b := by
  rcases he with rfl | ⟨t, r, rfl, h1⟩ | he | ⟨h0, t, r, rfl, h1, h2⟩ | ⟨list, outer, e, n, other, h1, h2, h3⟩
  · cases h; exact .inl rfl
  · obtain ⟨r', rfl, -⟩ := h.head (vis h1)
    exact .inr (.inl ⟨t, r', rfl, h1⟩)
  · exact .inr (.inr (.inl (h.collEnds he)))
  · obtain ⟨r', rfl, -⟩ := h.head (vis h2.1)
    exact .inr (.inr (.inr (.inl ⟨h0, t, r', rfl, h1, h2⟩)))
  · exact .inr (.inr (.inr (.inr ⟨list, outer, e, n, other, h1, h2, h.marker h3⟩)))

theorem Alike.lineEnds {o a b} (h : Alike a b) (he : LineEnds o a) : LineEnds o b := by
  rcases he with he | ⟨t, r, rfl, h1⟩
  · exact .inl (h.textEnds he)
  · obtain ⟨r', rfl, -⟩ := h.head (vis h1)
    exact .inr ⟨t, r', rfl, h1⟩

theorem Alike.endsWithin {o a b c d} (h : Alike a b) (h' : Alike c d) (he : EndsWithin o a c) : EndsWithin o b d := by
  obtain ⟨x, t, y, rfl, h1⟩ := he
  have hv : ¬ Hid t := by
    rcases h1.2 with ⟨t', r', e, h2, -⟩ | ⟨t', r', e, h2, -⟩
    · cases e; exact vis h2
    · cases e; exact vis h2
  obtain ⟨x', y', rfl, -, h3⟩ := h.cut hv
  exact ⟨x', t, y', rfl, Alike.collEnds (.cons (.inl rfl) (h3.append h')) h1⟩

theorem Alike.imageLine {a b} (h : Alike a b) (hi : ImageLine a) : ImageLine b := by
  obtain ⟨t, o, c, x, p, d, q, rfl, h1, h2, h3, h4, h5, h6, h7⟩ := hi
  obtain ⟨r', rfl, g⟩ := h.head (vis h1.1)
  obtain ⟨r', rfl, g2⟩ := g.head (vis h2.1)
  obtain ⟨c', r', rfl, gc, g3⟩ := g2.cut (vis h4.1)
  obtain ⟨r', rfl, g4⟩ := g3.head (vis h5.1)
  obtain ⟨d', r', rfl, gd, g5⟩ := g4.cut (vis h7)
  cases g5
  refine ⟨t, o, c', x, p, d', q, rfl, h1, h2, gc.free (fun t ht => vis ht.1) h3, h4, h5, ?_, h7⟩
  intro t ht
  constructor
  · exact gd.free (p := fun t => t.kind = .LeftParenthesis) (fun t ht => vis ht) (fun t ht => (h6 t ht).1) t ht
  · exact gd.free (p := fun t => t.kind = .RightParenthesis) (fun t ht => vis ht) (fun t ht => (h6 t ht).2) t ht

theorem Alike.imageLines {a} (hi : ImageLines a) : ∀ {b}, Alike a b → ImageLines b := by
  induction hi with
  | last l h => intro b hs; exact .last _ (hs.imageLine h)
  | more l e r h he _ ih =>
    intro b hs
    obtain ⟨l', r', rfl, g1, g2⟩ := hs.cut (vis he)
    exact .more _ _ _ (g1.imageLine h) he (ih g2)

theorem BlockLeft.alike {o own own' rest rest'} (h : BlockLeft o own rest) (h1 : Alike own own') (h2 : Alike rest rest') :
    BlockLeft o own' rest' := by
  have hs : Alike (own' ++ rest') (own ++ rest) := (h1.append h2).symm
  refine ⟨?_, ?_, ?_, fun hi => h.images (Alike.imageLines hi h1.symm), ?_, ?_, ?_⟩
  · intro t s r e a1 a2 a3 a4
    rw [e] at hs
    obtain ⟨r', e1, g⟩ := hs.head (vis a2)
    obtain ⟨r', rfl, -⟩ := g.head (vis a4.1)
    exact h.heading _ _ _ e1 a1 a2 a3 a4
  · exact fun list hm => h.item list (hs.marker hm)
  · intro t r e a1 a2
    rw [e] at hs
    obtain ⟨r', e1, -⟩ := hs.head (vis a2.1)
    exact h.thematic _ _ e1 a1 a2
  · intro f c u d e a1 a2 a3 a4
    rw [e] at hs
    obtain ⟨r', e1, g⟩ := hs.head (vis a1.2.1)
    obtain ⟨c', d', rfl, g1, g2⟩ := g.cut (vis a3.2.1)
    exact h.code _ _ _ _ e1 a1 (g1.free (fun t ht => vis ht.2.1) a2) a3 (g2.lineEnds a4)
  · intro f l p a c d e a0 a1 a2 a3 a4 a5
    rw [e] at hs
    obtain ⟨r', e1, g⟩ := hs.head (vis a1.1)
    obtain ⟨l', r', rfl, g1, g⟩ := g.cut (vis a3.1)
    obtain ⟨a', d', rfl, g2, g3⟩ := g.cut (vis a5.1)
    rcases h.embed _ _ _ _ _ _ e1 a0 a1 (g1.free (fun t ht => vis ht.1) a2) a3 (g2.free (fun t ht => vis ht.1) a4) a5 with h3 | h3
    · exact .inl fun h4 => h3 (g3.lineEnds h4)
    · exact .inr (Alike.endsWithin (g1.symm.append (.cons (.inl rfl) (g2.symm.append (Alike.refl _)))) g3.symm h3)
  · intro f s c u d e a1 a2 a3
    rw [e] at hs
    obtain ⟨r', e1, g⟩ := hs.head (vis a1.2.1)
    obtain ⟨r', rfl, g'⟩ := g.head (by rcases a2 with a2 | a2; exact vis a2.1; exact vis a2)
    obtain ⟨c', d', rfl, g1, g2⟩ := g'.cut (vis a3.2.1)
    exact Alike.endsWithin (.cons (.inl rfl) g1.symm) (.cons (.inl rfl) g2.symm) (h.highlight _ _ _ _ _ e1 a1 a2 a3)

/-! ### Trees -/

def Block.Left (o : List Node) : Block → List Token → Prop
  | .para l, rest => BlockLeft (.Document :: o) (paraToks l) rest
  | _, _ => True

def Doc.Left : Doc → List Node → List Token → Prop
  | .nil, _, _ => True
  | .term _ d, o, rest => d.Left o rest
  | .block b d, o, rest => b.Left o (d.toks ++ rest) ∧ d.Left o rest
  | .coll _ _ i s c d, o, rest => i.Left (.Collapsible :: .Document :: o) (s ++ (c ++ (d.toks ++ rest))) ∧ d.Left o rest

theorem Block.Left.alike {o} {b : Block} {x y} (h : b.Left o x) (hs : Alike x y) : b.Left o y := by
  cases b with
  | para l => exact BlockLeft.alike h (Alike.refl _) hs
  | _ => trivial

theorem Doc.Left.alike : ∀ {d : Doc} {o x y}, d.Left o x → Alike x y → d.Left o y
  | .nil, _, _, _, _, _ => trivial
  | .term _ d, _, _, _, h, hs => Doc.Left.alike (d := d) h hs
  | .block _ d, _, _, _, h, hs => ⟨h.1.alike ((Alike.refl _).append hs), Doc.Left.alike (d := d) h.2 hs⟩
  | .coll _ _ i _ _ d, _, _, _, h, hs =>
    ⟨Doc.Left.alike (d := i) h.1 ((Alike.refl _).append ((Alike.refl _).append ((Alike.refl _).append hs))), Doc.Left.alike (d := d) h.2 hs⟩

theorem codeB_isCode {stops ts b rest} (h : codeB stops ts = some (b, rest)) : ∀ o r, b.Left o r := by
  intro o r
  have := (codeB_code h)
  cases b with
  | para l =>
    exfalso
    unfold codeB codeRestB at h
    split at h
    · cases h
    · split at h
      · split at h
        · split at h
          · cases h
          · simp only [Option.map_eq_some_iff, Prod.mk.injEq] at h
            obtain ⟨_, _, h, _⟩ := h; cases h
        · split at h
          · cases h
          · simp only [Option.map_eq_some_iff, Prod.mk.injEq] at h
            obtain ⟨_, _, h, _⟩ := h; cases h
      · cases h
  | _ => trivial

theorem other_left {o stops} (hs : StopsFor o stops) {ts} (hc : Cols ts) (h1 : codeB stops ts = none) :
    (otherB stops ts).1.Left o (otherB stops ts).2 := by
  unfold otherB
  split
  · rename_i x h2
    obtain ⟨b, r⟩ := x
    unfold embedB at h2
    split at h2
    · cases h2
    · split at h2
      · split at h2
        · cases h2
        · split at h2
          · cases h2
          · simp only [Option.map_eq_some_iff, Prod.mk.injEq] at h2
            obtain ⟨_, _, rfl, rfl⟩ := h2; trivial
      · cases h2
  · rename_i h2
    split
    · rename_i x h3
      obtain ⟨b, r⟩ := x
      have key : ∀ {op m q}, hlRestB stops op m q = some (b, r) → b.Left o r := by
        intro op m q h
        unfold hlRestB at h
        simp only at h
        split at h
        · simp only [Option.map_eq_some_iff, Prod.mk.injEq] at h
          obtain ⟨_, _, rfl, rfl⟩ := h; trivial
        · cases h
      unfold highlightB at h3
      split at h3
      · split at h3 <;> exact key h3
      · cases h3
    · rename_i h3
      cases hl : leafB (.Terminator :: stops) ts with
      | mk b r =>
        cases b with
        | para l => exact para_left hs hc h1 h2 h3 hl
        | _ => trivial

theorem codeB_hidden {stops} {t : Token} {r} (h : Hid t) : codeB stops (t :: r) = none := by
  unfold codeB
  simp only
  rw [if_neg]
  rw [isFence_iff]
  intro hf
  exact absurd h (vis hf.2.1)

theorem docB_left (s : List Stop) (ts : List Token) : ∀ o, StopsFor o s → Cols ts → (docB s ts).1.Left o (docB s ts).2 := by
  induction s, ts using docB_ind with
  | stop s ts h e => intro o _ _; rw [e]; trivial
  | term s t r hs ht e ih => intro o ho hc; rw [e]; exact ih o ho hc.tail
  | code s t r b rest hs ht hcode e ih =>
    intro o ho hc
    rw [e]
    have hc' : Cols rest := by rw [codeB_toks hcode] at hc; exact hc.right
    exact ⟨codeB_isCode hcode _ _, ih o ho hc'⟩
  | coll s t r p m r1 c r4 hs ht hcode ho hcl e ih1 ih2 =>
    intro o hso hc
    rw [e]
    have h0 := (collOpenB_toks ho).1
    have hc1 : Cols r1 := by
      have := hc
      rw [h0] at this
      exact this.right.right
    have h1 := skipEolB_toks (docB (.CollapsibleEnd :: s) r1).2
    have h2 := collCloseB_toks hcl
    have hc2 : Cols (docB (.CollapsibleEnd :: s) r1).2 := ((docB_flips _ r1).cols hc1).right
    have hc4 : Cols r4 := by
      have := hc2
      rw [h1, h2] at this
      exact this.right.right
    have hso' : StopsFor (.Collapsible :: .Document :: o) (.CollapsibleEnd :: s) := by
      refine ⟨fun s' hx => ?_, by simp⟩
      rcases List.mem_cons.1 hx with rfl | hx
      · rfl
      · exact hso.1 s' hx
    refine ⟨?_, ih2 o hso hc4⟩
    have := ih1 _ hso' hc1
    refine this.alike ?_
    conv => lhs; rw [h1, h2]
    exact (Alike.refl _).append ((Alike.refl _).append (docB_flips s r4).alike)
  | fallback s t r p m r1 x hs ht hcode ho hcl hx hl hst e ih1 ih2 =>
    intro o hso hc
    rw [e]
    obtain ⟨h0, h1, h2⟩ := collOpenB_toks ho
    have hfx : Flips (t :: r) x ∧ ∃ y q, x = y :: q ∧ Hid y := by
      have f1 : Flips (t :: r) (p ++ (modToks m ++ ((docB (.CollapsibleEnd :: s) r1).1.toks ++
            (docB (.CollapsibleEnd :: s) r1).2))) := by
        rw [h0]
        exact (Flips.refl _).append ((Flips.refl _).append (docB_flips _ r1))
      rw [hx]
      match p, h1 with
      | [a, b], _ =>
        simp only [List.cons_append, List.cons.injEq] at h0
        rw [tokenIs_zero] at h2
        simp only [isCollapsibleStart, Bool.and_eq_true, decide_eq_true_eq] at h2
        exact ⟨f1.trans (flips_flipHead (by rw [← h0.1]; exact h2.1)), _, _, rfl, .inl rfl⟩
    obtain ⟨hfx, y, q, ey, hy⟩ := hfx
    have hcx : Cols x := hfx.cols hc
    have hcr : Cols (otherB s x).2 := by
      have := hcx
      rw [otherB_toks s x] at this
      exact this.right
    exact ⟨(other_left hso hcx (by rw [ey]; exact codeB_hidden hy)).alike (docB_flips s _).alike, ih2 o hso hcr⟩
  | other s t r hs ht hcode ho hst e ih =>
    intro o hso hc
    rw [e]
    have hcx : Cols (flipOpen (t :: r)) := (flips_flipOpen _).cols hc
    have hcr : Cols (otherB s (flipOpen (t :: r))).2 := by
      have := hcx
      rw [otherB_toks s (flipOpen (t :: r))] at this
      exact this.right
    have hn : codeB s (flipOpen (t :: r)) = none := by
      unfold flipOpen
      split
      · exact codeB_hidden (.inl rfl)
      · exact hcode
    exact ⟨(other_left hso hcx hn).alike (docB_flips s _).alike, ih o hso hcr⟩

end Yamd.Ref
