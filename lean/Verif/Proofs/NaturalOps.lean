import Verif.Proofs.Natural
import Verif.Proofs.Denote

/-!
# Two sources with the same skeleton

When the pieces of one text are the pieces of another one with their texts replaced by `g`, both have
the same ops, with texts replaced by `g`.
-/

namespace Yamd.Ref

open Yamd Yamd.Spec Yamd.Lexer Yamd.Round

/-! ### Segments of a mapped tree -/

section segs
variable (f : Token → Token)

def Seg.mapT (s : Seg) : Seg := ⟨s.kind, s.skip.map f, s.own.map f⟩

theorem Delim.mapT_segs (d : Delim) : (d.mapT f).segs = d.segs.map (Seg.mapT f) := rfl

theorem flatMap_mapSegs {α : Type} {g : α → α} {sg : α → List Seg} (h : ∀ x, sg (g x) = (sg x).map (Seg.mapT f))
    (l : List α) : (l.map g).flatMap sg = (l.flatMap sg).map (Seg.mapT f) := by
  induction l with
  | nil => rfl
  | cons a l ih => simp [h, ih]

theorem BoldItem.mapT_segs (x : BoldItem) : (x.mapT f).segs = x.segs.map (Seg.mapT f) := by cases x <;> rfl

theorem anchorSegs_mapT (l : Link) : anchorSegs (l.mapT f) = (anchorSegs l).map (Seg.mapT f) := rfl

theorem Inl.mapT_segs (x : Inl) : (x.mapT f).segs = x.segs.map (Seg.mapT f) := by
  cases x with
  | text => rfl
  | delim => rfl
  | bold o items c =>
    simp only [Inl.mapT, Inl.segs, flatMap_mapSegs f (BoldItem.mapT_segs f), List.map_cons, List.map_append]
    rfl
  | anchor l => rfl

theorem paraSegs_mapT (l : List Inl) : paraSegs (l.map (Inl.mapT f)) = (paraSegs l).map (Seg.mapT f) := by
  simp only [paraSegs, flatMap_mapSegs f (Inl.mapT_segs f), List.map_cons, List.map_append]
  rfl

theorem HeadItem.mapT_segs (x : HeadItem) : (x.mapT f).segs = x.segs.map (Seg.mapT f) := by cases x <;> rfl

theorem Img.mapT_segs (x : Img) : (x.mapT f).segs = x.segs.map (Seg.mapT f) := rfl

theorem Items.mapT_kind (i : Items) : (i.mapT f).kind = i.kind := by cases i <;> rfl

theorem wrapSegs_mapT (k : Option ListKind) (s : List Seg) :
    wrapSegs k (s.map (Seg.mapT f)) = (wrapSegs k s).map (Seg.mapT f) := by
  cases k with
  | none => rfl
  | some k => simp only [wrapSegs, List.map_cons, List.map_append]; rfl

theorem Items.mapT_segs (i : Items) : (i.mapT f).segs = i.segs.map (Seg.mapT f) := by
  induction i with
  | nil => rfl
  | cons k m p n r ih1 ih2 =>
    simp only [Items.mapT, Items.segs, paraSegs_mapT, Items.mapT_kind, ih1, ih2, wrapSegs_mapT, List.map_cons,
      List.map_append]
    rfl

theorem modSegs_mapT (m : Option Mod) : modSegs (m.map (Mod.mapT f)) = (modSegs m).map (Seg.mapT f) := by
  cases m <;> rfl

theorem iconSegs_mapT (m : Option IconLine) : iconSegs (m.map (IconLine.mapT f)) = (iconSegs m).map (Seg.mapT f) := by
  cases m <;> rfl

theorem HPara.mapT_segs (h : HPara) : (h.mapT f).segs = h.segs.map (Seg.mapT f) := by
  obtain ⟨t, p⟩ := h
  simp only [HPara.mapT, HPara.segs, paraSegs_mapT, List.map_append]
  cases t <;> rfl

theorem Block.mapT_segs (b : Block) : (b.mapT f).segs = b.segs.map (Seg.mapT f) := by
  cases b with
  | code o m b c => simp only [Block.mapT, Block.segs, modSegs_mapT, List.map_cons, List.map_append]; rfl
  | embed o l p r c => rfl
  | highlight o m i b c =>
    simp only [Block.mapT, Block.segs, modSegs_mapT, iconSegs_mapT, flatMap_mapSegs f (HPara.mapT_segs f),
      List.map_cons, List.map_append]
    rfl
  | list i => simp only [Block.mapT, Block.segs, Items.listSegs, Items.mapT_kind, Items.mapT_segs, wrapSegs_mapT]
  | images l =>
    simp only [Block.mapT, Block.segs, List.length_map, flatMap_mapSegs f (Img.mapT_segs f)]
    split
    · simp only [List.map_cons, List.map_append]; rfl
    · rfl
  | thematic t => rfl
  | heading m b =>
    simp only [Block.mapT, Block.segs, flatMap_mapSegs f (HeadItem.mapT_segs f), List.map_cons, List.map_append]
    rfl
  | para l => exact paraSegs_mapT f l

theorem Doc.mapT_segs (d : Doc) : (d.mapT f).segs = d.segs.map (Seg.mapT f) := by
  induction d with
  | nil => rfl
  | term t r ih => simp only [Doc.mapT, Doc.segs, ih, List.map_cons]; rfl
  | block b r ih => simp only [Doc.mapT, Doc.segs, ih, Block.mapT_segs, List.map_append]
  | coll o m i s c r ih1 ih2 =>
    simp only [Doc.mapT, Doc.segs, modSegs_mapT, ih1, ih2, List.map_cons, List.map_append]; rfl

theorem Top.mapT_segs (t : Top) : (t.mapT f).segs = t.segs.map (Seg.mapT f) := by
  obtain ⟨m, d⟩ := t
  cases m <;> simp only [Top.mapT, Top.segs, Doc.mapT_segs, Option.map_none, Option.map_some, List.map_cons,
    List.map_append, List.map_nil, Delim.mapT_segs] <;> rfl

end segs

/-! ### A token function between two similar lists -/

/-- `u` may stand for `a`. -/
structure Sim (a u : Token) : Prop where
  kind : u.kind = a.kind
  col : col0 u = col0 a
  len : strict a.kind = true → u.len = a.len
  le : u.start ≤ u.stop

/-- Similar token by token. -/
inductive Sims : List Token → List Token → Prop
  | nil : Sims [] []
  | cons {a u r r'} : Sim a u → Sims r r' → Sims (a :: r) (u :: r')

/-- `u`, with what the parser looks at taken from `t`. -/
def forceTok (t u : Token) : Token :=
  ⟨t.kind, u.start, if strict t.kind then u.start + t.len else u.stop,
    ⟨u.position.byteIndex, if col0 t then 0 else (if u.position.column = 0 then 1 else u.position.column),
      u.position.row⟩, u.escaped⟩

/-- Replace the tokens of the first list (found by their start) by those of the second. -/
def build : List Token → List Token → Token → Token
  | a :: r, u :: r', t => if t.start = a.start then forceTok t u else build r r' t
  | _, _, t => t

theorem build_nil (l : List Token) (t : Token) : build l [] t = t := by cases l <;> rfl

theorem build_resp (l : List Token) : ∀ l', Resp (build l l') := by
  induction l with
  | nil => intro l'; exact ⟨fun t => rfl, fun t => rfl, fun t _ => rfl, fun t _ => rfl⟩
  | cons a r ih =>
    intro l'
    cases l' with
    | nil => exact ⟨fun t => by rw [build_nil], fun t => by rw [build_nil], fun t _ => by rw [build_nil],
        fun t _ => by rw [build_nil, build_nil]⟩
    | cons u r' =>
      refine ⟨fun t => ?_, fun t => ?_, fun t ht => ?_, fun t ht => ?_⟩
      · rw [build]; split
        · rfl
        · exact (ih r').kind t
      · rw [build]; split
        · simp only [forceTok, col0]
          by_cases h : t.position.column = 0
          · simp [h]
          · by_cases h' : u.position.column = 0 <;> simp [h, h']
        · exact (ih r').col t
      · rw [build]; split
        · simp only [forceTok, ht, if_true, Token.len]; omega
        · exact (ih r').len t ht
      · rw [build, build]; split
        · simp only [forceTok, ht, strict, col0, Bool.false_eq_true, if_false]; rfl
        · exact (ih r').flip t ht

theorem force_sim {a u : Token} (h : Sim a u) : forceTok a u = u := by
  obtain ⟨k, s, e, ⟨b, c, r⟩, x⟩ := u
  obtain ⟨h1, h2, h3, h4⟩ := h
  simp only [col0, Token.len, decide_eq_decide] at h1 h2 h3 h4
  unfold forceTok
  subst h1
  congr 1
  · split
    · rename_i hs; have := h3 hs; simp only [Token.len] at this ⊢; omega
    · rfl
  · congr 1
    simp only [col0]
    by_cases h : a.position.column = 0
    · simp [h2.2 h, h]
    · have : c ≠ 0 := fun hc => h (h2.1 hc)
      simp [h, this]

theorem build_map {l l' : List Token} (h : Sims l l') : l.Pairwise (fun a b => a.start ≠ b.start) →
    l.map (build l l') = l' := by
  induction h with
  | nil => intro _; rfl
  | cons h hr ih =>
    rename_i a u r r'
    intro hp
    rw [List.pairwise_cons] at hp
    rw [List.map_cons]
    congr 1
    · rw [build, if_pos rfl, force_sim h]
    · conv => rhs; rw [← ih hp.2]
      apply List.map_congr_left
      intro t ht
      rw [build, if_neg (fun e => hp.1 t ht e.symm)]

/-! ### Tokens of related pieces -/

/-- The piece with another text. -/
def subP (g : Str → Str) (p : Piece) : Piece := { p with text := g p.text }

/-- `g` may replace the texts of these pieces. -/
def Subst (g : Str → Str) (ps : List Piece) : Prop :=
  ∀ p ∈ ps, p.text ≠ [] ∧ g p.text ≠ [] ∧ (strict p.kind = true → g p.text = p.text)

theorem place_sims {g : Str → Str} : ∀ {ps : List Piece}, Subst g ps → ∀ off col row off' col' row',
    (col = 0 ↔ col' = 0) → Sims (place off col row ps) (place off' col' row' (ps.map (subP g)))
  | [], _, _, _, _, _, _, _, _ => .nil
  | p :: ps, h, off, col, row, off', col', row', hc => by
    obtain ⟨h1, h2, h3⟩ := h p (by simp)
    refine .cons ⟨rfl, ?_, fun hs => ?_, ?_⟩ (place_sims (fun q hq => h q (by simp [hq])) _ _ _ _ _ _ ?_)
    · show decide (col' = 0) = decide (col = 0)
      exact decide_eq_decide.2 hc.symm
    · simp only [tokenOf, subP, Token.len] at hs ⊢
      rw [h3 hs]; omega
    · simp [tokenOf]
    · have l1 : p.text.length ≠ 0 := by simpa using h1
      have l2 : (g p.text).length ≠ 0 := by simpa using h2
      unfold advancePos subP
      cases p.kind <;> simp only [Nat.add_eq_zero_iff, l1, l2, and_false]

theorem place_starts {ps : List Piece} (hn : ∀ p ∈ ps, p.text ≠ []) : ∀ off col row,
    (∀ t ∈ place off col row ps, off ≤ t.start) ∧
      (place off col row ps).Pairwise (fun a b => a.start ≠ b.start) := by
  induction ps with
  | nil => intro off col row; simp [place]
  | cons p ps ih =>
    intro off col row
    have hp := Props.blen_pos (hn p (by simp))
    obtain ⟨i1, i2⟩ := ih (fun q hq => hn q (by simp [hq])) ((off + if p.esc then 1 else 0) + blen p.text)
      (advancePos p col row).1 (advancePos p col row).2
    refine ⟨?_, ?_⟩
    · intro t ht
      simp only [place, List.mem_cons] at ht
      rcases ht with rfl | ht
      · simp [tokenOf]
      · have := i1 t ht; omega
    · simp only [place, List.pairwise_cons]
      refine ⟨fun t ht => ?_, i2⟩
      have := i1 t ht
      simp only [tokenOf]
      omega

theorem place_slices (s : Str) : ∀ (pre : Str) (col row : Nat),
    (place (blen pre) col row (pieces s)).map (sliceD (pre ++ s)) = (pieces s).map Piece.text := by
  induction s using pieces_induction with
  | h0 s h => intros; rw [pieces_none h]; simp [place]
  | h1 s p r h ih =>
    intro pre col row
    rw [pieces_some h]
    have hsrc := tok1_src h
    simp only [place, List.map_cons]
    congr 1
    · unfold sliceD tokenOf
      simp only
      have e : pre ++ s = (pre ++ (if p.esc then ['\\'] else [])) ++ (p.text ++ r) := by
        rw [hsrc]; simp [Piece.src]
      have e2 : blen pre + (if p.esc = true then 1 else 0) = blen (pre ++ (if p.esc then ['\\'] else [])) := by
        rw [blen_append]; split <;> rfl
      rw [e, e2, slice_append _ _ _ _ rfl]; rfl
    · have e : blen pre + (if p.esc = true then 1 else 0) + blen p.text = blen (pre ++ p.src) := by
        simp only [Piece.src, blen_append]
        have := e1; split <;> simp [blen] <;> omega
      rw [e, show pre ++ s = (pre ++ p.src) ++ r by rw [hsrc]; simp]
      exact ih _ _ _

theorem tokens_slices (s : Str) : (tokens s).map (sliceD s) = (pieces s).map Piece.text := by
  have := place_slices s [] 0 0
  simpa [blen, tokens] using this

theorem Flips.mem_left {a b : List Token} (h : Flips a b) : ∀ u ∈ b, ∃ t ∈ a, FlipRel t u := by
  induction h with
  | nil => intro u hu; simp at hu
  | cons h _ ih =>
    intro u hu
    rcases List.mem_cons.1 hu with rfl | hu
    · exact ⟨_, by simp, h⟩
    · obtain ⟨t, ht, hr⟩ := ih u hu
      exact ⟨t, by simp [ht], hr⟩

/-- Trees of two texts with the same skeleton. -/
theorem subst_trees {s s' : Str} {g : Str → Str} (hp : pieces s' = (pieces s).map (subP g))
    (hg : Subst g (pieces s)) :
    ∃ f : Token → Token, topB (tokens s') = (topB (tokens s)).mapT f ∧
      ∀ t ∈ (topB (tokens s)).toks, sliceD s' (f t) = g (sliceD s t) := by
  have hs : Sims (tokens s) (tokens s') := by
    unfold tokens; rw [hp]; exact place_sims hg _ _ _ _ _ _ Iff.rfl
  have hd : (tokens s).Pairwise (fun a b => a.start ≠ b.start) := (place_starts (fun p h => (hg p h).1) 0 0 0).2
  have hm := build_map hs hd
  have hr := build_resp (tokens s) (tokens s')
  refine ⟨build (tokens s) (tokens s'), ?_, ?_⟩
  · rw [← topB_nat hr, hm]
  · have e := tokens_slices s'
    rw [hp, List.map_map, show Piece.text ∘ subP g = g ∘ Piece.text from rfl, ← List.map_map, ← tokens_slices s,
      ← hm, List.map_map, List.map_map] at e
    have e' := List.map_inj_left.1 e
    intro u hu
    obtain ⟨t, ht, hf⟩ := (top_flips (tokens s)).mem_left u hu
    rcases hf with rfl | ⟨hk, rfl⟩
    · exact e' _ ht
    · rw [hr.flip t hk]; exact e' _ ht

theorem textOfToks_subst {s s' : Str} {g : Str → Str} (g0 : g [] = []) (ga : ∀ a b, g (a ++ b) = g a ++ g b)
    {f : Token → Token} {ts : List Token} (h : ∀ t ∈ ts, sliceD s' (f t) = g (sliceD s t)) :
    textOfToks s' (ts.map f) = g (textOfToks s ts) := by
  induction ts with
  | nil => exact g0.symm
  | cons t ts ih =>
    have := ih (fun u hu => h u (by simp [hu]))
    simp only [textOfToks, List.map_cons, List.flatMap_cons] at this ⊢
    rw [this, h t (by simp), ga]

theorem opText_seg {input : Str} {s : Seg} (hs : s ∈ (topB (tokens input)).segs) :
    opText input (Seg.op input s) = textOfToks input s.own := by
  have := rd_top input s hs
  unfold opText Seg.op
  rw [this]

/-- Ops of two texts with the same skeleton. -/
theorem subst_ops {s s' : Str} {g : Str → Str} (g0 : g [] = []) (ga : ∀ a b, g (a ++ b) = g a ++ g b)
    (hp : pieces s' = (pieces s).map (subP g)) (hg : Subst g (pieces s)) :
    ((topB (tokens s')).ops s').map (fun o => (o.kind, opText s' o))
      = ((topB (tokens s)).ops s).map (fun o => (o.kind, g (opText s o))) := by
  obtain ⟨f, h1, h2⟩ := subst_trees hp hg
  rw [Top.ops_segs, Top.ops_segs, h1, Top.mapT_segs, List.map_map, List.map_map, List.map_map]
  apply List.map_congr_left
  intro x hx
  have hx' : x.mapT f ∈ (topB (tokens s')).segs := by
    rw [h1, Top.mapT_segs]; exact List.mem_map_of_mem hx
  have e1 := opText_seg hx'
  have e2 := opText_seg hx
  simp only [Function.comp]
  rw [e1, e2]
  have : ∀ t ∈ x.own, sliceD s' (f t) = g (sliceD s t) := by
    intro t ht
    apply h2
    rw [← Top.toks_segs]
    exact List.mem_flatMap.2 ⟨x, hx, by simp [Seg.toks, ht]⟩
  rw [show (x.mapT f).own = x.own.map f from rfl, textOfToks_subst g0 ga this]
  rfl

end Yamd.Ref
