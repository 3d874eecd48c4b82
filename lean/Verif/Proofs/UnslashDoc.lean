import Verif.Proofs.UnslashLex
import Verif.Proofs.InsertParse
import Verif.Proofs.SubstDoc

/-!
# The document of a text without its superfluous backslashes
-/

namespace Yamd.Ref

open Yamd Yamd.Spec Yamd.Lexer

/-! ### Groups of tokens -/

theorem place_soft {ls : List Piece} (hl : Soft ls) (r : List Piece) : ∀ off col row, col ≠ 0 →
    ∃ off' col' row', place off col row (ls ++ r) = place off col row ls ++ place off' col' row' r ∧ col' ≠ 0 := by
  induction ls with
  | nil => intro off col row hc; exact ⟨off, col, row, rfl, hc⟩
  | cons p ls ih =>
    intro off col row hc
    obtain ⟨hk, ht⟩ := hl p (by simp)
    have ha : (advancePos p col row).1 ≠ 0 := by
      unfold advancePos; rw [hk]; simp only; omega
    obtain ⟨a, b, c, h1, h2⟩ := ih (fun q hq => hl q (by simp [hq])) _ _ (advancePos p col row).2 ha
    exact ⟨a, b, c, by rw [List.cons_append, place, h1]; rfl, h2⟩

theorem place_kinds {ls : List Piece} (hl : Soft ls) : ∀ off col row, ∀ u ∈ place off col row ls, u.kind = .Literal := by
  induction ls with
  | nil => intro off col row u hu; simp [place] at hu
  | cons p ls ih =>
    intro off col row u hu
    rcases List.mem_cons.1 hu with rfl | hu
    · exact (hl p (by simp)).1
    · exact ih (fun q hq => hl q (by simp [hq])) _ _ _ u hu

theorem place_len (ls : List Piece) : ∀ off col row, (place off col row ls).length = ls.length := by
  induction ls with
  | nil => intros; rfl
  | cons p ls ih => intros; simp [place, ih]

/-- A token with the literals behind it. -/
abbrev Grp := Token × List Token

def Grp.all (g : Grp) : List Token := g.1 :: g.2

structure Groups (ps : List Piece) (ts : List Token) (gs : List Grp) : Prop where
  non : ∀ g ∈ gs, g.1.kind ≠ .Literal → g.2 = []
  lit : ∀ g ∈ gs, ∀ u ∈ g.2, u.kind = .Literal
  sims : Sims ts (gs.map Prod.fst)

theorem cuts_groups {ps ps' : List Piece} (h : Cuts ps ps') (hn : ∀ p ∈ ps, p.text ≠ []) :
    ∀ off col row off' col' row', (col = 0 ↔ col' = 0) →
    ∃ gs : List Grp, place off' col' row' ps' = gs.flatMap Grp.all ∧ Groups ps (place off col row ps) gs ∧
      ∀ F : Token → Str, (place off' col' row' ps').map F = ps'.map Piece.text →
        gs.map (fun g => g.all.flatMap F) = ps.map Piece.text := by
  induction h with
  | nil => intros; exact ⟨[], rfl, ⟨by simp, by simp, .nil⟩, fun _ _ => rfl⟩
  | @cons p p' ls r r' hk ht hs hl he _ ih =>
    intro off col row off' col' row' hc
    have hpn := hn p (by simp)
    have ih := ih (fun q hq => hn q (by simp [hq]))
    have key : ∃ off2 col2 row2, place off' col' row' (p' :: (ls ++ r')) =
        tokenOf p' off' col' row' :: (place ((off' + if p'.esc then 1 else 0) + blen p'.text)
          (advancePos p' col' row').1 (advancePos p' col' row').2 ls ++ place off2 col2 row2 r') ∧
        ((advancePos p col row).1 = 0 ↔ col2 = 0) := by
      have l1 : p.text.length ≠ 0 := by simpa using hpn
      have l2 : p'.text.length ≠ 0 := by simpa using ht
      by_cases hlit : p.kind = .Literal
      · have ha : (advancePos p' col' row').1 ≠ 0 := by
          unfold advancePos; rw [hk, hlit]; simp only; omega
        have hb : (advancePos p col row).1 ≠ 0 := by
          unfold advancePos; rw [hlit]; simp only; omega
        obtain ⟨a, b, c, h1, h2⟩ := place_soft hs r' ((off' + if p'.esc then 1 else 0) + blen p'.text) _
          (advancePos p' col' row').2 ha
        exact ⟨a, b, c, by rw [place, h1], by simp [h2, hb]⟩
      · rw [hl hlit]
        refine ⟨_, _, _, rfl, ?_⟩
        unfold advancePos
        rw [hk]
        cases p.kind <;> simp only [Nat.add_eq_zero_iff, l1, l2, and_false]
    obtain ⟨off2, col2, row2, e1, e2⟩ := key
    obtain ⟨gs, g1, g2, g3⟩ := ih ((off + if p.esc then 1 else 0) + blen p.text) _ (advancePos p col row).2
      off2 col2 row2 e2
    refine ⟨(tokenOf p' off' col' row', place ((off' + if p'.esc then 1 else 0) + blen p'.text)
          (advancePos p' col' row').1 (advancePos p' col' row').2 ls) :: gs, ?_, ⟨?_, ?_, ?_⟩, ?_⟩
    · rw [e1, g1]; rfl
    · intro g hg hgk
      rcases List.mem_cons.1 hg with rfl | hg
      · have : p.kind ≠ .Literal := by rw [← hk]; exact hgk
        simp [hl this, place]
      · exact g2.non g hg hgk
    · intro g hg
      rcases List.mem_cons.1 hg with rfl | hg
      · exact place_kinds hs _ _ _
      · exact g2.lit g hg
    · rw [List.map_cons, place]
      refine .cons ⟨hk, ?_, fun hst => ?_, ?_⟩ g2.sims
      · show decide (col' = 0) = decide (col = 0)
        exact decide_eq_decide.2 hc.symm
      · simp only [tokenOf, Token.len] at hst ⊢
        have hne : p.kind ≠ .Literal := by intro h; rw [h] at hst; simp [strict] at hst
        rw [hl hne] at he
        simp only [pieceText, List.flatMap_nil, List.append_nil] at he
        rw [he]; omega
      · simp [tokenOf]
    · intro F hF
      rw [e1, List.map_cons, List.map_cons, List.map_append, List.map_append, List.cons.injEq] at hF
      obtain ⟨f1, f2⟩ := hF
      obtain ⟨f3, f4⟩ := List.append_inj f2 (by simp [place_len])
      rw [List.map_cons, List.map_cons, g3 F f4]
      congr 1
      rw [he]
      simp only [Grp.all, List.flatMap_cons, f1, pieceText]
      rw [List.flatMap_def, f3, ← List.flatMap_def]

/-- What stands behind the head of a group, found by its start. -/
def after : List Grp → Nat → List Token
  | [], _ => []
  | g :: gs, n => if g.1.start = n then g.2 else after gs n

theorem after_lit {gs : List Grp} (h : ∀ g ∈ gs, ∀ u ∈ g.2, u.kind = .Literal) (n : Nat) :
    ∀ u ∈ after gs n, u.kind = .Literal := by
  induction gs with
  | nil => intro u hu; simp [after] at hu
  | cons g gs ih =>
    rw [after]
    split
    · exact h g (by simp)
    · exact ih (fun g hg => h g (by simp [hg]))

theorem after_mem {gs : List Grp} (hp : gs.Pairwise (fun a b => a.1.start ≠ b.1.start)) {g : Grp} (hg : g ∈ gs) :
    after gs g.1.start = g.2 := by
  induction gs with
  | nil => simp at hg
  | cons a gs ih =>
    rw [List.pairwise_cons] at hp
    rw [after]
    rcases List.mem_cons.1 hg with rfl | hg
    · rw [if_pos rfl]
    · rw [if_neg (hp.1 g hg), ih hp.2 hg]

def behind (gs : List Grp) (t : Token) : List Token := if t.kind = .Literal then after gs t.start else []

section
variable {gs : List Grp} (hp : gs.Pairwise (fun a b => a.1.start ≠ b.1.start))
  (hnon : ∀ g ∈ gs, g.1.kind ≠ .Literal → g.2 = []) (hlit : ∀ g ∈ gs, ∀ u ∈ g.2, u.kind = .Literal)
include hp hnon hlit

omit hp hnon in
theorem behind_ins : Ins (behind gs) := by
  refine ⟨fun t ht => by rw [behind, if_neg ht], fun t => ?_⟩
  unfold behind
  split
  · exact after_lit hlit _
  · intro u hu; simp at hu

omit hlit in
theorem behind_mem {g : Grp} (hg : g ∈ gs) : behind gs g.1 = g.2 := by
  unfold behind
  split
  · exact after_mem hp hg
  · rename_i hk; exact (hnon g hg hk).symm

omit hlit in
theorem ins_heads : ins (behind gs) (gs.map Prod.fst) = gs.flatMap Grp.all := by
  have : ∀ l : List Grp, (∀ g ∈ l, g ∈ gs) → ins (behind gs) (l.map Prod.fst) = l.flatMap Grp.all := by
    intro l
    induction l with
    | nil => intro _; rfl
    | cons g l ih =>
      intro hl
      rw [List.map_cons, ins_cons, behind_mem hp hnon (hl g (by simp)), ih (fun g hg => hl g (by simp [hg]))]
      rfl
  exact this gs (fun _ h => h)

omit hlit in
theorem closed_heads : Closed (behind gs) (gs.map Prod.fst) := by
  intro t ht hk
  obtain ⟨g, hg, rfl⟩ := List.mem_map.1 ht
  show (if TokenKind.Literal = .Literal then after gs g.1.start else []) = []
  rw [if_pos rfl, after_mem hp hg]
  exact hnon g hg (by rw [hk]; decide)

end

theorem heads_sublist : ∀ gs : List Grp, (gs.map Prod.fst).Sublist (gs.flatMap Grp.all)
  | [] => List.Sublist.slnil
  | g :: gs => by
    rw [List.map_cons, List.flatMap_cons]
    exact List.Sublist.cons_cons _ ((heads_sublist gs).trans (List.sublist_append_right _ _))

/-- The trees of the two texts. -/
theorem unslash_trees (s : Str) : ∃ (f : Token → Token) (e : Token → List Token),
    topB (tokens s) = ((topB (tokens (unslash s))).mapT f).mapX e ∧
    ∀ t ∈ (topB (tokens (unslash s))).toks, textOfToks s (f t :: e (f t)) = sliceD (unslash s) t := by
  have hne : ∀ x : Str, ∀ p ∈ pieces x, p.text ≠ [] := fun x p hp => form_ne_nil (pieces_form x p hp).1
  obtain ⟨gs, h1, h2, h3⟩ := cuts_groups (cuts_unslash s) (hne _) 0 0 0 0 0 0 Iff.rfl
  have h1 : tokens s = gs.flatMap Grp.all := h1
  have h3 := h3 (sliceD s) (tokens_slices s)
  have hsub : (gs.map Prod.fst).Sublist (tokens s) := by
    rw [h1]; exact heads_sublist gs
  have hp : gs.Pairwise (fun a b => a.1.start ≠ b.1.start) := by
    have h4 : (tokens s).Pairwise (fun a b => a.start ≠ b.start) := (place_starts (hne s) 0 0 0).2
    have h5 := List.Pairwise.sublist hsub h4
    exact (List.pairwise_map (R := fun a b : Token => a.start ≠ b.start)).1 h5
  have hd : (tokens (unslash s)).Pairwise (fun a b => a.start ≠ b.start) := (place_starts (hne _) 0 0 0).2
  have hsim : Sims (tokens (unslash s)) (gs.map Prod.fst) := h2.sims
  have hm := build_map hsim hd
  have hr := build_resp (tokens (unslash s)) (gs.map Prod.fst)
  have hi := behind_ins h2.lit
  refine ⟨build (tokens (unslash s)) (gs.map Prod.fst), behind gs, ?_, ?_⟩
  · rw [← topB_nat hr, hm, ← topB_ins hi (closed_heads hp h2.non), ins_heads hp h2.non, h1]
  · generalize hf : build (tokens (unslash s)) (gs.map Prod.fst) = f at hm hr
    have hcl := closed_heads hp h2.non
    have key : ∀ t ∈ tokens (unslash s), textOfToks s (f t :: behind gs (f t)) = sliceD (unslash s) t := by
      have a : (tokens (unslash s)).map (fun t => textOfToks s (f t :: behind gs (f t)))
          = (tokens (unslash s)).map (sliceD (unslash s)) := by
        rw [tokens_slices, ← h3]
        have : (tokens (unslash s)).map (fun t => textOfToks s (f t :: behind gs (f t)))
            = ((tokens (unslash s)).map f).map (fun t => textOfToks s (t :: behind gs t)) := by
          rw [List.map_map]; rfl
        rw [this, hm, List.map_map]
        apply List.map_congr_left
        intro g hg
        simp only [Function.comp, behind_mem hp h2.non hg]
        rfl
      exact List.map_inj_left.1 a
    intro u hu
    obtain ⟨t, ht, hft⟩ := (top_flips (tokens (unslash s))).mem_left u hu
    rcases hft with rfl | ⟨hk, rfl⟩
    · exact key _ ht
    · have hft : f t ∈ gs.map Prod.fst := by rw [← hm]; exact List.mem_map_of_mem ht
      have k1 := hcl (f t) hft (by rw [hr.kind]; exact hk)
      have k2 := key t ht
      rw [behind, if_neg (by rw [hr.kind, hk]; decide)] at k2
      rw [hr.flip t hk, k1]
      exact k2

/-! ### Denotation -/

section
variable {s s' : Str} {f : Token → Token} {e : Token → List Token}

/-- The tokens keep their texts. -/
def Stays (s s' : Str) (f : Token → Token) (e : Token → List Token) (ts : List Token) : Prop :=
  ∀ t ∈ ts, textOfToks s' (f t :: e (f t)) = sliceD s t

theorem Stays.sub {ts us : List Token} (hm : Stays s s' f e ts) (hs : ∀ t ∈ us, t ∈ ts) : Stays s s' f e us :=
  fun t ht => hm t (hs t ht)

theorem text_stays {ts : List Token} (hm : Stays s s' f e ts) :
    textOfToks s' (ins e (ts.map f)) = textOfToks s ts := by
  induction ts with
  | nil => rfl
  | cons t ts ih =>
    have a := hm t (by simp)
    have b := ih (fun t ht => hm t (by simp [ht]))
    rw [List.map_cons, ins_cons, ← List.cons_append]
    unfold textOfToks at a b ⊢
    rw [List.flatMap_append, a, b]; rfl

theorem BoldItem.denote_stays (x : BoldItem) (hm : Stays s s' f e x.toks) :
    ((x.mapT f).mapX e).denote s' = x.denote s := by
  cases x with
  | text ts =>
    have := text_stays (ts := ts) hm
    simp only [BoldItem.mapT, BoldItem.mapX, BoldItem.denote, this]
  | delim d =>
    have := text_stays (hm.sub (us := d.body) (fun t ht => by simp [BoldItem.toks, Delim.toks, ht]))
    cases hn : d.node <;> simp only [BoldItem.mapT, BoldItem.mapX, BoldItem.denote, Delim.mapT, Delim.mapX, hn, this]

theorem Link.denote_stays (x : Link) (hm : Stays s s' f e x.toks) :
    ((x.mapT f).mapX e).denote s' = x.denote s := by
  have e1 := text_stays (hm.sub (us := x.title.body) (fun t ht => by simp [Link.toks, Delim.toks, ht]))
  have e2 := text_stays (hm.sub (us := x.dest.body) (fun t ht => by simp [Link.toks, Delim.toks, ht]))
  simp only [Link.mapT, Link.mapX, Link.denote, Delim.mapT, Delim.mapX, e1, e2]

theorem map_stays {α β : Type} {tk : α → List Token} {mt mx : α → α} {den den' : α → β}
    (H : ∀ x, Stays s s' f e (tk x) → den' (mx (mt x)) = den x) (l : List α)
    (hm : Stays s s' f e (l.flatMap tk)) : ((l.map mt).map mx).map den' = l.map den := by
  induction l with
  | nil => rfl
  | cons x l ih =>
    simp only [List.map_cons]
    rw [H x (hm.sub (fun t ht => by simp [ht])), ih (hm.sub (fun t ht => by
      simp only [List.flatMap_cons, List.mem_append]; exact Or.inr ht))]

theorem Inl.denote_stays (x : Inl) (hm : Stays s s' f e x.toks) :
    ((x.mapT f).mapX e).denote s' = x.denote s := by
  cases x with
  | text ts =>
    have := text_stays (ts := ts) hm
    simp only [Inl.mapT, Inl.mapX, Inl.denote, this]
  | delim d =>
    have := text_stays (hm.sub (us := d.body) (fun t ht => by simp [Inl.toks, Delim.toks, ht]))
    cases hn : d.node <;> simp only [Inl.mapT, Inl.mapX, Inl.denote, Delim.mapT, Delim.mapX, hn, this]
  | bold o items c =>
    have := map_stays BoldItem.denote_stays items (hm.sub (fun t ht => by
      simp only [Inl.toks, List.mem_cons, List.mem_append]; exact Or.inr (Or.inl ht)))
    simp only [Inl.mapT, Inl.mapX, Inl.denote, this]
  | anchor l => simp only [Inl.mapT, Inl.mapX, Inl.denote, Link.denote_stays l hm]

theorem para_stays (l : List Inl) (hm : Stays s s' f e (paraToks l)) :
    paraDenote s' ((l.map (Inl.mapT f)).map (Inl.mapX e)) = paraDenote s l :=
  map_stays Inl.denote_stays l hm

theorem HeadItem.denote_stays (x : HeadItem) (hm : Stays s s' f e x.toks) :
    ((x.mapT f).mapX e).denote s' = x.denote s := by
  cases x with
  | text ts =>
    have := text_stays (ts := ts) hm
    simp only [HeadItem.mapT, HeadItem.mapX, HeadItem.denote, this]
  | anchor l => simp only [HeadItem.mapT, HeadItem.mapX, HeadItem.denote, Link.denote_stays l hm]

theorem Img.denote_stays (x : Img) (hm : Stays s s' f e x.toks) :
    ((x.mapT f).mapX e).denote s' = x.denote s := by
  have e1 := text_stays (hm.sub (us := x.link.title.body) (fun t ht => by simp [Img.toks, Link.toks, Delim.toks, ht]))
  have e2 := text_stays (hm.sub (us := x.link.dest.body) (fun t ht => by simp [Img.toks, Link.toks, Delim.toks, ht]))
  simp only [Img.mapT, Img.mapX, Img.denote, Link.mapT, Link.mapX, Delim.mapT, Delim.mapX, e1, e2]

theorem Items.mapX_kind (i : Items) : (i.mapX e).kind = i.kind := by cases i <;> rfl

theorem Items.denote_stays (i : Items) : ∀ n, Stays s s' f e i.toks →
    ((i.mapT f).mapX e).denote s' n = i.denote s n := by
  induction i with
  | nil => intro n hm; rfl
  | cons k m p nn r ih1 ih2 =>
    intro n hm
    have e0 := para_stays p (hm.sub (fun t ht => by simp [Items.toks, ht]))
    have e1 := ih1 (n + 1) (hm.sub (fun t ht => by simp [Items.toks, ht]))
    have e2 := ih2 n (hm.sub (fun t ht => by simp [Items.toks, ht]))
    simp only [Items.mapT, Items.mapX, Items.denote, Items.mapX_kind, Items.mapT_kind, e0, e1, e2]

theorem mod_stays (m : Option Mod) (hm : Stays s s' f e (modToks m)) :
    modDenote s' ((m.map (Mod.mapT f)).map (Mod.mapX e)) = modDenote s m := by
  cases m with
  | none => rfl
  | some m =>
    have := text_stays (hm.sub (us := m.body) (fun t ht => by simp [modToks, ht]))
    simp only [Option.map_some, modDenote, Mod.mapT, Mod.mapX, this]

theorem icon_stays (m : Option IconLine) (hm : Stays s s' f e (iconToks m)) :
    iconDenote s' ((m.map (IconLine.mapT f)).map (IconLine.mapX e)) = iconDenote s m := by
  cases m with
  | none => rfl
  | some m =>
    have := text_stays (hm.sub (us := m.body) (fun t ht => by simp [iconToks, ht]))
    simp only [Option.map_some, iconDenote, IconLine.mapT, IconLine.mapX, this]

theorem HPara.denote_stays (x : HPara) (hm : Stays s s' f e x.toks) :
    ToYamd.trimTrailingNewline (paraDenote s' ((x.mapT f).mapX e).para)
      = ToYamd.trimTrailingNewline (paraDenote s x.para) := by
  have := para_stays x.para (hm.sub (fun t ht => by simp [HPara.toks, ht]))
  simp only [HPara.mapT, HPara.mapX, this]

theorem Block.denote_stays (b : Block) (hm : Stays s s' f e b.toks) :
    ((b.mapT f).mapX e).denote s' = b.denote s := by
  cases b with
  | code o m b c =>
    have e1 := mod_stays m (hm.sub (fun t ht => by simp [Block.toks, ht]))
    have e2 := text_stays (hm.sub (us := b) (fun t ht => by simp [Block.toks, ht]))
    simp only [Block.mapT, Block.mapX, Block.denote, e1, e2]
  | embed o l p r c =>
    have e1 := text_stays (hm.sub (us := l) (fun t ht => by simp [Block.toks, ht]))
    have e2 := text_stays (hm.sub (us := r) (fun t ht => by simp [Block.toks, ht]))
    simp only [Block.mapT, Block.mapX, Block.denote, e1, e2]
  | highlight o m i b c =>
    have e1 := mod_stays m (hm.sub (fun t ht => by simp [Block.toks, ht]))
    have e2 := icon_stays i (hm.sub (fun t ht => by simp [Block.toks, ht]))
    have e3 := map_stays (mt := HPara.mapT f) (mx := HPara.mapX e)
      (den' := fun x => ToYamd.trimTrailingNewline (paraDenote s' x.para))
      (den := fun x => ToYamd.trimTrailingNewline (paraDenote s x.para)) HPara.denote_stays b (hm.sub (fun t ht => by
      simp only [Block.toks, List.mem_append, List.mem_cons]; tauto))
    simp only [Block.mapT, Block.mapX, Block.denote, e1, e2, e3]
  | list i =>
    simp only [Block.mapT, Block.mapX, Block.denote, Items.mapX_kind, Items.mapT_kind, Items.denote_stays i 0 hm]
  | images l =>
    have := map_stays Img.denote_stays l hm
    cases l with
    | nil => rfl
    | cons x l =>
      cases l with
      | nil =>
        simp only [List.map_cons, List.map_nil, List.cons.injEq, and_true] at this
        simp only [Block.mapT, Block.mapX, Block.denote, List.map_cons, List.map_nil, this]
      | cons y l => exact congrArg YamdNode.images this
  | thematic t => rfl
  | heading m b =>
    have e1 := text_stays (hm.sub (us := m) (fun t ht => by simp [Block.toks, ht]))
    have e2 := map_stays HeadItem.denote_stays b (hm.sub (fun t ht => by
      simp only [Block.toks, List.mem_append]; tauto))
    simp only [Block.mapT, Block.mapX, Block.denote, e2, headLevel, e1]
  | para l => simp only [Block.mapT, Block.mapX, Block.denote, para_stays l hm]

theorem Doc.denote_stays (d : Doc) (hm : Stays s s' f e d.toks) :
    ((d.mapT f).mapX e).denote s' = d.denote s := by
  induction d with
  | nil => rfl
  | term t r ih =>
    simp only [Doc.mapT, Doc.mapX, Doc.denote]
    exact ih (hm.sub (fun t ht => by simp [Doc.toks, ht]))
  | block b r ih =>
    simp only [Doc.mapT, Doc.mapX, Doc.denote]
    rw [ih (hm.sub (fun t ht => by simp [Doc.toks, ht])),
      Block.denote_stays b (hm.sub (fun t ht => by simp [Doc.toks, ht]))]
  | coll o m i st c r ih1 ih2 =>
    have e1 := mod_stays m (hm.sub (fun t ht => by simp [Doc.toks, ht]))
    simp only [Doc.mapT, Doc.mapX, Doc.denote]
    rw [ih1 (hm.sub (fun t ht => by simp [Doc.toks, ht])), ih2 (hm.sub (fun t ht => by simp [Doc.toks, ht])), e1]

theorem Top.denote_stays (t : Top) (hm : Stays s s' f e t.toks) :
    ((t.mapT f).mapX e).denote s' = t.denote s := by
  obtain ⟨m, d⟩ := t
  have e0 := Doc.denote_stays d (hm.sub (fun t ht => by cases m <;> simp [Top.toks, ht]))
  cases m with
  | none => simp only [Top.mapT, Top.mapX, Top.denote, e0]; rfl
  | some m =>
    have e1 := text_stays (hm.sub (us := m.body) (fun t ht => by simp [Top.toks, Delim.toks, ht]))
    simp only [Top.mapT, Top.mapX, Top.denote, e0, Option.map_some, Delim.mapT, Delim.mapX, e1]

end

/-- The document does not depend on superfluous backslashes. -/
theorem denote_unslash (s : Str) : (topB (tokens s)).denote s = (topB (tokens (unslash s))).denote (unslash s) := by
  obtain ⟨f, e, h1, h2⟩ := unslash_trees s
  rw [h1, Top.denote_stays _ h2]

end Yamd.Ref
