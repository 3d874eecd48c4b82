import Verif.Proofs.SubstLex
import Verif.Ref.Denote

/-!
# The document of a substituted source
-/

namespace Yamd.Ref

open Yamd Yamd.Spec

section
variable {φ : Char → Str} (h : Ordinary φ)
include h

theorem subst_append (a b : Str) : subst φ (a ++ b) = subst φ a ++ subst φ b := List.flatMap_append

theorem subst_eq_nil {s : Str} : subst φ s = [] ↔ s = [] := by
  constructor
  · intro e
    by_contra hs
    exact subst_ne_nil h hs e
  · rintro rfl; rfl

/-- Reversal, for a substitution read backwards. -/
theorem subst_reverse (s : Str) : (subst φ s).reverse = subst (fun c => (φ c).reverse) s.reverse := by
  induction s with
  | nil => rfl
  | cons c r ih =>
    rw [subst_cons h, List.reverse_append, ih, List.reverse_cons]
    simp [subst]

theorem ordinary_reverse : Ordinary (fun c => (φ c).reverse) := by
  constructor
  · intro c hc; simp [h.keep c hc]
  · intro c hc
    have := h.ordinary c hc
    exact ⟨by simpa using this.1, fun d hd => this.2 d (by simpa using hd)⟩

theorem trimEndNl_subst (s : Str) : trimEndNl (subst φ s) = subst φ (trimEndNl s) := by
  unfold trimEndNl
  rw [subst_reverse h, (takeWhile_subst (ordinary_reverse h) (by decide) _).2,
    subst_reverse (ordinary_reverse h)]
  simp

theorem trimNl_subst (s : Str) : trimNl (subst φ s) = subst φ (trimNl s) := by
  unfold trimNl
  rw [(takeWhile_subst h (by decide) s).2, trimEndNl_subst h]

theorem hashes_subst (s : Str) :
    ((subst φ s).takeWhile (· == '#')).length = (s.takeWhile (· == '#')).length := by
  rw [(takeWhile_subst h (by decide) s).1, subst_syntax h]
  intro c hc
  have := List.all_takeWhile (p := (· == '#')) (l := s)
  rw [List.all_eq_true] at this
  have := this c hc
  simp only [beq_iff_eq] at this
  rw [this]; decide

theorem trimTrailing_subst (b : List ParagraphNode) :
    ToYamd.trimTrailingNewline (b.map (ParagraphNode.mapText (subst φ)))
      = (ToYamd.trimTrailingNewline b).map (ParagraphNode.mapText (subst φ)) := by
  unfold ToYamd.trimTrailingNewline
  rw [List.getLast?_map]
  cases b.getLast? with
  | none => rfl
  | some x =>
    cases x with
    | text t =>
      simp only [Option.map_some, ParagraphNode.mapText, trimEndNl_subst h, subst_eq_nil h, ← List.map_dropLast]
      by_cases ht : trimEndNl t = []
      · simp only [ht, if_true]
      · simp only [ht, if_false, List.map_append]; rfl
    | _ => rfl

variable {s s' : Str} {f : Token → Token}

/-- The texts of the tokens of a tree. -/
def Moves (φ : Char → Str) (s s' : Str) (f : Token → Token) (ts : List Token) : Prop :=
  ∀ t ∈ ts, sliceD s' (f t) = subst φ (sliceD s t)

omit h in
theorem Moves.sub {ts us : List Token} (hm : Moves φ s s' f ts) (hs : ∀ t ∈ us, t ∈ ts) : Moves φ s s' f us :=
  fun t ht => hm t (hs t ht)

theorem text_subst {ts : List Token} (hm : Moves φ s s' f ts) :
    textOfToks s' (ts.map f) = subst φ (textOfToks s ts) :=
  textOfToks_subst rfl (subst_append h) hm

theorem BoldItem.denote_subst (x : BoldItem) (hm : Moves φ s s' f x.toks) :
    (x.mapT f).denote s' = BoldNode.mapText (subst φ) (x.denote s) := by
  cases x with
  | text ts =>
    have e := text_subst h (ts := ts) hm
    simp only [BoldItem.mapT, BoldItem.denote, BoldNode.mapText, e]
  | delim d =>
    have e := text_subst h (hm.sub (us := d.body) (fun t ht => by simp [BoldItem.toks, Delim.toks, ht]))
    cases hn : d.node <;> simp only [BoldItem.mapT, BoldItem.denote, Delim.mapT, hn, BoldNode.mapText, e]

theorem Link.denote_subst (x : Link) (hm : Moves φ s s' f x.toks) :
    (x.mapT f).denote s' = Anchor.mapText (subst φ) (x.denote s) := by
  have e1 := text_subst h (hm.sub (us := x.title.body) (fun t ht => by simp [Link.toks, Delim.toks, ht]))
  have e2 := text_subst h (hm.sub (us := x.dest.body) (fun t ht => by simp [Link.toks, Delim.toks, ht]))
  simp only [Link.mapT, Link.denote, Delim.mapT, Anchor.mapText, e1, e2]

omit h in
theorem map_denote {α β : Type} {tk : α → List Token} {mt : α → α} {den den' : α → β} {mv : β → β}
    (H : ∀ x, Moves φ s s' f (tk x) → den' (mt x) = mv (den x)) (l : List α)
    (hm : Moves φ s s' f (l.flatMap tk)) : (l.map mt).map den' = (l.map den).map mv := by
  induction l with
  | nil => rfl
  | cons x l ih =>
    simp only [List.map_cons]
    rw [H x (hm.sub (fun t ht => by simp [ht])), ih (hm.sub (fun t ht => by
      simp only [List.flatMap_cons, List.mem_append]; exact Or.inr ht))]

theorem Inl.denote_subst (x : Inl) (hm : Moves φ s s' f x.toks) :
    (x.mapT f).denote s' = ParagraphNode.mapText (subst φ) (x.denote s) := by
  cases x with
  | text ts =>
    have e := text_subst h (ts := ts) hm
    simp only [Inl.mapT, Inl.denote, ParagraphNode.mapText, e]
  | delim d =>
    have e := text_subst h (hm.sub (us := d.body) (fun t ht => by simp [Inl.toks, Delim.toks, ht]))
    cases hn : d.node <;> simp only [Inl.mapT, Inl.denote, Delim.mapT, hn, ParagraphNode.mapText, e]
  | bold o items c =>
    have e := map_denote (BoldItem.denote_subst h) items (hm.sub (fun t ht => by
      simp only [Inl.toks, List.mem_cons, List.mem_append]; exact Or.inr (Or.inl ht)))
    simp only [Inl.mapT, Inl.denote, ParagraphNode.mapText, e]
  | anchor l => simp only [Inl.mapT, Inl.denote, ParagraphNode.mapText, Link.denote_subst h l hm]

theorem para_subst (l : List Inl) (hm : Moves φ s s' f (paraToks l)) :
    paraDenote s' (l.map (Inl.mapT f)) = (paraDenote s l).map (ParagraphNode.mapText (subst φ)) :=
  map_denote (Inl.denote_subst h) l hm

theorem HeadItem.denote_subst (x : HeadItem) (hm : Moves φ s s' f x.toks) :
    (x.mapT f).denote s' = HeadingNode.mapText (subst φ) (x.denote s) := by
  cases x with
  | text ts =>
    have e := text_subst h (ts := ts) hm
    simp only [HeadItem.mapT, HeadItem.denote, HeadingNode.mapText, e]
  | anchor l => simp only [HeadItem.mapT, HeadItem.denote, HeadingNode.mapText, Link.denote_subst h l hm]

theorem Img.denote_subst (x : Img) (hm : Moves φ s s' f x.toks) :
    (x.mapT f).denote s' = Image.mapText (subst φ) (x.denote s) := by
  have e1 := text_subst h (hm.sub (us := x.link.title.body) (fun t ht => by simp [Img.toks, Link.toks, Delim.toks, ht]))
  have e2 := text_subst h (hm.sub (us := x.link.dest.body) (fun t ht => by simp [Img.toks, Link.toks, Delim.toks, ht]))
  simp only [Img.mapT, Img.denote, Link.mapT, Delim.mapT, Image.mapText, e1, e2]

omit h in
theorem wrapDenote_map (k : Option ListKind) (n : Nat) (l : List YItem) :
    wrapDenote k n (YItem.mapTexts (subst φ) l) = (wrapDenote k n l).map (YList.mapText (subst φ)) := by
  cases k <;> rfl

theorem Items.denote_subst (i : Items) : ∀ n, Moves φ s s' f i.toks →
    (i.mapT f).denote s' n = YItem.mapTexts (subst φ) (i.denote s n) := by
  induction i with
  | nil => intro n hm; rfl
  | cons k m p nn r ih1 ih2 =>
    intro n hm
    have e0 := para_subst h p (hm.sub (fun t ht => by simp [Items.toks, ht]))
    have e1 := ih1 (n + 1) (hm.sub (fun t ht => by simp [Items.toks, ht]))
    have e2 := ih2 n (hm.sub (fun t ht => by simp [Items.toks, ht]))
    simp only [Items.mapT, Items.denote, Items.mapT_kind, e0, e1, e2, trimTrailing_subst h, wrapDenote_map]
    cases wrapDenote nn.kind (n + 1) (nn.denote s (n + 1)) <;> rfl

theorem mod_subst (m : Option Mod) (hm : Moves φ s s' f (modToks m)) :
    modDenote s' (m.map (Mod.mapT f)) = (modDenote s m).map (subst φ) := by
  cases m with
  | none => rfl
  | some m =>
    have e := text_subst h (hm.sub (us := m.body) (fun t ht => by simp [modToks, ht]))
    simp only [Option.map_some, modDenote, Mod.mapT, e]

theorem icon_subst (m : Option IconLine) (hm : Moves φ s s' f (iconToks m)) :
    iconDenote s' (m.map (IconLine.mapT f)) = (iconDenote s m).map (subst φ) := by
  cases m with
  | none => rfl
  | some m =>
    have e := text_subst h (hm.sub (us := m.body) (fun t ht => by simp [iconToks, ht]))
    simp only [Option.map_some, iconDenote, IconLine.mapT, e]

theorem HPara.denote_subst (x : HPara) (hm : Moves φ s s' f x.toks) :
    ToYamd.trimTrailingNewline (paraDenote s' (x.mapT f).para)
      = (ToYamd.trimTrailingNewline (paraDenote s x.para)).map (ParagraphNode.mapText (subst φ)) := by
  have e := para_subst h x.para (hm.sub (fun t ht => by simp [HPara.toks, ht]))
  simp only [HPara.mapT, e, trimTrailing_subst h]

omit h in
theorem getD_subst (x : Option Str) : (x.map (subst φ)).getD [] = subst φ (x.getD []) := by cases x <;> rfl

theorem Block.denote_subst (b : Block) (hm : Moves φ s s' f b.toks) :
    (b.mapT f).denote s' = YamdNode.mapText (subst φ) (b.denote s) := by
  cases b with
  | code o m b c =>
    have e1 := mod_subst h m (hm.sub (fun t ht => by simp [Block.toks, ht]))
    have e2 := text_subst h (hm.sub (us := b) (fun t ht => by simp [Block.toks, ht]))
    simp only [Block.mapT, Block.denote, YamdNode.newCode, e1, e2, YamdNode.mapText, trimEndNl_subst h, getD_subst]
  | embed o l p r c =>
    have e1 := text_subst h (hm.sub (us := l) (fun t ht => by simp [Block.toks, ht]))
    have e2 := text_subst h (hm.sub (us := r) (fun t ht => by simp [Block.toks, ht]))
    simp only [Block.mapT, Block.denote, e1, e2, YamdNode.mapText]
  | highlight o m i b c =>
    have e1 := mod_subst h m (hm.sub (fun t ht => by simp [Block.toks, ht]))
    have e2 := icon_subst h i (hm.sub (fun t ht => by simp [Block.toks, ht]))
    have e3 := map_denote (mt := HPara.mapT f) (den' := fun x => ToYamd.trimTrailingNewline (paraDenote s' x.para))
      (den := fun x => ToYamd.trimTrailingNewline (paraDenote s x.para)) (HPara.denote_subst h) b (hm.sub (fun t ht => by
      simp only [Block.toks, List.mem_append, List.mem_cons]; tauto))
    simp only [Block.mapT, Block.denote, e1, e2, e3, YamdNode.mapText]
  | list i =>
    simp only [Block.mapT, Block.denote, Items.mapT_kind, Items.denote_subst h i 0 hm, YamdNode.mapText,
      YList.mapText]
  | images l =>
    have e := map_denote (Img.denote_subst h) l hm
    cases l with
    | nil => rfl
    | cons x l =>
      cases l with
      | nil =>
        simp only [List.map_cons, List.map_nil, List.cons.injEq, and_true] at e
        simp only [Block.mapT, Block.denote, List.map_cons, List.map_nil, e, YamdNode.mapText]
      | cons y l =>
        exact congrArg YamdNode.images e
  | thematic t => rfl
  | heading m b =>
    have e1 := text_subst h (hm.sub (us := m) (fun t ht => by simp [Block.toks, ht]))
    have e2 := map_denote (HeadItem.denote_subst h) b (hm.sub (fun t ht => by
      simp only [Block.toks, List.mem_append]; tauto))
    simp only [Block.mapT, Block.denote, e2, YamdNode.mapText, headLevel, e1, hashes_subst h]
  | para l => simp only [Block.mapT, Block.denote, YamdNode.mapText, para_subst h l hm]

theorem Doc.denote_subst (d : Doc) (hm : Moves φ s s' f d.toks) :
    (d.mapT f).denote s' = YamdNode.mapTexts (subst φ) (d.denote s) := by
  induction d with
  | nil => rfl
  | term t r ih =>
    simp only [Doc.mapT, Doc.denote]
    exact ih (hm.sub (fun t ht => by simp [Doc.toks, ht]))
  | block b r ih =>
    simp only [Doc.mapT, Doc.denote, YamdNode.mapTexts]
    rw [ih (hm.sub (fun t ht => by simp [Doc.toks, ht])),
      Block.denote_subst h b (hm.sub (fun t ht => by simp [Doc.toks, ht]))]
  | coll o m i st c r ih1 ih2 =>
    have e1 := mod_subst h m (hm.sub (fun t ht => by simp [Doc.toks, ht]))
    simp only [Doc.mapT, Doc.denote, YamdNode.mapTexts, YamdNode.mapText]
    rw [ih1 (hm.sub (fun t ht => by simp [Doc.toks, ht])), ih2 (hm.sub (fun t ht => by simp [Doc.toks, ht])), e1,
      getD_subst]

theorem Top.denote_subst (t : Top) (hm : Moves φ s s' f t.toks) :
    (t.mapT f).denote s' = Yamd.mapText (subst φ) (t.denote s) := by
  obtain ⟨m, d⟩ := t
  have e := Doc.denote_subst h d (hm.sub (fun t ht => by cases m <;> simp [Top.toks, ht]))
  cases m with
  | none => simp only [Top.mapT, Top.denote, Yamd.new, Yamd.mapText, e]; rfl
  | some m =>
    have e1 := text_subst h (hm.sub (us := m.body) (fun t ht => by simp [Top.toks, Delim.toks, ht]))
    simp only [Top.mapT, Top.denote, Yamd.new, Yamd.mapText, e, Option.map_some, Delim.mapT, e1, trimNl_subst h]

/-- The document of a substituted text. -/
theorem denote_subst_src (s : Str) :
    (topB (tokens (subst φ s))).denote (subst φ s) = Yamd.mapText (subst φ) ((topB (tokens s)).denote s) := by
  obtain ⟨f, h1, h2⟩ := subst_trees (pieces_subst h s) (subst_ok h s)
  rw [h1, Top.denote_subst h _ h2]

end

end Yamd.Ref
