import Verif.Spec.Crlf
import Verif.Proofs.SubstDoc
import Verif.Proofs.OpsOf
import Verif.Proofs.DocFacts
import Verif.Proofs.SteadyItems
import Verif.Proofs.Round.Document

/-!
# Documents of files with Windows line ends (C74)

`raw` is what a tree stands for before line feeds are trimmed. Trimming is `settle`, and the untrimmed document of
the changed text is the untrimmed document with its texts changed.
-/

namespace Yamd.Ref

open Yamd Yamd.Spec

/-! ### Before trimming -/

section
variable (src : Str)

def Items.raw (level : Nat) : Items → List YItem
  | .nil => []
  | .cons _ _ p n r =>
    .mk (paraDenote src p) (wrapDenote n.kind (level + 1) (n.raw (level + 1))) :: r.raw level

def Block.raw : Block → YamdNode
  | .code _ m b _ => .code ((modDenote src m).getD []) (textOfToks src b)
  | .highlight _ m i b _ => .highlight (modDenote src m) (iconDenote src i) (b.map fun h => paraDenote src h.para)
  | .list i => .list (.mk (listType (i.kind.getD .Unordered)) 0 (i.raw src 0))
  | b => b.denote src

def Doc.raw : Doc → List YamdNode
  | .nil => []
  | .term _ r => r.raw
  | .block b r => b.raw src :: r.raw
  | .coll _ m i _ _ r => .collapsible ((modDenote src m).getD []) i.raw :: r.raw

def Top.raw (t : Top) : Yamd := ⟨t.meta?.map (fun d => textOfToks src d.body), t.doc.raw src⟩

theorem Items.settle_raw (i : Items) : ∀ level, settleItems level (i.raw src level) = i.denote src level := by
  induction i with
  | nil => intro level; rfl
  | cons k m p n r ih1 ih2 =>
    intro level
    simp only [Items.raw, Items.denote, settleItems, ih2, Round.dropLastNl_trim]
    cases hk : n.kind with
    | none => rfl
    | some k => simp only [wrapDenote, Option.map_some, settleItem, settleList, ih1]

theorem Block.settle_raw (b : Block) : settleNode (b.raw src) = b.denote src := by
  cases b with
  | code o m b c =>
    simp only [Block.raw, Block.denote, settleNode, YamdNode.newCode, trimEndNl_idem]
  | highlight o m i b c =>
    simp only [Block.raw, Block.denote, settleNode, List.map_map, Round.dropLastNl_trim]
    rfl
  | list i => simp only [Block.raw, Block.denote, settleNode, settleList, Items.settle_raw]
  | images l =>
    match l with
    | [] => rfl
    | [i] => rfl
    | i :: j :: l => rfl
  | heading m b => simp only [Block.raw, Block.denote, settleNode, headLevel, Nat.mod_mod]
  | _ => rfl

theorem Doc.settle_raw (d : Doc) : settleNodes (d.raw src) = d.denote src := by
  induction d with
  | nil => rfl
  | term t r ih => exact ih
  | block b r ih => simp only [Doc.raw, Doc.denote, settleNodes, Block.settle_raw, ih]
  | coll o m i s c r ih1 ih2 => simp only [Doc.raw, Doc.denote, settleNodes, settleNode, ih1, ih2]

theorem Top.settle_raw (t : Top) : settle (t.raw src) = t.denote src := by
  obtain ⟨m, d⟩ := t
  cases m with
  | none => simp only [Top.raw, Top.denote, settle, Yamd.new, Doc.settle_raw, Option.map_none]
  | some m => simp only [Top.raw, Top.denote, settle, Yamd.new, Doc.settle_raw, Option.map_some, trimNl_idem]

end

/-! ### The changed text -/

section
variable {g : Str → Str} (g0 : g [] = []) (ga : ∀ a b, g (a ++ b) = g a ++ g b)
  {s s' : Str} {f : Token → Token} {K : Str → Prop}
  (gh : ∀ ts, (∀ t ∈ ts, sliceD s' (f t) = g (sliceD s t) ∧ K (sliceD s t)) →
    ((g (textOfToks s ts)).takeWhile (· == '#')).length = ((textOfToks s ts).takeWhile (· == '#')).length)

/-- The texts of the tokens of a tree. -/
def Moved (K : Str → Prop) (g : Str → Str) (s s' : Str) (f : Token → Token) (ts : List Token) : Prop :=
  ∀ t ∈ ts, sliceD s' (f t) = g (sliceD s t) ∧ K (sliceD s t)

theorem Moved.sub {ts us : List Token} (hm : Moved K g s s' f ts) (hs : ∀ t ∈ us, t ∈ ts) : Moved K g s s' f us :=
  fun t ht => hm t (hs t ht)

theorem map_moved {α β : Type} {tk : α → List Token} {mt : α → α} {den den' : α → β} {mv : β → β}
    (H : ∀ x, Moved K g s s' f (tk x) → den' (mt x) = mv (den x)) (l : List α)
    (hm : Moved K g s s' f (l.flatMap tk)) : (l.map mt).map den' = (l.map den).map mv := by
  induction l with
  | nil => rfl
  | cons x l ih =>
    simp only [List.map_cons]
    rw [H x (hm.sub (fun t ht => by simp [ht])), ih (hm.sub (fun t ht => by
      simp only [List.flatMap_cons, List.mem_append]; exact Or.inr ht))]

theorem wrapDenote_moved (k : Option ListKind) (n : Nat) (l : List YItem) :
    wrapDenote k n (YItem.mapTexts g l) = (wrapDenote k n l).map (YList.mapText g) := by
  cases k <;> rfl

include g0 ga

theorem text_moved {ts : List Token} (hm : Moved K g s s' f ts) : textOfToks s' (ts.map f) = g (textOfToks s ts) :=
  textOfToks_subst g0 ga (fun t ht => (hm t ht).1)

theorem BoldItem.denote_moved (x : BoldItem) (hm : Moved K g s s' f x.toks) :
    (x.mapT f).denote s' = BoldNode.mapText g (x.denote s) := by
  cases x with
  | text ts =>
    have e := text_moved g0 ga (ts := ts) hm
    simp only [BoldItem.mapT, BoldItem.denote, BoldNode.mapText, e]
  | delim d =>
    have e := text_moved g0 ga (hm.sub (us := d.body) (fun t ht => by simp [BoldItem.toks, Delim.toks, ht]))
    cases hn : d.node <;> simp only [BoldItem.mapT, BoldItem.denote, Delim.mapT, hn, BoldNode.mapText, e]

theorem Link.denote_moved (x : Link) (hm : Moved K g s s' f x.toks) :
    (x.mapT f).denote s' = Anchor.mapText g (x.denote s) := by
  have e1 := text_moved g0 ga (hm.sub (us := x.title.body) (fun t ht => by simp [Link.toks, Delim.toks, ht]))
  have e2 := text_moved g0 ga (hm.sub (us := x.dest.body) (fun t ht => by simp [Link.toks, Delim.toks, ht]))
  simp only [Link.mapT, Link.denote, Delim.mapT, Anchor.mapText, e1, e2]

theorem Inl.denote_moved (x : Inl) (hm : Moved K g s s' f x.toks) :
    (x.mapT f).denote s' = ParagraphNode.mapText g (x.denote s) := by
  cases x with
  | text ts =>
    have e := text_moved g0 ga (ts := ts) hm
    simp only [Inl.mapT, Inl.denote, ParagraphNode.mapText, e]
  | delim d =>
    have e := text_moved g0 ga (hm.sub (us := d.body) (fun t ht => by simp [Inl.toks, Delim.toks, ht]))
    cases hn : d.node <;> simp only [Inl.mapT, Inl.denote, Delim.mapT, hn, ParagraphNode.mapText, e]
  | bold o items c =>
    have e := map_moved (BoldItem.denote_moved g0 ga) items (hm.sub (fun t ht => by
      simp only [Inl.toks, List.mem_cons, List.mem_append]; exact Or.inr (Or.inl ht)))
    simp only [Inl.mapT, Inl.denote, ParagraphNode.mapText, e]
  | anchor l => simp only [Inl.mapT, Inl.denote, ParagraphNode.mapText, Link.denote_moved g0 ga l hm]

theorem para_moved (l : List Inl) (hm : Moved K g s s' f (paraToks l)) :
    paraDenote s' (l.map (Inl.mapT f)) = (paraDenote s l).map (ParagraphNode.mapText g) :=
  map_moved (Inl.denote_moved g0 ga) l hm

theorem HeadItem.denote_moved (x : HeadItem) (hm : Moved K g s s' f x.toks) :
    (x.mapT f).denote s' = HeadingNode.mapText g (x.denote s) := by
  cases x with
  | text ts =>
    have e := text_moved g0 ga (ts := ts) hm
    simp only [HeadItem.mapT, HeadItem.denote, HeadingNode.mapText, e]
  | anchor l => simp only [HeadItem.mapT, HeadItem.denote, HeadingNode.mapText, Link.denote_moved g0 ga l hm]

theorem Img.denote_moved (x : Img) (hm : Moved K g s s' f x.toks) :
    (x.mapT f).denote s' = Image.mapText g (x.denote s) := by
  have e1 := text_moved g0 ga (hm.sub (us := x.link.title.body) (fun t ht => by simp [Img.toks, Link.toks, Delim.toks, ht]))
  have e2 := text_moved g0 ga (hm.sub (us := x.link.dest.body) (fun t ht => by simp [Img.toks, Link.toks, Delim.toks, ht]))
  simp only [Img.mapT, Img.denote, Link.mapT, Delim.mapT, Image.mapText, e1, e2]

theorem Items.raw_moved (i : Items) : ∀ n, Moved K g s s' f i.toks →
    (i.mapT f).raw s' n = YItem.mapTexts g (i.raw s n) := by
  induction i with
  | nil => intro n hm; rfl
  | cons k m p nn r ih1 ih2 =>
    intro n hm
    have e0 := para_moved g0 ga p (hm.sub (fun t ht => by simp [Items.toks, ht]))
    have e1 := ih1 (n + 1) (hm.sub (fun t ht => by simp [Items.toks, ht]))
    have e2 := ih2 n (hm.sub (fun t ht => by simp [Items.toks, ht]))
    simp only [Items.mapT, Items.raw, Items.mapT_kind, e0, e1, e2, wrapDenote_moved]
    cases wrapDenote nn.kind (n + 1) (nn.raw s (n + 1)) <;> rfl

theorem mod_moved (m : Option Mod) (hm : Moved K g s s' f (modToks m)) :
    modDenote s' (m.map (Mod.mapT f)) = (modDenote s m).map g := by
  cases m with
  | none => rfl
  | some m =>
    have e := text_moved g0 ga (hm.sub (us := m.body) (fun t ht => by simp [modToks, ht]))
    simp only [Option.map_some, modDenote, Mod.mapT, e]

theorem icon_moved (m : Option IconLine) (hm : Moved K g s s' f (iconToks m)) :
    iconDenote s' (m.map (IconLine.mapT f)) = (iconDenote s m).map g := by
  cases m with
  | none => rfl
  | some m =>
    have e := text_moved g0 ga (hm.sub (us := m.body) (fun t ht => by simp [iconToks, ht]))
    simp only [Option.map_some, iconDenote, IconLine.mapT, e]

theorem HPara.raw_moved (x : HPara) (hm : Moved K g s s' f x.toks) :
    paraDenote s' (x.mapT f).para = (paraDenote s x.para).map (ParagraphNode.mapText g) := by
  have e := para_moved g0 ga x.para (hm.sub (fun t ht => by simp [HPara.toks, ht]))
  simp only [HPara.mapT, e]

omit ga in
theorem getD_moved (x : Option Str) : (x.map g).getD [] = g (x.getD []) := by
  cases x with
  | none => exact g0.symm
  | some x => rfl

include gh

theorem Block.raw_moved (b : Block) (hm : Moved K g s s' f b.toks) :
    (b.mapT f).raw s' = YamdNode.mapText g (b.raw s) := by
  cases b with
  | code o m b c =>
    have e1 := mod_moved g0 ga m (hm.sub (fun t ht => by simp [Block.toks, ht]))
    have e2 := text_moved g0 ga (hm.sub (us := b) (fun t ht => by simp [Block.toks, ht]))
    simp only [Block.mapT, Block.raw, e1, e2, YamdNode.mapText, getD_moved g0]
  | embed o l p r c =>
    have e1 := text_moved g0 ga (hm.sub (us := l) (fun t ht => by simp [Block.toks, ht]))
    have e2 := text_moved g0 ga (hm.sub (us := r) (fun t ht => by simp [Block.toks, ht]))
    simp only [Block.mapT, Block.raw, Block.denote, e1, e2, YamdNode.mapText]
  | highlight o m i b c =>
    have e1 := mod_moved g0 ga m (hm.sub (fun t ht => by simp [Block.toks, ht]))
    have e2 := icon_moved g0 ga i (hm.sub (fun t ht => by simp [Block.toks, ht]))
    have e3 := map_moved (mt := HPara.mapT f) (den' := fun x => paraDenote s' x.para)
      (den := fun x => paraDenote s x.para) (HPara.raw_moved g0 ga) b (hm.sub (fun t ht => by
      simp only [Block.toks, List.mem_append, List.mem_cons]; tauto))
    simp only [Block.mapT, Block.raw, e1, e2, e3, YamdNode.mapText]
  | list i =>
    simp only [Block.mapT, Block.raw, Items.mapT_kind, Items.raw_moved g0 ga i 0 hm, YamdNode.mapText,
      YList.mapText]
  | images l =>
    have e := map_moved (Img.denote_moved g0 ga) l hm
    cases l with
    | nil => rfl
    | cons x l =>
      cases l with
      | nil =>
        simp only [List.map_cons, List.map_nil, List.cons.injEq, and_true] at e
        simp only [Block.mapT, Block.raw, Block.denote, List.map_cons, List.map_nil, e, YamdNode.mapText]
      | cons y l =>
        exact congrArg YamdNode.images e
  | thematic t => rfl
  | heading m b =>
    have e1 := text_moved g0 ga (hm.sub (us := m) (fun t ht => by simp [Block.toks, ht]))
    have e2 := map_moved (HeadItem.denote_moved g0 ga) b (hm.sub (fun t ht => by
      simp only [Block.toks, List.mem_append]; tauto))
    have e3 := gh m (hm.sub (fun t ht => by simp [Block.toks, ht]))
    simp only [Block.mapT, Block.raw, Block.denote, e2, YamdNode.mapText, headLevel, e1, e3]
  | para l => simp only [Block.mapT, Block.raw, Block.denote, YamdNode.mapText, para_moved g0 ga l hm]

theorem Doc.raw_moved (d : Doc) (hm : Moved K g s s' f d.toks) :
    (d.mapT f).raw s' = YamdNode.mapTexts g (d.raw s) := by
  induction d with
  | nil => rfl
  | term t r ih =>
    simp only [Doc.mapT, Doc.raw]
    exact ih (hm.sub (fun t ht => by simp [Doc.toks, ht]))
  | block b r ih =>
    simp only [Doc.mapT, Doc.raw, YamdNode.mapTexts]
    rw [ih (hm.sub (fun t ht => by simp [Doc.toks, ht])),
      Block.raw_moved g0 ga gh b (hm.sub (fun t ht => by simp [Doc.toks, ht]))]
  | coll o m i st c r ih1 ih2 =>
    have e1 := mod_moved g0 ga m (hm.sub (fun t ht => by simp [Doc.toks, ht]))
    simp only [Doc.mapT, Doc.raw, YamdNode.mapTexts, YamdNode.mapText]
    rw [ih1 (hm.sub (fun t ht => by simp [Doc.toks, ht])), ih2 (hm.sub (fun t ht => by simp [Doc.toks, ht])), e1,
      getD_moved g0]

theorem Top.raw_moved (t : Top) (hm : Moved K g s s' f t.toks) :
    (t.mapT f).raw s' = Yamd.mapText g (t.raw s) := by
  obtain ⟨m, d⟩ := t
  have e := Doc.raw_moved g0 ga gh d (hm.sub (fun t ht => by cases m <;> simp [Top.toks, ht]))
  cases m with
  | none => simp only [Top.mapT, Top.raw, Yamd.mapText, e]; rfl
  | some m =>
    have e1 := text_moved g0 ga (hm.sub (us := m.body) (fun t ht => by simp [Top.toks, Delim.toks, ht]))
    simp only [Top.mapT, Top.raw, Yamd.mapText, e, Option.map_some, Delim.mapT, e1]

end

theorem crlf_append (a b : Str) : crlf (a ++ b) = crlf a ++ crlf b := List.flatMap_append

theorem hashes_crlf (s : Str) : ((crlf s).takeWhile (· == '#')).length = (s.takeWhile (· == '#')).length := by
  induction s with
  | nil => rfl
  | cons c r ih =>
    by_cases h : c = '\n'
    · subst h; rfl
    · have e : crlf (c :: r) = c :: crlf r := by simp [crlf, subst, h]
      rw [e, List.takeWhile_cons, List.takeWhile_cons]
      split
      · simp only [List.length_cons, ih]
      · rfl

/-- The documents of a text and of the text with Windows line ends come from one untrimmed document. -/
theorem denote_crlf {s : Str} (hr : '\r' ∉ s) (he : noEscapedLf s = true) :
    (topB (tokens (crlf s))).denote (crlf s) = settle (Yamd.mapText crlf ((topB (tokens s)).raw s)) := by
  obtain ⟨f, h1, h2⟩ := subst_trees (pieces_crlf hr he) (crlf_ok s)
  rw [← Top.settle_raw, h1, Top.raw_moved (K := fun _ => True) rfl crlf_append (fun ts _ => hashes_crlf _) _ (fun t ht => ⟨h2 t ht, trivial⟩)]

/-! ### Without the carriage returns again -/

theorem noCr_append (a b : Str) : noCr (a ++ b) = noCr a ++ noCr b := List.filter_append ..

theorem noCr_same {s : Str} (h : '\r' ∉ s) : noCr s = s := by
  unfold noCr
  rw [List.filter_eq_self]
  intro c hc
  simp only [bne_iff_ne]
  rintro rfl
  exact h hc

theorem noCr_crlf (s : Str) : noCr (crlf s) = noCr s := by
  induction s with
  | nil => rfl
  | cons c r ih =>
    have e : crlf (c :: r) = crlf [c] ++ crlf r := crlf_append [c] r
    rw [e, noCr_append, ih]
    by_cases h : c = '\n'
    · subst h; rfl
    · have e : crlf [c] = [c] := by simp [crlf, subst, h]
      rw [e, ← noCr_append]; rfl

theorem Anchor.mapText_noCr (x : Anchor) : Anchor.mapText noCr (Anchor.mapText crlf x) = Anchor.mapText noCr x := by
  simp only [Anchor.mapText, noCr_crlf]

theorem Image.mapText_noCr (x : Image) : Image.mapText noCr (Image.mapText crlf x) = Image.mapText noCr x := by
  simp only [Image.mapText, noCr_crlf]

theorem map_noCr {α : Type} {f g : α → α} (h : ∀ x, f (g x) = f x) (l : List α) : (l.map g).map f = l.map f := by
  rw [List.map_map]
  exact List.map_congr_left fun x _ => h x

theorem BoldNode.mapText_noCr (x : BoldNode) : BoldNode.mapText noCr (BoldNode.mapText crlf x) = BoldNode.mapText noCr x := by
  cases x <;> simp only [BoldNode.mapText, noCr_crlf]

theorem ParagraphNode.mapText_noCr (x : ParagraphNode) :
    ParagraphNode.mapText noCr (ParagraphNode.mapText crlf x) = ParagraphNode.mapText noCr x := by
  cases x <;> simp only [ParagraphNode.mapText, noCr_crlf, Anchor.mapText_noCr, map_noCr BoldNode.mapText_noCr]

theorem HeadingNode.mapText_noCr (x : HeadingNode) :
    HeadingNode.mapText noCr (HeadingNode.mapText crlf x) = HeadingNode.mapText noCr x := by
  cases x <;> simp only [HeadingNode.mapText, noCr_crlf, Anchor.mapText_noCr]

theorem trimEndNl_more (a : Str) : ∀ n, trimEndNl (a ++ List.replicate n '\n') = trimEndNl a
  | 0 => by simp
  | n + 1 => by
    rw [List.replicate_succ', ← List.append_assoc, Round.trimEndNl_snoc, trimEndNl_more a n]

theorem trimEndNl_noCr (u : Str) : trimEndNl (noCr (trimEndNl u)) = trimEndNl (noCr u) := by
  obtain ⟨n, e⟩ := trimEndNl_rest u
  have h : noCr u = noCr (trimEndNl u) ++ List.replicate n '\n' := by
    conv => lhs; rw [e]
    rw [noCr_append, noCr_same (s := List.replicate n '\n') (by simp)]
  rw [h, trimEndNl_more]

theorem trimNl_after (a : Str) : trimNl (a ++ ['\n']) = trimNl a := by
  unfold trimNl
  rw [List.dropWhile_append]
  split
  · rename_i h
    have : a.dropWhile (· == '\n') = [] := by simpa using h
    rw [this]; rfl
  · rw [Round.trimEndNl_snoc]

theorem trimNl_afters (a : Str) : ∀ n, trimNl (a ++ List.replicate n '\n') = trimNl a
  | 0 => by simp
  | n + 1 => by
    rw [List.replicate_succ', ← List.append_assoc, trimNl_after, trimNl_afters a n]

theorem trimNl_noCr_lead : ∀ u : Str, trimNl (noCr (u.dropWhile (· == '\n'))) = trimNl (noCr u)
  | [] => rfl
  | c :: r => by
    by_cases h : c = '\n'
    · subst h
      rw [List.dropWhile_cons_of_pos (by simp), trimNl_noCr_lead r]
      rfl
    · rw [List.dropWhile_cons_of_neg (by simpa using h)]

theorem trimNl_noCr (u : Str) : trimNl (noCr (trimNl u)) = trimNl (noCr u) := by
  rw [← trimNl_noCr_lead u]
  show trimNl (noCr (trimEndNl _)) = _
  generalize u.dropWhile (· == '\n') = v
  obtain ⟨n, e⟩ := trimEndNl_rest v
  have h : noCr v = noCr (trimEndNl v) ++ List.replicate n '\n' := by
    conv => lhs; rw [e]
    rw [noCr_append, noCr_same (s := List.replicate n '\n') (by simp)]
  rw [h, trimNl_afters]

/-- A piece of text. -/
def isTextNode : ParagraphNode → Bool
  | .text _ => true
  | _ => false

theorem isTextNode_mapText (g : Str → Str) (x : ParagraphNode) : isTextNode (ParagraphNode.mapText g x) = isTextNode x := by
  cases x <;> rfl

theorem dropLastNl_cons (a b : ParagraphNode) (r : Paragraph) : dropLastNl (a :: b :: r) = a :: dropLastNl (b :: r) := by
  cases a <;> rfl

theorem dropLastNl_one {a : ParagraphNode} (h : isTextNode a = false) : dropLastNl [a] = [a] := by
  cases a <;> first | rfl | simp [isTextNode] at h

theorem dropLastNl_noCr : ∀ p : Paragraph, NoAdj isTextNode p →
    dropLastNl ((dropLastNl (p.map (ParagraphNode.mapText crlf))).map (ParagraphNode.mapText noCr))
      = dropLastNl (p.map (ParagraphNode.mapText noCr))
  | [], _ => rfl
  | [x], _ => by
    cases hx : isTextNode x with
    | false =>
      rw [List.map_singleton, dropLastNl_one (by rw [isTextNode_mapText]; exact hx), List.map_singleton,
        ParagraphNode.mapText_noCr]
      rfl
    | true =>
      cases x with
      | text t =>
        have e := trimEndNl_noCr (crlf t)
        rw [noCr_crlf] at e
        simp only [List.map_singleton, ParagraphNode.mapText, dropLastNl]
        split
        · rename_i h
          rw [h] at e
          rw [← e]
          rfl
        · simp only [List.map_singleton, ParagraphNode.mapText, dropLastNl, e]
      | _ => simp [isTextNode] at hx
  | x :: y :: r, h => by
    have ih := dropLastNl_noCr (y :: r) h.2
    simp only [List.map_cons] at ih ⊢
    rw [dropLastNl_cons, dropLastNl_cons, List.map_cons, ParagraphNode.mapText_noCr]
    cases hd : dropLastNl (ParagraphNode.mapText crlf y :: r.map (ParagraphNode.mapText crlf)) with
    | nil =>
      rw [hd] at ih
      rw [← ih, List.map_nil]
      have hy : isTextNode y = true := by
        cases r with
        | cons z r => rw [List.map_cons, dropLastNl_cons] at hd; simp at hd
        | nil =>
          cases hy : isTextNode y with
          | true => rfl
          | false => rw [List.map_nil, dropLastNl_one (by rw [isTextNode_mapText]; exact hy)] at hd; simp at hd
      have hx : isTextNode x = false := by
        cases hx : isTextNode x with
        | false => rfl
        | true => exact absurd ⟨hx, hy⟩ h.1
      rw [dropLastNl_one (by rw [isTextNode_mapText]; exact hx)]
      rfl
    | cons a l =>
      rw [hd] at ih
      rw [List.map_cons, dropLastNl_cons, ← ih, List.map_cons]

theorem noAdj_denote (s : Str) : ∀ {l : List Inl}, NoAdj Inl.isText l → NoAdj isTextNode (paraDenote s l)
  | [], _ => trivial
  | [_], _ => trivial
  | x :: y :: r, h => by
    have e : ∀ x : Inl, isTextNode (x.denote s) = x.isText := by
      intro x
      cases x with
      | delim d => cases hn : d.node <;> simp [Inl.denote, hn, isTextNode, Inl.isText]
      | _ => rfl
    refine ⟨?_, noAdj_denote s (l := y :: r) h.2⟩
    rw [e, e]; exact h.1

theorem Items.back (s : Str) (i : Items) : ∀ level want, i.Ok level want →
    settleItems level (YItem.mapTexts noCr (settleItems level (YItem.mapTexts crlf (i.raw s level))))
      = settleItems level (YItem.mapTexts noCr (i.raw s level)) := by
  induction i with
  | nil => intros; rfl
  | cons k m p n r ih1 ih2 =>
    intro level want h
    simp only [Items.Ok] at h
    have e1 := dropLastNl_noCr _ (noAdj_denote s h.2.2.1.2.1)
    have e2 := ih1 (level + 1) none h.2.2.2.1
    have e3 := ih2 level (some k) h.2.2.2.2
    cases hk : n.kind with
    | none =>
      simp only [Items.raw, hk, wrapDenote, Option.map_none, YItem.mapTexts, YItem.mapText, settleItems, settleItem, e1, e3]
    | some k' =>
      simp only [Items.raw, hk, wrapDenote, Option.map_some, YItem.mapTexts, YItem.mapText, settleItems, settleItem, e1, e3,
        YList.mapText, settleList, e2]

theorem Block.back (s : Str) (b : Block) (h : b.Ok) :
    settleNode (YamdNode.mapText noCr (settleNode (YamdNode.mapText crlf (b.raw s))))
      = settleNode (YamdNode.mapText noCr (b.raw s)) := by
  cases b with
  | code o m b c =>
    simp only [Block.raw, YamdNode.mapText, settleNode, trimEndNl_noCr, noCr_crlf]
  | highlight o m i b c =>
    have hb := h.2.2.2.1
    simp only [Block.raw, YamdNode.mapText, settleNode, List.map_map, Option.map_map]
    congr 1
    · cases modDenote s m <;> simp [noCr_crlf]
    · cases iconDenote s i <;> simp [noCr_crlf]
    · refine List.map_congr_left fun x hx => ?_
      exact dropLastNl_noCr _ (noAdj_denote s (hb x hx).2.2.1)
  | list i =>
    simp only [Block.raw, YamdNode.mapText, settleNode, YList.mapText, settleList, Items.back s i 0 none h.1]
  | images l =>
    match l with
    | [] => rfl
    | [i] => simp only [Block.raw, Block.denote, YamdNode.mapText, settleNode, Image.mapText_noCr]
    | i :: j :: l =>
      simp only [Block.raw, Block.denote, YamdNode.mapText, settleNode, map_noCr Image.mapText_noCr]
  | thematic t => rfl
  | embed o l p r c => simp only [Block.raw, Block.denote, YamdNode.mapText, settleNode, noCr_crlf]
  | heading m b =>
    simp only [Block.raw, Block.denote, YamdNode.mapText, settleNode, map_noCr HeadingNode.mapText_noCr, Nat.mod_mod]
  | para l => simp only [Block.raw, Block.denote, YamdNode.mapText, settleNode, map_noCr ParagraphNode.mapText_noCr]

theorem Doc.back (s : Str) (d : Doc) (h : d.Ok) :
    settleNodes (YamdNode.mapTexts noCr (settleNodes (YamdNode.mapTexts crlf (d.raw s))))
      = settleNodes (YamdNode.mapTexts noCr (d.raw s)) := by
  induction d with
  | nil => rfl
  | term t r ih => exact ih h.2
  | block b r ih => simp only [Doc.raw, YamdNode.mapTexts, settleNodes, Block.back s b h.1, ih h.2]
  | coll o m i st c r ih1 ih2 =>
    simp only [Doc.raw, YamdNode.mapTexts, YamdNode.mapText, settleNodes, settleNode, ih1 h.2.2.1, ih2 h.2.2.2.2.2, noCr_crlf]

theorem slice_free {s : Str} (hr : '\r' ∉ s) (t : Token) : noCr (sliceD s t) = sliceD s t := by
  refine noCr_same fun h => hr ?_
  unfold sliceD at h
  cases e : slice s t.start t.stop with
  | none => simp [e] at h
  | some x =>
    obtain ⟨p, q, h1, _, _⟩ := slice_iff.1 e
    rw [e] at h
    rw [h1]
    simp only [Option.getD_some] at h
    simp [h]

theorem raw_noCr {s : Str} (hr : '\r' ∉ s) :
    Yamd.mapText noCr ((topB (tokens s)).raw s) = (topB (tokens s)).raw s := by
  have hn := topB_nat (f := id) ⟨fun _ => rfl, fun _ => rfl, fun _ _ => rfl, fun _ _ => rfl⟩ (tokens s)
  rw [List.map_id] at hn
  have hm : ∀ ts, Moved (fun _ => True) noCr s s id ts := fun ts t _ => ⟨(slice_free hr t).symm, trivial⟩
  have := Top.raw_moved (K := fun _ => True) (g := noCr) (s := s) (s' := s) (f := id) rfl noCr_append (fun ts h => by
      have := text_moved (K := fun _ => True) (g := noCr) (s := s) (s' := s) (f := id) rfl noCr_append h
      rw [List.map_id] at this
      rw [← this]) (topB (tokens s)) (hm _)
  rw [← this, ← hn]

/-- The document of a text with Windows line ends, without its carriage returns. -/
theorem denote_noCr {s : Str} (hr : '\r' ∉ s) (he : noEscapedLf s = true) :
    settle (Yamd.mapText noCr ((topB (tokens (crlf s))).denote (crlf s))) = (topB (tokens s)).denote s := by
  have h2 := Doc.back s _ (topB_doc_ok (tokens s))
  have h3 : (topB (tokens s)).denote s = settle (Yamd.mapText noCr ((topB (tokens s)).raw s)) := by
    rw [raw_noCr hr, Top.settle_raw]
  rw [denote_crlf hr he, h3]
  clear h3
  generalize topB (tokens s) = d at *
  obtain ⟨m, d⟩ := d
  simp only [Top.raw, Yamd.mapText, settle]
  rw [h2]
  cases m <;> simp [trimNl_noCr, noCr_crlf]

end Yamd.Ref
