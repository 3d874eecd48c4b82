import Verif.Proofs.Marks
import Verif.Proofs.ExtentOps

/-!
# Marks along the ops
-/

namespace Yamd.Ref

open Yamd Yamd.Spec

/-- The segments in front of the end of the text. -/
def cutText (r : List Seg) : List Seg := r.takeWhile fun x => x.kind ≠ .End .Paragraph && x.kind ≠ .End .Heading

theorem cutText_end {l n a r} (hl : Plain l) (hn : IsText n) : cutText (l ++ segEnd n a :: r) = l := by
  have hl' := hl.free
  clear hl
  induction l with
  | nil =>
    unfold cutText
    rw [List.nil_append, List.takeWhile_cons_of_neg]
    rcases hn with rfl | rfl <;> simp [segEnd]
  | cons x l ih =>
    unfold cutText at ih ⊢
    rw [List.cons_append, List.takeWhile_cons_of_pos, ih fun y hy => hl' y (by simp [hy])]
    have h1 := hl' x (by simp) .Paragraph (.inl rfl)
    have h2 := hl' x (by simp) .Heading (.inr rfl)
    simp [h1, h2]

/-- A segment, its open nodes, the segments behind it. -/
def MarkSeg (o : List Node) (s : Seg) (r : List Seg) : Prop :=
  (s.kind = .Value → ∀ n, o.head? = some n → (∀ t ∈ s.own, ¬ closesNode n t) ∧ TextLeft n s.own (toksOf (cutText r))) ∧
  (s.kind = .Start .Embed → ∃ k p a c z, r = k :: p :: a :: c :: z ∧ k.kind = .Value ∧ p.kind = .Value ∧ a.kind = .Value ∧
    c.kind = .End .Embed ∧ k.skip = [] ∧ p.skip = [] ∧ a.skip = [] ∧ (∀ t ∈ k.own, ¬ tokenIsA .Pipe 1 t) ∧
    (∃ t, p.own = [t] ∧ tokenIsA .Pipe 1 t) ∧ ∀ t ∈ a.own, ¬ tokenIsA .RightCurlyBrace 2 t)

def SegsMark : List Node → List Seg → Prop
  | _, [] => True
  | o, s :: r => MarkSeg o s r ∧ SegsMark (openAfter o [s.kind]) r

theorem MarkSeg.start {o n a r} (h : n ≠ .Embed) : MarkSeg o (segStart n a) r :=
  ⟨fun h => (by cases h), fun hk => absurd (by simpa [segStart] using hk) h⟩

theorem MarkSeg.close {o n a b r} : MarkSeg o ⟨.End n, a, b⟩ r := ⟨fun h => (by cases h), fun h => (by cases h)⟩

/-- Nodes whose text may hold any mark. -/
def Silent (n : Node) : Prop := n ≠ .Paragraph ∧ n ≠ .Bold ∧ n ≠ .Heading

theorem Silent.left {n t r} (h : Silent n) : LeftAsText n t r := by
  unfold LeftAsText
  split
  · exact absurd rfl h.1
  · exact absurd rfl h.2.1
  · exact absurd rfl h.2.2
  · trivial

theorem MarkSeg.value {o n ts r} (hn : Silent n) (h : ∀ t ∈ ts, ¬ closesNode n t) : MarkSeg (n :: o) (segValue ts) r := by
  refine ⟨fun _ n' hn' => ?_, fun h => by cases h⟩
  cases hn'
  exact ⟨h, fun a t b _ => hn.left⟩

theorem mark_delim {d : Delim} {o r} (hn : Silent d.node) (he : d.node ≠ .Embed) (hs : d.Short) (hr : SegsMark o r) :
    SegsMark o (d.segs ++ r) := by
  unfold Delim.segs
  exact ⟨.start he, .value hn hs, .close, hr⟩

theorem Link.short_title {l : Link} (h1 : l.Ok) (h2 : l.Short) : l.title.Short := by
  intro t ht
  rw [h1.1]
  exact not_of_iff isRightBracket_iff (h2 t ht)

theorem mark_link {l : Link} {o r} (h1 : l.Ok) (h2 : l.Short) (hr : SegsMark o r) : SegsMark o (l.segs ++ r) := by
  unfold Link.segs
  rw [List.append_assoc]
  have e1 := h1.1
  have e2 := h1.2.2.2.1
  refine mark_delim (by rw [e1]; exact ⟨by decide, by decide, by decide⟩) (by rw [e1]; decide) (l.short_title h1 h2)
    (mark_delim (by rw [e2]; exact ⟨by decide, by decide, by decide⟩) (by rw [e2]; decide) ?_ hr)
  intro t _ h
  rw [e2] at h
  exact h

theorem mark_anchor {l : Link} {o r} (h1 : l.Ok) (h2 : l.Short) (hr : SegsMark o r) : SegsMark o (anchorSegs l ++ r) := by
  unfold anchorSegs
  rw [List.cons_append, List.append_assoc]
  exact ⟨.start (by decide), mark_link h1 h2 ⟨.close, hr⟩⟩

theorem style_silent {d : Delim} (h : d.Style) : Silent d.node ∧ d.node ≠ .Embed := by
  rcases h with ⟨e, -⟩ | ⟨e, -⟩ | ⟨e, -⟩ | ⟨e, -⟩ <;> rw [e] <;> exact ⟨⟨by decide, by decide, by decide⟩, by decide⟩

theorem boldStyle_style {d : Delim} (h : d.BoldStyle) : d.Style := by
  rcases h with h | h
  · exact .inl h
  · exact .inr (.inl h)

theorem plain_boldItem {y : BoldItem} (hy : y.Ok) : Plain y.segs := by
  cases y with
  | text ts => exact .value _
  | delim d =>
    rcases hy with ⟨hn, -⟩ | ⟨hn, -⟩
    all_goals exact plain_delim (by rw [hn]; exact not_text (by decide) (by decide))

theorem mark_bold {E : List Token} {r} (hE : toksOf (cutText r) = E) : ∀ {items : List BoldItem} {o},
    (∀ x ∈ items, x.Ok) → BoldItemsFit items E →
    SegsMark (.Bold :: o) r → SegsMark (.Bold :: o) (items.flatMap BoldItem.segs ++ r)
  | [], _, _, _, hr => hr
  | .text ts :: l, o, ho, hf, hr => by
    rw [List.flatMap_cons, List.append_assoc]
    refine ⟨⟨fun _ n hn => ?_, fun h => by cases h⟩, mark_bold hE (fun x hx => ho x (by simp [hx])) hf.2.2 hr⟩
    cases hn
    refine ⟨hf.2.1, ?_⟩
    have : toksOf (cutText (l.flatMap BoldItem.segs ++ r)) = l.flatMap BoldItem.toks ++ E := by
      have hp : Plain (l.flatMap BoldItem.segs) := plain_flatMap l fun x hx => plain_boldItem (ho x (by simp [hx]))
      unfold cutText
      rw [List.takeWhile_append_of_pos, toksOf_append, show toksOf (l.flatMap BoldItem.segs) = l.flatMap BoldItem.toks from flatMap_toks _ BoldItem.toks_segs, ← hE]
      · rfl
      · intro x hx
        have h1 := hp.free x hx .Paragraph (.inl rfl)
        have h2 := hp.free x hx .Heading (.inr rfl)
        simp [h1, h2]
    show TextLeft _ _ (toksOf (cutText (l.flatMap BoldItem.segs ++ r)))
    rw [this]
    exact hf.1
  | .delim d :: l, o, ho, hf, hr => by
    rw [List.flatMap_cons, List.append_assoc]
    have hd := style_silent (boldStyle_style (ho (.delim d) (by simp)))
    exact mark_delim hd.1 hd.2 hf.1 (mark_bold hE (fun x hx => ho x (by simp [hx])) hf.2 hr)

theorem cut_inls {l : List Inl} (ho : ∀ x ∈ l, x.Ok) {a r} :
    toksOf (cutText (l.flatMap Inl.segs ++ segEnd .Paragraph a :: r)) = paraToks l := by
  rw [cutText_end (plain_flatMap l fun x hx => plain_inl (ho x hx)) (.inl rfl)]
  exact flatMap_toks _ Inl.toks_segs

theorem mark_inls : ∀ {l : List Inl} {o r}, (∀ x ∈ l, x.Ok) → InlsFit l → SegsMark o r →
    SegsMark (.Paragraph :: o) (l.flatMap Inl.segs ++ segEnd .Paragraph [] :: r)
  | [], _, _, _, _, hr => ⟨.close, hr⟩
  | x :: l, o, r, ho, hf, hr => by
    have hl : ∀ x ∈ l, x.Ok := fun y hy => ho y (by simp [hy])
    have hx := ho x (by simp)
    rw [List.flatMap_cons, List.append_assoc]
    cases x with
    | text ts =>
      refine ⟨⟨fun _ n hn => ?_, fun h => by cases h⟩, mark_inls hl hf.2 hr⟩
      cases hn
      refine ⟨fun t _ h => h, ?_⟩
      show TextLeft _ _ (toksOf (cutText (l.flatMap Inl.segs ++ segEnd .Paragraph [] :: r)))
      rw [cut_inls hl]
      exact hf.1
    | delim d =>
      have hd := style_silent hx
      exact mark_delim hd.1 hd.2 hf.1 (mark_inls hl hf.2 hr)
    | bold p items c =>
      show SegsMark _ (segStart .Bold [p] :: (items.flatMap BoldItem.segs ++ [segEnd .Bold [c]]) ++ _)
      rw [List.cons_append, List.append_assoc]
      refine ⟨.start (by decide), mark_bold ?_ hx.2.2.1 hf.1 ⟨.close, mark_inls hl hf.2 hr⟩⟩
      show toksOf (cutText (segEnd .Bold [c] :: (l.flatMap Inl.segs ++ segEnd .Paragraph [] :: r))) = _
      have : cutText (segEnd .Bold [c] :: (l.flatMap Inl.segs ++ segEnd .Paragraph [] :: r)) =
          segEnd .Bold [c] :: cutText (l.flatMap Inl.segs ++ segEnd .Paragraph [] :: r) := by
        unfold cutText; rw [List.takeWhile_cons_of_pos]; simp [segEnd]
      rw [this]
      show [c] ++ toksOf _ = _
      rw [cut_inls hl]
      rfl
    | anchor k => exact mark_anchor hx hf.1 (mark_inls hl hf.2 hr)

theorem mark_para {l : List Inl} {o r} (h1 : ParaOk l) (h2 : ParaOwn l) (hr : SegsMark o r) :
    SegsMark o (paraSegs l ++ r) := by
  unfold paraSegs
  rw [List.cons_append, List.append_assoc]
  exact ⟨.start (by decide), mark_inls h1.1 h2.fit hr⟩

theorem mark_heads : ∀ {l : List HeadItem} {o r}, (∀ x ∈ l, x.Ok) → HeadsFit l → SegsMark o r →
    SegsMark (.Heading :: o) (l.flatMap HeadItem.segs ++ segEnd .Heading [] :: r)
  | [], _, _, _, _, hr => ⟨.close, hr⟩
  | x :: l, o, r, ho, hf, hr => by
    have hl : ∀ x ∈ l, x.Ok := fun y hy => ho y (by simp [hy])
    have hx := ho x (by simp)
    rw [List.flatMap_cons, List.append_assoc]
    cases x with
    | text ts =>
      refine ⟨⟨fun _ n hn => ?_, fun h => by cases h⟩, mark_heads hl hf.2 hr⟩
      cases hn
      refine ⟨fun t _ h => h, ?_⟩
      show TextLeft _ _ (toksOf (cutText (l.flatMap HeadItem.segs ++ segEnd .Heading [] :: r)))
      rw [cutText_end (plain_flatMap l fun y hy => ?_) (.inr rfl),
        show toksOf (l.flatMap HeadItem.segs) = l.flatMap HeadItem.toks from flatMap_toks _ HeadItem.toks_segs]
      · exact hf.1
      · have hy := hl y hy
        cases y with
        | text ts => exact .value _
        | anchor l => exact plain_anchor hy
    | anchor k => exact mark_anchor hx hf.1 (mark_heads hl hf.2 hr)

theorem mark_mod {m : Option Mod} {o r} (hm : ModOk m) (hr : SegsMark o r) : SegsMark o (modSegs m ++ r) := by
  cases m with
  | none => exact hr
  | some m =>
    refine ⟨.start (by decide), .value ⟨by decide, by decide, by decide⟩ fun t ht h => ?_, .close, hr⟩
    have := hm.2 t ht
    unfold isEolOrTerminator at this
    rcases h with h | h <;> simp [h] at this

theorem mark_icon {i : Option IconLine} {o r} (h1 : IconOk i) (h2 : ∀ x, i = some x → ∀ t ∈ x.body, isEol t = false)
    (hr : SegsMark o r) : SegsMark o (iconSegs i ++ r) := by
  cases i with
  | none => exact hr
  | some i =>
    refine ⟨.start (by decide), .value ⟨by decide, by decide, by decide⟩ fun t ht h => ?_, .close, hr⟩
    rcases h with h | h
    · have := h2 i rfl t ht
      unfold isEol at this
      simp [h] at this
    · exact h1.2.1 t ht h

theorem mark_items : ∀ {i : Items} {level want o r}, i.Ok level want → i.Own → SegsMark o r → SegsMark o (i.segs ++ r)
  | .nil, _, _, _, _, _, _, hr => hr
  | .cons k m p n q, level, want, o, r, ⟨_, _, a3, a4, a5⟩, hw, hr => by
    unfold Items.segs
    simp only [List.cons_append, List.append_assoc]
    refine ⟨.start (by decide), mark_para a3 hw.1 ?_⟩
    have hend : SegsMark (.ListItem :: o) (segEnd .ListItem [] :: (q.segs ++ r)) :=
      ⟨.close, mark_items (i := q) a5 hw.2.2 hr⟩
    cases hn : n with
    | nil => exact hend
    | cons k' m' p' n' q' =>
      rw [hn] at a4 hw
      show SegsMark _ (segStart k'.node [] :: ((Items.cons k' m' p' n' q').segs ++ [segEnd k'.node []] ++ _))
      rw [List.append_assoc]
      refine ⟨.start (by cases k' <;> decide), ?_⟩
      exact mark_items (i := .cons k' m' p' n' q') a4 hw.2.1 ⟨.close, hend⟩

theorem mark_images : ∀ {l : List Img} {o r}, (∀ x ∈ l, x.Ok) → (∀ x ∈ l, x.link.Short) → SegsMark o r →
    SegsMark o (l.flatMap Img.segs ++ r)
  | [], _, _, _, _, hr => hr
  | x :: l, o, r, h1, h2, hr => by
    rw [List.flatMap_cons, List.append_assoc]
    unfold Img.segs
    rw [List.cons_append, List.append_assoc]
    exact ⟨.start (by decide), mark_link (h1 x (by simp)).2.1 (h2 x (by simp)) ⟨.close,
      mark_images (fun y hy => h1 y (by simp [hy])) (fun y hy => h2 y (by simp [hy])) hr⟩⟩

theorem isBacktick3_iff {t} : isBacktick3 t = true ↔ closesNode .Code t := by
  unfold isBacktick3 closesNode atColumn0 tokenIsA col0 Token.len
  simp only [Bool.and_eq_true, decide_eq_true_eq]
  constructor
  · rintro ⟨⟨a, b⟩, c⟩; exact ⟨b, a, c⟩
  · rintro ⟨b, a, c⟩; exact ⟨⟨a, b⟩, c⟩

theorem isThreeDashes_iff {t} : isThreeDashes t = true ↔ closesNode .Metadata t := by
  unfold isThreeDashes closesNode atColumn0 tokenIsA col0 Token.len
  simp only [Bool.and_eq_true, decide_eq_true_eq]
  constructor
  · rintro ⟨⟨a, b⟩, c⟩; exact ⟨b, a, c⟩
  · rintro ⟨b, a, c⟩; exact ⟨⟨a, b⟩, c⟩

theorem isPipe_iff {t} : isPipe t = true ↔ tokenIsA .Pipe 1 t := isA_iff
theorem isRightCurly2_iff {t} : isRightCurly2 t = true ↔ tokenIsA .RightCurlyBrace 2 t := isA_iff

theorem mark_block {b : Block} {o r} (hb : b.Ok) (hw : b.Own) (hr : SegsMark (.Document :: o) r) :
    SegsMark (.Document :: o) (b.segs ++ r) := by
  cases b with
  | code p m b c =>
    obtain ⟨-, h2, h3, -⟩ := hb
    show SegsMark _ (segStart .Code p :: (modSegs m ++ [segValue b, segEnd .Code c]) ++ r)
    rw [List.cons_append, List.append_assoc]
    exact ⟨.start (by decide), mark_mod h2 ⟨.value ⟨by decide, by decide, by decide⟩
      fun t ht => not_of_iff isBacktick3_iff (h3 t ht), .close, hr⟩⟩
  | embed p l q a c =>
    obtain ⟨-, h2, h3, h4, -⟩ := hb
    refine ⟨⟨fun h => (by cases h), fun _ => ?_⟩, ?_⟩
    · exact ⟨_, _, _, _, _, rfl, rfl, rfl, rfl, rfl, rfl, rfl, rfl, fun t ht => not_of_iff isPipe_iff (h2 t ht),
        ⟨_, rfl, isPipe_iff.1 h3⟩, fun t ht => not_of_iff isRightCurly2_iff (h4 t ht)⟩
    · have v : ∀ ts r, MarkSeg (.Embed :: .Document :: o) (segValue ts) r := fun ts r =>
        .value ⟨by decide, by decide, by decide⟩ fun t _ h => h
      exact ⟨v _ _, v _ _, v _ _, .close, hr⟩
  | highlight p m i b c =>
    obtain ⟨-, h2, h3, h4, -⟩ := hb
    unfold Block.segs
    simp only [List.cons_append, List.append_assoc, List.nil_append]
    refine ⟨.start (by decide), mark_mod h2 (mark_icon h3 hw.2 ?_)⟩
    have hw' := hw.1
    clear hw
    show SegsMark (.Highlight :: .Document :: o) _
    induction b with
    | nil => exact ⟨.close, hr⟩
    | cons x b ih =>
      rw [List.flatMap_cons, List.append_assoc]
      have ih := ih (fun y hy => h4 y (by simp [hy])) (fun y hy => hw' y (by simp [hy]))
      have hp := mark_para (h4 x (by simp)).2 (hw' x (by simp)) ih
      unfold HPara.segs
      rw [List.append_assoc]
      cases x.term with
      | nil => exact hp
      | cons t q => exact ⟨.value ⟨by decide, by decide, by decide⟩ fun t _ h => h, hp⟩
  | list i =>
    cases i with
    | nil => exact absurd rfl hb.2
    | cons k m p n q =>
      show SegsMark _ (segStart k.node [] :: ((Items.cons k m p n q).segs ++ [segEnd k.node []] ++ r))
      rw [List.append_assoc]
      exact ⟨.start (by cases k <;> decide), mark_items (i := .cons k m p n q) hb.1 hw ⟨.close, hr⟩⟩
  | images l =>
    unfold Block.segs
    simp only
    split
    · rw [List.cons_append, List.append_assoc]
      exact ⟨.start (by decide), mark_images hb.2 hw ⟨.close, hr⟩⟩
    · exact mark_images hb.2 hw hr
  | thematic t => exact ⟨.start (by decide), .value ⟨by decide, by decide, by decide⟩ fun t _ h => h, .close, hr⟩
  | heading m b =>
    show SegsMark _ (segStart .Heading m :: (b.flatMap HeadItem.segs ++ [segEnd .Heading []]) ++ r)
    rw [List.cons_append, List.append_assoc]
    exact ⟨.start (by decide), mark_heads hb.2.1 (HeadOwn.fit hw) hr⟩
  | para l => exact mark_para hb hw hr

theorem mark_doc : ∀ {d : Doc} {o r}, d.Ok → d.Own → SegsMark (.Document :: o) r → SegsMark (.Document :: o) (d.segs ++ r)
  | .nil, _, _, _, _, hr => hr
  | .term t d, _, _, ho, hw, hr =>
    ⟨.value ⟨by decide, by decide, by decide⟩ fun t _ h => h, mark_doc (d := d) ho.2 hw hr⟩
  | .block b d, o, r, ho, hw, hr => by
    unfold Doc.segs
    rw [List.append_assoc]
    exact mark_block ho.1 hw.1 (mark_doc (d := d) ho.2 hw.2 hr)
  | .coll p m i s c d, o, r, ⟨h1, h2, h3, _, h5, h6⟩, hw, hr => by
    unfold Doc.segs
    simp only [List.cons_append, List.append_assoc]
    exact ⟨.start (by decide), mark_mod h2 ⟨.start (by decide),
      mark_doc (d := i) (o := .Collapsible :: .Document :: o) h3 hw.1 ⟨.close, .close, mark_doc (d := d) h6 hw.2 hr⟩⟩⟩

theorem mark_top (ts : List Token) : SegsMark [] (topB ts).segs := by
  have key : ∀ ts, SegsMark [] (segStart .Document [] :: ((docB [] ts).1.segs ++ [segEnd .Document []])) :=
    fun ts => ⟨.start (by decide), mark_doc (docB_ok _ _) (docB_isOwn _ _) ⟨.close, trivial⟩⟩
  unfold topB
  split
  · rename_i d r h
    have h1 := (delimB_ok h).1
    exact mark_delim (by rw [h1]; exact ⟨by decide, by decide, by decide⟩) (by rw [h1]; decide)
      (delimB_short (fun _ => isThreeDashes_iff) h) (key r)
  · exact key ts

theorem SegsMark.split : ∀ {l1 : List Seg} {o s l}, SegsMark o (l1 ++ s :: l) → MarkSeg (openAfter o (l1.map Seg.kind)) s l
  | [], _, _, _, h => h.1
  | x :: l1, o, s, l, h => by
    have := SegsMark.split (l1 := l1) h.2
    rw [List.map_cons]
    cases hk : x.kind <;> (rw [hk] at this; exact this)

/-! ### Back to the source tokens -/

theorem FlipRel.fwd {a b : Token} (h : FlipRel a b) (hk : a.kind ≠ .CollapsibleStart) : a = b := by
  rcases h with rfl | ⟨h, -⟩
  · rfl
  · exact absurd h hk

theorem Flips.cut_left : ∀ {a b : List Token}, Flips a b → ∀ {l1 t l2}, a = l1 ++ t :: l2 →
    ∃ m1 u m2, b = m1 ++ u :: m2 ∧ Flips l1 m1 ∧ FlipRel t u ∧ Flips l2 m2
  | _, _, .nil, l1, _, _, e => by cases l1 <;> cases e
  | _, _, .cons h hr, [], _, _, e => by cases e; exact ⟨[], _, _, rfl, .nil, h, hr⟩
  | _, _, .cons h hr, x :: l1, t, l2, e => by
    obtain ⟨rfl, e'⟩ := List.cons.inj e
    obtain ⟨m1, u, m2, e2, h1, h2, h3⟩ := Flips.cut_left hr e'
    exact ⟨_ :: m1, u, m2, by rw [e2]; rfl, .cons h h1, h2, h3⟩

theorem Flips.keep {a b : List Token} (h : Flips a b) {t} (ht : t ∈ a) (hk : t.kind ≠ .CollapsibleStart) : t ∈ b := by
  obtain ⟨l1, l2, e⟩ := List.append_of_mem ht
  obtain ⟨m1, u, m2, rfl, -, h2, -⟩ := h.cut_left e
  rw [h2.fwd hk]; simp

theorem isMark_kind {n : Node} {t : Token} (h : isMark n t) : t.kind ≠ .CollapsibleStart ∧ t.kind ≠ .Literal := by
  unfold isMark at h
  split at h
  all_goals first | (rw [h.1]; exact ⟨by decide, by decide⟩) | exact h.elim

theorem closesNode_kind {n : Node} {t : Token} (h : closesNode n t) : t.kind ≠ .CollapsibleStart := by
  unfold closesNode at h
  split at h
  · rw [h.1]; decide
  · rw [h.2.1]; decide
  · rw [h.2.1]; decide
  · rcases h with h | h <;> rw [h] <;> decide
  · rcases h with h | h <;> rw [h] <;> decide
  · exact (isMark_kind h).1

theorem pairLeft_unflips {n t u l m} (h1 : FlipRel t u) (h2 : Flips l m) (h : PairLeft n u m) : PairLeft n t l := by
  intro ht x hx hm
  have := h1.fwd (isMark_kind ht).1
  subst this
  exact h ht x (h2.keep hx (isMark_kind hm).1) hm

theorem boldLeft_unflips {t u l m} (h1 : FlipRel t u) (h2 : Flips l m) (h : BoldLeft u m) : BoldLeft t l := by
  intro ht c x d e hx
  have := h1.fwd (isMark_kind ht).1
  subst this
  obtain ⟨c', x', d', e', f1, f2, f3⟩ := h2.cut_left e
  have := f2.fwd (isMark_kind hx).1
  subst this
  obtain ⟨n, hn, w, hw, w', hw', m1, m2⟩ := h ht c' x d' e' hx
  exact ⟨n, hn, w, f1.mem w hw (isMark_kind m1).2, w', f3.mem w' hw' (isMark_kind m2).2, m1, m2⟩

theorem linkLeft_unflips {t u l m} (h1 : FlipRel t u) (h2 : Flips l m) (h : LinkLeft u m) : LinkLeft t l := by
  intro ht c x p d e hc hx hp y hy hk
  have := h1.fwd (by rw [ht.1]; decide)
  subst this
  obtain ⟨c', x', d', e', f1, f2, f3⟩ := h2.cut_left e
  have := f2.fwd (by rw [hx.1]; decide)
  subst this
  cases f3 with
  | cons g1 g2 =>
    have := g1.fwd (by rw [hp.1]; decide)
    subst this
    refine h ht c' x p _ e' ?_ hx hp y (g2.keep hy (by rw [hk]; decide)) hk
    intro z hz hb
    exact hc z (f1.mem z hz (by rw [hb.1]; decide)) hb

theorem leftAsText_unflips {n t u l m} (h1 : FlipRel t u) (h2 : Flips l m) (h : LeftAsText n u m) : LeftAsText n t l := by
  unfold LeftAsText at h ⊢
  split
  · exact ⟨pairLeft_unflips h1 h2 h.1, pairLeft_unflips h1 h2 h.2.1, pairLeft_unflips h1 h2 h.2.2.1,
      pairLeft_unflips h1 h2 h.2.2.2.1, boldLeft_unflips h1 h2 h.2.2.2.2.1, linkLeft_unflips h1 h2 h.2.2.2.2.2⟩
  · exact ⟨pairLeft_unflips h1 h2 h.1, pairLeft_unflips h1 h2 h.2⟩
  · exact linkLeft_unflips h1 h2 h
  · trivial

theorem parse_marks (input : Str) : ∃ ops ss, parse input = .ok ops ∧ Segmentation input (tokens input) ops ss ∧
    ∀ z1 x z2, ops.zip ss = z1 ++ x :: z2 →
      (x.1.kind = .Value → ∀ n, (openAfter [] (z1.map fun y => y.1.kind)).head? = some n →
        (∀ t ∈ x.2.2, ¬ closesNode n t) ∧ ∀ a t b, x.2.2 = a ++ t :: b → LeftAsText n t (b ++ entryToks (inText z2))) ∧
      (x.1.kind = .Start .Embed → ∃ k p a c z, z2 = k :: p :: a :: c :: z ∧ k.1.kind = .Value ∧ p.1.kind = .Value ∧
        a.1.kind = .Value ∧ c.1.kind = .End .Embed ∧ k.2.1 = [] ∧ p.2.1 = [] ∧ a.2.1 = [] ∧
        (∀ t ∈ k.2.2, ¬ tokenIsA .Pipe 1 t) ∧ (∃ t, p.2.2 = [t] ∧ tokenIsA .Pipe 1 t) ∧
        ∀ t ∈ a.2.2, ¬ tokenIsA .RightCurlyBrace 2 t) := by
  have hp := parse_eq input
  rw [Top.ops_segs] at hp
  have hw := walk_top (tokens input)
  have hf := top_flips (tokens input)
  have hl := mark_top (tokens input)
  rw [← Top.toks_segs] at hf
  generalize (topB (tokens input)).segs = segs at hp hf hw hl
  obtain ⟨ss, hseg, -, -, hfl⟩ := segmentation_of hw hf
  refine ⟨_, ss, hp, hseg, ?_⟩
  intro z1 x z2 hz
  have hlen : (segs.map (Seg.op input)).length = ss.length := hseg.length.symm
  obtain ⟨c1, c2⟩ := zip_cut hlen hz
  simp only [List.map_cons, List.map_append] at c1 c2
  obtain ⟨m1, m2, rfl, e1, e2⟩ := List.map_eq_append_iff.1 c1
  obtain ⟨g, m3, rfl, eg, e3⟩ := List.map_eq_cons_iff.1 e2
  have hsl := hl.split
  have kof : ∀ {l : List Seg} {z : List (Op × List Token × List Token)}, l.map (Seg.op input) = z.map Prod.fst →
      l.map Seg.kind = z.map fun x => x.1.kind := by
    intro l z h
    have := congrArg (List.map Op.kind) h
    rw [List.map_map, List.map_map] at this
    exact this
  rw [kof e1] at hsl
  have l1 : m1.length = (z1.map Prod.snd).length := by have := congrArg List.length e1; simpa using this
  have l3 : m3.length = z2.length := by have := congrArg List.length e3; simpa using this
  rw [c2, List.zip_append l1, List.zip_cons_cons] at hfl
  have fx := hfl (g, x.2) (by simp)
  have fr : ∀ y ∈ m3.zip (z2.map Prod.snd), Flips y.2.1 y.1.skip ∧ Flips y.2.2 y.1.own := fun y hy => hfl y (by simp [hy])
  clear hfl
  have hk : g.kind = x.1.kind := by rw [← eg]; rfl
  refine ⟨fun hv n hn => ?_, fun hv => ?_⟩
  · obtain ⟨q1, q2⟩ := hsl.1 (hk.trans hv) n hn
    refine ⟨fun t ht hc => q1 t (fx.2.keep ht (closesNode_kind hc)) hc, fun a t b e => ?_⟩
    obtain ⟨a', u, b', e', -, f2, f3⟩ := fx.2.cut_left e
    refine leftAsText_unflips f2 (f3.append ?_) (q2 a' u b' e')
    clear q1 q2 hsl hz c1 c2 hw hf hl hseg hlen
    clear e2 fx eg hp
    have k3 := kof e3
    clear e3
    induction m3 generalizing z2 with
    | nil =>
      cases z2 with
      | nil => exact .nil
      | cons y z2 => simp at l3
    | cons w m3 ih =>
      cases z2 with
      | nil => simp at l3
      | cons y z2 =>
        rw [List.map_cons, List.map_cons] at k3
        obtain ⟨ky, k3⟩ := List.cons.inj k3
        have hy := fr (w, y.2) (by simp)
        unfold inText cutText
        rw [List.takeWhile_cons, List.takeWhile_cons]
        rw [ky]
        split
        · exact (hy.1.append hy.2).append (ih z2 (by simpa using l3) (fun v hv => fr v (by simp [hv])) k3)
        · exact .nil
  · obtain ⟨k, p, a, c, z, rfl, k1, k2, k3, k4, s1, s2, s3, h1, ⟨t, ht, h2⟩, h3⟩ := hsl.2 (hk.trans hv)
    have kz := kof e3
    match z2, l3, kz, fr with
    | k' :: p' :: a' :: c' :: z', l3, kz, fr =>
      simp only [List.map_cons, List.cons.injEq] at kz
      obtain ⟨j1, j2, j3, j4, -⟩ := kz
      have f1 := fr (k, k'.2) (by simp)
      have f2 := fr (p, p'.2) (by simp)
      have f3 := fr (a, a'.2) (by simp)
      rw [s1] at f1
      rw [s2, ht] at f2
      rw [s3] at f3
      refine ⟨k', p', a', c', z', rfl, j1.symm.trans k1, j2.symm.trans k2, j3.symm.trans k3, j4.symm.trans k4, ?_, ?_, ?_, ?_, ?_, ?_⟩
      · have := f1.1; simp only at this; generalize k'.2.1 = q at this; cases this; rfl
      · have := f2.1; simp only at this; generalize p'.2.1 = q at this; cases this; rfl
      · have := f3.1; simp only at this; generalize a'.2.1 = q at this; cases this; rfl
      · exact fun t ht hc => h1 t (f1.2.keep ht (by rw [hc.1]; decide)) hc
      · have := f2.2
        generalize p'.2.2 = q at this
        cases this with
        | cons g1 g2 =>
          cases g2
          have := g1.back (by rw [h2.1]; decide)
          subst this
          exact ⟨_, rfl, h2⟩
      · exact fun t ht hc => h3 t (f3.2.keep ht (by rw [hc.1]; decide)) hc
    | [], l3, _, _ => simp at l3
    | [_], l3, _, _ => simp at l3
    | [_, _], l3, _, _ => simp at l3
    | [_, _, _], l3, _, _ => simp at l3

end Yamd.Ref
