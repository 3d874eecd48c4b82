import Verif.Proofs.Extent

/-!
# Text is exactly as long as it has to be, along the ops
-/

namespace Yamd.Ref

open Yamd Yamd.Spec

/-- A segment, its open nodes, the segments behind it. -/
def TextSeg (o : List Node) (s : Seg) (r : List Seg) (rest : List Token) : Prop :=
  ∀ n, s.kind = .Start n → IsText n → ∀ b e z, r = b ++ e :: z → e.kind = .End n → (∀ x ∈ b, x.kind ≠ .End n) →
    ExactText o (toksOf b) (toksOf (e :: z) ++ rest)

def SegsExt : List Node → List Seg → List Token → Prop
  | _, [], _ => True
  | o, s :: r, rest => TextSeg o s r rest ∧ SegsExt (openAfter o [s.kind]) r rest

theorem TextSeg.start {o n a r rest} (h : ¬ IsText n) : TextSeg o (segStart n a) r rest := by
  intro n' hk ht; cases hk; exact absurd ht h

theorem TextSeg.value {o ts r rest} : TextSeg o (segValue ts) r rest := by intro n' hk; cases hk
theorem TextSeg.close {o n ts r rest} : TextSeg o (segEnd n ts) r rest := by intro n' hk; cases hk

/-- Segments without paragraphs and headings. -/
structure Plain (l : List Seg) : Prop where
  calm : ∀ o r rest, SegsExt o r rest → SegsExt o (l ++ r) rest
  free : ∀ x ∈ l, ∀ n, IsText n → x.kind ≠ .End n

theorem Plain.nil : Plain [] := ⟨fun _ _ _ h => h, fun _ h => by cases h⟩

theorem Plain.append {a b} (h1 : Plain a) (h2 : Plain b) : Plain (a ++ b) :=
  ⟨fun o r rest h => by rw [List.append_assoc]; exact h1.calm _ _ _ (h2.calm _ _ _ h),
   fun x hx => (List.mem_append.1 hx).elim (h1.free x) (h2.free x)⟩

theorem Plain.value (ts : List Token) : Plain [segValue ts] :=
  ⟨fun o r rest h => ⟨.value, h⟩, fun x hx n _ => by simp at hx; rw [hx]; simp [segValue]⟩

theorem Plain.node {n a b l} (hn : ¬ IsText n) (hl : Plain l) : Plain (segStart n a :: (l ++ [segEnd n b])) := by
  refine ⟨fun o r rest h => ?_, ?_⟩
  · rw [List.cons_append, List.append_assoc]
    exact ⟨.start hn, hl.calm _ _ _ ⟨.close, h⟩⟩
  · intro x hx n' hn' hk
    rcases List.mem_cons.1 hx with rfl | hx
    · cases hk
    · rcases List.mem_append.1 hx with hx | hx
      · exact hl.free x hx n' hn' hk
      · simp at hx
        rw [hx] at hk
        cases hk
        exact hn hn'

theorem plain_flatMap {α : Type} {f : α → List Seg} (l : List α) (h : ∀ x ∈ l, Plain (f x)) : Plain (l.flatMap f) := by
  induction l with
  | nil => exact .nil
  | cons x l ih =>
    rw [List.flatMap_cons]
    exact (h x (by simp)).append (ih fun y hy => h y (by simp [hy]))

theorem plain_delim {d : Delim} (h : ¬ IsText d.node) : Plain d.segs := Plain.node (l := [segValue d.body]) h (.value _)

theorem not_text {n : Node} (h1 : n ≠ .Paragraph) (h2 : n ≠ .Heading) : ¬ IsText n := fun h => h.elim h1 h2

theorem plain_link {l : Link} (hl : l.Ok) : Plain l.segs := by
  obtain ⟨a1, -, -, b1, -, -⟩ := hl
  exact (plain_delim (by rw [a1]; exact not_text (by decide) (by decide))).append
    (plain_delim (by rw [b1]; exact not_text (by decide) (by decide)))

theorem plain_anchor {l : Link} (hl : l.Ok) : Plain (anchorSegs l) :=
  Plain.node (not_text (by decide) (by decide)) (plain_link hl)

theorem plain_inl {x : Inl} (hx : x.Ok) : Plain x.segs := by
  cases x with
  | text ts => exact .value _
  | delim d =>
    rcases hx with ⟨hn, -⟩ | ⟨hn, -⟩ | ⟨hn, -⟩ | ⟨hn, -⟩
    all_goals exact plain_delim (by rw [hn]; exact not_text (by decide) (by decide))
  | bold o items c =>
    obtain ⟨-, -, hi, -⟩ := hx
    refine Plain.node (not_text (by decide) (by decide)) (plain_flatMap items fun y hy => ?_)
    have hy := hi y hy
    cases y with
    | text ts => exact .value _
    | delim d =>
      rcases hy with ⟨hn, -⟩ | ⟨hn, -⟩
      all_goals exact plain_delim (by rw [hn]; exact not_text (by decide) (by decide))
  | anchor l => exact plain_anchor hx

theorem plain_mod {m : Option Mod} : Plain (modSegs m) := by
  cases m with
  | none => exact .nil
  | some m => exact Plain.node (l := [segValue m.body]) (not_text (by decide) (by decide)) (.value _)

theorem plain_icon {m : Option IconLine} : Plain (iconSegs m) := by
  cases m with
  | none => exact .nil
  | some m => exact Plain.node (l := [segValue m.body]) (not_text (by decide) (by decide)) (.value _)

theorem first_split {p : Seg → Prop} : ∀ {l b : List Seg} {c e : Seg} {r z}, l ++ c :: r = b ++ e :: z →
    (∀ x ∈ l, ¬ p x) → p c → (∀ x ∈ b, ¬ p x) → p e → l = b ∧ c = e ∧ r = z
  | [], [], _, _, _, _, h, _, _, _, _ => by cases h; exact ⟨rfl, rfl, rfl⟩
  | [], y :: b, _, _, _, _, h, _, hc, hb, _ => by cases h; exact absurd hc (hb _ (by simp))
  | x :: l, [], _, _, _, _, h, hl, _, _, he => by cases h; exact absurd he (hl _ (by simp))
  | x :: l, y :: b, _, _, _, _, h, hl, hc, hb, he => by
    rw [List.cons_append, List.cons_append] at h
    obtain ⟨rfl, h'⟩ := List.cons.inj h
    obtain ⟨h1, h2, h3⟩ := first_split h' (fun x hx => hl x (by simp [hx])) hc (fun x hx => hb x (by simp [hx])) he
    exact ⟨by rw [h1], h2, h3⟩

/-- A paragraph or heading. -/
theorem ext_text {n a o l r rest} (hn : IsText n) (hl : Plain l) (he : ExactText o (toksOf l) (toksOf r ++ rest))
    (hr : SegsExt o r rest) : SegsExt o (segStart n a :: (l ++ segEnd n [] :: r)) rest := by
  refine ⟨?_, hl.calm _ _ _ ⟨.close, hr⟩⟩
  intro n' hk _ b e z h h1 h2
  cases hk
  obtain ⟨rfl, rfl, rfl⟩ := first_split (p := fun x => x.kind = .End n) h (fun x hx => hl.free x hx n hn) rfl h2 h1
  exact he

theorem ext_para {o l r rest} (hl : ParaOk l) (he : ExactText o (paraToks l) (toksOf r ++ rest))
    (hr : SegsExt o r rest) : SegsExt o (paraSegs l ++ r) rest := by
  unfold paraSegs
  rw [List.cons_append, List.append_assoc]
  refine ext_text (.inl rfl) (plain_flatMap l fun x hx => plain_inl (hl.1 x hx)) ?_ hr
  rw [show toksOf (l.flatMap Inl.segs) = paraToks l from flatMap_toks _ Inl.toks_segs]
  exact he

/-- The list all items belong to. -/
def OfList (list : Node) : Items → Prop
  | .nil => True
  | .cons k _ _ _ _ => list = k.node

theorem toksOf_append (a b : List Seg) : toksOf (a ++ b) = toksOf a ++ toksOf b := by simp [toksOf]

theorem toksOf_wrap {k s} : toksOf (wrapSegs k s) = if k.isSome then toksOf s else [] := by
  cases k with
  | none => rfl
  | some k => simp [wrapSegs, toksOf, segStart, segEnd, Seg.toks]

theorem items_wrap_toks (n : Items) : toksOf (wrapSegs n.kind n.segs) = n.toks := by
  rw [toksOf_wrap]
  cases n with
  | nil => rfl
  | cons k m p q r =>
    rw [if_pos (by rfl)]
    exact Items.toks_segs _

theorem ext_items {stops : List Stop} : ∀ {i : Items} {level want list o r rest}, i.Ok level want → StopsFor o stops →
    o.count .ListItem = level → OfList list i → i.Ext (.Terminator :: stops) level (toksOf r ++ rest) →
    SegsExt (list :: o) r rest → SegsExt (list :: o) (i.segs ++ r) rest
  | .nil, _, _, _, _, _, _, _, _, _, _, _, hr => hr
  | .cons k m p n q, level, want, list, o, r, rest, ⟨_, _, a3, a4, a5⟩, hs, hc, hl, he, hr => by
    have hl : list = k.node := hl
    have hq : SegsExt (list :: o) (q.segs ++ r) rest := by
      refine ext_items (i := q) a5 hs hc ?_ he.2.2 hr
      cases q with
      | nil => trivial
      | cons k' m' p' n' q' => rw [hl, ← a5.1 k rfl]; rfl
    unfold Items.segs
    simp only [List.cons_append, List.append_assoc]
    refine ⟨.start (not_text (by decide) (by decide)), ?_⟩
    show SegsExt (.ListItem :: list :: o) _ rest
    have hend : SegsExt (.ListItem :: list :: o) (segEnd .ListItem [] :: (q.segs ++ r)) rest :=
      ⟨.close, hq⟩
    have hs' : StopsFor (.ListItem :: list :: o) stops :=
      ⟨hs.1, by rw [hs.2, hl]; cases k <;> simp [ListKind.node]⟩
    have hqt : toksOf (q.segs ++ r) = q.toks ++ toksOf r := by rw [toksOf_append]; congr 1; exact Items.toks_segs _
    refine ext_para a3 (exact_of (ends_item hs hl) ?_) ?_
    · rw [hc]
      have := he.1
      rw [toksOf_append, items_wrap_toks]
      show Extent _ _ ((n.toks ++ toksOf (q.segs ++ r)) ++ rest)
      rw [hqt]
      simpa using this
    · cases hn : n with
      | nil => exact hend
      | cons k' m' p' n' q' =>
        rw [hn] at he a4
        show SegsExt _ (segStart k'.node [] :: ((Items.cons k' m' p' n' q').segs ++ [segEnd k'.node []] ++ _)) rest
        rw [List.append_assoc]
        refine ⟨.start (by cases k' <;> exact not_text (by decide) (by decide)), ?_⟩
        refine ext_items (i := .cons k' m' p' n' q') (list := k'.node) a4 hs' ?_ rfl ?_ ⟨.close, hend⟩
        · rw [List.count_cons_self, List.count_cons_of_ne, hc]
          rw [hl]; cases k <;> simp [ListKind.node]
        · have := he.2.1
          show Items.Ext _ _ _ (toksOf (q.segs ++ r) ++ rest)
          rw [hqt, List.append_assoc]
          exact this

theorem ext_block {o : List Node} {stops} {b : Block} {r rest} (hb : b.Ok) (hs : StopsFor o stops) (hli : .ListItem ∉ o)
    (he : b.Ext stops (toksOf r ++ rest)) (hr : SegsExt (.Document :: o) r rest) :
    SegsExt (.Document :: o) (b.segs ++ r) rest := by
  have wrap : ∀ (n : Node) (a c : List Token) (s : List Seg), Plain s → ¬ IsText n →
      SegsExt (.Document :: o) ((segStart n a :: (s ++ [segEnd n c])) ++ r) rest :=
    fun n a c s h1 h2 => (Plain.node h2 h1).calm _ _ _ hr
  have link : ∀ {l : List Img}, (∀ x ∈ l, x.Ok) → Plain (l.flatMap Img.segs) := fun h =>
    plain_flatMap _ fun x hx => Plain.node (not_text (by decide) (by decide)) (plain_link (h x hx).2.1)
  cases b with
  | code p m b c =>
    have := wrap .Code p c (modSegs m ++ [segValue b]) (plain_mod.append (.value _)) (not_text (by decide) (by decide))
    simpa [Block.segs] using this
  | embed p l q r' c =>
    exact wrap .Embed [p] c [segValue l, segValue [q], segValue r'] ((Plain.value _).append ((Plain.value _).append (.value _)))
      (not_text (by decide) (by decide))
  | highlight p m i b c =>
    obtain ⟨h1, h2, h3, h4, h5⟩ := hb
    unfold Block.segs
    simp only [List.cons_append, List.append_assoc, List.nil_append]
    refine ⟨.start (not_text (by decide) (by decide)), plain_mod.calm _ _ _ (plain_icon.calm _ _ _ ?_)⟩
    show SegsExt (.Highlight :: .Document :: o) _ rest
    have hend : SegsExt (.Highlight :: .Document :: o) (segEnd .Highlight c :: r) rest := ⟨.close, hr⟩
    have key : ∀ (b : List HPara), (∀ x ∈ b, ParaOk x.para) → hlExt stops b (c ++ (toksOf r ++ rest)) →
        SegsExt (.Highlight :: .Document :: o) (b.flatMap HPara.segs ++ (segEnd .Highlight c :: r)) rest := by
      intro b
      induction b with
      | nil => intro _ _; exact hend
      | cons x b ih =>
        intro ho hx
        rw [List.flatMap_cons, List.append_assoc]
        have ih := ih (fun y hy => ho y (by simp [hy])) hx.2
        have hp : SegsExt (.Highlight :: .Document :: o) (paraSegs x.para ++ (b.flatMap HPara.segs ++ (segEnd .Highlight c :: r))) rest := by
          refine ext_para (ho x (by simp)) (exact_of (ends_highlight hs) ?_) ih
          have := hx.1
          rw [toksOf_append, show toksOf (b.flatMap HPara.segs) = b.flatMap HPara.toks from flatMap_toks _ HPara.toks_segs]
          show Extent _ _ ((b.flatMap HPara.toks ++ (c ++ toksOf r)) ++ rest)
          simpa using this
        unfold HPara.segs
        rw [List.append_assoc]
        cases x.term with
        | nil => exact hp
        | cons t q => exact ⟨.value, hp⟩
    exact key b (fun x hx => (h4 x hx).2) he
  | list i =>
    cases i with
    | nil => exact absurd rfl hb.2
    | cons k m p n q =>
      show SegsExt _ (segStart k.node [] :: ((Items.cons k m p n q).segs ++ [segEnd k.node []] ++ r)) rest
      rw [List.append_assoc]
      refine ⟨.start (by cases k <;> exact not_text (by decide) (by decide)), ?_⟩
      refine ext_items (i := .cons k m p n q) (list := k.node) (o := .Document :: o) hb.1 ⟨hs.1, by rw [hs.2]; simp⟩ ?_ rfl he
        ⟨.close, hr⟩
      rw [List.count_cons_of_ne (by decide)]
      exact List.count_eq_zero.2 hli
  | images l =>
    unfold Block.segs
    simp only
    split
    · exact wrap .Images [] [] _ (link hb.2) (not_text (by decide) (by decide))
    · exact (link hb.2).calm _ _ _ hr
  | thematic t => exact wrap .ThematicBreak [] [] [segValue [t]] (.value _) (not_text (by decide) (by decide))
  | heading m b =>
    unfold Block.segs
    rw [List.cons_append, List.append_assoc]
    refine ext_text (.inr rfl) (plain_flatMap b fun x hx => ?_) ?_ hr
    · have hx := hb.2.1 x hx
      cases x with
      | text ts => exact .value _
      | anchor l => exact plain_anchor hx
    · rw [show toksOf (b.flatMap HeadItem.segs) = b.flatMap HeadItem.toks from flatMap_toks _ HeadItem.toks_segs]
      exact exact_of (ends_doc hs) he
  | para l => exact ext_para hb (exact_of (ends_doc hs) he) hr

theorem ext_doc : ∀ {d : Doc} {o stops r rest}, d.Ok → StopsFor o stops → .ListItem ∉ o → d.Ext stops (toksOf r ++ rest) →
    SegsExt (.Document :: o) r rest → SegsExt (.Document :: o) (d.segs ++ r) rest
  | .nil, _, _, _, _, _, _, _, _, hr => hr
  | .term _ d, _, _, _, _, ho, hs, hli, he, hr => ⟨.value, ext_doc (d := d) ho.2 hs hli he hr⟩
  | .block b d, o, stops, r, rest, ho, hs, hli, he, hr => by
    unfold Doc.segs
    rw [List.append_assoc]
    refine ext_block ho.1 hs hli ?_ (ext_doc (d := d) ho.2 hs hli he.2 hr)
    have := he.1
    rw [toksOf_append, show toksOf d.segs = d.toks from Doc.toks_segs d, List.append_assoc]
    exact this
  | .coll p m i s c d, o, stops, r, rest, ⟨h1, h2, h3, _, h5, h6⟩, hs, hli, he, hr => by
    unfold Doc.segs
    simp only [List.cons_append, List.append_assoc]
    have ih := ext_doc (d := d) h6 hs hli he.2 hr
    refine ⟨.start (not_text (by decide) (by decide)), plain_mod.calm _ _ _
      ⟨.start (not_text (by decide) (by decide)), ?_⟩⟩
    refine ext_doc (d := i) (o := .Collapsible :: .Document :: o) (stops := .CollapsibleEnd :: stops) h3 ?_ ?_ ?_ ?_
    · refine ⟨fun s hx => ?_, by simp⟩
      rcases List.mem_cons.1 hx with rfl | hx
      · rfl
      · exact hs.1 s hx
    · simp [hli]
    · have := he.1
      simp only [toksOf, List.flatMap_cons, List.flatMap_append, Doc.toks_segs, segEnd, Seg.toks,
        List.nil_append, List.append_assoc] at this ⊢
      exact this
    · exact ⟨.close, fun n' hk => (by cases hk), ih⟩

theorem ext_top (ts : List Token) : SegsExt [] (topB ts).segs [] := by
  have key : ∀ ts, SegsExt [] (segStart .Document [] :: ((docB [] ts).1.segs ++ [segEnd .Document []])) [] := by
    intro ts
    have := docB_ext [] ts
    rw [docB_nil] at this
    refine ⟨.start (not_text (by decide) (by decide)), ?_⟩
    exact ext_doc (docB_ok _ _) ⟨fun s hs => (by cases hs), by simp⟩ (by simp) this ⟨.close, trivial⟩
  unfold topB
  split
  · rename_i d r h
    have h1 := (delimB_ok h).1
    exact (plain_delim (by rw [h1]; exact not_text (by decide) (by decide))).calm _ _ _ (key r)
  · exact key ts

theorem SegsExt.split : ∀ {l1 : List Seg} {o s l rest}, SegsExt o (l1 ++ s :: l) rest →
    TextSeg (openAfter o (l1.map Seg.kind)) s l rest
  | [], _, _, _, _, h => h.1
  | x :: l1, o, s, l, rest, h => by
    have := SegsExt.split (l1 := l1) h.2
    rw [List.map_cons]
    cases hk : x.kind <;> (rw [hk] at this; exact this)

theorem Flips.split_left : ∀ {a b : List Token}, Flips a b → ∀ {l1 t l2}, a = l1 ++ t :: l2 →
    ∃ m1 u m2, b = m1 ++ u :: m2 ∧ Flips (t :: l2) (u :: m2)
  | _, _, .nil, l1, _, _, e => by cases l1 <;> cases e
  | _, _, .cons h hr, [], _, _, e => by cases e; exact ⟨[], _, _, rfl, .cons h hr⟩
  | _, _, .cons h hr, x :: l1, t, l2, e => by
    obtain ⟨rfl, e'⟩ := List.cons.inj e
    obtain ⟨m1, u, m2, e2, h2⟩ := Flips.split_left hr e'
    exact ⟨_ :: m1, u, m2, by rw [e2]; rfl, h2⟩

theorem FlipRel.column {a b : Token} (h : FlipRel a b) : b.position = a.position := by
  rcases h with rfl | ⟨_, rfl⟩ <;> rfl

/-- The end of a text does not depend on unfinished collapsibles. -/
theorem textEnds_flips {o : List Node} {a b : List Token} (h : Flips a b) (he : TextEnds o a) : TextEnds o b := by
  have isA : ∀ {x y : Token} {k n}, FlipRel x y → k ≠ .CollapsibleStart → tokenIsA k n x → tokenIsA k n y := by
    intro x y k n h h1 h2
    rcases h with rfl | ⟨h, rfl⟩
    · exact h2
    · exact absurd (h2.1.symm.trans h) h1
  have kd : ∀ {x y : Token} {k}, FlipRel x y → k ≠ .CollapsibleStart → x.kind = k → y.kind = k := by
    intro x y k h h1 h2
    rcases h with rfl | ⟨h, rfl⟩
    · exact h2
    · exact absurd (h2.symm.trans h) h1
  have co : ∀ {x y : Token}, FlipRel x y → atColumn0 x → atColumn0 y := by
    intro x y h h1; unfold atColumn0 at *; rw [h.column]; exact h1
  have bu : ∀ {x y : Token} {l}, FlipRel x y → bulletOf l x → bulletOf l y := by
    intro x y l h h1
    exact h1.imp (fun h1 => ⟨h1.1, isA h (by decide) h1.2⟩) (fun h1 => ⟨h1.1, isA h (by decide) h1.2⟩)
  have cl : ∀ {a b : List Token}, Flips a b → closerLine a → closerLine b := by
    rintro a b h ⟨c, r, rfl, h1, h2⟩
    cases h with
    | cons h hr => exact ⟨_, _, rfl, kd h (by decide) h1, co h h2⟩
  rcases he with rfl | ⟨t, r, rfl, h1⟩ | ⟨h0, h1 | ⟨t, r, rfl, h1, h2⟩⟩ | ⟨h0, t, r, rfl, h1, h2⟩ | ⟨list, outer, e, n, other, h1, h2, h3⟩
  · cases h; exact .inl rfl
  · cases h with
    | cons h hr => exact .inr (.inl ⟨_, _, rfl, kd h (by decide) h1⟩)
  · exact .inr (.inr (.inl ⟨h0, .inl (cl h h1)⟩))
  · cases h with
    | cons h hr => exact .inr (.inr (.inl ⟨h0, .inr ⟨_, _, rfl, kd h (by decide) h1, cl hr h2⟩⟩))
  · cases h with
    | cons h hr => exact .inr (.inr (.inr (.inl ⟨h0, _, _, rfl, co h h1, isA h (by decide) h2⟩)))
  · refine .inr (.inr (.inr (.inr ⟨list, outer, e, n, other, h1, h2, ?_⟩)))
    rcases h3 with ⟨h0, b', s, r, rfl, h4, h5, h6⟩ | ⟨h0, i, b', s, r, rfl, h4, h5, h6, h7⟩
    · cases h with
      | cons f1 h =>
        cases h with
        | cons f2 h => exact .inl ⟨h0, _, _, _, rfl, co f1 h4, bu f1 h5, isA f2 (by decide) h6⟩
    · cases h with
      | cons f1 h =>
        cases h with
        | cons f2 h =>
          cases h with
          | cons f3 h => exact .inr ⟨h0, _, _, _, _, rfl, co f1 h4, isA f1 (by decide) h5, bu f2 h6, isA f3 (by decide) h7⟩

theorem textEnds_unflips {o : List Node} {a b : List Token} (h : Flips a b) (he : TextEnds o b) : TextEnds o a := by
  have kd : ∀ {x y : Token} {k}, FlipRel x y → k ≠ .Literal → y.kind = k → x = y := by
    intro x y k h h1 h2; exact h.back (by rw [h2]; exact h1)
  have isA : ∀ {x y : Token} {k n}, FlipRel x y → k ≠ .Literal → tokenIsA k n y → x = y := by
    intro x y k n h h1 h2; exact kd h h1 h2.1
  have bu : ∀ {x y : Token} {l}, FlipRel x y → bulletOf l y → x = y := by
    intro x y l h h1
    exact h1.elim (fun h1 => isA h (by decide) h1.2) (fun h1 => isA h (by decide) h1.2)
  have cl : ∀ {a b : List Token}, Flips a b → closerLine b → closerLine a := by
    rintro a b h ⟨c, r, rfl, h1, h2⟩
    cases h with
    | cons h hr => cases kd h (by decide) h1; exact ⟨_, _, rfl, h1, h2⟩
  rcases he with rfl | ⟨t, r, rfl, h1⟩ | ⟨h0, h1 | ⟨t, r, rfl, h1, h2⟩⟩ | ⟨h0, t, r, rfl, h1, h2⟩ | ⟨list, outer, e, n, other, h1, h2, h3⟩
  · cases h; exact .inl rfl
  · cases h with
    | cons h hr => cases kd h (by decide) h1; exact .inr (.inl ⟨_, _, rfl, h1⟩)
  · exact .inr (.inr (.inl ⟨h0, .inl (cl h h1)⟩))
  · cases h with
    | cons h hr => cases kd h (by decide) h1; exact .inr (.inr (.inl ⟨h0, .inr ⟨_, _, rfl, h1, cl hr h2⟩⟩))
  · cases h with
    | cons h hr => cases isA h (by decide) h2; exact .inr (.inr (.inr (.inl ⟨h0, _, _, rfl, h1, h2⟩)))
  · refine .inr (.inr (.inr (.inr ⟨list, outer, e, n, other, h1, h2, ?_⟩)))
    rcases h3 with ⟨h0, b', s, r, rfl, h4, h5, h6⟩ | ⟨h0, i, b', s, r, rfl, h4, h5, h6, h7⟩
    · cases h with
      | cons f1 h =>
        cases h with
        | cons f2 h =>
          cases bu f1 h5
          cases isA f2 (by decide) h6
          exact .inl ⟨h0, _, _, _, rfl, h4, h5, h6⟩
    · cases h with
      | cons f1 h =>
        cases h with
        | cons f2 h =>
          cases h with
          | cons f3 h =>
            cases isA f1 (by decide) h5
            cases bu f2 h6
            cases isA f3 (by decide) h7
            exact .inr ⟨h0, _, _, _, _, rfl, h4, h5, h6, h7⟩

theorem exactText_unflips {o : List Node} {own own' rest rest' : List Token} (h1 : Flips own own') (h2 : Flips rest rest')
    (he : ExactText o own' rest') : ExactText o own rest := by
  refine ⟨textEnds_unflips h2 he.1, ?_⟩
  intro l1 t l2 e hc
  obtain ⟨m1, u, m2, e2, h3⟩ := h1.split_left e
  exact he.2 m1 u m2 e2 (textEnds_flips (h3.append h2) hc)

theorem parse_extent (input : Str) : ∃ ops ss, parse input = .ok ops ∧ Segmentation input (tokens input) ops ss ∧
    ∀ z1 s zb e z2 n, ops.zip ss = z1 ++ s :: (zb ++ e :: z2) → IsText n → s.1.kind = .Start n → e.1.kind = .End n →
      (∀ x ∈ zb, x.1.kind ≠ .End n) →
      ExactText (openAfter [] (z1.map fun x => x.1.kind)) (entryToks zb) (entryToks (e :: z2)) := by
  have hp := parse_eq input
  rw [Top.ops_segs] at hp
  have hw := walk_top (tokens input)
  have hf := top_flips (tokens input)
  have hl := ext_top (tokens input)
  rw [← Top.toks_segs] at hf
  generalize (topB (tokens input)).segs = segs at hp hf hw hl
  obtain ⟨ss, hseg, -, -, hfl⟩ := segmentation_of hw hf
  refine ⟨_, ss, hp, hseg, ?_⟩
  intro z1 s zb e z2 n hz hn hs he hb
  have hlen : (segs.map (Seg.op input)).length = ss.length := hseg.length.symm
  obtain ⟨c1, c2⟩ := zip_cut hlen hz
  simp only [List.map_cons, List.map_append] at c1 c2
  obtain ⟨m1, m2, rfl, e1, e2⟩ := List.map_eq_append_iff.1 c1
  obtain ⟨g, m3, rfl, eg, e3⟩ := List.map_eq_cons_iff.1 e2
  obtain ⟨mb, m4, rfl, eb, e4⟩ := List.map_eq_append_iff.1 e3
  obtain ⟨w, m5, rfl, ew, e5⟩ := List.map_eq_cons_iff.1 e4
  have hsl := hl.split
  have kof : ∀ {l : List Seg} {z : List (Op × List Token × List Token)}, l.map (Seg.op input) = z.map Prod.fst →
      l.map Seg.kind = z.map fun x => x.1.kind := by
    intro l z h
    have := congrArg (List.map Op.kind) h
    rw [List.map_map, List.map_map] at this
    exact this
  have hx := hsl n (by rw [← hs, ← eg]; rfl) hn mb w m5 rfl (by rw [← he, ← ew]; rfl) (by
    intro x hx hk
    have : x.kind ∈ mb.map Seg.kind := List.mem_map.2 ⟨x, hx, rfl⟩
    rw [kof eb] at this
    obtain ⟨y, hy, hyk⟩ := List.mem_map.1 this
    exact hb y hy (hyk.trans hk))
  rw [kof e1, List.append_nil] at hx
  have l1 : m1.length = (z1.map Prod.snd).length := by have := congrArg List.length e1; simpa using this
  have lb : mb.length = (zb.map Prod.snd).length := by have := congrArg List.length eb; simpa using this
  have l5 : m5.length = (z2.map Prod.snd).length := by have := congrArg List.length e5; simpa using this
  have tk : ∀ z : List (Op × List Token × List Token), entryToks z = (z.map Prod.snd).flatMap fun s => s.1 ++ s.2 := by
    intro z; unfold entryToks; rw [List.flatMap_map]
  rw [c2] at hfl
  refine exactText_unflips ?_ ?_ hx
  · rw [tk]
    refine zip_flips lb fun z hz => hfl z ?_
    rw [List.zip_append l1, List.zip_cons_cons, List.zip_append lb]
    simp [hz]
  · rw [tk]
    refine zip_flips (segs := w :: m5) (by simpa using l5) fun z hz => hfl z ?_
    rw [List.zip_append l1, List.zip_cons_cons, List.zip_append lb]
    rw [List.map_cons] at hz
    simp only [List.mem_append, List.mem_cons]
    exact .inr (.inr (.inr hz))

end Yamd.Ref
