import Verif.Proofs.BlockLeftDoc

/-!
# No block mark is left at the start of a paragraph, along the ops
-/

namespace Yamd.Ref

open Yamd Yamd.Spec

/-- A paragraph directly in a document. -/
def ParaSeg (o : List Node) (s : Seg) (r : List Seg) : Prop :=
  s.kind = .Start .Paragraph → o.head? = some .Document → ∀ b e z, r = b ++ e :: z → e.kind = .End .Paragraph →
    (∀ x ∈ b, x.kind ≠ .End .Paragraph) → BlockLeft o (toksOf b) (toksOf (e :: z))

def SegsLeft : List Node → List Seg → Prop
  | _, [] => True
  | o, s :: r => ParaSeg o s r ∧ SegsLeft (openAfter o [s.kind]) r

theorem ParaSeg.start {o n a r} (h : n ≠ .Paragraph) : ParaSeg o (segStart n a) r := fun hk => absurd (by simpa [segStart] using hk) h
theorem ParaSeg.value {o a r} : ParaSeg o (segValue a) r := fun hk => by cases hk
theorem ParaSeg.close {o n a b r} : ParaSeg o ⟨.End n, a, b⟩ r := fun hk => by cases hk

/-- Segments without paragraphs. -/
def Bare (l : List Seg) : Prop := ∀ o r, SegsLeft o r → SegsLeft o (l ++ r)

theorem Bare.nil : Bare [] := fun _ _ h => h
theorem Bare.append {a b} (h1 : Bare a) (h2 : Bare b) : Bare (a ++ b) := fun o r h => by
  rw [List.append_assoc]; exact h1 _ _ (h2 _ _ h)
theorem Bare.value (ts : List Token) : Bare [segValue ts] := fun _ _ h => ⟨.value, h⟩
theorem Bare.node {n a b l} (hn : n ≠ .Paragraph) (hl : Bare l) : Bare (segStart n a :: (l ++ [segEnd n b])) := fun o r h => by
  rw [List.cons_append, List.append_assoc]
  exact ⟨.start hn, hl _ _ ⟨.close, h⟩⟩
theorem bare_flatMap {α : Type} {f : α → List Seg} (l : List α) (h : ∀ x ∈ l, Bare (f x)) : Bare (l.flatMap f) := by
  induction l with
  | nil => exact .nil
  | cons x l ih =>
    rw [List.flatMap_cons]
    exact (h x (by simp)).append (ih fun y hy => h y (by simp [hy]))

theorem bare_delim {d : Delim} (h : d.node ≠ .Paragraph) : Bare d.segs := Bare.node (l := [segValue d.body]) h (.value _)
theorem bare_link {l : Link} (hl : l.Ok) : Bare l.segs :=
  (bare_delim (by rw [hl.1]; decide)).append (bare_delim (by rw [hl.2.2.2.1]; decide))
theorem bare_anchor {l : Link} (hl : l.Ok) : Bare (anchorSegs l) := Bare.node (by decide) (bare_link hl)

theorem bare_inl {x : Inl} (hx : x.Ok) : Bare x.segs := by
  cases x with
  | text ts => exact .value _
  | delim d => exact bare_delim (style_silent hx).1.1
  | bold o items c =>
    refine Bare.node (by decide) (bare_flatMap items fun y hy => ?_)
    have hy := hx.2.2.1 y hy
    cases y with
    | text ts => exact .value _
    | delim d => exact bare_delim (style_silent (boldStyle_style hy)).1.1
  | anchor l => exact bare_anchor hx

theorem bare_mod {m : Option Mod} : Bare (modSegs m) := by
  cases m with
  | none => exact .nil
  | some m => exact Bare.node (l := [segValue m.body]) (by decide) (.value _)

theorem bare_icon {m : Option IconLine} : Bare (iconSegs m) := by
  cases m with
  | none => exact .nil
  | some m => exact Bare.node (l := [segValue m.body]) (by decide) (.value _)

theorem left_para {o l r} (hl : ParaOk l) (h : o.head? = some .Document → BlockLeft o (paraToks l) (toksOf r))
    (hr : SegsLeft o r) : SegsLeft o (paraSegs l ++ r) := by
  unfold paraSegs
  rw [List.cons_append, List.append_assoc]
  refine ⟨?_, bare_flatMap l (fun x hx => bare_inl (hl.1 x hx)) _ _ ⟨.close, hr⟩⟩
  intro _ ho b e z h1 h2 h3
  have hp : Plain (l.flatMap Inl.segs) := plain_flatMap l fun x hx => plain_inl (hl.1 x hx)
  obtain ⟨rfl, rfl, rfl⟩ := first_split (p := fun x => x.kind = .End .Paragraph) h1
    (fun x hx => hp.free x hx .Paragraph (.inl rfl)) rfl h3 h2
  rw [show toksOf (l.flatMap Inl.segs) = paraToks l from flatMap_toks _ Inl.toks_segs]
  exact h ho

theorem left_items : ∀ {i : Items} {level want o r}, i.Ok level want → SegsLeft o r → SegsLeft o (i.segs ++ r)
  | .nil, _, _, _, _, _, hr => hr
  | .cons k m p n q, level, want, o, r, ⟨_, _, a3, a4, a5⟩, hr => by
    unfold Items.segs
    simp only [List.cons_append, List.append_assoc]
    refine ⟨.start (by decide), left_para a3 (fun h => by cases h) ?_⟩
    have hend : SegsLeft (.ListItem :: o) (segEnd .ListItem [] :: (q.segs ++ r)) :=
      ⟨.close, left_items (i := q) a5 hr⟩
    cases hn : n with
    | nil => exact hend
    | cons k' m' p' n' q' =>
      rw [hn] at a4
      show SegsLeft _ (segStart k'.node [] :: ((Items.cons k' m' p' n' q').segs ++ [segEnd k'.node []] ++ _))
      rw [List.append_assoc]
      exact ⟨.start (by cases k' <;> decide), left_items (i := .cons k' m' p' n' q') a4 ⟨.close, hend⟩⟩

theorem left_block {b : Block} {o r} (hb : b.Ok) (he : b.Left o (toksOf r)) (hr : SegsLeft (.Document :: o) r) :
    SegsLeft (.Document :: o) (b.segs ++ r) := by
  have link : ∀ {l : List Img}, (∀ x ∈ l, x.Ok) → Bare (l.flatMap Img.segs) := fun h =>
    bare_flatMap _ fun x hx => Bare.node (by decide) (bare_link (h x hx).2.1)
  cases b with
  | code p m b c =>
    have := (Bare.node (n := .Code) (a := p) (b := c) (l := modSegs m ++ [segValue b]) (by decide) (bare_mod.append (.value _))) _ _ hr
    simpa [Block.segs] using this
  | embed p l q r' c =>
    exact Bare.node (n := .Embed) (a := [p]) (b := c) (l := [segValue l, segValue [q], segValue r']) (by decide)
      ((Bare.value _).append ((Bare.value _).append (.value _))) _ _ hr
  | highlight p m i b c =>
    obtain ⟨-, -, -, h4, -⟩ := hb
    unfold Block.segs
    simp only [List.cons_append, List.append_assoc, List.nil_append]
    refine ⟨.start (by decide), bare_mod _ _ (bare_icon _ _ ?_)⟩
    show SegsLeft (.Highlight :: .Document :: o) _
    clear he
    induction b with
    | nil => exact ⟨.close, hr⟩
    | cons x b ih =>
      rw [List.flatMap_cons, List.append_assoc]
      have ih := ih (fun y hy => h4 y (by simp [hy]))
      have hp := left_para (h4 x (by simp)).2 (fun h => by cases h) ih
      unfold HPara.segs
      rw [List.append_assoc]
      cases x.term with
      | nil => exact hp
      | cons t q => exact ⟨.value, hp⟩
  | list i =>
    cases i with
    | nil => exact absurd rfl hb.2
    | cons k m p n q =>
      show SegsLeft _ (segStart k.node [] :: ((Items.cons k m p n q).segs ++ [segEnd k.node []] ++ r))
      rw [List.append_assoc]
      exact ⟨.start (by cases k <;> decide), left_items (i := .cons k m p n q) hb.1 ⟨.close, hr⟩⟩
  | images l =>
    unfold Block.segs
    simp only
    split
    · exact Bare.node (by decide) (link hb.2) _ _ hr
    · exact link hb.2 _ _ hr
  | thematic t => exact Bare.node (n := .ThematicBreak) (a := []) (b := []) (l := [segValue [t]]) (by decide) (.value _) _ _ hr
  | heading m b =>
    refine Bare.node (by decide) (bare_flatMap b fun x hx => ?_) _ _ hr
    have hx := hb.2.1 x hx
    cases x with
    | text ts => exact .value _
    | anchor l => exact bare_anchor hx
  | para l => exact left_para hb (fun _ => he) hr

theorem left_doc : ∀ {d : Doc} {o r}, d.Ok → d.Left o (toksOf r) → SegsLeft (.Document :: o) r →
    SegsLeft (.Document :: o) (d.segs ++ r)
  | .nil, _, _, _, _, hr => hr
  | .term _ d, _, _, ho, he, hr => ⟨.value, left_doc (d := d) ho.2 he hr⟩
  | .block b d, o, r, ho, he, hr => by
    unfold Doc.segs
    rw [List.append_assoc]
    refine left_block ho.1 ?_ (left_doc (d := d) ho.2 he.2 hr)
    rw [toksOf_append, show toksOf d.segs = d.toks from Doc.toks_segs d]
    exact he.1
  | .coll p m i s c d, o, r, ⟨h1, h2, h3, _, h5, h6⟩, he, hr => by
    unfold Doc.segs
    simp only [List.cons_append, List.append_assoc]
    refine ⟨.start (by decide), bare_mod _ _ ⟨.start (by decide), left_doc (d := i) (o := .Collapsible :: .Document :: o) h3 ?_
      ⟨.close, .close, left_doc (d := d) h6 he.2 hr⟩⟩⟩
    have := he.1
    simp only [toksOf, List.flatMap_cons, List.flatMap_append, Doc.toks_segs, segEnd, Seg.toks,
      List.nil_append, List.append_assoc] at this ⊢
    exact this

theorem left_top (ts : List Token) (hc : Cols ts) : SegsLeft [] (topB ts).segs := by
  have key : ∀ ts, Cols ts → SegsLeft [] (segStart .Document [] :: ((docB [] ts).1.segs ++ [segEnd .Document []])) := by
    intro ts hc
    have := docB_left [] ts [] ⟨fun s hs => (by cases hs), by simp⟩ hc
    rw [docB_nil] at this
    exact ⟨.start (by decide), left_doc (docB_ok _ _) this ⟨.close, trivial⟩⟩
  unfold topB
  split
  · rename_i d r h
    have h1 := (delimB_ok h).1
    have hcr : Cols r := by rw [delimB_toks h] at hc; exact hc.right
    exact bare_delim (by rw [h1]; decide) _ _ (key r hcr)
  · exact key ts hc

theorem SegsLeft.split : ∀ {l1 : List Seg} {o s l}, SegsLeft o (l1 ++ s :: l) → ParaSeg (openAfter o (l1.map Seg.kind)) s l
  | [], _, _, _, h => h.1
  | x :: l1, o, s, l, h => by
    have := SegsLeft.split (l1 := l1) h.2
    rw [List.map_cons]
    cases hk : x.kind <;> (rw [hk] at this; exact this)

theorem parse_blockLeft (input : Str) : ∃ ops ss, parse input = .ok ops ∧ Segmentation input (tokens input) ops ss ∧
    ∀ z1 s zb e z2, ops.zip ss = z1 ++ s :: (zb ++ e :: z2) → s.1.kind = .Start .Paragraph → e.1.kind = .End .Paragraph →
      (∀ x ∈ zb, x.1.kind ≠ .End .Paragraph) → (openAfter [] (z1.map fun x => x.1.kind)).head? = some .Document →
      BlockLeft (openAfter [] (z1.map fun x => x.1.kind)) (entryToks zb) (entryToks (e :: z2)) := by
  have hp := parse_eq input
  rw [Top.ops_segs] at hp
  have hw := walk_top (tokens input)
  have hf := top_flips (tokens input)
  have hl := left_top (tokens input) (cols_tokens input)
  rw [← Top.toks_segs] at hf
  generalize (topB (tokens input)).segs = segs at hp hf hw hl
  obtain ⟨ss, hseg, -, -, hfl⟩ := segmentation_of hw hf
  refine ⟨_, ss, hp, hseg, ?_⟩
  intro z1 s zb e z2 hz hs he hb hd
  have hlen : (segs.map (Seg.op input)).length = ss.length := hseg.length.symm
  obtain ⟨c1, c2⟩ := zip_cut hlen hz
  simp only [List.map_cons, List.map_append] at c1 c2
  obtain ⟨m1, m2, rfl, e1, e2⟩ := List.map_eq_append_iff.1 c1
  obtain ⟨g, m3, rfl, eg, e3⟩ := List.map_eq_cons_iff.1 e2
  obtain ⟨mb, m4, rfl, eb, e4⟩ := List.map_eq_append_iff.1 e3
  obtain ⟨w, m5, rfl, ew, e5⟩ := List.map_eq_cons_iff.1 e4
  have hsl := hl.split
  have kof : ∀ {l : List Seg} {z : List (Op × List Token × List Token)}, l.map (Seg.op input) = z.map Prod.fst →
      l.map Seg.kind = z.map fun x => x.1.kind := by
    intro l z h
    have := congrArg (List.map Op.kind) h
    rw [List.map_map, List.map_map] at this
    exact this
  rw [kof e1] at hsl
  have hx := hsl (by rw [← hs, ← eg]; rfl) hd mb w m5 rfl (by rw [← he, ← ew]; rfl) (by
    intro x hx hk
    have : x.kind ∈ mb.map Seg.kind := List.mem_map.2 ⟨x, hx, rfl⟩
    rw [kof eb] at this
    obtain ⟨y, hy, hyk⟩ := List.mem_map.1 this
    exact hb y hy (hyk.trans hk))
  have l1 : m1.length = (z1.map Prod.snd).length := by have := congrArg List.length e1; simpa using this
  have lb : mb.length = (zb.map Prod.snd).length := by have := congrArg List.length eb; simpa using this
  have l5 : m5.length = (z2.map Prod.snd).length := by have := congrArg List.length e5; simpa using this
  have tk : ∀ z : List (Op × List Token × List Token), entryToks z = (z.map Prod.snd).flatMap fun s => s.1 ++ s.2 := by
    intro z; unfold entryToks; rw [List.flatMap_map]
  rw [c2] at hfl
  refine BlockLeft.alike hx (Flips.alike ?_).symm (Flips.alike ?_).symm
  · rw [tk]
    refine zip_flips lb fun z hz => hfl z ?_
    rw [List.zip_append l1, List.zip_cons_cons, List.zip_append lb]
    simp [hz]
  · rw [tk]
    refine zip_flips (segs := w :: m5) (by simpa using l5) fun z hz => hfl z ?_
    rw [List.zip_append l1, List.zip_cons_cons, List.zip_append lb]
    rw [List.map_cons] at hz
    simp only [List.mem_append, List.mem_cons]
    exact .inr (.inr (.inr hz))

end Yamd.Ref
