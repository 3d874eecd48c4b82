import Verif.Proofs.LayoutDoc

/-!
# The layout of documents, along the ops
-/

namespace Yamd.Ref

open Yamd Yamd.Spec

/-- The next segment opens a title. -/
def hasMod : List Seg → Bool
  | s :: _ => s.kind = .Start .Modifier
  | [] => false

/-- The next segment is a text of one line. -/
def OneLineNext : List Seg → Prop
  | v :: _ => v.kind = .Value ∧ ∀ t ∈ v.own, isEolOrTerminator t = false
  | [] => False

/-- The next segment is a thematic break. -/
def BreakNext : List Seg → Prop
  | v :: _ => v.kind = .Value ∧ ∃ t, v.own = [t] ∧ isDash5 t = true
  | [] => False

/-- The next segment ends an image. -/
def endsImage : List Seg → Bool
  | s :: _ => s.kind = .End .Image
  | [] => false

/-- A segment in front of the segments `r` and the tokens `rest`. -/
def SegLay (s : Seg) (r : List Seg) (rest : List Token) : Prop :=
  match s.kind with
  | .End .Code | .End .Embed => s.own.any isEol = true ∨ Front (toksOf r ++ rest)
  | .End .Destination => endsImage r = true → Front (toksOf r ++ rest)
  | .Start .Code | .Start .Highlight | .Start .Collapsible => (hasMod r = true ↔ s.own.any isEol = false)
  | .Start .Modifier | .Start .Icon => OneLineNext r
  | .Start .ThematicBreak => BreakNext r
  | _ => True

def SegsLay : List Seg → List Token → Prop
  | [], _ => True
  | s :: r, rest => SegLay s r rest ∧ SegsLay r rest

/-- Segments about which nothing is claimed. -/
def Quiet : OpKind → Bool
  | .End n => !([.Code, .Embed, .Destination].contains n)
  | .Start n => !([.Code, .Highlight, .Collapsible, .Modifier, .Icon, .ThematicBreak].contains n)
  | .Value => true

theorem SegsLay.quiet {s r rest} (h : Quiet s.kind = true) (hr : SegsLay r rest) : SegsLay (s :: r) rest := by
  refine ⟨?_, hr⟩
  unfold SegLay
  cases hk : s.kind with
  | Start n => rw [hk] at h; cases n <;> first | trivial | cases h
  | End n => rw [hk] at h; cases n <;> first | trivial | cases h
  | Value => trivial

theorem SegsLay.value {ts r rest} (hr : SegsLay r rest) : SegsLay (segValue ts :: r) rest := .quiet rfl hr

theorem lay_flatMap {α : Type} {f : α → List Seg} {r rest} (l : List α)
    (h : ∀ x ∈ l, ∀ r, SegsLay r rest → SegsLay (f x ++ r) rest) (hr : SegsLay r rest) :
    SegsLay (l.flatMap f ++ r) rest := by
  induction l with
  | nil => exact hr
  | cons x l ih =>
    rw [List.flatMap_cons, List.append_assoc]
    exact h x (by simp) _ (ih (fun y hy => h y (by simp [hy])))

theorem lay_delim {d : Delim} {r rest} (h1 : Quiet (.Start d.node) = true) (h2 : Quiet (.End d.node) = true)
    (hr : SegsLay r rest) : SegsLay (d.segs ++ r) rest :=
  .quiet h1 (.value (.quiet h2 hr))

theorem lay_link {l : Link} {r rest} (hl : l.Ok) (he : endsImage r = true → Front (toksOf r ++ rest))
    (hr : SegsLay r rest) : SegsLay (l.segs ++ r) rest := by
  obtain ⟨a1, -, -, b1, -, -⟩ := hl
  unfold Link.segs
  rw [List.append_assoc]
  refine lay_delim (by rw [a1]; rfl) (by rw [a1]; rfl) ?_
  refine .quiet (by simp only [segStart, b1]; rfl) (.value ⟨?_, hr⟩)
  unfold SegLay
  simp only [segEnd, b1]
  exact he

theorem lay_anchor {l : Link} {r rest} (hl : l.Ok) (hr : SegsLay r rest) : SegsLay (anchorSegs l ++ r) rest := by
  unfold anchorSegs
  simp only [List.cons_append, List.append_assoc, List.nil_append]
  exact .quiet rfl (lay_link hl (fun h => by simp [endsImage, segEnd] at h) (.quiet rfl hr))

theorem lay_inl {x : Inl} {r rest} (hx : x.Ok) (hr : SegsLay r rest) : SegsLay (x.segs ++ r) rest := by
  cases x with
  | text ts => exact .value hr
  | delim d =>
    rcases hx with ⟨hn, -⟩ | ⟨hn, -⟩ | ⟨hn, -⟩ | ⟨hn, -⟩
    all_goals exact lay_delim (by rw [hn]; rfl) (by rw [hn]; rfl) hr
  | bold o items c =>
    obtain ⟨-, -, hi, -⟩ := hx
    unfold Inl.segs
    simp only [List.cons_append, List.append_assoc, List.nil_append]
    refine .quiet rfl (lay_flatMap items ?_ (.quiet rfl hr))
    intro y hy r hr
    have hy := hi y hy
    cases y with
    | text ts => exact .value hr
    | delim d =>
      rcases hy with ⟨hn, -⟩ | ⟨hn, -⟩
      all_goals exact lay_delim (by rw [hn]; rfl) (by rw [hn]; rfl) hr
  | anchor l => exact lay_anchor hx hr

theorem lay_para {l : List Inl} {r rest} (hl : ParaOk l) (hr : SegsLay r rest) : SegsLay (paraSegs l ++ r) rest := by
  unfold paraSegs
  simp only [List.cons_append, List.append_assoc, List.nil_append]
  exact .quiet rfl (lay_flatMap l (fun x hx r hr => lay_inl (hl.1 x hx) hr) (.quiet rfl hr))

theorem lay_wrap {k s r rest} (h : ∀ r, SegsLay r rest → SegsLay (s ++ r) rest) (hr : SegsLay r rest) :
    SegsLay (wrapSegs k s ++ r) rest := by
  cases k with
  | none => exact hr
  | some k =>
    unfold wrapSegs
    simp only [List.cons_append, List.append_assoc, List.nil_append]
    refine .quiet (by cases k <;> rfl) (h _ (.quiet (by cases k <;> rfl) hr))

theorem lay_items : ∀ {i : Items} {level want r rest}, i.Ok level want → SegsLay r rest → SegsLay (i.segs ++ r) rest
  | .nil, _, _, _, _, _, hr => hr
  | .cons _ _ _ n q, _, _, _, _, ⟨_, _, a3, a4, a5⟩, hr => by
    unfold Items.segs
    simp only [List.cons_append, List.append_assoc]
    exact .quiet rfl (lay_para a3 (lay_wrap (fun r hr => lay_items a4 hr) (.quiet rfl (lay_items a5 hr))))

theorem lay_imgs : ∀ {l : List Img} {r rest}, (∀ x ∈ l, x.Ok) → ImgsLay l (toksOf r ++ rest) → SegsLay r rest →
    SegsLay (l.flatMap Img.segs ++ r) rest
  | [], _, _, _, _, hr => hr
  | i :: l, r, rest, ho, hl, hr => by
    have ih := lay_imgs (l := l) (fun x hx => ho x (by simp [hx])) hl.2 hr
    have hS : (l.flatMap Img.segs).flatMap Seg.toks = l.flatMap Img.toks := flatMap_toks _ Img.toks_segs
    rw [List.flatMap_cons, List.append_assoc]
    generalize l.flatMap Img.segs = S at ih hS
    unfold Img.segs
    simp only [List.cons_append, List.append_assoc, List.nil_append]
    refine .quiet rfl (lay_link (ho i (by simp)).2.1 (fun _ => ?_) (.quiet rfl ih))
    have := hl.1
    simp only [toksOf, List.flatMap_cons, List.flatMap_append, hS, segEnd, Seg.toks,
      List.nil_append, List.append_assoc] at this ⊢
    exact this

theorem lay_mod {m r rest} (hm : ModOk m) (hr : SegsLay r rest) : SegsLay (modSegs m ++ r) rest := by
  cases m with
  | none => exact hr
  | some m =>
    refine ⟨?_, .value (.quiet rfl hr)⟩
    exact ⟨rfl, hm.2⟩

theorem lay_icon {i : Option IconLine} {r rest} (hi : ∀ x, i = some x → x.OneLine) (hr : SegsLay r rest) :
    SegsLay (iconSegs i ++ r) rest := by
  cases i with
  | none => exact hr
  | some i =>
    refine ⟨?_, .value (.quiet rfl hr)⟩
    exact ⟨rfl, hi i rfl⟩

/-- A title mayFollow exactly when there is one. -/
theorem hasMod_mod {m r} (hr : hasMod r = false) : hasMod (modSegs m ++ r) = m.isSome := by
  cases m with
  | none => exact hr
  | some m => rfl

theorem hasMod_rest {i : Option IconLine} {b : List HPara} {c : List Token} {r} :
    hasMod (iconSegs i ++ (b.flatMap HPara.segs ++ (segEnd .Highlight c :: r))) = false := by
  cases i with
  | some i => rfl
  | none =>
    cases b with
    | nil => rfl
    | cons x b =>
      obtain ⟨t, p⟩ := x
      cases t <;> rfl

theorem lay_block {b : Block} {r rest} (hb : b.Ok) (hl : b.Lay (toksOf r ++ rest)) (hr : SegsLay r rest) :
    SegsLay (b.segs ++ r) rest := by
  cases b with
  | code o m b c =>
    unfold Block.segs
    simp only [List.cons_append, List.append_assoc, List.nil_append]
    refine ⟨?_, lay_mod hb.2.1 (.value ⟨hl.2, hr⟩)⟩
    show hasMod _ = true ↔ _
    rw [hasMod_mod rfl]; exact hl.1
  | embed o l p r' c =>
    exact .quiet rfl (.value (.value (.value ⟨hl, hr⟩)))
  | highlight o m i b c =>
    obtain ⟨h1, h2, h3, h4, h5⟩ := hb
    unfold Block.segs
    simp only [List.cons_append, List.append_assoc, List.nil_append]
    refine ⟨?_, lay_mod h2 (lay_icon hl.2 (lay_flatMap b ?_ (.quiet rfl hr)))⟩
    · show hasMod _ = true ↔ _
      rw [hasMod_mod hasMod_rest]; exact hl.1
    · intro x hx r hr
      unfold HPara.segs
      rw [List.append_assoc]
      have := lay_para (h4 x hx).2 hr
      cases x.term with
      | nil => exact this
      | cons t q => exact .value this
  | list i => exact lay_wrap (fun r hr => lay_items hb.1 hr) hr
  | images l =>
    unfold Block.segs
    simp only
    split
    · simp only [List.cons_append, List.append_assoc, List.nil_append]
      refine .quiet rfl (lay_imgs hb.2 ?_ (.quiet rfl hr))
      exact hl
    · exact lay_imgs hb.2 hl hr
  | thematic t =>
    exact ⟨⟨rfl, t, rfl, hb⟩, .value (.quiet rfl hr)⟩
  | heading m b =>
    unfold Block.segs
    simp only [List.cons_append, List.append_assoc, List.nil_append]
    refine .quiet rfl (lay_flatMap b (fun x hx r hr => ?_) (.quiet rfl hr))
    have hx := hb.2.1 x hx
    cases x with
    | text ts => exact .value hr
    | anchor l => exact lay_anchor hx hr
  | para l => exact lay_para hb hr

theorem lay_doc : ∀ {d : Doc} {r rest}, d.Ok → d.Lay (toksOf r ++ rest) → SegsLay r rest → SegsLay (d.segs ++ r) rest
  | .nil, _, _, _, _, hr => hr
  | .term _ d, _, _, ho, hl, hr => .value (lay_doc (d := d) ho.2 hl hr)
  | .block b d, r, rest, ho, hl, hr => by
    unfold Doc.segs
    rw [List.append_assoc]
    refine lay_block ho.1 ?_ (lay_doc (d := d) ho.2 hl.2.2 hr)
    have := hl.1
    rw [toksOf, List.flatMap_append, Doc.toks_segs, List.append_assoc]
    exact this
  | .coll o m i s c d, r, rest, ⟨h1, h2, h3, _, h5, h6⟩, hl, hr => by
    unfold Doc.segs
    simp only [List.cons_append, List.append_assoc]
    have ih := lay_doc (d := d) h6 hl.2.2 hr
    refine ⟨?_, lay_mod h2 (.quiet rfl (lay_doc (d := i) h3 ?_ (.quiet rfl (.quiet rfl ih))))⟩
    · show hasMod _ = true ↔ _
      rw [hasMod_mod rfl]; exact hl.1
    · have := hl.2.1
      simp only [toksOf, List.flatMap_cons, List.flatMap_append, Doc.toks_segs, segEnd, Seg.toks,
        List.nil_append, List.append_assoc] at this ⊢
      exact this

theorem lay_top (ts : List Token) (hc : Cols ts) : SegsLay (topB ts).segs [] := by
  have key : ∀ ts, Cols ts → SegsLay (segStart .Document [] :: ((docB [] ts).1.segs ++ [segEnd .Document []])) [] := by
    intro ts hc
    have := docB_lay [] ts hc
    rw [docB_nil] at this
    exact .quiet rfl (lay_doc (docB_ok _ _) this (.quiet rfl trivial))
  unfold topB
  split
  · rename_i d r h
    have h1 := (delimB_ok h).1
    refine lay_delim (by rw [h1]; rfl) (by rw [h1]; rfl) (key r ?_)
    rw [delimB_toks h] at hc; exact hc.right
  · exact key ts hc

theorem SegsLay.split : ∀ {l1 : List Seg} {s l rest}, SegsLay (l1 ++ s :: l) rest → SegLay s l rest
  | [], _, _, _, h => h.1
  | _ :: l1, _, _, _, h => SegsLay.split (l1 := l1) h.2

/-! ### Neighbouring blocks -/

/-- Along the kinds of a stream, with the open nodes and the node that ended last (if it ended directly
before): blocks of a document follow each other only as `mayFollow` says. -/
def sepd : List Node → Option Node → List OpKind → Prop
  | _, _, [] => True
  | o, prev, .Start b :: r =>
    (o.head? = some .Document → ∀ a, prev = some a → mayFollow a b = true) ∧ sepd (b :: o) none r
  | o, _, .Value :: r => sepd o none r
  | o, _, .End a :: r => sepd o.tail (some a) r

/-- Text inside another node than a document. -/
def Inner (l : List OpKind) : Prop :=
  ∀ p o prev k, p ≠ .Document → (∀ prev, sepd (p :: o) prev k) → sepd (p :: o) prev (l ++ k)

theorem Inner.nil : Inner [] := fun _ _ prev _ _ h => h prev
theorem Inner.append {a b} (h1 : Inner a) (h2 : Inner b) : Inner (a ++ b) := by
  intro p o prev k hp hk
  rw [List.append_assoc]
  exact h1 p o prev _ hp fun prev => h2 p o prev k hp hk
theorem Inner.value : Inner [.Value] := fun _ _ _ _ _ hk => hk none
theorem Inner.node {n l} (hn : n ≠ .Document) (hl : Inner l) : Inner (.Start n :: (l ++ [.End n])) := by
  intro p o prev k hp hk
  rw [List.cons_append, List.append_assoc]
  refine ⟨fun h => absurd (by simpa using h) hp, hl n (p :: o) none _ hn fun prev => ?_⟩
  exact hk (some n)

def kindsOf (l : List Seg) : List OpKind := l.map Seg.kind

theorem kindsOf_append (a b : List Seg) : kindsOf (a ++ b) = kindsOf a ++ kindsOf b := List.map_append

theorem inner_flatMap {α : Type} {f : α → List Seg} (l : List α) (h : ∀ x ∈ l, Inner (kindsOf (f x))) :
    Inner (kindsOf (l.flatMap f)) := by
  induction l with
  | nil => exact .nil
  | cons x l ih =>
    rw [List.flatMap_cons, kindsOf_append]
    exact (h x (by simp)).append (ih fun y hy => h y (by simp [hy]))

theorem inner_wrap {s : List Seg} {n : Node} {a b} (hn : n ≠ .Document) (h : Inner (kindsOf s)) :
    Inner (kindsOf (segStart n a :: (s ++ [segEnd n b]))) := by
  have := Inner.node hn h
  simpa [kindsOf, segStart, segEnd] using this

theorem inner_delim {d : Delim} (h : d.node ≠ .Document) : Inner (kindsOf d.segs) :=
  inner_wrap (s := [segValue d.body]) h .value

theorem inner_link {l : Link} (hl : l.Ok) : Inner (kindsOf l.segs) := by
  obtain ⟨a1, -, -, b1, -, -⟩ := hl
  unfold Link.segs
  rw [kindsOf_append]
  exact (inner_delim (by rw [a1]; decide)).append (inner_delim (by rw [b1]; decide))

theorem inner_anchor {l : Link} (hl : l.Ok) : Inner (kindsOf (anchorSegs l)) := inner_wrap (by decide) (inner_link hl)

theorem inner_inl {x : Inl} (hx : x.Ok) : Inner (kindsOf x.segs) := by
  cases x with
  | text ts => exact .value
  | delim d =>
    rcases hx with ⟨hn, -⟩ | ⟨hn, -⟩ | ⟨hn, -⟩ | ⟨hn, -⟩
    all_goals exact inner_delim (by rw [hn]; decide)
  | bold o items c =>
    obtain ⟨-, -, hi, -⟩ := hx
    refine inner_wrap (by decide) (inner_flatMap items fun y hy => ?_)
    have hy := hi y hy
    cases y with
    | text ts => exact .value
    | delim d =>
      rcases hy with ⟨hn, -⟩ | ⟨hn, -⟩
      all_goals exact inner_delim (by rw [hn]; decide)
  | anchor l => exact inner_anchor hx

theorem inner_inls {l : List Inl} (h : ParaOk l) : Inner (kindsOf (l.flatMap Inl.segs)) :=
  inner_flatMap l fun x hx => inner_inl (h.1 x hx)

theorem inner_para {l : List Inl} (h : ParaOk l) : Inner (kindsOf (paraSegs l)) :=
  inner_wrap (by decide) (inner_inls h)

theorem inner_wrapList {k s} (h : Inner (kindsOf s)) : Inner (kindsOf (wrapSegs k s)) := by
  cases k with
  | none => exact .nil
  | some k => exact inner_wrap (by cases k <;> decide) h

theorem inner_items : ∀ {i : Items} {level want}, i.Ok level want → Inner (kindsOf i.segs)
  | .nil, _, _, _ => .nil
  | .cons k m p n q, _, _, ⟨_, _, a3, a4, a5⟩ => by
    have h1 := (inner_para a3).append (inner_wrapList (k := n.kind) (inner_items a4))
    rw [← kindsOf_append] at h1
    have h2 := (inner_wrap (n := .ListItem) (a := m) (b := []) (by decide) h1).append (inner_items a5)
    rw [← kindsOf_append] at h2
    have e : (Items.cons k m p n q).segs = (segStart .ListItem m :: (paraSegs p ++ wrapSegs n.kind n.segs ++ [segEnd .ListItem []]))
      ++ q.segs := by simp [Items.segs]
    rw [e]; exact h2

theorem inner_img {i : Img} (h : i.Ok) : Inner (kindsOf i.segs) := inner_wrap (by decide) (inner_link h.2.1)

theorem inner_mod {m : Option Mod} : Inner (kindsOf (modSegs m)) := by
  cases m with
  | none => exact .nil
  | some m => exact inner_wrap (s := [segValue m.body]) (by decide) .value

theorem inner_icon {m : Option IconLine} : Inner (kindsOf (iconSegs m)) := by
  cases m with
  | none => exact .nil
  | some m => exact inner_wrap (s := [segValue m.body]) (by decide) .value

/-- The node of a block. -/
def Block.top : Block → Node
  | .code .. => .Code
  | .embed .. => .Embed
  | .highlight .. => .Highlight
  | .list (.cons k _ _ _ _) => k.node
  | .list .nil => .UnorderedList
  | .images l => if l.length > 1 then .Images else .Image
  | .thematic _ => .ThematicBreak
  | .heading .. => .Heading
  | .para _ => .Paragraph

theorem block_kinds {b : Block} (h : b.Ok) :
    ∃ l, kindsOf b.segs = .Start b.top :: (l ++ [.End b.top]) ∧ Inner l ∧ b.top ≠ .Document := by
  have wrap : ∀ (n : Node) (a c : List Token) (s : List Seg), Inner (kindsOf s) → n ≠ .Document →
      ∃ l, kindsOf (segStart n a :: (s ++ [segEnd n c])) = .Start n :: (l ++ [.End n]) ∧ Inner l ∧ n ≠ .Document :=
    fun n a c s hs hn => ⟨kindsOf s, by simp [kindsOf, segStart, segEnd], hs, hn⟩
  cases b with
  | code o m b c =>
    have := wrap .Code o c (modSegs m ++ [segValue b]) (by rw [kindsOf_append]; exact inner_mod.append .value) (by decide)
    simpa [Block.segs, Block.top] using this
  | embed o l p r c =>
    exact wrap .Embed [o] c [segValue l, segValue [p], segValue r] (.append .value (.append .value .value)) (by decide)
  | highlight o m i b c =>
    obtain ⟨h1, h2, h3, h4, h5⟩ := h
    have := wrap .Highlight o c (modSegs m ++ (iconSegs i ++ b.flatMap HPara.segs)) (by
      rw [kindsOf_append, kindsOf_append]
      refine inner_mod.append (inner_icon.append (inner_flatMap b fun x hx => ?_))
      unfold HPara.segs
      rw [kindsOf_append]
      refine .append ?_ (inner_para (h4 x hx).2)
      cases x.term with
      | nil => exact .nil
      | cons t r => exact .value) (by decide)
    simpa [Block.segs, Block.top] using this
  | list i =>
    cases i with
    | nil => exact absurd rfl h.2
    | cons k m p n r => exact wrap k.node [] [] _ (inner_items h.1) (by cases k <;> decide)
  | images l =>
    have hin : Inner (kindsOf (l.flatMap Img.segs)) := inner_flatMap l fun x hx => inner_img (h.2 x hx)
    simp only [Block.segs, Block.top]
    split
    · exact wrap .Images [] [] _ hin (by decide)
    · rename_i hlen
      match l, h, hlen with
      | [i], h, _ =>
        have := wrap .Image [i.bang] i.eol _ (inner_link (h.2 i (by simp)).2.1) (by decide)
        simpa [Img.segs] using this
      | [], h, _ => exact absurd rfl h.1
      | _ :: _ :: _, _, hlen => simp at hlen
  | thematic t => exact wrap .ThematicBreak [] [] [segValue [t]] .value (by decide)
  | heading m b =>
    refine wrap .Heading m [] _ (inner_flatMap b fun x hx => ?_) (by decide)
    have hx := h.2.1 x hx
    cases x with
    | text ts => exact .value
    | anchor l => exact inner_anchor hx
  | para l => exact wrap .Paragraph [] [] _ (inner_inls h) (by decide)

theorem block_sepd {b : Block} (h : b.Ok) {o prev k} (hp : ∀ a, prev = some a → mayFollow a b.top = true)
    (hk : sepd (.Document :: o) (some b.top) k) : sepd (.Document :: o) prev (kindsOf b.segs ++ k) := by
  obtain ⟨l, e, hl, hn⟩ := block_kinds h
  rw [e, List.cons_append, List.append_assoc]
  exact ⟨fun _ => hp, hl _ _ none _ hn fun prev => hk⟩

theorem follow_block {b : Block} {n : Node} (h1 : b.isText = false)
    (h2 : b.isList = true → [.UnorderedList, .OrderedList, .Paragraph].contains n = true) : mayFollow b.top n = true := by
  cases b with
  | list i =>
    have := h2 rfl
    cases i with
    | nil => simp only [mayFollow, Block.top, endsItself, isListNode, this]; rfl
    | cons k m p q r => cases k <;> simp only [mayFollow, Block.top, ListKind.node, endsItself, isListNode, this] <;> rfl
  | images l => cases h1
  | heading m b => cases h1
  | para l => cases h1
  | code _ _ _ _ => rfl
  | embed _ _ _ _ _ => rfl
  | highlight _ _ _ _ _ => rfl
  | thematic _ => rfl

/-- `prev` may stand directly before the document. -/
def PrevOk (prev : Option Node) : Doc → Prop
  | .block b _ => ∀ a, prev = some a → mayFollow a b.top = true
  | .coll _ _ _ _ _ _ => ∀ a, prev = some a → mayFollow a .Collapsible = true
  | _ => True

theorem prev_next {b : Block} {d : Doc} (h : NextOk b d) : PrevOk (some b.top) d := by
  cases d with
  | nil => trivial
  | term _ _ => trivial
  | block b' d =>
    intro a ha
    cases ha
    refine follow_block h.1 fun hl => ?_
    rcases h.2 hl with h | h
    · cases b' with
      | list i =>
        cases i with
        | nil => rfl
        | cons k m p q r => cases k <;> rfl
      | _ => cases h
    · cases b' with
      | para l => rfl
      | _ => cases h
  | coll _ _ _ _ _ _ =>
    intro a ha
    cases ha
    exact follow_block h.1 fun hl => by rw [h.2] at hl; cases hl

theorem prev_self {n : Node} (hn : endsItself n = true) (d : Doc) : PrevOk (some n) d := by
  cases d with
  | nil => trivial
  | term _ _ => trivial
  | block _ _ => intro a ha; cases ha; simp [mayFollow, hn]
  | coll _ _ _ _ _ _ => intro a ha; cases ha; simp [mayFollow, hn]

theorem doc_sepd : ∀ {d : Doc} {o prev k rest}, d.Ok → d.Lay rest → PrevOk prev d →
    (∀ prev, sepd (.Document :: o) prev k) → sepd (.Document :: o) prev (kindsOf d.segs ++ k)
  | .nil, _, prev, _, _, _, _, _, hk => hk prev
  | .term _ d, o, prev, k, rest, ho, hl, _, hk => by
    refine doc_sepd (d := d) (prev := none) ho.2 hl ?_ hk
    cases d <;> first | trivial | (intro a ha; cases ha)
  | .block b d, o, prev, k, rest, ho, hl, hp, hk => by
    unfold Doc.segs
    rw [kindsOf_append, List.append_assoc]
    exact block_sepd ho.1 hp (doc_sepd (d := d) ho.2 hl.2.2 (prev_next hl.2.1) hk)
  | .coll p m i s c d, o, prev, k, rest, ⟨h1, h2, h3, _, h5, h6⟩, hl, hp, hk => by
    have e : kindsOf (Doc.coll p m i s c d).segs ++ k = .Start .Collapsible :: (kindsOf (modSegs m) ++
      (.Start .Document :: (kindsOf i.segs ++ (.End .Document :: .End .Collapsible :: (kindsOf d.segs ++ k))))) := by
      simp [Doc.segs, kindsOf, segStart, segEnd]
    rw [e]
    refine ⟨fun _ => hp, inner_mod _ _ none _ (by decide) fun prev => ⟨fun h => by simp at h, ?_⟩⟩
    refine doc_sepd (d := i) h3 hl.2.1 ?_ fun prev => ?_
    · cases i <;> first | trivial | (intro a ha; cases ha)
    · exact doc_sepd (d := d) h6 hl.2.2 (prev_self rfl d) hk

theorem top_sepd (ts : List Token) (hc : Cols ts) : sepd [] none (kindsOf (topB ts).segs) := by
  have key : ∀ ts prev, Cols ts → sepd [] prev
      (kindsOf (segStart .Document [] :: ((docB [] ts).1.segs ++ [segEnd .Document []]))) := by
    intro ts prev hc
    have := docB_lay [] ts hc
    rw [docB_nil] at this
    refine ⟨fun h => by simp at h, ?_⟩
    rw [List.map_append]
    refine doc_sepd (docB_ok _ _) this ?_ (fun _ => trivial)
    cases (docB [] ts).1 <;> first | trivial | (intro a ha; cases ha)
  unfold topB
  split
  · rename_i d r h
    have h1 := (delimB_ok h).1
    have hcr : Cols r := by rw [delimB_toks h] at hc; exact hc.right
    exact ⟨fun h => by simp at h, key r _ hcr⟩
  · exact key ts none hc

theorem sepd_split : ∀ {l1 : List OpKind} {o prev a b l2}, sepd o prev (l1 ++ .End a :: .Start b :: l2) →
    (openAfter o (l1 ++ [.End a])).head? = some .Document → mayFollow a b = true
  | [], _, _, _, _, _, h, ho => h.1 ho _ rfl
  | .Start _ :: l1, _, _, _, _, _, h, ho => sepd_split (l1 := l1) h.2 ho
  | .Value :: l1, _, _, _, _, _, h, ho => sepd_split (l1 := l1) h ho
  | .End _ :: l1, _, _, _, _, _, h, ho => sepd_split (l1 := l1) h ho

end Yamd.Ref
