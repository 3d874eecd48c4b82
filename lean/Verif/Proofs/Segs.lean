import Verif.Proofs.TreeOk
import Verif.Spec.Ops

/-!
# The tokens behind every op

`segs` lists, for every op of a tree, its kind, the tokens skipped before it and the tokens of its
content. `walk` checks nesting, grammar, blank lines and skipped tokens along such a list in one pass.
-/

namespace Yamd.Ref

open Yamd Yamd.Spec

/-- An op with the tokens it stands for. -/
structure Seg where
  kind : OpKind
  skip : List Token
  own : List Token

def Seg.op (src : Str) (s : Seg) : Op := ⟨s.kind, content src s.own⟩
def Seg.toks (s : Seg) : List Token := s.skip ++ s.own

def segStart (n : Node) (ts : List Token) : Seg := ⟨.Start n, [], ts⟩
def segValue (ts : List Token) : Seg := ⟨.Value, [], ts⟩
def segEnd (n : Node) (ts : List Token) : Seg := ⟨.End n, [], ts⟩

def Delim.segs (d : Delim) : List Seg :=
  [segStart d.node [d.opening], segValue d.body, segEnd d.node [d.closing]]

def BoldItem.segs : BoldItem → List Seg
  | .text ts => [segValue ts]
  | .delim d => d.segs

def Link.segs (l : Link) : List Seg := l.title.segs ++ l.dest.segs

def anchorSegs (l : Link) : List Seg := segStart .Anchor [] :: (l.segs ++ [segEnd .Anchor []])

def Inl.segs : Inl → List Seg
  | .text ts => [segValue ts]
  | .delim d => d.segs
  | .bold o items c => segStart .Bold [o] :: (items.flatMap BoldItem.segs ++ [segEnd .Bold [c]])
  | .anchor l => anchorSegs l

def paraSegs (l : List Inl) : List Seg :=
  segStart .Paragraph [] :: (l.flatMap Inl.segs ++ [segEnd .Paragraph []])

def HeadItem.segs : HeadItem → List Seg
  | .text ts => [segValue ts]
  | .anchor l => anchorSegs l

def Img.segs (i : Img) : List Seg :=
  segStart .Image [i.bang] :: (i.link.segs ++ [segEnd .Image i.eol])

def wrapSegs (first : Option ListKind) (segs : List Seg) : List Seg :=
  match first with
  | none => []
  | some k => segStart k.node [] :: (segs ++ [segEnd k.node []])

def Items.segs : Items → List Seg
  | .nil => []
  | .cons _ m p n r =>
    segStart .ListItem m ::
      (paraSegs p ++ (wrapSegs n.kind n.segs ++ (segEnd .ListItem [] :: r.segs)))

def Items.listSegs (i : Items) : List Seg := wrapSegs i.kind i.segs

def modSegs : Option Mod → List Seg
  | none => []
  | some m => [segStart .Modifier [], segValue m.body, segEnd .Modifier [m.eol]]

def iconSegs : Option IconLine → List Seg
  | none => []
  | some i => [segStart .Icon i.marker, segValue i.body, segEnd .Icon [i.eol]]

def termSegs : List Token → List Seg
  | [] => []
  | t :: r => [segValue (t :: r)]

def HPara.segs (h : HPara) : List Seg := termSegs h.term ++ paraSegs h.para

def Block.segs : Block → List Seg
  | .code o m b c => segStart .Code o :: (modSegs m ++ [segValue b, segEnd .Code c])
  | .embed o l p r c => [segStart .Embed [o], segValue l, segValue [p], segValue r, segEnd .Embed c]
  | .highlight o m i b c =>
    segStart .Highlight o ::
      (modSegs m ++ (iconSegs i ++ (b.flatMap HPara.segs ++ [segEnd .Highlight c])))
  | .list i => i.listSegs
  | .images l =>
    if l.length > 1 then segStart .Images [] :: (l.flatMap Img.segs ++ [segEnd .Images []])
    else l.flatMap Img.segs
  | .thematic t => [segStart .ThematicBreak [], segValue [t], segEnd .ThematicBreak []]
  | .heading m b => segStart .Heading m :: (b.flatMap HeadItem.segs ++ [segEnd .Heading []])
  | .para l => paraSegs l

def Doc.segs : Doc → List Seg
  | .nil => []
  | .term t r => segValue [t] :: r.segs
  | .block b r => b.segs ++ r.segs
  | .coll o m i s c r =>
    segStart .Collapsible o ::
      (modSegs m ++ (segStart .Document [] ::
        (i.segs ++ (segEnd .Document [] :: (⟨.End .Collapsible, s, c⟩ :: r.segs)))))

def Top.segs (t : Top) : List Seg :=
  (match t.meta? with | none => [] | some d => d.segs) ++
    (segStart .Document [] :: (t.doc.segs ++ [segEnd .Document []]))

/-! ### The ops of a tree -/

section ops
variable (src : Str)

theorem emptyContent_eq : emptyContent = content src [] := rfl

theorem Delim.ops_segs (d : Delim) : d.ops src = d.segs.map (Seg.op src) := rfl

theorem flatMap_segs {α : Type} {f : α → List Op} {g : α → List Seg} (l : List α)
    (h : ∀ x, f x = (g x).map (Seg.op src)) : l.flatMap f = (l.flatMap g).map (Seg.op src) := by
  induction l with
  | nil => rfl
  | cons x l ih => simp [h, ih]

theorem BoldItem.ops_segs (x : BoldItem) : x.ops src = x.segs.map (Seg.op src) := by
  cases x <;> rfl

theorem anchor_segs (l : Link) : anchorOps src l = (anchorSegs l).map (Seg.op src) := by
  simp [anchorOps, anchorSegs, Link.ops, Link.segs, Delim.ops_segs]; exact ⟨rfl, rfl⟩

theorem Inl.ops_segs (x : Inl) : x.ops src = x.segs.map (Seg.op src) := by
  cases x with
  | text ts => rfl
  | delim d => rfl
  | bold o items c =>
    simp [Inl.ops, Inl.segs, flatMap_segs src items (BoldItem.ops_segs src)]; exact ⟨rfl, rfl⟩
  | anchor l => exact anchor_segs src l

theorem para_segs (l : List Inl) : paraOps src l = (paraSegs l).map (Seg.op src) := by
  simp [paraOps, paraSegs, flatMap_segs src l (Inl.ops_segs src)]; exact ⟨rfl, rfl⟩

theorem HeadItem.ops_segs (x : HeadItem) : x.ops src = x.segs.map (Seg.op src) := by
  cases x with
  | text ts => rfl
  | anchor l => exact anchor_segs src l

theorem Img.ops_segs (i : Img) : i.ops src = i.segs.map (Seg.op src) := by
  simp [Img.ops, Img.segs, Link.ops, Link.segs, Delim.ops_segs]; exact ⟨rfl, rfl⟩

theorem wrap_segs (k : Option ListKind) (s : List Seg) :
    wrapList k (s.map (Seg.op src)) = (wrapSegs k s).map (Seg.op src) := by
  cases k with
  | none => rfl
  | some k => simp [wrapList, wrapSegs]; exact ⟨rfl, rfl⟩

theorem Items.ops_segs : ∀ i : Items, i.ops src = i.segs.map (Seg.op src)
  | .nil => rfl
  | .cons k m p n r => by
    rw [Items.ops, Items.segs, Items.ops_segs n, Items.ops_segs r, wrap_segs, para_segs]
    simp; exact ⟨rfl, rfl⟩

theorem mod_segs (m : Option Mod) : modOps src m = (modSegs m).map (Seg.op src) := by
  cases m <;> rfl

theorem icon_segs (m : Option IconLine) : iconOps src m = (iconSegs m).map (Seg.op src) := by
  cases m <;> rfl

theorem HPara.ops_segs (h : HPara) : h.ops src = h.segs.map (Seg.op src) := by
  unfold HPara.ops HPara.segs
  rw [para_segs, List.map_append]
  cases h.term <;> rfl

theorem Block.ops_segs (b : Block) : b.ops src = b.segs.map (Seg.op src) := by
  cases b with
  | code o m b c => simp [Block.ops, Block.segs, mod_segs]; exact ⟨rfl, rfl, rfl⟩
  | embed => rfl
  | highlight o m i b c =>
    simp [Block.ops, Block.segs, mod_segs, icon_segs, flatMap_segs src b (HPara.ops_segs src)]
    exact ⟨rfl, rfl⟩
  | list i => simp only [Block.ops, Block.segs, Items.listOps, Items.listSegs]; rw [Items.ops_segs, wrap_segs]
  | images l =>
    simp only [Block.ops, Block.segs, flatMap_segs src l (Img.ops_segs src)]
    split
    · simp; exact ⟨rfl, rfl⟩
    · rfl
  | thematic => rfl
  | heading m b =>
    simp [Block.ops, Block.segs, flatMap_segs src b (HeadItem.ops_segs src)]; exact ⟨rfl, rfl⟩
  | para l => exact para_segs src l

theorem Doc.ops_segs : ∀ d : Doc, d.ops src = d.segs.map (Seg.op src)
  | .nil => rfl
  | .term t r => by rw [Doc.ops, Doc.segs, Doc.ops_segs r]; rfl
  | .block b r => by rw [Doc.ops, Doc.segs, Doc.ops_segs r, Block.ops_segs]; simp
  | .coll o m i s c r => by
    rw [Doc.ops, Doc.segs, Doc.ops_segs i, Doc.ops_segs r, mod_segs]
    simp; exact ⟨rfl, rfl, rfl, rfl⟩

theorem Top.ops_segs (t : Top) : t.ops src = t.segs.map (Seg.op src) := by
  unfold Top.ops Top.segs
  rw [Doc.ops_segs]
  cases t.meta? <;> simp [Delim.ops_segs] <;> exact ⟨rfl, rfl⟩

end ops

/-! ### The tokens of a tree -/

section toks

theorem Delim.toks_segs (d : Delim) : d.segs.flatMap Seg.toks = d.toks := by
  simp [Delim.segs, Delim.toks, Seg.toks, segStart, segValue, segEnd]

theorem flatMap_toks {α : Type} {f : α → List Token} {g : α → List Seg} (l : List α)
    (h : ∀ x, (g x).flatMap Seg.toks = f x) : (l.flatMap g).flatMap Seg.toks = l.flatMap f := by
  induction l with
  | nil => rfl
  | cons x l ih => simp [h, ih]

theorem BoldItem.toks_segs (x : BoldItem) : x.segs.flatMap Seg.toks = x.toks := by
  cases x with
  | text ts => simp [BoldItem.segs, BoldItem.toks, Seg.toks, segValue]
  | delim d => exact d.toks_segs

theorem anchor_toks (l : Link) : (anchorSegs l).flatMap Seg.toks = l.toks := by
  simp [anchorSegs, Link.segs, Link.toks, Delim.toks_segs]
  simp [Seg.toks, segStart, segEnd]

theorem Inl.toks_segs (x : Inl) : x.segs.flatMap Seg.toks = x.toks := by
  cases x with
  | text ts => simp [Inl.segs, Inl.toks, Seg.toks, segValue]
  | delim d => exact d.toks_segs
  | bold o items c =>
    simp [Inl.toks, Inl.segs, flatMap_toks items BoldItem.toks_segs]
    simp [Seg.toks, segStart, segEnd]
  | anchor l => exact anchor_toks l

theorem para_toks (l : List Inl) : (paraSegs l).flatMap Seg.toks = paraToks l := by
  simp [paraToks, paraSegs, flatMap_toks l Inl.toks_segs]
  simp [Seg.toks, segStart, segEnd]

theorem HeadItem.toks_segs (x : HeadItem) : x.segs.flatMap Seg.toks = x.toks := by
  cases x with
  | text ts => simp [HeadItem.segs, HeadItem.toks, Seg.toks, segValue]
  | anchor l => exact anchor_toks l

theorem Img.toks_segs (i : Img) : i.segs.flatMap Seg.toks = i.toks := by
  simp [Img.toks, Img.segs, Link.toks, Link.segs, Delim.toks_segs]
  simp [Seg.toks, segStart, segEnd]

theorem wrap_toks (k : Option ListKind) (s : List Seg) (h : k = none → s = []) :
    (wrapSegs k s).flatMap Seg.toks = s.flatMap Seg.toks := by
  cases k with
  | none => rw [h rfl]; rfl
  | some k =>
    simp [wrapSegs]
    simp [Seg.toks, segStart, segEnd]

theorem Items.kind_none {i : Items} (h : i.kind = none) : i.segs = [] := by
  cases i with
  | nil => rfl
  | cons => simp [Items.kind] at h

theorem Items.toks_segs : ∀ i : Items, i.segs.flatMap Seg.toks = i.toks
  | .nil => rfl
  | .cons k m p n r => by
    have h1 := Items.toks_segs n
    have h2 := Items.toks_segs r
    have h3 := wrap_toks n.kind n.segs Items.kind_none
    simp only [Items.segs, Items.toks, List.flatMap_cons, List.flatMap_append, para_toks, h1, h2, h3]
    simp [Seg.toks, segStart, segEnd]

theorem mod_toks (m : Option Mod) : (modSegs m).flatMap Seg.toks = modToks m := by
  cases m <;> simp [modSegs, modToks, Seg.toks, segStart, segValue, segEnd]

theorem icon_toks (m : Option IconLine) : (iconSegs m).flatMap Seg.toks = iconToks m := by
  cases m <;> simp [iconSegs, iconToks, Seg.toks, segStart, segValue, segEnd]

theorem HPara.toks_segs (h : HPara) : h.segs.flatMap Seg.toks = h.toks := by
  unfold HPara.toks HPara.segs
  rw [List.flatMap_append, para_toks]
  cases h.term <;> simp [termSegs, Seg.toks, segValue]

theorem Block.toks_segs (b : Block) : b.segs.flatMap Seg.toks = b.toks := by
  cases b with
  | code o m b c =>
    simp [Block.toks, Block.segs, mod_toks]
    simp [Seg.toks, segStart, segValue, segEnd]
  | embed => simp [Block.toks, Block.segs, Seg.toks, segStart, segValue, segEnd]
  | highlight o m i b c =>
    simp [Block.toks, Block.segs, mod_toks, icon_toks, flatMap_toks b HPara.toks_segs]
    simp [Seg.toks, segStart, segEnd]
  | list i =>
    unfold Block.toks Block.segs Items.listSegs
    simp only
    rw [wrap_toks _ _ Items.kind_none, Items.toks_segs]
  | images l =>
    simp only [Block.toks, Block.segs]
    split
    · simp only [List.flatMap_cons, List.flatMap_append, List.flatMap_nil, flatMap_toks l Img.toks_segs]
      simp [Seg.toks, segStart, segEnd]
    · exact flatMap_toks l Img.toks_segs
  | thematic => simp [Block.toks, Block.segs, Seg.toks, segStart, segValue, segEnd]
  | heading m b =>
    simp [Block.toks, Block.segs, flatMap_toks b HeadItem.toks_segs]
    simp [Seg.toks, segStart, segEnd]
  | para l => exact para_toks l

theorem Doc.toks_segs : ∀ d : Doc, d.segs.flatMap Seg.toks = d.toks
  | .nil => rfl
  | .term t r => by rw [Doc.segs, Doc.toks, List.flatMap_cons, Doc.toks_segs r]; rfl
  | .block b r => by rw [Doc.segs, Doc.toks, List.flatMap_append, Doc.toks_segs r, Block.toks_segs]
  | .coll o m i s c r => by
    have h1 := Doc.toks_segs i
    have h2 := Doc.toks_segs r
    simp only [Doc.segs, Doc.toks, List.flatMap_cons, List.flatMap_append, mod_toks, h1, h2]
    simp [Seg.toks, segStart, segEnd]

theorem Top.toks_segs (t : Top) : t.segs.flatMap Seg.toks = t.toks := by
  unfold Top.toks Top.segs
  rw [List.flatMap_append, List.flatMap_cons, List.flatMap_append, Doc.toks_segs]
  cases t.meta? <;> simp [Delim.toks_segs] <;> simp [Seg.toks, segStart, segEnd]

end toks

/-! ### Walking along the ops -/

/-- Inside inline nodes there is no blank line. -/
def nt (open_ : List Node) (s : Seg) : Prop := open_.any isInlineNode = true → NoTerm s.own

/-- What may be skipped before an op. -/
def skipOk (s : Seg) : Prop := s.skip = [] ∨
  ∃ e c r, s.skip = [e] ∧ e.kind = .Eol ∧ s.kind = .End .Collapsible ∧
    s.own = c :: r ∧ c.kind = .CollapsibleEnd ∧ c.position.column = 0

def walk : List Node → List Seg → Prop
  | open_, [] => open_ = []
  | open_, s :: r =>
    skipOk s ∧
    match s.kind with
    | .Start n => allowedUnder open_.head? n = true ∧ nt (n :: open_) s ∧ walk (n :: open_) r
    | .Value => ∃ p q, open_ = p :: q ∧ mayHoldValue p = true ∧ nt open_ s ∧ walk open_ r
    | .End n => ∃ q, open_ = n :: q ∧ nt open_ s ∧ walk q r

theorem walk_start {n ts open_ r} (h1 : allowedUnder open_.head? n = true) (h2 : nt (n :: open_) (segStart n ts))
    (h3 : walk (n :: open_) r) : walk open_ (segStart n ts :: r) := ⟨.inl rfl, h1, h2, h3⟩

theorem walk_value {p q ts r} (h1 : mayHoldValue p = true) (h2 : nt (p :: q) (segValue ts))
    (h3 : walk (p :: q) r) : walk (p :: q) (segValue ts :: r) := ⟨.inl rfl, p, q, rfl, h1, h2, h3⟩

theorem walk_end {n q ts r} (h2 : nt (n :: q) (segEnd n ts))
    (h3 : walk q r) : walk (n :: q) (segEnd n ts :: r) := ⟨.inl rfl, q, rfl, h2, h3⟩

theorem nt_of {open_} {s : Seg} (h : NoTerm s.own) : nt open_ s := fun _ => h
theorem nt_nil {open_} {s : Seg} (h : s.own = []) : nt open_ s := fun _ => by rw [h]; exact .nil

/-- Nothing inline is open. -/
def NI (open_ : List Node) : Prop := open_.any isInlineNode = false

theorem nt_ni {open_} {s : Seg} (h : NI open_) : nt open_ s := fun h' => by
  unfold NI at h; rw [h] at h'; cases h'

theorem NI.cons {n open_} (h : NI open_) (hn : isInlineNode n = false) : NI (n :: open_) := by
  unfold NI at *; simp [hn, h]

theorem walk_delim {d : Delim} {p st r} (h1 : allowedUnder (some p) d.node = true)
    (h2 : mayHoldValue d.node = true) (h3 : NoTerm d.toks) (h : walk (p :: st) r) :
    walk (p :: st) (d.segs ++ r) := by
  have e1 : NoTerm [d.opening] := fun t ht => h3 t (by simp [Delim.toks] at ht ⊢; simp [ht])
  have e2 : NoTerm d.body := fun t ht => h3 t (by simp [Delim.toks, ht])
  have e3 : NoTerm [d.closing] := fun t ht => h3 t (by simp [Delim.toks] at ht ⊢; simp [ht])
  exact walk_start h1 (nt_of e1) (walk_value h2 (nt_of e2) (walk_end (nt_of e3) h))

theorem walk_flatMap {α : Type} {f : α → List Seg} {st r} (l : List α)
    (h : ∀ x ∈ l, ∀ r, walk st r → walk st (f x ++ r)) (hr : walk st r) : walk st (l.flatMap f ++ r) := by
  induction l with
  | nil => exact hr
  | cons x l ih =>
    rw [List.flatMap_cons, List.append_assoc]
    exact h x (by simp) _ (ih (fun y hy => h y (by simp [hy])))

theorem noTerm_mem {α : Type} {f : α → List Token} {l : List α} (h : NoTerm (l.flatMap f)) {x} (hx : x ∈ l) :
    NoTerm (f x) := fun t ht => h t (List.mem_flatMap.2 ⟨x, hx, ht⟩)

theorem walk_anchor {l : Link} {p st r} (h1 : allowedUnder (some p) .Anchor = true) (hl : l.Ok)
    (h3 : NoTerm l.toks) (h : walk (p :: st) r) : walk (p :: st) (anchorSegs l ++ r) := by
  obtain ⟨a1, -, -, b1, -, -⟩ := hl
  unfold anchorSegs Link.segs
  simp only [List.cons_append, List.append_assoc, List.nil_append]
  refine walk_start h1 (nt_nil rfl) ?_
  refine walk_delim (by rw [a1]; rfl) (by rw [a1]; rfl) h3.left ?_
  refine walk_delim (by rw [b1]; rfl) (by rw [b1]; rfl) h3.right ?_
  exact walk_end (nt_nil rfl) h

theorem walk_boldItem {x : BoldItem} {st r} (hx : x.Ok) (h3 : NoTerm x.toks)
    (h : walk (.Bold :: st) r) : walk (.Bold :: st) (x.segs ++ r) := by
  cases x with
  | text ts => exact walk_value rfl (nt_of h3) h
  | delim d =>
    rcases hx with ⟨hn, -⟩ | ⟨hn, -⟩
    all_goals exact walk_delim (by rw [hn]; rfl) (by rw [hn]; rfl) h3 h

theorem walk_inl {x : Inl} {st r} (hx : x.Ok) (h3 : NoTerm x.toks)
    (h : walk (.Paragraph :: st) r) : walk (.Paragraph :: st) (x.segs ++ r) := by
  cases x with
  | text ts => exact walk_value rfl (nt_of h3) h
  | delim d =>
    rcases hx with ⟨hn, -⟩ | ⟨hn, -⟩ | ⟨hn, -⟩ | ⟨hn, -⟩
    all_goals exact walk_delim (by rw [hn]; rfl) (by rw [hn]; rfl) h3 h
  | bold o items c =>
    obtain ⟨ho, hc, hi, -⟩ := hx
    unfold Inl.segs
    simp only [List.cons_append, List.append_assoc, List.nil_append]
    have h4 : NoTerm (items.flatMap BoldItem.toks) := fun t ht => h3 t (by
      simp only [Inl.toks, List.mem_cons, List.mem_append]; exact .inr (.inl ht))
    refine walk_start rfl (nt_of (.cons (star2_noTerm ho) .nil)) ?_
    refine walk_flatMap items ?_ (walk_end (nt_of (.cons (star2_noTerm hc) .nil)) h)
    intro y hy r hr
    exact walk_boldItem (hi y hy) (noTerm_mem h4 hy) hr
  | anchor l => exact walk_anchor rfl hx h3 h

theorem walk_para {l : List Inl} {p st r} (h1 : allowedUnder (some p) .Paragraph = true) (hl : ParaOk l)
    (h : walk (p :: st) r) : walk (p :: st) (paraSegs l ++ r) := by
  obtain ⟨a1, -, a3⟩ := hl
  unfold paraSegs
  simp only [List.cons_append, List.append_assoc, List.nil_append]
  refine walk_start h1 (nt_nil rfl) (walk_flatMap l ?_ (walk_end (nt_nil rfl) h))
  intro y hy r hr
  exact walk_inl (a1 y hy) (noTerm_mem a3 hy) hr

theorem walk_img {i : Img} {p st r} (h1 : allowedUnder (some p) .Image = true) (hi : i.Ok)
    (h : walk (p :: st) r) : walk (p :: st) (i.segs ++ r) := by
  obtain ⟨b1, ⟨a1, -, -, a4, -, -⟩, b3, b4⟩ := hi
  unfold Img.segs Link.segs
  simp only [List.cons_append, List.append_assoc, List.nil_append]
  unfold Img.toks Link.toks at b4
  have b5 : NoTerm ((i.link.title.toks ++ i.link.dest.toks) ++ i.eol) :=
    fun t ht => b4 t (by simp at ht ⊢; simp [ht])
  refine walk_start h1 (nt_of (.cons (noTerm_of rfl b1 (by decide)) .nil)) ?_
  refine walk_delim (by rw [a1]; rfl) (by rw [a1]; rfl) b5.left.left ?_
  refine walk_delim (by rw [a4]; rfl) (by rw [a4]; rfl) b5.left.right ?_
  exact walk_end (nt_of b5.right) h

theorem walk_items : ∀ {i : Items} {level want k st r}, i.Ok level want → allowedUnder (some k) .ListItem = true →
    walk (k :: st) r → walk (k :: st) (i.segs ++ r)
  | .nil, _, _, _, _, _, _, _, h => h
  | .cons k' m p n q, level, want, k, st, r, hi, hk, h => by
    obtain ⟨-, a2, a3, a4, a5⟩ := hi
    unfold Items.segs
    simp only [List.cons_append, List.append_assoc]
    refine walk_start hk (nt_of a2.noTerm) (walk_para rfl a3 ?_)
    have h2 : walk (.ListItem :: k :: st) (segEnd .ListItem [] :: (q.segs ++ r)) :=
      walk_end (nt_nil rfl) (walk_items a5 hk h)
    cases n with
    | nil => exact h2
    | cons kk mm pp nn rr =>
      unfold wrapSegs
      simp only [Items.kind, List.cons_append, List.append_assoc, List.nil_append]
      refine walk_start ?_ (nt_nil rfl) (walk_items a4 ?_ (walk_end (nt_nil rfl) h2))
      · cases kk <;> rfl
      · cases kk <;> rfl

theorem walk_mod {m : Option Mod} {p st r} (h1 : allowedUnder (some p) .Modifier = true)
    (hn : NI (p :: st)) (h : walk (p :: st) r) : walk (p :: st) (modSegs m ++ r) := by
  cases m with
  | none => exact h
  | some m =>
    have : NI (.Modifier :: p :: st) := hn.cons rfl
    exact walk_start h1 (nt_ni this) (walk_value rfl (nt_ni this) (walk_end (nt_ni this) h))

theorem walk_icon {i : Option IconLine} {st r} (hi : IconOk i)
    (h : walk (.Highlight :: st) r) : walk (.Highlight :: st) (iconSegs i ++ r) := by
  cases i with
  | none => exact h
  | some i =>
    obtain ⟨a1, a2, a3⟩ := hi
    refine walk_start rfl (nt_of (icon_noTerm a1)) (walk_value rfl (nt_of a2) (walk_end (nt_of (.cons ?_ .nil)) h))
    simp only [isEol, decide_eq_true_eq] at a3
    rw [a3]; decide

theorem walk_hpara {x : HPara} {st r} (hx : x.Ok) (hn : NI (.Highlight :: st))
    (h : walk (.Highlight :: st) r) : walk (.Highlight :: st) (x.segs ++ r) := by
  unfold HPara.segs
  rw [List.append_assoc]
  have h2 := walk_para (st := st) (p := .Highlight) rfl hx.2 h
  cases ht : x.term with
  | nil => exact h2
  | cons t q => exact walk_value rfl (nt_ni hn) h2

theorem walk_block {b : Block} {st r} (hb : b.Ok) (hn : NI (.Document :: st))
    (h : walk (.Document :: st) r) : walk (.Document :: st) (b.segs ++ r) := by
  cases b with
  | code o m b c =>
    unfold Block.segs
    simp only [List.cons_append, List.append_assoc, List.nil_append]
    have hc : NI (.Code :: .Document :: st) := hn.cons rfl
    exact walk_start rfl (nt_ni hc) (walk_mod rfl hc (walk_value rfl (nt_ni hc) (walk_end (nt_ni hc) h)))
  | embed o l p r c =>
    have hc : NI (.Embed :: .Document :: st) := hn.cons rfl
    exact walk_start rfl (nt_ni hc) (walk_value rfl (nt_ni hc) (walk_value rfl (nt_ni hc)
      (walk_value rfl (nt_ni hc) (walk_end (nt_ni hc) h))))
  | highlight o m i b c =>
    obtain ⟨-, -, h2, h3, -⟩ := hb
    unfold Block.segs
    simp only [List.cons_append, List.append_assoc, List.nil_append]
    have hc : NI (.Highlight :: .Document :: st) := hn.cons rfl
    refine walk_start rfl (nt_ni hc) (walk_mod rfl hc (walk_icon h2 (walk_flatMap b ?_ (walk_end (nt_ni hc) h))))
    intro x hx r hr
    exact walk_hpara (h3 x hx) hc hr
  | list i =>
    obtain ⟨h1, h2⟩ := hb
    unfold Block.segs Items.listSegs
    cases i with
    | nil => exact absurd rfl h2
    | cons kk mm pp nn rr =>
      unfold wrapSegs
      simp only [Items.kind, List.cons_append, List.append_assoc, List.nil_append]
      refine walk_start ?_ (nt_nil rfl) (walk_items h1 ?_ (walk_end (nt_nil rfl) h))
      · cases kk <;> rfl
      · cases kk <;> rfl
  | images l =>
    obtain ⟨-, h2⟩ := hb
    simp only [Block.segs]
    split
    · simp only [List.cons_append, List.append_assoc, List.nil_append]
      refine walk_start rfl (nt_nil rfl) (walk_flatMap l ?_ (walk_end (nt_nil rfl) h))
      intro x hx r hr
      exact walk_img rfl (h2 x hx) hr
    · refine walk_flatMap l ?_ h
      intro x hx r hr
      exact walk_img rfl (h2 x hx) hr
  | thematic t =>
    have ht : NoTerm [t] := .cons (by
      have hb : isDash5 t = true := hb
      simp only [isDash5, Bool.and_eq_true, decide_eq_true_eq] at hb
      rw [hb.1.1]; decide) .nil
    exact walk_start rfl (nt_nil rfl) (walk_value rfl (nt_of ht) (walk_end (nt_nil rfl) h))
  | heading m b =>
    obtain ⟨⟨a, s, rfl, ha, hs⟩, h1, -, h3⟩ := hb
    unfold Block.segs
    simp only [List.cons_append, List.append_assoc, List.nil_append]
    refine walk_start rfl (nt_of (.cons ?_ (.cons ?_ .nil))) (walk_flatMap b ?_ (walk_end (nt_nil rfl) h))
    · simp only [isHash, Bool.and_eq_true, decide_eq_true_eq] at ha
      rw [ha.1.1]; decide
    · simp only [isSpace1, Bool.and_eq_true, decide_eq_true_eq] at hs
      rw [hs.1]; decide
    · intro x hx r hr
      have hx1 := h1 x hx
      have hx3 := noTerm_mem h3 hx
      cases x with
      | text ts => exact walk_value rfl (nt_of hx3) hr
      | anchor l => exact walk_anchor rfl hx1 hx3 hr
  | para l => exact walk_para rfl hb h

theorem walk_doc : ∀ {d : Doc} {st r}, d.Ok → NI (.Document :: st) → walk (.Document :: st) r →
    walk (.Document :: st) (d.segs ++ r)
  | .nil, _, _, _, _, h => h
  | .term t d, _, _, hd, hn, h => walk_value rfl (nt_ni hn) (walk_doc (d := d) hd.2 hn h)
  | .block b d, _, _, hd, hn, h => by
    rw [Doc.segs, List.append_assoc]
    exact walk_block hd.1 hn (walk_doc hd.2 hn h)
  | .coll o m i s c d, st, r, hd, hn, h => by
    obtain ⟨-, -, h2, h3, hcl, h5⟩ := hd
    obtain ⟨e, c', rfl, h4⟩ : ∃ e c', c = e :: c' ∧ isCollapsibleEnd e = true := by
      rcases hcl with ⟨e, rfl, h4⟩ | ⟨e, e2, rfl, h4, -⟩
      · exact ⟨e, [], rfl, h4⟩
      · exact ⟨e, [e2], rfl, h4⟩
    unfold Doc.segs
    simp only [List.cons_append, List.append_assoc]
    have hc : NI (.Collapsible :: .Document :: st) := hn.cons rfl
    have hc2 : NI (.Document :: .Collapsible :: .Document :: st) := hc.cons rfl
    refine walk_start rfl (nt_ni hc) (walk_mod rfl hc (walk_start rfl (nt_nil rfl) (walk_doc h2 hc2 ?_)))
    refine walk_end (nt_nil rfl) ?_
    refine ⟨?_, .Document :: st, rfl, nt_ni hc, walk_doc h5 hn h⟩
    rcases h3 with rfl | ⟨e', rfl, h3⟩
    · exact .inl rfl
    · simp only [isCollapsibleEnd, col0, Bool.and_eq_true, decide_eq_true_eq] at h4
      exact .inr ⟨e', e, c', rfl, by simpa [isEol] using h3, rfl, rfl, h4.1, h4.2⟩

theorem walk_top (ts : List Token) : walk [] (topB ts).segs := by
  have key : ∀ ts, walk [] (segStart .Document [] :: ((docB [] ts).1.segs ++ [segEnd .Document []])) := by
    intro ts
    exact walk_start rfl (nt_nil rfl) (walk_doc (docB_ok _ _) rfl (walk_end (nt_nil rfl) rfl))
  unfold topB Top.segs
  cases hd : delimB isThreeDashes isThreeDashes .Metadata [] ts with
  | none => exact key ts
  | some x =>
    obtain ⟨d, r⟩ := x
    obtain ⟨a1, -⟩ := delimB_ok hd
    show walk [] (d.segs ++ _)
    unfold Delim.segs
    rw [a1]
    exact walk_start rfl (nt_ni rfl) (walk_value rfl (nt_ni rfl) (walk_end (nt_ni rfl) (key r)))

end Yamd.Ref
