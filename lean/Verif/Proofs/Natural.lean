import Verif.Proofs.Induct
import Verif.Proofs.Round.DocExec

/-!
# The reference parser is natural in the tokens

What the parser does depends only on the kind of a token, on whether it stands at the start of a line
and, for some kinds, on its length. A function on tokens that keeps these commutes with every parsing
function.
-/

namespace Yamd.Ref

open Yamd Yamd.Round

/-- Kinds whose length the parser looks at. -/
def strict : TokenKind → Bool
  | .Eol | .Terminator | .Literal | .CollapsibleStart | .CollapsibleEnd => false
  | _ => true

/-- The function keeps what the parser looks at below the level of documents: there a `{%` is as good as a
literal. -/
structure Resp0 (f : Token → Token) : Prop where
  kinds : ∀ t k, k ≠ .Literal → k ≠ .CollapsibleStart → ((f t).kind = k ↔ t.kind = k)
  col : ∀ t, col0 (f t) = col0 t
  len : ∀ t, strict t.kind = true → (f t).len = t.len

/-- The function keeps what the parser looks at. -/
structure Resp (f : Token → Token) : Prop where
  kind : ∀ t, (f t).kind = t.kind
  col : ∀ t, col0 (f t) = col0 t
  len : ∀ t, strict t.kind = true → (f t).len = t.len
  flip : ∀ t, t.kind = .CollapsibleStart → f { t with kind := .Literal } = { f t with kind := .Literal }

theorem Resp.weak {f : Token → Token} (h : Resp f) : Resp0 f :=
  ⟨fun t k _ _ => by rw [h.kind], h.col, h.len⟩

section maps
variable (f : Token → Token)

def Delim.mapT (d : Delim) : Delim := ⟨d.node, f d.opening, d.body.map f, f d.closing⟩

def BoldItem.mapT : BoldItem → BoldItem
  | .text ts => .text (ts.map f)
  | .delim d => .delim (d.mapT f)

def Link.mapT (l : Link) : Link := ⟨l.title.mapT f, l.dest.mapT f⟩

def Inl.mapT : Inl → Inl
  | .text ts => .text (ts.map f)
  | .delim d => .delim (d.mapT f)
  | .bold o items c => .bold (f o) (items.map (BoldItem.mapT f)) (f c)
  | .anchor l => .anchor (l.mapT f)

def HeadItem.mapT : HeadItem → HeadItem
  | .text ts => .text (ts.map f)
  | .anchor l => .anchor (l.mapT f)

def Img.mapT (i : Img) : Img := ⟨f i.bang, i.link.mapT f, i.eol.map f⟩

def Items.mapT : Items → Items
  | .nil => .nil
  | .cons k m p n r => .cons k (m.map f) (p.map (Inl.mapT f)) n.mapT r.mapT

def Mod.mapT (m : Mod) : Mod := ⟨m.body.map f, f m.eol⟩

def IconLine.mapT (i : IconLine) : IconLine := ⟨i.marker.map f, i.body.map f, f i.eol⟩

def HPara.mapT (h : HPara) : HPara := ⟨h.term.map f, h.para.map (Inl.mapT f)⟩

def Block.mapT : Block → Block
  | .code o m b c => .code (o.map f) (m.map (Mod.mapT f)) (b.map f) (c.map f)
  | .embed o l p r c => .embed (f o) (l.map f) (f p) (r.map f) (c.map f)
  | .highlight o m i b c =>
    .highlight (o.map f) (m.map (Mod.mapT f)) (i.map (IconLine.mapT f)) (b.map (HPara.mapT f)) (c.map f)
  | .list i => .list (i.mapT f)
  | .images l => .images (l.map (Img.mapT f))
  | .thematic t => .thematic (f t)
  | .heading m b => .heading (m.map f) (b.map (HeadItem.mapT f))
  | .para l => .para (l.map (Inl.mapT f))

def Doc.mapT : Doc → Doc
  | .nil => .nil
  | .term t r => .term (f t) r.mapT
  | .block b r => .block (b.mapT f) r.mapT
  | .coll o m i s c r => .coll (o.map f) (m.map (Mod.mapT f)) i.mapT (s.map f) (c.map f) r.mapT

def Top.mapT (t : Top) : Top := ⟨t.meta?.map (Delim.mapT f), t.doc.mapT f⟩

/-- Map a result and the tokens after it. -/
def mapR {α : Type} (g : α → α) (x : α × List Token) : α × List Token := (g x.1, x.2.map f)

/-- Map a scan: tokens before, the token, tokens after. -/
def mapS (x : List Token × Token × List Token) : List Token × Token × List Token :=
  (x.1.map f, f x.2.1, x.2.2.map f)

end maps

/-! ### Tokens of a mapped tree -/

section toks
variable (f : Token → Token)

theorem Delim.mapT_toks (d : Delim) : (d.mapT f).toks = d.toks.map f := by simp [Delim.mapT, Delim.toks]

theorem BoldItem.mapT_toks (b : BoldItem) : (b.mapT f).toks = b.toks.map f := by
  cases b <;> simp [BoldItem.mapT, BoldItem.toks, Delim.mapT_toks]

theorem Link.mapT_toks (l : Link) : (l.mapT f).toks = l.toks.map f := by
  simp [Link.mapT, Link.toks, Delim.mapT_toks]

theorem flatMap_mapT {α : Type} {g : α → α} {tk : α → List Token} (h : ∀ x, tk (g x) = (tk x).map f)
    (l : List α) : (l.map g).flatMap tk = (l.flatMap tk).map f := by
  induction l with
  | nil => rfl
  | cons a l ih => simp [h, ih]

theorem Inl.mapT_toks (x : Inl) : (x.mapT f).toks = x.toks.map f := by
  cases x with
  | text => rfl
  | delim d => exact d.mapT_toks f
  | bold o items c => simp [Inl.mapT, Inl.toks, flatMap_mapT f (BoldItem.mapT_toks f)]
  | anchor l => exact l.mapT_toks f

theorem paraToks_mapT (l : List Inl) : paraToks (l.map (Inl.mapT f)) = (paraToks l).map f :=
  flatMap_mapT f (Inl.mapT_toks f) l

theorem HeadItem.mapT_toks (x : HeadItem) : (x.mapT f).toks = x.toks.map f := by
  cases x with
  | text => rfl
  | anchor l => exact l.mapT_toks f

theorem Img.mapT_toks (x : Img) : (x.mapT f).toks = x.toks.map f := by
  simp [Img.mapT, Img.toks, Link.mapT_toks]

theorem Items.mapT_toks (i : Items) : (i.mapT f).toks = i.toks.map f := by
  induction i with
  | nil => rfl
  | cons k m p n r ih1 ih2 => simp [Items.mapT, Items.toks, paraToks_mapT, ih1, ih2]

theorem modToks_mapT (m : Option Mod) : modToks (m.map (Mod.mapT f)) = (modToks m).map f := by
  cases m <;> simp [modToks, Mod.mapT]

theorem iconToks_mapT (m : Option IconLine) : iconToks (m.map (IconLine.mapT f)) = (iconToks m).map f := by
  cases m <;> simp [iconToks, IconLine.mapT]

theorem HPara.mapT_toks (h : HPara) : (h.mapT f).toks = h.toks.map f := by
  simp [HPara.mapT, HPara.toks, paraToks_mapT]

theorem Block.mapT_toks (b : Block) : (b.mapT f).toks = b.toks.map f := by
  cases b <;> simp [Block.mapT, Block.toks, modToks_mapT, iconToks_mapT, flatMap_mapT f (HPara.mapT_toks f),
    flatMap_mapT f (Img.mapT_toks f), flatMap_mapT f (HeadItem.mapT_toks f), Items.mapT_toks, paraToks_mapT]

theorem Doc.mapT_toks (d : Doc) : (d.mapT f).toks = d.toks.map f := by
  induction d with
  | nil => rfl
  | term t r ih => simp [Doc.mapT, Doc.toks, ih]
  | block b r ih => simp [Doc.mapT, Doc.toks, Block.mapT_toks, ih]
  | coll o m i s c r ih1 ih2 => simp [Doc.mapT, Doc.toks, modToks_mapT, ih1, ih2]

end toks

/-! ### Predicates -/

section nat
variable {f : Token → Token} (h : Resp0 f)
include h

theorem nat_kl {k : TokenKind} (hk : strict k = true) (p : Nat → Bool) (t : Token) :
    (decide ((f t).kind = k) && p (f t).len) = (decide (t.kind = k) && p t.len) := by
  have hl : k ≠ .Literal := by rintro rfl; simp [strict] at hk
  have hc : k ≠ .CollapsibleStart := by rintro rfl; simp [strict] at hk
  rw [decide_eq_decide.2 (h.kinds t k hl hc)]
  by_cases e : t.kind = k
  · rw [h.len t (by rw [e]; exact hk)]
  · simp [e]

theorem nat_kcl {k : TokenKind} (hk : strict k = true) (p : Nat → Bool) (t : Token) :
    (decide ((f t).kind = k) && col0 (f t) && p (f t).len) = (decide (t.kind = k) && col0 t && p t.len) := by
  have hl : k ≠ .Literal := by rintro rfl; simp [strict] at hk
  have hc : k ≠ .CollapsibleStart := by rintro rfl; simp [strict] at hk
  rw [decide_eq_decide.2 (h.kinds t k hl hc), h.col]
  by_cases e : t.kind = k
  · rw [h.len t (by rw [e]; exact hk)]
  · simp [e]

theorem nat_k {k : TokenKind} (hl : k ≠ .Literal := by decide) (hc : k ≠ .CollapsibleStart := by decide) (t : Token) :
    ((f t).kind = k) = (t.kind = k) := propext (h.kinds t k hl hc)

/-- The predicate looks only at what `f` keeps. -/
def Keeps (f : Token → Token) (m : Token → Bool) : Prop := ∀ t, m (f t) = m t

theorem keeps_col0 : Keeps f col0 := h.col
theorem keeps_tilde2 : Keeps f isTilde2 := nat_kl h rfl (fun n => n = 2)
theorem keeps_underscore : Keeps f isUnderscore := nat_kl h rfl (fun n => n = 1)
theorem keeps_star1 : Keeps f isStar1 := nat_kl h rfl (fun n => n = 1)
theorem keeps_star2 : Keeps f isStar2 := nat_kl h rfl (fun n => n = 2)
theorem keeps_backtick1 : Keeps f isBacktick1 := nat_kl h rfl (fun n => n = 1)
theorem keeps_leftBracket : Keeps f isLeftBracket := nat_kl h rfl (fun n => n = 1)
theorem keeps_rightBracket : Keeps f isRightBracket := nat_kl h rfl (fun n => n = 1)
theorem keeps_leftParen : Keeps f isLeftParen := nat_kl h rfl (fun n => n = 1)
theorem keeps_threeDashes : Keeps f isThreeDashes := nat_kcl h rfl (fun n => n = 3)
theorem keeps_hash : Keeps f isHash := nat_kcl h rfl (fun n => n ≤ 6)
theorem keeps_eolOrTerminator : Keeps f isEolOrTerminator := fun t => by simp only [isEolOrTerminator, nat_k h (k := .Eol), nat_k h (k := .Terminator)]
theorem keeps_backtick3 : Keeps f isBacktick3 := nat_kcl h rfl (fun n => n = 3)
theorem keeps_leftCurly2 : Keeps f isLeftCurly2 := nat_kcl h rfl (fun n => n = 2)
theorem keeps_pipe : Keeps f isPipe := nat_kl h rfl (fun n => n = 1)
theorem keeps_rightCurly2 : Keeps f isRightCurly2 := nat_kl h rfl (fun n => n = 2)
theorem keeps_bang1 : Keeps f isBang1 := nat_kl h rfl (fun n => n = 1)
theorem keeps_dash5 : Keeps f isDash5 := nat_kcl h rfl (fun n => n = 5)
theorem keeps_twoBangs : Keeps f isTwoBangs := nat_kcl h rfl (fun n => n = 2)
theorem keeps_oneBang : Keeps f isOneBang := nat_kcl h rfl (fun n => n = 1)
theorem keeps_collapsibleEnd : Keeps f isCollapsibleEnd := fun t => by
  simp only [isCollapsibleEnd, nat_k h (k := .CollapsibleEnd), h.col]
theorem keeps_spaceOrEol : Keeps f isSpaceOrEol := fun t => by simp only [isSpaceOrEol, nat_k h (k := .Space), nat_k h (k := .Eol)]
theorem keeps_space1 : Keeps f isSpace1 := nat_kl h rfl (fun n => n = 1)
theorem keeps_eol : Keeps f isEol := fun t => by simp only [isEol, nat_k h (k := .Eol)]
theorem keeps_terminator : Keeps f isTerminator := fun t => by simp only [isTerminator, nat_k h (k := .Terminator)]
theorem keeps_spaceEol : Keeps f (fun t => isSpace1 t || isEol t) := fun t => by
  simp only [keeps_space1 h t, keeps_eol h t]
theorem keeps_indent (n : Nat) : Keeps f (fun t => t.kind = .Space && t.len = n) := nat_kl h rfl (fun k => k = n)

theorem tryFrom_nat (t : Token) : ListKind.tryFrom (f t) = ListKind.tryFrom t := by
  unfold ListKind.tryFrom
  have a := nat_kl h (k := .Minus) rfl (fun n => n = 1) t
  have b := nat_kl h (k := .Plus) rfl (fun n => n = 1) t
  simp only [← Bool.decide_and, decide_eq_decide] at a b
  simp only [a, b]

theorem keeps_listMarker (k : Option ListKind) : Keeps f (isListMarker k) := fun t => by
  simp only [isListMarker, tryFrom_nat h]

omit h in
theorem tokenIs_nat {m : Token → Bool} (hm : Keeps f m) (ts : List Token) (i : Nat) :
    tokenIs (ts.map f) i m = tokenIs ts i m := by
  unfold tokenIs
  rw [List.getElem?_map]
  cases ts[i]? with
  | none => rfl
  | some t => exact hm t

theorem boundaryHere_nat (ts : List Token) (c : Nat) (k : ListKind) (l : Nat) :
    boundaryHere (ts.map f) c k l = boundaryHere ts c k l := by
  simp only [boundaryHere, tokenIs_nat (keeps_col0 h), tokenIs_nat (keeps_listMarker h _),
    tokenIs_nat (keeps_space1 h), tokenIs_nat (keeps_indent h l)]

theorem stopHere_nat (t : Token) (r : List Token) (s : Stop) :
    stopHere (f t) (r.map f) s = stopHere t r s := by
  cases s with
  | Terminator => simp only [stopHere, nat_k h (k := .Terminator)]
  | CollapsibleEnd =>
    have := tokenIs_nat (m := isCollapsibleEnd) (keeps_collapsibleEnd h) r 0
    unfold isCollapsibleEnd at this
    simp only [stopHere, nat_k h (k := .CollapsibleEnd), nat_k h (k := .Eol), h.col, this]
  | HighlightEnd => exact keeps_twoBangs h t
  | ListBoundary l k =>
    have := boundaryHere_nat h (t :: r) l k
    simp only [List.map_cons] at this
    have e : boundaryHere (f t :: r.map f) l k = boundaryHere (t :: r) l k := funext this
    simp only [stopHere, h.col, e]

theorem stopAt_nat (stops : List Stop) (ts : List Token) : stopAt stops (ts.map f) = stopAt stops ts := by
  cases ts with
  | nil => rfl
  | cons t r =>
    have : stopHere (f t) (r.map f) = stopHere t r := funext (stopHere_nat h t r)
    simp only [List.map_cons, stopAt, this]

/-! ### Inline constructs -/

theorem untilB_nat {m : Token → Bool} (hm : Keeps f m) (stops : List Stop) (ts : List Token) :
    untilB stops m (ts.map f) = (untilB stops m ts).map (mapS f) := by
  induction ts with
  | nil => rfl
  | cons t r ih =>
    have hs := stopAt_nat h stops (t :: r)
    simp only [List.map_cons] at hs ⊢
    rw [untilB, untilB, hs, hm t, ih]
    split
    · rfl
    · split
      · rfl
      · cases untilB stops m r <;> rfl

theorem delimB_nat {o c : Token → Bool} (ho : Keeps f o) (hc : Keeps f c) (n : Node) (stops : List Stop)
    (ts : List Token) :
    delimB o c n stops (ts.map f) = (delimB o c n stops ts).map (mapR f (Delim.mapT f)) := by
  cases ts with
  | nil => rfl
  | cons t r =>
    rw [List.map_cons, delimB, delimB, ho t, untilB_nat h hc]
    split
    · cases untilB stops c r <;> rfl
    · rfl

theorem destScan_nat (stops : List Stop) (ts : List Token) : ∀ d,
    destScan stops d (ts.map f) = (destScan stops d ts).map (mapS f) := by
  induction ts with
  | nil => intro d; rfl
  | cons t r ih =>
    intro d
    have hs := stopAt_nat h stops (t :: r)
    simp only [List.map_cons] at hs ⊢
    rw [destScan, destScan, hs, ih, ih, ih]
    simp only [nat_k h (k := .LeftParenthesis), nat_k h (k := .RightParenthesis)]
    split
    · rfl
    · split
      · cases destScan stops (d + 1) r <;> rfl
      · split
        · split
          · rfl
          · cases destScan stops (d - 1) r <;> rfl
        · cases destScan stops d r <;> rfl

theorem destB_nat (stops : List Stop) (ts : List Token) :
    destB stops (ts.map f) = (destB stops ts).map (mapR f (Delim.mapT f)) := by
  cases ts with
  | nil => rfl
  | cons t r =>
    rw [List.map_cons, destB, destB, keeps_leftParen h t, destScan_nat h]
    split
    · cases destScan stops 1 r <;> rfl
    · rfl

theorem titleB_nat (stops : List Stop) (ts : List Token) :
    titleB stops (ts.map f) = (titleB stops ts).map (mapR f (Delim.mapT f)) :=
  delimB_nat h (keeps_leftBracket h) (keeps_rightBracket h) _ _ _

theorem strikeB_nat (stops : List Stop) (ts : List Token) :
    strikeB stops (ts.map f) = (strikeB stops ts).map (mapR f (Delim.mapT f)) :=
  delimB_nat h (keeps_tilde2 h) (keeps_tilde2 h) _ _ _

theorem italicB_nat (stops : List Stop) (ts : List Token) :
    italicB stops (ts.map f) = (italicB stops ts).map (mapR f (Delim.mapT f)) :=
  delimB_nat h (keeps_underscore h) (keeps_underscore h) _ _ _

theorem codeSpanB_nat (stops : List Stop) (ts : List Token) :
    codeSpanB stops (ts.map f) = (codeSpanB stops ts).map (mapR f (Delim.mapT f)) :=
  delimB_nat h (keeps_backtick1 h) (keeps_backtick1 h) _ _ _

theorem emphasisB_nat (stops : List Stop) (ts : List Token) :
    emphasisB stops (ts.map f) = (emphasisB stops ts).map (mapR f (Delim.mapT f)) :=
  delimB_nat h (keeps_star1 h) (keeps_star1 h) _ _ _

theorem linkB_nat (stops : List Stop) (ts : List Token) :
    linkB stops (ts.map f) = (linkB stops ts).map (mapR f (Link.mapT f)) := by
  unfold linkB
  rw [titleB_nat h]
  cases titleB stops ts with
  | none => rfl
  | some x =>
    obtain ⟨t, r⟩ := x
    simp only [Option.map_some, mapR]
    rw [destB_nat h]
    cases destB stops r <;> rfl

theorem boldChildB_nat (stops : List Stop) (ts : List Token) :
    boldChildB stops (ts.map f) = (boldChildB stops ts).map (mapR f (Delim.mapT f)) := by
  unfold boldChildB
  rw [strikeB_nat h, italicB_nat h]
  cases strikeB stops ts <;> rfl

omit h in
theorem accBold_nat (acc : List Token) :
    (if acc.map f = [] then ([] : List BoldItem) else [.text (acc.map f)])
      = (if acc = [] then [] else [.text acc]).map (BoldItem.mapT f) := by
  cases acc <;> simp [BoldItem.mapT]

omit h in
theorem accInl_nat (acc : List Token) :
    (if acc.map f = [] then ([] : List Inl) else [.text (acc.map f)])
      = (if acc = [] then [] else [.text acc]).map (Inl.mapT f) := by
  cases acc <;> simp [Inl.mapT]

omit h in
theorem accHead_nat (acc : List Token) :
    (if acc.map f = [] then ([] : List HeadItem) else [.text (acc.map f)])
      = (if acc = [] then [] else [.text acc]).map (HeadItem.mapT f) := by
  cases acc <;> simp [HeadItem.mapT]

theorem boldItemsB_nat (stops : List Stop) (acc ts : List Token) :
    boldItemsB stops (acc.map f) (ts.map f) = (boldItemsB stops acc ts).map
      (fun x => (x.1.map (BoldItem.mapT f), f x.2.1, x.2.2.map f)) := by
  induction acc, ts using boldItemsB_ind stops with
  | stop acc ts hs =>
    rw [boldItemsB_stop hs, boldItemsB_stop (by rw [stopAt_nat h]; exact hs)]; rfl
  | close acc t r hs h2 =>
    have hs' := stopAt_nat h stops (t :: r)
    rw [List.map_cons, hs] at hs'
    rw [boldItemsB_close hs h2, List.map_cons, boldItemsB_close hs' (by rw [keeps_star2 h]; exact h2), accBold_nat]
    rfl
  | some acc t r d r' hs h2 hx ih =>
    have hs' := stopAt_nat h stops (t :: r)
    have hx' := boldChildB_nat h stops (t :: r)
    rw [List.map_cons, hs] at hs'
    rw [List.map_cons, hx] at hx'
    rw [boldItemsB_some hs h2 hx, List.map_cons, boldItemsB_some hs' (by rw [keeps_star2 h]; exact h2) hx', accBold_nat]
    simp only [List.map_nil] at ih
    rw [ih]
    cases boldItemsB stops [] r' with
    | none => rfl
    | some x => simp [BoldItem.mapT]
  | none acc t r hs h2 hx ih =>
    have hs' := stopAt_nat h stops (t :: r)
    have hx' := boldChildB_nat h stops (t :: r)
    rw [List.map_cons, hs] at hs'
    rw [List.map_cons, hx] at hx'
    rw [boldItemsB_none hs h2 hx, List.map_cons, boldItemsB_none hs' (by rw [keeps_star2 h]; exact h2) hx', ← ih]
    simp

theorem boldB_nat (stops : List Stop) (ts : List Token) :
    boldB stops (ts.map f) = (boldB stops ts).map (mapR f (Inl.mapT f)) := by
  cases ts with
  | nil => rfl
  | cons t r =>
    have := boldItemsB_nat h stops [] r
    rw [List.map_nil] at this
    rw [List.map_cons, boldB, boldB, keeps_star2 h t, this]
    split
    · cases boldItemsB stops [] r <;> rfl
    · rfl

theorem inlineB_nat (stops : List Stop) (ts : List Token) :
    inlineB stops (ts.map f) = (inlineB stops ts).map (mapR f (Inl.mapT f)) := by
  unfold inlineB
  rw [strikeB_nat h, italicB_nat h, boldB_nat h, linkB_nat h, codeSpanB_nat h, emphasisB_nat h]
  cases strikeB stops ts with
  | some => rfl
  | none =>
  cases italicB stops ts with
  | some => rfl
  | none =>
  cases boldB stops ts with
  | some => rfl
  | none =>
  cases linkB stops ts with
  | some => rfl
  | none =>
  cases codeSpanB stops ts with
  | some => rfl
  | none =>
  cases emphasisB stops ts <;> rfl

theorem paraB_nat (stops : List Stop) (acc ts : List Token) :
    paraB stops (acc.map f) (ts.map f) =
      ((paraB stops acc ts).1.map (Inl.mapT f), (paraB stops acc ts).2.map f) := by
  induction acc, ts using paraB_ind stops with
  | stop acc ts hs =>
    rw [paraB_stop hs, paraB_stop (by rw [stopAt_nat h]; exact hs), accInl_nat]
  | some acc t r x r' hs hx ih =>
    have hs' := stopAt_nat h stops (t :: r)
    have hx' := inlineB_nat h stops (t :: r)
    rw [hs] at hs'
    rw [hx] at hx'
    rw [paraB_some hs hx, paraB_some hs' hx', accInl_nat]
    rw [List.map_nil] at ih
    simp only [ih, List.map_append, List.map_cons]
  | none acc t r hs hx ih =>
    have hs' := stopAt_nat h stops (t :: r)
    have hx' := inlineB_nat h stops (t :: r)
    rw [List.map_cons, hs] at hs'
    rw [List.map_cons, hx] at hx'
    rw [paraB_none hs hx, List.map_cons, paraB_none hs' hx', ← ih]
    simp

theorem headB_nat (stops : List Stop) (acc ts : List Token) :
    headB stops (acc.map f) (ts.map f) =
      ((headB stops acc ts).1.map (HeadItem.mapT f), (headB stops acc ts).2.map f) := by
  induction acc, ts using headB_ind stops with
  | stop acc ts hs =>
    rw [headB_stop hs, headB_stop (by rw [stopAt_nat h]; exact hs), accHead_nat]
  | some acc t r x r' hs hx ih =>
    have hs' := stopAt_nat h stops (t :: r)
    have hx' := linkB_nat h stops (t :: r)
    rw [hs] at hs'
    rw [hx] at hx'
    rw [headB_some hs hx, headB_some hs' hx', accHead_nat]
    rw [List.map_nil] at ih
    simp only [ih, List.map_append, List.map_cons]
    rfl
  | none acc t r hs hx ih =>
    have hs' := stopAt_nat h stops (t :: r)
    have hx' := linkB_nat h stops (t :: r)
    rw [List.map_cons, hs] at hs'
    rw [List.map_cons, hx] at hx'
    rw [headB_none hs hx, List.map_cons, headB_none hs' hx', ← ih]
    simp

/-! ### Blocks -/

theorem modifierB_nat (stops : List Stop) (ts : List Token) :
    modifierB stops (ts.map f) = (modifierB stops ts).map (mapR f (Mod.mapT f)) := by
  unfold modifierB
  rw [tokenIs_nat (keeps_col0 h), untilB_nat h (keeps_eolOrTerminator h)]
  split
  · rfl
  · cases untilB stops isEolOrTerminator ts <;> rfl

theorem optModB_nat (stops : List Stop) (ts : List Token) :
    optModB stops (ts.map f) = mapR f (Option.map (Mod.mapT f)) (optModB stops ts) := by
  unfold optModB
  rw [modifierB_nat h]
  cases modifierB stops ts <;> rfl

theorem closeLineB_nat (stops : List Stop) (c : Token) (r : List Token) :
    closeLineB stops (f c) (r.map f) = (closeLineB stops c r).map (mapR f (List.map f)) := by
  cases r with
  | nil => rfl
  | cons t r =>
    have hs := stopAt_nat h stops (t :: r)
    rw [List.map_cons] at hs ⊢
    simp only [closeLineB, hs, keeps_eol h t, nat_k h (k := .Terminator)]
    split
    · rfl
    · split <;> rfl

theorem codeRestB_nat (stops : List Stop) (o : List Token) (m : Option Mod) (r : List Token) :
    codeRestB stops (o.map f) (m.map (Mod.mapT f)) (r.map f)
      = (codeRestB stops o m r).map (mapR f (Block.mapT f)) := by
  unfold codeRestB
  rw [untilB_nat h (keeps_backtick3 h)]
  cases untilB [] isBacktick3 r with
  | none => rfl
  | some x =>
    obtain ⟨b, c, r⟩ := x
    simp only [Option.map_some, mapS]
    rw [closeLineB_nat h]
    cases closeLineB stops c r <;> rfl

theorem codeB_nat (stops : List Stop) (ts : List Token) :
    codeB stops (ts.map f) = (codeB stops ts).map (mapR f (Block.mapT f)) := by
  cases ts with
  | nil => rfl
  | cons t r =>
    have a := codeRestB_nat h stops (t :: r.take 1) none (r.drop 1)
    have b := codeRestB_nat h stops [t] (optModB [] r).1 (optModB [] r).2
    rw [List.map_cons, codeB, codeB, keeps_backtick3 h t, tokenIs_nat (keeps_eol h), optModB_nat h]
    simp only [mapR, List.map_cons, List.map_nil, List.map_take, List.map_drop, Option.map_none] at a b ⊢
    rw [a, b]
    split
    · split <;> rfl
    · rfl

theorem embedB_nat (stops : List Stop) (ts : List Token) :
    embedB stops (ts.map f) = (embedB stops ts).map (mapR f (Block.mapT f)) := by
  cases ts with
  | nil => rfl
  | cons t r =>
    rw [List.map_cons, embedB, embedB, keeps_leftCurly2 h t, untilB_nat h (keeps_pipe h)]
    split
    · cases untilB stops isPipe r with
      | none => rfl
      | some x =>
        obtain ⟨l, p, r⟩ := x
        simp only [Option.map_some, mapS]
        rw [untilB_nat h (keeps_rightCurly2 h)]
        cases untilB stops isRightCurly2 r with
        | none => rfl
        | some x =>
          obtain ⟨a, c, r⟩ := x
          simp only [Option.map_some, mapS]
          rw [closeLineB_nat h]
          cases closeLineB stops c r <;> rfl
    · rfl

theorem imageB_nat (stops : List Stop) (ts : List Token) :
    imageB stops (ts.map f) = (imageB stops ts).map (mapR f (Img.mapT f)) := by
  cases ts with
  | nil => rfl
  | cons t r =>
    rw [List.map_cons, imageB, imageB, keeps_bang1 h t, linkB_nat h]
    split
    · cases linkB stops r with
      | none => rfl
      | some x =>
        obtain ⟨l, r⟩ := x
        simp only [Option.map_some, mapR]
        rw [tokenIs_nat (keeps_eol h), stopAt_nat h]
        split
        · simp [Img.mapT, mapR]
        · split <;> rfl
    · rfl

theorem imagesB_nat (stops : List Stop) (ts : List Token) :
    imagesB stops (ts.map f) = (imagesB stops ts).map (mapR f (List.map (Img.mapT f))) := by
  induction ts using imagesB_ind stops with
  | none ts hn =>
    have hn' := imageB_nat h stops ts
    rw [hn] at hn'
    rw [imagesB_none hn, imagesB_none hn', stopAt_nat h]
    split <;> rfl
  | some ts i r hi ih =>
    have hi' := imageB_nat h stops ts
    rw [hi] at hi'
    rw [imagesB_some hi, imagesB_some hi', ih]
    cases imagesB stops r <;> rfl

theorem iconB_nat (stops : List Stop) (ts : List Token) :
    iconB stops (ts.map f) = (iconB stops ts).map (mapR f (IconLine.mapT f)) := by
  unfold iconB
  rw [tokenIs_nat (keeps_oneBang h), tokenIs_nat (keeps_space1 h), ← List.map_drop, ← List.map_take,
    untilB_nat h (keeps_eol h)]
  split
  · cases untilB stops isEol (ts.drop 2) <;> rfl
  · rfl

theorem optIconB_nat (stops : List Stop) (ts : List Token) :
    optIconB stops (ts.map f) = mapR f (Option.map (IconLine.mapT f)) (optIconB stops ts) := by
  unfold optIconB
  rw [iconB_nat h]
  cases iconB stops ts <;> rfl

theorem termB_nat (ts : List Token) : termB (ts.map f) = mapR f (List.map f) (termB ts) := by
  unfold termB
  rw [tokenIs_nat (keeps_terminator h)]
  split
  · simp [mapR]
  · rfl

theorem hlParasB_nat (stops : List Stop) (ts : List Token) :
    hlParasB stops (ts.map f) = (hlParasB stops ts).map
      (fun x => (x.1.map (HPara.mapT f), x.2.1.map f, x.2.2.map f)) := by
  have main : ∀ n (ts : List Token), ts.length ≤ n → hlParasB stops (ts.map f) = (hlParasB stops ts).map
      (fun x => (x.1.map (HPara.mapT f), x.2.1.map f, x.2.2.map f)) := by
    intro n
    induction n with
    | zero =>
      intro ts hn
      have : ts = [] := by simpa using hn
      subst this
      rw [List.map_nil, hlParasB.eq_def]; simp [stopAt]
    | succ n ih =>
      intro ts hn
      have hp := paraB_nat h (.Terminator :: .HighlightEnd :: stops) [] (termB ts).2
      rw [List.map_nil] at hp
      rw [hlParasB.eq_def, hlParasB.eq_def stops ts]
      rw [stopAt_nat h, tokenIs_nat (keeps_twoBangs h), tokenIs_nat (keeps_eol h), termB_nat h]
      simp only [mapR, hp, List.length_map]
      split
      · rfl
      · split
        · split <;> simp
        · split
          · rename_i hl
            rw [ih _ (by omega)]
            cases hlParasB stops (paraB (.Terminator :: .HighlightEnd :: stops) [] (termB ts).2).2 <;> rfl
          · rfl
  exact main _ ts (Nat.le_refl _)

theorem hlRestB_nat (stops : List Stop) (o : List Token) (m : Option Mod) (r : List Token) :
    hlRestB stops (o.map f) (m.map (Mod.mapT f)) (r.map f)
      = (hlRestB stops o m r).map (mapR f (Block.mapT f)) := by
  unfold hlRestB
  rw [optIconB_nat h]
  have e : ∀ x : Option IconLine × List Token, tokenIs (mapR f (Option.map (IconLine.mapT f)) x).2 0 col0
      = tokenIs x.2 0 col0 := fun x => tokenIs_nat (keeps_col0 h) x.2 0
  have e2 : ∀ x : Option IconLine × List Token, hlParasB stops (mapR f (Option.map (IconLine.mapT f)) x).2
      = _ := fun x => hlParasB_nat h stops x.2
  simp only [e, e2]
  split
  · cases hlParasB stops (optIconB (.Terminator :: stops) r).2 <;> rfl
  · rfl

theorem highlightB_nat (stops : List Stop) (ts : List Token) :
    highlightB stops (ts.map f) = (highlightB stops ts).map (mapR f (Block.mapT f)) := by
  have a := hlRestB_nat h stops (ts.take 2) none (ts.drop 2)
  have b := hlRestB_nat h stops (ts.take 2) (optModB stops (ts.drop 2)).1 (optModB stops (ts.drop 2)).2
  unfold highlightB
  rw [tokenIs_nat (keeps_twoBangs h), tokenIs_nat (keeps_spaceEol h), tokenIs_nat (keeps_eol h), ← List.map_drop,
    ← List.map_take, optModB_nat h]
  simp only [mapR, Option.map_none] at a b ⊢
  rw [a, b]
  split
  · split <;> rfl
  · rfl

theorem markerB_nat (level : Nat) (want : Option ListKind) (ts : List Token) :
    markerB level want (ts.map f) = (markerB level want ts).map (fun x => (x.1, x.2.1.map f, x.2.2.map f)) := by
  have hb : ∀ o : Option Token, (o.map f).bind ListKind.tryFrom = o.bind ListKind.tryFrom := by
    intro o; cases o <;> simp [tryFrom_nat h]
  unfold markerB
  rw [tokenIs_nat (keeps_col0 h), tokenIs_nat (keeps_listMarker h _), tokenIs_nat (keeps_space1 h),
    tokenIs_nat (keeps_indent h _), tokenIs_nat (keeps_listMarker h _), tokenIs_nat (keeps_space1 h),
    List.getElem?_map, List.getElem?_map, hb, hb]
  split
  · split
    · split
      · cases ts[0]?.bind ListKind.tryFrom <;> simp
      · rfl
    · split
      · cases ts[1]?.bind ListKind.tryFrom <;> simp
      · rfl
  · rfl

theorem itemsB_nat (stops : List Stop) (level : Nat) (want : Option ListKind) (ts : List Token) :
    itemsB stops level want (ts.map f) = mapR f (Items.mapT f) (itemsB stops level want ts) := by
  induction level, want, ts using itemsB_ind stops with
  | none level want ts hm =>
    have hm' := markerB_nat h level want ts
    rw [hm] at hm'
    rw [itemsB_none hm, itemsB_none hm']; rfl
  | some level want ts k m r hm ih1 ih2 =>
    have hm' := markerB_nat h level want ts
    rw [hm] at hm'
    have hp : itemPara stops level k (r.map f) = mapR f (List.map (Inl.mapT f)) (itemPara stops level k r) :=
      paraB_nat h (.ListBoundary level k :: stops) [] r
    have hn : itemNested stops level ((itemPara stops level k r).2.map f)
        = mapR f (Items.mapT f) (itemNested stops level (itemPara stops level k r).2) := by
      unfold itemNested
      rw [stopAt_nat h, ih1]
      split <;> rfl
    rw [itemsB_some hm, itemsB_some hm', hp]
    simp only [mapR]
    rw [hn]
    simp only [mapR]
    rw [ih2]
    rfl

theorem headingB_nat (stops : List Stop) (ts : List Token) :
    headingB stops (ts.map f) = (headingB stops ts).map (mapR f (Block.mapT f)) := by
  have := headB_nat h stops [] (ts.drop 2)
  rw [List.map_nil] at this
  unfold headingB
  rw [tokenIs_nat (keeps_hash h), tokenIs_nat (keeps_space1 h), ← List.map_drop, ← List.map_take, this]
  split <;> rfl

theorem thematicB_nat (ts : List Token) :
    thematicB (ts.map f) = (thematicB ts).map (mapR f (Block.mapT f)) := by
  cases ts with
  | nil => rfl
  | cons t r =>
    rw [List.map_cons, thematicB, thematicB, keeps_dash5 h t]
    split <;> rfl

theorem leafB_nat (stops : List Stop) (ts : List Token) :
    leafB stops (ts.map f) = mapR f (Block.mapT f) (leafB stops ts) := by
  have hp := paraB_nat h stops [] ts
  rw [List.map_nil] at hp
  unfold leafB
  rw [itemsB_nat h, imagesB_nat h, thematicB_nat h, headingB_nat h, hp]
  rcases itemsB stops 0 none ts with ⟨i, r⟩
  cases i with
  | cons => rfl
  | nil =>
    have key : ∀ o : Option (List Img × List Token),
        (∃ i l r, o = some (i :: l, r)) ∨ (∀ i l r, o ≠ some (i :: l, r)) := by
      intro o
      rcases o with _ | ⟨_ | ⟨i, l⟩, r⟩ <;> simp
    rcases imagesB stops ts with _ | ⟨_ | ⟨i, l⟩, r⟩
    · simp only [mapR, Items.mapT, Option.map_none]
      cases thematicB ts with
      | some => rfl
      | none => cases headingB stops ts <;> rfl
    · simp only [mapR, Items.mapT, Option.map_some, List.map_nil]
      cases thematicB ts with
      | some => rfl
      | none => cases headingB stops ts <;> rfl
    · rfl

theorem otherB_nat (stops : List Stop) (ts : List Token) :
    otherB stops (ts.map f) = mapR f (Block.mapT f) (otherB stops ts) := by
  unfold otherB
  rw [embedB_nat h, highlightB_nat h, leafB_nat h]
  cases embedB stops ts with
  | some => rfl
  | none => cases highlightB stops ts <;> rfl

theorem skipEolB_nat (ts : List Token) : skipEolB (ts.map f) = mapR f (List.map f) (skipEolB ts) := by
  unfold skipEolB
  rw [tokenIs_nat (keeps_eol h)]
  split
  · simp [mapR]
  · rfl

theorem collCloseB_nat (ts : List Token) :
    collCloseB (ts.map f) = (collCloseB ts).map (mapR f (List.map f)) := by
  unfold collCloseB
  rw [tokenIs_nat (keeps_collapsibleEnd h), tokenIs_nat (keeps_eol h)]
  split
  · split <;> simp [mapR]
  · rfl

end nat

section nat
variable {f : Token → Token} (h : Resp f)
include h

theorem keeps_collapsibleStart : Keeps f isCollapsibleStart := fun t => by
  simp only [isCollapsibleStart, h.kind, h.col]

theorem collOpenB_nat (stops : List Stop) (ts : List Token) :
    collOpenB stops (ts.map f) = (collOpenB stops ts).map
      (fun x => (x.1.map f, x.2.1.map (Mod.mapT f), x.2.2.map f)) := by
  unfold collOpenB
  rw [tokenIs_nat (keeps_collapsibleStart h), tokenIs_nat (keeps_spaceOrEol h.weak), ← List.map_drop, ← List.map_take,
    optModB_nat h.weak]
  have e : ∀ x : Option Mod × List Token, tokenIs (mapR f (Option.map (Mod.mapT f)) x).2 0 col0
      = tokenIs x.2 0 col0 := fun x => tokenIs_nat (keeps_col0 h.weak) x.2 0
  simp only [e]
  split
  · split <;> rfl
  · rfl

theorem flipHead_nat {ts : List Token} (hk : tokenIs ts 0 isCollapsibleStart = true) :
    flipHead (ts.map f) = (flipHead ts).map f := by
  cases ts with
  | nil => rfl
  | cons t r =>
    have : t.kind = .CollapsibleStart := by
      simp [tokenIs, isCollapsibleStart] at hk; exact hk.1
    simp only [List.map_cons, flipHead, h.flip t this]

theorem flipOpen_nat (ts : List Token) : flipOpen (ts.map f) = (flipOpen ts).map f := by
  unfold flipOpen
  rw [tokenIs_nat (keeps_collapsibleStart h), tokenIs_nat (keeps_spaceOrEol h.weak)]
  split
  · rename_i hh
    simp only [Bool.and_eq_true] at hh
    exact flipHead_nat h hh.1
  · rfl

omit h in
theorem docB_fallback {stops ts o m r1} (hs : stopAt stops ts = false) (ht : tokenIs ts 0 isTerminator = false)
    (hc : codeB stops ts = none) (ho : collOpenB stops ts = some (o, m, r1))
    (hcl : collCloseB (skipEolB (docB (.CollapsibleEnd :: stops) r1).2).2 = none)
    {x} (hx : x = flipHead (o ++ (modToks m ++ ((docB (.CollapsibleEnd :: stops) r1).1.toks ++
            (docB (.CollapsibleEnd :: stops) r1).2)))) :
    docB stops ts = (.block (otherB stops x).1 (docB stops (otherB stops x).2).1, (docB stops (otherB stops x).2).2) := by
  cases docB_step hs with
  | term t r h ht' e => rw [h] at ht; simp [tokenIs, ht'] at ht
  | code t r h ht' b' rest' hc' e => rw [hc] at hc'; simp at hc'
  | coll t r h ht' o' m' r1' c' r4' hc' ho' hcl' e =>
    rw [ho] at ho'
    simp only [Option.some.injEq, Prod.mk.injEq] at ho'
    obtain ⟨rfl, rfl, rfl⟩ := ho'
    rw [hcl] at hcl'; simp at hcl'
  | fallback t r h ht' o' m' r1' hc' ho' hcl' e =>
    rw [ho] at ho'
    simp only [Option.some.injEq, Prod.mk.injEq] at ho'
    obtain ⟨rfl, rfl, rfl⟩ := ho'
    rw [hx]; exact e
  | other t r h ht' hc' ho' e => rw [ho] at ho'; simp at ho'

omit h in
theorem docB_plain {stops ts} (hs : stopAt stops ts = false) (ht : tokenIs ts 0 isTerminator = false)
    (hc : codeB stops ts = none) (ho : collOpenB stops ts = none) :
    docB stops ts = (.block (otherB stops (flipOpen ts)).1 (docB stops (otherB stops (flipOpen ts)).2).1,
      (docB stops (otherB stops (flipOpen ts)).2).2) := by
  cases docB_step hs with
  | term t r h ht' e => rw [h] at ht; simp [tokenIs, ht'] at ht
  | code t r h ht' b' rest' hc' e => rw [hc] at hc'; simp at hc'
  | coll t r h ht' o' m' r1' c' r4' hc' ho' hcl' e => rw [ho] at ho'; simp at ho'
  | fallback t r h ht' o' m' r1' hc' ho' hcl' e => rw [ho] at ho'; simp at ho'
  | other t r h ht' hc' ho' e => exact e

theorem docB_nat (stops : List Stop) (ts : List Token) :
    docB stops (ts.map f) = mapR f (Doc.mapT f) (docB stops ts) := by
  induction stops, ts using docB_ind with
  | stop s ts hs e => rw [e, docB_stop (by rw [stopAt_nat h.weak]; exact hs)]; rfl
  | term s t r hs ht e ih =>
    have hs' := stopAt_nat h.weak s (t :: r)
    rw [hs, List.map_cons] at hs'
    rw [e, List.map_cons, docB_term hs' (by rw [keeps_terminator h.weak]; exact ht), ih]
    rfl
  | code s t r b rest hs ht hc e ih =>
    have hs' := stopAt_nat h.weak s (t :: r)
    have hc' := codeB_nat h.weak s (t :: r)
    rw [hs] at hs'
    rw [hc] at hc'
    rw [e, docB_code hs' (by rw [tokenIs_nat (keeps_terminator h.weak)]; exact ht) hc', ih]
    rfl
  | coll s t r o m r1 c r4 hs ht hc ho hcl e ih1 ih2 =>
    have hs' := stopAt_nat h.weak s (t :: r)
    have hc' := codeB_nat h.weak s (t :: r)
    have ho' := collOpenB_nat h s (t :: r)
    rw [hs] at hs'
    rw [hc] at hc'
    rw [ho] at ho'
    have hsk := skipEolB_nat h.weak (docB (.CollapsibleEnd :: s) r1).2
    have hcl' := collCloseB_nat h.weak (skipEolB (docB (.CollapsibleEnd :: s) r1).2).2
    rw [hcl] at hcl'
    rw [e, docB_coll hs' (by rw [tokenIs_nat (keeps_terminator h.weak)]; exact ht) hc' ho' (c := c.map f) (r4 := r4.map f)
      (by simp only [ih1, mapR, hsk, hcl']; rfl)]
    simp only [ih1, mapR, hsk, ih2]
    rfl
  | fallback s t r o m r1 x hs ht hc ho hcl hx hl hst e ih1 ih2 =>
    have hs' := stopAt_nat h.weak s (t :: r)
    have hc' := codeB_nat h.weak s (t :: r)
    have ho' := collOpenB_nat h s (t :: r)
    rw [hs] at hs'
    rw [hc] at hc'
    rw [ho] at ho'
    have hsk := skipEolB_nat h.weak (docB (.CollapsibleEnd :: s) r1).2
    have hcl' := collCloseB_nat h.weak (skipEolB (docB (.CollapsibleEnd :: s) r1).2).2
    rw [hcl] at hcl'
    obtain ⟨tk, ol, hk⟩ := collOpenB_toks ho
    have hx' : x.map f = flipHead (o.map f ++ (modToks (m.map (Mod.mapT f)) ++
        ((docB (.CollapsibleEnd :: s) (r1.map f)).1.toks ++ (docB (.CollapsibleEnd :: s) (r1.map f)).2))) := by
      rw [ih1]
      simp only [mapR, Doc.mapT_toks, modToks_mapT, ← List.map_append]
      rw [hx, flipHead_nat h]
      unfold collOpenB at ho
      split at ho
      · rename_i hh
        simp only [Bool.and_eq_true] at hh
        have h1 := hh.1
        rw [tk] at h1
        match o, ol with
        | [a, b], _ => exact h1
      · simp at ho
    rw [e, docB_fallback hs' (by rw [tokenIs_nat (keeps_terminator h.weak)]; exact ht) hc' ho'
      (by simp only [ih1, mapR, hsk, hcl']; rfl) hx', otherB_nat h.weak]
    simp only [mapR]
    rw [ih2]
    rfl
  | other s t r hs ht hc ho hst e ih =>
    have hs' := stopAt_nat h.weak s (t :: r)
    have hc' := codeB_nat h.weak s (t :: r)
    have ho' := collOpenB_nat h s (t :: r)
    rw [hs] at hs'
    rw [hc] at hc'
    rw [ho] at ho'
    rw [e, docB_plain hs' (by rw [tokenIs_nat (keeps_terminator h.weak)]; exact ht) hc' ho', flipOpen_nat h, otherB_nat h.weak]
    simp only [mapR]
    rw [ih]
    rfl

/-- The tree of mapped tokens is the mapped tree. -/
theorem topB_nat (ts : List Token) : topB (ts.map f) = (topB ts).mapT f := by
  unfold topB
  rw [delimB_nat h.weak (keeps_threeDashes h.weak) (keeps_threeDashes h.weak)]
  cases delimB isThreeDashes isThreeDashes .Metadata [] ts with
  | none => simp only [Option.map_none, docB_nat h]; rfl
  | some x => simp only [Option.map_some, mapR, docB_nat h]; rfl

end nat

end Yamd.Ref
