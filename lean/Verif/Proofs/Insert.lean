import Verif.Proofs.Natural
import Verif.Proofs.TreeOk

/-!
# Literals put in behind literals

A text run may be cut into several literal tokens: the reference parser then builds the same tree with
longer runs.
-/

namespace Yamd.Ref

open Yamd Yamd.Round

/-- `e t` is put in behind every token `t`. -/
def ins (e : Token → List Token) (ts : List Token) : List Token := ts.flatMap fun t => t :: e t

/-- Only literals that do not start a line are put in, and only behind literals. -/
structure Ins (e : Token → List Token) : Prop where
  non : ∀ t, t.kind ≠ .Literal → e t = []
  lit : ∀ t, ∀ u ∈ e t, u.kind = .Literal

section maps
variable (e : Token → List Token)

def Delim.mapX (d : Delim) : Delim := ⟨d.node, d.opening, ins e d.body, d.closing⟩

def BoldItem.mapX : BoldItem → BoldItem
  | .text ts => .text (ins e ts)
  | .delim d => .delim (d.mapX e)

def Link.mapX (l : Link) : Link := ⟨l.title.mapX e, l.dest.mapX e⟩

def Inl.mapX : Inl → Inl
  | .text ts => .text (ins e ts)
  | .delim d => .delim (d.mapX e)
  | .bold o items c => .bold (o) (items.map (BoldItem.mapX e)) (c)
  | .anchor l => .anchor (l.mapX e)

def HeadItem.mapX : HeadItem → HeadItem
  | .text ts => .text (ins e ts)
  | .anchor l => .anchor (l.mapX e)

def Img.mapX (i : Img) : Img := ⟨i.bang, i.link.mapX e, ins e i.eol⟩

def Items.mapX : Items → Items
  | .nil => .nil
  | .cons k m p n r => .cons k (ins e m) (p.map (Inl.mapX e)) n.mapX r.mapX

def Mod.mapX (m : Mod) : Mod := ⟨ins e m.body, m.eol⟩

def IconLine.mapX (i : IconLine) : IconLine := ⟨ins e i.marker, ins e i.body, i.eol⟩

def HPara.mapX (h : HPara) : HPara := ⟨ins e h.term, h.para.map (Inl.mapX e)⟩

def Block.mapX : Block → Block
  | .code o m b c => .code (ins e o) (m.map (Mod.mapX e)) (ins e b) (ins e c)
  | .embed o l p r c => .embed (o) (ins e l) (p) (ins e r) (ins e c)
  | .highlight o m i b c =>
    .highlight (ins e o) (m.map (Mod.mapX e)) (i.map (IconLine.mapX e)) (b.map (HPara.mapX e)) (ins e c)
  | .list i => .list (i.mapX e)
  | .images l => .images (l.map (Img.mapX e))
  | .thematic t => .thematic (t)
  | .heading m b => .heading (ins e m) (b.map (HeadItem.mapX e))
  | .para l => .para (l.map (Inl.mapX e))

def Doc.mapX : Doc → Doc
  | .nil => .nil
  | .term t r => .term (t) r.mapX
  | .block b r => .block (b.mapX e) r.mapX
  | .coll o m i s c r => .coll (ins e o) (m.map (Mod.mapX e)) i.mapX (ins e s) (ins e c) r.mapX

def Top.mapX (t : Top) : Top := ⟨t.meta?.map (Delim.mapX e), t.doc.mapX e⟩

/-- Map a result and the tokens after it. -/
def insR {α : Type} (g : α → α) (x : α × List Token) : α × List Token := (g x.1, ins e x.2)

/-- Map a scan: tokens before, the token, tokens after. -/
def insS (x : List Token × Token × List Token) : List Token × Token × List Token :=
  (ins e x.1, x.2.1, ins e x.2.2)

end maps

/-! ### Lists -/

section lists
variable {e : Token → List Token}

theorem ins_cons (t : Token) (r : List Token) : ins e (t :: r) = t :: (e t ++ ins e r) := rfl

theorem ins_nil : ins e [] = [] := rfl

theorem ins_append (a b : List Token) : ins e (a ++ b) = ins e a ++ ins e b := List.flatMap_append

theorem ins_eq_nil {a : List Token} : ins e a = [] ↔ a = [] := by
  cases a <;> simp [ins]

/-- Not true of literals. -/
def NL (m : Token → Bool) : Prop := ∀ t, m t = true → t.kind ≠ .Literal

theorem nl_kl {k : TokenKind} (hk : k ≠ .Literal) (p : Token → Bool) : NL (fun t => decide (t.kind = k) && p t) := by
  intro t h
  simp only [Bool.and_eq_true, decide_eq_true_eq] at h
  rw [h.1]; exact hk

theorem nl_kcl {k : TokenKind} (hk : k ≠ .Literal) (p : Token → Bool) :
    NL (fun t => decide (t.kind = k) && col0 t && p t) := by
  intro t h
  simp only [Bool.and_eq_true, decide_eq_true_eq] at h
  rw [h.1.1]; exact hk

theorem NL.lit {m : Token → Bool} (h : NL m) {t : Token} (ht : t.kind = .Literal) : m t = false := by
  cases hm : m t with
  | false => rfl
  | true => exact absurd ht (h t hm)

theorem nl_tilde2 : NL isTilde2 := nl_kl (by decide) _
theorem nl_underscore : NL isUnderscore := nl_kl (by decide) _
theorem nl_star1 : NL isStar1 := nl_kl (by decide) _
theorem nl_star2 : NL isStar2 := nl_kl (by decide) _
theorem nl_backtick1 : NL isBacktick1 := nl_kl (by decide) _
theorem nl_leftBracket : NL isLeftBracket := nl_kl (by decide) _
theorem nl_rightBracket : NL isRightBracket := nl_kl (by decide) _
theorem nl_leftParen : NL isLeftParen := nl_kl (by decide) _
theorem nl_threeDashes : NL isThreeDashes := nl_kcl (by decide) _
theorem nl_hash : NL isHash := nl_kcl (by decide) _
theorem nl_backtick3 : NL isBacktick3 := nl_kcl (by decide) _
theorem nl_leftCurly2 : NL isLeftCurly2 := nl_kcl (by decide) _
theorem nl_pipe : NL isPipe := nl_kl (by decide) _
theorem nl_rightCurly2 : NL isRightCurly2 := nl_kl (by decide) _
theorem nl_bang1 : NL isBang1 := nl_kl (by decide) _
theorem nl_dash5 : NL isDash5 := nl_kcl (by decide) _
theorem nl_twoBangs : NL isTwoBangs := nl_kcl (by decide) _
theorem nl_oneBang : NL isOneBang := nl_kcl (by decide) _
theorem nl_space1 : NL isSpace1 := nl_kl (by decide) _
theorem nl_indent (n : Nat) : NL (fun t => t.kind = .Space && t.len = n) := nl_kl (by decide) _
theorem nl_eol : NL isEol := by
  intro t h; simp only [isEol, decide_eq_true_eq] at h; rw [h]; decide
theorem nl_terminator : NL isTerminator := by
  intro t h; simp only [isTerminator, decide_eq_true_eq] at h; rw [h]; decide
theorem nl_collapsibleEnd : NL isCollapsibleEnd := by
  intro t h; simp only [isCollapsibleEnd, Bool.and_eq_true, decide_eq_true_eq] at h; rw [h.1]; decide
theorem nl_collapsibleStart : NL isCollapsibleStart := by
  intro t h; simp only [isCollapsibleStart, Bool.and_eq_true, decide_eq_true_eq] at h; rw [h.1]; decide
theorem nl_eolOrTerminator : NL isEolOrTerminator := by
  intro t h; simp only [isEolOrTerminator, Bool.or_eq_true, decide_eq_true_eq] at h
  rcases h with h | h <;> (rw [h]; decide)
theorem nl_spaceOrEol : NL isSpaceOrEol := by
  intro t h; simp only [isSpaceOrEol, Bool.or_eq_true, decide_eq_true_eq] at h
  rcases h with h | h <;> (rw [h]; decide)
theorem nl_spaceEol : NL (fun t => isSpace1 t || isEol t) := by
  intro t h; simp only [Bool.or_eq_true] at h
  rcases h with h | h
  · exact nl_space1 t h
  · exact nl_eol t h
theorem nl_marker (k : Option ListKind) : NL (isListMarker k) := by
  intro t h hk
  simp [isListMarker, ListKind.tryFrom, hk] at h

theorem tokenIs_head (ts : List Token) (m : Token → Bool) : tokenIs (ins e ts) 0 m = tokenIs ts 0 m := by
  cases ts <;> rfl

variable (h : Ins e)
include h

theorem ins_non {t : Token} (ht : t.kind ≠ .Literal) (r : List Token) : ins e (t :: r) = t :: ins e r := by
  rw [ins_cons, h.non t ht]; rfl

theorem ins_one {t : Token} (ht : t.kind ≠ .Literal) : ins e [t] = [t] := by
  rw [ins_non h ht]; rfl

/-- A token that is no literal, at the front. -/
theorem front_ins {ts : List Token} {m : Token → Bool} (hm : NL m) (h0 : tokenIs ts 0 m = true) :
    ∃ t r, ts = t :: r ∧ m t = true ∧ ins e ts = t :: ins e r := by
  cases ts with
  | nil => simp [tokenIs] at h0
  | cons t r =>
    have : m t = true := by simpa [tokenIs] using h0
    exact ⟨t, r, rfl, this, ins_non h (hm t this) r⟩

theorem take1_ins {ts : List Token} {m : Token → Bool} (hm : NL m) (h0 : tokenIs ts 0 m = true) :
    (ins e ts).take 1 = ins e (ts.take 1) ∧ (ins e ts).drop 1 = ins e (ts.drop 1) := by
  obtain ⟨t, r, rfl, ht, e1⟩ := front_ins h hm h0
  rw [e1]
  refine ⟨?_, rfl⟩
  simp only [List.take_succ_cons, List.take_zero]
  rw [ins_one h (hm t ht)]

theorem tokenIs1 {ts : List Token} {m : Token → Bool} (hm : NL m) (h0 : tokenIs ts 0 m = true) (q : Token → Bool) :
    tokenIs (ins e ts) 1 q = tokenIs ts 1 q := by
  obtain ⟨t, r, rfl, ht, e1⟩ := front_ins h hm h0
  rw [e1]
  exact tokenIs_head (e := e) r q

theorem two_ins (ts : List Token) {m : Token → Bool} (hm : NL m) (q : Token → Bool) :
    (tokenIs (ins e ts) 0 m && tokenIs (ins e ts) 1 q) = (tokenIs ts 0 m && tokenIs ts 1 q) := by
  rw [tokenIs_head]
  cases h0 : tokenIs ts 0 m with
  | false => rfl
  | true => rw [tokenIs1 h hm h0]

theorem take2_ins {ts : List Token} {m q : Token → Bool} (hm : NL m) (hq : NL q) (h0 : tokenIs ts 0 m = true)
    (h1 : tokenIs ts 1 q = true) :
    (ins e ts).take 2 = ins e (ts.take 2) ∧ (ins e ts).drop 2 = ins e (ts.drop 2) := by
  obtain ⟨t, r, rfl, ht, e1⟩ := front_ins h hm h0
  have h1' : tokenIs r 0 q = true := h1
  obtain ⟨a, b⟩ := take1_ins h hq h1'
  rw [e1]
  refine ⟨?_, b⟩
  show t :: (ins e r).take 1 = ins e (t :: r.take 1)
  rw [ins_non h (hm t ht), a]

theorem take3_ins {ts : List Token} {m p q : Token → Bool} (hm : NL m) (hp : NL p) (hq : NL q)
    (h0 : tokenIs ts 0 m = true) (h1 : tokenIs ts 1 p = true) (h2 : tokenIs ts 2 q = true) :
    (ins e ts).take 3 = ins e (ts.take 3) ∧ (ins e ts).drop 3 = ins e (ts.drop 3) := by
  obtain ⟨t, r, rfl, ht, e1⟩ := front_ins h hm h0
  obtain ⟨a, b⟩ := take2_ins (ts := r) h hp hq h1 h2
  rw [e1]
  refine ⟨?_, b⟩
  show t :: (ins e r).take 2 = ins e (t :: r.take 2)
  rw [ins_non h (hm t ht), a]

theorem three_ins (ts : List Token) {m p : Token → Bool} (hm : NL m) (hp : NL p) (q : Token → Bool) :
    (tokenIs (ins e ts) 0 m && tokenIs (ins e ts) 1 p && tokenIs (ins e ts) 2 q)
      = (tokenIs ts 0 m && tokenIs ts 1 p && tokenIs ts 2 q) := by
  rw [two_ins h ts hm]
  cases h0 : tokenIs ts 0 m with
  | false => rfl
  | true =>
    obtain ⟨t, r, rfl, ht, e1⟩ := front_ins h hm h0
    have a := two_ins h r hp q
    rw [tokenIs_head] at a
    rw [e1]
    show (true && tokenIs r 0 p && tokenIs (ins e r) 1 q) = (true && tokenIs r 0 p && tokenIs r 1 q)
    rw [Bool.true_and]
    exact a

/-! ### Tokens of a tree -/

theorem ins_mid {o c : Token} (ho : o.kind ≠ .Literal) (hc : c.kind ≠ .Literal) (b : List Token) :
    o :: (ins e b ++ [c]) = ins e (o :: (b ++ [c])) := by
  rw [ins_non h ho, ins_append, ins_one h hc]

theorem Delim.ins_toks {d : Delim} (ho : d.opening.kind ≠ .Literal) (hc : d.closing.kind ≠ .Literal) :
    (d.mapX e).toks = ins e d.toks := ins_mid h ho hc d.body

theorem boldStyle_toks {d : Delim} (hd : d.BoldStyle) : (d.mapX e).toks = ins e d.toks := by
  rcases hd with ⟨-, a, b⟩ | ⟨-, a, b⟩
  · exact Delim.ins_toks h (nl_tilde2 _ a) (nl_tilde2 _ b)
  · exact Delim.ins_toks h (nl_underscore _ a) (nl_underscore _ b)

theorem style_toks {d : Delim} (hd : d.Style) : (d.mapX e).toks = ins e d.toks := by
  rcases hd with ⟨-, a, b⟩ | ⟨-, a, b⟩ | ⟨-, a, b⟩ | ⟨-, a, b⟩
  · exact Delim.ins_toks h (nl_tilde2 _ a) (nl_tilde2 _ b)
  · exact Delim.ins_toks h (nl_underscore _ a) (nl_underscore _ b)
  · exact Delim.ins_toks h (nl_backtick1 _ a) (nl_backtick1 _ b)
  · exact Delim.ins_toks h (nl_star1 _ a) (nl_star1 _ b)

theorem BoldItem.ins_toks {x : BoldItem} (hx : x.Ok) : (x.mapX e).toks = ins e x.toks := by
  cases x with
  | text => rfl
  | delim d => exact boldStyle_toks h hx

theorem Link.ins_toks {l : Link} (hl : l.Ok) : (l.mapX e).toks = ins e l.toks := by
  obtain ⟨-, a, b, -, c, d⟩ := hl
  have e1 := Delim.ins_toks h (nl_leftBracket _ a) (nl_rightBracket _ b)
  have e2 := Delim.ins_toks h (d := l.dest) (nl_leftParen _ c) (by rw [d]; decide)
  simp only [Link.mapX, Link.toks, e1, e2, ins_append]

omit h in
theorem flatMap_ins {α : Type} {g : α → α} {tk : α → List Token} (l : List α) (H : ∀ x ∈ l, tk (g x) = ins e (tk x)) :
    (l.map g).flatMap tk = ins e (l.flatMap tk) := by
  induction l with
  | nil => rfl
  | cons a l ih =>
    rw [List.map_cons, List.flatMap_cons, List.flatMap_cons, ins_append, H a (by simp), ih (fun x hx => H x (by simp [hx]))]

theorem Inl.ins_toks {x : Inl} (hx : x.Ok) : (x.mapX e).toks = ins e x.toks := by
  cases x with
  | text => rfl
  | delim d => exact style_toks h hx
  | bold o items c =>
    obtain ⟨h1, h2, h3, -⟩ := hx
    have := flatMap_ins (e := e) (g := BoldItem.mapX e) (tk := BoldItem.toks) items (fun x hx => BoldItem.ins_toks h (h3 x hx))
    show o :: ((items.map (BoldItem.mapX e)).flatMap BoldItem.toks ++ [c]) = _
    rw [this]
    exact ins_mid h (nl_star2 _ h1) (nl_star2 _ h2) _
  | anchor l => exact Link.ins_toks h hx

theorem para_ins_toks {l : List Inl} (hl : ∀ x ∈ l, x.Ok) : paraToks (l.map (Inl.mapX e)) = ins e (paraToks l) :=
  flatMap_ins l (fun x hx => Inl.ins_toks h (hl x hx))

theorem HeadItem.ins_toks {x : HeadItem} (hx : x.Ok) : (x.mapX e).toks = ins e x.toks := by
  cases x with
  | text => rfl
  | anchor l => exact Link.ins_toks h hx

theorem Img.ins_toks {x : Img} (hx : x.Ok) : (x.mapX e).toks = ins e x.toks := by
  obtain ⟨h1, h2, -⟩ := hx
  simp only [Img.mapX, Img.toks, Link.ins_toks h h2]
  rw [ins_non h (nl_bang1 _ h1), ins_append]

theorem Items.ins_toks (i : Items) : ∀ {n w}, i.Ok n w → (i.mapX e).toks = ins e i.toks := by
  induction i with
  | nil => intros; rfl
  | cons k m p n r ih1 ih2 =>
    intro lv w hi
    obtain ⟨-, -, h3, h4, h5⟩ := hi
    simp only [Items.mapX, Items.toks, para_ins_toks h h3.1, ih1 h4, ih2 h5, ins_append]

theorem mod_ins_toks {m : Option Mod} (hm : ModOk m) : modToks (m.map (Mod.mapX e)) = ins e (modToks m) := by
  cases m with
  | none => rfl
  | some m =>
    simp only [Option.map_some, modToks, Mod.mapX, ins_append]
    rw [ins_one h (nl_eolOrTerminator _ hm.1)]

theorem icon_ins_toks {m : Option IconLine} (hm : IconOk m) : iconToks (m.map (IconLine.mapX e)) = ins e (iconToks m) := by
  cases m with
  | none => rfl
  | some m =>
    simp only [Option.map_some, iconToks, IconLine.mapX, ins_append]
    rw [ins_one h (nl_eol _ hm.2.2)]

theorem HPara.ins_toks {x : HPara} (hx : x.Ok) : (x.mapX e).toks = ins e x.toks := by
  simp only [HPara.mapX, HPara.toks, para_ins_toks h hx.2.1, ins_append]

theorem Block.ins_toks {b : Block} (hb : b.Ok) : (b.mapX e).toks = ins e b.toks := by
  cases b with
  | code o m b c => simp only [Block.mapX, Block.toks, mod_ins_toks h hb.2.1, ins_append]
  | embed o l p r c =>
    simp only [Block.mapX, Block.toks]
    rw [ins_non h (nl_leftCurly2 _ hb.1), ins_append, ins_non h (nl_pipe _ hb.2.2.1), ins_append]
  | highlight o m i b c =>
    have := flatMap_ins (e := e) (g := HPara.mapX e) (tk := HPara.toks) b (fun x hx => HPara.ins_toks h (hb.2.2.2.1 x hx))
    simp only [Block.mapX, Block.toks, mod_ins_toks h hb.2.1, icon_ins_toks h hb.2.2.1, this, ins_append]
  | list i => exact Items.ins_toks h i hb.1
  | images l => exact flatMap_ins l (fun x hx => Img.ins_toks h (hb.2 x hx))
  | thematic t => exact (ins_one h (nl_dash5 _ hb)).symm
  | heading m b =>
    have := flatMap_ins (e := e) (g := HeadItem.mapX e) (tk := HeadItem.toks) b (fun x hx => HeadItem.ins_toks h (hb.2.1 x hx))
    simp only [Block.mapX, Block.toks, this, ins_append]
  | para l => exact para_ins_toks h hb.1

theorem Doc.ins_toks {d : Doc} (hd : d.Ok) : (d.mapX e).toks = ins e d.toks := by
  induction d with
  | nil => rfl
  | term t r ih =>
    simp only [Doc.mapX, Doc.toks, ih hd.2]
    rw [ins_non h (nl_terminator _ hd.1)]
  | block b r ih => simp only [Doc.mapX, Doc.toks, Block.ins_toks h hd.1, ih hd.2, ins_append]
  | coll o m i s c r ih1 ih2 =>
    obtain ⟨-, h2, h3, -, -, h6⟩ := hd
    simp only [Doc.mapX, Doc.toks, mod_ins_toks h h2, ih1 h3, ih2 h6, ins_append]

end lists

end Yamd.Ref
