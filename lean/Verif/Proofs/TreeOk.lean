import Verif.Proofs.Induct

/-!
# What the trees of the reference parser look like

`Doc.Ok` collects the facts about the shape of a tree that the op stream and document properties need:
which tokens delimit which node, that text runs are not empty and not adjacent, that nothing inline
holds a blank line, ...
-/

namespace Yamd.Ref

open Yamd

/-- No blank line among the tokens. -/
def NoTerm (ts : List Token) : Prop := ∀ t ∈ ts, t.kind ≠ .Terminator

theorem NoTerm.append {a b} (h1 : NoTerm a) (h2 : NoTerm b) : NoTerm (a ++ b) := by
  intro t ht; rcases List.mem_append.1 ht with h | h
  · exact h1 t h
  · exact h2 t h

theorem NoTerm.cons {t a} (h1 : t.kind ≠ .Terminator) (h2 : NoTerm a) : NoTerm (t :: a) := by
  intro u hu; rcases List.mem_cons.1 hu with rfl | h
  · exact h1
  · exact h2 u h

theorem NoTerm.nil : NoTerm [] := by intro t ht; cases ht
theorem NoTerm.left {a b} (h : NoTerm (a ++ b)) : NoTerm a := fun t ht => h t (by simp [ht])
theorem NoTerm.right {a b} (h : NoTerm (a ++ b)) : NoTerm b := fun t ht => h t (by simp [ht])

/-- No two neighbours satisfy `f`. -/
def NoAdj {α : Type} (f : α → Bool) : List α → Prop
  | [] => True
  | [_] => True
  | a :: b :: r => ¬ (f a = true ∧ f b = true) ∧ NoAdj f (b :: r)

/-- A styled run with its delimiters. -/
def Delim.Style (d : Delim) : Prop :=
  (d.node = .Strikethrough ∧ isTilde2 d.opening = true ∧ isTilde2 d.closing = true) ∨
  (d.node = .Italic ∧ isUnderscore d.opening = true ∧ isUnderscore d.closing = true) ∨
  (d.node = .CodeSpan ∧ isBacktick1 d.opening = true ∧ isBacktick1 d.closing = true) ∨
  (d.node = .Emphasis ∧ isStar1 d.opening = true ∧ isStar1 d.closing = true)

/-- The styled runs of a bold. -/
def Delim.BoldStyle (d : Delim) : Prop :=
  (d.node = .Strikethrough ∧ isTilde2 d.opening = true ∧ isTilde2 d.closing = true) ∨
  (d.node = .Italic ∧ isUnderscore d.opening = true ∧ isUnderscore d.closing = true)

def BoldItem.isText : BoldItem → Bool
  | .text _ => true
  | _ => false

def BoldItem.Ok : BoldItem → Prop
  | .text ts => ts ≠ []
  | .delim d => d.BoldStyle

def Link.Ok (l : Link) : Prop :=
  l.title.node = .Title ∧ isLeftBracket l.title.opening = true ∧ isRightBracket l.title.closing = true ∧
  l.dest.node = .Destination ∧ isLeftParen l.dest.opening = true ∧ l.dest.closing.kind = .RightParenthesis

def Inl.isText : Inl → Bool
  | .text _ => true
  | _ => false

def Inl.Ok : Inl → Prop
  | .text ts => ts ≠ []
  | .delim d => d.Style
  | .bold o items c => isStar2 o = true ∧ isStar2 c = true ∧ (∀ x ∈ items, x.Ok) ∧ NoAdj BoldItem.isText items
  | .anchor l => l.Ok

def ParaOk (l : List Inl) : Prop := (∀ x ∈ l, x.Ok) ∧ NoAdj Inl.isText l ∧ NoTerm (paraToks l)

def HeadItem.isText : HeadItem → Bool
  | .text _ => true
  | _ => false

def HeadItem.Ok : HeadItem → Prop
  | .text ts => ts ≠ []
  | .anchor l => l.Ok

def HeadOk (l : List HeadItem) : Prop :=
  (∀ x ∈ l, x.Ok) ∧ NoAdj HeadItem.isText l ∧ NoTerm (l.flatMap HeadItem.toks)

def Img.Ok (i : Img) : Prop :=
  isBang1 i.bang = true ∧ i.link.Ok ∧ (i.eol = [] ∨ ∃ e, i.eol = [e] ∧ isEol e = true) ∧ NoTerm i.toks

/-- A token, or a token and a second one (a line break). -/
def LineOf (f g : Token → Bool) (ts : List Token) : Prop :=
  (∃ t, ts = [t] ∧ f t = true) ∨ ∃ t e, ts = [t, e] ∧ f t = true ∧ g e = true

/-- Two tokens. -/
def PairOf (f g : Token → Bool) (ts : List Token) : Prop := ∃ t e, ts = [t, e] ∧ f t = true ∧ g e = true

/-- The marker of an item at a level. -/
def MarkerOk (level : Nat) (k : ListKind) (m : List Token) : Prop :=
  (level = 0 ∧ ∃ a b, m = [a, b] ∧ col0 a = true ∧ ListKind.tryFrom a = some k ∧ isSpace1 b = true) ∨
  (level ≠ 0 ∧ ∃ s a b, m = [s, a, b] ∧ col0 s = true ∧ s.kind = .Space ∧ s.len = level ∧
    ListKind.tryFrom a = some k ∧ isSpace1 b = true)

/-- `want` is the kind every item has to have. -/
def Items.Ok (level : Nat) (want : Option ListKind) : Items → Prop
  | .nil => True
  | .cons k m p n r => (∀ w, want = some w → k = w) ∧ MarkerOk level k m ∧ ParaOk p ∧
    n.Ok (level + 1) none ∧ r.Ok level (some k)

def Mod.Ok (m : Mod) : Prop := isEolOrTerminator m.eol = true ∧ ∀ t ∈ m.body, isEolOrTerminator t = false

def ModOk : Option Mod → Prop
  | none => True
  | some m => m.Ok

def IconOk : Option IconLine → Prop
  | none => True
  | some i => PairOf isOneBang isSpace1 i.marker ∧ NoTerm i.body ∧ isEol i.eol = true

def HPara.Ok (h : HPara) : Prop :=
  (h.term = [] ∨ ∃ t, h.term = [t] ∧ isTerminator t = true) ∧ ParaOk h.para

def Block.Ok : Block → Prop
  | .code o m b c => LineOf isBacktick3 isEol o ∧ ModOk m ∧ (∀ t ∈ b, isBacktick3 t = false) ∧
    LineOf isBacktick3 isEol c
  | .embed o l p r c => isLeftCurly2 o = true ∧ (∀ t ∈ l, isPipe t = false) ∧ isPipe p = true ∧
    (∀ t ∈ r, isRightCurly2 t = false) ∧ LineOf isRightCurly2 isEol c
  | .highlight o m i b c => PairOf isTwoBangs (fun t => isSpace1 t || isEol t) o ∧ ModOk m ∧ IconOk i ∧
    (∀ x ∈ b, x.Ok) ∧ LineOf isTwoBangs isEol c
  | .list i => i.Ok 0 none ∧ i ≠ .nil
  | .images l => l ≠ [] ∧ ∀ x ∈ l, x.Ok
  | .thematic t => isDash5 t = true
  | .heading m b => (∃ a s, m = [a, s] ∧ isHash a = true ∧ isSpace1 s = true) ∧ HeadOk b
  | .para l => ParaOk l

def Doc.Ok : Doc → Prop
  | .nil => True
  | .term t r => isTerminator t = true ∧ r.Ok
  | .block b r => b.Ok ∧ r.Ok
  | .coll o m i s c r => PairOf isCollapsibleStart isSpaceOrEol o ∧ ModOk m ∧ i.Ok ∧
    (s = [] ∨ ∃ e, s = [e] ∧ isEol e = true) ∧ LineOf isCollapsibleEnd isEol c ∧ r.Ok

/-! ### Proofs -/

theorem MarkerOk.noTerm {level k m} (h : MarkerOk level k m) : NoTerm m := by
  have hk : ∀ {a}, ListKind.tryFrom a = some k → a.kind ≠ .Terminator := by
    intro a ha hk
    simp [ListKind.tryFrom, hk] at ha
  have hs : ∀ {b}, isSpace1 b = true → b.kind ≠ .Terminator := by
    intro b hb
    simp only [isSpace1, Bool.and_eq_true, decide_eq_true_eq] at hb
    rw [hb.1]; decide
  rcases h with ⟨-, a, b, rfl, -, h1, h2⟩ | ⟨-, s, a, b, rfl, -, h0, -, h1, h2⟩
  · exact .cons (hk h1) (.cons (hs h2) .nil)
  · exact .cons (by rw [h0]; decide) (.cons (hk h1) (.cons (hs h2) .nil))

theorem icon_noTerm {m} (h : PairOf isOneBang isSpace1 m) : NoTerm m := by
  obtain ⟨a, b, rfl, h1, h2⟩ := h
  refine .cons ?_ (.cons ?_ .nil)
  · simp only [isOneBang, Bool.and_eq_true, decide_eq_true_eq] at h1
    rw [h1.1.1]; decide
  · simp only [isSpace1, Bool.and_eq_true, decide_eq_true_eq] at h2
    rw [h2.1]; decide

theorem stop_noTerm {stops t r} (hT : .Terminator ∈ stops) (h : stopAt stops (t :: r) = false) :
    t.kind ≠ .Terminator := by
  simp only [stopAt, List.any_eq_false] at h
  have := h _ hT
  simpa [stopHere] using this

theorem untilB_ok {stops m} : ∀ {ts b c r}, untilB stops m ts = some (b, c, r) →
    m c = true ∧ (∀ t ∈ b, m t = false) ∧ (.Terminator ∈ stops → NoTerm (b ++ [c])) := by
  intro ts
  induction ts with
  | nil => intro b c r h; simp [untilB] at h
  | cons t ts ih =>
    intro b c r h
    unfold untilB at h
    split at h
    · simp at h
    · rename_i hs
      have hs : stopAt stops (t :: ts) = false := by simpa using hs
      split at h
      · rename_i hm
        simp only [Option.some.injEq, Prod.mk.injEq] at h
        obtain ⟨rfl, rfl, rfl⟩ := h
        exact ⟨hm, by simp, fun hT => .cons (stop_noTerm hT hs) .nil⟩
      · rename_i hm
        simp only [Option.map_eq_some_iff] at h
        obtain ⟨⟨b', c', r'⟩, h1, h2⟩ := h
        simp only [Prod.mk.injEq] at h2
        obtain ⟨rfl, rfl, rfl⟩ := h2
        obtain ⟨i1, i2, i3⟩ := ih h1
        refine ⟨i1, ?_, fun hT => .cons (stop_noTerm hT hs) (i3 hT)⟩
        intro u hu
        rcases List.mem_cons.1 hu with rfl | hu
        · simpa using hm
        · exact i2 u hu

theorem delimB_ok {o c n stops} {ts : List Token} {d r} (h : delimB o c n stops ts = some (d, r)) :
    d.node = n ∧ o d.opening = true ∧ c d.closing = true ∧ (∀ t ∈ d.body, c t = false) ∧
    (.Terminator ∈ stops → NoTerm (d.body ++ [d.closing])) := by
  cases ts with
  | nil => simp [delimB] at h
  | cons t ts =>
    rw [delimB] at h
    split at h
    · rename_i ho
      simp only [Option.map_eq_some_iff] at h
      obtain ⟨⟨b', c', r'⟩, h1, h2⟩ := h
      simp only [Prod.mk.injEq] at h2
      obtain ⟨rfl, rfl⟩ := h2
      obtain ⟨i1, i2, i3⟩ := untilB_ok h1
      exact ⟨rfl, ho, i1, i2, i3⟩
    · simp at h

theorem noTerm_delim {d : Delim} (h1 : d.opening.kind ≠ .Terminator) (h2 : NoTerm (d.body ++ [d.closing])) :
    NoTerm d.toks := .cons h1 h2

theorem destScan_ok {stops} : ∀ {ts depth b c r}, destScan stops depth ts = some (b, c, r) →
    c.kind = .RightParenthesis ∧ (.Terminator ∈ stops → NoTerm (b ++ [c])) := by
  intro ts
  induction ts with
  | nil => intro depth b c r h; simp [destScan] at h
  | cons t ts ih =>
    intro depth b c r h
    unfold destScan at h
    split at h
    · simp at h
    · rename_i hs
      have hs : stopAt stops (t :: ts) = false := by simpa using hs
      split at h
      · simp only [Option.map_eq_some_iff] at h
        obtain ⟨⟨b', c', r'⟩, h1, h2⟩ := h
        simp only [Prod.mk.injEq] at h2
        obtain ⟨rfl, rfl, rfl⟩ := h2
        obtain ⟨i1, i2⟩ := ih h1
        exact ⟨i1, fun hT => .cons (stop_noTerm hT hs) (i2 hT)⟩
      · split at h
        · rename_i hk
          split at h
          · simp only [Option.some.injEq, Prod.mk.injEq] at h
            obtain ⟨rfl, rfl, rfl⟩ := h
            exact ⟨hk, fun hT => .cons (stop_noTerm hT hs) .nil⟩
          · split at h
            · rename_i x hx
              obtain ⟨b', c', r'⟩ := x
              simp only [Option.some.injEq, Prod.mk.injEq] at h
              obtain ⟨rfl, rfl, rfl⟩ := h
              obtain ⟨i1, i2⟩ := ih hx
              exact ⟨i1, fun hT => .cons (stop_noTerm hT hs) (i2 hT)⟩
            · simp only [Option.some.injEq, Prod.mk.injEq] at h
              obtain ⟨rfl, rfl, rfl⟩ := h
              exact ⟨hk, fun hT => .cons (stop_noTerm hT hs) .nil⟩
        · simp only [Option.map_eq_some_iff] at h
          obtain ⟨⟨b', c', r'⟩, h1, h2⟩ := h
          simp only [Prod.mk.injEq] at h2
          obtain ⟨rfl, rfl, rfl⟩ := h2
          obtain ⟨i1, i2⟩ := ih h1
          exact ⟨i1, fun hT => .cons (stop_noTerm hT hs) (i2 hT)⟩

theorem destB_ok {stops} {ts : List Token} {d r} (h : destB stops ts = some (d, r)) :
    d.node = .Destination ∧ isLeftParen d.opening = true ∧ d.closing.kind = .RightParenthesis ∧
    (.Terminator ∈ stops → NoTerm d.toks) := by
  cases ts with
  | nil => simp [destB] at h
  | cons t ts =>
    rw [destB] at h
    split at h
    · rename_i ho
      simp only [Option.map_eq_some_iff] at h
      obtain ⟨⟨b', c', r'⟩, h1, h2⟩ := h
      simp only [Prod.mk.injEq] at h2
      obtain ⟨rfl, rfl⟩ := h2
      obtain ⟨i1, i2⟩ := destScan_ok h1
      refine ⟨rfl, ho, i1, fun hT => .cons ?_ (i2 hT)⟩
      simp only [isLeftParen, Bool.and_eq_true, decide_eq_true_eq] at ho
      rw [ho.1]; decide
    · simp at h

theorem linkB_ok {stops} {ts : List Token} {l r} (h : linkB stops ts = some (l, r)) :
    l.Ok ∧ (.Terminator ∈ stops → NoTerm l.toks) := by
  unfold linkB at h
  split at h
  · simp at h
  · rename_i t r1 h1
    split at h
    · simp at h
    · rename_i d r2 h2
      simp only [Option.some.injEq, Prod.mk.injEq] at h
      obtain ⟨rfl, rfl⟩ := h
      obtain ⟨a1, a2, a3, a4, a5⟩ := delimB_ok h1
      obtain ⟨b1, b2, b3, b4⟩ := destB_ok h2
      refine ⟨⟨a1, a2, a3, b1, b2, b3⟩, fun hT => .append (noTerm_delim ?_ (a5 hT)) (b4 hT)⟩
      simp only [isLeftBracket, Bool.and_eq_true, decide_eq_true_eq] at a2
      rw [a2.1]; decide

theorem noTerm_of {f : Token → Bool} {k : TokenKind} {n : Nat} {t : Token}
    (hf : f = fun t => t.kind = k && t.len = n) (h : f t = true) (hk : k ≠ .Terminator) :
    t.kind ≠ .Terminator := by
  subst hf
  simp only [Bool.and_eq_true, decide_eq_true_eq] at h
  rw [h.1]; exact hk

theorem tilde2_noTerm {t} (h : isTilde2 t = true) : t.kind ≠ .Terminator :=
  noTerm_of rfl h (by decide)
theorem underscore_noTerm {t} (h : isUnderscore t = true) : t.kind ≠ .Terminator :=
  noTerm_of rfl h (by decide)
theorem star1_noTerm {t} (h : isStar1 t = true) : t.kind ≠ .Terminator :=
  noTerm_of rfl h (by decide)
theorem star2_noTerm {t} (h : isStar2 t = true) : t.kind ≠ .Terminator :=
  noTerm_of rfl h (by decide)
theorem backtick1_noTerm {t} (h : isBacktick1 t = true) : t.kind ≠ .Terminator :=
  noTerm_of rfl h (by decide)

theorem boldChildB_ok {stops} {ts : List Token} {d r} (h : boldChildB stops ts = some (d, r)) :
    d.BoldStyle ∧ (.Terminator ∈ stops → NoTerm d.toks) := by
  unfold boldChildB at h
  split at h
  · rename_i h1; rw [h] at h1
    obtain ⟨a1, a2, a3, -, a5⟩ := delimB_ok h1
    exact ⟨.inl ⟨a1, a2, a3⟩, fun hT => noTerm_delim (tilde2_noTerm a2) (a5 hT)⟩
  · obtain ⟨a1, a2, a3, -, a5⟩ := delimB_ok h
    exact ⟨.inr ⟨a1, a2, a3⟩, fun hT => noTerm_delim (underscore_noTerm a2) (a5 hT)⟩

/-- Text run (possibly missing) in front of something that is not text. -/
theorem noAdj_acc {α : Type} {f : α → Bool} {x y : α} {l : List α} (acc : List Token) (hx : f x = false)
    (hl : NoAdj f l) : NoAdj f ((if acc = [] then [] else [y]) ++ x :: l) := by
  have h1 : NoAdj f (x :: l) := by
    cases l with
    | nil => trivial
    | cons b l => exact ⟨by simp [hx], hl⟩
  split
  · exact h1
  · exact ⟨by simp [hx], h1⟩

theorem noAdj_end {α : Type} {f : α → Bool} {y : α} (acc : List Token) :
    NoAdj f (if acc = [] then [] else [y]) := by
  split <;> trivial

theorem boldItemsB_ok {stops} (acc ts : List Token) : ∀ {l c r}, boldItemsB stops acc ts = some (l, c, r) →
    isStar2 c = true ∧ (∀ x ∈ l, x.Ok) ∧ NoAdj BoldItem.isText l ∧
    (.Terminator ∈ stops → NoTerm acc → NoTerm (l.flatMap BoldItem.toks)) := by
  have hacc : ∀ acc : List Token, ∀ x ∈ (if acc = [] then [] else [BoldItem.text acc]), x.Ok := by
    intro acc x hx; split at hx
    · cases hx
    · simp only [List.mem_singleton] at hx; subst hx; assumption
  have haccT : ∀ acc : List Token, (if acc = [] then [] else [BoldItem.text acc]).flatMap BoldItem.toks = acc := by
    intro acc; split <;> simp_all [BoldItem.toks]
  induction acc, ts using boldItemsB_ind stops with
  | stop acc ts hs => intro l c r h; rw [boldItemsB_stop hs] at h; simp at h
  | close acc t r hs h2 =>
    intro l c r' h
    rw [boldItemsB_close hs h2] at h
    simp only [Option.some.injEq, Prod.mk.injEq] at h
    obtain ⟨rfl, rfl, rfl⟩ := h
    refine ⟨h2, hacc acc, noAdj_end acc, ?_⟩
    intro _ ha; rw [haccT]; exact ha
  | some acc t r d r' hs h2 hi ih =>
    intro l c r'' h
    rw [boldItemsB_some hs h2 hi] at h
    simp only [Option.map_eq_some_iff] at h
    obtain ⟨⟨l', c', r3⟩, h3, h4⟩ := h
    simp only [Prod.mk.injEq] at h4
    obtain ⟨rfl, rfl, rfl⟩ := h4
    obtain ⟨i1, i2, i3, i4⟩ := ih h3
    obtain ⟨k1, k2⟩ := boldChildB_ok hi
    refine ⟨i1, ?_, noAdj_acc acc rfl i3, ?_⟩
    · intro x hx
      rcases List.mem_append.1 hx with hx | hx
      · exact hacc acc x hx
      · rcases List.mem_cons.1 hx with rfl | hx
        · exact k1
        · exact i2 x hx
    · intro hT ha
      simp only [List.flatMap_append, List.flatMap_cons, haccT]
      exact ha.append ((k2 hT).append (i4 hT .nil))
  | none acc t r hs h2 hi ih =>
    intro l c r' h
    rw [boldItemsB_none hs h2 hi] at h
    obtain ⟨i1, i2, i3, i4⟩ := ih h
    exact ⟨i1, i2, i3, fun hT ha => i4 hT (ha.append (.cons (stop_noTerm hT hs) .nil))⟩

theorem inlineB_ok {stops} {ts : List Token} {x r} (h : inlineB stops ts = some (x, r)) :
    x.Ok ∧ x.isText = false ∧ (.Terminator ∈ stops → NoTerm x.toks) := by
  unfold inlineB at h
  repeat' split at h
  all_goals simp only [Option.some.injEq, Prod.mk.injEq, reduceCtorEq] at h
  · obtain ⟨rfl, rfl⟩ := h; rename_i h1
    obtain ⟨a1, a2, a3, -, a5⟩ := delimB_ok h1
    exact ⟨.inl ⟨a1, a2, a3⟩, rfl, fun hT => noTerm_delim (tilde2_noTerm a2) (a5 hT)⟩
  · obtain ⟨rfl, rfl⟩ := h; rename_i h1
    obtain ⟨a1, a2, a3, -, a5⟩ := delimB_ok h1
    exact ⟨.inr (.inl ⟨a1, a2, a3⟩), rfl, fun hT => noTerm_delim (underscore_noTerm a2) (a5 hT)⟩
  · rename_i h1; rw [h] at h1
    cases ts with
    | nil => simp [boldB] at h1
    | cons t ts =>
      rw [boldB] at h1
      split at h1
      · rename_i ho
        simp only [Option.map_eq_some_iff] at h1
        obtain ⟨⟨l, c, r'⟩, h2, h3⟩ := h1
        simp only [Prod.mk.injEq] at h3
        obtain ⟨rfl, rfl⟩ := h3
        obtain ⟨i1, i2, i3, i4⟩ := boldItemsB_ok _ _ h2
        refine ⟨⟨ho, i1, i2, i3⟩, rfl, fun hT => .cons (star2_noTerm ho) (.append (i4 hT .nil) (.cons (star2_noTerm i1) .nil))⟩
      · simp at h1
  · obtain ⟨rfl, rfl⟩ := h; rename_i h1
    obtain ⟨a1, a2⟩ := linkB_ok h1
    exact ⟨a1, rfl, a2⟩
  · obtain ⟨rfl, rfl⟩ := h; rename_i h1
    obtain ⟨a1, a2, a3, -, a5⟩ := delimB_ok h1
    exact ⟨.inr (.inr (.inl ⟨a1, a2, a3⟩)), rfl, fun hT => noTerm_delim (backtick1_noTerm a2) (a5 hT)⟩
  · obtain ⟨rfl, rfl⟩ := h; rename_i h1
    obtain ⟨a1, a2, a3, -, a5⟩ := delimB_ok h1
    exact ⟨.inr (.inr (.inr ⟨a1, a2, a3⟩)), rfl, fun hT => noTerm_delim (star1_noTerm a2) (a5 hT)⟩

theorem paraB_ok {stops} (hT : .Terminator ∈ stops) (acc ts : List Token) (ha : NoTerm acc) :
    ParaOk (paraB stops acc ts).1 := by
  have hacc : ∀ acc : List Token, ∀ x ∈ (if acc = [] then [] else [Inl.text acc]), x.Ok := by
    intro acc x hx; split at hx
    · cases hx
    · simp only [List.mem_singleton] at hx; subst hx; assumption
  have haccT : ∀ acc : List Token, (if acc = [] then [] else [Inl.text acc]).flatMap Inl.toks = acc := by
    intro acc; split <;> simp_all [Inl.toks]
  induction acc, ts using paraB_ind stops with
  | stop acc ts hs =>
    rw [paraB_stop hs]
    refine ⟨hacc acc, noAdj_end acc, ?_⟩
    show NoTerm (paraToks _)
    unfold paraToks; rw [haccT]; exact ha
  | some acc t r x r' hs hi ih =>
    rw [paraB_some hs hi]
    obtain ⟨i1, i2, i3⟩ := ih .nil
    obtain ⟨k1, k2, k3⟩ := inlineB_ok hi
    refine ⟨?_, noAdj_acc acc k2 i2, ?_⟩
    · intro x hx
      rcases List.mem_append.1 hx with hx | hx
      · exact hacc acc x hx
      · rcases List.mem_cons.1 hx with rfl | hx
        · exact k1
        · exact i1 x hx
    · show NoTerm (paraToks _)
      unfold paraToks at i3 ⊢
      simp only [List.flatMap_append, List.flatMap_cons, haccT]
      exact ha.append ((k3 hT).append i3)
  | none acc t r hs hi ih =>
    rw [paraB_none hs hi]
    exact ih (ha.append (.cons (stop_noTerm hT hs) .nil))

theorem headB_ok {stops} (hT : .Terminator ∈ stops) (acc ts : List Token) (ha : NoTerm acc) :
    HeadOk (headB stops acc ts).1 := by
  have hacc : ∀ acc : List Token, ∀ x ∈ (if acc = [] then [] else [HeadItem.text acc]), x.Ok := by
    intro acc x hx; split at hx
    · cases hx
    · simp only [List.mem_singleton] at hx; subst hx; assumption
  have haccT : ∀ acc : List Token, (if acc = [] then [] else [HeadItem.text acc]).flatMap HeadItem.toks = acc := by
    intro acc; split <;> simp_all [HeadItem.toks]
  induction acc, ts using headB_ind stops with
  | stop acc ts hs =>
    rw [headB_stop hs]
    refine ⟨hacc acc, noAdj_end acc, ?_⟩
    simp only [haccT]; exact ha
  | some acc t r x r' hs hi ih =>
    rw [headB_some hs hi]
    obtain ⟨i1, i2, i3⟩ := ih .nil
    obtain ⟨k1, k3⟩ := linkB_ok hi
    refine ⟨?_, noAdj_acc acc rfl i2, ?_⟩
    · intro x hx
      rcases List.mem_append.1 hx with hx | hx
      · exact hacc acc x hx
      · rcases List.mem_cons.1 hx with rfl | hx
        · exact k1
        · exact i1 x hx
    · simp only [List.flatMap_append, List.flatMap_cons, haccT]
      exact ha.append ((k3 hT).append i3)
  | none acc t r hs hi ih =>
    rw [headB_none hs hi]
    exact ih (ha.append (.cons (stop_noTerm hT hs) .nil))

theorem optModB_ok (stops ts) : ModOk (optModB stops ts).1 := by
  unfold optModB
  split
  · rename_i m r h
    unfold modifierB at h
    split at h
    · simp at h
    · simp only [Option.map_eq_some_iff] at h
      obtain ⟨⟨b, c, r'⟩, h1, h2⟩ := h
      simp only [Prod.mk.injEq] at h2
      obtain ⟨rfl, rfl⟩ := h2
      obtain ⟨i1, i2, -⟩ := untilB_ok h1
      exact ⟨i1, i2⟩
  · trivial

theorem closeLineB_ok {stops c r x} {f : Token → Bool} (hc : f c = true) (h : closeLineB stops c r = some x) :
    LineOf f isEol x.1 := by
  unfold closeLineB at h
  split at h
  · simp only [Option.some.injEq] at h; subst h; exact .inl ⟨c, rfl, hc⟩
  · rename_i t r'
    split at h
    · rename_i he
      simp only [Option.some.injEq] at h; subst h; exact .inr ⟨c, t, rfl, hc, he⟩
    · split at h
      · simp only [Option.some.injEq] at h; subst h; exact .inl ⟨c, rfl, hc⟩
      · simp at h

theorem codeB_ok {stops ts b r} (h : codeB stops ts = some (b, r)) : b.Ok := by
  have key : ∀ {opening m r b rest}, codeRestB stops opening m r = some (b, rest) → ModOk m →
      LineOf isBacktick3 isEol opening → b.Ok := by
    intro opening m r b rest h hm ho
    unfold codeRestB at h
    split at h
    · simp at h
    · rename_i b' c' r' h1
      obtain ⟨i1, i2, -⟩ := untilB_ok h1
      simp only [Option.map_eq_some_iff] at h
      obtain ⟨x, h3, h2⟩ := h
      simp only [Prod.mk.injEq] at h2
      obtain ⟨rfl, rfl⟩ := h2
      exact ⟨ho, hm, i2, closeLineB_ok i1 h3⟩
  cases ts with
  | nil => simp [codeB] at h
  | cons t ts =>
    unfold codeB at h
    simp only at h
    split at h
    · rename_i ht
      split at h
      · rename_i he
        cases ts with
        | nil => simp [tokenIs] at he
        | cons e ts => exact key h trivial (.inr ⟨t, e, rfl, ht, he⟩)
      · exact key h (optModB_ok _ _) (.inl ⟨t, rfl, ht⟩)
    · simp at h

theorem embedB_ok {stops ts b r} (h : embedB stops ts = some (b, r)) : b.Ok := by
  cases ts with
  | nil => simp [embedB] at h
  | cons t ts =>
    unfold embedB at h
    simp only at h
    split at h
    · rename_i ho
      split at h
      · simp at h
      · rename_i h1
        obtain ⟨i1, i2, -⟩ := untilB_ok h1
        split at h
        · simp at h
        · rename_i h3
          obtain ⟨j1, j2, -⟩ := untilB_ok h3
          simp only [Option.map_eq_some_iff] at h
          obtain ⟨_, h4, h2⟩ := h
          simp only [Prod.mk.injEq] at h2
          obtain ⟨rfl, rfl⟩ := h2
          exact ⟨ho, i2, i1, j2, closeLineB_ok j1 h4⟩
    · simp at h

theorem imageB_ok {stops} (hT : .Terminator ∈ stops) {ts i r} (h : imageB stops ts = some (i, r)) : i.Ok := by
  cases ts with
  | nil => simp [imageB] at h
  | cons t ts =>
    unfold imageB at h
    simp only at h
    split at h
    · rename_i hb
      have hbt : t.kind ≠ .Terminator := noTerm_of rfl hb (by decide)
      split at h
      · simp at h
      · rename_i l r1 h1
        obtain ⟨k1, k2⟩ := linkB_ok h1
        split at h
        · rename_i he
          simp only [Option.some.injEq, Prod.mk.injEq] at h
          obtain ⟨rfl, rfl⟩ := h
          cases r1 with
          | nil => simp [tokenIs] at he
          | cons e r1 =>
            have he : isEol e = true := he
            refine ⟨hb, k1, .inr ⟨e, rfl, he⟩, .cons hbt (.append (k2 hT) (.cons ?_ .nil))⟩
            simp only [isEol, decide_eq_true_eq] at he
            rw [he]; decide
        · split at h
          · simp only [Option.some.injEq, Prod.mk.injEq] at h
            obtain ⟨rfl, rfl⟩ := h
            exact ⟨hb, k1, .inl rfl, .cons hbt (.append (k2 hT) .nil)⟩
          · simp at h
    · simp at h

theorem imagesB_ok {stops} (hT : .Terminator ∈ stops) (ts : List Token) : ∀ {l r},
    imagesB stops ts = some (l, r) → ∀ x ∈ l, x.Ok := by
  induction ts using imagesB_ind stops with
  | none ts h =>
    intro l r hl
    rw [imagesB_none h] at hl
    split at hl
    · simp only [Option.some.injEq, Prod.mk.injEq] at hl
      obtain ⟨rfl, rfl⟩ := hl
      simp
    · simp at hl
  | some ts i r h ih =>
    intro l r hl
    rw [imagesB_some h] at hl
    simp only [Option.map_eq_some_iff] at hl
    obtain ⟨⟨l', r'⟩, h1, h2⟩ := hl
    simp only [Prod.mk.injEq] at h2
    obtain ⟨rfl, rfl⟩ := h2
    intro x hx
    rcases List.mem_cons.1 hx with rfl | hx
    · exact imageB_ok hT h
    · exact ih h1 x hx

theorem markerB_ok {level want ts k m r} (h : markerB level want ts = some (k, m, r)) :
    (∀ w, want = some w → k = w) ∧ MarkerOk level k m := by
  have hmk : ∀ {t : Token} {want}, isListMarker want t = true →
      ∀ k, ListKind.tryFrom t = some k → ∀ w, want = some w → k = w := by
    intro t want ht
    unfold isListMarker at ht
    intro k hk w hw
    rw [hk, hw] at ht
    simpa using ht
  unfold markerB at h
  split at h
  · rename_i hcol
    split at h
    · rename_i hlev
      split at h
      · rename_i hh
        simp only [Bool.and_eq_true] at hh
        obtain ⟨h1, h2⟩ := hh
        match ts, h1, h2, h, hcol with
        | a :: b :: ts, h1, h2, h, hcol =>
          simp only [tokenIs, List.getElem?_cons_zero, List.getElem?_cons_succ] at h1 h2
          simp only [List.getElem?_cons_zero, Option.bind_some, Option.map_eq_some_iff, Prod.mk.injEq] at h
          obtain ⟨k', hk, rfl, rfl, rfl⟩ := h
          exact ⟨hmk h1 _ hk, .inl ⟨hlev, a, b, rfl, hcol, hk, h2⟩⟩
      · simp at h
    · rename_i hlev
      split at h
      · rename_i hh
        simp only [Bool.and_eq_true] at hh
        obtain ⟨⟨h0, h1⟩, h2⟩ := hh
        match ts, h0, h1, h2, h, hcol with
        | a :: b :: c :: ts, h0, h1, h2, h, hcol =>
          simp only [tokenIs, List.getElem?_cons_zero, List.getElem?_cons_succ] at h0 h1 h2
          simp only [List.getElem?_cons_zero, List.getElem?_cons_succ, Option.bind_some, Option.map_eq_some_iff, Prod.mk.injEq] at h
          obtain ⟨k', hk, rfl, rfl, rfl⟩ := h
          simp only [Bool.and_eq_true, decide_eq_true_eq] at h0
          exact ⟨hmk h1 _ hk, .inr ⟨hlev, a, b, c, rfl, hcol, h0.1, h0.2, hk, h2⟩⟩
      · simp at h
  · simp at h

theorem itemsB_ok {stops} (hT : .Terminator ∈ stops) (level want ts) :
    (itemsB stops level want ts).1.Ok level want := by
  induction level, want, ts using itemsB_ind stops with
  | none level want ts h => rw [itemsB_none h]; trivial
  | some level want ts k m r h ih1 ih2 =>
    rw [itemsB_some h]
    obtain ⟨k1, k2⟩ := markerB_ok h
    refine ⟨k1, k2, paraB_ok (by simp [hT]) _ _ .nil, ?_, ih2⟩
    unfold itemNested
    split
    · trivial
    · exact ih1

theorem iconB_ok {stops ts} (hT : .Terminator ∈ stops) : IconOk (optIconB stops ts).1 := by
  unfold optIconB
  split
  · rename_i m r h
    unfold iconB at h
    split at h
    · rename_i hh
      simp only [Bool.and_eq_true] at hh
      obtain ⟨h1, h2⟩ := hh
      simp only [Option.map_eq_some_iff] at h
      obtain ⟨⟨b, c, r'⟩, h3, h4⟩ := h
      simp only [Prod.mk.injEq] at h4
      obtain ⟨rfl, rfl⟩ := h4
      obtain ⟨i1, -, i3⟩ := untilB_ok h3
      refine ⟨?_, (i3 hT).left, i1⟩
      match ts, h1, h2 with
      | a :: b :: ts, h1, h2 => exact ⟨a, b, rfl, h1, h2⟩
    · simp at h
  · trivial

theorem termB_ok (ts : List Token) :
    (termB ts).1 = [] ∨ ∃ t, (termB ts).1 = [t] ∧ isTerminator t = true := by
  unfold termB
  split
  · rename_i h
    cases ts with
    | nil => simp [tokenIs] at h
    | cons t ts => exact .inr ⟨t, rfl, h⟩
  · exact .inl rfl

theorem hlParasB_ok {stops ts l c r} (h : hlParasB stops ts = some (l, c, r)) :
    (∀ x ∈ l, x.Ok) ∧ LineOf isTwoBangs isEol c := by
  refine hlParasB_ind stops (P := fun _ l c _ => (∀ x ∈ l, x.Ok) ∧ LineOf isTwoBangs isEol c) ?_ ?_ ?_ ts l c r h
  · intro ts _ h1 h2
    refine ⟨fun x hx => (by cases hx), ?_⟩
    match ts, h1, h2 with
    | a :: b :: ts, h1, h2 => exact .inr ⟨a, b, rfl, h1, h2⟩
  · intro ts _ h1 _
    refine ⟨fun x hx => (by cases hx), ?_⟩
    cases ts with
    | nil => simp [tokenIs] at h1
    | cons a ts => exact .inl ⟨a, rfl, h1⟩
  · intro ts l c r _ _ _ ih
    refine ⟨fun x hx => ?_, ih.2⟩
    rcases List.mem_cons.1 hx with rfl | hx
    · exact ⟨termB_ok ts, paraB_ok (by simp) _ _ .nil⟩
    · exact ih.1 x hx

theorem highlightB_ok {stops ts b r} (h : highlightB stops ts = some (b, r)) : b.Ok := by
  have key : ∀ {opening m r b rest}, hlRestB stops opening m r = some (b, rest) → ModOk m →
      PairOf isTwoBangs (fun t => isSpace1 t || isEol t) opening → b.Ok := by
    intro opening m r b rest h hm ho
    unfold hlRestB at h
    simp only at h
    split at h
    · simp only [Option.map_eq_some_iff] at h
      obtain ⟨⟨l, c, r'⟩, h1, h2⟩ := h
      simp only [Prod.mk.injEq] at h2
      obtain ⟨rfl, rfl⟩ := h2
      exact ⟨ho, hm, iconB_ok (by simp), (hlParasB_ok h1).1, (hlParasB_ok h1).2⟩
    · simp at h
  unfold highlightB at h
  split at h
  · rename_i hh
    simp only [Bool.and_eq_true] at hh
    have ho : PairOf isTwoBangs (fun t => isSpace1 t || isEol t) (ts.take 2) := by
      match ts, hh.1, hh.2 with
      | a :: b :: ts, h1, h2 => exact ⟨a, b, rfl, h1, h2⟩
    split at h
    · exact key h trivial ho
    · exact key h (optModB_ok _ _) ho
  · simp at h

theorem leafB_ok {stops} (hT : .Terminator ∈ stops) (ts) : (leafB stops ts).1.Ok := by
  rcases leafB_cases stops ts with ⟨k, m, p, n, r, rest, h1, h2⟩ | ⟨i, l, r, h1, h2⟩ | h | h | h
  · rw [h2]
    have := itemsB_ok hT 0 none ts
    rw [h1] at this
    exact ⟨this, by simp⟩
  · rw [h2]
    exact ⟨by simp, imagesB_ok hT ts h1⟩
  · generalize leafB stops ts = x at h
    cases ts with
    | nil => simp [thematicB] at h
    | cons t r =>
      rw [thematicB] at h
      split at h
      · simp only [Option.some.injEq] at h
        subst h; assumption
      · simp at h
  · generalize leafB stops ts = x at h
    unfold headingB at h
    split at h
    · rename_i hh
      simp only [Bool.and_eq_true] at hh
      obtain ⟨h1, h2⟩ := hh
      simp only [Option.some.injEq] at h
      subst h
      match ts, h1, h2 with
      | a :: b :: ts, h1, h2 => exact ⟨⟨a, b, rfl, h1, h2⟩, headB_ok hT _ _ .nil⟩
    · simp at h
  · rw [h]
    exact paraB_ok hT _ _ .nil

theorem otherB_ok (stops ts) : (otherB stops ts).1.Ok := by
  rcases otherB_cases stops ts with h | h | h
  · exact embedB_ok h
  · exact highlightB_ok h
  · rw [h]; exact leafB_ok (by simp) ts

theorem docB_ok (s ts) : (docB s ts).1.Ok := by
  induction s, ts using docB_ind with
  | stop s ts h e => rw [e]; trivial
  | term s t r hs ht e ih => rw [e]; exact ⟨ht, ih⟩
  | code s t r b rest hs ht hc e ih => rw [e]; exact ⟨codeB_ok hc, ih⟩
  | coll s t r o m r1 c r4 hs ht hc ho hcl e ih1 ih2 =>
    rw [e]
    have hom : PairOf isCollapsibleStart isSpaceOrEol o ∧ ModOk m := by
      unfold collOpenB at ho
      split at ho
      · rename_i hh
        split at ho
        · simp only [Option.some.injEq, Prod.mk.injEq] at ho
          obtain ⟨rfl, rfl, rfl⟩ := ho
          refine ⟨?_, optModB_ok _ _⟩
          simp only [Bool.and_eq_true] at hh
          cases r with
          | nil => simp [tokenIs] at hh
          | cons b r => exact ⟨t, b, rfl, hh.1, hh.2⟩
        · simp at ho
      · simp at ho
    refine ⟨hom.1, hom.2, ih1, ?_, ?_, ih2⟩
    · unfold skipEolB
      split
      · rename_i h
        revert h
        generalize (docB (.CollapsibleEnd :: s) r1).2 = q
        intro h
        cases q with
        | nil => simp [tokenIs] at h
        | cons e q => exact .inr ⟨e, rfl, h⟩
      · exact .inl rfl
    · revert hcl
      generalize (skipEolB (docB (.CollapsibleEnd :: s) r1).2).2 = q
      intro hcl
      unfold collCloseB at hcl
      split at hcl
      · rename_i h
        cases q with
        | nil => simp [tokenIs] at h
        | cons e' q =>
          split at hcl
          · rename_i h2
            simp only [Option.some.injEq, Prod.mk.injEq] at hcl
            obtain ⟨rfl, rfl⟩ := hcl
            cases q with
            | nil => simp [tokenIs] at h2
            | cons e2 q => exact .inr ⟨e', e2, rfl, h, h2⟩
          · simp only [Option.some.injEq, Prod.mk.injEq] at hcl
            obtain ⟨rfl, rfl⟩ := hcl
            exact .inl ⟨e', rfl, h⟩
      · simp at hcl
  | fallback s t r o m r1 x hs ht hc ho hcl hx hl hst e _ ih => rw [e]; exact ⟨otherB_ok _ _, ih⟩
  | other s t r hs ht hc ho hst e ih => rw [e]; exact ⟨otherB_ok _ _, ih⟩

end Yamd.Ref
