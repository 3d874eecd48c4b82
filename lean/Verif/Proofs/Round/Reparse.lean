import Verif.Proofs.Round.Spell

/-!
# Parsing the tokens of a well formed tree gives the tree back

Conditions are on single tokens; a text has tokens that open nothing, a delimited body has no closing
token, and no token before the end of the construct meets a stop condition.
-/

namespace Yamd.Round

open Yamd Yamd.Spec Yamd.Ref

theorem tailAll {α : Type} {P : α → Prop} {x : α} {l : List α} (h : ∀ y ∈ x :: l, P y) : ∀ y ∈ l, P y :=
  fun y hy => h y (List.mem_cons_of_mem x hy)

/-! ### Quiet tokens -/

/-- The token cannot meet the stop condition, whatever follows (except `%}` after a line break). -/
def quiet1 (t : Token) : Stop → Bool
  | .Terminator => !(t.kind = .Terminator)
  | .CollapsibleEnd => !(t.kind = .CollapsibleEnd && col0 t)
  | .HighlightEnd => !(t.kind = .Bang && col0 t && t.len = 2)
  | .ListBoundary _ _ => !(col0 t && (t.kind = .Minus || t.kind = .Plus || t.kind = .Space))

def quiet (stops : List Stop) (t : Token) : Bool := stops.all (quiet1 t)

/-- `%}` at the start of a line. -/
def closesColl (rest : List Token) : Bool := tokenIs rest 0 (fun t => t.kind = .CollapsibleEnd && col0 t)

/-- The rest does not start with a closing `%}`. -/
def Calm (stops : List Stop) (rest : List Token) : Prop := .CollapsibleEnd ∈ stops → closesColl rest = false

theorem listMarker_kind {k : Option ListKind} {t : Token} (h : isListMarker k t = true) :
    t.kind = .Minus ∨ t.kind = .Plus := by
  unfold isListMarker ListKind.tryFrom at h
  split at h
  · simp at h
  · rename_i h1
    split at h1
    · rename_i h2; exact .inl h2.1
    · split at h1
      · rename_i h2; exact .inr h2.1
      · simp at h1

theorem tokenIs_zero {t : Token} {r : List Token} {f} : tokenIs (t :: r) 0 f = f t := rfl
theorem tokenIs_one {t u : Token} {r : List Token} {f} : tokenIs (t :: u :: r) 1 f = f u := rfl
theorem tokenIs_two {t u w : Token} {r : List Token} {f} : tokenIs (t :: u :: w :: r) 2 f = f w := rfl

theorem boundaryHere_kind {t : Token} {r : List Token} {l k i} (h : boundaryHere (t :: r) l k i = true) :
    t.kind = .Minus ∨ t.kind = .Plus ∨ t.kind = .Space := by
  unfold boundaryHere at h
  simp only at h
  split at h
  · simp only [Bool.and_eq_true, tokenIs_zero] at h
    rcases listMarker_kind h.1.2 with h | h
    · exact .inl h
    · exact .inr (.inl h)
  · simp only [Bool.and_eq_true, tokenIs_zero, decide_eq_true_eq] at h
    exact .inr (.inr h.1.1.2.1)

/-- A quiet token does not stop. -/
theorem quiet_stop {stops : List Stop} {t : Token} {r : List Token} (h : quiet stops t = true)
    (hc : Calm stops r) : stopAt stops (t :: r) = false := by
  rw [stopAt, List.any_eq_false]
  intro s hs
  have h1 := List.all_eq_true.1 h s hs
  cases s with
  | Terminator => simpa [quiet1, stopHere] using h1
  | CollapsibleEnd =>
    have h2 := hc hs
    unfold closesColl at h2
    simp only [quiet1, Bool.not_eq_true', stopHere] at h1 ⊢
    rw [h1, h2]; simp
  | HighlightEnd =>
    simp only [quiet1, Bool.not_eq_true', stopHere] at h1 ⊢
    rw [h1]; simp
  | ListBoundary l k =>
    simp only [stopHere, Bool.and_eq_true, List.any_eq_true, not_and, not_exists]
    intro hcol i _ hb
    have := boundaryHere_kind hb
    simp only [quiet1, hcol, Bool.true_and, Bool.not_eq_true', Bool.or_eq_false_iff, decide_eq_false_iff_not] at h1
    rcases this with h | h | h
    · exact h1.1.1 h
    · exact h1.1.2 h
    · exact h1.2 h

theorem calm_cons {stops : List Stop} {t : Token} {r : List Token} (h : quiet stops t = true) : Calm stops (t :: r) := by
  intro hm
  have := List.all_eq_true.1 h _ hm
  simp only [quiet1, Bool.not_eq_true'] at this
  exact this

theorem calm_append {stops : List Stop} {a r : List Token} (h : ∀ t ∈ a, quiet stops t = true) (hr : Calm stops r) :
    Calm stops (a ++ r) := by
  cases a with
  | nil => exact hr
  | cons t a => exact calm_cons (h t (by simp))

/-- Tokens of these kinds are quiet everywhere. -/
def loud : List TokenKind := [.Terminator, .CollapsibleEnd, .Bang, .Minus, .Plus, .Space]

theorem quiet_kind {stops : List Stop} {t : Token} (h : t.kind ∉ loud) : quiet stops t = true := by
  simp only [loud, List.mem_cons, List.not_mem_nil, or_false, not_or] at h
  obtain ⟨h1, h2, h3, h4, h5, h6⟩ := h
  refine List.all_eq_true.2 (fun s _ => ?_)
  cases s <;> simp [quiet1, h1, h2, h3, h4, h5, h6]

/-! ### Delimited bodies -/

theorem untilB_exec {stops m} : ∀ {b : List Token} {c : Token} {rest : List Token},
    (∀ t ∈ b, quiet stops t = true ∧ m t = false) → quiet stops c = true → m c = true → Calm stops rest →
    untilB stops m (b ++ c :: rest) = some (b, c, rest)
  | [], c, rest, _, hq, hm, hr => by
    rw [List.nil_append, untilB, if_neg (by simp [quiet_stop hq hr]), if_pos hm]
  | t :: b, c, rest, hb, hq, hm, hr => by
    have h1 := hb t (by simp)
    have hb' : ∀ t ∈ b, quiet stops t = true ∧ m t = false := fun u hu => hb u (by simp [hu])
    rw [List.cons_append, untilB, if_neg, if_neg (by simp [h1.2]), untilB_exec hb' hq hm hr]
    · rfl
    · rw [quiet_stop h1.1 (calm_append (fun u hu => (hb' u hu).1) (calm_cons hq))]; simp

/-- What makes a delimited construct parse back. -/
structure DelimOk (stops : List Stop) (o c : Token → Bool) (n : Node) (d : Delim) : Prop where
  node : d.node = n
  opening : o d.opening = true
  closing : c d.closing = true
  qo : quiet stops d.opening = true
  qc : quiet stops d.closing = true
  body : ∀ t ∈ d.body, quiet stops t = true ∧ c t = false

theorem delimB_exec {stops o c n} {d : Delim} {rest : List Token} (h : DelimOk stops o c n d) (hr : Calm stops rest) :
    delimB o c n stops (d.toks ++ rest) = some (d, rest) := by
  have e : d.toks ++ rest = d.opening :: (d.body ++ d.closing :: rest) := by simp [Delim.toks]
  rw [e, delimB, if_pos h.opening, untilB_exec h.body h.qc h.closing hr]
  obtain ⟨n', o', b', c'⟩ := d
  have := h.node
  simp only at this
  subst this
  rfl

theorem delimB_no {stops o c n} {t : Token} {r : List Token} (h : o t = false) : delimB o c n stops (t :: r) = none := by
  rw [delimB, if_neg (by simp [h])]

theorem delim_quiet {stops o c n} {d : Delim} (h : DelimOk stops o c n d) : ∀ t ∈ d.toks, quiet stops t = true := by
  intro t ht
  simp only [Delim.toks, List.mem_cons, List.mem_append, List.not_mem_nil, or_false] at ht
  rcases ht with rfl | ht | rfl
  · exact h.qo
  · exact (h.body t ht).1
  · exact h.qc

theorem destScan_exec {stops} : ∀ {b : List Token} {c : Token} {rest : List Token},
    (∀ t ∈ b, quiet stops t = true ∧ t.kind ≠ .LeftParenthesis ∧ t.kind ≠ .RightParenthesis) →
    quiet stops c = true → c.kind = .RightParenthesis → Calm stops rest →
    destScan stops 1 (b ++ c :: rest) = some (b, c, rest)
  | [], c, rest, _, hq, hm, hr => by
    rw [List.nil_append, destScan, if_neg (by simp [quiet_stop hq hr]), if_neg (by rw [hm]; simp), if_pos hm]
    simp
  | t :: b, c, rest, hb, hq, hm, hr => by
    have h1 := hb t (by simp)
    have hb' := tailAll hb
    rw [List.cons_append, destScan, if_neg, if_neg h1.2.1, if_neg h1.2.2, destScan_exec hb' hq hm hr]
    · rfl
    · rw [quiet_stop h1.1 (calm_append (fun u hu => (hb' u hu).1) (calm_cons hq))]; simp

/-- A link whose title has no brackets and whose destination no parentheses. -/
structure LinkOk (stops : List Stop) (l : Link) : Prop where
  title : DelimOk stops isLeftBracket isRightBracket .Title l.title
  node : l.dest.node = .Destination
  opening : isLeftParen l.dest.opening = true
  closing : l.dest.closing.kind = .RightParenthesis
  body : ∀ t ∈ l.dest.body, quiet stops t = true ∧ t.kind ≠ .LeftParenthesis ∧ t.kind ≠ .RightParenthesis

theorem LinkOk.qo {stops l} (h : LinkOk stops l) : quiet stops l.dest.opening = true := by
  have := h.opening
  simp only [isLeftParen, Bool.and_eq_true, decide_eq_true_eq] at this
  exact quiet_kind (by rw [this.1]; decide)

theorem LinkOk.qc {stops l} (h : LinkOk stops l) : quiet stops l.dest.closing = true :=
  quiet_kind (by rw [h.closing]; decide)

theorem link_quiet {stops} {l : Link} (h : LinkOk stops l) : ∀ t ∈ l.toks, quiet stops t = true := by
  intro t ht
  simp only [Link.toks, List.mem_append] at ht
  rcases ht with ht | ht
  · exact delim_quiet h.title t ht
  · simp only [Delim.toks, List.mem_cons, List.mem_append, List.not_mem_nil, or_false] at ht
    rcases ht with rfl | ht | rfl
    · exact h.qo
    · exact (h.body t ht).1
    · exact h.qc

theorem linkB_exec {stops} {l : Link} {rest : List Token} (h : LinkOk stops l) (hr : Calm stops rest) :
    linkB stops (l.toks ++ rest) = some (l, rest) := by
  have e : l.toks ++ rest = l.title.toks ++ (l.dest.toks ++ rest) := by simp [Link.toks]
  have hc : Calm stops (l.dest.toks ++ rest) := calm_cons h.qo
  have e2 : l.dest.toks ++ rest = l.dest.opening :: (l.dest.body ++ l.dest.closing :: rest) := by simp [Delim.toks]
  unfold linkB titleB
  rw [e, delimB_exec h.title hc]
  simp only
  rw [e2, destB, if_pos h.opening, destScan_exec h.body h.qc h.closing hr]
  obtain ⟨t, n', o', b', c'⟩ := l
  have := h.node
  simp only at this
  subst this
  rfl

theorem linkB_no {stops} {t : Token} {r : List Token} (h : t.kind ≠ .LeftSquareBracket) : linkB stops (t :: r) = none := by
  unfold linkB titleB
  rw [delimB_no (by simp [isLeftBracket, h])]

/-! ### Bold -/

/-- What makes an item of a bold parse back. -/
def BoldItemOk (stops : List Stop) : BoldItem → Prop
  | .text ts => ts ≠ [] ∧ ∀ t ∈ ts, quiet stops t = true ∧ t.kind ≠ .Tilde ∧ t.kind ≠ .Underscore ∧ t.kind ≠ .Star
  | .delim d => DelimOk stops isTilde2 isTilde2 .Strikethrough d ∨ DelimOk stops isUnderscore isUnderscore .Italic d

def isTextB : BoldItem → Bool
  | .text _ => true
  | _ => false

/-- No two neighbours satisfy `f`. -/
def NoPair {α : Type} (f : α → Bool) : List α → Prop
  | [] => True
  | [_] => True
  | x :: y :: r => ¬ (f x = true ∧ f y = true) ∧ NoPair f (y :: r)

theorem NoPair.tail {α : Type} {f : α → Bool} {x} {l : List α} (h : NoPair f (x :: l)) : NoPair f l := by
  cases l with
  | nil => trivial
  | cons y r => exact h.2

theorem boldItem_quiet {stops} {x : BoldItem} (h : BoldItemOk stops x) : ∀ t ∈ x.toks, quiet stops t = true := by
  cases x with
  | text ts => exact fun t ht => (h.2 t ht).1
  | delim d => rcases h with h | h <;> exact delim_quiet h

theorem boldItems_quiet {stops} {l : List BoldItem} (h : ∀ x ∈ l, BoldItemOk stops x) :
    ∀ t ∈ l.flatMap BoldItem.toks, quiet stops t = true := by
  intro t ht
  obtain ⟨x, hx, ht⟩ := List.mem_flatMap.1 ht
  exact boldItem_quiet (h x hx) t ht

theorem tilde2_kind {t : Token} (h : isTilde2 t = true) : t.kind = .Tilde := by
  simp only [isTilde2, Bool.and_eq_true, decide_eq_true_eq] at h; exact h.1
theorem underscore_kind {t : Token} (h : isUnderscore t = true) : t.kind = .Underscore := by
  simp only [isUnderscore, Bool.and_eq_true, decide_eq_true_eq] at h; exact h.1
theorem star1_kind {t : Token} (h : isStar1 t = true) : t.kind = .Star ∧ t.len = 1 := by
  simpa only [isStar1, Bool.and_eq_true, decide_eq_true_eq] using h
theorem star2_kind {t : Token} (h : isStar2 t = true) : t.kind = .Star ∧ t.len = 2 := by
  simpa only [isStar2, Bool.and_eq_true, decide_eq_true_eq] using h
theorem backtick1_kind {t : Token} (h : isBacktick1 t = true) : t.kind = .Backtick ∧ t.len = 1 := by
  simpa only [isBacktick1, Bool.and_eq_true, decide_eq_true_eq] using h
theorem leftBracket_kind {t : Token} (h : isLeftBracket t = true) : t.kind = .LeftSquareBracket := by
  simp only [isLeftBracket, Bool.and_eq_true, decide_eq_true_eq] at h; exact h.1

theorem boldChildB_exec {stops} {d : Delim} {rest : List Token}
    (h : DelimOk stops isTilde2 isTilde2 .Strikethrough d ∨ DelimOk stops isUnderscore isUnderscore .Italic d)
    (hr : Calm stops rest) : boldChildB stops (d.toks ++ rest) = some (d, rest) := by
  unfold boldChildB strikeB italicB
  rcases h with h | h
  · rw [delimB_exec h hr]
  · have h1 : delimB isTilde2 isTilde2 .Strikethrough stops (d.toks ++ rest) = none := by
      have : isTilde2 d.opening = false := by simp [isTilde2, underscore_kind h.opening]
      exact delimB_no this
    rw [h1, delimB_exec h hr]

theorem boldChildB_no {stops} {t : Token} {r : List Token} (h1 : t.kind ≠ .Tilde) (h2 : t.kind ≠ .Underscore) :
    boldChildB stops (t :: r) = none := by
  unfold boldChildB strikeB italicB
  rw [delimB_no (by simp [isTilde2, h1]), delimB_no (by simp [isUnderscore, h2])]

theorem delim_star {stops} {d : Delim}
    (h : DelimOk stops isTilde2 isTilde2 .Strikethrough d ∨ DelimOk stops isUnderscore isUnderscore .Italic d) :
    isStar2 d.opening = false := by
  rcases h with h | h
  · simp [isStar2, tilde2_kind h.opening]
  · simp [isStar2, underscore_kind h.opening]

theorem delim_qo {stops} {d : Delim}
    (h : DelimOk stops isTilde2 isTilde2 .Strikethrough d ∨ DelimOk stops isUnderscore isUnderscore .Italic d) :
    quiet stops d.opening = true := by
  rcases h with h | h
  · exact h.qo
  · exact h.qo

/-- Text tokens of a bold are collected. -/
theorem boldItemsB_text {stops} : ∀ {ts : List Token} {acc rest},
    (∀ t ∈ ts, quiet stops t = true ∧ t.kind ≠ .Tilde ∧ t.kind ≠ .Underscore ∧ t.kind ≠ .Star) →
    Calm stops rest → boldItemsB stops acc (ts ++ rest) = boldItemsB stops (acc ++ ts) rest
  | [], acc, rest, _, _ => by simp
  | t :: ts, acc, rest, h, hr => by
    have h1 := h t (by simp)
    have h' := tailAll h
    rw [List.cons_append, boldItemsB_none (quiet_stop h1.1 (calm_append (fun u hu => (h' u hu).1) hr))
      (by simp [isStar2, h1.2.2.2]) (boldChildB_no h1.2.1 h1.2.2.1), boldItemsB_text h' hr]
    simp

theorem accB (acc : List Token) (h : acc ≠ []) : (if acc = [] then [] else [BoldItem.text acc]) = [.text acc] := if_neg h

/-- The items of a bold parse back; `acc` is a text read before. -/
theorem boldItemsB_exec {stops} : ∀ {l : List BoldItem} {c : Token} {rest : List Token}, (∀ x ∈ l, BoldItemOk stops x) →
    NoPair isTextB l → isStar2 c = true → Calm stops rest →
    boldItemsB stops [] (l.flatMap BoldItem.toks ++ c :: rest) = some (l, c, rest) ∧
      (∀ ts, ts ≠ [] → (∀ x ∈ l.head?, isTextB x = false) →
        boldItemsB stops ts (l.flatMap BoldItem.toks ++ c :: rest) = some (.text ts :: l, c, rest))
  | [], c, rest, _, _, hc, hr => by
    have hq : quiet stops c = true := quiet_kind (by rw [(star2_kind hc).1]; decide)
    refine ⟨?_, fun ts hts _ => ?_⟩
    · rw [List.flatMap_nil, List.nil_append, boldItemsB_close (quiet_stop hq hr) hc]; rfl
    · rw [List.flatMap_nil, List.nil_append, boldItemsB_close (quiet_stop hq hr) hc, accB _ hts]
  | .delim d :: l, c, rest, hl, hp, hc, hr => by
    have hd : DelimOk stops isTilde2 isTilde2 .Strikethrough d ∨ DelimOk stops isUnderscore isUnderscore .Italic d :=
      hl (.delim d) (by simp)
    have hl' := tailAll hl
    have hq : quiet stops c = true := quiet_kind (by rw [(star2_kind hc).1]; decide)
    have hcalm : Calm stops (l.flatMap BoldItem.toks ++ c :: rest) := calm_append (boldItems_quiet hl') (calm_cons hq)
    have ih := (boldItemsB_exec hl' hp.tail hc hr).1
    have hstep : ∀ acc, boldItemsB stops acc ((BoldItem.delim d :: l).flatMap BoldItem.toks ++ c :: rest)
        = some ((if acc = [] then [] else [.text acc]) ++ .delim d :: l, c, rest) := by
      intro acc
      have e : (BoldItem.delim d :: l).flatMap BoldItem.toks ++ c :: rest
          = d.toks ++ (l.flatMap BoldItem.toks ++ c :: rest) := by simp [BoldItem.toks]
      rw [e]
      have h1 := boldChildB_exec hd hcalm
      have h2 : d.toks ++ (l.flatMap BoldItem.toks ++ c :: rest)
        = d.opening :: (d.body ++ [d.closing] ++ (l.flatMap BoldItem.toks ++ c :: rest)) := by simp [Delim.toks]
      rw [h2] at h1 ⊢
      rw [boldItemsB_some (quiet_stop (delim_qo hd) ?_) (delim_star hd) h1, ih]
      · rfl
      · refine calm_append (fun t ht => ?_) hcalm
        have hm : t ∈ d.toks := by simp only [Delim.toks, List.mem_cons]; exact .inr ht
        exact boldItem_quiet (x := .delim d) hd t hm
    refine ⟨by rw [hstep]; rfl, fun ts hts _ => by rw [hstep, accB _ hts]; rfl⟩
  | .text ts :: l, c, rest, hl, hp, hc, hr => by
    have ht : ts ≠ [] ∧ ∀ t ∈ ts, quiet stops t = true ∧ t.kind ≠ .Tilde ∧ t.kind ≠ .Underscore ∧ t.kind ≠ .Star :=
      hl (.text ts) (by simp)
    have hl' := tailAll hl
    have hq : quiet stops c = true := quiet_kind (by rw [(star2_kind hc).1]; decide)
    have hcalm : Calm stops (l.flatMap BoldItem.toks ++ c :: rest) := calm_append (boldItems_quiet hl') (calm_cons hq)
    have ih := (boldItemsB_exec hl' hp.tail hc hr).2
    refine ⟨?_, fun _ _ h => by have := h (.text ts) (by simp); simp [isTextB] at this⟩
    rw [List.flatMap_cons, BoldItem.toks, List.append_assoc, boldItemsB_text ht.2 hcalm, List.nil_append]
    refine ih ts ht.1 ?_
    cases l with
    | nil => simp
    | cons y l =>
      intro x hx
      simp only [List.head?_cons, Option.mem_some_iff] at hx
      subst hx
      have := hp.1
      simpa [isTextB] using this

/-! ### Paragraphs -/

/-- Kinds that open an inline construct. -/
def inlineOpen : List TokenKind := [.Tilde, .Underscore, .Star, .LeftSquareBracket, .Backtick]

/-- What makes an inline construct parse back. -/
def InlOk (stops : List Stop) : Inl → Prop
  | .text ts => ts ≠ [] ∧ ∀ t ∈ ts, quiet stops t = true ∧ t.kind ∉ inlineOpen
  | .delim d => DelimOk stops isTilde2 isTilde2 .Strikethrough d ∨ DelimOk stops isUnderscore isUnderscore .Italic d ∨
      DelimOk stops isBacktick1 isBacktick1 .CodeSpan d ∨ DelimOk stops isStar1 isStar1 .Emphasis d
  | .bold o items c => isStar2 o = true ∧ isStar2 c = true ∧ (∀ x ∈ items, BoldItemOk stops x) ∧ NoPair isTextB items
  | .anchor l => LinkOk stops l

def isTextI : Inl → Bool
  | .text _ => true
  | _ => false

theorem inl_quiet {stops} {x : Inl} (h : InlOk stops x) : ∀ t ∈ x.toks, quiet stops t = true := by
  cases x with
  | text ts => exact fun t ht => (h.2 t ht).1
  | delim d => rcases h with h | h | h | h <;> exact delim_quiet h
  | bold o items c =>
    obtain ⟨h1, h2, h3, -⟩ := h
    intro t ht
    simp only [Inl.toks, List.mem_cons, List.mem_append, List.not_mem_nil, or_false] at ht
    rcases ht with rfl | ht | rfl
    · exact quiet_kind (by rw [(star2_kind h1).1]; decide)
    · exact boldItems_quiet h3 t ht
    · exact quiet_kind (by rw [(star2_kind h2).1]; decide)
  | anchor l => exact link_quiet h

theorem para_quiet {stops} {l : List Inl} (h : ∀ x ∈ l, InlOk stops x) : ∀ t ∈ paraToks l, quiet stops t = true := by
  intro t ht
  obtain ⟨x, hx, ht⟩ := List.mem_flatMap.1 ht
  exact inl_quiet (h x hx) t ht

theorem inlineB_no {stops} {t : Token} {r : List Token} (h : t.kind ∉ inlineOpen) : inlineB stops (t :: r) = none := by
  simp only [inlineOpen, List.mem_cons, List.not_mem_nil, or_false, not_or] at h
  obtain ⟨h1, h2, h3, h4, h5⟩ := h
  have hb : boldB stops (t :: r) = none := by rw [boldB, if_neg (by simp [isStar2, h3])]
  unfold inlineB strikeB italicB codeSpanB emphasisB
  rw [delimB_no (by simp [isTilde2, h1]), delimB_no (by simp [isUnderscore, h2]), hb, linkB_no h4, delimB_no (by simp [isBacktick1, h5]), delimB_no (by simp [isStar1, h3])]

theorem inlineB_exec {stops} {x : Inl} {rest : List Token} (h : InlOk stops x) (hx : isTextI x = false)
    (hr : Calm stops rest) : inlineB stops (x.toks ++ rest) = some (x, rest) := by
  cases x with
  | text ts => simp [isTextI] at hx
  | delim d =>
    have e : ∀ {o' c' n'} , o' d.opening = false → delimB o' c' n' stops (d.toks ++ rest) = none := fun h => delimB_no h
    have eb : isStar2 d.opening = false → boldB stops (d.toks ++ rest) = none := by
      intro h
      show boldB stops (d.opening :: _) = none
      rw [boldB, if_neg (by simp [h])]
    have el : d.opening.kind ≠ .LeftSquareBracket → linkB stops (d.toks ++ rest) = none := fun h => linkB_no h
    show inlineB stops (d.toks ++ rest) = _
    unfold inlineB strikeB italicB codeSpanB emphasisB
    rcases h with h | h | h | h
    · rw [delimB_exec h hr]
    · have k := underscore_kind h.opening
      rw [e (by simp [isTilde2, k]), delimB_exec h hr]
    · have k := (backtick1_kind h.opening).1
      rw [e (by simp [isTilde2, k]), e (by simp [isUnderscore, k]), eb (by simp [isStar2, k]), el (by simp [k]),
        delimB_exec h hr]
    · have k := star1_kind h.opening
      rw [e (by simp [isTilde2, k.1]), e (by simp [isUnderscore, k.1]), eb (by simp [isStar2, k.2]), el (by simp [k.1]),
        e (by simp [isBacktick1, k.1]), delimB_exec h hr]
  | bold o items c =>
    obtain ⟨h1, h2, h3, h4⟩ := h
    have k := (star2_kind h1).1
    have et : (Inl.bold o items c).toks ++ rest = o :: (items.flatMap BoldItem.toks ++ c :: rest) := by simp [Inl.toks]
    rw [et]
    unfold inlineB strikeB italicB boldB
    rw [delimB_no (by simp [isTilde2, k]), delimB_no (by simp [isUnderscore, k])]
    simp only
    rw [if_pos h1, (boldItemsB_exec h3 h4 h2 hr).1]
    rfl
  | anchor l =>
    have hl : LinkOk stops l := h
    have k := leftBracket_kind hl.title.opening
    have e : ∀ {o' c' n'} , o' l.title.opening = false → delimB o' c' n' stops (l.toks ++ rest) = none := fun h => delimB_no h
    have eb : boldB stops (l.toks ++ rest) = none := by
      show boldB stops (l.title.opening :: _) = none
      rw [boldB, if_neg (by simp [isStar2, k])]
    show inlineB stops (l.toks ++ rest) = _
    unfold inlineB strikeB italicB
    rw [e (by simp [isTilde2, k]), e (by simp [isUnderscore, k]), eb, linkB_exec hl hr]

theorem accI (acc : List Token) (h : acc ≠ []) : (if acc = [] then [] else [Inl.text acc]) = [.text acc] := if_neg h

theorem paraB_text {stops} : ∀ {ts : List Token} {acc rest},
    (∀ t ∈ ts, quiet stops t = true ∧ t.kind ∉ inlineOpen) →
    Calm stops rest → paraB stops acc (ts ++ rest) = paraB stops (acc ++ ts) rest
  | [], acc, rest, _, _ => by simp
  | t :: ts, acc, rest, h, hr => by
    have h1 := h t (by simp)
    have h' := tailAll h
    rw [List.cons_append, paraB_none (quiet_stop h1.1 (calm_append (fun u hu => (h' u hu).1) hr))
      (inlineB_no h1.2), paraB_text h' hr]
    simp

/-- An inline sequence parses back up to a stop. -/
theorem paraB_exec' {stops} : ∀ {l : List Inl} {rest : List Token}, (∀ x ∈ l, InlOk stops x) →
    NoPair isTextI l → stopAt stops rest = true → Calm stops rest →
    paraB stops [] (paraToks l ++ rest) = (l, rest) ∧
      (∀ ts, ts ≠ [] → (∀ x ∈ l.head?, isTextI x = false) →
        paraB stops ts (paraToks l ++ rest) = (.text ts :: l, rest))
  | [], rest, _, _, hs, hr => by
    refine ⟨?_, fun ts hts _ => ?_⟩
    · show paraB stops [] rest = _
      rw [paraB_stop hs]; rfl
    · show paraB stops ts rest = _
      rw [paraB_stop hs, accI _ hts]
  | x :: l, rest, hl, hp, hs, hr => by
    have hx := hl x (by simp)
    have hl' := tailAll hl
    have hcalm : Calm stops (paraToks l ++ rest) := calm_append (para_quiet hl') hr
    obtain ⟨ih1, ih2⟩ := paraB_exec' hl' hp.tail hs hr
    have e : paraToks (x :: l) ++ rest = x.toks ++ (paraToks l ++ rest) := by simp [paraToks]
    cases hxt : isTextI x with
    | false =>
      have hstep : ∀ acc, paraB stops acc (paraToks (x :: l) ++ rest)
          = ((if acc = [] then [] else [.text acc]) ++ x :: l, rest) := by
        intro acc
        rw [e]
        have h1 := inlineB_exec hx hxt hcalm
        have hns : stopAt stops (x.toks ++ (paraToks l ++ rest)) = false := by
          have hq := inl_quiet hx
          have hpos := inlineB_nonempty h1
          cases htk : x.toks with
          | nil => rw [htk] at hpos; simp at hpos
          | cons t ts =>
            rw [htk] at hq
            exact quiet_stop (hq t (by simp)) (calm_append (fun u hu => hq u (by simp [hu])) hcalm)
        rw [paraB_some hns h1, ih1]
      refine ⟨by rw [hstep]; rfl, fun ts hts _ => by rw [hstep, accI _ hts]; rfl⟩
    | true =>
      cases x with
      | text ts =>
        refine ⟨?_, fun _ _ h => by have := h (.text ts) (by simp); simp [isTextI] at this⟩
        rw [e]
        show paraB stops [] (ts ++ _) = _
        rw [paraB_text hx.2 hcalm, List.nil_append]
        refine ih2 ts hx.1 ?_
        cases l with
        | nil => simp
        | cons y l =>
          intro z hz
          simp only [List.head?_cons, Option.mem_some_iff] at hz
          subst hz
          have := hp.1
          simpa [isTextI] using this
      | _ => simp [isTextI] at hxt

theorem paraB_exec {stops} {l : List Inl} {rest : List Token} (h : ∀ x ∈ l, InlOk stops x)
    (hp : NoPair isTextI l) (hs : stopAt stops rest = true) (hr : Calm stops rest) :
    paraB stops [] (paraToks l ++ rest) = (l, rest) := (paraB_exec' h hp hs hr).1

/-! ### Headings -/

/-- After an opening bracket a link is read: a closing bracket, an opening parenthesis, and a closing one.
`more`: a link follows the tokens. -/
def readsLink (more : Bool) (r : List Token) : Bool :=
  match r.dropWhile (fun t => !isRightBracket t) with
  | [] => more
  | _ :: q =>
    match q with
    | [] => false
    | x :: q => isLeftParen x && (more || q.any (fun t => decide (t.kind = .RightParenthesis)))

theorem untilB_stop {stops m} : ∀ {b rest : List Token}, (∀ t ∈ b, quiet stops t = true ∧ m t = false) →
    Calm stops rest → stopAt stops rest = true → untilB stops m (b ++ rest) = none
  | [], [], _, _, _ => rfl
  | [], t :: r, _, _, h => by rw [List.nil_append, untilB, if_pos h]
  | t :: b, rest, hb, hc, h => by
    have h1 := hb t (by simp)
    have hb' := tailAll hb
    rw [List.cons_append, untilB, if_neg, if_neg (by simp [h1.2]), untilB_stop hb' hc h]
    · rfl
    · rw [quiet_stop h1.1 (calm_append (fun u hu => (hb' u hu).1) hc)]; simp

theorem destScan_stop {stops} : ∀ {b rest : List Token} {depth : Nat}, (∀ t ∈ b, quiet stops t = true ∧ t.kind ≠ .RightParenthesis) →
    Calm stops rest → stopAt stops rest = true → destScan stops depth (b ++ rest) = none
  | [], [], _, _, _, _ => rfl
  | [], t :: r, _, _, _, h => by rw [List.nil_append, destScan, if_pos h]
  | t :: b, rest, depth, hb, hc, h => by
    have h1 := hb t (by simp)
    have hb' := tailAll hb
    rw [List.cons_append, destScan, if_neg]
    · split
      · rw [destScan_stop hb' hc h]; rfl
      · rw [if_neg h1.2, destScan_stop hb' hc h]; rfl
    · rw [quiet_stop h1.1 (calm_append (fun u hu => (hb' u hu).1) hc)]; simp

theorem destB_no {stops ts} (h : tokenIs ts 0 isLeftParen = false) : destB stops ts = none := by
  cases ts with
  | nil => rfl
  | cons t r =>
    rw [tokenIs_zero] at h
    rw [destB, if_neg (by simp [h])]

theorem dropWhile_cases {m : Token → Bool} (r : List Token) :
    ((∀ t ∈ r, m t = false) ∧ r.dropWhile (fun t => !m t) = []) ∨
    ∃ b c d, r = b ++ c :: d ∧ (∀ t ∈ b, m t = false) ∧ m c = true ∧ r.dropWhile (fun t => !m t) = c :: d := by
  induction r with
  | nil => exact .inl ⟨by simp, rfl⟩
  | cons t r ih =>
    cases hm : m t with
    | true => exact .inr ⟨[], t, r, rfl, by simp, hm, by simp [hm]⟩
    | false =>
      rcases ih with ⟨h1, h2⟩ | ⟨b, c, d, h1, h2, h3, h4⟩
      · exact .inl ⟨by simpa [hm] using h1, by simp [hm, h2]⟩
      · exact .inr ⟨t :: b, c, d, by simp [h1], by simpa [hm] using h2, h3, by simp [hm, h4]⟩

/-- No link is read at a bracket of a text. -/
theorem linkB_plain {stops} {more : Bool} {t : Token} {r rest : List Token} (hq : ∀ x ∈ r, quiet stops x = true)
    (hc : Calm stops rest) (hp : tokenIs rest 0 isLeftParen = false) (hm : more = false → stopAt stops rest = true)
    (h : readsLink more r = false) : linkB stops (t :: (r ++ rest)) = none := by
  cases ht : isLeftBracket t with
  | false =>
    unfold linkB titleB
    rw [delimB_no ht]
  | true =>
    unfold linkB titleB delimB
    simp only
    rw [if_pos ht]
    rcases dropWhile_cases (m := isRightBracket) r with ⟨h1, h2⟩ | ⟨b, c, d, rfl, h2, h3, h4⟩
    · rw [readsLink, h2] at h
      simp only at h
      rw [untilB_stop (fun x hx => ⟨hq x hx, h1 x hx⟩) hc (hm h)]; rfl
    · have hd : ∀ x ∈ d, quiet stops x = true := fun x hx => hq x (by simp [hx])
      rw [List.append_assoc, List.cons_append,
        untilB_exec (fun x hx => ⟨hq x (by simp [hx]), h2 x hx⟩) (hq c (by simp)) h3 (calm_append hd hc)]
      simp only [Option.map_some]
      rw [readsLink, h4] at h
      simp only at h
      suffices hx : destB stops (d ++ rest) = none by rw [hx]
      cases d with
      | nil => exact destB_no hp
      | cons x d =>
        simp only [Bool.and_eq_false_iff, Bool.or_eq_false_iff] at h
        rcases h with h | ⟨h5, h6⟩
        · exact destB_no h
        · rw [List.cons_append, destB]
          split
          · rw [destScan_stop (fun y hy => ⟨hd y (by simp [hy]), ?_⟩) hc (hm h5)]; rfl
            simpa using List.any_eq_false.1 h6 y hy
          · rfl

def HeadItemOk (stops : List Stop) : HeadItem → Prop
  | .text ts => ts ≠ [] ∧ ∀ t ∈ ts, quiet stops t = true
  | .anchor l => LinkOk stops l

/-- No link is read in the texts. -/
def HeadsPlain : List HeadItem → Prop
  | [] => True
  | .text ts :: l => (∀ a t r, ts = a ++ t :: r → isLeftBracket t = true → readsLink (!l.isEmpty) r = false) ∧ HeadsPlain l
  | .anchor _ :: l => HeadsPlain l

def isTextH : HeadItem → Bool
  | .text _ => true
  | _ => false

theorem headItem_quiet {stops} {x : HeadItem} (h : HeadItemOk stops x) : ∀ t ∈ x.toks, quiet stops t = true := by
  cases x with
  | text ts => exact h.2
  | anchor l => exact link_quiet h

theorem heads_quiet {stops} {l : List HeadItem} (h : ∀ x ∈ l, HeadItemOk stops x) :
    ∀ t ∈ l.flatMap HeadItem.toks, quiet stops t = true := by
  intro t ht
  obtain ⟨x, hx, ht⟩ := List.mem_flatMap.1 ht
  exact headItem_quiet (h x hx) t ht

theorem accH (acc : List Token) (h : acc ≠ []) : (if acc = [] then [] else [HeadItem.text acc]) = [.text acc] := if_neg h

theorem headB_text {stops} {more : Bool} {rest : List Token} (hr : Calm stops rest) (hp : tokenIs rest 0 isLeftParen = false)
    (hm : more = false → stopAt stops rest = true) : ∀ {ts : List Token} {acc},
    (∀ t ∈ ts, quiet stops t = true) → (∀ a t r, ts = a ++ t :: r → isLeftBracket t = true → readsLink more r = false) →
    headB stops acc (ts ++ rest) = headB stops (acc ++ ts) rest
  | [], acc, _, _ => by simp
  | t :: ts, acc, h, hl => by
    have h1 := h t (by simp)
    have h' := tailAll h
    have hn : linkB stops (t :: (ts ++ rest)) = none := by
      cases ht : isLeftBracket t with
      | false => unfold linkB titleB; rw [delimB_no ht]
      | true => exact linkB_plain h' hr hp hm (hl [] t ts rfl ht)
    rw [List.cons_append, headB_none (quiet_stop h1 (calm_append h' hr)) hn,
      headB_text hr hp hm h' (fun a u r e => hl (t :: a) u r (by rw [e]; rfl))]
    simp

theorem stop_paren {stops ts} (h : stopAt stops ts = true) : tokenIs ts 0 isLeftParen = false := by
  cases ts with
  | nil => rfl
  | cons t r =>
    rw [tokenIs_zero]
    cases hp : isLeftParen t with
    | false => rfl
    | true =>
      simp only [isLeftParen, Bool.and_eq_true, decide_eq_true_eq] at hp
      rw [stopAt, List.any_eq_true] at h
      obtain ⟨s, -, hs⟩ := h
      cases s with
      | ListBoundary l k =>
        simp only [stopHere, Bool.and_eq_true, List.any_eq_true] at hs
        obtain ⟨-, i, -, hb⟩ := hs
        rcases boundaryHere_kind hb with e | e | e <;> simp [hp.1] at e
      | _ => simp [stopHere, hp.1] at hs

theorem headB_exec {stops} : ∀ {l : List HeadItem} {rest : List Token}, (∀ x ∈ l, HeadItemOk stops x) → HeadsPlain l →
    NoPair isTextH l → stopAt stops rest = true → Calm stops rest →
    headB stops [] (l.flatMap HeadItem.toks ++ rest) = (l, rest) ∧
      (∀ ts, ts ≠ [] → (∀ x ∈ l.head?, isTextH x = false) →
        headB stops ts (l.flatMap HeadItem.toks ++ rest) = (.text ts :: l, rest))
  | [], rest, _, _, _, hs, hr => by
    refine ⟨?_, fun ts hts _ => ?_⟩
    · show headB stops [] rest = _
      rw [headB_stop hs]; rfl
    · show headB stops ts rest = _
      rw [headB_stop hs, accH _ hts]
  | .anchor k :: l, rest, hl, hpl, hp, hs, hr => by
    have hx : LinkOk stops k := hl (.anchor k) (by simp)
    have hl' := tailAll hl
    have hcalm : Calm stops (l.flatMap HeadItem.toks ++ rest) := calm_append (heads_quiet hl') hr
    obtain ⟨ih1, ih2⟩ := headB_exec hl' hpl hp.tail hs hr
    have e : (HeadItem.anchor k :: l).flatMap HeadItem.toks ++ rest = k.toks ++ (l.flatMap HeadItem.toks ++ rest) := by
      simp [HeadItem.toks]
    have hstep : ∀ acc, headB stops acc ((HeadItem.anchor k :: l).flatMap HeadItem.toks ++ rest)
        = ((if acc = [] then [] else [.text acc]) ++ .anchor k :: l, rest) := by
      intro acc
      rw [e]
      have h1 := linkB_exec hx hcalm
      have hns : stopAt stops (k.toks ++ (l.flatMap HeadItem.toks ++ rest)) = false := by
        have hc : Calm stops ((k.title.body ++ [k.title.closing] ++ k.dest.toks) ++ (l.flatMap HeadItem.toks ++ rest)) := by
          refine calm_append (fun t ht => link_quiet hx t ?_) hcalm
          simp only [Link.toks, Delim.toks, List.mem_append, List.mem_cons] at ht ⊢
          rcases ht with ht | ht
          · exact .inl (.inr ht)
          · exact .inr ht
        have := quiet_stop (t := k.title.opening) hx.title.qo hc
        simpa [Link.toks, Delim.toks] using this
      rw [headB_some hns h1, ih1]
    refine ⟨by rw [hstep]; rfl, fun ts hts _ => by rw [hstep, accH _ hts]; rfl⟩
  | .text ts :: l, rest, hl, hpl, hp, hs, hr => by
    have hx : ts ≠ [] ∧ ∀ t ∈ ts, quiet stops t = true := hl (.text ts) (by simp)
    have hl' := tailAll hl
    have hcalm : Calm stops (l.flatMap HeadItem.toks ++ rest) := calm_append (heads_quiet hl') hr
    obtain ⟨ih1, ih2⟩ := headB_exec hl' hpl.2 hp.tail hs hr
    refine ⟨?_, fun _ _ h => by have := h (.text ts) (by simp); simp [isTextH] at this⟩
    have hfirst : ∀ z ∈ l.head?, isTextH z = false := by
      cases l with
      | nil => simp
      | cons y l =>
        intro z hz
        simp only [List.head?_cons, Option.mem_some_iff] at hz
        subst hz
        have := hp.1
        simpa [isTextH] using this
    have hpar : tokenIs (l.flatMap HeadItem.toks ++ rest) 0 isLeftParen = false := by
      cases l with
      | nil => exact stop_paren hs
      | cons y l =>
        cases y with
        | text ts => have := hfirst (.text ts) (by simp); simp [isTextH] at this
        | anchor k =>
          have hk : LinkOk stops k := hl' (.anchor k) (by simp)
          have := leftBracket_kind hk.title.opening
          show isLeftParen k.title.opening = false
          simp [isLeftParen, this]
    rw [List.flatMap_cons, HeadItem.toks, List.append_assoc, headB_text hcalm hpar (more := !l.isEmpty) ?_ hx.2 hpl.1, List.nil_append]
    · exact ih2 ts hx.1 hfirst
    · intro he
      have : l = [] := by simpa using he
      subst this; exact hs

end Yamd.Round
