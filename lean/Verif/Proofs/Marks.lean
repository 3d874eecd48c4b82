import Verif.Proofs.OwnDoc
import Verif.Spec.Marks

/-!
# Marks in running text
-/

namespace Yamd.Ref

open Yamd Yamd.Spec

/-! ### What it means that nothing was recognised -/

theorem isUnderscore_iff {t} : isUnderscore t = true ↔ isMark .Italic t := isA_iff
theorem isTilde2_iff {t} : isTilde2 t = true ↔ isMark .Strikethrough t := isA_iff
theorem isBacktick1_iff {t} : isBacktick1 t = true ↔ isMark .CodeSpan t := isA_iff
theorem isStar1_iff {t} : isStar1 t = true ↔ isMark .Emphasis t := isA_iff
theorem isStar2_iff {t} : isStar2 t = true ↔ isMark .Bold t := isA_iff
theorem isLeftBracket_iff {t} : isLeftBracket t = true ↔ tokenIsA .LeftSquareBracket 1 t := isA_iff
theorem isRightBracket_iff {t} : isRightBracket t = true ↔ tokenIsA .RightSquareBracket 1 t := isA_iff
theorem isLeftParen_iff {t} : isLeftParen t = true ↔ tokenIsA .LeftParenthesis 1 t := isA_iff

theorem not_of_iff {b : Bool} {P : Prop} (h : b = true ↔ P) (hb : b = false) : ¬ P := by
  intro hp; rw [h.2 hp] at hb; cases hb

theorem delim_left {f : Token → Bool} {n : Node} (hf : ∀ t, f t = true ↔ isMark n t) {m : Node} {t : Token} {rest}
    (h : delimB f f m [] (t :: rest) = none) : PairLeft n t rest := by
  intro ht u hu
  rw [delimB, if_pos ((hf t).2 ht), Option.map_eq_none_iff] at h
  exact not_of_iff (hf u) (untilB_none_mem h u hu)

theorem boldChild_left {t : Token} {rest} (h : boldChildB [] (t :: rest) = none) :
    PairLeft .Italic t rest ∧ PairLeft .Strikethrough t rest := by
  unfold boldChildB at h
  split at h
  · cases h
  · rename_i h1
    exact ⟨delim_left (fun _ => isUnderscore_iff) h, delim_left (fun _ => isTilde2_iff) h1⟩

theorem boldChild_marks {ts : List Token} {d r} (h : boldChildB [] ts = some (d, r)) :
    ∃ n, (n = .Italic ∨ n = .Strikethrough) ∧ isMark n d.opening ∧ isMark n d.closing := by
  unfold boldChildB at h
  split at h
  · rename_i h1
    rw [h] at h1
    have := (delimB_ok h1).2
    exact ⟨.Strikethrough, .inr rfl, isTilde2_iff.1 this.1, isTilde2_iff.1 this.2.1⟩
  · have := (delimB_ok h).2
    exact ⟨.Italic, .inl rfl, isUnderscore_iff.1 this.1, isUnderscore_iff.1 this.2.1⟩

theorem mark_unique {n m : Node} {t : Token} (h1 : n = .Italic ∨ n = .Strikethrough) (h2 : isMark n t) (hm : m = .Bold) :
    ¬ isMark m t := by
  subst hm
  intro h
  rcases h1 with rfl | rfl
  · have := h.1.symm.trans h2.1; cases this
  · have := h.1.symm.trans h2.1; cases this

/-- Cutting two concatenations at a token of the second. -/
theorem cut_append {α : Type} : ∀ {a b c : List α} {u d}, a ++ b = c ++ u :: d →
    (∃ d', a = c ++ u :: d' ∧ d = d' ++ b) ∨ ∃ c', c = a ++ c' ∧ b = c' ++ u :: d
  | [], _, c, _, _, h => .inr ⟨c, rfl, h⟩
  | x :: a, b, [], u, d, h => by cases h; exact .inl ⟨a, rfl, rfl⟩
  | x :: a, b, y :: c, u, d, h => by
    obtain ⟨rfl, h'⟩ := List.cons.inj h
    rcases cut_append (a := a) (c := c) h' with ⟨d', rfl, rfl⟩ | ⟨c', rfl, rfl⟩
    · exact .inl ⟨d', rfl, rfl⟩
    · exact .inr ⟨c', rfl, rfl⟩

theorem boldItems_left (acc rest : List Token) : boldItemsB [] acc rest = none →
    ∀ c u d, rest = c ++ u :: d → isMark .Bold u →
      ∃ n, (n = .Italic ∨ n = .Strikethrough) ∧ ∃ w ∈ c, ∃ w' ∈ d, isMark n w ∧ isMark n w' := by
  induction acc, rest using boldItemsB_ind [] with
  | stop acc ts hs =>
    intro _ c u d e
    have : ts = [] := by rw [stopAt_none] at hs; simpa using hs
    rw [this] at e
    cases c <;> cases e
  | close acc t r hs h2 => intro h; rw [boldItemsB_close hs h2] at h; cases h
  | some acc t r x r' hs h2 hx ih =>
    intro h c u d e hu
    rw [boldItemsB_some hs h2 hx, Option.map_eq_none_iff] at h
    have et := boldChildB_toks hx
    obtain ⟨n, hn, m1, m2⟩ := boldChild_marks hx
    rw [et] at e
    rcases cut_append e with ⟨d', e1, e2⟩ | ⟨c', e1, e2⟩
    · refine ⟨n, hn, x.opening, ?_, x.closing, ?_, m1, m2⟩
      · cases c with
        | nil =>
          simp only [Delim.toks, List.nil_append] at e1
          have := (List.cons.inj e1).1
          rw [this] at m1
          exact absurd hu (mark_unique hn m1 rfl)
        | cons y c =>
          simp only [Delim.toks, List.cons_append] at e1
          rw [(List.cons.inj e1).1]; simp
      · have hd : d' ≠ [] := by
          intro hd
          subst hd
          simp only [Delim.toks] at e1
          have := congrArg List.getLast? e1
          simp only [List.getLast?_append, List.getLast?_cons, List.getLast?_nil] at this
          simp at this
          rw [this] at m2
          exact absurd hu (mark_unique hn m2 rfl)
        have := congrArg List.getLast? e1
        obtain ⟨l, y, rfl⟩ := (List.eq_nil_or_concat d').resolve_left hd
        simp [Delim.toks, List.getLast?_append, List.getLast?_cons] at this
        rw [e2, ← this]; simp
    · obtain ⟨n', hn', w, hw, w', hw', m⟩ := ih h c' u d e2 hu
      exact ⟨n', hn', w, by rw [e1]; simp [hw], w', hw', m⟩
  | none acc t r hs h2 hx ih =>
    intro h c u d e hu
    rw [boldItemsB_none hs h2 hx] at h
    cases c with
    | nil =>
      cases e
      rw [isStar2_iff.2 hu] at h2; cases h2
    | cons y c =>
      rw [List.cons_append] at e
      obtain ⟨rfl, e'⟩ := List.cons.inj e
      obtain ⟨n', hn', w, hw, w', hw', m⟩ := ih h c u d e' hu
      exact ⟨n', hn', w, by simp [hw], w', hw', m⟩

theorem bold_left {t : Token} {rest} (h : boldB [] (t :: rest) = none) : BoldLeft t rest := by
  intro ht c u d e hu
  rw [boldB, if_pos (isStar2_iff.2 ht), Option.map_eq_none_iff] at h
  exact boldItems_left _ _ h c u d e hu

theorem untilB_first {m : Token → Bool} : ∀ {c : List Token} {u d}, (∀ x ∈ c, m x = false) → m u = true →
    untilB [] m (c ++ u :: d) = some (c, u, d)
  | [], u, d, _, hu => by rw [List.nil_append, untilB_go (by rfl), if_pos hu]
  | x :: c, u, d, hc, hu => by
    rw [List.cons_append, untilB_go (by rfl), if_neg (by rw [hc x (by simp)]; simp),
      untilB_first (fun y hy => hc y (by simp [hy])) hu]
    rfl

theorem destScan_none_mem : ∀ {d : List Token} {n}, destScan [] n d = none → ∀ x ∈ d, x.kind ≠ .RightParenthesis
  | [], _, _, _, hx => by cases hx
  | t :: d, n, h, x, hx => by
    rw [destScan_go (by rfl)] at h
    split at h
    · rename_i hk
      rw [Option.map_eq_none_iff] at h
      rcases List.mem_cons.1 hx with rfl | hx
      · rw [hk]; decide
      · exact destScan_none_mem h x hx
    · split at h
      · split at h
        · cases h
        · split at h <;> cases h
      · rename_i hk
        rw [Option.map_eq_none_iff] at h
        rcases List.mem_cons.1 hx with rfl | hx
        · exact hk
        · exact destScan_none_mem h x hx

theorem link_left {t : Token} {rest} (h : linkB [] (t :: rest) = none) : LinkLeft t rest := by
  intro ht c u p d e hc hu hp
  unfold linkB titleB at h
  rw [delimB, if_pos (isLeftBracket_iff.2 ht), e, untilB_first (u := u) (d := p :: d) (fun x hx => by
    cases hb : isRightBracket x with
    | false => rfl
    | true => exact absurd (isRightBracket_iff.1 hb) (hc x hx)) (isRightBracket_iff.2 hu)] at h
  simp only [Option.map_some] at h
  split at h
  · rename_i hd
    rw [destB, if_pos (isLeftParen_iff.2 hp), Option.map_eq_none_iff] at hd
    exact destScan_none_mem hd
  · cases h

theorem inline_left {t : Token} {rest} (h : inlineB [] (t :: rest) = none) : LeftAsText .Paragraph t rest := by
  unfold inlineB at h
  split at h
  · cases h
  · rename_i h1
    split at h
    · cases h
    · rename_i h2
      split at h
      · cases h
      · rename_i h3
        split at h
        · cases h
        · rename_i h4
          split at h
          · cases h
          · rename_i h5
            split at h
            · cases h
            · rename_i h6
              exact ⟨delim_left (fun _ => isUnderscore_iff) h2, delim_left (fun _ => isTilde2_iff) h1,
                delim_left (fun _ => isBacktick1_iff) h5, delim_left (fun _ => isStar1_iff) h6, bold_left h3, link_left h4⟩

/-! ### Trees -/

/-- The body of a styled run holds no closing mark. -/
def Delim.Short (d : Delim) : Prop := ∀ t ∈ d.body, ¬ closesNode d.node t

/-- Every token of a text, with what follows it. -/
def TextLeft (n : Node) (ts rest : List Token) : Prop := ∀ a t b, ts = a ++ t :: b → LeftAsText n t (b ++ rest)

def BoldItemsFit : List BoldItem → List Token → Prop
  | [], _ => True
  | .text ts :: l, rest => TextLeft .Bold ts (l.flatMap BoldItem.toks ++ rest) ∧ (∀ t ∈ ts, ¬ isMark .Bold t) ∧
      BoldItemsFit l rest
  | .delim d :: l, rest => d.Short ∧ BoldItemsFit l rest

def InlsFit : List Inl → Prop
  | [] => True
  | .text ts :: l => TextLeft .Paragraph ts (paraToks l) ∧ InlsFit l
  | .delim d :: l => d.Short ∧ InlsFit l
  | .bold _ items c :: l => BoldItemsFit items (c :: paraToks l) ∧ InlsFit l
  | .anchor k :: l => k.Short ∧ InlsFit l

def HeadsFit : List HeadItem → Prop
  | [] => True
  | .text ts :: l => TextLeft .Heading ts (l.flatMap HeadItem.toks) ∧ HeadsFit l
  | .anchor k :: l => k.Short ∧ HeadsFit l

theorem delimB_short {f : Token → Bool} {n : Node} (hf : ∀ t, f t = true ↔ closesNode n t) {o ts d r}
    (h : delimB o f n [] ts = some (d, r)) : d.Short := by
  intro t ht
  rw [(delimB_ok h).1]
  exact not_of_iff (hf t) (delimB_free h t ht)

theorem boldChild_short {ts d r} (h : boldChildB [] ts = some (d, r)) : d.Short := by
  unfold boldChildB at h
  split at h
  · rename_i h1
    rw [h] at h1
    exact delimB_short (fun _ => isTilde2_iff) h1
  · exact delimB_short (fun _ => isUnderscore_iff) h

theorem textLeft_snoc {n acc t r} (h1 : TextLeft n acc (t :: r)) (h2 : LeftAsText n t r) : TextLeft n (acc ++ [t]) r := by
  intro a u b e
  rcases cut_append e with ⟨d', e1, e2⟩ | ⟨c', e1, e2⟩
  · have := h1 a u d' e1
    rw [e2]; simpa using this
  · cases c' with
    | nil => cases e2; exact h2
    | cons x c' =>
      simp only [List.cons_append] at e2
      have := (List.cons.inj e2).2
      cases c' <;> cases this

theorem textLeft_nil {n r} : TextLeft n [] r := by intro a t b e; cases a <;> cases e

theorem bold_fit (acc ts : List Token) : ∀ {l c r}, boldItemsB [] acc ts = some (l, c, r) →
    TextLeft .Bold acc ts → (∀ t ∈ acc, ¬ isMark .Bold t) → BoldItemsFit l (c :: r) := by
  have one : ∀ {acc rest}, TextLeft .Bold acc rest → (∀ t ∈ acc, ¬ isMark .Bold t) →
      ∀ {l E}, rest = l.flatMap BoldItem.toks ++ E → BoldItemsFit l E →
      BoldItemsFit ((if acc = [] then [] else [.text acc]) ++ l) E := by
    intro acc rest h1 h2 l E e h3
    split
    · exact h3
    · exact ⟨(by show TextLeft _ _ (l.flatMap BoldItem.toks ++ E); rw [← e]; exact h1), h2, h3⟩
  induction acc, ts using boldItemsB_ind [] with
  | stop acc ts hs => intro l c r h; rw [boldItemsB_stop hs] at h; cases h
  | close acc t r hs h2 =>
    intro l c r' h h3 h4
    rw [boldItemsB_close hs h2] at h
    simp only [Option.some.injEq, Prod.mk.injEq] at h
    obtain ⟨rfl, rfl, rfl⟩ := h
    have := one h3 h4 (l := []) (E := t :: r) rfl trivial
    simpa using this
  | some acc t r d r' hs h2 hx ih =>
    intro l c q h h3 h4
    rw [boldItemsB_some hs h2 hx] at h
    simp only [Option.map_eq_some_iff, Prod.mk.injEq] at h
    obtain ⟨⟨l', c', q'⟩, h5, rfl, rfl, rfl⟩ := h
    have h6 := ih h5 textLeft_nil (by intro t ht; cases ht)
    have e := boldItemsB_toks _ (Nat.le_refl _) h5
    rw [List.nil_append] at e
    refine one h3 h4 (l := .delim d :: l') ?_ ⟨boldChild_short hx, h6⟩
    rw [boldChildB_toks hx, e]
    simp [BoldItem.toks]
  | none acc t r hs h2 hx ih =>
    intro l c q h h3 h4
    rw [boldItemsB_none hs h2 hx] at h
    refine ih h (textLeft_snoc h3 (boldChild_left hx)) ?_
    intro u hu
    rcases List.mem_append.1 hu with hu | hu
    · exact h4 u hu
    · simp at hu; subst hu; exact not_of_iff isStar2_iff h2

theorem inline_fit {ts x r} (h : inlineB [] ts = some (x, r)) {l} (hr : r = paraToks l) (hl : InlsFit l) :
    InlsFit (x :: l) := by
  unfold inlineB at h
  split at h
  · rename_i h1
    simp only [Option.some.injEq, Prod.mk.injEq] at h
    obtain ⟨rfl, rfl⟩ := h
    exact ⟨delimB_short (fun _ => isTilde2_iff) h1, hl⟩
  · split at h
    · rename_i h1
      simp only [Option.some.injEq, Prod.mk.injEq] at h
      obtain ⟨rfl, rfl⟩ := h
      exact ⟨delimB_short (fun _ => isUnderscore_iff) h1, hl⟩
    · split at h
      · rename_i h1
        rw [h] at h1
        cases ts with
        | nil => simp [boldB] at h1
        | cons t ts =>
          rw [boldB] at h1
          split at h1
          · simp only [Option.map_eq_some_iff, Prod.mk.injEq] at h1
            obtain ⟨⟨l', c', q'⟩, h5, rfl, rfl⟩ := h1
            simp only at hr
            refine ⟨?_, hl⟩
            rw [← hr]
            exact bold_fit _ _ h5 textLeft_nil (by intro t ht; cases ht)
          · cases h1
      · split at h
        · rename_i h1
          simp only [Option.some.injEq, Prod.mk.injEq] at h
          obtain ⟨rfl, rfl⟩ := h
          exact ⟨linkB_short h1, hl⟩
        · split at h
          · rename_i h1
            simp only [Option.some.injEq, Prod.mk.injEq] at h
            obtain ⟨rfl, rfl⟩ := h
            exact ⟨delimB_short (fun _ => isBacktick1_iff) h1, hl⟩
          · split at h
            · rename_i h1
              simp only [Option.some.injEq, Prod.mk.injEq] at h
              obtain ⟨rfl, rfl⟩ := h
              exact ⟨delimB_short (fun _ => isStar1_iff) h1, hl⟩
            · cases h

theorem paraB_whole (acc ts : List Token) : paraToks (paraB [] acc ts).1 = acc ++ ts := by
  have h := paraB_toks (stops := []) (acc := acc) _ (Nat.le_refl ts.length)
  have h2 := paraB_rest (stops := []) acc ts
  rw [stopAt_none] at h2
  have : (paraB [] acc ts).2 = [] := by simpa using h2
  rw [this, List.append_nil] at h
  exact h.symm

theorem headB_whole (acc ts : List Token) : (headB [] acc ts).1.flatMap HeadItem.toks = acc ++ ts := by
  have h := headB_toks (stops := []) (acc := acc) _ (Nat.le_refl ts.length)
  have h2 := headB_rest (stops := []) acc ts
  rw [stopAt_none] at h2
  have : (headB [] acc ts).2 = [] := by simpa using h2
  rw [this, List.append_nil] at h
  exact h.symm

theorem para_fit (acc ts : List Token) : TextLeft .Paragraph acc ts → InlsFit (paraB [] acc ts).1 := by
  have one : ∀ {acc rest}, TextLeft .Paragraph acc rest → ∀ {l}, rest = paraToks l → InlsFit l →
      InlsFit ((if acc = [] then [] else [.text acc]) ++ l) := by
    intro acc rest h1 l e h3
    split
    · exact h3
    · exact ⟨(by show TextLeft _ _ (paraToks l); rw [← e]; exact h1), h3⟩
  induction acc, ts using paraB_ind [] with
  | stop acc ts hs =>
    intro h
    have : ts = [] := by rw [stopAt_none] at hs; simpa using hs
    subst this
    rw [paraB_stop hs]
    have := one h (l := []) rfl trivial
    simpa using this
  | some acc t r x r' hs hx ih =>
    intro h
    rw [paraB_some hs hx]
    have e := paraB_whole [] r'
    rw [List.nil_append] at e
    refine one h (l := x :: (paraB [] [] r').1) ?_ (inline_fit hx e.symm (ih textLeft_nil))
    rw [inlineB_toks hx]
    simp only [paraToks, List.flatMap_cons] at e ⊢
    rw [e]
  | none acc t r hs hx ih =>
    intro h
    rw [paraB_none hs hx]
    exact ih (textLeft_snoc h (inline_left hx))

theorem head_fit (acc ts : List Token) : TextLeft .Heading acc ts → HeadsFit (headB [] acc ts).1 := by
  have one : ∀ {acc rest}, TextLeft .Heading acc rest → ∀ {l : List HeadItem}, rest = l.flatMap HeadItem.toks → HeadsFit l →
      HeadsFit ((if acc = [] then [] else [.text acc]) ++ l) := by
    intro acc rest h1 l e h3
    split
    · exact h3
    · exact ⟨(by show TextLeft _ _ (l.flatMap HeadItem.toks); rw [← e]; exact h1), h3⟩
  induction acc, ts using headB_ind [] with
  | stop acc ts hs =>
    intro h
    have : ts = [] := by rw [stopAt_none] at hs; simpa using hs
    subst this
    rw [headB_stop hs]
    have := one h (l := []) rfl trivial
    simpa using this
  | some acc t r x r' hs hx ih =>
    intro h
    rw [headB_some hs hx]
    have e := headB_whole [] r'
    rw [List.nil_append] at e
    refine one h (l := .anchor x :: (headB [] [] r').1) ?_ ⟨linkB_short hx, ih textLeft_nil⟩
    rw [linkB_toks hx]
    simp only [List.flatMap_cons, HeadItem.toks]
    rw [e]
  | none acc t r hs hx ih =>
    intro h
    rw [headB_none hs hx]
    exact ih (textLeft_snoc h (link_left hx))

theorem ParaOwn.fit {l} (h : ParaOwn l) : InlsFit l := by
  have := para_fit [] (paraToks l) textLeft_nil
  rwa [show (paraB [] [] (paraToks l)).1 = l from h] at this

theorem HeadOwn.fit {l} (h : HeadOwn l) : HeadsFit l := by
  have := head_fit [] (l.flatMap HeadItem.toks) textLeft_nil
  rwa [show (headB [] [] (l.flatMap HeadItem.toks)).1 = l from h] at this

end Yamd.Ref
