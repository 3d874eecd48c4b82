import Verif.Proofs.OpsFacts

/-!
# The delimiters of every node
-/

namespace Yamd.Ref

open Yamd Yamd.Spec

/-- What the tokens of a delimiter op are. -/
def Fits (k : OpKind) (own : List Token) : Prop :=
  match k with
  | .Value => True
  | .Start .Bold | .End .Bold => ∃ t, own = [t] ∧ isStar2 t = true
  | .Start .Italic | .End .Italic => ∃ t, own = [t] ∧ isUnderscore t = true
  | .Start .Strikethrough | .End .Strikethrough => ∃ t, own = [t] ∧ isTilde2 t = true
  | .Start .CodeSpan | .End .CodeSpan => ∃ t, own = [t] ∧ isBacktick1 t = true
  | .Start .Emphasis | .End .Emphasis => ∃ t, own = [t] ∧ isStar1 t = true
  | .Start .Title => ∃ t, own = [t] ∧ isLeftBracket t = true
  | .End .Title => ∃ t, own = [t] ∧ isRightBracket t = true
  | .Start .Destination => ∃ t, own = [t] ∧ isLeftParen t = true
  | .End .Destination => ∃ t, own = [t] ∧ t.kind = .RightParenthesis
  | .Start .Metadata | .End .Metadata => ∃ t, own = [t] ∧ isThreeDashes t = true
  | .Start .Image => ∃ t, own = [t] ∧ isBang1 t = true
  | .End .Image => own = [] ∨ ∃ t, own = [t] ∧ isEol t = true
  | .Start .Code | .End .Code => LineOf isBacktick3 isEol own
  | .Start .Embed => ∃ t, own = [t] ∧ isLeftCurly2 t = true
  | .End .Embed => LineOf isRightCurly2 isEol own
  | .Start .Heading => PairOf isHash isSpace1 own
  | .Start .ListItem => ∃ l k, MarkerOk l k own
  | .Start .Highlight => PairOf isTwoBangs (fun t => isSpace1 t || isEol t) own
  | .End .Highlight => LineOf isTwoBangs isEol own
  | .Start .Icon => PairOf isOneBang isSpace1 own
  | .End .Icon => ∃ t, own = [t] ∧ isEol t = true
  | .End .Modifier => ∃ t, own = [t] ∧ isEolOrTerminator t = true
  | .Start .Collapsible => PairOf isCollapsibleStart isSpaceOrEol own
  | .End .Collapsible => LineOf isCollapsibleEnd isEol own
  | _ => own = []

def AllFit (l : List Seg) : Prop := ∀ s ∈ l, Fits s.kind s.own

theorem AllFit.nil : AllFit [] := fun _ h => by cases h
theorem AllFit.append {a b} (h1 : AllFit a) (h2 : AllFit b) : AllFit (a ++ b) := by
  intro s hs; rcases List.mem_append.1 hs with h | h
  · exact h1 s h
  · exact h2 s h
theorem AllFit.cons {s b} (h1 : Fits s.kind s.own) (h2 : AllFit b) : AllFit (s :: b) := by
  intro u hu; rcases List.mem_cons.1 hu with h | h
  · rw [h]; exact h1
  · exact h2 u h
theorem AllFit.flatMap {α : Type} {f : α → List Seg} {l : List α} (h : ∀ x ∈ l, AllFit (f x)) :
    AllFit (l.flatMap f) := by
  intro s hs
  obtain ⟨x, hx, hs⟩ := List.mem_flatMap.1 hs
  exact h x hx s hs
theorem allFit_value {ts r} (h : AllFit r) : AllFit (segValue ts :: r) := .cons trivial h

theorem allFit_delim {d : Delim} (h1 : Fits (.Start d.node) [d.opening]) (h2 : Fits (.End d.node) [d.closing]) :
    AllFit d.segs := .cons h1 (allFit_value (.cons h2 .nil))

theorem allFit_boldStyle {d : Delim} (h : d.BoldStyle) : AllFit d.segs := by
  rcases h with ⟨h0, h1, h2⟩ | ⟨h0, h1, h2⟩
  all_goals exact allFit_delim (by rw [h0]; exact ⟨_, rfl, h1⟩) (by rw [h0]; exact ⟨_, rfl, h2⟩)

theorem allFit_style {d : Delim} (h : d.Style) : AllFit d.segs := by
  rcases h with ⟨h0, h1, h2⟩ | ⟨h0, h1, h2⟩ | ⟨h0, h1, h2⟩ | ⟨h0, h1, h2⟩
  all_goals exact allFit_delim (by rw [h0]; exact ⟨_, rfl, h1⟩) (by rw [h0]; exact ⟨_, rfl, h2⟩)

theorem allFit_link {l : Link} (h : l.Ok) : AllFit l.segs := by
  obtain ⟨h0, h1, h2, h3, h4, h5⟩ := h
  exact .append (allFit_delim (by rw [h0]; exact ⟨_, rfl, h1⟩) (by rw [h0]; exact ⟨_, rfl, h2⟩))
    (allFit_delim (by rw [h3]; exact ⟨_, rfl, h4⟩) (by rw [h3]; exact ⟨_, rfl, h5⟩))

theorem allFit_anchor {l : Link} (h : l.Ok) : AllFit (anchorSegs l) :=
  .cons rfl (.append (allFit_link h) (.cons rfl .nil))

theorem allFit_para {l : List Inl} (h : ParaOk l) : AllFit (paraSegs l) := by
  refine .cons rfl (.append (.flatMap fun x hx => ?_) (.cons rfl .nil))
  have hx := h.1 x hx
  cases x with
  | text ts => exact allFit_value .nil
  | delim d => exact allFit_style hx
  | bold o items c =>
    obtain ⟨h1, h2, h3, -⟩ := hx
    refine .cons ⟨_, rfl, h1⟩ (.append (.flatMap fun y hy => ?_) (.cons ⟨_, rfl, h2⟩ .nil))
    have hy := h3 y hy
    cases y with
    | text ts => exact allFit_value .nil
    | delim d => exact allFit_boldStyle hy
  | anchor l => exact allFit_anchor hx

theorem allFit_img {i : Img} (h : i.Ok) : AllFit i.segs := by
  obtain ⟨h1, h2, h3, -⟩ := h
  exact .cons ⟨_, rfl, h1⟩ (.append (allFit_link h2) (.cons h3 .nil))

theorem allFit_wrap {k s} (h : AllFit s) : AllFit (wrapSegs k s) := by
  cases k with
  | none => exact .nil
  | some k => cases k <;> exact .cons rfl (.append h (.cons rfl .nil))

theorem allFit_items : ∀ {i : Items} {level want}, i.Ok level want → AllFit i.segs
  | .nil, _, _, _ => .nil
  | .cons _ _ _ _ _, level, _, ⟨_, a2, a3, a4, a5⟩ =>
    .cons ⟨_, _, a2⟩ (.append (allFit_para a3) (.append (allFit_wrap (allFit_items a4))
      (.cons rfl (allFit_items a5))))

theorem allFit_mod {m} (h : ModOk m) : AllFit (modSegs m) := by
  cases m with
  | none => exact .nil
  | some m => exact .cons rfl (allFit_value (.cons ⟨_, rfl, h.1⟩ .nil))

theorem allFit_icon {m} (h : IconOk m) : AllFit (iconSegs m) := by
  cases m with
  | none => exact .nil
  | some m => exact .cons h.1 (allFit_value (.cons ⟨_, rfl, h.2.2⟩ .nil))

theorem allFit_hpara {x : HPara} (h : x.Ok) : AllFit x.segs := by
  refine .append ?_ (allFit_para h.2)
  cases x.term with
  | nil => exact .nil
  | cons t r => exact allFit_value .nil

theorem allFit_block {b : Block} (h : b.Ok) : AllFit b.segs := by
  cases b with
  | code o m b c => exact .cons h.1 (.append (allFit_mod h.2.1) (allFit_value (.cons h.2.2.2 .nil)))
  | embed o l p r c =>
    exact .cons ⟨_, rfl, h.1⟩ (allFit_value (allFit_value (allFit_value (.cons h.2.2.2.2 .nil))))
  | highlight o m i b c =>
    obtain ⟨h1, h2, h3, h4, h5⟩ := h
    exact .cons h1 (.append (allFit_mod h2) (.append (allFit_icon h3)
      (.append (.flatMap fun x hx => allFit_hpara (h4 x hx)) (.cons h5 .nil))))
  | list i => exact allFit_wrap (allFit_items h.1)
  | images l =>
    have : AllFit (l.flatMap Img.segs) := .flatMap fun x hx => allFit_img (h.2 x hx)
    simp only [Block.segs]
    split
    · exact .cons rfl (.append this (.cons rfl .nil))
    · exact this
  | thematic t => exact .cons rfl (allFit_value (.cons rfl .nil))
  | heading m b =>
    obtain ⟨⟨a, s, h1, h2, h3⟩, h4, -⟩ := h
    refine .cons ⟨a, s, h1, h2, h3⟩ (.append (.flatMap fun x hx => ?_) (.cons rfl .nil))
    have hx := h4 x hx
    cases x with
    | text ts => exact allFit_value .nil
    | anchor l => exact allFit_anchor hx
  | para l => exact allFit_para h

theorem allFit_doc : ∀ {d : Doc}, d.Ok → AllFit d.segs
  | .nil, _ => .nil
  | .term _ _, h => allFit_value (allFit_doc h.2)
  | .block _ _, h => .append (allFit_block h.1) (allFit_doc h.2)
  | .coll _ _ _ _ _ _, ⟨h1, h2, h3, _, h5, h6⟩ =>
    .cons h1 (.append (allFit_mod h2) (.cons rfl (.append (allFit_doc h3) (.cons rfl (.cons h5 (allFit_doc h6))))))

theorem allFit_top (ts : List Token) : AllFit (topB ts).segs := by
  have key : ∀ ts, AllFit (segStart .Document [] :: ((docB [] ts).1.segs ++ [segEnd .Document []])) :=
    fun ts => .cons rfl (.append (allFit_doc (docB_ok _ _)) (.cons rfl .nil))
  unfold topB Top.segs
  cases hd : delimB isThreeDashes isThreeDashes .Metadata [] ts with
  | none => exact key ts
  | some x =>
    obtain ⟨d, r⟩ := x
    obtain ⟨a1, a2, a3, -⟩ := delimB_ok hd
    exact .append (allFit_delim (by rw [a1]; exact ⟨_, rfl, a2⟩) (by rw [a1]; exact ⟨_, rfl, a3⟩)) (key r)

/-! ### Text of the delimiters -/

/-- What the lexer guarantees about a token that was not turned into a literal. -/
def Lexed (input : Str) (t : Token) : Prop :=
  ∃ s, sliceD input t = s ∧ KindText t.kind t.escaped s ∧ t.len = blen s

theorem lexed_tokens {input t} (h : t ∈ tokens input) : Lexed input t := by
  obtain ⟨a, p, c, h1, h2, h3, h4, h5, h6, -⟩ := Props.tokens_facts h
  refine ⟨p.text, ?_, ?_, ?_⟩
  · unfold sliceD
    rw [h3, ← h2, h1, slice_append _ _ _ _ rfl]; rfl
  · rw [h5, h6]; exact (pieces_form _ p h4).1
  · rw [Token.len, h3]; omega

theorem blen_all {c : Char} (hc : c.utf8Size = 1) : ∀ {s : Str}, (∀ x ∈ s, x = c) →
    s = List.replicate (blen s) c
  | [], _ => rfl
  | x :: s, h => by
    have hx := h x (by simp); subst hx
    have := blen_all hc (s := s) (fun y hy => h y (by simp [hy]))
    rw [blen, hc, Nat.add_comm, List.replicate_succ, ← this]

theorem Lexed.run {input t} (h : Lexed input t) {c : Char} (hk : runCharOf t.kind = some c) :
    sliceD input t = List.replicate t.len c ∧ 1 ≤ t.len := by
  obtain ⟨s, rfl, h2, h3⟩ := h
  have h2 : sliceD input t ≠ [] ∧ ∀ x ∈ sliceD input t, x = c := by
    unfold KindText at h2
    cases hkk : t.kind <;> rw [hkk] at h2 hk <;> simp only [runCharOf, reduceCtorEq, Option.some.injEq] at h2 hk
    all_goals subst hk; exact h2
  have hc : c.utf8Size = 1 := by
    cases hkk : t.kind <;> rw [hkk] at hk <;> simp only [runCharOf, reduceCtorEq, Option.some.injEq] at hk
    all_goals subst hk; decide
  rw [h3]
  refine ⟨blen_all hc h2.2, ?_⟩
  exact Props.blen_pos h2.1

theorem Lexed.fixed {input t} (h : Lexed input t) {f : Str} (hk : fixedText t.kind = some f) :
    sliceD input t = f := by
  obtain ⟨s, rfl, h2, h3⟩ := h
  unfold KindText at h2
  cases hkk : t.kind <;> rw [hkk] at h2 hk <;> simp only [fixedText, runCharOf, reduceCtorEq, Option.some.injEq] at h2 hk
  all_goals rw [← hk, ← h2]

theorem Lexed.eol {input t} (h : Lexed input t) (hk : t.kind = .Eol) : IsBreak (sliceD input t) := by
  obtain ⟨s, rfl, h2, h3⟩ := h
  rw [hk] at h2; exact h2

theorem text_one {input t} : textOfToks input [t] = sliceD input t := by simp [textOfToks]
theorem text_two {input t u} : textOfToks input [t, u] = sliceD input t ++ sliceD input u := by simp [textOfToks]
theorem text_three {input t u v} : textOfToks input [t, u, v] = sliceD input t ++ (sliceD input u ++ sliceD input v) := by
  simp [textOfToks]

/-- A predicate that recognises a run of `n` characters `c`. -/
def RunPred (f : Token → Bool) (c : Char) (n : Nat) : Prop :=
  ∀ t, f t = true → runCharOf t.kind = some c ∧ t.len = n

theorem RunPred.text {f c n} (hf : RunPred f c n) {input t} (hl : t.kind ≠ .Literal → Lexed input t) (h : f t = true) :
    sliceD input t = List.replicate n c := by
  obtain ⟨h1, h2⟩ := hf t h
  rw [← h2]
  exact ((hl (by intro hk; rw [hk] at h1; simp [runCharOf] at h1)).run h1).1

theorem line_text {f c n} (hf : RunPred f c n) {input own} (hl : ∀ t ∈ own, t.kind ≠ .Literal → Lexed input t)
    (h : LineOf f isEol own) : MarkLine (List.replicate n c) (textOfToks input own) := by
  rcases h with ⟨t, rfl, h1⟩ | ⟨t, e, rfl, h1, h2⟩
  · left; rw [text_one]; exact hf.text (hl t (by simp)) h1
  · right
    have h2 : e.kind = .Eol := by simpa [isEol] using h2
    exact ⟨_, (hl e (by simp) (by rw [h2]; decide)).eol h2, by rw [text_two, hf.text (hl t (by simp)) h1]⟩

theorem runPred_of {k : TokenKind} {n : Nat} {c : Char} (hk : runCharOf k = some c) :
    RunPred (fun t => t.kind = k && t.len = n) c n := by
  intro t h
  simp only [Bool.and_eq_true, decide_eq_true_eq] at h
  rw [h.1]; exact ⟨hk, h.2⟩

theorem runPred_col {k : TokenKind} {n : Nat} {c : Char} (hk : runCharOf k = some c) :
    RunPred (fun t => t.kind = k && col0 t && t.len = n) c n := by
  intro t h
  simp only [Bool.and_eq_true, decide_eq_true_eq] at h
  rw [h.1.1]; exact ⟨hk, h.2⟩

theorem fixed_text {input t f} (hk : fixedText t.kind = some f) (hl : t.kind ≠ .Literal → Lexed input t) :
    textOfToks input [t] = f := by
  rw [text_one]
  exact (hl (by intro h; rw [h] at hk; simp [fixedText] at hk)).fixed hk

theorem eol_text {input t} (h : isEol t = true) (hl : t.kind ≠ .Literal → Lexed input t) : IsBreak (sliceD input t) := by
  have h : t.kind = .Eol := by simpa [isEol] using h
  exact (hl (by rw [h]; decide)).eol h

theorem space_text {input t} (h : isSpace1 t = true) (hl : t.kind ≠ .Literal → Lexed input t) : sliceD input t = [' '] :=
  RunPred.text (f := isSpace1) (n := 1) (runPred_of rfl) hl h

theorem fits_text {input k own} (hl : ∀ t ∈ own, t.kind ≠ .Literal → Lexed input t) (h : Fits k own) :
    DelimiterText k (textOfToks input own) := by
  have one : ∀ {f c n}, RunPred f c n → (∃ t, own = [t] ∧ f t = true) →
      textOfToks input own = List.replicate n c := by
    rintro f c n hf ⟨t, rfl, h'⟩
    rw [text_one]; exact hf.text (hl t (by simp)) h'
  have single : ∀ {f : Token → Bool} {k : TokenKind} {n : Nat} {s : Str}, (∀ t, f t = true → t.kind = k) → fixedText k = some s →
      (∃ t, own = [t] ∧ f t = true) → n = 1 → textOfToks input own = s := by
    rintro f k n s hf hk ⟨t, rfl, h'⟩ -
    exact fixed_text (by rw [hf t h']; exact hk) (hl t (by simp))
  have kindLen : ∀ {k : TokenKind} {n : Nat} (t : Token), (decide (t.kind = k) && decide (t.len = n)) = true → t.kind = k := by
    intro k n t h; simp only [Bool.and_eq_true, decide_eq_true_eq] at h; exact h.1
  match k, h with
  | .Value, _ => trivial
  | .Start .Bold, h | .End .Bold, h => exact one (f := isStar2) (runPred_of rfl) h
  | .Start .Italic, h | .End .Italic, h => exact single (f := isUnderscore) kindLen rfl h rfl
  | .Start .Strikethrough, h | .End .Strikethrough, h => exact one (f := isTilde2) (runPred_of rfl) h
  | .Start .CodeSpan, h | .End .CodeSpan, h => exact one (f := isBacktick1) (runPred_of rfl) h
  | .Start .Emphasis, h | .End .Emphasis, h => exact one (f := isStar1) (runPred_of rfl) h
  | .Start .Title, h => exact single (f := isLeftBracket) kindLen rfl h rfl
  | .End .Title, h => exact single (f := isRightBracket) kindLen rfl h rfl
  | .Start .Destination, h => exact single (f := isLeftParen) kindLen rfl h rfl
  | .End .Destination, ⟨t, e, h'⟩ =>
    subst e; exact fixed_text (by rw [h']; rfl) (hl t (by simp))
  | .Start .Metadata, h | .End .Metadata, h => exact one (f := isThreeDashes) (runPred_col rfl) h
  | .Start .Image, h => exact one (f := isBang1) (runPred_of rfl) h
  | .End .Image, h =>
    rcases h with rfl | ⟨t, rfl, h'⟩
    · exact .inl rfl
    · right; rw [text_one]; exact eol_text h' (hl t (by simp))
  | .Start .Code, h | .End .Code, h => exact line_text (f := isBacktick3) (n := 3) (runPred_col rfl) hl h
  | .Start .Embed, h => exact one (f := isLeftCurly2) (runPred_col rfl) h
  | .End .Embed, h => exact line_text (f := isRightCurly2) (n := 2) (runPred_of rfl) hl h
  | .Start .Heading, ⟨t, e, e1, h1, h2⟩ =>
    subst e1
    rw [text_two, space_text h2 (hl e (by simp))]
    simp only [isHash, Bool.and_eq_true, decide_eq_true_eq] at h1
    have := (hl t (by simp) (by rw [h1.1.1]; decide)).run (c := '#') (by rw [h1.1.1]; rfl)
    exact ⟨t.len, this.2, h1.2, by rw [this.1]⟩
  | .Start .ListItem, ⟨l, k, h⟩ =>
    have mk : ∀ {a}, (a.kind ≠ .Literal → Lexed input a) → ListKind.tryFrom a = some k →
        ∃ m, (m = '-' ∨ m = '+') ∧ sliceD input a = [m] := by
      intro a ha hk
      unfold ListKind.tryFrom at hk
      split at hk
      · rename_i h
        have := (ha (by rw [h.1]; decide)).run (c := '-') (by rw [h.1]; rfl)
        exact ⟨'-', .inl rfl, by rw [this.1, h.2]; rfl⟩
      · split at hk
        · rename_i h
          have := (ha (by rw [h.1]; decide)).run (c := '+') (by rw [h.1]; rfl)
          exact ⟨'+', .inr rfl, by rw [this.1, h.2]; rfl⟩
        · simp at hk
    rcases h with ⟨-, a, b, rfl, -, h1, h2⟩ | ⟨-, s, a, b, rfl, -, h0, -, h1, h2⟩
    · obtain ⟨m, hm, e⟩ := mk (hl a (by simp)) h1
      exact ⟨0, m, hm, by rw [text_two, e, space_text h2 (hl b (by simp))]; rfl⟩
    · obtain ⟨m, hm, e⟩ := mk (hl a (by simp)) h1
      have := (hl s (by simp) (by rw [h0]; decide)).run (c := ' ') (by rw [h0]; rfl)
      exact ⟨s.len, m, hm, by rw [text_three, e, space_text h2 (hl b (by simp)), this.1]; rfl⟩
  | .Start .Highlight, ⟨t, e, e1, h1, h2⟩ =>
    subst e1
    have e2 : sliceD input t = List.replicate 2 '!' :=
      RunPred.text (f := isTwoBangs) (runPred_col rfl) (hl t (by simp)) h1
    simp only [Bool.or_eq_true] at h2
    rw [text_two, e2]
    rcases h2 with h2 | h2
    · left; rw [space_text h2 (hl e (by simp))]; rfl
    · right; exact ⟨_, eol_text h2 (hl e (by simp)), rfl⟩
  | .End .Highlight, h => exact line_text (f := isTwoBangs) (n := 2) (runPred_col rfl) hl h
  | .Start .Icon, ⟨t, e, e1, h1, h2⟩ =>
    subst e1
    have e2 : sliceD input t = List.replicate 1 '!' :=
      RunPred.text (f := isOneBang) (runPred_col rfl) (hl t (by simp)) h1
    rw [text_two, e2, space_text h2 (hl e (by simp))]; rfl
  | .End .Icon, ⟨t, e, h'⟩ => subst e; rw [text_one]; exact eol_text h' (hl t (by simp))
  | .End .Modifier, ⟨t, e, h'⟩ =>
    subst e; rw [text_one]
    simp only [isEolOrTerminator, Bool.or_eq_true, decide_eq_true_eq] at h'
    rcases h' with h' | h'
    · exact .inl ((hl t (by simp) (by rw [h']; decide)).eol h')
    · right
      obtain ⟨s, rfl, h2, -⟩ := hl t (by simp) (by rw [h']; decide)
      rw [h'] at h2; exact h2
  | .Start .Collapsible, ⟨t, e, e1, h1, h2⟩ =>
    subst e1
    simp only [isCollapsibleStart, Bool.and_eq_true, decide_eq_true_eq] at h1
    have e2 : sliceD input t = ['{', '%'] := (hl t (by simp) (by rw [h1.1]; decide)).fixed (by rw [h1.1]; rfl)
    rw [text_two, e2]
    simp only [isSpaceOrEol, Bool.or_eq_true, decide_eq_true_eq] at h2
    rcases h2 with h2 | h2
    · have := (hl e (by simp) (by rw [h2]; decide)).run (c := ' ') (by rw [h2]; rfl)
      exact .inl ⟨e.len, this.2, by rw [this.1]⟩
    · exact .inr ⟨_, (hl e (by simp) (by rw [h2]; decide)).eol h2, rfl⟩
  | .End .Collapsible, h =>
    have fx : ∀ {t}, (t.kind ≠ .Literal → Lexed input t) → isCollapsibleEnd t = true → sliceD input t = ['%', '}'] := by
      intro t ht h1
      simp only [isCollapsibleEnd, Bool.and_eq_true, decide_eq_true_eq] at h1
      exact (ht (by rw [h1.1]; decide)).fixed (by rw [h1.1]; rfl)
    rcases h with ⟨t, rfl, h1⟩ | ⟨t, e, rfl, h1, h2⟩
    · left; rw [text_one]; exact fx (hl t (by simp)) h1
    · right; exact ⟨_, eol_text h2 (hl e (by simp)), by rw [text_two, fx (hl t (by simp)) h1]⟩
  | .Start .Anchor, h | .Start .Document, h | .Start .Images, h | .Start .Modifier, h | .Start .OrderedList, h
  | .Start .Paragraph, h | .Start .ThematicBreak, h | .Start .UnorderedList, h | .End .Anchor, h
  | .End .Document, h | .End .Heading, h | .End .Images, h | .End .ListItem, h | .End .OrderedList, h
  | .End .Paragraph, h | .End .ThematicBreak, h | .End .UnorderedList, h =>
    have h : own = [] := h
    subst h; rfl

end Yamd.Ref

namespace Yamd.Ref

open Yamd Yamd.Spec

/-- Every op of `parse` with its tree segment and its original tokens. -/
theorem parse_segs (input : Str) :
    ∃ segs ss, parse input = .ok (segs.map (Seg.op input)) ∧ AllFit segs ∧
      Segmentation input (tokens input) (segs.map (Seg.op input)) ss ∧
      Grammatical (segs.map (Seg.op input)) ∧
      (∀ x ∈ (openAt [] ((segs.map (Seg.op input)).map Op.kind)).zip ss, x.1.any isInlineNode = true →
        ∀ t ∈ x.2.2, t.kind ≠ .Terminator) ∧
      ∀ x ∈ segs.zip ss, Flips x.2.2 x.1.own := by
  have hp := parse_eq input
  rw [Top.ops_segs] at hp
  have hfit := allFit_top (tokens input)
  have hw := walk_top (tokens input)
  have hf := top_flips (tokens input)
  rw [← Top.toks_segs] at hf
  generalize (topB (tokens input)).segs = segs at hp hfit hf hw
  obtain ⟨ss, h1, h2, h3, h4⟩ := segmentation_of hw hf
  exact ⟨segs, ss, hp, hfit, h1, h2, h3, fun x hx => (h4 x hx).2⟩

theorem zip_mem {α β : Type} : ∀ {a : List α} {b : List β}, a.length = b.length → ∀ x ∈ a, ∃ y ∈ b, (x, y) ∈ a.zip b
  | [], _, _, x, hx => by cases hx
  | _ :: _, [], h, _, _ => by simp at h
  | a :: l, b :: m, h, x, hx => by
    rcases List.mem_cons.1 hx with rfl | hx
    · exact ⟨b, by simp, by simp⟩
    · obtain ⟨y, h1, h2⟩ := zip_mem (by simpa using h) x hx
      exact ⟨y, by simp [h1], by simp [h2]⟩

theorem Flips.mem : ∀ {a b : List Token}, Flips a b → ∀ t ∈ b, t.kind ≠ .Literal → t ∈ a
  | _, _, .nil, t, ht, _ => by cases ht
  | _, _, .cons h h2, t, ht, hk => by
    rcases List.mem_cons.1 ht with rfl | ht
    · rw [h.back hk]; simp
    · exact List.mem_cons_of_mem _ (Flips.mem h2 t ht hk)

theorem seg_mem {toks : List Token} {ss : List (List Token × List Token)}
    (h : ss.flatMap (fun s => s.1 ++ s.2) = toks) {s} (hs : s ∈ ss) {t} (ht : t ∈ s.2) : t ∈ toks := by
  rw [← h]; exact List.mem_flatMap.2 ⟨s, hs, by simp [ht]⟩

/-- The delimiters of the ops of `parse` read as documented. -/
theorem parse_delimiters (input : Str) :
    ∃ ops, parse input = .ok ops ∧ ∀ op ∈ ops, DelimiterText op.kind (opText input op) := by
  obtain ⟨segs, ss, hp, hfit, hseg, -, -, hfl⟩ := parse_segs input
  refine ⟨_, hp, ?_⟩
  intro op hop
  obtain ⟨s, hs, rfl⟩ := List.mem_map.1 hop
  have hlen : segs.length = ss.length := by have := hseg.length; simpa using this.symm
  obtain ⟨x, hx, hz⟩ := zip_mem hlen s hs
  have hr := hseg.reads (Seg.op input s, x) (by
    rw [zip_map_left]; exact List.mem_map.2 ⟨(s, x), hz, rfl⟩)
  rw [reads_text hr]
  have hf := hfl _ hz
  have : textOfTokens input x.2 = textOfToks input s.own := (hf.text (src := input)).symm
  rw [this]
  exact fits_text (fun t ht hk => lexed_tokens (seg_mem hseg.covers hx (hf.mem t ht hk))) (hfit s hs)

theorem nested_end {c : Option Node → Node → Bool} {f : Node → Bool} : ∀ {ks st}, nested c f st ks = true →
    (∀ n ∈ st, .End n ∈ ks) ∧ ∀ n, .Start n ∈ ks → .End n ∈ ks
  | [], st, h => by
    simp [nested] at h; subst h; simp
  | .Start m :: r, st, h => by
    simp only [nested, Bool.and_eq_true] at h
    obtain ⟨i1, i2⟩ := nested_end h.2
    refine ⟨fun n hn => List.mem_cons_of_mem _ (i1 n (by simp [hn])), fun n hn => ?_⟩
    rcases List.mem_cons.1 hn with hn | hn
    · simp only [OpKind.Start.injEq] at hn; subst hn
      exact List.mem_cons_of_mem _ (i1 n (by simp))
    · exact List.mem_cons_of_mem _ (i2 n hn)
  | .Value :: r, [], h => by simp [nested] at h
  | .Value :: r, p :: st, h => by
    simp only [nested, Bool.and_eq_true] at h
    obtain ⟨i1, i2⟩ := nested_end h.2
    exact ⟨fun n hn => List.mem_cons_of_mem _ (i1 n hn),
      fun n hn => List.mem_cons_of_mem _ (i2 n (by simpa using hn))⟩
  | .End m :: r, [], h => by simp [nested] at h
  | .End m :: r, p :: st, h => by
    simp only [nested, Bool.and_eq_true, decide_eq_true_eq] at h
    obtain ⟨i1, i2⟩ := nested_end h.2
    refine ⟨fun n hn => ?_, fun n hn => List.mem_cons_of_mem _ (i2 n (by simpa using hn))⟩
    rcases List.mem_cons.1 hn with rfl | hn
    · rw [h.1]; simp
    · exact List.mem_cons_of_mem _ (i1 n hn)

/-- A collapsible needs a `%}` at the start of a line. -/
theorem collapsible_needs_end (input : Str) (h : ∀ t ∈ tokens input, t.kind = .CollapsibleEnd → t.position.column ≠ 0) :
    ∃ ops, parse input = .ok ops ∧ ∀ op ∈ ops, op.kind ≠ .Start .Collapsible ∧ op.kind ≠ .End .Collapsible := by
  obtain ⟨segs, ss, hp, hfit, hseg, hg, -, hfl⟩ := parse_segs input
  refine ⟨_, hp, ?_⟩
  have hend : ∀ op ∈ segs.map (Seg.op input), op.kind ≠ .End .Collapsible := by
    intro op hop hk
    obtain ⟨s, hs, rfl⟩ := List.mem_map.1 hop
    have hlen : segs.length = ss.length := by have := hseg.length; simpa using this.symm
    obtain ⟨x, hx, hz⟩ := zip_mem hlen s hs
    have hf := hfit s hs
    rw [show s.kind = .End .Collapsible from hk] at hf
    obtain ⟨t, ht, h1⟩ : ∃ t ∈ s.own, isCollapsibleEnd t = true := by
      rcases hf with ⟨t, e, h1⟩ | ⟨t, e, e1, h1, -⟩
      · exact ⟨t, by rw [e]; simp, h1⟩
      · exact ⟨t, by rw [e1]; simp, h1⟩
    simp only [isCollapsibleEnd, col0, Bool.and_eq_true, decide_eq_true_eq] at h1
    exact h t (seg_mem hseg.covers hx ((hfl _ hz).mem t ht (by rw [h1.1]; decide))) h1.1 h1.2
  intro op hop
  refine ⟨fun hk => ?_, hend op hop⟩
  have := (nested_end hg).2 .Collapsible (List.mem_map.2 ⟨op, hop, hk⟩)
  obtain ⟨op', h1, h2⟩ := List.mem_map.1 this
  exact hend op' h1 h2

end Yamd.Ref
