import Verif.Proofs.LayoutOps

/-!
# Lines and ops
-/

namespace Yamd.Ref

open Yamd Yamd.Spec

theorem parse_layout (input : Str) :
    ∃ segs ss, parse input = .ok (segs.map (Seg.op input)) ∧ AllFit segs ∧
      Segmentation input (tokens input) (segs.map (Seg.op input)) ss ∧ SegsLay segs [] ∧
      sepd [] none (kindsOf segs) ∧ ∀ x ∈ segs.zip ss, Flips x.2.1 x.1.skip ∧ Flips x.2.2 x.1.own := by
  have hp := parse_eq input
  rw [Top.ops_segs] at hp
  have hfit := allFit_top (tokens input)
  have hw := walk_top (tokens input)
  have hf := top_flips (tokens input)
  have hl := lay_top (tokens input) (cols_tokens input)
  have hs := top_sepd (tokens input) (cols_tokens input)
  rw [← Top.toks_segs] at hf
  generalize (topB (tokens input)).segs = segs at hp hfit hf hw hl hs
  obtain ⟨ss, h1, -, -, h4⟩ := segmentation_of hw hf
  exact ⟨segs, ss, hp, hfit, h1, hl, hs, h4⟩

/-- The tokens of the source around a segment. -/
theorem locate {input : Str} {a1 a2 : List Seg} {s : Seg} {ss}
    (hseg : Segmentation input (tokens input) ((a1 ++ s :: a2).map (Seg.op input)) ss)
    (hf : ∀ x ∈ (a1 ++ s :: a2).zip ss, Flips x.2.1 x.1.skip ∧ Flips x.2.2 x.1.own) :
    ∃ pre x post, tokens input = pre ++ (x ++ post) ∧ Flips x s.own ∧ Flips post (toksOf a2) ∧
      Reads input (s.op input).content x := by
  have hlen : (a1 ++ s :: a2).length = ss.length := by have := hseg.length; simpa using this.symm
  have hr : ∀ x ∈ (a1 ++ s :: a2).zip ss, Reads input (x.1.op input).content x.2.2 := by
    intro x hx
    refine hseg.reads (x.1.op input, x.2) ?_
    rw [List.zip_map_left]
    exact List.mem_map.2 ⟨x, hx, rfl⟩
  have key : ∀ {a1 : List Seg} {ss : List (List Token × List Token)}, (a1 ++ s :: a2).length = ss.length →
      (∀ x ∈ (a1 ++ s :: a2).zip ss, Flips x.2.1 x.1.skip ∧ Flips x.2.2 x.1.own) →
      (∀ x ∈ (a1 ++ s :: a2).zip ss, Reads input (x.1.op input).content x.2.2) →
      ∃ pre x post, ss.flatMap (fun s => s.1 ++ s.2) = pre ++ (x ++ post) ∧ Flips x s.own ∧ Flips post (toksOf a2) ∧
        Reads input (s.op input).content x := by
    intro a1
    induction a1 with
    | nil =>
      intro ss hl hf hr
      cases ss with
      | nil => simp at hl
      | cons y ss =>
        have h0 := hf (s, y) (by simp)
        refine ⟨y.1, y.2, ss.flatMap (fun s => s.1 ++ s.2), by simp, h0.2, ?_, hr (s, y) (by simp)⟩
        exact zip_flips (by simpa using hl) fun z hz => hf z (by simp [hz])
    | cons b a1 ih =>
      intro ss hl hf hr
      cases ss with
      | nil => simp at hl
      | cons y ss =>
        obtain ⟨pre, x, post, e, h1, h2⟩ := ih (ss := ss) (by simpa using hl) (fun z hz => hf z (by simp [hz]))
          (fun z hz => hr z (by simp [hz]))
        exact ⟨y.1 ++ y.2 ++ pre, x, post, by rw [List.flatMap_cons, e]; simp, h1, h2⟩
  obtain ⟨pre, x, post, e, h1, h2⟩ := key hlen hf hr
  rw [hseg.covers] at e
  exact ⟨pre, x, post, e, h1, h2⟩

theorem Flips.same : ∀ {a b : List Token}, Flips a b → (∀ t ∈ b, t.kind ≠ .Literal) → a = b
  | _, _, .nil, _ => rfl
  | _, _, .cons h h2, hk => by
    rw [h.back (hk _ (by simp)), Flips.same h2 fun t ht => hk t (by simp [ht])]

theorem Flips.front_back {a b} (h : Flips a b) (hf : Front b) : Front a := by
  cases h with
  | nil => trivial
  | cons h hr => show _ = true; rw [← h.break_eq]; exact hf

theorem unescaped {input : Str} {t} (ht : t ∈ tokens input) (hk : t.kind ≠ .Literal) : t.escaped = false := by
  obtain ⟨a, p, c, -, -, -, h4, h5, h6, -⟩ := Props.tokens_facts ht
  cases he : t.escaped with
  | false => rfl
  | true =>
    rw [h5, (pieces_form _ p h4).2 (by rw [← h6]; exact he)] at hk
    exact absurd rfl hk

theorem content_span {src : Str} {t r} (h : ∀ u ∈ t :: r, u.escaped = false) :
    content src (t :: r) = .Span t.start (Content.lastStop t r) := by
  simp only [content]
  rw [if_neg]
  have : (t :: r).any (·.escaped) = false := by
    rw [List.any_eq_false]; intro u hu; simp [h u hu]
  simp [this]

/-- The tokens of the marks that stand at the start of a line. -/
theorem fits_line {k own} (h : Fits k own) (hk : isLineMark k = true) :
    ∃ t r, own = t :: r ∧ col0 t = true ∧ ∀ u ∈ t :: r, u.kind ≠ .Literal := by
  have nl : ∀ {t : Token} {k : TokenKind}, t.kind = k → k ≠ .Literal → t.kind ≠ .Literal := by
    intro t k h h2; rw [h]; exact h2
  have eolL : ∀ {t : Token}, isEol t = true → t.kind ≠ .Literal := by
    intro t h; simp only [isEol, decide_eq_true_eq] at h; exact nl h (by decide)
  have spL : ∀ {t : Token}, isSpace1 t = true → t.kind ≠ .Literal := by
    intro t h; simp only [isSpace1, Bool.and_eq_true, decide_eq_true_eq] at h; exact nl h.1 (by decide)
  have two : ∀ {t u : Token}, t.kind ≠ .Literal → u.kind ≠ .Literal → ∀ v ∈ [t, u], v.kind ≠ .Literal := by
    intro t u h1 h2 v hv
    simp only [List.mem_cons, List.not_mem_nil, or_false] at hv
    rcases hv with rfl | rfl <;> assumption
  have one : ∀ {t : Token}, t.kind ≠ .Literal → ∀ v ∈ [t], v.kind ≠ .Literal := by
    intro t h1 v hv
    simp only [List.mem_cons, List.not_mem_nil, or_false] at hv
    rw [hv]; exact h1
  have col : ∀ {t : Token} {k : TokenKind} {n : Nat}, (decide (t.kind = k) && col0 t && decide (t.len = n)) = true →
      k ≠ .Literal → col0 t = true ∧ t.kind ≠ .Literal := by
    intro t k n h hk
    simp only [Bool.and_eq_true, decide_eq_true_eq] at h
    exact ⟨h.1.2, nl h.1.1 hk⟩
  have line : ∀ {k : TokenKind} {n : Nat}, k ≠ .Literal →
      LineOf (fun t => t.kind = k && col0 t && t.len = n) isEol own →
      ∃ t r, own = t :: r ∧ col0 t = true ∧ ∀ u ∈ t :: r, u.kind ≠ .Literal := by
    intro k n hk h
    rcases h with ⟨t, e, h1⟩ | ⟨t, u, e, h1, h2⟩
    · exact ⟨t, _, e, (col h1 hk).1, one (col h1 hk).2⟩
    · exact ⟨t, _, e, (col h1 hk).1, two (col h1 hk).2 (eolL h2)⟩
  cases k with
  | Value => cases hk
  | Start n =>
    cases n with
    | Metadata =>
      obtain ⟨t, e, h1⟩ := h
      have := col (t := t) (k := .Minus) (n := 3) h1 (by decide)
      exact ⟨t, [], e, this.1, one this.2⟩
    | Heading =>
      obtain ⟨t, u, e, h1, h2⟩ := h
      simp only [isHash, Bool.and_eq_true, decide_eq_true_eq] at h1
      exact ⟨t, _, e, h1.1.2, two (nl h1.1.1 (by decide)) (spL h2)⟩
    | Embed =>
      obtain ⟨t, e, h1⟩ := h
      have := col (t := t) (k := .LeftCurlyBrace) (n := 2) h1 (by decide)
      exact ⟨t, [], e, this.1, one this.2⟩
    | Highlight =>
      obtain ⟨t, u, e, h1, h2⟩ := h
      have := col (t := t) (k := .Bang) (n := 2) h1 (by decide)
      simp only [Bool.or_eq_true] at h2
      exact ⟨t, _, e, this.1, two this.2 (h2.elim spL eolL)⟩
    | Icon =>
      obtain ⟨t, u, e, h1, h2⟩ := h
      have := col (t := t) (k := .Bang) (n := 1) h1 (by decide)
      exact ⟨t, _, e, this.1, two this.2 (spL h2)⟩
    | Collapsible =>
      obtain ⟨t, u, e, h1, h2⟩ := h
      simp only [isCollapsibleStart, Bool.and_eq_true, decide_eq_true_eq] at h1
      simp only [isSpaceOrEol, Bool.or_eq_true, decide_eq_true_eq] at h2
      exact ⟨t, _, e, h1.2, two (nl h1.1 (by decide)) (h2.elim (fun h => nl h (by decide)) fun h => nl h (by decide))⟩
    | ListItem =>
      have tl : ∀ {t : Token} {k}, ListKind.tryFrom t = some k → t.kind ≠ .Literal := by
        intro t k h
        intro hk
        simp [ListKind.tryFrom, hk] at h
      obtain ⟨l, k, h⟩ := h
      rcases h with ⟨-, a, b, e, h0, h1, h2⟩ | ⟨-, s, a, b, e, h0, h3, -, h1, h2⟩
      · exact ⟨a, _, e, h0, two (tl h1) (spL h2)⟩
      · refine ⟨s, _, e, h0, ?_⟩
        intro v hv
        rcases List.mem_cons.1 hv with rfl | hv
        · exact nl h3 (by decide)
        · exact two (tl h1) (spL h2) v hv
    | Code => exact line (k := .Backtick) (n := 3) (by decide) h
    | _ => cases hk
  | End n =>
    cases n with
    | Metadata =>
      obtain ⟨t, e, h1⟩ := h
      have := col (t := t) (k := .Minus) (n := 3) h1 (by decide)
      exact ⟨t, [], e, this.1, one this.2⟩
    | Collapsible =>
      have cl : ∀ {t}, isCollapsibleEnd t = true → col0 t = true ∧ t.kind ≠ .Literal := by
        intro t h
        simp only [isCollapsibleEnd, Bool.and_eq_true, decide_eq_true_eq] at h
        exact ⟨h.2, nl h.1 (by decide)⟩
      rcases h with ⟨t, e, h1⟩ | ⟨t, u, e, h1, h2⟩
      · exact ⟨t, _, e, (cl h1).1, one (cl h1).2⟩
      · exact ⟨t, _, e, (cl h1).1, two (cl h1).2 (eolL h2)⟩
    | Code => exact line (k := .Backtick) (n := 3) (by decide) h
    | Highlight => exact line (k := .Bang) (n := 2) (by decide) h
    | _ => cases hk

theorem mem_tokens {input : Str} {pre x post : List Token} (h : tokens input = pre ++ (x ++ post)) {t} (ht : t ∈ x) :
    t ∈ tokens input := by rw [h]; simp [ht]

/-- The marks of `parse` that have to stand at the start of a line do. -/
theorem parse_lineStarts (input : Str) : ∃ ops, parse input = .ok ops ∧
    (∀ op ∈ ops, isLineMark op.kind = true → AtLineStart input op) ∧
    ∀ l1 s v l2, ops = l1 ++ s :: v :: l2 → s.kind = .Start .ThematicBreak →
      v.kind = .Value ∧ AtLineStart input v ∧ opText input v = ['-', '-', '-', '-', '-'] := by
  obtain ⟨segs, ss, hp, hfit, hseg, hlay, -, hfl⟩ := parse_layout input
  refine ⟨_, hp, ?_, ?_⟩
  · intro op hop hk
    obtain ⟨s, hs, rfl⟩ := List.mem_map.1 hop
    obtain ⟨a1, a2, rfl⟩ := List.append_of_mem hs
    obtain ⟨pre, x, post, e, h1, -, -⟩ := locate hseg hfl
    obtain ⟨t, r, e2, h3, h4⟩ := fits_line (hfit s hs) hk
    have hx := h1.same (by rw [e2]; exact h4)
    rw [e2] at hx
    have ht : t ∈ tokens input := mem_tokens e (by rw [hx]; simp)
    refine ⟨t.start, Content.lastStop t r, ?_, lineStart_of ht (h4 t (by simp)) h3⟩
    show content input s.own = _
    rw [e2, content_span fun u hu => unescaped (mem_tokens e (by rw [hx]; exact hu)) (h4 u hu)]
  · intro l1 s v l2 he hk
    obtain ⟨m1, m2, rfl, e1, e2⟩ := List.map_eq_append_iff.1 he
    obtain ⟨g, m3, rfl, rfl, e3⟩ := List.map_eq_cons_iff.1 e2
    obtain ⟨w, m4, rfl, rfl, e4⟩ := List.map_eq_cons_iff.1 e3
    have hsl := hlay.split
    have hk : g.kind = .Start .ThematicBreak := hk
    unfold SegLay at hsl
    rw [hk] at hsl
    obtain ⟨h1, t, h2, h3⟩ := hsl
    have hseg' := hseg
    have hfl' := hfl
    rw [show m1 ++ g :: w :: m4 = (m1 ++ [g]) ++ w :: m4 by simp] at hseg' hfl'
    obtain ⟨pre, x, post, e, f1, -, hrd⟩ := locate hseg' hfl'
    simp only [isDash5, Bool.and_eq_true, decide_eq_true_eq] at h3
    have hnl : t.kind ≠ .Literal := by rw [h3.1.1]; decide
    have hx : x = [t] := by
      rw [← h2]
      exact f1.same (by rw [h2]; intro u hu; simp at hu; rw [hu]; exact hnl)
    have ht : t ∈ tokens input := mem_tokens e (by rw [hx]; simp)
    have hc : (Seg.op input w).content = .Span t.start t.stop := by
      show content input w.own = _
      rw [h2, content_span fun u hu => by simp at hu; rw [hu]; exact unescaped ht hnl]
      rfl
    refine ⟨h1, ⟨_, _, hc, lineStart_of ht hnl h3.1.2⟩, ?_⟩
    have hrun := ((lexed_tokens ht).run (c := '-') (by rw [h3.1.1]; rfl)).1
    rw [h3.2] at hrun
    rw [reads_text hrd, hx]
    show (textOf input t).getD [] ++ [] = _
    rw [List.append_nil]
    exact hrun

theorem line_close {input : Str} {f : Token → Bool} {k : TokenKind} {n : Nat} {own : List Token} {pre x post : List Token}
    {a2 : List Seg} (hl : LineOf f isEol own) (hf : ∀ t, f t = true → t.kind = k ∧ t.len = n)
    (hk : k ≠ .Literal) (hk2 : k ≠ .Eol) (hn : 0 < n)
    (e : tokens input = pre ++ (x ++ post)) (h1 : Flips x own) (h2 : Flips post (toksOf a2))
    (hlay : own.any isEol = true ∨ Front (toksOf a2)) :
    ∃ a b, content input own = .Span a b ∧ LineEnd input (a + n) := by
  rcases hl with ⟨t, e1, ht⟩ | ⟨t, u, e1, ht, hu⟩
  · have hnl : t.kind ≠ .Literal := by rw [(hf t ht).1]; exact hk
    have hx : x = [t] := by
      rw [← e1]; exact h1.same (by rw [e1]; intro v hv; simp at hv; rw [hv]; exact hnl)
    have hm : t ∈ tokens input := mem_tokens e (by rw [hx]; simp)
    refine ⟨t.start, t.stop, ?_, ?_⟩
    · rw [e1, content_span fun u hu => by simp at hu; rw [hu]; exact unescaped hm hnl]; rfl
    · have hfr : Front post := by
        refine h2.front_back (hlay.resolve_left ?_)
        rw [e1]
        simp [isEol, (hf t ht).1, hk2]
      rw [show t.start + n = t.stop by have := (hf t ht).2; unfold Token.len at this; omega]
      exact lineEnd_of (l1 := pre) (by rw [e, hx]; simp) hfr
  · have hnl : t.kind ≠ .Literal := by rw [(hf t ht).1]; exact hk
    have hul : u.kind ≠ .Literal := by
      simp only [isEol, decide_eq_true_eq] at hu; rw [hu]; decide
    have hnl2 : ∀ v ∈ [t, u], v.kind ≠ .Literal := by
      intro v hv
      simp only [List.mem_cons, List.not_mem_nil, or_false] at hv
      rcases hv with rfl | rfl <;> assumption
    have hx : x = [t, u] := by
      rw [← e1]; exact h1.same (by rw [e1]; exact hnl2)
    refine ⟨t.start, u.stop, ?_, ?_⟩
    · rw [e1, content_span fun v hv => unescaped (mem_tokens e (by rw [hx]; exact hv)) (hnl2 v hv)]; rfl
    · rw [show t.start + n = t.stop by have := (hf t ht).2; unfold Token.len at this; omega]
      refine lineEnd_of (l1 := pre) (l2 := u :: post) (by rw [e, hx]; simp) ?_
      show isEolOrTerminator u = true
      simp only [isEol, decide_eq_true_eq] at hu
      simp [isEolOrTerminator, hu]

/-- The marks of `parse` that have to stand at the end of a line do. -/
theorem parse_lineEnds (input : Str) : ∃ ops, parse input = .ok ops ∧
    (∀ op ∈ ops, op.kind = .End .Code → ∃ a b, op.content = .Span a b ∧ LineEnd input (a + 3)) ∧
    (∀ op ∈ ops, op.kind = .End .Embed → ∃ a b, op.content = .Span a b ∧ LineEnd input (a + 2)) ∧
    ∀ l1 d e l2, ops = l1 ++ d :: e :: l2 → d.kind = .End .Destination → e.kind = .End .Image →
      ∃ a b, d.content = .Span a b ∧ LineEnd input b := by
  obtain ⟨segs, ss, hp, hfit, hseg, hlay, -, hfl⟩ := parse_layout input
  refine ⟨_, hp, ?_, ?_, ?_⟩
  · intro op hop hk
    obtain ⟨s, hs, rfl⟩ := List.mem_map.1 hop
    obtain ⟨a1, a2, rfl⟩ := List.append_of_mem hs
    obtain ⟨pre, x, post, e, h1, h2, -⟩ := locate hseg hfl
    have hk : s.kind = .End .Code := hk
    have hsl := hlay.split
    have hft := hfit s hs
    unfold SegLay at hsl
    rw [hk] at hsl hft
    simp only [List.append_nil] at hsl
    refine line_close (k := .Backtick) hft (fun t ht => ?_) (by decide) (by decide) (by decide) e h1 h2 hsl
    simp only [isBacktick3, Bool.and_eq_true, decide_eq_true_eq] at ht
    exact ⟨ht.1.1, ht.2⟩
  · intro op hop hk
    obtain ⟨s, hs, rfl⟩ := List.mem_map.1 hop
    obtain ⟨a1, a2, rfl⟩ := List.append_of_mem hs
    obtain ⟨pre, x, post, e, h1, h2, -⟩ := locate hseg hfl
    have hk : s.kind = .End .Embed := hk
    have hsl := hlay.split
    have hft := hfit s hs
    unfold SegLay at hsl
    rw [hk] at hsl hft
    simp only [List.append_nil] at hsl
    refine line_close (k := .RightCurlyBrace) hft (fun t ht => ?_) (by decide) (by decide) (by decide) e h1 h2 hsl
    simp only [isRightCurly2, Bool.and_eq_true, decide_eq_true_eq] at ht
    exact ht
  · intro l1 s v l2 he hk hk2
    obtain ⟨m1, m2, rfl, e1, e2⟩ := List.map_eq_append_iff.1 he
    obtain ⟨g, m3, rfl, rfl, e3⟩ := List.map_eq_cons_iff.1 e2
    obtain ⟨w, m4, rfl, rfl, e4⟩ := List.map_eq_cons_iff.1 e3
    have hsl := hlay.split
    have hft := hfit g (by simp)
    have hk : g.kind = .End .Destination := hk
    have hk2 : w.kind = .End .Image := hk2
    unfold SegLay at hsl
    rw [hk] at hsl hft
    obtain ⟨t, e5, ht⟩ := hft
    have hfr : Front (toksOf (w :: m4) ++ []) := hsl (by simp [endsImage, hk2])
    rw [List.append_nil] at hfr
    obtain ⟨pre, x, post, e, h1, h2, -⟩ := locate hseg hfl
    have hnl : t.kind ≠ .Literal := by rw [ht]; decide
    have hx : x = [t] := by
      rw [← e5]; exact h1.same (by rw [e5]; intro v hv; simp at hv; rw [hv]; exact hnl)
    have hm : t ∈ tokens input := mem_tokens e (by rw [hx]; simp)
    refine ⟨t.start, t.stop, ?_, lineEnd_of (l1 := pre) (by rw [e, hx]; simp) (h2.front_back hfr)⟩
    show content input g.own = _
    rw [e5, content_span fun u hu => by simp at hu; rw [hu]; exact unescaped hm hnl]; rfl

theorem lf_eol {input : Str} {t} (ht : t ∈ tokens input) (h : t.kind = .Eol) : '\n' ∈ sliceD input t := by
  obtain ⟨s, e, h1, -⟩ := lexed_tokens ht
  rw [e]
  rw [h] at h1
  rcases h1 with rfl | rfl <;> decide

theorem lf_none {input : Str} {t} (ht : t ∈ tokens input) (h : isEolOrTerminator t = false) (he : t.escaped = false) :
    '\n' ∉ sliceD input t := by
  obtain ⟨s, e, h1, -⟩ := lexed_tokens ht
  rw [e]
  simp only [isEolOrTerminator, Bool.or_eq_false_iff, decide_eq_false_iff_not] at h
  rw [he] at h1
  cases hk : t.kind <;> rw [hk] at h1
  case Eol => exact absurd hk h.1
  case Terminator => exact absurd hk h.2
  case Literal =>
    obtain ⟨c, r, rfl, h2, h3⟩ := h1
    intro hm
    rcases List.mem_cons.1 hm with hm | hm
    · exact (h3 rfl).1 (by rw [← hm]; decide)
    · exact h2 _ hm (by decide)
  all_goals
    first
    | (have h1 : s ≠ [] ∧ ∀ x ∈ s, x = _ := h1
       intro hm
       exact absurd (h1.2 _ hm) (by decide))
    | (have h1 : some _ = some s := h1
       injection h1 with h1
       rw [← h1]
       decide)

theorem Flips.noBreak {a b} (h : Flips a b) (hb : ∀ t ∈ b, isEolOrTerminator t = false) :
    ∀ t ∈ a, isEolOrTerminator t = false := by
  induction h with
  | nil => intro t ht; cases ht
  | cons h hr ih =>
    intro t ht
    rcases List.mem_cons.1 ht with rfl | ht
    · rw [← h.break_eq]; exact hb _ (by simp)
    · exact ih (fun t ht => hb t (by simp [ht])) t ht

/-- The opening marks that a title may follow. -/
theorem fits_opening {k own} (h : Fits k own) (hk : k = .Start .Code ∨ k = .Start .Highlight ∨ k = .Start .Collapsible) :
    ∀ t ∈ own, t.kind ≠ .Terminator := by
  have eolT : ∀ {t : Token}, isEol t = true → t.kind ≠ .Terminator := by
    intro t h; simp only [isEol, decide_eq_true_eq] at h; rw [h]; decide
  have spT : ∀ {t : Token}, isSpace1 t = true → t.kind ≠ .Terminator := by
    intro t h; simp only [isSpace1, Bool.and_eq_true, decide_eq_true_eq] at h; rw [h.1]; decide
  have two : ∀ {t u : Token}, t.kind ≠ .Terminator → u.kind ≠ .Terminator → ∀ v ∈ [t, u], v.kind ≠ .Terminator := by
    intro t u h1 h2 v hv
    simp only [List.mem_cons, List.not_mem_nil, or_false] at hv
    rcases hv with rfl | rfl <;> assumption
  rcases hk with rfl | rfl | rfl
  · rcases h with ⟨t, rfl, h1⟩ | ⟨t, u, rfl, h1, h2⟩
    · simp only [isBacktick3, Bool.and_eq_true, decide_eq_true_eq] at h1
      intro v hv
      simp only [List.mem_cons, List.not_mem_nil, or_false] at hv
      rw [hv, h1.1.1]; decide
    · simp only [isBacktick3, Bool.and_eq_true, decide_eq_true_eq] at h1
      exact two (by rw [h1.1.1]; decide) (eolT h2)
  · obtain ⟨t, u, rfl, h1, h2⟩ := h
    simp only [isTwoBangs, Bool.and_eq_true, decide_eq_true_eq] at h1
    simp only [Bool.or_eq_true] at h2
    exact two (by rw [h1.1.1]; decide) (h2.elim spT eolT)
  · obtain ⟨t, u, rfl, h1, h2⟩ := h
    simp only [isCollapsibleStart, Bool.and_eq_true, decide_eq_true_eq] at h1
    simp only [isSpaceOrEol, Bool.or_eq_true, decide_eq_true_eq] at h2
    exact two (by rw [h1.1]; decide) (h2.elim (fun h => by rw [h]; decide) (fun h => by rw [h]; decide))

theorem zip_cut {α β : Type} : ∀ {l : List α} {m : List β} {z1 z2 : List (α × β)}, l.length = m.length → l.zip m = z1 ++ z2 →
    l = z1.map Prod.fst ++ z2.map Prod.fst ∧ m = z1.map Prod.snd ++ z2.map Prod.snd := by
  intro l m z1 z2 hl h
  constructor
  · rw [← List.map_append, ← h, List.map_fst_zip (by omega)]
  · rw [← List.map_append, ← h, List.map_snd_zip (by omega)]

/-- Titles. -/
theorem parse_titles (input : Str) : ∃ ops ss, parse input = .ok ops ∧ Segmentation input (tokens input) ops ss ∧
    (∀ l1 s v l2, ops = l1 ++ s :: v :: l2 →
      (s.kind = .Start .Code ∨ s.kind = .Start .Highlight ∨ s.kind = .Start .Collapsible) →
      (v.kind = .Start .Modifier ↔ '\n' ∉ opText input s)) ∧
    ∀ z1 s v z2, ops.zip ss = z1 ++ s :: v :: z2 → (s.1.kind = .Start .Modifier ∨ s.1.kind = .Start .Icon) →
      v.1.kind = .Value ∧ ∀ t ∈ v.2.2, isEolOrTerminator t = false := by
  obtain ⟨segs, ss, hp, hfit, hseg, hlay, -, hfl⟩ := parse_layout input
  refine ⟨_, ss, hp, hseg, ?_, ?_⟩
  · intro l1 s v l2 he hk
    obtain ⟨m1, m2, rfl, e1, e2⟩ := List.map_eq_append_iff.1 he
    obtain ⟨g, m3, rfl, rfl, e3⟩ := List.map_eq_cons_iff.1 e2
    obtain ⟨w, m4, rfl, rfl, e4⟩ := List.map_eq_cons_iff.1 e3
    have hsl := hlay.split
    have hft := hfit g (by simp)
    have hk : g.kind = .Start .Code ∨ g.kind = .Start .Highlight ∨ g.kind = .Start .Collapsible := hk
    have hm : hasMod (w :: m4) = true ↔ g.own.any isEol = false := by
      unfold SegLay at hsl
      rcases hk with hk | hk | hk <;> (rw [hk] at hsl; exact hsl)
    obtain ⟨pre, x, post, e, h1, h2, hrd⟩ := locate hseg hfl
    obtain ⟨t, r, eo, -, hnl⟩ := fits_line hft (by rcases hk with hk | hk | hk <;> (rw [hk]; rfl))
    rw [← eo] at hnl
    have hx := h1.same hnl
    have hnt := fits_opening hft hk
    rw [reads_text hrd, hx]
    rw [hx] at e
    have key : '\n' ∈ textOfTokens input g.own ↔ g.own.any isEol = true := by
      unfold textOfTokens
      rw [List.mem_flatMap, List.any_eq_true]
      constructor
      · rintro ⟨u, hu, hm⟩
        refine ⟨u, hu, ?_⟩
        have hmem := mem_tokens e hu
        by_contra hc
        refine lf_none hmem ?_ (unescaped hmem (hnl u hu)) hm
        simp only [isEol, decide_eq_true_eq] at hc
        simp [isEolOrTerminator, hc, hnt u hu]
      · rintro ⟨u, hu, hm⟩
        simp only [isEol, decide_eq_true_eq] at hm
        exact ⟨u, hu, lf_eol (mem_tokens e hu) hm⟩
    rw [key]
    rw [show ((Seg.op input w).kind = OpKind.Start Node.Modifier) = (hasMod (w :: m4) = true) by simp [hasMod, Seg.op]]
    rw [hm]
    simp
  · intro z1 s v z2 hz hk
    have hlen : (segs.map (Seg.op input)).length = ss.length := hseg.length.symm
    obtain ⟨c1, c2⟩ := zip_cut hlen hz
    obtain ⟨m1, m2, rfl, e1, e2⟩ := List.map_eq_append_iff.1 c1
    obtain ⟨g, m3, rfl, eg, e3⟩ := List.map_eq_cons_iff.1 e2
    obtain ⟨w, m4, rfl, ew, e4⟩ := List.map_eq_cons_iff.1 e3
    have hsl := hlay.split
    have hk : g.kind = .Start .Modifier ∨ g.kind = .Start .Icon := by
      rw [show g.kind = (Seg.op input g).kind from rfl, eg]; exact hk
    have ho : OneLineNext (w :: m4) := by
      unfold SegLay at hsl
      rcases hk with hk | hk <;> (rw [hk] at hsl; exact hsl)
    refine ⟨?_, ?_⟩
    · rw [← ew]; exact ho.1
    · have hmem : (w, v.2) ∈ (m1 ++ g :: w :: m4).zip ss := by
        rw [c2]
        have l1 : m1.length = (z1.map Prod.snd).length := by
          have := congrArg List.length e1; simpa using this
        rw [List.zip_append l1]
        simp
      exact (hfl _ hmem).2.noBreak ho.2

end Yamd.Ref
