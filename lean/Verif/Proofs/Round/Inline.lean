import Verif.Proofs.Round.Quiet

/-!
# Views of inline nodes and the trees their tokens parse to
-/

namespace Yamd.Round

open Yamd Yamd.Spec Yamd.Lexer Yamd.Ref

/-! ### Joining after a closing character -/

/-- Characters that end a piece of their own kind. -/
def closers : List Char := ['~', '*', '`', '_', '[', ']', '(', ')', '|', '#', '-', '+', '!', ' ', '{']

theorem last_kind {p : Piece} {c : Char} (hf : KindText p.kind p.esc p.text) (he : p.esc = true → p.kind = .Literal)
    (hl : (pview p).getLast? = some (false, c)) (hc : c ∈ closers) (hlit : c = ' ' → p.kind ≠ .Literal) :
    runCharOf p.kind = some c ∨ fixedText p.kind = some [c] := by
  have hm := List.mem_of_getLast? hl
  have hcm : c ∈ p.text := by rw [← pview_chars]; exact List.mem_map.2 ⟨_, hm, rfl⟩
  cases hk : p.kind with
  | Literal =>
    exfalso
    by_cases hsp : c = ' '
    · exact hlit hsp hk
    have hcs : c ∈ specials := by
      simp only [closers, List.mem_cons, List.not_mem_nil, or_false] at hc
      rcases hc with rfl | rfl | rfl | rfl | rfl | rfl | rfl | rfl | rfl | rfl | rfl | rfl | rfl | rfl | rfl <;>
        first | exact absurd rfl hsp | simp [specials]
    rw [hk] at hf
    obtain ⟨d, r, e, h2, h3⟩ := hf
    unfold pview at hm
    rw [e] at hm
    simp only at hm
    rcases List.mem_cons.1 hm with h4 | h4
    · simp only [Prod.mk.injEq] at h4
      exact (h3 h4.1.symm).1 (by rw [← h4.2]; exact hcs)
    · obtain ⟨x, hx, e2⟩ := List.mem_map.1 h4
      simp only [Prod.mk.injEq, true_and] at e2
      exact h2 x hx (by rw [e2]; exact hcs)
  | Eol =>
    exfalso
    rw [hk] at hf
    rcases hf with e | e <;> rw [e] at hcm <;>
      (simp only [List.mem_cons, List.not_mem_nil, or_false] at hcm
       first
         | (subst hcm; revert hc; decide)
         | (rcases hcm with rfl | rfl <;> (revert hc; decide)))
  | Terminator =>
    exfalso
    rw [hk] at hf
    obtain ⟨x, y, hx, hy, e⟩ := hf
    have h2 : c = '\n' ∨ c = '\r' := by
      rw [e] at hcm
      rcases hx with rfl | rfl <;> rcases hy with rfl | rfl <;> simp at hcm
      · exact .inl hcm
      · rcases hcm with h | h | h
        · exact .inl h
        · exact .inr h
        · exact .inl h
      · rcases hcm with h | h
        · exact .inr h
        · exact .inl h
      · rcases hcm with h | h | h | h
        · exact .inr h
        · exact .inl h
        · exact .inr h
        · exact .inl h
    rcases h2 with rfl | rfl <;> revert hc <;> decide
  | CollapsibleStart =>
    exfalso
    have := pview_fixed hf he (s := ['{', '%']) (by rw [hk]; rfl)
    rw [this] at hl
    simp [free] at hl
    subst hl; revert hc; decide
  | CollapsibleEnd =>
    exfalso
    have := pview_fixed hf he (s := ['%', '}']) (by rw [hk]; rfl)
    rw [this] at hl
    simp [free] at hl
    subst hl; revert hc; decide
  | _ =>
    rw [hk] at hf
    simp only [KindText, runCharOf, fixedText] at hf
    first
      | (left; simp only [runCharOf]; rw [hf.2 c hcm])
      | (right; simp only [Option.some.injEq] at hf
         rw [← hf] at hcm
         simp only [List.mem_cons, List.not_mem_nil, or_false] at hcm
         subst hcm; rfl)

theorem render_head {w : V} {c : Char} (hc : c ≠ '\\') (h : (render w).head? = some c) : w.head? = some (false, c) := by
  match w, h with
  | [], h => simp [render] at h
  | (true, d) :: w, h => rw [render_esc] at h; simp at h; exact absurd h.symm hc
  | (false, d) :: w, h => rw [render_free] at h; simp at h; rw [h]; rfl

/-- After a closing character a new piece starts, unless it continues a run. -/
theorem join_after {v w : V} {c : Char} (hv : Valid v) (hl : v.getLast? = some (false, c)) (hc : c ∈ closers)
    (hsp : c ≠ ' ') (hcb : c = '{' → w.head? ≠ some (false, '%'))
    (hr : c ∈ ['_', '[', ']', '(', ')', '|'] ∨ w.head? ≠ some (false, c)) : Join v w := by
  refine join_of hv (fun p hp => ?_)
  obtain ⟨hf, he, h1⟩ := last_piece hv hp
  rw [h1] at hl
  have hcn : c ≠ '\\' := by rintro rfl; revert hc; decide
  have hk := last_kind hf he hl hc (fun h => absurd h hsp)
  have hhead : ∀ k, k = p.kind → runCharOf k = some c → (render w).head? ≠ some c := by
    rintro k rfl hk e
    rcases hr with hr | hr
    · revert hk
      simp only [List.mem_cons, List.not_mem_nil, or_false] at hr
      rcases hr with rfl | rfl | rfl | rfl | rfl | rfl <;> cases p.kind <;> simp [runCharOf]
    · exact hr (render_head hcn e)
  unfold joinOk
  cases hpk : p.kind with
  | Literal => rw [hpk] at hk; simp [runCharOf, fixedText] at hk
  | Eol => rw [hpk] at hk; simp [runCharOf, fixedText] at hk
  | LeftCurlyBrace =>
    rw [hpk] at hk
    simp only [runCharOf, fixedText, Option.some.injEq] at hk
    have hc' : c = '{' := by rcases hk with h | h
                             · exact h.symm
                             · simp at h
    subst hc'
    have := hhead _ hpk.symm rfl
    have h2 : (render w).head? ≠ some '%' := fun e => hcb rfl (render_head (by decide) e)
    simp only [Bool.and_eq_true, bne_iff_ne, ne_eq, this, not_false_eq_true, true_and, Bool.not_eq_true',
      Bool.and_eq_false_iff, beq_eq_false_iff_ne]
    exact .inr h2
  | _ =>
    rw [hpk] at hk
    simp only [runCharOf, fixedText, Option.some.injEq, reduceCtorEq, or_false, false_or] at hk ⊢
    first
      | done
      | (have := hhead _ hpk.symm (by rw [← hk]; rfl)
         rw [← hk] at this
         simpa using this)

/-! ### Bodies -/

/-- A text with escapes: it spells `s`, the characters of `S` are escaped, it meets no stop. -/
structure Body (stops : List Stop) (b : Bool) (S : List Char) (s : Str) (w : V) : Prop where
  valid : Valid w
  chars : w.map Prod.snd = s
  notFree : ∀ c ∈ S, (false, c) ∉ w
  vq : VQ stops b w

theorem Body.more {stops b S s w w'} (h : Body stops b S s w) (hm : More w w') : Body stops b S s w' :=
  ⟨hm.valid h.valid, by rw [hm.chars]; exact h.chars, fun c hc => hm.notFree (h.notFree c hc), hm.VQ h.vq⟩

theorem Body.nil {stops b S} : Body stops b S [] [] := ⟨by simp [Valid], rfl, by simp, VQ_nil⟩

theorem Body.ne {stops b S s w} (h : Body stops b S s w) (hs : s ≠ []) : w ≠ [] := by
  rintro rfl; exact hs h.chars.symm

/-! ### Delimited constructs -/

theorem getLast_free {s : Str} {c : Char} (h : s.getLast? = some c) (u : V) : (u ++ free s).getLast? = some (false, c) := by
  rw [List.getLast?_append, free_getLast, h]; rfl

/-- The tokens of `d w d`. -/
theorem delim_tokens {src : Str} {b : Bool} {ts : List Token} {d : Str} {c : Char} {k : TokenKind} {w : V}
    (hd : tok1 d = some (⟨false, k, d⟩, [])) (hlast : d.getLast? = some c) (hhead : d.head? = some c)
    (hc : c ∈ closers) (hsp : c ≠ ' ' ∧ c ≠ '{') (hstop : c ∈ stopChars) (hvd : Valid (free d))
    (hv : Valid w) (hw : (false, c) ∉ w) (hne : c = '_' ∨ w ≠ [])
    (h : SpV src b ts (free d ++ (w ++ free d))) :
    ∃ o t2 cl, ts = o :: (t2 ++ [cl]) ∧ o.kind = k ∧ o.len = blen d ∧ cl.kind = k ∧ cl.len = blen d ∧
      SpV src false t2 w := by
  have hcn : c ≠ '\n' := by rintro rfl; revert hc; decide
  have hcb : c ≠ '}' := by rintro rfl; revert hc; decide
  have j1 : Join (free d) (w ++ free d) := by
    refine join_after hvd (by simpa using getLast_free hlast []) hc hsp.1 (fun h => absurd h hsp.2) ?_
    rcases hne with rfl | hne
    · left; simp
    · right
      cases w with
      | nil => exact absurd rfl hne
      | cons x w =>
        intro e
        simp only [List.cons_append, List.head?_cons, Option.some.injEq] at e
        exact hw (by simp [e])
  have j2 : Join w (free d) := by
    refine join_stop hv (c := c) (by rw [render_free_all]; exact hhead) hstop
      (fun e => hw (List.mem_of_getLast? e)) (fun h => absurd h hcn) (fun h => absurd h hcb)
  obtain ⟨t1, t23, e, h1, h23⟩ := spv_split hvd j1 h
  obtain ⟨t2, t3, e', h2, h3⟩ := spv_split hv j2 h23
  have hd' : tok1 (render (free d)) = some (⟨false, k, d⟩, []) := by rw [render_free_all]; exact hd
  obtain ⟨o, rfl, so⟩ := spv_one hd' h1
  obtain ⟨cl, rfl, sc⟩ := spv_one hd' h3
  have hfl : flag b (free d) = false := by
    unfold flag
    have := getLast_free hlast []
    rw [List.nil_append] at this
    rw [this]
    simp [hcn]
  rw [hfl] at h2
  exact ⟨o, t2, cl, by rw [e, e']; simp, so.kind, so.len, sc.kind, sc.len, h2⟩

/-- No token of a body has a kind made of an escaped character. -/
theorem body_kind {src : Str} {b : Bool} {ts : List Token} {w : V} {c : Char} {k : TokenKind} (hv : Valid w)
    (hw : (false, c) ∉ w) (hk : runCharOf k = some c ∨ fixedText k = some [c]) (h : SpV src b ts w) :
    ∀ t ∈ ts, t.kind ≠ k := by
  rintro t ht rfl
  rcases hk with hk | hk
  · exact hw (spv_run hv h ht hk)
  · have := spv_fixed hv h ht hk
    exact hw (this.subset (by simp [free]))

/-- The tree of `d w d`. -/
theorem delim_tree {src : Str} {b : Bool} {ts : List Token} {stops : List Stop} {d : Str} {c : Char} {k : TokenKind}
    {s : Str} {w : V} {m : Token → Bool} (n : Node)
    (hd : tok1 d = some (⟨false, k, d⟩, [])) (hlast : d.getLast? = some c) (hhead : d.head? = some c)
    (hc : c ∈ closers) (hsp : c ≠ ' ' ∧ c ≠ '{') (hstop : c ∈ stopChars) (hvd : Valid (free d))
    (hk : runCharOf k = some c ∨ fixedText k = some [c]) (hq : k ∉ loud)
    (hm : ∀ t : Token, m t = true ↔ t.kind = k ∧ t.len = blen d)
    (hw : Body stops false [c] s w) (hne : c = '_' ∨ s ≠ []) (h : SpV src b ts (free d ++ (w ++ free d))) :
    ∃ x : Delim, x.toks = ts ∧ DelimOk stops m m n x ∧ textOfToks src x.body = s := by
  have hwn := hw.notFree c (by simp)
  obtain ⟨o, t2, cl, rfl, h1, h2, h3, h4, h5⟩ := delim_tokens hd hlast hhead hc hsp hstop hvd hw.valid hwn
    (hne.imp_right hw.ne) h
  refine ⟨⟨n, o, t2, cl⟩, rfl, ⟨rfl, (hm o).2 ⟨h1, h2⟩, (hm cl).2 ⟨h3, h4⟩, quiet_kind (by rw [h1]; exact hq),
    quiet_kind (by rw [h3]; exact hq), fun t ht => ⟨spv_quiet hw.valid h5 hw.vq t ht, ?_⟩⟩, ?_⟩
  · cases hb : m t with
    | false => rfl
    | true => exact absurd ((hm t).1 hb).1 (body_kind hw.valid hwn hk h5 t ht)
  · rw [spv_text hw.valid h5, hw.chars]

theorem strike_tree {src b ts stops s w} (hw : Body stops false ['~'] s w) (hs : s ≠ [])
    (h : SpV src b ts (free ['~', '~'] ++ (w ++ free ['~', '~']))) :
    ∃ x : Delim, x.toks = ts ∧ DelimOk stops isTilde2 isTilde2 .Strikethrough x ∧ textOfToks src x.body = s :=
  delim_tree (c := '~') (k := .Tilde) .Strikethrough (by rfl) rfl rfl (by decide) (by decide) (by decide)
    (by simp [Valid, free]) (.inl rfl) (by decide)
    (fun t => by simp only [isTilde2, Bool.and_eq_true, decide_eq_true_eq]; rfl) hw (.inr hs) h

theorem italic_tree {src b ts stops s w} (hw : Body stops false ['_'] s w)
    (h : SpV src b ts (free ['_'] ++ (w ++ free ['_']))) :
    ∃ x : Delim, x.toks = ts ∧ DelimOk stops isUnderscore isUnderscore .Italic x ∧ textOfToks src x.body = s :=
  delim_tree (c := '_') (k := .Underscore) .Italic (by rfl) rfl rfl (by decide) (by decide) (by decide)
    (by simp [Valid, free]) (.inr rfl) (by decide)
    (fun t => by simp only [isUnderscore, Bool.and_eq_true, decide_eq_true_eq]; rfl) hw (.inl rfl) h

theorem emphasis_tree {src b ts stops s w} (hw : Body stops false ['*'] s w) (hs : s ≠ [])
    (h : SpV src b ts (free ['*'] ++ (w ++ free ['*']))) :
    ∃ x : Delim, x.toks = ts ∧ DelimOk stops isStar1 isStar1 .Emphasis x ∧ textOfToks src x.body = s :=
  delim_tree (c := '*') (k := .Star) .Emphasis (by rfl) rfl rfl (by decide) (by decide) (by decide)
    (by simp [Valid, free]) (.inl rfl) (by decide)
    (fun t => by simp only [isStar1, Bool.and_eq_true, decide_eq_true_eq]; rfl) hw (.inr hs) h

theorem codeSpan_tree {src b ts stops s w} (hw : Body stops false ['`'] s w) (hs : s ≠ [])
    (h : SpV src b ts (free ['`'] ++ (w ++ free ['`']))) :
    ∃ x : Delim, x.toks = ts ∧ DelimOk stops isBacktick1 isBacktick1 .CodeSpan x ∧ textOfToks src x.body = s :=
  delim_tree (c := '`') (k := .Backtick) .CodeSpan (by rfl) rfl rfl (by decide) (by decide) (by decide)
    (by simp [Valid, free]) (.inl rfl) (by decide)
    (fun t => by simp only [isBacktick1, Bool.and_eq_true, decide_eq_true_eq]; rfl) hw (.inr hs) h

/-! ### Links -/

/-- The view of `[w1](w2)`. -/
def linkV (w1 w2 : V) : V := free ['['] ++ (w1 ++ (free [']'] ++ (free ['('] ++ (w2 ++ free [')']))))

theorem valid_one {c : Char} (h : c ≠ '\\') : Valid (free [c]) := by
  simp [Valid, free]; exact fun e => h e.symm

theorem link_tree {src b ts stops s1 s2 w1 w2} (h1 : Body stops false [']'] s1 w1) (h2 : Body stops false ['(', ')'] s2 w2)
    (h : SpV src b ts (linkV w1 w2)) :
    ∃ x : Link, x.toks = ts ∧ LinkOk stops x ∧ x.denote src = ⟨s1, s2⟩ := by
  unfold linkV at h
  obtain ⟨t1, r1, rfl, a1, h⟩ := spv_split (valid_one (by decide))
    (join_after (valid_one (by decide)) rfl (c := '[') (by decide) (by decide) (by simp) (by simp)) h
  obtain ⟨t2, r2, rfl, a2, h⟩ := spv_split h1.valid
    (join_stop h1.valid (c := ']') rfl (by decide) (fun e => h1.notFree ']' (by simp) (List.mem_of_getLast? e))
      (by simp) (by simp)) h
  obtain ⟨t3, r3, rfl, a3, h⟩ := spv_split (valid_one (by decide))
    (join_after (valid_one (by decide)) rfl (c := ']') (by decide) (by decide) (by simp) (by simp)) h
  obtain ⟨t4, r4, rfl, a4, h⟩ := spv_split (valid_one (by decide))
    (join_after (valid_one (by decide)) rfl (c := '(') (by decide) (by decide) (by simp) (by simp)) h
  obtain ⟨t5, t6, rfl, a5, a6⟩ := spv_split h2.valid
    (join_stop h2.valid (c := ')') rfl (by decide) (fun e => h2.notFree ')' (by simp) (List.mem_of_getLast? e))
      (by simp) (by simp)) h
  obtain ⟨x1, rfl, s1'⟩ := spv_one (p := ⟨false, .LeftSquareBracket, ['[']⟩) rfl a1
  obtain ⟨x3, rfl, s3'⟩ := spv_one (p := ⟨false, .RightSquareBracket, [']']⟩) rfl a3
  obtain ⟨x4, rfl, s4'⟩ := spv_one (p := ⟨false, .LeftParenthesis, ['(']⟩) rfl a4
  obtain ⟨x6, rfl, s6'⟩ := spv_one (p := ⟨false, .RightParenthesis, [')']⟩) rfl a6
  have hf1 : flag b (free ['[']) = false := rfl
  rw [hf1] at a2
  have hf2 : flag (flag (flag (flag b (free ['['])) w1) (free [']'])) (free ['(']) = false := rfl
  rw [hf2] at a5
  refine ⟨⟨⟨.Title, x1, t2, x3⟩, ⟨.Destination, x4, t5, x6⟩⟩, by simp [Link.toks, Delim.toks], ⟨⟨rfl, ?_, ?_, ?_, ?_, ?_⟩, rfl, ?_, ?_, ?_⟩, ?_⟩
  · simp only [isLeftBracket, Bool.and_eq_true, decide_eq_true_eq]; exact ⟨s1'.kind, s1'.len⟩
  · simp only [isRightBracket, Bool.and_eq_true, decide_eq_true_eq]; exact ⟨s3'.kind, s3'.len⟩
  · exact quiet_kind (by rw [s1'.kind]; decide)
  · exact quiet_kind (by rw [s3'.kind]; decide)
  · intro t ht
    refine ⟨spv_quiet h1.valid a2 h1.vq t ht, ?_⟩
    have := body_kind (k := .RightSquareBracket) h1.valid (h1.notFree ']' (by simp)) (.inr rfl) a2 t ht
    simp [isRightBracket, this]
  · simp only [isLeftParen, Bool.and_eq_true, decide_eq_true_eq]; exact ⟨s4'.kind, s4'.len⟩
  · exact s6'.kind
  · intro t ht
    exact ⟨spv_quiet h2.valid a5 h2.vq t ht,
      body_kind (k := .LeftParenthesis) h2.valid (h2.notFree '(' (by simp)) (.inr rfl) a5 t ht,
      body_kind (k := .RightParenthesis) h2.valid (h2.notFree ')' (by simp)) (.inr rfl) a5 t ht⟩
  · simp only [Link.denote]
    rw [spv_text h1.valid a2, h1.chars, spv_text h2.valid a5, h2.chars]

end Yamd.Round
