import Verif.Proofs.WrapFree
import Verif.Proofs.LexJoin

/-!
# A text wrapped in a collapsible (C66)
-/

namespace Yamd.Ref

open Yamd Yamd.Spec Yamd.Round Yamd.Lexer

/-- The last piece of a text that does not end with a line break or a carriage return ends at a line feed. -/
theorem joinOk_nl {a s : Str} (h1 : a.getLast? ≠ some '\n') (h2 : a.getLast? ≠ some '\r') (h3 : dangling a = false) :
    ∀ p, (pieces a).getLast? = some p → joinOk p ('\n' :: s) = true := by
  have hsrc := pieces_src a
  rw [h3] at hsrc
  simp only [Bool.false_eq_true, if_false, List.append_nil] at hsrc
  intro p hp
  obtain ⟨l, hl⟩ : ∃ l, pieces a = l ++ [p] := by
    rw [List.getLast?_eq_some_iff] at hp
    exact hp
  obtain ⟨hf, hf2⟩ := pieces_form a p (by rw [hl]; simp)
  have hlast : a.getLast? = p.text.getLast? := by
    rw [hsrc, hl]
    have hne := form_ne_nil hf
    simp only [srcOf, List.flatMap_append, List.flatMap_cons, List.flatMap_nil, List.append_nil,
      Piece.src]
    rw [← List.append_assoc, List.getLast?_append]
    cases hpt : p.text.getLast? with
    | none => exact absurd (List.getLast?_eq_none_iff.1 hpt) hne
    | some x => rfl
  rw [hlast] at h1 h2
  have hstop : litStop ('\n' :: s) = true := rfl
  have ht : tailOk (if p.esc then p.text.tail else p.text).getLast? ('\n' :: s) = true := by
    have : (if p.esc then p.text.tail else p.text).getLast? ≠ some '\r' := by
      split
      · cases hpt : p.text with
        | nil => simp
        | cons x l =>
          rw [hpt] at h2
          cases l with
          | nil => simp
          | cons y l => simpa [List.getLast?_cons_cons] using h2
      · exact h2
    simp [tailOk, this]
  have heol : p.kind ≠ .Eol := by
    intro hk; rw [hk] at hf
    rcases hf with hf | hf <;> rw [hf] at h1 <;> simp at h1
  unfold joinOk
  cases hk : p.kind <;> simp [runCharOf, hstop, ht] <;> exact absurd hk heol

/-- The text of pieces laid out anywhere. -/
theorem place_text (ps : List Piece) : ∀ (a b : Str) (off col row : Nat), blen a = off →
    textOfToks (a ++ srcOf ps ++ b) (place off col row ps) = ps.flatMap (·.text) := by
  induction ps with
  | nil => intro a b off col row h; rfl
  | cons p ps ih =>
    intro a b off col row h
    rw [place, text_cons, List.flatMap_cons]
    have e : a ++ srcOf (p :: ps) ++ b = (a ++ p.src) ++ srcOf ps ++ b := by simp [srcOf]
    have hb : blen (a ++ p.src) = (off + if p.esc then 1 else 0) + blen p.text := by
      rw [blen_append, h, Piece.src]
      cases p.esc
      · simp
      · have : blen ('\\' :: p.text) = 1 + blen p.text := by
          rw [blen]; rfl
        simp [this]; omega
    have := ih (a ++ p.src) b _ (advancePos p col row).1 (advancePos p col row).2 hb
    rw [← e] at this
    rw [this]
    congr 1
    unfold sliceD tokenOf
    simp only
    subst h
    cases hx : p.esc with
    | false =>
      have : a ++ srcOf (p :: ps) ++ b = a ++ (p.text ++ (srcOf ps ++ b)) := by simp [srcOf, Piece.src, hx]
      simp only [Bool.false_eq_true, if_false, Nat.add_zero]
      rw [this, slice_append _ _ _ _ rfl]; rfl
    | true =>
      have e2 : a ++ srcOf (p :: ps) ++ b = (a ++ ['\\']) ++ (p.text ++ (srcOf ps ++ b)) := by
        simp [srcOf, Piece.src, hx]
      have e3 : blen (a ++ ['\\']) = blen a + 1 := by rw [blen_append]; rfl
      simp only [if_true]
      rw [e2, ← e3, slice_append _ _ _ _ rfl]; rfl

/-- Pieces of a line without backslashes. -/
theorem plain_pieces {t : Str} (h1 : '\n' ∉ t) (h2 : '\\' ∉ t) :
    (∀ p ∈ pieces t, p.kind ≠ .Eol ∧ p.kind ≠ .Terminator ∧ p.esc = false) ∧ srcOf (pieces t) = t ∧
      (pieces t).flatMap (·.text) = t ∧ dangling t = false := by
  have hsrc := pieces_src t
  have hd : dangling t = false := by
    cases hx : dangling t with
    | false => rfl
    | true =>
      rw [hx] at hsrc
      exact absurd (by rw [hsrc]; simp) h2
  rw [hd] at hsrc
  simp only [Bool.false_eq_true, if_false, List.append_nil] at hsrc
  have hin : ∀ p ∈ pieces t, ∀ c ∈ p.src, c ∈ t := by
    intro p hp c hc
    rw [hsrc]
    exact List.mem_flatMap.2 ⟨p, hp, hc⟩
  have he : ∀ p ∈ pieces t, p.esc = false := by
    intro p hp
    cases hx : p.esc with
    | false => rfl
    | true => exact absurd (hin p hp '\\' (by simp [Piece.src, hx])) h2
  refine ⟨fun p hp => ⟨fun hk => ?_, fun hk => ?_, he p hp⟩, hsrc.symm, ?_, hd⟩
  · have hf := (pieces_form t p hp).1
    rw [hk] at hf
    refine h1 (hin p hp '\n' ?_)
    rcases hf with hf | hf <;> simp [Piece.src, hf]
  · have hf := (pieces_form t p hp).1
    rw [hk] at hf
    obtain ⟨a, b, -, hb, hf⟩ := hf
    refine h1 (hin p hp '\n' ?_)
    rcases hb with rfl | rfl <;> simp [Piece.src, hf]
  · have : ∀ ps : List Piece, (∀ p ∈ ps, p.esc = false) → ps.flatMap (·.text) = srcOf ps := by
      intro ps hps
      induction ps with
      | nil => rfl
      | cons p ps ih =>
        rw [List.flatMap_cons, ih fun q hq => hps q (by simp [hq])]
        simp [srcOf, Piece.src, hps p (by simp)]
    rw [this _ he, ← hsrc]

theorem place_kind {ps : List Piece} {P : TokenKind → Prop} (h : ∀ p ∈ ps, P p.kind) :
    ∀ off col row, ∀ t ∈ place off col row ps, P t.kind := by
  induction ps with
  | nil => intro off col row t ht; cases ht
  | cons p ps ih =>
    intro off col row t ht
    rw [place] at ht
    rcases List.mem_cons.1 ht with rfl | ht
    · exact h p (by simp)
    · exact ih (fun q hq => h q (by simp [hq])) _ _ _ t ht

theorem tok1_open (s : Str) : tok1 ('{' :: '%' :: s) = some (⟨false, .CollapsibleStart, ['{', '%']⟩, s) := by
  rfl

theorem pieces_close : pieces ['\n', '%', '}'] = [⟨false, .Eol, ['\n']⟩, ⟨false, .CollapsibleEnd, ['%', '}']⟩] := by
  rw [pieces_some (p := ⟨false, .Eol, ['\n']⟩) (r := ['%', '}']) (by decide),
    pieces_some (p := ⟨false, .CollapsibleEnd, ['%', '}']⟩) (r := []) (by decide),
    pieces_none (show tok1 [] = none from rfl)]

theorem tok1_nl {s : Str} (hs : lineBreak s = none) : tok1 ('\n' :: s) = some (⟨false, .Eol, ['\n']⟩, s) := by
  have h1 : lineBreak ('\n' :: s) = some (['\n'], s) := rfl
  rw [tok1.eq_def]
  simp only
  rw [if_neg (by decide), h1]
  simp only
  rw [hs]

/-- The pieces of an opening line, and what follows it. -/
theorem pieces_title {t s : Str} (h1 : '\n' ∉ t) (h2 : '\\' ∉ t) (h3 : '\r' ∉ t) (h4 : t ≠ [])
    (h5 : t.head? ≠ some ' ') (hs : lineBreak s = none) :
    pieces (cs! "{% " ++ t ++ '\n' :: s) =
      [⟨false, .CollapsibleStart, ['{', '%']⟩, ⟨false, .Space, [' ']⟩] ++ pieces t ++ ⟨false, .Eol, ['\n']⟩ :: pieces s := by
  obtain ⟨-, -, -, hd⟩ := plain_pieces h1 h2
  have e1 : pieces (' ' :: (t ++ '\n' :: s)) = ⟨false, .Space, [' ']⟩ :: pieces (t ++ '\n' :: s) := by
    have := pieces_append [' '] (t ++ '\n' :: s) (by decide) (by
      have : pieces [' '] = [⟨false, .Space, [' ']⟩] := by
        rw [pieces_some (p := ⟨false, .Space, [' ']⟩) (r := []) (by decide), pieces_none (show tok1 [] = none from rfl)]
      rw [this]
      intro p hp
      simp only [List.getLast?_singleton, Option.some.injEq] at hp
      subst hp
      have : (t ++ '\n' :: s).head? ≠ some ' ' := by
        cases t with
        | nil => exact absurd rfl h4
        | cons c t => simpa using h5
      simpa [joinOk, runCharOf] using this)
    have h' : pieces [' '] = [⟨false, .Space, [' ']⟩] := by
      rw [pieces_some (p := ⟨false, .Space, [' ']⟩) (r := []) (by decide), pieces_none (show tok1 [] = none from rfl)]
    rw [h'] at this
    exact this
  have hl : ∀ c, c ∉ t → t.getLast? ≠ some c := fun c hc e => hc (List.mem_of_getLast? e)
  have e2 := pieces_append t ('\n' :: s) hd (joinOk_nl (hl _ h1) (hl _ h3) hd)
  have e3 := tok1_nl hs
  have : cs! "{% " ++ t ++ '\n' :: s = '{' :: '%' :: ' ' :: (t ++ '\n' :: s) := by simp
  rw [this, pieces_some (tok1_open _), e1, e2, pieces_some e3]
  simp

theorem pieces_untitled {s : Str} (hs : lineBreak s = none) :
    pieces (cs! "{%" ++ '\n' :: s) =
      [⟨false, .CollapsibleStart, ['{', '%']⟩, ⟨false, .Eol, ['\n']⟩] ++ pieces s := by
  have e3 := tok1_nl hs
  have : cs! "{%" ++ '\n' :: s = '{' :: '%' :: '\n' :: s := by simp
  rw [this, pieces_some (tok1_open _), pieces_some e3]
  simp

theorem place_snoc_eol (ps qs : List Piece) (p : Piece) (hp : p.kind = .Eol) (off col row : Nat) :
    ∃ off' row', place off col row (ps ++ p :: qs) = place off col row (ps ++ [p]) ++ place off' 0 row' qs ∧
      off' = off + blen (srcOf (ps ++ [p])) := by
  have h := place_append (ps ++ [p]) qs off col row
  rw [List.append_assoc] at h
  have hcol : ∀ (ps : List Piece) x, (endPos x (ps ++ [p])).2.1 = 0 := by
    intro ps
    induction ps with
    | nil =>
      rintro ⟨a, b, c⟩
      rw [List.nil_append, endPos, endPos, advancePos]
      rw [hp]
    | cons q ps ih => rintro ⟨a, b, c⟩; rw [List.cons_append, endPos]; exact ih _
  rw [hcol] at h
  exact ⟨_, _, h, endPos_off _ _ _ _⟩

/-- What is read from the body of a collapsible around a text, wherever the text stands. -/
theorem body_wrapped {x pre : Str} {body : List YamdNode} {m : Nat} {e c : Token}
    (hx : (docB [] (tokens x)).1.denote x = body) (hset : settledBlocks body = true)
    (hw : body.all wrappable = true) (he : e.kind = .Eol) (hc : isCollapsibleEnd c = true) (post : Str) :
    ∃ D r2, docB W ((tokens x).map (shiftToken (blen pre) m) ++ [e, c]) = (D, r2) ∧
      D.denote (pre ++ x ++ post) = body ∧ (r2 = [e, c] ∨ r2 = [c]) := by
  have hck : c.kind = .CollapsibleEnd ∧ col0 c = true := by
    simp only [isCollapsibleEnd, Bool.and_eq_true, decide_eq_true_eq] at hc; exact hc
  have hp := placed_tokens x
  have hfree : (docB [] (tokens x)).1.Free :=
    doc_free (docB_ok [] (tokens x)) ((lined_tokens x).flips (docB_flips [] (tokens x))).left (by rw [hx]; exact hw)
  obtain ⟨hwithin, -⟩ := docB_within x [] (tokens x) rfl hp (by rw [hx]; exact hset) hfree
  have hsl : ∀ t ∈ tokens x, sliceD (pre ++ x ++ post) (shiftToken (blen pre) m t) = sliceD x t := by
    intro t ht
    have h1 := slice_left (b := post) ht
    obtain ⟨a, p, c', h2, h3, h4, -⟩ := Props.tokens_facts ht
    unfold sliceD shiftToken
    simp only
    rw [h4, ← h3, h2, slice_append _ _ _ _ rfl]
    have e2 : pre ++ (a ++ (p.text ++ c')) ++ post = (pre ++ a) ++ (p.text ++ (c' ++ post)) := by simp
    rw [e2, show blen a + blen pre = blen (pre ++ a) by rw [blen_append]; omega,
      show blen a + blen p.text + blen pre = blen (pre ++ a) + blen p.text by rw [blen_append]; omega,
      slice_append _ _ _ _ rfl]
  have hden : (docB W ((tokens x).map (shiftToken (blen pre) m))).1.denote (pre ++ x ++ post) = body := by
    rw [doc_moved (resp_shift _ _) W hsl, hwithin, hx]
  have hrest : (docB W ((tokens x).map (shiftToken (blen pre) m))).2 = [] := by
    rw [docB_nat (resp_shift _ _), hwithin]
    have := docB_nil (tokens x)
    simp only [mapR, this, List.map_nil]
  have hplaced : Placed (pre ++ x ++ post) ((tokens x).map (shiftToken (blen pre) m)) := by
    refine ⟨?_, fun u hu ho => ?_⟩
    · have : ∀ {l : List Token}, Cols l → Cols (l.map (shiftToken (blen pre) m)) := by
        intro l
        induction l with
        | nil => intro _; trivial
        | cons a l ih =>
          cases l with
          | nil => intro _; trivial
          | cons b l => intro h; exact ⟨h.1, ih h.2⟩
      exact this hp.1
    · obtain ⟨t, ht, rfl⟩ := List.mem_map.1 hu
      rw [hsl t ht]
      refine hp.2 t ht ?_
      have hl : (shiftToken (blen pre) m t).len = t.len := by simp only [shiftToken, Token.len]; omega
      simp only [opener, isBacktick3, isTwoBangs, isLeftCurly2, isCollapsibleStart] at ho ⊢
      rw [hl] at ho
      exact ho
  have hsh := docB_shut (e := e) (c := c) (R := []) he (by simp [isBang1, hck.1]) (pre ++ x ++ post) W
    ((tokens x).map (shiftToken (blen pre) m))
    (by rw [stopW]; simp [tokenIs, isEol, he, hc]) (by rw [stopW]; simp [hc]) hplaced (by rw [hden]; exact hset)
  refine ⟨_, _, rfl, by rw [hsh.2, hden], ?_⟩
  rcases hsh.1 with h | h
  · exact absurd hrest h.1
  · exact h.2

/-- A collapsible around a text, given its opening line. -/
theorem top_wrapped {x pre : Str} {body : List YamdNode} {m : Nat} {e c : Token} {A o : List Token} {md : Option Mod}
    {post : Str} (hx : (docB [] (tokens x)).1.denote x = body) (hset : settledBlocks body = true)
    (hw : body.all wrappable = true) (he : e.kind = .Eol) (hc : isCollapsibleEnd c = true)
    (hopen : collOpenB [] (A ++ ((tokens x).map (shiftToken (blen pre) m) ++ [e, c])) =
      some (o, md, (tokens x).map (shiftToken (blen pre) m) ++ [e, c])) :
    ((topB (A ++ ((tokens x).map (shiftToken (blen pre) m) ++ [e, c]))).denote (pre ++ x ++ post))
      = ⟨none, [.collapsible ((modDenote (pre ++ x ++ post) md).getD []) body]⟩ := by
  obtain ⟨D, r2, h1, h2, h3⟩ := body_wrapped (pre := pre) (m := m) hx hset hw he hc post
  generalize hB : (tokens x).map (shiftToken (blen pre) m) ++ [e, c] = B at hopen h1 ⊢
  obtain ⟨htk, -, hcs⟩ := collOpenB_toks hopen
  cases hT : A ++ B with
  | nil => rw [hT] at hcs; simp [tokenIs] at hcs
  | cons t r =>
    rw [hT] at hcs hopen
    have hk : t.kind = .CollapsibleStart := kind_of_coll (by simpa [tokenIs] using hcs)
    have hclose : collCloseB (skipEolB (docB (.CollapsibleEnd :: []) B).2).2 = some ([c], []) := by
      rw [h1]
      simp only
      have hce : isEol c = false := by
        simp only [isCollapsibleEnd, Bool.and_eq_true, decide_eq_true_eq] at hc
        simp [isEol, hc.1]
      rcases h3 with rfl | rfl
      · simp [skipEolB, tokenIs, isEol, he, collCloseB, hc]
      · simp [skipEolB, tokenIs, hce, collCloseB, hc]
    have hdoc := docB_coll (stops := []) (ts := t :: r) (by simp [stopAt]) (by simp [tokenIs, isTerminator, hk])
      (codeB_head (by simp [isBacktick3, hk])) hopen hclose
    have hmeta : delimB isThreeDashes isThreeDashes .Metadata [] (t :: r) = none := by
      simp [delimB, isThreeDashes, hk]
    unfold topB
    rw [hmeta]
    simp only [Top.denote, Yamd.new, Option.map_none]
    rw [hdoc, h1, docB_stop (ts := []) rfl]
    simp only [Doc.denote, h2]

/-- The tokens of a text that does not end with a line break, with the closing line behind it. -/
theorem wrapped_tail {x : Str} (h : cleanEnd x = true) :
    pieces (x ++ ['\n', '%', '}']) = pieces x ++ [⟨false, .Eol, ['\n']⟩, ⟨false, .CollapsibleEnd, ['%', '}']⟩] := by
  simp only [cleanEnd, Bool.and_eq_true, bne_iff_ne, ne_eq, Bool.not_eq_true'] at h
  rw [pieces_append x _ h.2 (joinOk_nl h.1.1 h.1.2 h.2), pieces_close]

theorem lineBreak_left {x : Str} (h0 : x ≠ []) (h : startsLine x = false) (s : Str) (hs : s.head? ≠ some '\n' ∨ x ≠ ['\r']) :
    lineBreak (x ++ s) = none := by
  match x, h0 with
  | '\n' :: r, _ => simp [startsLine, starts] at h
  | '\r' :: '\n' :: r, _ => simp [startsLine, starts] at h
  | [c], _ =>
    by_cases hc : c = '\r'
    · subst hc
      rcases hs with hs | hs
      · cases s with
        | nil => rfl
        | cons d s =>
          have : d ≠ '\n' := by simpa using hs
          simp [lineBreak, this]
      · exact absurd rfl hs
    · have hn : c ≠ '\n' := by rintro rfl; simp [startsLine, starts] at h
      simp [lineBreak, hc, hn]
  | c :: d :: r, _ =>
    have hn : c ≠ '\n' := by rintro rfl; simp [startsLine, starts] at h
    by_cases hc : c = '\r'
    · subst hc
      have : d ≠ '\n' := by rintro rfl; simp [startsLine, starts] at h
      simp [lineBreak, this]
    · simp [lineBreak, hc, hn]

/-- The opening line with a title. -/
theorem open_titled {s sp e0 : Token} {T rest : List Token} (hs : isCollapsibleStart s = true)
    (hsp : isSpaceOrEol sp = true) (hT : ∀ t ∈ T, isEolOrTerminator t = false) (hne : T ≠ [])
    (h0 : tokenIs T 0 col0 = false) (he : isEolOrTerminator e0 = true) (hr : tokenIs rest 0 col0 = true) :
    collOpenB [] (s :: sp :: (T ++ e0 :: rest)) = some ([s, sp], some ⟨T, e0⟩, rest) := by
  have hu : ∀ {l : List Token}, (∀ t ∈ l, isEolOrTerminator t = false) →
      untilB [] isEolOrTerminator (l ++ e0 :: rest) = some (l, e0, rest) := by
    intro l hl
    induction l with
    | nil => rw [List.nil_append, untilB, if_neg (by simp [stopAt]), if_pos he]
    | cons t l ih =>
      rw [List.cons_append, untilB, if_neg (by simp [stopAt]), if_neg (by simp [hl t (by simp)]),
        ih fun u hu => hl u (by simp [hu])]
      rfl
  have h0' : tokenIs (T ++ e0 :: rest) 0 col0 = false := by
    rw [tokenIs_left (List.length_pos_iff.2 hne)]; exact h0
  have hm : optModB [] (T ++ e0 :: rest) = (some ⟨T, e0⟩, rest) := by
    unfold optModB modifierB
    rw [h0', hu hT]
    rfl
  unfold collOpenB
  simp only [tokenIs, List.getElem?_cons_zero, List.getElem?_cons_succ, hs, hsp, Bool.and_self, if_true, List.drop_succ_cons,
    List.drop_zero, List.take_succ_cons, List.take_zero]
  rw [hm]
  simp only
  rw [if_pos (by simpa [tokenIs] using hr)]

/-- The opening line without a title. -/
theorem open_untitled {s e0 : Token} {rest : List Token} (hs : isCollapsibleStart s = true)
    (he : isSpaceOrEol e0 = true) (hr : tokenIs rest 0 col0 = true) :
    collOpenB [] (s :: e0 :: rest) = some ([s, e0], none, rest) := by
  have hm : optModB [] rest = (none, rest) := by
    unfold optModB modifierB
    rw [hr]
    rfl
  unfold collOpenB
  simp only [tokenIs, List.getElem?_cons_zero, List.getElem?_cons_succ, hs, he, Bool.and_self, if_true, List.drop_succ_cons,
    List.drop_zero, List.take_succ_cons, List.take_zero]
  rw [hm]
  simp only
  rw [if_pos (by simpa [tokenIs] using hr)]

theorem doc_body {x : Str} {body : List YamdNode} (h : (topB (tokens x)).denote x = ⟨none, body⟩) :
    (docB [] (tokens x)).1.denote x = body := by
  unfold topB at h
  cases hd : delimB isThreeDashes isThreeDashes .Metadata [] (tokens x) with
  | none =>
    rw [hd] at h
    simp only [Top.denote, Yamd.new, Option.map_none] at h
    exact congrArg Yamd.body h
  | some y => rw [hd] at h; simp [Top.denote, Yamd.new] at h

theorem tokens_ne {x : Str} (h : x ≠ []) (hd : dangling x = false) : pieces x ≠ [] := by
  intro h0
  have := pieces_src x
  rw [h0, hd] at this
  exact h (by simpa [srcOf] using this)

theorem head_col (ps : List Piece) (off row : Nat) (h : ps ≠ []) (r : List Token) :
    tokenIs (place off 0 row ps ++ r) 0 col0 = true := by
  cases ps with
  | nil => exact absurd rfl h
  | cons p ps => simp [place, tokenIs, tokenOf, col0]

/-- The tokens of an opening line, a text and the closing line. -/
theorem place_wrapped (ps : List Piece) (p : Piece) (hp : p.kind = .Eol) (x : Str) :
    ∃ m e c, place 0 0 0 ((ps ++ [p]) ++ (pieces x ++ [⟨false, .Eol, ['\n']⟩, ⟨false, .CollapsibleEnd, ['%', '}']⟩])) =
        place 0 0 0 (ps ++ [p]) ++ ((tokens x).map (shiftToken (blen (srcOf (ps ++ [p]))) m) ++ [e, c]) ∧
      e.kind = .Eol ∧ isCollapsibleEnd c = true := by
  obtain ⟨off, row, e1, hoff⟩ := place_snoc_eol ps
    (pieces x ++ [⟨false, .Eol, ['\n']⟩, ⟨false, .CollapsibleEnd, ['%', '}']⟩]) p hp 0 0 0
  rw [place_append (pieces x)] at e1
  have hsh := place_shift (pieces x) off row 0 0 0
  rw [Nat.zero_add, Nat.zero_add] at hsh
  rw [Nat.zero_add] at hoff
  rw [hsh, hoff] at e1
  rw [List.append_assoc]
  exact ⟨row, _, _, e1, rfl, rfl⟩

/-- A text in a collapsible with a title. -/
theorem denote_wrapped {x t : Str} {body : List YamdNode} (hx : (topB (tokens x)).denote x = ⟨none, body⟩)
    (hne : x ≠ []) (h1 : cleanEnd x = true) (h2 : startsLine x = false) (h3 : settledBlocks body = true)
    (h4 : body.all wrappable = true) (ht : plainTitle t = true) :
    (topB (tokens (cs! "{% " ++ t ++ cs! "\n" ++ x ++ cs! "\n%}"))).denote (cs! "{% " ++ t ++ cs! "\n" ++ x ++ cs! "\n%}")
      = ⟨none, [.collapsible t body]⟩ := by
  simp only [plainTitle, Bool.and_eq_true, Bool.not_eq_true'] at ht
  obtain ⟨⟨⟨⟨t1, t2⟩, t3⟩, t4⟩, t5⟩ := ht
  have t1 : t ≠ [] := by rintro rfl; simp at t1
  have t2 : '\n' ∉ t := by simpa using t2
  have t3 : '\r' ∉ t := by simpa using t3
  have t4 : '\\' ∉ t := by simpa using t4
  have t5 : t.head? ≠ some ' ' := by
    intro h
    cases t with
    | nil => simp at h
    | cons c t =>
      simp only [List.head?_cons, Option.some.injEq] at h
      subst h
      simp [starts] at t5
  have hd : dangling x = false := by
    simp only [cleanEnd, Bool.and_eq_true, Bool.not_eq_true'] at h1; exact h1.2
  have hr : x ≠ ['\r'] := by rintro rfl; simp [cleanEnd] at h1
  obtain ⟨p1, p2, p3, p4⟩ := plain_pieces t2 t4
  have hp := pieces_title (s := x ++ ['\n', '%', '}']) t2 t4 t3 t1 t5 (lineBreak_left hne h2 _ (.inr hr))
  rw [wrapped_tail h1] at hp
  obtain ⟨m, e, c, e1, he, hc⟩ := place_wrapped
    ([⟨false, .CollapsibleStart, ['{', '%']⟩, ⟨false, .Space, [' ']⟩] ++ pieces t) ⟨false, .Eol, ['\n']⟩ rfl x
  have hpre : srcOf ([⟨false, .CollapsibleStart, ['{', '%']⟩, ⟨false, .Space, [' ']⟩] ++ pieces t ++ [⟨false, .Eol, ['\n']⟩])
      = cs! "{% " ++ t ++ cs! "\n" := by
    have : srcOf ([⟨false, .CollapsibleStart, ['{', '%']⟩, ⟨false, .Space, [' ']⟩] ++ pieces t ++ [⟨false, .Eol, ['\n']⟩])
        = ['{', '%', ' '] ++ srcOf (pieces t) ++ ['\n'] := by simp [srcOf, Piece.src]
    rw [this, p2]
  rw [hpre] at e1
  have hfull : tokens (cs! "{% " ++ t ++ cs! "\n" ++ x ++ cs! "\n%}") =
      place 0 0 0 ([⟨false, .CollapsibleStart, ['{', '%']⟩, ⟨false, .Space, [' ']⟩] ++ pieces t ++ [⟨false, .Eol, ['\n']⟩]) ++
        ((tokens x).map (shiftToken (blen (cs! "{% " ++ t ++ cs! "\n")) m) ++ [e, c]) := by
    rw [← e1, tokens, show cs! "{% " ++ t ++ cs! "\n" ++ x ++ cs! "\n%}" = cs! "{% " ++ t ++ '\n' :: (x ++ ['\n', '%', '}']) by simp,
      hp]
    simp
  have hO : place 0 0 0 ([⟨false, .CollapsibleStart, ['{', '%']⟩, ⟨false, .Space, [' ']⟩] ++ pieces t ++ [⟨false, .Eol, ['\n']⟩]) =
      tokenOf ⟨false, .CollapsibleStart, ['{', '%']⟩ 0 0 0 :: tokenOf ⟨false, .Space, [' ']⟩ 2 2 0 ::
        (place 3 3 0 (pieces t) ++ [tokenOf ⟨false, .Eol, ['\n']⟩ (endPos (3, 3, 0) (pieces t)).1
          (endPos (3, 3, 0) (pieces t)).2.1 (endPos (3, 3, 0) (pieces t)).2.2]) := by
    have hb : blen ['{', '%'] = 2 := by decide
    have hb' : blen [' '] = 1 := by decide
    rw [List.append_assoc, List.cons_append, List.cons_append, List.nil_append, place, place]
    simp only [Bool.false_eq_true, if_false, Nat.zero_add, Nat.add_zero, advancePos, hb, hb', List.length_cons, List.length_nil]
    rw [place_append]
    rfl
  have hopen := open_titled (s := tokenOf ⟨false, .CollapsibleStart, ['{', '%']⟩ 0 0 0)
    (sp := tokenOf ⟨false, .Space, [' ']⟩ 2 2 0) (T := place 3 3 0 (pieces t))
    (e0 := tokenOf ⟨false, .Eol, ['\n']⟩ (endPos (3, 3, 0) (pieces t)).1 (endPos (3, 3, 0) (pieces t)).2.1
      (endPos (3, 3, 0) (pieces t)).2.2)
    (rest := (tokens x).map (shiftToken (blen (cs! "{% " ++ t ++ cs! "\n")) m) ++ [e, c]) rfl (by decide)
    (fun u hu => by
      have h := place_kind (P := fun k => k ≠ .Eol ∧ k ≠ .Terminator) (fun p hp => ⟨(p1 p hp).1, (p1 p hp).2.1⟩) 3 3 0 u hu
      simp [isEolOrTerminator, h.1, h.2])
    (by
      have := tokens_ne t1 p4
      cases hq : pieces t with
      | nil => exact absurd hq this
      | cons q l => simp [place])
    (by
      cases hq : pieces t with
      | nil => rfl
      | cons q l => simp [place, tokenIs, tokenOf, col0])
    rfl
    (by
      have := tokens_ne hne hd
      unfold tokens
      cases hq : pieces x with
      | nil => exact absurd hq this
      | cons q l => simp [place, tokenIs, tokenOf, col0, shiftToken])
  have key := top_wrapped (x := x) (pre := cs! "{% " ++ t ++ cs! "\n") (post := cs! "\n%}")
    (A := place 0 0 0 ([⟨false, .CollapsibleStart, ['{', '%']⟩, ⟨false, .Space, [' ']⟩] ++ pieces t ++ [⟨false, .Eol, ['\n']⟩]))
    (doc_body hx) h3 h4 he hc (by
      rw [hO, List.cons_append, List.cons_append, List.append_assoc]
      exact hopen)
  rw [hfull, key]
  congr 3
  simp only [modDenote, Option.getD_some]
  have := place_text (pieces t) (cs! "{% ") (cs! "\n" ++ x ++ cs! "\n%}") 3 3 0 (by decide)
  rw [p2, p3] at this
  refine Eq.trans ?_ this
  congr 1
  simp

/-- An empty collapsible with a title and a blank line. -/
theorem denote_empty {t : Str} (ht : plainTitle t = true) :
    (topB (tokens (cs! "{% " ++ t ++ cs! "\n\n%}"))).denote (cs! "{% " ++ t ++ cs! "\n\n%}")
      = ⟨none, [.collapsible t []]⟩ := by
  simp only [plainTitle, Bool.and_eq_true, Bool.not_eq_true'] at ht
  obtain ⟨⟨⟨⟨t1, t2⟩, t3⟩, t4⟩, t5⟩ := ht
  have t1 : t ≠ [] := by rintro rfl; simp at t1
  have t2 : '\n' ∉ t := by simpa using t2
  have t3 : '\r' ∉ t := by simpa using t3
  have t4 : '\\' ∉ t := by simpa using t4
  have t5 : t.head? ≠ some ' ' := by
    intro h
    cases t with
    | nil => simp at h
    | cons c t =>
      simp only [List.head?_cons, Option.some.injEq] at h
      subst h
      simp [starts] at t5
  obtain ⟨p1, p2, p3, p4⟩ := plain_pieces t2 t4
  have h' : pieces [' '] = [⟨false, .Space, [' ']⟩] := by
    rw [pieces_some (p := ⟨false, .Space, [' ']⟩) (r := []) (by decide), pieces_none (show tok1 [] = none from rfl)]
  have e1 := pieces_append [' '] (t ++ cs! "\n\n%}") (by decide) (by
    rw [h']
    intro p hp
    simp only [List.getLast?_singleton, Option.some.injEq] at hp
    subst hp
    have : (t ++ cs! "\n\n%}").head? ≠ some ' ' := by
      cases t with
      | nil => exact absurd rfl t1
      | cons c t => simpa using t5
    simpa [joinOk, runCharOf] using this)
  have hl : ∀ c, c ∉ t → t.getLast? ≠ some c := fun c hc e => hc (List.mem_of_getLast? e)
  have e2 := pieces_append t (cs! "\n\n%}") p4 (joinOk_nl (hl _ t2) (hl _ t3) p4)
  have e3 : pieces (cs! "\n\n%}") = [⟨false, .Terminator, ['\n', '\n']⟩, ⟨false, .CollapsibleEnd, ['%', '}']⟩] := by
    rw [pieces_some (p := ⟨false, .Terminator, ['\n', '\n']⟩) (r := ['%', '}']) (by decide),
      pieces_some (p := ⟨false, .CollapsibleEnd, ['%', '}']⟩) (r := []) (by decide),
      pieces_none (show tok1 [] = none from rfl)]
  have hp : pieces (cs! "{% " ++ t ++ cs! "\n\n%}") =
      [⟨false, .CollapsibleStart, ['{', '%']⟩, ⟨false, .Space, [' ']⟩] ++
        (pieces t ++ [⟨false, .Terminator, ['\n', '\n']⟩, ⟨false, .CollapsibleEnd, ['%', '}']⟩]) := by
    have : cs! "{% " ++ t ++ cs! "\n\n%}" = '{' :: '%' :: ([' '] ++ (t ++ cs! "\n\n%}")) := by simp
    rw [this, pieces_some (tok1_open _), e1, e2, e3, h']
    rfl
  have hO : tokens (cs! "{% " ++ t ++ cs! "\n\n%}") =
      tokenOf ⟨false, .CollapsibleStart, ['{', '%']⟩ 0 0 0 :: tokenOf ⟨false, .Space, [' ']⟩ 2 2 0 ::
        (place 3 3 0 (pieces t) ++ place (endPos (3, 3, 0) (pieces t)).1
          (endPos (3, 3, 0) (pieces t)).2.1 (endPos (3, 3, 0) (pieces t)).2.2
            [⟨false, .Terminator, ['\n', '\n']⟩, ⟨false, .CollapsibleEnd, ['%', '}']⟩]) := by
    have hb : blen ['{', '%'] = 2 := by decide
    have hb' : blen [' '] = 1 := by decide
    rw [tokens, hp, List.cons_append, List.cons_append, List.nil_append, place, place]
    simp only [Bool.false_eq_true, if_false, Nat.zero_add, Nat.add_zero, advancePos, hb, hb', List.length_cons, List.length_nil]
    rw [place_append]
  generalize endPos (3, 3, 0) (pieces t) = q at hO
  obtain ⟨c, hT, hc⟩ : ∃ c, place q.1 q.2.1 q.2.2 [⟨false, .Terminator, ['\n', '\n']⟩, ⟨false, .CollapsibleEnd, ['%', '}']⟩]
      = [tokenOf ⟨false, .Terminator, ['\n', '\n']⟩ q.1 q.2.1 q.2.2, c] ∧ isCollapsibleEnd c = true := ⟨_, rfl, rfl⟩
  rw [hT] at hO
  have hcol : col0 c = true := by
    simp only [isCollapsibleEnd, Bool.and_eq_true] at hc; exact hc.2
  have hopen := open_titled (s := tokenOf ⟨false, .CollapsibleStart, ['{', '%']⟩ 0 0 0)
    (sp := tokenOf ⟨false, .Space, [' ']⟩ 2 2 0) (T := place 3 3 0 (pieces t))
    (e0 := tokenOf ⟨false, .Terminator, ['\n', '\n']⟩ q.1 q.2.1 q.2.2) (rest := [c]) rfl (by decide)
    (fun u hu => by
      have h := place_kind (P := fun k => k ≠ .Eol ∧ k ≠ .Terminator) (fun p hp => ⟨(p1 p hp).1, (p1 p hp).2.1⟩) 3 3 0 u hu
      simp [isEolOrTerminator, h.1, h.2])
    (by
      have := tokens_ne t1 p4
      cases hq : pieces t with
      | nil => exact absurd hq this
      | cons q l => simp [place])
    (by
      cases hq : pieces t with
      | nil => rfl
      | cons q l => simp [place, tokenIs, tokenOf, col0])
    rfl (by simp [tokenIs, hcol])
  have hst : stopAt W [c] = true := by rw [stopW]; simp [hc]
  have hce : isEol c = false := by
    simp only [isCollapsibleEnd, Bool.and_eq_true, decide_eq_true_eq] at hc
    simp [isEol, hc.1]
  have hclose : collCloseB (skipEolB (docB (.CollapsibleEnd :: []) [c]).2).2 = some ([c], []) := by
    rw [show docB (.CollapsibleEnd :: []) [c] = (.nil, [c]) from docB_stop hst]
    simp [skipEolB, tokenIs, hce, collCloseB, hc]
  have hdoc := docB_coll (stops := []) (by simp [stopAt]) (by simp [tokenIs, isTerminator, tokenOf])
    (codeB_head (by simp [isBacktick3, tokenOf])) hopen hclose
  rw [hO]
  unfold topB
  rw [show delimB isThreeDashes isThreeDashes .Metadata [] _ = none by simp [delimB, isThreeDashes, tokenOf]]
  simp only [Top.denote, Yamd.new, Option.map_none]
  rw [hdoc, show docB (.CollapsibleEnd :: []) [c] = (.nil, [c]) from docB_stop hst, docB_stop (ts := []) rfl]
  simp only [Doc.denote, modDenote, Option.getD_some]
  have := place_text (pieces t) (cs! "{% ") (cs! "\n\n%}") 3 3 0 (by decide)
  rw [p2, p3] at this
  rw [this]

/-- A text in a collapsible without a title. -/
theorem denote_wrapped_untitled {x : Str} {body : List YamdNode} (hx : (topB (tokens x)).denote x = ⟨none, body⟩)
    (hne : x ≠ []) (h1 : cleanEnd x = true) (h2 : startsLine x = false) (h3 : settledBlocks body = true)
    (h4 : body.all wrappable = true) :
    (topB (tokens (cs! "{%\n" ++ x ++ cs! "\n%}"))).denote (cs! "{%\n" ++ x ++ cs! "\n%}")
      = ⟨none, [.collapsible [] body]⟩ := by
  have hd : dangling x = false := by
    simp only [cleanEnd, Bool.and_eq_true, Bool.not_eq_true'] at h1; exact h1.2
  have hr : x ≠ ['\r'] := by rintro rfl; simp [cleanEnd] at h1
  have hp := pieces_untitled (s := x ++ ['\n', '%', '}']) (lineBreak_left hne h2 _ (.inr hr))
  rw [wrapped_tail h1] at hp
  obtain ⟨m, e, c, e1, he, hc⟩ := place_wrapped [⟨false, .CollapsibleStart, ['{', '%']⟩] ⟨false, .Eol, ['\n']⟩ rfl x
  have hpre : srcOf ([⟨false, .CollapsibleStart, ['{', '%']⟩] ++ [⟨false, .Eol, ['\n']⟩]) = cs! "{%\n" := by
    simp [srcOf, Piece.src]
  rw [hpre] at e1
  have hfull : tokens (cs! "{%\n" ++ x ++ cs! "\n%}") =
      place 0 0 0 ([⟨false, .CollapsibleStart, ['{', '%']⟩] ++ [⟨false, .Eol, ['\n']⟩]) ++
        ((tokens x).map (shiftToken (blen (cs! "{%\n")) m) ++ [e, c]) := by
    rw [← e1, tokens, show cs! "{%\n" ++ x ++ cs! "\n%}" = cs! "{%" ++ '\n' :: (x ++ ['\n', '%', '}']) by simp, hp]
    simp
  have hopen := open_untitled (s := tokenOf ⟨false, .CollapsibleStart, ['{', '%']⟩ 0 0 0)
      (e0 := tokenOf ⟨false, .Eol, ['\n']⟩ 2 2 0)
      (rest := (tokens x).map (shiftToken (blen (cs! "{%\n")) m) ++ [e, c]) rfl rfl (by
        have := tokens_ne hne hd
        unfold tokens
        cases hq : pieces x with
        | nil => exact absurd hq this
        | cons q l => simp [place, tokenIs, tokenOf, col0, shiftToken])
  have hO : place 0 0 0 ([⟨false, .CollapsibleStart, ['{', '%']⟩] ++ [⟨false, .Eol, ['\n']⟩]) =
      [tokenOf ⟨false, .CollapsibleStart, ['{', '%']⟩ 0 0 0, tokenOf ⟨false, .Eol, ['\n']⟩ 2 2 0] := by decide
  have key := top_wrapped (x := x) (pre := cs! "{%\n") (post := cs! "\n%}") (m := m)
    (A := [tokenOf ⟨false, .CollapsibleStart, ['{', '%']⟩ 0 0 0, tokenOf ⟨false, .Eol, ['\n']⟩ 2 2 0])
    (doc_body hx) h3 h4 he hc hopen
  rw [hfull, hO, key]
  rfl

end Yamd.Ref
