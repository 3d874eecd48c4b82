import Verif.Proofs.LexEquiv

/-!
# The modelled lexer produces exactly the specified tokens (second half)
-/

namespace Yamd.Lexer

open Yamd.Spec

theorem blen_append (a b : Str) : blen (a ++ b) = blen a + blen b := by
  induction a with
  | nil => simp [blen]
  | cons c r ih => simp [blen, ih]; omega

/-- What remains to be emitted when no literal has been started. -/
def outp (tk : Option Token) (off col row : Nat) (cs : Str) : List Token :=
  match tk with
  | none => place off col row (pieces cs)
  | some t =>
    if t.kind = .Eol then
      match lineBreak cs with
      | some (l, r) =>
        toToken .Terminator t.position (t.len + blen l) :: place (off + blen l) 0 (row + 1) (pieces r)
      | none => t :: place off col row (pieces cs)
    else t :: place off col row (pieces cs)

/-- Everything that remains to be emitted. -/
def sem (st : Lx) : List Token :=
  match st.literalStart with
  | none => st.queue ++ outp st.token st.off st.position.column st.position.row st.iter
  | some sp =>
    st.queue ++ (st.token.toList ++
      (⟨.Literal, sp.byteIndex, st.off + blen (takeLit st.iter).1, sp, st.escaped⟩ : Token) ::
        place (st.off + blen (takeLit st.iter).1) (st.position.column + (takeLit st.iter).1.length)
          st.position.row (pieces (takeLit st.iter).2))

/-- States the lexer reaches. -/
structure Good (st : Lx) : Prop where
  esc : st.literalStart = none → st.escaped = false
  len : st.off + blen st.iter = st.len

theorem outp_notEol {tk : Option Token} (h : ∀ t, tk = some t → t.kind ≠ .Eol) (off col row : Nat)
    (cs : Str) : outp tk off col row cs = tk.toList ++ place off col row (pieces cs) := by
  unfold outp
  cases tk with
  | none => rfl
  | some t => simp [h t rfl]

theorem outp_noBreak (tk : Option Token) (off col row : Nat) {cs : Str} (h : lineBreak cs = none) :
    outp tk off col row cs = tk.toList ++ place off col row (pieces cs) := by
  unfold outp
  cases tk with
  | none => rfl
  | some t => simp [h]

theorem sem_emitLit {st : Lx} (h : litStop st.iter = true) :
    sem (emitLiteralIfStarted st st.off) = sem st := by
  obtain ⟨ls, len, esc, ⟨b, co, ro⟩, it, off, q, tk⟩ := st
  cases ls with
  | none => rfl
  | some sp =>
    have h2 : takeLit it = ([], it) := by
      cases it with
      | nil => rfl
      | cons c r => simp only at h; unfold takeLit; rw [if_pos h]
    cases tk <;>
      simp [emitLiteralIfStarted, replaceToken, sem, h2, blen, outp]

theorem good_emitLit {st : Lx} (h : Good st) (n : Nat) : Good (emitLiteralIfStarted st n) := by
  obtain ⟨ls, len, esc, ⟨b, co, ro⟩, it, off, q, tk⟩ := st
  obtain ⟨h1, h2⟩ := h
  cases ls <;> cases tk <;> constructor <;> simp_all [emitLiteralIfStarted, replaceToken]

theorem tok1_esc (d : Char) (r : Str) :
    tok1 ('\\' :: d :: r) = some (⟨true, .Literal, d :: (takeLit r).1⟩, (takeLit r).2) := by
  simp [tok1]

theorem tok1_plain {c : Char} {r : Str} (h1 : c ≠ '\\') (h2 : lineBreak (c :: r) = none) :
    tok1 (c :: r) = some (tokPlain c r) := by
  unfold tok1; rw [if_neg h1, h2]

theorem lineBreak_ne {c : Char} {r : Str} (h1 : c ≠ '\n') (h2 : ¬ (c = '\r' ∧ r.head? = some '\n')) :
    lineBreak (c :: r) = none := by
  unfold lineBreak
  split
  · simp_all
  · simp_all
  · rfl

theorem utf8Size_pos (c : Char) : 0 < c.utf8Size := Char.utf8Size_pos c

theorem runKind_size {c : Char} {k : TokenKind} (h : runKind c = some k) :
    c.utf8Size = 1 ∧ c ≠ '\\' ∧ c ≠ '\n' ∧ c ≠ '\r' ∧ c ≠ '%' ∧ k ≠ .Eol ∧ k ≠ .Terminator
      ∧ k ≠ .Literal := by
  rcases runKind_cases h with h | h | h | h | h | h | h | h | h | h | h <;>
    obtain ⟨rfl, rfl⟩ := h <;> decide

theorem singleKind_size {c : Char} {k : TokenKind} (h : singleKind c = some k) :
    c.utf8Size = 1 ∧ c ≠ '\\' ∧ c ≠ '\n' ∧ c ≠ '\r' ∧ c ≠ '%' ∧ c ≠ '{' ∧ k ≠ .Eol ∧ k ≠ .Terminator
      ∧ k ≠ .Literal ∧ runKind c = none := by
  rcases singleKind_cases h with h | h | h | h | h | h <;>
    obtain ⟨rfl, rfl⟩ := h <;> decide

theorem blen_run {c : Char} (h : c.utf8Size = 1) (s : Str) :
    blen (s.takeWhile (· == c)) = (s.takeWhile (· == c)).length := by
  induction s with
  | nil => rfl
  | cons d r ih =>
    by_cases hd : d = c
    · subst hd; simp [blen, h, ih]; omega
    · simp [hd, blen]

theorem blen_takeDrop (p : Char → Bool) (s : Str) :
    blen (s.takeWhile p) + blen (s.dropWhile p) = blen s := by
  rw [← blen_append, List.takeWhile_append_dropWhile]

theorem sem_emit (len off b col row : Nat) (r : Str) (q : List Token) (tk : Option Token) {t : Token}
    (h : t.kind ≠ .Eol) :
    sem (emit ⟨none, len, false, ⟨b, col, row⟩, r, off, q, tk⟩ t)
      = q ++ (tk.toList ++ t :: place off col row (pieces r)) := by
  cases tk <;> simp [emit, emitLiteralIfStarted, replaceToken, sem, outp, h]

theorem good_emit (len off b col row : Nat) (r : Str) (q : List Token) (tk : Option Token) (t : Token)
    (h : off + blen r = len) :
    Good (emit ⟨none, len, false, ⟨b, col, row⟩, r, off, q, tk⟩ t) := by
  cases tk <;> constructor <;> simp [emit, emitLiteralIfStarted, replaceToken, h]

theorem sem_clean (len off b col row : Nat) (r : Str) (q : List Token) (tk : Option Token)
    (h : lineBreak r = none) :
    sem ⟨none, len, false, ⟨b, col, row⟩, r, off, q, tk⟩
      = q ++ (tk.toList ++ place off col row (pieces r)) := by
  simp [sem, outp_noBreak _ _ _ _ h]

/-- A line break in a state in which no literal has been started. -/
theorem sem_eol (len off b b' col row n c' : Nat) (l r : Str) (q : List Token) (tk : Option Token)
    (cs : Str) (hl : lineBreak cs = some (l, r)) (hb : cs = l ++ r) (hne : cs.head? ≠ some '\\')
    (hn : blen l = n) (hlen : off + n + blen r = len) :
    sem (eol ⟨none, len, false, ⟨b', c', row⟩, r, off + n, q, tk⟩ ⟨off, col, row⟩ n)
      = sem ⟨none, len, false, ⟨b, col, row⟩, cs, off, q, tk⟩ ∧
    Good (eol ⟨none, len, false, ⟨b', c', row⟩, r, off + n, q, tk⟩ ⟨off, col, row⟩ n) := by
  have hcs : ∃ c s, cs = c :: s := by
    cases cs with
    | nil => simp [lineBreak] at hl
    | cons c s => exact ⟨c, s, rfl⟩
  obtain ⟨c, s, rfl⟩ := hcs
  have hc : c ≠ '\\' := by simpa using hne
  have hp : place off col row (pieces (c :: s))
      = outp (some (toToken .Eol ⟨off, col, row⟩ n)) (off + n) 0 (row + 1) r := by
    cases h2 : lineBreak r with
    | none =>
      rw [pieces_some (p := ⟨false, .Eol, l⟩) (r := r) (by unfold tok1; rw [if_neg hc, hl]; simp [h2])]
      simp [place, tokenOf, outp, toToken, h2, hn, advancePos]
    | some x =>
      obtain ⟨l2, r2⟩ := x
      rw [pieces_some (p := ⟨false, .Terminator, l ++ l2⟩) (r := r2)
        (by unfold tok1; rw [if_neg hc, hl]; simp [h2])]
      simp [place, tokenOf, outp, toToken, h2, hn, advancePos, blen_append, Token.len, Nat.add_assoc]
  constructor
  · cases tk with
    | none =>
      simp only [eol, emitLiteralIfStarted, sem]
      congr 1
      rw [← hp]; rfl
    | some t =>
      by_cases ht : t.kind = .Eol
      · simp only [eol, emitLiteralIfStarted, sem, ht, if_true]
        congr 1
        simp [outp, ht, hl, toToken, hn]
      · simp only [eol, emitLiteralIfStarted, sem, ht, if_false]
        rw [← hp]
        simp [outp, ht]
  · cases tk with
    | none => constructor <;> simp [eol, emitLiteralIfStarted, hlen]
    | some t =>
      by_cases ht : t.kind = .Eol <;> constructor <;> simp [eol, emitLiteralIfStarted, hlen, ht]

/-- A step from a state in which no literal has been started. -/
theorem sem_adv_clean {st : Lx} (hg : Good st) (hl : st.literalStart = none) (hi : st.iter ≠ []) :
    sem (adv st) = sem st ∧ Good (adv st) := by
  obtain ⟨ls, len, esc, ⟨b, col, row⟩, it, off, q, tk⟩ := st
  obtain ⟨h1, h2⟩ := hg
  simp only at hl h1 h2 hi; subst hl
  have he := h1 rfl; subst he
  cases it with
  | nil => exact absurd rfl hi
  | cons c r =>
  simp only [blen] at h2
  have e1 : '\n'.utf8Size = 1 := by decide
  have e2 : '\r'.utf8Size = 1 := by decide
  have e3 : '{'.utf8Size = 1 := by decide
  have e4 : '%'.utf8Size = 1 := by decide
  have e5 : '}'.utf8Size = 1 := by decide
  by_cases hbs : c = '\\'
  · subst hbs
    have hsz : ('\\' : Char).utf8Size = 1 := by decide
    rw [sem_clean _ _ _ _ _ _ _ _ (lineBreak_ne (by decide) (by simp))]
    simp only [adv, nextChar]
    rw [parse_esc]
    cases r with
    | nil =>
      rw [pieces_none (by rfl)]
      constructor
      · cases tk with
        | none => simp [parseEscape, emitLiteralIfStarted, nextChar, sem, outp, place, pieces_none (show tok1 [] = none from rfl)]
        | some t =>
          simp [parseEscape, emitLiteralIfStarted, nextChar, sem, outp, place, lineBreak, pieces_none (show tok1 [] = none from rfl)]
      · constructor <;> simp [parseEscape, emitLiteralIfStarted, nextChar, ← h2, blen]
    | cons d s =>
      rw [pieces_some (tok1_esc d s)]
      simp only [blen] at h2
      constructor
      · simp [parseEscape, emitLiteralIfStarted, nextChar, sem, startLiteral, place, tokenOf, hsz, blen,
          advancePos, Nat.add_assoc, Nat.add_comm 1]
      · constructor <;> simp [parseEscape, emitLiteralIfStarted, nextChar, startLiteral, hsz, ← h2]
        omega
  by_cases hnl : c = '\n'
  · subst hnl
    simp only [adv, nextChar]
    rw [parse_nl]
    rw [e1] at h2 ⊢
    exact sem_eol len off b off col row 1 _ ['\n'] r q tk ('\n' :: r) rfl rfl (by simp) (by decide)
      (by omega)
  by_cases hcr : c = '\r' ∧ r.head? = some '\n'
  · obtain ⟨rfl, hr⟩ := hcr
    cases r with
    | nil => simp at hr
    | cons d r =>
    simp only [List.head?_cons, Option.some.injEq] at hr; subst hr
    simp only [adv, nextChar]
    rw [parse_crlf _ _ rfl]
    simp only [blen, e1, e2] at h2
    simp only [nextIs, nextChar, e1, e2, if_true]
    exact sem_eol len off b _ col row 2 _ ['\r', '\n'] r q tk ('\r' :: '\n' :: r) rfl rfl (by simp)
      (by decide) (by omega)
  have hlb := lineBreak_ne hnl hcr
  have hp := pieces_some (p := (tokPlain c r).1) (r := (tokPlain c r).2) (tok1_plain hbs hlb)
  rw [sem_clean _ _ _ _ _ _ _ _ hlb, hp]
  by_cases hcs : c = '{' ∧ r.head? = some '%'
  · obtain ⟨rfl, hr⟩ := hcs
    cases r with
    | nil => simp at hr
    | cons d r =>
    simp only [List.head?_cons, Option.some.injEq] at hr; subst hr
    simp only [blen] at h2
    simp only [adv, nextChar]
    rw [parse_cstart _ _ rfl]
    simp only [nextIs, if_true, nextChar]
    rw [sem_emit _ _ _ _ _ _ _ _ (by simp [toToken])]
    refine ⟨?_, good_emit _ _ _ _ _ _ _ _ _ (by omega)⟩
    simp [tokPlain, place, tokenOf, advancePos, toToken, blen, Nat.add_assoc, e3, e4, e5]
  by_cases hce : c = '%' ∧ r.head? = some '}'
  · obtain ⟨rfl, hr⟩ := hce
    cases r with
    | nil => simp at hr
    | cons d r =>
    simp only [List.head?_cons, Option.some.injEq] at hr; subst hr
    simp only [blen] at h2
    simp only [adv, nextChar]
    rw [parse_cend _ _ rfl]
    simp only [nextIs, if_true, nextChar]
    rw [sem_emit _ _ _ _ _ _ _ _ (by simp [toToken])]
    refine ⟨?_, good_emit _ _ _ _ _ _ _ _ _ (by omega)⟩
    simp [tokPlain, place, tokenOf, advancePos, toToken, blen, Nat.add_assoc, e3, e4, e5]
  cases hrk : runKind c with
  | some k =>
    obtain ⟨hsz, -, -, -, -, hk, hk', -⟩ := runKind_size hrk
    simp only [adv, nextChar]
    rw [parse_run hrk _ _ hcs (fun _ => rfl)]
    simp only [takeWhile]
    rw [skipRun_spec c hbs hsz r.length _ (Nat.le_refl _) (by simp [hsz])]
    simp only
    rw [sem_emit _ _ _ _ _ _ _ _ hk]
    have := blen_run hsz r
    have := blen_takeDrop (· == c) r
    refine ⟨?_, good_emit _ _ _ _ _ _ _ _ _ (by omega)⟩
    have ha : ∀ s, advancePos ⟨false, k, s⟩ col row = (col + s.length, row) := by
      intro s; cases k <;> simp_all [advancePos]
    simp [tokPlain, hcs, hce, hrk, place, tokenOf, ha, blen, hsz, hbs]
    rw [blen_run hsz]
    refine ⟨by omega, ?_⟩
    congr 1 <;> omega
  | none =>
    cases hsk : singleKind c with
    | some k =>
      obtain ⟨hsz, -, -, -, -, -, hk, hk', -⟩ := singleKind_size hsk
      simp only [adv, nextChar]
      rw [parse_single hsk, sem_emit _ _ _ _ _ _ _ _ hk]
      refine ⟨?_, good_emit _ _ _ _ _ _ _ _ _ (by omega)⟩
      have ha : ∀ s, advancePos ⟨false, k, s⟩ col row = (col + s.length, row) := by
        intro s; cases k <;> simp_all [advancePos]
      simp [tokPlain, hcs, hce, hrk, hsk, place, tokenOf, ha, blen, hsz, hbs, toToken]
    | none =>
      simp only [adv, nextChar]
      have hsp : c ≠ ' ' := by rintro rfl; simp [runKind] at hrk
      rw [parse_lit (Or.inl hrk) hsk _ _ (fun e => absurd e hsp) hnl hbs hcr hce]
      constructor
      · simp [startLiteral, sem, tokPlain, hcs, hce, hrk, hsk, place, tokenOf, advancePos, blen, hbs,
          Nat.add_assoc, Nat.add_comm 1]
      · constructor <;> simp [startLiteral, ← h2]; omega

/-- A step of the lexer does not change what it will emit in total. -/
theorem sem_adv {st : Lx} (hg : Good st) (hi : st.iter ≠ []) :
    sem (adv st) = sem st ∧ Good (adv st) := by
  by_cases hl : st.literalStart = none
  · exact sem_adv_clean hg hl hi
  by_cases hs : litStop st.iter = true
  · have hf : adv (emitLiteralIfStarted st st.off) = adv st := by
      obtain ⟨ls, len, esc, ⟨b, col, row⟩, it, off, q, tk⟩ := st
      cases it with
      | nil => exact absurd rfl hi
      | cons c r =>
        unfold adv
        rw [emitLit_nextChar]
        simp only [nextChar]
        exact parse_flush (c := c)
          (st := ⟨ls, len, esc, ⟨off, _, row⟩, r, off + c.utf8Size, q, tk⟩) hs ⟨off, col, row⟩
    have hc := sem_adv_clean (good_emitLit hg st.off) (emitLit_ls st _) (by rw [emitLit_iter]; exact hi)
    rw [hf, sem_emitLit hs] at hc
    exact hc
  · obtain ⟨ls, len, esc, ⟨b, col, row⟩, it, off, q, tk⟩ := st
    cases it with
    | nil => exact absurd rfl hi
    | cons c r =>
    cases ls with
    | none => exact absurd rfl hl
    | some sp =>
    have hs : litStop (c :: r) = false := by simpa using hs
    obtain ⟨a1, a2, a3, a4, a5, a6⟩ := litStop_false hs
    have h2 := hg.len
    simp only [blen] at h2
    simp only [adv, nextChar]
    rw [parse_lit a5 a6 _ _ (fun _ => by simp) a1 a4 a2 a3]
    have ht : takeLit (c :: r) = (c :: (takeLit r).1, (takeLit r).2) := by
      conv => lhs; unfold takeLit
      rw [if_neg (by simp [hs])]
    constructor
    · simp [startLiteral, sem, ht, blen, a4, Nat.add_assoc, Nat.add_comm 1]
    · constructor <;> simp [startLiteral, ← h2]; omega

theorem sem_finish {st : Lx} (hg : Good st) (hi : st.iter = []) : (finish st).queue = sem st := by
  obtain ⟨ls, len, esc, ⟨b, col, row⟩, it, off, q, tk⟩ := st
  have h2 := hg.len
  simp only at hi; subst hi
  simp only [blen] at h2
  have hn : pieces [] = [] := pieces_none rfl
  cases ls <;> cases tk <;>
    simp_all [finish, emitLiteralIfStarted, replaceToken, sem, outp, hn, place, lineBreak, takeLit, blen]

theorem drain_eq_sem {n : Nat} : ∀ {st : Lx}, st.iter.length ≤ n → Good st → drain st = sem st := by
  induction n with
  | zero =>
    intro st h hg
    have hi : st.iter = [] := by simpa using h
    rw [drain_nil hi, sem_finish hg hi]
  | succ n ih =>
    intro st h hg
    by_cases hi : st.iter = []
    · rw [drain_nil hi, sem_finish hg hi]
    · obtain ⟨h1, h2⟩ := sem_adv hg hi
      rw [← drain_adv, ← h1]
      exact ih (by have := adv_lt hi; omega) h2

theorem drain_new (input : Str) : drain (new input) = tokens input := by
  rw [drain_eq_sem (Nat.le_refl _) ⟨fun _ => rfl, by simp [new]⟩]
  rfl

/-! ### The iterator hands out exactly `drain` -/

theorem advance_spec (n : Nat) : ∀ st : Lx, st.iter.length < n →
    ∃ s, advance n st = .ok s ∧ drain s = drain st ∧ (s.queue = [] → drain s = []) ∧
      s.iter.length ≤ st.iter.length := by
  induction n with
  | zero => intro st h; omega
  | succ n ih =>
    intro st h
    unfold advance
    by_cases hq : st.queue = []
    · rw [if_pos hq]
      cases hi : st.iter with
      | nil =>
        have hn : nextChar st false = (none, st) := by unfold nextChar; rw [hi]
        rw [hn]
        have hfi : (finish st).iter = [] := by
          unfold finish; simp only; split <;> simp [hi]
        have hff : (finish (finish st)).queue = (finish st).queue := by
          have : (finish st).token = none ∧ (finish st).literalStart = none := by
            unfold finish; simp only; split
            · simp [emitLit_ls]
            · rename_i h'; exact ⟨h', emitLit_ls _ _⟩
          have h1 : ∀ s : Lx, s.token = none → s.literalStart = none → (finish s).queue = s.queue := by
            intro s hs hl
            unfold finish; simp [emitLiteralIfStarted, hs, hl]
          exact h1 _ this.1 this.2
        refine ⟨finish st, rfl, ?_, ?_, by simp [hfi]⟩
        · rw [drain_nil hfi, drain_nil hi, hff]
        · intro h'; rw [drain_nil hfi, hff, h']
      | cons c r =>
        have hne : st.iter ≠ [] := by simp [hi]
        obtain ⟨p, s, hs⟩ : ∃ p s, nextChar st false = (some (p, c), s) := by
          unfold nextChar; rw [hi]; exact ⟨_, _, rfl⟩
        have ha : adv st = parse s p c := by unfold adv; rw [hs]
        have hlt := adv_lt hne
        rw [hs]
        simp only
        rw [← ha]
        obtain ⟨s', e1, e2, e3, e4⟩ := ih (adv st) (by omega)
        refine ⟨s', e1, by rw [e2, drain_adv], e3, ?_⟩
        rw [← hi]; omega
    · rw [if_neg hq]
      exact ⟨st, rfl, rfl, fun h => absurd h hq, Nat.le_refl _⟩

theorem collect_spec (n : Nat) : ∀ st : Lx, (drain st).length < n → collect n st = .ok (drain st) := by
  induction n with
  | zero => intro st h; omega
  | succ n ih =>
    intro st h
    obtain ⟨s, e1, e2, e3, -⟩ := advance_spec (st.iter.length + 1) st (by omega)
    unfold collect next
    rw [e1]
    cases hq : s.queue with
    | nil =>
      rw [← e2, e3 hq]
      simp only [bind, Except.bind, pure, Except.pure, hq]
    | cons t q =>
      have hs : s = addQ [t] { s with queue := q } := by
        unfold addQ; simp [← hq]
      have hd : drain st = t :: drain { s with queue := q } := by
        rw [← e2]; conv => lhs; rw [hs]
        rw [drain_addQ]; rfl
      have := ih { s with queue := q } (by rw [hd] at h; simp at h; omega)
      simp only [bind, Except.bind, pure, Except.pure, hq, this, hd]

theorem place_length (ps : List Piece) : ∀ off col row, (place off col row ps).length = ps.length := by
  induction ps with
  | nil => intros; rfl
  | cons p r ih => intros; simp [place, ih]

theorem pieces_length {n : Nat} : ∀ {s : Str}, s.length ≤ n → (pieces s).length ≤ s.length := by
  induction n with
  | zero =>
    intro s h
    have : s = [] := by simpa using h
    subst this; simp [pieces_none (show tok1 [] = none from rfl)]
  | succ n ih =>
    intro s h
    cases ht : tok1 s with
    | none => simp [pieces_none ht]
    | some x =>
      obtain ⟨p, r⟩ := x
      rw [pieces_some ht]
      have := tok1_length ht
      have := ih (s := r) (by omega)
      simp; omega

/-- The modelled lexer never panics, always terminates, and its output is the specified one. -/
theorem lex_eq (input : Str) : lex input = .ok (tokens input) := by
  unfold lex
  rw [collect_spec _ _ (by
    rw [drain_new, tokens, place_length]
    have := pieces_length (Nat.le_refl input.length)
    omega), drain_new]

end Yamd.Lexer
