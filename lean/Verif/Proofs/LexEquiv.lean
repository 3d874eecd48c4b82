import Verif.Spec.Lex
import Mathlib.Logic.Function.Iterate
import Mathlib.Tactic.SplitIfs
import Mathlib.Tactic.Tauto

/-!
# The modelled lexer produces exactly the specified tokens
-/

namespace Yamd.Lexer

open Yamd.Spec

/-! ### What the small steps do to `iter` -/

@[simp] theorem replaceToken_iter (st : Lx) (t : Token) : (replaceToken st t).iter = st.iter := by
  unfold replaceToken; split <;> rfl

@[simp] theorem emitLit_iter (st : Lx) (n : Nat) : (emitLiteralIfStarted st n).iter = st.iter := by
  unfold emitLiteralIfStarted; split <;> simp

@[simp] theorem emit_iter (st : Lx) (t : Token) : (emit st t).iter = st.iter := by
  simp [emit]

@[simp] theorem eol_iter (st : Lx) (p : Position) (n : Nat) : (eol st p n).iter = st.iter := by
  unfold eol; simp only; split
  · simp
  · split <;> simp

@[simp] theorem startLiteral_iter (st : Lx) (p : Position) : (startLiteral st p).iter = st.iter := by
  unfold startLiteral; split <;> rfl

theorem nextChar_iter (st : Lx) (e : Bool) : (nextChar st e).2.iter = st.iter.tail := by
  unfold nextChar; split <;> simp_all

theorem nextIs_iter_le (st : Lx) (c : Char) : (nextIs st c).2.iter.length ≤ st.iter.length := by
  unfold nextIs; split
  · simp
  · split
    · rw [nextChar_iter]; simp
    · simp

theorem skipRun_iter_le (c : Char) (n : Nat) (st : Lx) :
    (skipRun c n st).iter.length ≤ st.iter.length := by
  induction n generalizing st with
  | zero => simp [skipRun]
  | succ n ih =>
    unfold skipRun; split
    · exact Nat.le_trans (ih _) (nextIs_iter_le _ _)
    · simp

theorem takeWhile_iter_le (st : Lx) (c : Char) (k : TokenKind) (p : Position) :
    (takeWhile st c k p).iter.length ≤ st.iter.length := by
  unfold takeWhile; simp only [emit_iter]; exact skipRun_iter_le _ _ _

theorem parseEscape_iter (st : Lx) (p : Position) : (parseEscape st p).iter = st.iter.tail := by
  unfold parseEscape
  have h2 := nextChar_iter (emitLiteralIfStarted st p.byteIndex) true
  rw [emitLit_iter] at h2
  split <;> rename_i h <;> rw [h] at h2 <;> simpa using h2

theorem ite_ind {α : Type} (P : α → Prop) {c : Prop} [Decidable c] {a b : α}
    (ha : c → P a) (hb : ¬ c → P b) : P (if c then a else b) := by
  split
  · exact ha ‹_›
  · exact hb ‹_›

theorem ite_map {α β : Type} (f : α → β) {c : Prop} [Decidable c] {a' b' : α} {a b : β}
    (ha : a = f a') (hb : b = f b') : (if c then a else b) = f (if c then a' else b') := by
  split <;> assumption

theorem parse_iter_le (st : Lx) (p : Position) (c : Char) :
    (parse st p c).iter.length ≤ st.iter.length := by
  unfold parse
  repeat' with_reducible refine ite_ind (fun s : Lx => s.iter.length ≤ st.iter.length) (fun _ => ?_) (fun _ => ?_)
  all_goals try rw [eol_iter]
  all_goals try rw [emit_iter]
  all_goals try rw [startLiteral_iter]
  all_goals first
    | exact Nat.le_refl _
    | exact nextIs_iter_le _ _
    | exact takeWhile_iter_le _ _ _ _
    | (rw [parseEscape_iter]; simp)

/-! ### One character at a time -/

/-- One turn of the loop of `advance` on a non-empty rest. -/
def adv (st : Lx) : Lx :=
  match nextChar st false with
  | (some (p, c), s) => parse s p c
  | (none, _) => st

theorem adv_nil {st : Lx} (h : st.iter = []) : adv st = st := by
  unfold adv nextChar; rw [h]

theorem adv_lt {st : Lx} (h : st.iter ≠ []) : (adv st).iter.length < st.iter.length := by
  unfold adv
  have h1 := nextChar_iter st false
  cases hi : st.iter with
  | nil => exact absurd hi h
  | cons c r =>
    have : nextChar st false = (nextChar st false) := rfl
    unfold nextChar at *
    rw [hi] at h1 ⊢
    simp only at h1 ⊢
    refine Nat.lt_of_le_of_lt (parse_iter_le _ _ _) ?_
    simp

theorem iterate_done {st : Lx} (n : Nat) (h : st.iter = []) : adv^[n] st = st := by
  induction n with
  | zero => rfl
  | succ n ih => rw [Function.iterate_succ_apply, adv_nil h, ih]

theorem iterate_enough {n : Nat} : ∀ {st : Lx}, st.iter.length ≤ n → (adv^[n] st).iter = [] := by
  induction n with
  | zero => intro st h; simpa using h
  | succ n ih =>
    intro st h
    rw [Function.iterate_succ_apply]
    by_cases hi : st.iter = []
    · rw [adv_nil hi]; exact ih (by simp [hi])
    · exact ih (by have := adv_lt hi; omega)

/-- The state in which all characters have been consumed. -/
def endSt (st : Lx) : Lx := adv^[st.iter.length] st

theorem endSt_of_ge {n : Nat} {st : Lx} (h : st.iter.length ≤ n) : adv^[n] st = endSt st := by
  obtain ⟨k, rfl⟩ := Nat.exists_eq_add_of_le h
  rw [Nat.add_comm, Function.iterate_add_apply]
  exact iterate_done _ (iterate_enough (Nat.le_refl _))

theorem endSt_adv (st : Lx) : endSt (adv st) = endSt st := by
  by_cases hi : st.iter = []
  · rw [adv_nil hi]
  · have := adv_lt hi
    have h2 : adv^[st.iter.length + 1] st = endSt st := endSt_of_ge (by omega)
    rw [Function.iterate_succ_apply] at h2
    rw [← h2, endSt_of_ge (by omega)]

theorem endSt_iter (st : Lx) : (endSt st).iter = [] := iterate_enough (Nat.le_refl _)

/-- Everything the lexer will still emit. -/
def drain (st : Lx) : List Token := (finish (endSt st)).queue

theorem drain_adv (st : Lx) : drain (adv st) = drain st := by
  unfold drain; rw [endSt_adv]

theorem drain_nil {st : Lx} (h : st.iter = []) : drain st = (finish st).queue := by
  unfold drain endSt; rw [h]; rfl

/-! ### The queue is only appended to -/

/-- Put tokens in front of the queue. -/
def addQ (q : List Token) (st : Lx) : Lx := { st with queue := q ++ st.queue }

theorem replaceToken_addQ (q) (st : Lx) (t : Token) :
    replaceToken (addQ q st) t = addQ q (replaceToken st t) := by
  unfold replaceToken addQ
  cases h : st.token <;> simp [h]

theorem emitLit_addQ (q) (st : Lx) (n : Nat) :
    emitLiteralIfStarted (addQ q st) n = addQ q (emitLiteralIfStarted st n) := by
  unfold emitLiteralIfStarted
  cases h : st.literalStart
  · simp [addQ, h]
  · simp only [addQ, h]
    have := replaceToken_addQ q { st with literalStart := none }
    simp only [addQ] at this
    simp [this]

theorem emit_addQ (q) (st : Lx) (t : Token) : emit (addQ q st) t = addQ q (emit st t) := by
  unfold emit; rw [emitLit_addQ, replaceToken_addQ]

theorem eol_addQ (q) (st : Lx) (p : Position) (n : Nat) :
    eol (addQ q st) p n = addQ q (eol st p n) := by
  unfold eol; rw [emitLit_addQ]
  cases h : (emitLiteralIfStarted st p.byteIndex).token with
  | none => simp [addQ, h]
  | some t => by_cases ht : t.kind = .Eol <;> simp [addQ, h, ht]

theorem nextChar_addQ (q) (st : Lx) (e : Bool) :
    nextChar (addQ q st) e = ((nextChar st e).1, addQ q (nextChar st e).2) := by
  unfold nextChar addQ; cases h : st.iter <;> simp [h]

theorem nextIs_addQ (q) (st : Lx) (c : Char) :
    nextIs (addQ q st) c = ((nextIs st c).1, addQ q (nextIs st c).2) := by
  have hi : (addQ q st).iter = st.iter := rfl
  unfold nextIs; rw [hi]
  cases h : st.iter with
  | nil => simp
  | cons d r =>
    simp only
    split <;> simp [nextChar_addQ]

theorem skipRun_addQ (q) (c : Char) (n : Nat) (st : Lx) :
    skipRun c n (addQ q st) = addQ q (skipRun c n st) := by
  induction n generalizing st with
  | zero => rfl
  | succ n ih =>
    unfold skipRun; rw [nextIs_addQ]; simp only
    split
    · rw [ih]
    · rfl

theorem takeWhile_addQ (q) (st : Lx) (c : Char) (k : TokenKind) (p : Position) :
    takeWhile (addQ q st) c k p = addQ q (takeWhile st c k p) := by
  unfold takeWhile
  have hi : (addQ q st).iter = st.iter := rfl
  have hp : ∀ s, (addQ q s).position = s.position := fun _ => rfl
  simp only [hi, skipRun_addQ, hp, emit_addQ]

theorem startLiteral_addQ (q) (st : Lx) (p : Position) :
    startLiteral (addQ q st) p = addQ q (startLiteral st p) := by
  unfold startLiteral addQ; cases h : st.literalStart <;> simp [h]

theorem parseEscape_addQ (q) (st : Lx) (p : Position) :
    parseEscape (addQ q st) p = addQ q (parseEscape st p) := by
  unfold parseEscape
  rw [emitLit_addQ, nextChar_addQ]
  cases nextChar (emitLiteralIfStarted st p.byteIndex) true with
  | mk o s =>
    cases o with
    | none => rfl
    | some x => exact startLiteral_addQ q { s with escaped := true } x.1

theorem parse_addQ (q) (st : Lx) (p : Position) (c : Char) :
    parse (addQ q st) p c = addQ q (parse st p c) := by
  have hl : (addQ q st).literalStart = st.literalStart := rfl
  unfold parse
  rw [nextIs_addQ, nextIs_addQ, nextIs_addQ, hl]
  repeat' with_reducible refine ite_map (addQ q) ?_ ?_
  all_goals first
    | with_reducible exact eol_addQ _ _ _ _
    | with_reducible exact emit_addQ _ _ _
    | with_reducible exact takeWhile_addQ _ _ _ _ _
    | with_reducible exact startLiteral_addQ _ _ _
    | with_reducible exact parseEscape_addQ _ _ _

theorem adv_addQ (q) (st : Lx) : adv (addQ q st) = addQ q (adv st) := by
  unfold adv; rw [nextChar_addQ]
  cases h : nextChar st false with
  | mk o s => cases o <;> simp [parse_addQ]

theorem iterate_addQ (q) (n : Nat) (st : Lx) : adv^[n] (addQ q st) = addQ q (adv^[n] st) := by
  induction n generalizing st with
  | zero => rfl
  | succ n ih => simp only [Function.iterate_succ_apply, adv_addQ, ih]

theorem finish_addQ (q) (st : Lx) : finish (addQ q st) = addQ q (finish st) := by
  unfold finish
  have : ∀ n, ({ addQ q st with position := n } : Lx) = addQ q { st with position := n } :=
    fun _ => rfl
  simp only [this, emitLit_addQ]
  have h3 : ∀ s : Lx, (match (addQ q s).token with
      | some t => { addQ q s with token := none, queue := (addQ q s).queue ++ [t] }
      | none => addQ q s) = addQ q (match s.token with
      | some t => { s with token := none, queue := s.queue ++ [t] }
      | none => s) := by
    intro s
    have : (addQ q s).token = s.token := rfl
    rw [this]
    cases h : s.token <;> simp [addQ]
  exact h3 _

theorem drain_addQ (q) (st : Lx) : drain (addQ q st) = q ++ drain st := by
  unfold drain endSt
  have : (addQ q st).iter = st.iter := rfl
  rw [this, iterate_addQ, finish_addQ]; rfl

/-! ### What each arm does -/

theorem nextIs_fst (st : Lx) (c : Char) : (nextIs st c).1 = (st.iter.head? == some c) := by
  unfold nextIs
  cases h : st.iter with
  | nil => rfl
  | cons d r => by_cases hd : d = c <;> simp [hd]

theorem skipRun_spec (c : Char) (hc : c ≠ '\\') (hs : c.utf8Size = 1) (n : Nat) :
    ∀ st : Lx, st.iter.length ≤ n → st.position.byteIndex + 1 = st.off →
    skipRun c n st = { st with
      position := ⟨st.position.byteIndex + (st.iter.takeWhile (· == c)).length,
        st.position.column + (st.iter.takeWhile (· == c)).length, st.position.row⟩
      iter := st.iter.dropWhile (· == c)
      off := st.off + (st.iter.takeWhile (· == c)).length } := by
  induction n with
  | zero =>
    intro st h _
    have : st.iter = [] := by simpa using h
    obtain ⟨ls, len, esc, ⟨b, co, ro⟩, it, off, q, tk⟩ := st
    simp only at this; subst this
    simp [skipRun]
  | succ n ih =>
    intro st h hb
    obtain ⟨ls, len, esc, ⟨b, co, ro⟩, it, off, q, tk⟩ := st
    unfold skipRun; rw [nextIs_fst]
    cases it with
    | nil => simp
    | cons d r =>
      by_cases hd : d = c
      · subst hd
        simp only at hb
        rw [if_pos (by simp), ih]
        · simp [nextIs, nextChar, hc, hs]; omega
        · simp [nextIs, nextChar] at h ⊢; omega
        · simp [nextIs, nextChar, hs]
      · simp [hd]

theorem runKind_cases {c : Char} {k : TokenKind} (h : runKind c = some k) :
    (c = '~' ∧ k = .Tilde) ∨ (c = '*' ∧ k = .Star) ∨ (c = '}' ∧ k = .RightCurlyBrace) ∨
    (c = '{' ∧ k = .LeftCurlyBrace) ∨ (c = ' ' ∧ k = .Space) ∨ (c = '-' ∧ k = .Minus) ∨
    (c = '#' ∧ k = .Hash) ∨ (c = '>' ∧ k = .GreaterThan) ∨ (c = '!' ∧ k = .Bang) ∨
    (c = '`' ∧ k = .Backtick) ∨ (c = '+' ∧ k = .Plus) := by
  unfold runKind at h
  repeat' (split at h; · simp_all)
  simp at h

theorem singleKind_cases {c : Char} {k : TokenKind} (h : singleKind c = some k) :
    (c = '[' ∧ k = .LeftSquareBracket) ∨ (c = ']' ∧ k = .RightSquareBracket) ∨
    (c = '(' ∧ k = .LeftParenthesis) ∨ (c = ')' ∧ k = .RightParenthesis) ∨
    (c = '_' ∧ k = .Underscore) ∨ (c = '|' ∧ k = .Pipe) := by
  unfold singleKind at h
  repeat' (split at h; · simp_all)
  simp at h

theorem parse_run {c : Char} {k : TokenKind} (h : runKind c = some k) (st : Lx) (p : Position)
    (h1 : ¬ (c = '{' ∧ st.iter.head? = some '%')) (h2 : c = ' ' → st.literalStart = none) :
    parse st p c = takeWhile st c k p := by
  unfold parse
  rcases runKind_cases h with h | h | h | h | h | h | h | h | h | h | h <;>
    obtain ⟨rfl, rfl⟩ := h <;> simp [nextIs_fst]
  · intro h; exact absurd h (by simpa using h1)
  · intro h; exact absurd (h2 rfl) h

theorem parse_single {c : Char} {k : TokenKind} (h : singleKind c = some k) (st : Lx) (p : Position) :
    parse st p c = emit st (toToken k p 1) := by
  unfold parse
  rcases singleKind_cases h with h | h | h | h | h | h <;>
    obtain ⟨rfl, rfl⟩ := h <;> simp

theorem parse_lit {c : Char} (h1 : runKind c = none ∨ c = ' ') (h2 : singleKind c = none) (st : Lx)
    (p : Position) (hs : c = ' ' → st.literalStart ≠ none) (hn : c ≠ '\n') (hb : c ≠ '\\')
    (h3 : ¬ (c = '\r' ∧ st.iter.head? = some '\n')) (h4 : ¬ (c = '%' ∧ st.iter.head? = some '}')) :
    parse st p c = startLiteral st p := by
  have hmem : c ∉ stopChars := by
    intro hm
    simp only [stopChars, List.mem_cons, List.not_mem_nil, or_false] at hm
    rcases hm with h|h|h|h|h|h|h|h|h|h|h|h|h|h|h|h|h|h <;> subst h <;>
      simp [runKind, singleKind] at h1 h2 hn hb
  simp only [stopChars, List.mem_cons, List.not_mem_nil, or_false, not_or] at hmem
  obtain ⟨a1, a2, a3, a4, a5, a6, a7, a8, a9, b1, b2, b3, b4, b5, b6, b7, b8, b9⟩ := hmem
  have h3' : ¬ (c = '\r' ∧ (nextIs st '\n').1 = true) := by rw [nextIs_fst]; simpa using h3
  have h4' : ¬ (c = '%' ∧ (nextIs st '}').1 = true) := by rw [nextIs_fst]; simpa using h4
  have hs' : ¬ (c = ' ' ∧ st.literalStart = none) := fun e => hs e.1 e.2
  unfold parse
  rw [if_neg a1, if_neg h3', if_neg (fun e => a6 e.1), if_neg h4', if_neg a2, if_neg a3, if_neg a4,
    if_neg a5, if_neg a6, if_neg hs', if_neg a7, if_neg a8, if_neg a9, if_neg b1, if_neg b2,
    if_neg b3, if_neg b4, if_neg b5, if_neg b6, if_neg b7, if_neg b8, if_neg b9]

theorem parse_nl (st : Lx) (p : Position) : parse st p '\n' = eol st p 1 := by
  unfold parse; simp

theorem parse_crlf (st : Lx) (p : Position) (h : st.iter.head? = some '\n') :
    parse st p '\r' = eol (nextIs st '\n').2 p 2 := by
  unfold parse; simp [nextIs_fst, h]

theorem parse_cstart (st : Lx) (p : Position) (h : st.iter.head? = some '%') :
    parse st p '{' = emit (nextIs st '%').2 (toToken .CollapsibleStart p 2) := by
  unfold parse; simp [nextIs_fst, h]

theorem parse_cend (st : Lx) (p : Position) (h : st.iter.head? = some '}') :
    parse st p '%' = emit (nextIs st '}').2 (toToken .CollapsibleEnd p 2) := by
  unfold parse; simp [nextIs_fst, h]

theorem parse_esc (st : Lx) (p : Position) : parse st p '\\' = parseEscape st p := by
  unfold parse; simp

/-! ### A started literal is emitted first -/

theorem emitLit_none {st : Lx} (h : st.literalStart = none) (n : Nat) :
    emitLiteralIfStarted st n = st := by
  unfold emitLiteralIfStarted; rw [h]

theorem replaceToken_ls (st : Lx) (t : Token) : (replaceToken st t).literalStart = st.literalStart := by
  unfold replaceToken; split <;> rfl

theorem emitLit_ls (st : Lx) (n : Nat) : (emitLiteralIfStarted st n).literalStart = none := by
  unfold emitLiteralIfStarted; split
  · simp [replaceToken_ls]
  · assumption

theorem emitLit_idem (st : Lx) (n m : Nat) :
    emitLiteralIfStarted (emitLiteralIfStarted st n) m = emitLiteralIfStarted st n :=
  emitLit_none (emitLit_ls st n) m

theorem emitLit_nextChar (st : Lx) (n : Nat) (e : Bool) :
    nextChar (emitLiteralIfStarted st n) e
      = ((nextChar st e).1, emitLiteralIfStarted (nextChar st e).2 n) := by
  obtain ⟨ls, len, esc, ⟨b, co, ro⟩, it, off, q, tk⟩ := st
  cases it <;> cases ls <;> cases tk <;> rfl

theorem emitLit_nextIs (st : Lx) (n : Nat) (c : Char) :
    nextIs (emitLiteralIfStarted st n) c
      = ((nextIs st c).1, emitLiteralIfStarted (nextIs st c).2 n) := by
  unfold nextIs
  rw [emitLit_iter]
  cases h : st.iter with
  | nil => rfl
  | cons d r => by_cases hd : d = c <;> simp [hd, emitLit_nextChar]

theorem emitLit_skipRun (c : Char) (k n : Nat) (st : Lx) :
    skipRun c k (emitLiteralIfStarted st n) = emitLiteralIfStarted (skipRun c k st) n := by
  induction k generalizing st with
  | zero => rfl
  | succ k ih =>
    unfold skipRun
    rw [emitLit_nextIs]
    simp only
    split
    · rw [ih]
    · rfl

theorem emitLit_position (st : Lx) (n : Nat) :
    (emitLiteralIfStarted st n).position = st.position := by
  obtain ⟨ls, len, esc, ⟨b, co, ro⟩, it, off, q, tk⟩ := st
  cases ls <;> cases tk <;> rfl

theorem emit_flush (st : Lx) (t : Token) :
    emit (emitLiteralIfStarted st t.position.byteIndex) t = emit st t := by
  unfold emit; rw [emitLit_idem]

theorem eol_flush (st : Lx) (p : Position) (n : Nat) :
    eol (emitLiteralIfStarted st p.byteIndex) p n = eol st p n := by
  unfold eol; rw [emitLit_idem]

theorem takeWhile_flush (st : Lx) (c : Char) (k : TokenKind) (p : Position) :
    takeWhile (emitLiteralIfStarted st p.byteIndex) c k p = takeWhile st c k p := by
  unfold takeWhile
  simp only [emitLit_iter, emitLit_skipRun, emitLit_position]
  exact emit_flush _ ⟨k, p.byteIndex, _, p, false⟩

theorem parseEscape_flush (st : Lx) (p : Position) :
    parseEscape (emitLiteralIfStarted st p.byteIndex) p = parseEscape st p := by
  unfold parseEscape; rw [emitLit_idem]

theorem litStop_cases {c : Char} {r : Str} (h : litStop (c :: r) = true) :
    c = '\n' ∨ (c = '\r' ∧ r.head? = some '\n') ∨ (c = '%' ∧ r.head? = some '}') ∨ c = '\\' ∨
      (c ≠ ' ' ∧ ∃ k, runKind c = some k) ∨ ∃ k, singleKind c = some k := by
  simp only [litStop, stopChars, Bool.or_eq_true, Bool.and_eq_true, beq_iff_eq,
    List.contains_iff_mem] at h
  rcases h with (h | h) | h
  · simp only [List.mem_cons, List.not_mem_nil, or_false] at h
    rcases h with h|h|h|h|h|h|h|h|h|h|h|h|h|h|h|h|h|h <;> subst h <;> simp [runKind, singleKind]
  · tauto
  · tauto

theorem litStop_false {c : Char} {r : Str} (h : litStop (c :: r) = false) :
    c ≠ '\n' ∧ ¬ (c = '\r' ∧ r.head? = some '\n') ∧ ¬ (c = '%' ∧ r.head? = some '}') ∧ c ≠ '\\' ∧
      (runKind c = none ∨ c = ' ') ∧ singleKind c = none := by
  simp only [litStop, stopChars, Bool.or_eq_false_iff, Bool.and_eq_false_iff, beq_eq_false_iff_ne,
    List.contains_eq_mem, decide_eq_false_iff_not, List.mem_cons, List.not_mem_nil, or_false,
    not_or] at h
  unfold runKind singleKind
  simp only [h, if_false]
  by_cases hc : c = ' '
  · subst hc; simp
  · simp [hc]; tauto

theorem parse_flush {c : Char} {st : Lx} (h : litStop (c :: st.iter) = true) (p : Position) :
    parse (emitLiteralIfStarted st p.byteIndex) p c = parse st p c := by
  by_cases hcs : c = '{' ∧ st.iter.head? = some '%'
  · obtain ⟨rfl, h2⟩ := hcs
    rw [parse_cstart _ _ h2, parse_cstart _ _ (by rw [emitLit_iter]; exact h2), emitLit_nextIs]
    exact emit_flush _ (toToken .CollapsibleStart p 2)
  rcases litStop_cases h with h | h | h | h | ⟨h, k, hk⟩ | ⟨k, hk⟩
  · subst h; rw [parse_nl, parse_nl, eol_flush]
  · obtain ⟨rfl, h2⟩ := h
    rw [parse_crlf _ _ h2, parse_crlf _ _ (by rw [emitLit_iter]; exact h2), emitLit_nextIs]
    exact eol_flush _ _ _
  · obtain ⟨rfl, h2⟩ := h
    rw [parse_cend _ _ h2, parse_cend _ _ (by rw [emitLit_iter]; exact h2), emitLit_nextIs]
    exact emit_flush _ (toToken .CollapsibleEnd p 2)
  · subst h; rw [parse_esc, parse_esc, parseEscape_flush]
  · rw [parse_run hk _ _ hcs (fun e => absurd e h),
      parse_run hk _ _ (by rw [emitLit_iter]; exact hcs) (fun e => absurd e h), takeWhile_flush]
  · rw [parse_single hk, parse_single hk]
    exact emit_flush _ (toToken k p 1)

end Yamd.Lexer
