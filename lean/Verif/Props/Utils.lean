import Verif.Model.Utils
import Verif.Props.Lexer
import Verif.Props.Size

/-!
# C68, C69: the command line tool in `utils/`
-/

namespace Yamd.Props

open Yamd Yamd.Spec Yamd.Utils Yamd.Lexer

theorem kindName_injective : ∀ a b : TokenKind, kindName a = kindName b → a = b := by
  have h : ∀ n : Str, ∀ a b : TokenKind, kindName a = n → kindName b = n → a = b := by
    intro n a b ha hb
    have key : ∀ a : TokenKind, TokenKind.toCtorIdx a = (List.findIdx (fun s => s = kindName a)
        [cs! "Terminator", cs! "Eol", cs! "LeftCurlyBrace", cs! "RightCurlyBrace", cs! "CollapsibleStart",
         cs! "CollapsibleEnd", cs! "Tilde", cs! "Star", cs! "Space", cs! "Minus", cs! "Hash", cs! "GreaterThan",
         cs! "Bang", cs! "Backtick", cs! "Plus", cs! "LeftSquareBracket", cs! "RightSquareBracket",
         cs! "LeftParenthesis", cs! "RightParenthesis", cs! "Underscore", cs! "Pipe", cs! "Literal"]) := by
      intro a; cases a <;> decide +kernel
    have e : TokenKind.toCtorIdx a = TokenKind.toCtorIdx b := by rw [key a, key b, ha, hb]
    cases a <;> cases b <;> first | rfl | cases e
  exact fun a b e => h _ a b e rfl

/-! ### Counting -/

/-- The entry of a kind. -/
theorem bump_mem (k : TokenKind) : ∀ (l : List (TokenKind × Nat)), (l.map Prod.fst).Nodup →
    ((bump k l).map Prod.fst).Nodup ∧ total (bump k l) = total l + 1 ∧
    ∀ k' n, (k', n) ∈ bump k l ↔
      (if k' = k then (∃ m, (k, m) ∈ l ∧ n = m + 1) ∨ ((∀ m, (k, m) ∉ l) ∧ n = 1) else (k', n) ∈ l)
  | [], _ => by
    refine ⟨by simp [bump], by simp [bump, total], fun k' n => ?_⟩
    by_cases h : k' = k
    · subst h; simp [bump]
    · simp [bump, h]
  | (k0, n0) :: r, hn => by
    simp only [List.map_cons, List.nodup_cons] at hn
    obtain ⟨h1, h2, h3⟩ := bump_mem k r hn.2
    have hnot : ∀ m, (k0, m) ∉ r := fun m hm => hn.1 (List.mem_map.2 ⟨_, hm, rfl⟩)
    by_cases h : k0 = k
    · subst h
      refine ⟨by simp [bump, hn], by simp [bump, total]; omega, fun k' n => ?_⟩
      by_cases h' : k' = k0
      · subst h'
        simp only [bump, if_true, List.mem_cons, Prod.mk.injEq, true_and]
        constructor
        · rintro (rfl | hm)
          · exact .inl ⟨n0, .inl rfl, rfl⟩
          · exact absurd hm (hnot n)
        · rintro (⟨m, rfl | hm, rfl⟩ | ⟨hm, -⟩)
          · exact .inl rfl
          · exact absurd hm (hnot m)
          · exact absurd (.inl rfl) (hm n0)
      · simp [bump, h']
    · refine ⟨?_, ?_, fun k' n => ?_⟩
      · simp only [bump, h, if_false, List.map_cons, List.nodup_cons]
        refine ⟨fun hm => ?_, h1⟩
        obtain ⟨⟨a, m⟩, hm', e⟩ := List.mem_map.1 hm
        simp only at e
        subst e
        have := (h3 a m).1 hm'
        rw [if_neg h] at this
        exact hnot m this
      · simp only [bump, h, if_false]
        simp only [total, List.map_cons, List.sum_cons] at h2 ⊢
        omega
      · simp only [bump, h, if_false, List.mem_cons, Prod.mk.injEq, h3]
        by_cases h' : k' = k
        · subst h'
          have : ¬ k' = k0 := fun e => h e.symm
          simp [this]
        · simp [h']

/-- What the fold has counted after some tokens. -/
theorem countKinds_spec (ts : List Token) :
    ((countKinds ts).map Prod.fst).Nodup ∧ total (countKinds ts) = ts.length ∧
      ∀ k n, (k, n) ∈ countKinds ts ↔ 0 < n ∧ n = ts.countP (fun t => t.kind = k) := by
  have key : ∀ (ts done : List Token) (acc : List (TokenKind × Nat)),
      (acc.map Prod.fst).Nodup ∧ total acc = done.length ∧
        (∀ k n, (k, n) ∈ acc ↔ 0 < n ∧ n = done.countP (fun t => t.kind = k)) →
      ((ts.foldl (fun acc t => bump t.kind acc) acc).map Prod.fst).Nodup ∧
        total (ts.foldl (fun acc t => bump t.kind acc) acc) = (done ++ ts).length ∧
        ∀ k n, (k, n) ∈ ts.foldl (fun acc t => bump t.kind acc) acc ↔
          0 < n ∧ n = (done ++ ts).countP (fun t => t.kind = k) := by
    intro ts
    induction ts with
    | nil => intro done acc h; simpa using h
    | cons t r ih =>
      intro done acc ⟨h1, h2, h3⟩
      obtain ⟨g1, g2, g3⟩ := bump_mem t.kind acc h1
      have := ih (done ++ [t]) (bump t.kind acc) ⟨g1, by simp [g2, h2], fun k n => ?_⟩
      · simpa using this
      · rw [g3]
        by_cases h : k = t.kind
        · subst h
          simp only [if_true, h3, List.countP_append, List.countP_singleton, decide_true]
          constructor
          · rintro (⟨m, ⟨-, rfl⟩, rfl⟩ | ⟨h4, rfl⟩)
            · omega
            · have : done.countP (fun u => decide (u.kind = t.kind)) = 0 := by
                rcases Nat.eq_zero_or_pos (done.countP (fun u => decide (u.kind = t.kind))) with h0 | h0
                · exact h0
                · exact absurd ⟨h0, rfl⟩ (h4 _)
              omega
          · rintro ⟨-, rfl⟩
            rcases Nat.eq_zero_or_pos (done.countP (fun u => decide (u.kind = t.kind))) with h0 | h0
            · exact .inr ⟨fun m hm => by omega, by omega⟩
            · exact .inl ⟨_, ⟨h0, rfl⟩, rfl⟩
        · have h' : ¬ t.kind = k := fun e => h e.symm
          simp [h, h3, h', List.countP_append]
  simpa [countKinds] using key ts [] [] ⟨by simp, by simp [total], fun k n => by simp; omega⟩

theorem insertRow_perm (x : Str × Nat) : ∀ l, (insertRow x l).Perm (x :: l)
  | [] => .refl _
  | y :: r => by
    simp only [insertRow]
    split
    · exact .refl _
    · exact ((insertRow_perm x r).cons y).trans (.swap _ _ _)

theorem sortRows_perm : ∀ l, (sortRows l).Perm l
  | [] => .refl _
  | x :: r => (insertRow_perm x _).trans ((sortRows_perm r).cons x)

theorem insertRow_sorted (x : Str × Nat) : ∀ l : List (Str × Nat), l.Pairwise (fun a b => b.2 ≤ a.2) →
    (insertRow x l).Pairwise (fun a b => b.2 ≤ a.2)
  | [], _ => by simp [insertRow]
  | y :: r, h => by
    obtain ⟨h1, h2⟩ := List.pairwise_cons.1 h
    simp only [insertRow]
    split
    · rename_i hle
      refine List.pairwise_cons.2 ⟨fun z hz => ?_, h⟩
      rcases List.mem_cons.1 hz with rfl | hz
      · exact hle
      · exact Nat.le_trans (h1 z hz) hle
    · rename_i hle
      refine List.pairwise_cons.2 ⟨fun z hz => ?_, insertRow_sorted x r h2⟩
      rcases List.mem_cons.1 ((insertRow_perm x r).mem_iff.1 hz) with rfl | hz
      · omega
      · exact h1 z hz

theorem sortRows_sorted : ∀ l, (sortRows l).Pairwise (fun a b => b.2 ≤ a.2)
  | [] => .nil
  | x :: r => insertRow_sorted x _ (sortRows_sorted r)

/-- **C68.** The statistics of a file are right, whatever the iteration order of the hash map: the total is the number
of tokens, the table lists exactly the kinds that occur, each once with the number of its tokens, and is sorted by
that number. -/
theorem C68_token_statistics (input : Str) :
    ∃ ts, lex input = .ok ts ∧ ∀ order, order.Perm (countKinds ts) →
      total order = ts.length ∧
      (∀ k n, (kindName k, n) ∈ table order ↔ 0 < n ∧ n = ts.countP (fun t => t.kind = k)) ∧
      (∀ e ∈ table order, ∃ k, e.1 = kindName k) ∧
      ((table order).map Prod.fst).Nodup ∧
      (table order).Pairwise (fun a b => b.2 ≤ a.2) := by
  refine ⟨_, lex_eq input, fun order hp => ?_⟩
  obtain ⟨h1, h2, h3⟩ := countKinds_spec (tokens input)
  have hperm : (table order).Perm (order.map (fun e => (kindName e.1, e.2))) := sortRows_perm _
  refine ⟨?_, fun k n => ?_, fun e he => ?_, ?_, ?_⟩
  · rw [← h2]
    exact (hp.map Prod.snd).sum_nat
  · rw [hperm.mem_iff, ← h3, ← hp.mem_iff, List.mem_map]
    constructor
    · rintro ⟨⟨k', n'⟩, hm, e⟩
      simp only [Prod.mk.injEq] at e
      obtain ⟨e1, rfl⟩ := e
      rw [← kindName_injective _ _ e1]
      exact hm
    · exact fun hm => ⟨_, hm, rfl⟩
  · obtain ⟨x, -, rfl⟩ := List.mem_map.1 (hperm.mem_iff.1 he)
    exact ⟨x.1, rfl⟩
  · rw [(hperm.map Prod.fst).nodup_iff, List.map_map]
    have hn : (order.map Prod.fst).Nodup := (hp.map Prod.fst).nodup_iff.2 h1
    have : order.map (Prod.fst ∘ fun e => (kindName e.1, e.2)) = (order.map Prod.fst).map kindName := by
      simp
    rw [this]
    exact hn.map kindName (fun a b h => fun e => h (kindName_injective a b e))
  · exact sortRows_sorted _

/-- Three tokens of two kinds, and what is printed for them. -/
example : (lex (cs! "-a-")).map countKinds = .ok [(.Minus, 2), (.Literal, 1)] ∧
    table [(.Literal, 1), (.Minus, 2)] = [(cs! "Minus", 2), (cs! "Literal", 1)] := by decide +kernel

example : tokenStat (cs! "a.yamd") [(.Literal, 1), (.Minus, 2)] =
    cs! "\nToken statistics for: a.yamd\n\nTotal token count:    3\n\nMinus:                2\nLiteral:              1\n" := by
  decide +kernel

/-- The columns are aligned: in every line of the table the number starts in column 22. -/
theorem C68_table_is_aligned (k : TokenKind) (n : Nat) :
    ∃ left, tab (kindName k) (showNat n) = left ++ showNat n ∧ left.length = 22 := by
  refine ⟨_, rfl, ?_⟩
  cases k <;> simp [kindName, blen, Char.utf8Size] <;> decide

/-! ### Random texts -/

/-- Bytes of a text: between one and four per character. -/
theorem blen_bounds : ∀ s : Str, s.length ≤ blen s ∧ blen s ≤ 4 * s.length
  | [] => by simp [blen]
  | c :: r => by
    have := c.utf8Size_pos
    have := c.utf8Size_le_four
    have := blen_bounds r
    simp only [blen, List.length_cons]; omega

theorem draw_text (maxLen : Nat) (d : Draw) (hm : 3 < maxLen) (hd : d.possible maxLen) :
    ∃ s, d.text maxLen = .ok s ∧ 1 ≤ blen s ∧ blen s ≤ 4 * (maxLen - 1) := by
  obtain ⟨t, lit⟩ := d
  obtain ⟨h1, h2⟩ := hd
  simp only at h1 h2
  by_cases ht : t = 21
  · subst ht
    have := blen_bounds lit
    refine ⟨lit, ?_, ?_, ?_⟩
    · have : ¬ maxLen ≤ 3 := by omega
      simp [Draw.text, this]
    · omega
    · omega
  · have key : ∃ s, (Draw.mk t lit).text maxLen = .ok s ∧ 1 ≤ blen s ∧ blen s ≤ 2 := by
      have : t < 21 := by omega
      clear h1 h2
      revert ht
      match t, this with
      | 0, _ | 1, _ | 2, _ | 3, _ | 4, _ | 5, _ | 6, _ | 7, _ | 8, _ | 9, _ | 10, _ | 11, _ | 12, _ | 13, _ | 14, _
      | 15, _ | 16, _ | 17, _ | 18, _ | 19, _ | 20, _ => exact fun _ => ⟨_, rfl, by decide, by decide⟩
      | n + 21, h => omega
    obtain ⟨s, h3, h4, h5⟩ := key
    exact ⟨s, h3, h4, by omega⟩

theorem randomLoop_spec (length maxLen : Nat) (ds : Nat → Draw) (hm : 3 < maxLen) (hd : ∀ i, (ds i).possible maxLen) :
    ∀ (fuel i : Nat) (out : Str), length ≤ blen out + fuel → (out = [] ∨ blen out < length + 4 * (maxLen - 1)) →
      ∃ s, randomLoop length maxLen ds fuel i out = .ok s ∧ length ≤ blen s ∧
        (s = [] ∨ blen s < length + 4 * (maxLen - 1)) := by
  intro fuel
  induction fuel with
  | zero =>
    intro i out h1 h2
    have : ¬ blen out < length := by omega
    exact ⟨out, by simp [randomLoop, this], by omega, h2⟩
  | succ fuel ih =>
    intro i out h1 h2
    by_cases h : blen out < length
    · obtain ⟨s, h3, h4, h5⟩ := draw_text maxLen (ds i) hm (hd i)
      obtain ⟨u, h6, h7, h8⟩ := ih (i + 1) (out ++ s) (by rw [blen_append]; omega)
        (by rw [blen_append]; right; omega)
      exact ⟨u, by rw [randomLoop, if_pos h]; simp only [h3, h6], h7, h8⟩
    · exact ⟨out, by simp [randomLoop, h], by omega, h2⟩

/-- **C69.** With a literal length of at least four, `random` ends for every sequence of draws, after at most one draw
per byte asked for, with a text of at least the length asked for and less than one literal more, and the text it makes
is read without failing. -/
theorem C69_random_text (length maxLen : Nat) (ds : Nat → Draw) (hm : 3 < maxLen) (hd : ∀ i, (ds i).possible maxLen) :
    ∃ s y, Utils.random length maxLen ds = .ok s ∧ length ≤ blen s ∧
      (s = [] ∨ blen s < length + 4 * (maxLen - 1)) ∧ deserialize s = .ok y := by
  obtain ⟨s, h1, h2, h3⟩ := randomLoop_spec length maxLen ds hm hd length 0 [] (by simp [blen]) (.inl rfl)
  obtain ⟨y, hy, -⟩ := C63_document_is_linear s
  exact ⟨s, y, h1, h2, h3, hy⟩

/-- Draws that meet the hypotheses, and the text they make. -/
example : Utils.random 6 10 (fun i => ⟨[9, 8, 21, 1].getD i 0, cs! "äbc"⟩) = .ok (cs! "- äbc") ∧
    Utils.random 7 10 (fun i => ⟨[9, 8, 21, 1].getD i 0, cs! "äbc"⟩) = .ok (cs! "- äbc\n") ∧
    blen (cs! "- äbc") = 6 := by decide +kernel

example : ∀ i, Draw.possible 10 ⟨[9, 8, 21, 1].getD i 0, cs! "äbc"⟩ := by
  intro i
  match i with
  | 0 | 1 | 2 | 3 | n + 4 => simp [Draw.possible]

/-- The hypothesis on the literal length is needed: with `--max-literal-len 3` the tool panics as soon as it draws a
literal, although the option is accepted. -/
theorem C69_short_literals_panic (length : Nat) (ds : Nat → Draw) (h : 0 < length) (h0 : (ds 0).token = 21) :
    Utils.random length 3 ds = .error .panic := by
  obtain ⟨n, rfl⟩ : ∃ n, length = n + 1 := ⟨length - 1, by omega⟩
  simp [Utils.random, randomLoop, blen, Draw.text, h0]

example : Utils.random 1 3 (fun _ => ⟨21, []⟩) = .error .panic := by decide +kernel

end Yamd.Props
