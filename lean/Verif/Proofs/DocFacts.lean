import Verif.Proofs.Denote
import Verif.Spec.Doc

/-!
# Facts about the document of a tree
-/

namespace Yamd.Ref

open Yamd Yamd.Spec Yamd.ToYamd

/-! ### What is known about the tokens of a tree -/

/-- Token texts are not empty, non-literals have the text of their kind, runs are maximal. -/
structure Live (src : Str) (ts : List Token) : Prop where
  text : ∀ t ∈ ts, sliceD src t ≠ []
  lexed : ∀ t ∈ ts, t.kind ≠ .Literal → Lexed src t
  chain : ∀ l1 a b l2, ts = l1 ++ a :: b :: l2 → a.kind = b.kind → runCharOf a.kind = none

section
variable {src : Str}

theorem Live.infix {a b : List Token} (h : Live src b) (hi : a <:+: b) : Live src a := by
  obtain ⟨p, q, rfl⟩ := hi
  refine ⟨fun t ht => h.text t (by simp [ht]), fun t ht => h.lexed t (by simp [ht]), ?_⟩
  rintro l1 x y l2 rfl he
  exact h.chain (p ++ l1) x y (l2 ++ q) (by simp) he

theorem Live.left {a b : List Token} (h : Live src (a ++ b)) : Live src a := h.infix ⟨[], b, by simp⟩
theorem Live.right {a b : List Token} (h : Live src (a ++ b)) : Live src b := h.infix ⟨a, [], by simp⟩
theorem Live.tail {a} {b : List Token} (h : Live src (a :: b)) : Live src b := h.infix ⟨[a], [], by simp⟩

theorem Live.mem {α : Type} {f : α → List Token} {l : List α} (h : Live src (l.flatMap f)) {x} (hx : x ∈ l) :
    Live src (f x) := by
  obtain ⟨a, b, rfl⟩ := List.append_of_mem hx
  rw [List.flatMap_append, List.flatMap_cons] at h
  exact h.right.left

theorem live_text {ts : List Token} (h : Live src ts) (hne : ts ≠ []) : textOfToks src ts ≠ [] := by
  cases ts with
  | nil => exact absurd rfl hne
  | cons t r =>
    have := h.text t (by simp)
    simp [textOfToks, this]

/-- Two runs of the same kind are never neighbours. -/
theorem Live.pair {a b : Token} {r : List Token} (h : Live src (a :: b :: r)) (hk : a.kind = b.kind) :
    runCharOf a.kind = none := h.chain [] a b r rfl hk

theorem Flips.split2 : ∀ {l1 a b l2 ts}, Flips ts (l1 ++ a :: b :: l2) →
    ∃ m1 a' b' m2, ts = m1 ++ a' :: b' :: m2 ∧ FlipRel a' a ∧ FlipRel b' b := by
  intro l1 a b l2 ts h
  obtain ⟨m1, m2, rfl, -, h2⟩ := h.split
  cases h2 with
  | cons h3 h4 =>
    cases h4 with
    | cons h5 h6 => exact ⟨m1, _, _, _, rfl, h3, h5⟩

theorem flipRel_kind {a b : Token} (h : FlipRel a b) (hk : b.kind ≠ .Literal) : a = b := by
  rcases h with h | ⟨-, h⟩
  · exact h.symm
  · rw [h] at hk; exact absurd rfl hk

end

theorem live_top (input : Str) : Live input (topB (tokens input)).toks := by
  have hf := top_flips (tokens input)
  refine ⟨?_, fun t ht hk => lexed_tokens (hf.mem t ht hk), ?_⟩
  · intro t ht
    have : ∃ u ∈ tokens input, FlipRel u t := by
      obtain ⟨l1, l2, e⟩ := List.append_of_mem ht
      rw [e] at hf
      obtain ⟨m1, m2, e2, -, h2⟩ := hf.split
      cases h2 with
      | cons h3 h4 => exact ⟨_, by rw [e2]; simp, h3⟩
    obtain ⟨u, hu, hr⟩ := this
    rw [hr.slice_eq]
    obtain ⟨s, h1, h2, -⟩ := lexed_tokens hu
    rw [h1]
    exact form_ne_nil h2
  · intro l1 a b l2 e hk
    rw [e] at hf
    obtain ⟨m1, a', b', m2, e2, ha, hb⟩ := hf.split2
    cases hr : runCharOf a.kind with
    | none => rfl
    | some c =>
      exfalso
      have hl : a.kind ≠ .Literal := by intro h; rw [h] at hr; simp [runCharOf] at hr
      have ea := flipRel_kind ha hl
      have eb := flipRel_kind hb (by rw [← hk]; exact hl)
      subst ea eb
      have hesc : b'.escaped = false := by
        cases he : b'.escaped with
        | false => rfl
        | true =>
          have hm : b' ∈ tokens input := by rw [e2]; simp
          obtain ⟨x, p, y, f1, f2, f3, f4, f5, f6, -⟩ := Props.tokens_facts hm
          have := (pieces_form _ p f4).2 (by rw [← f6]; exact he)
          rw [hk, f5, this] at hl; exact absurd rfl hl
      exact Props.place_chain input 0 0 0 m1 a' b' m2 e2 hesc (.inl ⟨hk, .inl (by rw [hr]; simp)⟩)

/-! ### Blocks at any depth -/

section
variable {src : Str}

theorem blocksOf_append : ∀ {a b}, blocksOf (a ++ b) = blocksOf a ++ blocksOf b
  | [], _ => rfl
  | n :: a, b => by rw [List.cons_append, blocksOf, blocksOf, blocksOf_append, List.append_assoc]

theorem blocksIn_leaf (b : Block) : blocksIn (b.denote src) = [b.denote src] := by
  cases b with
  | images l => cases l with
    | nil => rfl
    | cons i l => cases l <;> rfl
  | _ => rfl

/-- Every block of the document of a tree is a collapsible or the document of a block of the tree. -/
theorem Doc.node_cases : ∀ {d : Doc}, d.Ok → ∀ n ∈ blocksOf (d.denote src),
    (∃ t b, n = .collapsible t b) ∨ ∃ b : Block, b.Ok ∧ b.toks <:+: d.toks ∧ n = b.denote src
  | .nil, _, n, hn => by simp [Doc.denote, blocksOf] at hn
  | .term t d, h, n, hn => by
    rcases Doc.node_cases (d := d) h.2 n hn with h1 | ⟨b, h1, ⟨p, q, h2⟩, h3⟩
    · exact .inl h1
    · exact .inr ⟨b, h1, ⟨t :: p, q, by simp [Doc.toks, ← h2]⟩, h3⟩
  | .block b d, h, n, hn => by
    rw [Doc.denote, blocksOf, blocksIn_leaf, List.mem_append, List.mem_singleton] at hn
    rcases hn with hn | hn
    · exact .inr ⟨b, h.1, ⟨[], d.toks, by simp [Doc.toks]⟩, hn⟩
    rcases Doc.node_cases (d := d) h.2 n hn with h1 | ⟨b', h1, ⟨p, q, h2⟩, h3⟩
    · exact .inl h1
    · exact .inr ⟨b', h1, ⟨b.toks ++ p, q, by simp [Doc.toks, ← h2]⟩, h3⟩
  | .coll o m i s c d, h, n, hn => by
    obtain ⟨-, -, h2, -, -, h5⟩ := h
    rw [Doc.denote, blocksOf, blocksIn, List.mem_append, List.mem_cons] at hn
    rcases hn with (hn | hn) | hn
    · exact .inl ⟨_, _, hn⟩
    · rcases Doc.node_cases (d := i) h2 n hn with h1 | ⟨b', h1, ⟨p, q, h2⟩, h3⟩
      · exact .inl h1
      · exact .inr ⟨b', h1, ⟨o ++ (modToks m ++ p), q ++ (s ++ (c ++ d.toks)), by simp [Doc.toks, ← h2]⟩, h3⟩
    · rcases Doc.node_cases (d := d) h5 n hn with h1 | ⟨b', h1, ⟨p, q, h2⟩, h3⟩
      · exact .inl h1
      · exact .inr ⟨b', h1, ⟨o ++ (modToks m ++ (i.toks ++ (s ++ (c ++ p)))), q, by simp [Doc.toks, ← h2]⟩, h3⟩

end

theorem topB_doc_ok (ts : List Token) : (topB ts).doc.Ok := by
  unfold topB
  split <;> exact docB_ok _ _

/-- The same for a deserialized document. -/
theorem node_cases (input : Str) : ∀ n ∈ blocksOf ((topB (tokens input)).denote input).body,
    (∃ t b, n = .collapsible t b) ∨ ∃ b : Block, b.Ok ∧ Live input b.toks ∧ n = b.denote input := by
  intro n hn
  rcases Doc.node_cases (topB_doc_ok (tokens input)) n hn with h | ⟨b, h1, h2, h3⟩
  · exact .inl h
  · refine .inr ⟨b, h1, (live_top input).infix (h2.trans ?_), h3⟩
    exact ⟨_, [], by rw [List.append_nil]; rfl⟩

/-! ### Headings -/

section
variable {src : Str}

theorem heading_level {m : List Token} (hl : Live src m)
    (h : ∃ a s, m = [a, s] ∧ isHash a = true ∧ isSpace1 s = true) :
    1 ≤ headLevel src m ∧ headLevel src m ≤ 6 := by
  obtain ⟨a, s, rfl, h1, h2⟩ := h
  simp only [isHash, Bool.and_eq_true, decide_eq_true_eq] at h1
  have ha := (hl.lexed a (by simp) (by rw [h1.1.1]; decide)).run (c := '#') (by rw [h1.1.1]; rfl)
  have hs := space_text h2 (hl.lexed s (by simp))
  have : ((textOfToks src [a, s]).takeWhile (· == '#')).length = a.len := by
    rw [text_two, ha.1, hs]
    generalize a.len = n
    induction n with
    | zero => rfl
    | succ n ih => simp only [List.replicate_succ, List.cons_append, List.takeWhile_cons, beq_self_eq_true, if_true, List.length_cons, ih]
  unfold headLevel
  rw [this, Nat.mod_eq_of_lt (by omega)]
  exact ⟨ha.2, h1.2⟩

/-! ### Lists -/

theorem levels_items : ∀ {i : Items} {level want}, i.Ok level want → itemsLevelsOk level (i.denote src level) = true
  | .nil, _, _, _ => rfl
  | .cons k m p n q, level, want, h => by
    obtain ⟨-, -, -, h4, h5⟩ := h
    rw [Items.denote, itemsLevelsOk, levels_items h5, Bool.and_true]
    cases n with
    | nil => rfl
    | cons k' m' p' n' q' =>
      simp only [Items.kind, wrapDenote, Option.map_some, itemLevelsOk, levelsOk, beq_self_eq_true, Bool.true_and]
      rw [levels_items h4]
      rfl

/-! ### Paragraphs -/

theorem noTwo_of {α β : Type} {f : α → Bool} {g : β → Bool} {h : α → β} (hfg : ∀ x, g (h x) = f x) :
    ∀ {l : List α}, NoAdj f l → NoTwoAdjacent g (l.map h) := by
  intro l hl l1 a b l2 e
  induction l1 generalizing l with
  | nil =>
    match l, hl with
    | [], _ => simp at e
    | [_], _ => simp at e
    | x :: y :: r, hl =>
      simp only [List.map_cons, List.nil_append, List.cons.injEq] at e
      rw [← e.1, ← e.2.1, hfg, hfg]; exact hl.1
  | cons c l1 ih =>
    match l, hl with
    | [], _ => simp at e
    | [x], _ => simp at e
    | x :: y :: r, hl =>
      simp only [List.map_cons, List.cons_append, List.cons.injEq] at e
      exact ih hl.2 (by simpa using e.2)

/-- The same after a change of the last element. -/
theorem NoTwoAdjacent.dropLast {α : Type} {f : α → Bool} {l : List α} (h : NoTwoAdjacent f l) :
    NoTwoAdjacent f l.dropLast := by
  intro l1 a b l2 e
  rcases List.eq_nil_or_concat l with rfl | ⟨l', x, rfl⟩
  · simp at e
  · rw [List.concat_eq_append, List.dropLast_concat] at e
    exact h l1 a b (l2 ++ [x]) (by simp [e])

theorem NoTwoAdjacent.setLast {α : Type} {f : α → Bool} {l : List α} {x y : α} (h : NoTwoAdjacent f (l ++ [x]))
    (hxy : f y = f x) : NoTwoAdjacent f (l ++ [y]) := by
  intro l1 a b l2 e
  rcases List.eq_nil_or_concat l2 with rfl | ⟨l', z, rfl⟩
  · have e2 : l ++ [y] = (l1 ++ [a]) ++ [b] := by simpa using e
    obtain ⟨e3, e4⟩ := List.append_inj' e2 rfl
    simp only [List.cons.injEq, and_true] at e4
    subst e4
    rw [hxy]
    exact h l1 a x [] (by simp [e3])
  · have e2 : l ++ [y] = (l1 ++ a :: b :: l') ++ [z] := by simpa using e
    obtain ⟨e3, e4⟩ := List.append_inj' e2 rfl
    exact h l1 a b (l' ++ [x]) (by simp [e3])

theorem trim_cases (p : Paragraph) : trimTrailingNewline p = p ∨
    ∃ q t, p = q ++ [.text t] ∧ ((trimEndNl t = [] ∧ trimTrailingNewline p = q) ∨
      (trimEndNl t ≠ [] ∧ trimTrailingNewline p = q ++ [.text (trimEndNl t)])) := by
  unfold trimTrailingNewline
  split
  · rename_i t ht
    obtain ⟨q, rfl⟩ := List.getLast?_eq_some_iff.1 ht
    right
    refine ⟨q, t, rfl, ?_⟩
    by_cases h : trimEndNl t = []
    · left; simp [h]
    · right; simp [h]
  · exact .inl rfl

theorem normal_trim {p : Paragraph} (h : NormalParagraph p) : NormalParagraph (trimTrailingNewline p) := by
  rcases trim_cases p with e | ⟨q, t, rfl, ⟨ht, e⟩ | ⟨ht, e⟩⟩
  · rw [e]; exact h
  · rw [e]
    obtain ⟨h1, h2, h3⟩ := h
    refine ⟨fun hm => h1 (by simp [hm]), ?_, fun b hb => h3 b (by simp [hb])⟩
    have := NoTwoAdjacent.dropLast h2
    rwa [List.dropLast_concat] at this
  · rw [e]
    obtain ⟨h1, h2, h3⟩ := h
    refine ⟨?_, NoTwoAdjacent.setLast h2 rfl, ?_⟩
    · intro hm
      rcases List.mem_append.1 hm with hm | hm
      · exact h1 (by simp [hm])
      · simp only [List.mem_singleton, ParagraphNode.text.injEq] at hm
        exact ht hm.symm
    · intro b hb
      refine h3 b ?_
      rcases List.mem_append.1 hb with hb | hb
      · simp [hb]
      · simp at hb

theorem style_trim {p : Paragraph} (h : NoEmptyStyle p) : NoEmptyStyle (trimTrailingNewline p) := by
  have key : ∀ q : Paragraph, (∀ x ∈ q, isTextP x = false → x ∈ p) → NoEmptyStyle q := by
    intro q hq
    obtain ⟨h1, h2, h3, h4, h5⟩ := h
    exact ⟨fun hm => h1 (hq _ hm rfl), fun hm => h2 (hq _ hm rfl), fun hm => h3 (hq _ hm rfl),
      fun hm => h4 (hq _ hm rfl), fun b hb => h5 b (hq _ hb rfl)⟩
  refine key _ (fun x hx hn => ?_)
  rcases trim_cases p with e | ⟨q, t, rfl, ⟨ht, e⟩ | ⟨ht, e⟩⟩
  · rwa [e] at hx
  · rw [e] at hx; simp [hx]
  · rw [e] at hx
    rcases List.mem_append.1 hx with hx | hx
    · simp [hx]
    · simp only [List.mem_singleton] at hx; subst hx; simp [isTextP] at hn

theorem para_live {l : List Inl} (h : Live src (paraToks l)) : ∀ x ∈ l, Live src x.toks := fun _ hx => h.mem hx

theorem bold_normal {items : List BoldItem} (h1 : ∀ x ∈ items, x.Ok) (h2 : NoAdj BoldItem.isText items)
    (hl : Live src (items.flatMap BoldItem.toks)) :
    BoldNode.text [] ∉ items.map (BoldItem.denote src) ∧ NoTwoAdjacent isTextB (items.map (BoldItem.denote src)) := by
  refine ⟨?_, noTwo_of ?_ h2⟩
  · intro hm
    obtain ⟨x, hx, e⟩ := List.mem_map.1 hm
    cases x with
    | text ts =>
      simp only [BoldItem.denote, BoldNode.text.injEq] at e
      exact live_text (hl.mem hx) (h1 _ hx) e
    | delim d => simp only [BoldItem.denote] at e; split at e <;> simp at e
  · intro x
    cases x with
    | text ts => rfl
    | delim d => simp only [BoldItem.denote]; split <;> rfl

theorem normal_para {l : List Inl} (h : ParaOk l) (hl : Live src (paraToks l)) : NormalParagraph (paraDenote src l) := by
  obtain ⟨h1, h2, -⟩ := h
  refine ⟨?_, noTwo_of ?_ h2, ?_⟩
  · intro hm
    obtain ⟨x, hx, e⟩ := List.mem_map.1 hm
    cases x with
    | text ts =>
      simp only [Inl.denote, ParagraphNode.text.injEq] at e
      exact live_text (hl.mem hx) (h1 _ hx) e
    | delim d => simp only [Inl.denote] at e; split at e <;> simp at e
    | bold o i c => simp [Inl.denote] at e
    | anchor a => simp [Inl.denote] at e
  · intro x
    cases x with
    | delim d => simp only [Inl.denote]; split <;> rfl
    | _ => rfl
  · intro b hb
    obtain ⟨x, hx, e⟩ := List.mem_map.1 hb
    cases x with
    | text ts => simp [Inl.denote] at e
    | delim d => simp only [Inl.denote] at e; split at e <;> simp at e
    | bold o i c =>
      simp only [Inl.denote, ParagraphNode.bold.injEq] at e
      subst e
      obtain ⟨-, -, a3, a4⟩ := h1 _ hx
      exact bold_normal a3 a4 (Live.left (Live.tail (hl.mem hx)))
    | anchor a => simp [Inl.denote] at e

theorem delim_body {d : Delim} {k : TokenKind} {c : Char} (hl : Live src d.toks) (h1 : d.opening.kind = k)
    (h2 : d.closing.kind = k) (hc : runCharOf k = some c) : textOfToks src d.body ≠ [] := by
  have hne : d.body ≠ [] := by
    intro hb
    unfold Delim.toks at hl
    rw [hb] at hl
    have := hl.pair (h1.trans h2.symm)
    rw [h1, hc] at this
    simp at this
  exact live_text (hl.tail.left) hne

theorem kind_of_len {k : TokenKind} {n : Nat} {t : Token} (h : (decide (t.kind = k) && decide (t.len = n)) = true) : t.kind = k := by
  simp only [Bool.and_eq_true, decide_eq_true_eq] at h
  exact h.1

theorem noEmpty_para {l : List Inl} (h : ParaOk l) (hl : Live src (paraToks l)) : NoEmptyStyle (paraDenote src l) := by
  obtain ⟨h1, -, -⟩ := h
  have hstrike : ∀ {d : Delim}, Live src d.toks → isTilde2 d.opening = true → isTilde2 d.closing = true →
      textOfToks src d.body ≠ [] := fun hd a b => delim_body hd (kind_of_len a) (kind_of_len b) rfl
  have hcode : ∀ {d : Delim}, Live src d.toks → isBacktick1 d.opening = true → isBacktick1 d.closing = true →
      textOfToks src d.body ≠ [] := fun hd a b => delim_body hd (kind_of_len a) (kind_of_len b) rfl
  have hemph : ∀ {d : Delim}, Live src d.toks → isStar1 d.opening = true → isStar1 d.closing = true →
      textOfToks src d.body ≠ [] := fun hd a b => delim_body hd (kind_of_len a) (kind_of_len b) rfl
  have hall : ∀ y ∈ paraDenote src l, (y ≠ .bold [] ∧ y ≠ .emphasis [] ∧ y ≠ .strikethrough [] ∧ y ≠ .codeSpan []) ∧
      ∀ b, y = .bold b → BoldNode.strikethrough [] ∉ b := by
    intro y hy
    obtain ⟨x, hx, rfl⟩ := List.mem_map.1 hy
    have hlx := hl.mem hx
    have hok := h1 x hx
    cases x with
    | text ts => simp [Inl.denote]
    | anchor a => simp [Inl.denote]
    | delim d =>
      rcases hok with ⟨hn, o, c⟩ | ⟨hn, o, c⟩ | ⟨hn, o, c⟩ | ⟨hn, o, c⟩
      · simp [Inl.denote, hn, hstrike hlx o c]
      · simp [Inl.denote, hn]
      · simp [Inl.denote, hn, hcode hlx o c]
      · simp [Inl.denote, hn, hemph hlx o c]
    | bold o i c =>
      obtain ⟨a1, a2, a3, a4⟩ := hok
      refine ⟨?_, ?_⟩
      · simp only [Inl.denote, ne_eq, ParagraphNode.bold.injEq, List.map_eq_nil_iff, reduceCtorEq, not_false_eq_true, and_true]
        intro e
        subst e
        have := Live.pair (a := o) (b := c) (r := []) hlx ((kind_of_len a1).trans (kind_of_len a2).symm)
        rw [kind_of_len a1] at this
        simp [runCharOf] at this
      · intro b hb
        simp only [Inl.denote, ParagraphNode.bold.injEq] at hb
        subst hb
        intro hm
        obtain ⟨z, hz, e⟩ := List.mem_map.1 hm
        have hlz : Live src z.toks := Live.mem (Live.left (Live.tail hlx)) hz
        cases z with
        | text ts => simp [BoldItem.denote] at e
        | delim d =>
          rcases a3 _ hz with ⟨hn, o, c⟩ | ⟨hn, o, c⟩
          · simp [BoldItem.denote, hn] at e; exact hstrike hlz o c e
          · simp [BoldItem.denote, hn] at e
  exact ⟨fun hm => (hall _ hm).1.1 rfl, fun hm => (hall _ hm).1.2.1 rfl, fun hm => (hall _ hm).1.2.2.1 rfl,
    fun hm => (hall _ hm).1.2.2.2 rfl, fun b hb => (hall _ hb).2 b rfl⟩

/-- The paragraphs of list items come from item texts. -/
theorem items_paras : ∀ {i : Items} {level want}, i.Ok level want → ∀ p ∈ itemsTexts (i.denote src level),
    ∃ l, ParaOk l ∧ paraToks l <:+: i.toks ∧ p = trimTrailingNewline (paraDenote src l)
  | .nil, _, _, _, p, hp => by simp [Items.denote, itemsTexts] at hp
  | .cons k m q n r, level, want, h, p, hp => by
    obtain ⟨-, -, h3, h4, h5⟩ := h
    rw [Items.denote, itemsTexts, List.mem_append] at hp
    rcases hp with hp | hp
    · have hown : p = trimTrailingNewline (paraDenote src q) → ∃ l, ParaOk l ∧
          paraToks l <:+: (Items.cons k m q n r).toks ∧ p = trimTrailingNewline (paraDenote src l) :=
        fun e => ⟨q, h3, ⟨m, n.toks ++ r.toks, by simp [Items.toks]⟩, e⟩
      cases n with
      | nil =>
        simp only [Items.kind, wrapDenote, Option.map_none, itemText, List.mem_singleton] at hp
        exact hown hp
      | cons k' m' p' n' q' =>
        simp only [Items.kind, wrapDenote, Option.map_some, itemText, List.mem_cons] at hp
        rcases hp with hp | hp
        · exact hown hp
        · obtain ⟨l, e1, ⟨a, b, e2⟩, e3⟩ := items_paras h4 p hp
          exact ⟨l, e1, ⟨m ++ (paraToks q ++ a), b ++ r.toks, by rw [Items.toks, ← e2]; simp⟩, e3⟩
    · obtain ⟨l, e1, ⟨a, b, e2⟩, e3⟩ := items_paras h5 p hp
      exact ⟨l, e1, ⟨m ++ (paraToks q ++ (n.toks ++ a)), b, by simp [Items.toks, ← e2]⟩, e3⟩

/-- The paragraphs of a block. -/
theorem block_paras {b : Block} (h : b.Ok) : ∀ p ∈ paragraphsIn (b.denote src),
    ∃ l, ParaOk l ∧ paraToks l <:+: b.toks ∧
      ((p ∉ trimmedParagraphsIn (b.denote src) ∧ p = paraDenote src l) ∨ p = trimTrailingNewline (paraDenote src l)) := by
  intro p hp
  cases b with
  | para l =>
    simp only [Block.denote, paragraphsIn, List.mem_singleton] at hp
    exact ⟨l, h, ⟨[], [], by simp [Block.toks]⟩, .inl ⟨by simp [Block.denote, trimmedParagraphsIn], hp⟩⟩
  | highlight o m i b c =>
    simp only [Block.denote, paragraphsIn, List.mem_map] at hp
    obtain ⟨x, hx, rfl⟩ := hp
    obtain ⟨b1, b2, rfl⟩ := List.append_of_mem hx
    refine ⟨x.para, (h.2.2.2.1 x hx).2, ?_, .inr rfl⟩
    exact ⟨o ++ (modToks m ++ (iconToks i ++ (b1.flatMap HPara.toks ++ x.term))), b2.flatMap HPara.toks ++ c, by
      simp [Block.toks, HPara.toks]⟩
  | list i =>
    obtain ⟨l, e1, e2, e3⟩ := items_paras h.1 p hp
    exact ⟨l, e1, e2, .inr e3⟩
  | images l => match l with
    | [] => simp [Block.denote, paragraphsIn] at hp
    | [_] => simp [Block.denote, paragraphsIn] at hp
    | _ :: _ :: _ => simp [Block.denote, paragraphsIn] at hp
  | _ => simp [Block.denote, YamdNode.newCode, paragraphsIn] at hp

/-! ### Newlines -/

theorem trimEndNl_last (s : Str) : (trimEndNl s).getLast? ≠ some '\n' := by
  unfold trimEndNl
  rw [List.getLast?_reverse]
  intro h
  have : ∀ l : Str, (l.dropWhile (· == '\n')).head? ≠ some '\n' := by
    intro l
    induction l with
    | nil => simp
    | cons c l ih =>
      rw [List.dropWhile_cons]
      split
      · exact ih
      · rename_i hc; simp only [List.head?_cons, ne_eq, Option.some.injEq]
        intro e; subst e; simp at hc
  exact this _ h

theorem trimEndNl_prefix (s : Str) : trimEndNl s <+: s := by
  have : s.reverse.dropWhile (· == '\n') <:+ s.reverse := List.dropWhile_suffix _
  obtain ⟨a, ha⟩ := this
  refine ⟨a.reverse, ?_⟩
  have := congrArg List.reverse ha
  rw [List.reverse_append, List.reverse_reverse] at this
  exact this

theorem trimNl_head (s : Str) : (trimNl s).head? ≠ some '\n' := by
  unfold trimNl
  intro h
  obtain ⟨r, hr⟩ := trimEndNl_prefix (s.dropWhile (· == '\n'))
  have : (s.dropWhile (· == '\n')).head? = some '\n' := by
    rw [← hr]; cases ht : trimEndNl (s.dropWhile (· == '\n')) with
    | nil => rw [ht] at h; simp at h
    | cons x l => rw [ht] at h; simpa using h
  exact Props.dropWhile_head this

theorem trimEndNl_idem (s : Str) : trimEndNl (trimEndNl s) = trimEndNl s := by
  unfold trimEndNl
  rw [List.reverse_reverse]
  congr 1
  generalize s.reverse = l
  induction l with
  | nil => rfl
  | cons c l ih =>
    by_cases hc : (c == '\n') = true
    · simp [hc, ih]
    · simp [hc]

theorem trimNl_idem (s : Str) : trimNl (trimNl s) = trimNl s := by
  have h : (trimNl s).dropWhile (· == '\n') = trimNl s := by
    cases ht : trimNl s with
    | nil => rfl
    | cons c l =>
      have := trimNl_head s
      rw [ht] at this
      rw [List.dropWhile_cons, if_neg]
      intro hc
      exact this (by simpa using hc)
  rw [trimNl, h, trimNl, trimEndNl_idem]

theorem trimNl_sublist (s : Str) : (trimNl s).Sublist s :=
  (trimEndNl_prefix _).sublist.trans (List.dropWhile_sublist _)

theorem trim_last {p : Paragraph} {t : Str} (h : (trimTrailingNewline p).getLast? = some (.text t))
    (hp : NoTwoAdjacent isTextP p) : t.getLast? ≠ some '\n' := by
  rcases trim_cases p with e | ⟨q, u, rfl, ⟨ht, e⟩ | ⟨ht, e⟩⟩
  · rw [e] at h
    obtain ⟨q, rfl⟩ := List.getLast?_eq_some_iff.1 h
    have e2 : trimTrailingNewline (q ++ [.text t]) = if trimEndNl t = [] then q else q ++ [.text (trimEndNl t)] := by
      simp [trimTrailingNewline]
    rw [e2] at e
    split at e
    · have := congrArg List.length e; simp at this
    · simp only [List.append_cancel_left_eq, List.cons.injEq, ParagraphNode.text.injEq, and_true] at e
      rw [← e]; exact trimEndNl_last t
  · rw [e] at h
    obtain ⟨q', rfl⟩ := List.getLast?_eq_some_iff.1 h
    exact absurd ⟨rfl, rfl⟩ (hp q' (.text t) (.text u) [] (by simp))
  · rw [e] at h
    simp only [List.getLast?_append, List.getLast?_singleton, Option.some_or, Option.some.injEq, ParagraphNode.text.injEq] at h
    rw [← h]; exact trimEndNl_last u

/-! ### Strings -/

theorem text_append {a b : List Token} : textOfToks src (a ++ b) = textOfToks src a ++ textOfToks src b := by
  simp [textOfToks]

theorem text_cons {a} {b : List Token} : textOfToks src (a :: b) = sliceD src a ++ textOfToks src b := by
  simp [textOfToks]

theorem text_flatMap {α : Type} {f : α → List Token} {l : List α} :
    textOfToks src (l.flatMap f) = l.flatMap (fun x => textOfToks src (f x)) := by
  induction l with
  | nil => rfl
  | cons x l ih => rw [List.flatMap_cons, List.flatMap_cons, text_append, ih]

theorem flatMap_sublist {α β : Type} {f g : α → List β} {l : List α} (h : ∀ x ∈ l, (f x).Sublist (g x)) :
    (l.flatMap f).Sublist (l.flatMap g) := by
  induction l with
  | nil => exact List.Sublist.refl _
  | cons x l ih =>
    rw [List.flatMap_cons, List.flatMap_cons]
    exact (h x (by simp)).append (ih (fun y hy => h y (by simp [hy])))

theorem delim_sub (d : Delim) : (textOfToks src d.body).Sublist (textOfToks src d.toks) := by
  rw [Delim.toks, text_cons, text_append]
  exact (List.sublist_append_left _ _).trans (List.sublist_append_right _ _)

theorem boldItem_sub (x : BoldItem) : (stringB (x.denote src)).Sublist (textOfToks src x.toks) := by
  cases x with
  | text ts => exact List.Sublist.refl _
  | delim d =>
    have : stringB (BoldItem.denote src (.delim d)) = textOfToks src d.body := by
      simp only [BoldItem.denote]; split <;> rfl
    rw [this]; exact delim_sub d

theorem link_sub (l : Link) : (textOfToks src l.title.body ++ textOfToks src l.dest.body).Sublist (textOfToks src l.toks) := by
  rw [Link.toks, text_append]
  exact (delim_sub _).append (delim_sub _)

theorem inl_sub (x : Inl) : (stringP (x.denote src)).Sublist (textOfToks src x.toks) := by
  cases x with
  | text ts => exact List.Sublist.refl _
  | delim d =>
    have : stringP (Inl.denote src (.delim d)) = textOfToks src d.body := by
      simp only [Inl.denote]; split <;> rfl
    rw [this]; exact delim_sub d
  | bold o i c =>
    simp only [Inl.denote, stringP, Inl.toks, text_cons, text_append, text_flatMap, List.flatMap_map]
    exact ((flatMap_sublist (fun x _ => boldItem_sub x)).trans (List.sublist_append_left _ _)).trans
      (List.sublist_append_right _ _)
  | anchor l => exact link_sub l

theorem para_sub (l : List Inl) : (paragraphString (paraDenote src l)).Sublist (textOfToks src (paraToks l)) := by
  rw [paragraphString, paraDenote, List.flatMap_map, paraToks, text_flatMap]
  exact flatMap_sublist (fun x _ => inl_sub x)

theorem trim_sub (p : Paragraph) : (paragraphString (trimTrailingNewline p)).Sublist (paragraphString p) := by
  rcases trim_cases p with e | ⟨q, u, rfl, ⟨ht, e⟩ | ⟨ht, e⟩⟩
  · rw [e]; exact List.Sublist.refl _
  · rw [e]; simp [paragraphString]
  · rw [e]; simp only [paragraphString, List.flatMap_append, List.flatMap_cons, List.flatMap_nil, List.append_nil, stringP]
    exact (List.Sublist.refl _).append (trimEndNl_prefix u).sublist

theorem items_sub : ∀ (i : Items) (level : Nat),
    ((itemsTexts (i.denote src level)).flatMap paragraphString).Sublist (textOfToks src i.toks)
  | .nil, _ => by simp [Items.denote, itemsTexts]
  | .cons k m p n r, level => by
    rw [Items.denote, itemsTexts, List.flatMap_append, Items.toks, text_append, text_append, text_append]
    have hp := (trim_sub (paraDenote src p)).trans (para_sub (src := src) p)
    have hr := items_sub r level
    have hn : ((itemText (.mk (trimTrailingNewline (paraDenote src p))
        (wrapDenote n.kind (level + 1) (n.denote src (level + 1))))).flatMap paragraphString).Sublist
        (textOfToks src (paraToks p) ++ textOfToks src n.toks) := by
      cases n with
      | nil => simp only [Items.kind, wrapDenote, Option.map_none, itemText, List.flatMap_cons, List.flatMap_nil, List.append_nil]
               exact hp.trans (List.sublist_append_left _ _)
      | cons k' m' p' n' q' =>
        simp only [Items.kind, wrapDenote, Option.map_some, itemText, List.flatMap_cons]
        exact hp.append (items_sub (.cons k' m' p' n' q') (level + 1))
    refine List.Sublist.trans ?_ (List.sublist_append_right _ _)
    rw [← List.append_assoc]
    exact hn.append hr

theorem mod_sub (m : Option Mod) : ((modDenote src m).getD []).Sublist (textOfToks src (modToks m)) := by
  cases m with
  | none => exact List.nil_sublist _
  | some m => simp only [modDenote, modToks, Option.getD_some, text_append]; exact List.sublist_append_left _ _

theorem icon_sub (m : Option IconLine) : ((iconDenote src m).getD []).Sublist (textOfToks src (iconToks m)) := by
  cases m with
  | none => exact List.nil_sublist _
  | some m =>
    simp only [iconDenote, iconToks, Option.getD_some, text_append]
    exact (List.sublist_append_left _ _).trans (List.sublist_append_right _ _)

theorem img_sub (i : Img) : (textOfToks src i.link.title.body ++ textOfToks src i.link.dest.body).Sublist (textOfToks src i.toks) := by
  rw [Img.toks, text_cons, text_append]
  exact ((link_sub _).trans (List.sublist_append_left _ _)).trans (List.sublist_append_right _ _)

theorem block_sub (b : Block) : (stringN (b.denote src)).Sublist (textOfToks src b.toks) := by
  cases b with
  | para l => simpa [Block.denote, stringN, Block.toks] using para_sub l
  | heading m b =>
    simp only [Block.denote, stringN, Block.toks, text_append, text_flatMap, List.flatMap_map]
    refine List.Sublist.trans (flatMap_sublist (fun x _ => ?_)) (List.sublist_append_right _ _)
    cases x with
    | text ts => exact List.Sublist.refl _
    | anchor l => exact link_sub l
  | images l =>
    match l with
    | [] => simp [Block.denote, stringN]
    | [i] =>
      simp only [Block.denote, stringN, Img.denote, Block.toks, List.flatMap_cons, List.flatMap_nil, List.append_nil]
      exact img_sub i
    | i :: j :: l =>
      simp only [Block.denote, stringN, Block.toks, text_flatMap, List.flatMap_map]
      exact flatMap_sublist (fun x _ => img_sub x)
  | code o m b c =>
    simp only [Block.denote, YamdNode.newCode, stringN, Block.toks, text_append]
    refine List.Sublist.trans ((mod_sub m).append ?_) (List.sublist_append_right _ _)
    exact ((trimEndNl_prefix _).sublist.trans (trimEndNl_prefix _).sublist).trans (List.sublist_append_left _ _)
  | list i => exact items_sub i 0
  | highlight o m i b c =>
    simp only [Block.denote, stringN, Block.toks, text_append, text_flatMap, List.flatMap_map]
    refine List.Sublist.trans ?_ (List.sublist_append_right _ _)
    rw [List.append_assoc]
    refine (mod_sub m).append ((icon_sub i).append (List.Sublist.trans (flatMap_sublist (fun x _ => ?_)) (List.sublist_append_left _ _)))
    rw [HPara.toks, text_append]
    exact ((trim_sub _).trans (para_sub _)).trans (List.sublist_append_right _ _)
  | thematic t => simp [Block.denote, stringN]
  | embed o l p r c =>
    simp only [Block.denote, stringN, Block.toks, text_append, text_cons]
    refine List.Sublist.trans ?_ (List.sublist_append_right _ _)
    refine (List.Sublist.refl _).append (List.Sublist.trans ?_ (List.sublist_append_right _ _))
    exact List.sublist_append_left _ _

theorem doc_sub : ∀ d : Doc, (stringsN (d.denote src)).Sublist (textOfToks src d.toks)
  | .nil => by simp [Doc.denote, stringsN]
  | .term t d => by
    rw [Doc.denote, Doc.toks, text_cons]
    exact (doc_sub d).trans (List.sublist_append_right _ _)
  | .block b d => by
    rw [Doc.denote, Doc.toks, stringsN, text_append]
    exact (block_sub b).append (doc_sub d)
  | .coll o m i s c d => by
    simp only [Doc.denote, Doc.toks, stringsN, stringN, text_append]
    refine List.Sublist.trans ?_ (List.sublist_append_right _ _)
    rw [List.append_assoc]
    refine (mod_sub m).append ((doc_sub i).append (List.Sublist.trans ?_ (List.sublist_append_right _ _)))
    exact (doc_sub d).trans (List.sublist_append_right _ _)

end

theorem unescape_sub : ∀ s : Str, (unescape s).Sublist s
  | [] => List.Sublist.refl _
  | [c] => by unfold unescape; split <;> simp
  | c :: d :: r => by
    unfold unescape
    split
    · exact ((unescape_sub r).cons_cons d).trans (List.sublist_cons_self _ _)
    · exact (unescape_sub (d :: r)).cons_cons c

end Yamd.Ref
