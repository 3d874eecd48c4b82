import Verif.Proofs.Segs
import Verif.Proofs.Slices

/-!
# Every op stream of `parse` has a segmentation
-/

namespace Yamd.Ref

open Yamd Yamd.Spec

/-- Tokens as the lexer lays them out: a gap exactly before escaped tokens. -/
def Adj : List Token → Prop
  | [] => True
  | [_] => True
  | a :: b :: r => b.start = a.stop + (if b.escaped then 1 else 0) ∧ Adj (b :: r)

theorem tiled_adj : ∀ {ts off stop}, Tiled off ts stop → Adj ts
  | [], _, _, _ => trivial
  | [_], _, _, _ => trivial
  | _ :: _ :: _, _, _, h => ⟨h.2.1, tiled_adj h.2⟩

theorem Adj.tail {a r} (h : Adj (a :: r)) : Adj r := by
  cases r with
  | nil => trivial
  | cons b r => exact h.2

theorem Adj.right : ∀ {a b}, Adj (a ++ b) → Adj b
  | [], _, h => h
  | _ :: a, _, h => Adj.right (a := a) h.tail

theorem Adj.left : ∀ {a b}, Adj (a ++ b) → Adj a
  | [], _, _ => trivial
  | [_], _, _ => trivial
  | _ :: y :: r, b, h => ⟨h.1, Adj.left (a := y :: r) (b := b) h.2⟩

theorem adj_noGap : ∀ {ts}, Adj ts → (∀ t ∈ ts.tail, t.escaped = false) → NoGap ts
  | [], _, _ => trivial
  | [_], _, _ => trivial
  | a :: b :: r, h, he => by
    refine ⟨?_, adj_noGap h.2 (fun t ht => he t (by simp at ht ⊢; exact .inr ht))⟩
    have := h.1
    rw [he b (by simp)] at this
    simpa using this.symm

theorem adj_gap : ∀ {ts}, Adj ts → ¬ NoGap ts → ∃ t ∈ ts.tail, t.escaped = true := by
  intro ts h hn
  apply Classical.byContradiction
  intro hc
  refine hn (adj_noGap h ?_)
  intro t ht
  cases he : t.escaped with
  | false => rfl
  | true => exact absurd ⟨t, ht, he⟩ hc

/-- The content of a run of tokens reads these tokens. -/
theorem content_reads {input : Str} {own : List Token} (hg : Good input own) (ha : Adj own) :
    Reads input (content input own) own := by
  cases own with
  | nil => exact ⟨rfl, trivial, rfl, rfl⟩
  | cons t r =>
    by_cases hn : NoGap (t :: r)
    · have e : content input (t :: r) = .Span t.start (Content.lastStop t r) := by
        simp only [content]
        rw [noGap_iff.1 hn]; simp
      rw [e]
      exact ⟨span_asStr (slice_tokens hg hn), hn, rfl, lastStop_getLast t r⟩
    · obtain ⟨u, hu, he⟩ := adj_gap ha hn
      have e : content input (t :: r) = .Materialized (textOfToks input (t :: r)) := by
        simp only [content]
        have h1 : Content.contiguous (t :: r) = false := by
          cases hc : Content.contiguous (t :: r) with
          | false => rfl
          | true => exact absurd (noGap_iff.2 hc) hn
        have h2 : (t :: r).any (·.escaped) = true := by
          rw [List.any_eq_true]; exact ⟨u, by simp at hu ⊢; exact .inr hu, he⟩
        rw [h1, h2]; rfl
      rw [e]
      exact ⟨rfl, t, r, u, rfl, hu, he⟩

/-! ### Flipped tokens -/

theorem Flips.split : ∀ {b c a}, Flips a (b ++ c) → ∃ a1 a2, a = a1 ++ a2 ∧ Flips a1 b ∧ Flips a2 c
  | [], c, a, h => ⟨[], a, rfl, .nil, h⟩
  | x :: b, c, a, h => by
    cases h with
    | cons h1 h2 =>
      obtain ⟨a1, a2, rfl, h3, h4⟩ := Flips.split h2
      exact ⟨_ :: a1, a2, rfl, .cons h1 h3, h4⟩

theorem FlipRel.fields {a b : Token} (h : FlipRel a b) :
    b.start = a.start ∧ b.stop = a.stop ∧ b.escaped = a.escaped ∧ b.position = a.position := by
  rcases h with rfl | ⟨_, rfl⟩ <;> exact ⟨rfl, rfl, rfl, rfl⟩

theorem Flips.lastStop {a b : List Token} (h : Flips a b) : ∀ {x y}, FlipRel x y →
    Content.lastStop y b = Content.lastStop x a := by
  induction h with
  | nil => intro x y h; exact h.fields.2.1
  | cons h _ ih => intro x y _; exact ih h

theorem Flips.contiguous {a b : List Token} (h : Flips a b) : Content.contiguous b = Content.contiguous a := by
  induction h with
  | nil => rfl
  | cons h h2 ih =>
    cases h2 with
    | nil => rfl
    | cons h3 h4 => simp only [Content.contiguous, h.fields.2.1, h3.fields.1, ih]

theorem Flips.escaped {a b : List Token} (h : Flips a b) : b.any (·.escaped) = a.any (·.escaped) := by
  induction h with
  | nil => rfl
  | cons h _ ih => simp only [List.any_cons, h.fields.2.2.1, ih]

theorem Flips.text {src} {a b : List Token} (h : Flips a b) : textOfToks src b = textOfToks src a := by
  induction h with
  | nil => rfl
  | cons h _ ih =>
    unfold textOfToks at ih ⊢
    rw [List.flatMap_cons, List.flatMap_cons, ih, h.slice_eq]

theorem Flips.content_eq {src} {a b : List Token} (h : Flips a b) : content src b = content src a := by
  cases h with
  | nil => rfl
  | cons h1 h2 =>
    have h := Flips.cons h1 h2
    simp only [content, h.escaped, h.contiguous, h.text, h1.fields.1, h2.lastStop h1]

theorem Flips.noTerm {a b : List Token} (h : Flips a b) (hb : NoTerm b) : NoTerm a := by
  induction h with
  | nil => exact .nil
  | cons h h2 ih =>
    refine .cons ?_ (ih fun t ht => hb t (by simp [ht]))
    rcases h with rfl | ⟨hk, rfl⟩
    · exact hb _ (by simp)
    · rw [hk]; decide

theorem FlipRel.back {a b : Token} (h : FlipRel a b) (hk : b.kind ≠ .Literal) : a = b := by
  rcases h with rfl | ⟨_, rfl⟩
  · rfl
  · exact absurd rfl hk

/-- Distribute the original tokens over the ops. -/
theorem segs_original : ∀ {segs : List Seg} {ts : List Token}, Flips ts (segs.flatMap Seg.toks) →
    ∃ ss : List (List Token × List Token), ss.length = segs.length ∧
      ss.flatMap (fun s => s.1 ++ s.2) = ts ∧
      ∀ x ∈ segs.zip ss, Flips x.2.1 x.1.skip ∧ Flips x.2.2 x.1.own
  | [], ts, h => by
    cases h
    exact ⟨[], rfl, rfl, by simp⟩
  | s :: segs, ts, h => by
    rw [List.flatMap_cons, Seg.toks] at h
    obtain ⟨a1, a2, rfl, h1, h2⟩ := h.split
    obtain ⟨a3, a4, rfl, h3, h4⟩ := h1.split
    obtain ⟨ss, e1, e2, e3⟩ := segs_original h2
    refine ⟨(a3, a4) :: ss, by simp [e1], by simp [e2], ?_⟩
    intro x hx
    rw [List.zip_cons_cons, List.mem_cons] at hx
    rcases hx with rfl | hx
    · exact ⟨h3, h4⟩
    · exact e3 x hx

/-! ### What `walk` gives -/

theorem walk_nested : ∀ {segs : List Seg} {st}, walk st segs →
    nested allowedUnder mayHoldValue st (segs.map Seg.kind) = true
  | [], st, h => by
    have : st = [] := h
    subst this; rfl
  | s :: r, st, h => by
    obtain ⟨k, skip, own⟩ := s
    obtain ⟨-, h⟩ := h
    cases k with
    | Start n =>
      obtain ⟨h1, -, h3⟩ := h
      simp only [List.map_cons, nested, h1, Bool.true_and]
      exact walk_nested h3
    | Value =>
      obtain ⟨p, q, rfl, h1, -, h3⟩ := h
      simp only [List.map_cons, nested, h1, Bool.true_and]
      exact walk_nested h3
    | End n =>
      obtain ⟨q, rfl, -, h3⟩ := h
      simp only [List.map_cons, nested, decide_true, Bool.true_and]
      exact walk_nested h3

theorem walk_inline : ∀ {segs : List Seg} {st}, walk st segs →
    ∀ x ∈ (openAt st (segs.map Seg.kind)).zip segs, x.1.any isInlineNode = true → NoTerm x.2.own
  | [], st, _, x, hx => by simp at hx
  | s :: r, st, h, x, hx => by
    obtain ⟨k, skip, own⟩ := s
    obtain ⟨-, h⟩ := h
    cases k with
    | Start n =>
      obtain ⟨-, h2, h3⟩ := h
      simp only [List.map_cons, openAt, List.zip_cons_cons, List.mem_cons] at hx
      rcases hx with rfl | hx
      · exact h2
      · exact walk_inline h3 x hx
    | Value =>
      obtain ⟨p, q, rfl, h1, h2, h3⟩ := h
      simp only [List.map_cons, openAt, List.zip_cons_cons, List.mem_cons] at hx
      rcases hx with rfl | hx
      · exact h2
      · exact walk_inline h3 x hx
    | End n =>
      obtain ⟨q, rfl, h2, h3⟩ := h
      simp only [List.map_cons, openAt, List.zip_cons_cons, List.mem_cons] at hx
      rcases hx with rfl | hx
      · exact h2
      · exact walk_inline h3 x hx

theorem walk_skip : ∀ {segs : List Seg} {st}, walk st segs → ∀ s ∈ segs, skipOk s
  | [], st, _, x, hx => by cases hx
  | s :: r, st, h, x, hx => by
    obtain ⟨k, skip, own⟩ := s
    obtain ⟨h0, h⟩ := h
    rcases List.mem_cons.1 hx with hx | hx'
    · rw [hx]; exact h0
    · cases k with
      | Start n => exact walk_skip h.2.2 x hx'
      | Value => obtain ⟨p, q, rfl, h1, h2, h3⟩ := h; exact walk_skip h3 x hx'
      | End n => obtain ⟨q, rfl, h2, h3⟩ := h; exact walk_skip h3 x hx'

theorem top_flips (ts : List Token) : Flips ts (topB ts).toks := by
  unfold topB Top.toks
  cases hd : delimB isThreeDashes isThreeDashes .Metadata [] ts with
  | none =>
    have := docB_flips [] ts
    rw [docB_nil] at this
    simpa using this
  | some x =>
    obtain ⟨d, r⟩ := x
    have := docB_flips [] r
    rw [docB_nil, List.append_nil] at this
    rw [delimB_toks hd]
    exact (Flips.refl _).append this

theorem adj_tokens (input : Str) : Adj (tokens input) := tiled_adj (place_tiled _ _ _ _)

theorem adj_mem {ss : List (List Token × List Token)} (h : Adj (ss.flatMap (fun s => s.1 ++ s.2))) :
    ∀ s ∈ ss, Adj s.2 := by
  intro s hs
  obtain ⟨a, b, rfl⟩ := List.append_of_mem hs
  rw [List.flatMap_append, List.flatMap_cons] at h
  exact h.right.left.right

theorem zip_map_left {α β γ : Type} (f : α → β) (a : List α) (b : List γ) :
    (a.map f).zip b = (a.zip b).map (fun x => (f x.1, x.2)) := by
  rw [List.zip_map_left]; rfl

theorem zip_triple {α β γ : Type} : ∀ {o : List α} {ss : List β} {segs : List γ},
    ss.length = segs.length → ∀ x ∈ o.zip ss, ∃ g, (x.1, g) ∈ o.zip segs ∧ (g, x.2) ∈ segs.zip ss
  | [], _, _, _, x, hx => by simp at hx
  | _ :: _, [], _, _, x, hx => by simp at hx
  | _ :: _, _ :: _, [], h, x, hx => by simp at h
  | a :: o, b :: ss, c :: segs, h, x, hx => by
    rw [List.zip_cons_cons, List.mem_cons] at hx
    rcases hx with rfl | hx
    · exact ⟨c, by simp⟩
    · obtain ⟨g, h1, h2⟩ := zip_triple (by simpa using h) x hx
      exact ⟨g, by simp [h1], by simp [h2]⟩

/-- The tokens of the source can be distributed over the ops; the stream is grammatical; nothing inline
reads a blank line. -/
theorem segmentation_of {input : Str} {segs : List Seg} (hw : walk [] segs)
    (hf : Flips (tokens input) (segs.flatMap Seg.toks)) :
    ∃ ss, Segmentation input (tokens input) (segs.map (Seg.op input)) ss ∧
      Grammatical (segs.map (Seg.op input)) ∧
      (∀ x ∈ (openAt [] ((segs.map (Seg.op input)).map Op.kind)).zip ss, x.1.any isInlineNode = true →
        ∀ t ∈ x.2.2, t.kind ≠ .Terminator) ∧
      ∀ x ∈ segs.zip ss, Flips x.2.1 x.1.skip ∧ Flips x.2.2 x.1.own := by
  obtain ⟨ss, e1, e2, e3⟩ := segs_original hf
  have hk : (segs.map (Seg.op input)).map Op.kind = segs.map Seg.kind := by
    rw [List.map_map]; rfl
  refine ⟨ss, ⟨by simp [e1], e2, ?_, ?_⟩, ?_, ?_, e3⟩
  · intro x hx
    rw [zip_map_left, List.mem_map] at hx
    obtain ⟨⟨g, s⟩, hy, rfl⟩ := hx
    have hm : s ∈ ss := (List.of_mem_zip hy).2
    show Reads input (content input g.own) s.2
    rw [(e3 _ hy).2.content_eq]
    have hg := good_tokens input
    have ha := adj_tokens input
    rw [← e2] at hg ha
    refine content_reads ?_ (adj_mem ha s hm)
    intro t ht
    exact hg t (List.mem_flatMap.2 ⟨s, hm, by simp [ht]⟩)
  · intro x hx
    rw [zip_map_left, List.mem_map] at hx
    obtain ⟨⟨g, s⟩, hy, rfl⟩ := hx
    obtain ⟨f1, f2⟩ := e3 _ hy
    simp only at f1 f2
    rcases walk_skip hw g (List.of_mem_zip hy).1 with h0 | ⟨e, c, r, h1, h2, h3, h4, h5, h6⟩
    · rw [h0] at f1
      left
      cases hs : s.1 with
      | nil => rfl
      | cons a b => rw [hs] at f1; cases f1
    · right
      rw [h1] at f1
      rw [h4] at f2
      revert f1 f2
      generalize s.1 = s1
      generalize s.2 = s2
      intro f1 f2
      cases f1 with
      | cons f3 f4 =>
        cases f4
        cases f2 with
        | cons f5 f6 =>
          have := f3.back (by rw [h2]; decide)
          subst this
          have := f5.back (by rw [h5]; decide)
          subst this
          exact ⟨_, _, _, rfl, h2, h3, rfl, h5, h6⟩
  · unfold Grammatical
    rw [hk]
    exact walk_nested hw
  · rw [hk]
    intro x hx hi
    obtain ⟨g, h1, h2⟩ := zip_triple e1 x hx
    have := walk_inline hw _ h1 hi
    exact (e3 _ h2).2.noTerm this

theorem parse_segmentation (input : Str) :
    ∃ ops segs, parse input = .ok ops ∧ Segmentation input (tokens input) ops segs ∧
      Grammatical ops ∧
      ∀ x ∈ (openAt [] (ops.map Op.kind)).zip segs, x.1.any isInlineNode = true →
        ∀ t ∈ x.2.2, t.kind ≠ .Terminator := by
  have hp := parse_eq input
  rw [Top.ops_segs] at hp
  have hf := top_flips (tokens input)
  rw [← Top.toks_segs] at hf
  obtain ⟨ss, h1, h2, h3, -⟩ := segmentation_of (walk_top (tokens input)) hf
  exact ⟨_, ss, hp, h1, h2, h3⟩

end Yamd.Ref
