import Verif.Proofs.Steady
import Verif.Proofs.Round.ItemToks

/-!
# What is read can be written: the texts of list items have no item lines
-/

namespace Yamd.Ref

open Yamd Yamd.Spec Yamd.ToYamd Yamd.Round

section
variable {src : Str}

theorem run_slice {t : Token} {c : Char} (h : TokOk src t) (hk : runCharOf t.kind = some c) :
    sliceD src t = List.replicate t.len c := by
  obtain ⟨s, e1, e2, e3⟩ := h.lexed (by intro e; rw [e] at hk; simp [runCharOf] at hk)
  have e4 : blen s = s.length := run_len (p := ⟨t.escaped, t.kind, s⟩) e2 hk
  rw [kindText_run hk] at e2
  rw [e1, e3, e4]
  exact List.eq_replicate_of_mem e2.2

/-- A token that starts with a marker is a run of markers. -/
theorem kind_bullet {k : TokenKind} {e : Bool} {s : Str} {m : Char} (h : KindText k e s) (hk : k ≠ .Literal)
    (hh : s.head? = some m) (hm : isMarker m) : k = (if m = '-' then .Minus else .Plus) := by
  have hmem : m ∈ s := List.mem_of_mem_head? hh
  cases k with
  | Literal => exact absurd rfl hk
  | Eol =>
    rcases h with rfl | rfl <;> simp at hh <;> subst hh <;> rcases hm with e | e <;> revert e <;> decide
  | Terminator =>
    obtain ⟨a, b, ha, -, rfl⟩ := h
    rcases ha with rfl | rfl <;> simp at hh <;> subst hh <;> rcases hm with e | e <;> revert e <;> decide
  | _ =>
    simp only [KindText, runCharOf, fixedText, Option.some.injEq] at h
    first
      | (have := h.2 m hmem
         subst this
         first
           | rfl
           | (rcases hm with e | e <;> revert e <;> decide))
      | (subst h
         simp at hh
         subst hh
         rcases hm with e | e <;> revert e <;> decide)

theorem bullet_kind_of {t : Token} {m : Char} (h : TokOk src t) (hm : isMarker m) (hh : (sliceD src t).head? = some m) :
    t.kind = (if m = '-' then .Minus else .Plus) := by
  have hk := h.bullet (by rcases hm with rfl | rfl; exacts [.inl hh, .inr hh])
  obtain ⟨s, e1, e2, -⟩ := h.lexed hk
  exact kind_bullet e2 hk (by rw [← e1]; exact hh) hm

theorem rep_eq {c : Char} : ∀ {a b : Nat} {x y : Str}, List.replicate a c ++ x = List.replicate b c ++ y → x.head? ≠ some c →
    y.head? ≠ some c → a = b ∧ x = y
  | 0, 0, _, _, h, _, _ => ⟨rfl, by simpa using h⟩
  | 0, b + 1, x, y, h, hx, _ => by
    rw [List.replicate_succ] at h
    simp only [List.replicate_zero, List.nil_append, List.cons_append] at h
    rw [h] at hx; simp at hx
  | a + 1, 0, x, y, h, _, hy => by
    rw [List.replicate_succ] at h
    simp only [List.replicate_zero, List.nil_append, List.cons_append] at h
    rw [← h] at hy; simp at hy
  | a + 1, b + 1, x, y, h, hx, hy => by
    rw [List.replicate_succ, List.replicate_succ, List.cons_append, List.cons_append, List.cons.injEq] at h
    have := rep_eq h.2 hx hy
    exact ⟨by rw [this.1], this.2⟩

/-- After a run of a character there is another one. -/
theorem run_next {t : Token} {r : List Token} {c : Char} (h : Tidy src (t :: r)) (hk : runCharOf t.kind = some c)
    (hc : ∀ u, TokOk src u → (sliceD src u).head? = some c → u.kind = t.kind) : (textOfToks src r).head? ≠ some c := by
  cases r with
  | nil => simp [textOfToks]
  | cons u r =>
    rw [text_head h.tail.head]
    intro e
    have := h.2.1.run (hc u h.tail.head e).symm
    rw [hk] at this; cases this

theorem space_next {t : Token} {r : List Token} (h : Tidy src (t :: r)) (hk : t.kind = .Space) :
    (textOfToks src r).head? ≠ some ' ' :=
  run_next h (by rw [hk]; rfl) (fun u hu e => by rw [hk]; exact hu.space e)

theorem space_start {b : List Token} {x : Str} {n : Nat} (h : Tidy src b) (e : textOfToks src b = List.replicate (n + 1) ' ' ++ x)
    (hx : x.head? ≠ some ' ') : ∃ s r, b = s :: r ∧ s.kind = .Space ∧ s.len = n + 1 ∧ textOfToks src r = x := by
  cases b with
  | nil => simp [textOfToks, List.replicate_succ] at e
  | cons s r =>
    have hk : s.kind = .Space := h.head.space (by rw [← text_head (b := r) h.head, e, List.replicate_succ]; rfl)
    rw [text_cons, run_slice h.head (c := ' ') (by rw [hk]; rfl)] at e
    have := rep_eq e (space_next h hk) hx
    exact ⟨s, r, rfl, hk, this.1, this.2⟩

/-- The tokens of a marker and the space after it. -/
theorem mark_part {b : List Token} {m : Char} {y : Str} (h : Tidy src b) (e : textOfToks src b = m :: ' ' :: y) (hm : isMarker m)
    (hy : y.head? ≠ some ' ') : ∃ a s r, b = a :: s :: r ∧ a.kind = (if m = '-' then .Minus else .Plus) ∧ a.len = 1 ∧
      s.kind = .Space ∧ s.len = 1 := by
  have hne := marker_ne_nl hm
  cases b with
  | nil => simp [textOfToks] at e
  | cons a r =>
    have hk := bullet_kind_of h.head hm (by rw [← text_head (b := r) h.head, e]; rfl)
    have hr : runCharOf a.kind = some m := by rw [hk]; rcases hm with rfl | rfl <;> rfl
    have e' := e
    rw [text_cons, run_slice h.head hr] at e'
    have h1 := run_next h hr (fun u hu e => by rw [hk]; exact bullet_kind_of hu hm e)
    have := rep_eq (a := a.len) (b := 1) (y := ' ' :: y) (by simpa [List.replicate_succ] using e') h1 (by simp [Ne.symm hne.2.1])
    obtain ⟨s, r', rfl, h2, h3, -⟩ := space_start (n := 0) h.tail (by rw [this.2]; rfl) hy
    exact ⟨a, s, r', rfl, hk, this.1, h2, h3⟩

theorem bulletOf_kind {a : Token} {m : Char} (hm : isMarker m) (hk : a.kind = (if m = '-' then .Minus else .Plus)) (hl : a.len = 1) :
    ∃ other, bulletOf other a ∧ ∀ k : ListKind, m = markOf k → other = k.node := by
  rcases hm with rfl | rfl
  · exact ⟨.UnorderedList, .inl ⟨rfl, hk, hl⟩, fun k h => by cases k with
      | Unordered => rfl
      | Ordered => exact absurd h (by decide)⟩
  · exact ⟨.OrderedList, .inr ⟨rfl, hk, hl⟩, fun k h => by cases k with
      | Ordered => rfl
      | Unordered => exact absurd h (by decide)⟩

/-- The tokens of the text of an item have no item lines. -/
theorem tidy_noItem {b rest : List Token} {level : Nat} {k : ListKind} {esc : List Char} (h : Tidy src b)
    (hu : Unstopped [.ListBoundary level k] b rest) : noItemLine ⟨level, markOf k, esc⟩ (textOfToks src b) = true := by
  rw [noItemLine_iff]
  intro u r e
  cases hst : startsItem ⟨level, markOf k, esc⟩ r with
  | false => rfl
  | true =>
    exfalso
    obtain ⟨n, m, y, rfl, hm, h1, h2, -, h3⟩ := startsItem_iff.1 hst
    simp only at h1 h2
    have hne := marker_ne_nl hm
    obtain ⟨b1, t, b2, u', v, rfl, e2, -, e4⟩ := flat_split e
    have hhead : (List.replicate n ' ' ++ m :: ' ' :: y).head? ≠ some '\n' := by
      cases n with
      | zero => simp [hne.1]
      | succ n => simp [List.replicate_succ]
    have hv : v = [] ∧ (t.kind = .Eol ∨ t.kind = .Terminator) := by
      rcases nl_tok (h.mem (by simp)) e2 with ⟨hk, -, rfl⟩ | ⟨hk, rfl | rfl⟩
      · exact ⟨rfl, .inl hk⟩
      · exact ⟨rfl, .inr hk⟩
      · rw [e4] at hhead; simp at hhead
    obtain ⟨rfl, hk⟩ := hv
    rw [List.nil_append] at e4
    have hu2 : Unstopped [.ListBoundary level k] b2 rest := Unstopped.right (a := b1 ++ [t]) (by simpa using hu)
    have ht2 : Tidy src b2 := h.right.tail
    have stop : ∀ w r', b2 = w :: r' → ∀ n other, n ≤ level + 1 → (n = level → other = k.node) →
        (col0 w = true → markerLine n other (w :: (r' ++ rest))) → False := by
      intro w r' e n other a1 a2 a3
      subst e
      have hcol := (Tidy.pair h).col.2 hk
      have := hu2.1
      simp only [stopAt, List.any_cons, List.any_nil, Bool.or_false] at this
      rw [list_stop.2 ⟨n, other, a1, a2, a3 hcol⟩] at this
      cases this
    cases n with
    | zero =>
      obtain ⟨a, s, r', rfl, a1, a2, a3, a4⟩ := mark_part ht2 (by simpa using e4.symm) hm h3
      obtain ⟨other, o1, o2⟩ := bulletOf_kind hm a1 a2
      exact stop a _ rfl 0 other h1 (fun e => o2 k (h2 e))
        (fun hc => .inl ⟨rfl, a, s, _, rfl, atColumn0_iff.1 hc, o1, a3, a4⟩)
    | succ n =>
      obtain ⟨i, r', rfl, i1, i2, i3⟩ := space_start ht2 e4.symm (by simp [hne.2.1])
      obtain ⟨a, s, r', rfl, a1, a2, a3, a4⟩ := mark_part ht2.tail i3 hm h3
      obtain ⟨other, o1, o2⟩ := bulletOf_kind hm a1 a2
      exact stop i _ rfl (n + 1) other h1 (fun e => o2 k (h2 e))
        (fun hc => .inr ⟨by simp, i, a, s, _, rfl, atColumn0_iff.1 hc, ⟨i1, i2⟩, o1, a3, a4⟩)

/-! ### Texts of nodes -/

theorem inl_infix {x : Inl} : ∀ s ∈ inlineStrings [x.denote src], ∃ b, b <:+: x.toks ∧ s = textOfToks src b := by
  intro s hs
  simp only [inlineStrings, List.flatMap_cons, List.flatMap_nil, List.append_nil] at hs
  cases x with
  | text ts =>
    simp only [Inl.denote, List.mem_singleton] at hs
    exact ⟨ts, List.infix_rfl, hs⟩
  | delim d =>
    refine ⟨d.body, delim_infix d, ?_⟩
    simp only [Inl.denote] at hs
    cases hn : d.node <;> rw [hn] at hs <;> simpa using hs
  | anchor l =>
    simp only [Inl.denote, Link.denote, List.mem_cons, List.not_mem_nil, or_false] at hs
    rcases hs with rfl | rfl
    · exact ⟨l.title.body, (delim_infix l.title).trans ⟨[], l.dest.toks, by simp [Inl.toks, Link.toks]⟩, rfl⟩
    · exact ⟨l.dest.body, (delim_infix l.dest).trans ⟨l.title.toks, [], by simp [Inl.toks, Link.toks]⟩, rfl⟩
  | bold o items c =>
    simp only [Inl.denote, List.map_map, List.mem_map] at hs
    obtain ⟨y, hy, rfl⟩ := hs
    have hin : y.toks <:+: (Inl.bold o items c).toks := by
      obtain ⟨a, b, rfl⟩ := List.append_of_mem hy
      exact ⟨o :: a.flatMap BoldItem.toks, b.flatMap BoldItem.toks ++ [c], by simp [Inl.toks]⟩
    cases y with
    | text ts => exact ⟨ts, hin, rfl⟩
    | delim d =>
      refine ⟨d.body, (delim_infix d).trans hin, ?_⟩
      simp only [Function.comp, BoldItem.denote]
      cases d.node <;> rfl

theorem para_infix {l : List Inl} : ∀ s ∈ inlineStrings (paraDenote src l), ∃ b, b <:+: paraToks l ∧ s = textOfToks src b := by
  intro s hs
  unfold inlineStrings at hs
  obtain ⟨n, hn, hs⟩ := List.mem_flatMap.1 hs
  obtain ⟨x, hx, rfl⟩ := List.mem_map.1 hn
  obtain ⟨b, h1, h2⟩ := inl_infix (x := x) s (by unfold inlineStrings; simpa using hs)
  refine ⟨b, h1.trans ?_, h2⟩
  obtain ⟨a, c, rfl⟩ := List.append_of_mem hx
  exact ⟨paraToks a, paraToks c, by simp [paraToks]⟩

theorem Unstopped.infix {S : List Stop} {a b rest : List Token} (h : Unstopped S b rest) (hi : a <:+: b) :
    ∃ rest', Unstopped S a rest' := by
  obtain ⟨x, y, rfl⟩ := hi
  exact ⟨y ++ rest, (Unstopped.left h).right⟩

theorem trimEndNl_rest (s : Str) : ∃ n, s = trimEndNl s ++ List.replicate n '\n' := by
  unfold trimEndNl
  refine ⟨(s.reverse.takeWhile (· == '\n')).length, ?_⟩
  have h1 : s.reverse.takeWhile (· == '\n') = List.replicate (s.reverse.takeWhile (· == '\n')).length '\n' := by
    refine List.eq_replicate_of_mem (fun c hc => ?_)
    have := List.all_eq_true.1 (List.all_takeWhile (p := (· == '\n')) (l := s.reverse)) c hc
    simpa using this
  have h2 := congrArg List.reverse (List.takeWhile_append_dropWhile (p := (· == '\n')) (l := s.reverse))
  rw [List.reverse_append, List.reverse_reverse, h1, List.reverse_replicate] at h2
  exact h2.symm

theorem trim_noItem {it : ItemPlace} {p : Paragraph} (h : ∀ s ∈ inlineStrings p, noItemLine it s = true) :
    ∀ s ∈ inlineStrings (trimTrailingNewline p), noItemLine it s = true := by
  rcases trim_cases p with e | ⟨q, t, rfl, ⟨ht, e⟩ | ⟨ht, e⟩⟩
  · rw [e]; exact h
  · rw [e]
    intro s hs
    exact h s (by unfold inlineStrings at hs ⊢; rw [List.flatMap_append]; exact List.mem_append_left _ hs)
  · rw [e]
    intro s hs
    unfold inlineStrings at hs h
    rw [List.flatMap_append] at hs h
    rcases List.mem_append.1 hs with hs | hs
    · exact h s (List.mem_append_left _ hs)
    · simp only [List.flatMap_cons, List.flatMap_nil, List.append_nil, List.mem_singleton] at hs
      subst hs
      have h1 := h t (List.mem_append_right _ (by simp))
      obtain ⟨n, hn⟩ := trimEndNl_rest t
      rw [hn] at h1
      refine noItem_left h1 ?_
      cases n with
      | zero => simp
      | succ n => simp [List.replicate_succ, itemChars]

/-- The text of an item that was read has no item lines. -/
theorem item_noItem {l : List Inl} {level : Nat} {k : ListKind} {esc : List Char} {rest : List Token}
    (h : Tidy src (paraToks l)) (hu : Unstopped [.ListBoundary level k] (paraToks l) rest) :
    ∀ s ∈ inlineStrings (trimTrailingNewline (paraDenote src l)), noItemLine ⟨level, markOf k, esc⟩ s = true := by
  refine trim_noItem (fun s hs => ?_)
  obtain ⟨b, hb, rfl⟩ := para_infix s hs
  obtain ⟨rest', hr⟩ := Unstopped.infix hu hb
  exact tidy_noItem (h.infix hb) hr

end

end Yamd.Ref
