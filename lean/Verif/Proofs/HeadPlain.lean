import Verif.Proofs.Steady

/-!
# A heading that was read has no anchor left in its texts
-/

namespace Yamd.Ref

open Yamd Yamd.Spec Yamd.ToYamd

/-- The tokens `r` behind a `[` continue to an anchor; with `more`, a link follows them. -/
def Reaches (more : Bool) (r : List Token) : Prop :=
  (more = true ∧ ∀ y ∈ r, isRightBracket y = false) ∨
  ∃ b c x q, r = b ++ c :: x :: q ∧ (∀ y ∈ b, isRightBracket y = false) ∧ isRightBracket c = true ∧
    isLeftParen x = true ∧ (more = true ∨ ∃ y ∈ q, y.kind = .RightParenthesis)

/-- No text of a heading has a `[` that continues to an anchor. -/
def TextsPlain : List HeadItem → Prop
  | [] => True
  | .text ts :: l => (∀ a t r, ts = a ++ t :: r → isLeftBracket t = true → ¬ Reaches (!l.isEmpty) r) ∧ TextsPlain l
  | .anchor _ :: l => TextsPlain l

theorem untilB_run {S : List Stop} {m : Token → Bool} : ∀ {c : List Token} {u d}, Unstopped S (c ++ [u]) d →
    (∀ x ∈ c, m x = false) → m u = true → untilB S m (c ++ u :: d) = some (c, u, d)
  | [], u, d, h, _, hu => by
    have h1 : stopAt S (u :: d) = false := h.1
    rw [List.nil_append, untilB, if_neg (by rw [h1]; simp), if_pos hu]
  | x :: c, u, d, h, hc, hu => by
    have h1 : stopAt S (x :: ((c ++ [u]) ++ d)) = false := h.1
    rw [List.append_assoc, List.singleton_append] at h1
    rw [List.cons_append, untilB, if_neg (by rw [h1]; simp), if_neg (by rw [hc x (by simp)]; simp),
      untilB_run h.2 (fun y hy => hc y (by simp [hy])) hu]
    rfl

theorem destScan_run {S : List Stop} : ∀ {q : List Token} {d n}, Unstopped S q d → (∃ y ∈ q, y.kind = .RightParenthesis) →
    (destScan S n (q ++ d)).isSome = true
  | [], _, _, _, h => by obtain ⟨_, h, _⟩ := h; cases h
  | t :: q, d, n, h, he => by
    have h1 : stopAt S (t :: (q ++ d)) = false := h.1
    rw [List.cons_append, destScan, if_neg (by rw [h1]; simp)]
    have rest : t.kind ≠ .RightParenthesis → ∀ n, (destScan S n (q ++ d)).isSome = true := by
      intro hk n
      refine destScan_run h.2 ?_
      obtain ⟨y, hy, hyk⟩ := he
      rcases List.mem_cons.1 hy with rfl | hy
      · exact absurd hyk hk
      · exact ⟨y, hy, hyk⟩
    split
    · rename_i hk
      rw [Option.isSome_map]; exact rest (by rw [hk]; decide) _
    · split
      · split
        · rfl
        · split <;> rfl
      · rename_i hk
        rw [Option.isSome_map]; exact rest hk _

theorem linkB_reaches {S : List Stop} {t : Token} {r d : List Token} (ht : isLeftBracket t = true) (hu : Unstopped S r d)
    (hr : Reaches false r) : linkB S (t :: (r ++ d)) ≠ none := by
  rcases hr with ⟨h, _⟩ | ⟨b, c, x, q, rfl, h1, h2, h3, h4⟩
  · cases h
  · have hq : ∃ y ∈ q, y.kind = .RightParenthesis := by
      rcases h4 with h | h
      · cases h
      · exact h
    have e : b ++ c :: x :: q = (b ++ [c]) ++ (x :: q) := by simp
    rw [e] at hu
    have u1 := hu.left
    have u2 : Unstopped S q d := hu.right.2
    unfold linkB titleB
    rw [delimB, if_pos ht, List.append_assoc, List.cons_append, untilB_run u1 h1 h2]
    simp only [Option.map_some]
    rw [List.cons_append, destB, if_pos h3]
    have := destScan_run (n := 1) u2 hq
    rw [Option.isSome_iff_exists] at this
    obtain ⟨y, hy⟩ := this
    rw [hy]
    simp

/-- A link behind the tokens completes them. -/
theorem reaches_link {S : List Stop} {ts r r' : List Token} {l : Link} (hl : linkB S ts = some (l, r')) (h : Reaches true r) :
    Reaches false (r ++ l.toks) := by
  obtain ⟨-, k2, k3, -, k5, k6⟩ := (linkB_ok hl).1
  have hbody : ∀ y ∈ l.title.body, isRightBracket y = false := by
    unfold linkB at hl
    split at hl
    · simp at hl
    · rename_i t r1 h1
      split at hl
      · simp at hl
      · rename_i d r2 h2
        simp only [Option.some.injEq, Prod.mk.injEq] at hl
        obtain ⟨rfl, rfl⟩ := hl
        exact (delimB_ok h1).2.2.2.1
  have hdest : ∃ y ∈ l.dest.toks, y.kind = .RightParenthesis := ⟨l.dest.closing, by simp [Delim.toks], k6⟩
  right
  rcases h with ⟨-, h⟩ | ⟨b, c, x, q, rfl, h1, h2, h3, -⟩
  · refine ⟨r ++ l.title.opening :: l.title.body, l.title.closing, l.dest.opening, l.dest.body ++ [l.dest.closing],
      by simp [Link.toks, Delim.toks], ?_, k3, k5, .inr ⟨l.dest.closing, by simp, k6⟩⟩
    intro y hy
    simp only [List.mem_append, List.mem_cons] at hy
    rcases hy with hy | rfl | hy
    · exact h y hy
    · have := kind_of_len k2
      simp [isRightBracket, this]
    · exact hbody y hy
  · obtain ⟨y, hy, hyk⟩ := hdest
    exact ⟨b, c, x, q ++ l.toks, by simp, h1, h2, h3, .inr ⟨y, by simp [Link.toks, hy], hyk⟩⟩

/-- Every `[` of the text read so far was tried in front of what follows. -/
def Tried (S : List Stop) (acc ts : List Token) : Prop :=
  ∀ a t r, acc = a ++ t :: r → linkB S (t :: (r ++ ts)) = none

theorem headB_plain {S : List Stop} (acc ts : List Token) : Unstopped S acc ts → Tried S acc ts → TextsPlain (headB S acc ts).1 := by
  have lone : ∀ {acc ts : List Token}, Unstopped S acc ts → Tried S acc ts →
      TextsPlain (if acc = [] then [] else [HeadItem.text acc]) := by
    intro acc ts hu ht
    split
    · trivial
    · refine ⟨?_, trivial⟩
      rintro a t r rfl hb hr
      exact linkB_reaches hb (hu.right).2 hr (ht a t r rfl)
  refine headB_ind S (P := fun acc ts => Unstopped S acc ts → Tried S acc ts → TextsPlain (headB S acc ts).1) ?_ ?_ ?_ acc ts
  · intro acc ts hs hu ht
    rw [headB_stop hs]; exact lone hu ht
  · intro acc t r x r' hs hx ih hu ht
    rw [headB_some hs hx]
    have ih' := ih trivial (by intro a t r e; simp at e)
    have ex := linkB_toks hx
    split
    · exact ih'
    · refine ⟨?_, ih'⟩
      rintro a u q rfl hb hr
      have hr : Reaches true q := hr
      have h1 := ht a u q rfl
      rw [ex, ← List.append_assoc] at h1
      refine linkB_reaches hb ?_ (reaches_link hx hr) h1
      refine Unstopped.append ?_ (linkB_un hx hs)
      have := (hu.right).2
      rw [ex] at this; exact this
  · intro acc t r hs hx ih hu ht
    rw [headB_none hs hx]
    refine ih (Unstopped.append hu ⟨hs, trivial⟩) ?_
    intro a u q e
    rcases List.append_eq_append_iff.1 e with ⟨w, h1, h2⟩ | ⟨w, h1, h2⟩
    · cases w with
      | nil =>
        simp only [List.nil_append, List.cons.injEq] at h2
        obtain ⟨rfl, rfl⟩ := h2
        exact hx
      | cons y w =>
        simp only [List.cons_append, List.cons.injEq] at h2
        have := congrArg List.length h2.2
        simp at this
    · cases w with
      | nil =>
        simp only [List.nil_append, List.cons.injEq] at h2
        obtain ⟨rfl, rfl⟩ := h2
        exact hx
      | cons y w =>
        simp only [List.cons_append, List.cons.injEq] at h2
        obtain ⟨rfl, rfl⟩ := h2
        have := ht a u w h1
        simpa using this

/-! ### From tokens to characters -/

section
variable {src : Str}

/-- A token whose brackets and parentheses are its only characters. -/
structure Brk (src : Str) (t : Token) : Prop where
  ne : sliceD src t ≠ []
  lexed : t.kind ≠ .Literal → Lexed src t
  brk : ∀ (k : TokenKind) (c : Char), fixedText k = some [c] → c ∈ ['[', ']', '(', ')'] → c ∈ sliceD src t →
    t.kind = k ∧ sliceD src t = [c] ∧ t.len = 1

theorem TokOk.toBrk {t : Token} (h : TokOk src t) : Brk src t := ⟨h.ne, h.lexed, h.brk⟩

theorem brk_head {t : Token} {b} (h : Brk src t) : (textOfToks src (t :: b)).head? = (sliceD src t).head? := by
  rw [text_cons]
  have := h.ne
  cases hs : sliceD src t with
  | nil => exact absurd hs this
  | cons c s => rfl

theorem bracket_char {t : Token} (h : Brk src t) (hk : isRightBracket t = true) : ']' ∈ sliceD src t := by
  have hk := kind_of_len hk
  have := (h.lexed (by rw [hk]; decide)).fixed (f := [']']) (by rw [hk]; rfl)
  rw [this]; simp

theorem closing_cases : ∀ s : Str, (']' ∉ s ∧ s.dropWhile (· != ']') = []) ∨
    ∃ a q, s = a ++ ']' :: q ∧ ']' ∉ a ∧ s.dropWhile (· != ']') = ']' :: q
  | [] => .inl ⟨by simp, rfl⟩
  | c :: s => by
    by_cases hc : c = ']'
    · subst hc
      exact .inr ⟨[], s, rfl, by simp, by rw [List.dropWhile_cons_of_neg (by simp)]⟩
    · rw [List.dropWhile_cons_of_pos (by simpa using hc)]
      rcases closing_cases s with ⟨h1, h2⟩ | ⟨a, q, h1, h2, h3⟩
      · exact .inl ⟨by simp only [List.mem_cons, not_or]; exact ⟨fun e => hc e.symm, h1⟩, h2⟩
      · refine .inr ⟨c :: a, q, by rw [h1]; rfl, ?_, h3⟩
        simp only [List.mem_cons, not_or]; exact ⟨fun e => hc e.symm, h2⟩

theorem reaches_of_closes {more : Bool} {r : List Token} (h : ∀ t ∈ r, Brk src t) (hc : closesAnchor more (textOfToks src r) = true) :
    Reaches more r := by
  unfold closesAnchor at hc
  rcases closing_cases (textOfToks src r) with ⟨h1, hd⟩ | ⟨p, q, hsplit, h1, hd⟩
  · rw [hd] at hc
    refine .inl ⟨hc, fun y hy => ?_⟩
    rw [Bool.eq_false_iff]
    intro hb
    exact h1 (List.mem_flatMap.2 ⟨y, hy, bracket_char (h y hy) hb⟩)
  · rw [hd] at hc
    obtain ⟨b1, t, b2, u, v, rfl, e2, e3, e4⟩ := flat_split hsplit
    have ht := h t (by simp)
    obtain ⟨k1, k2, k3⟩ := ht.brk .RightSquareBracket ']' rfl (by simp) (by rw [e2]; simp)
    rw [k2] at e2
    have hu : u = [] ∧ v = [] := by
      cases u with
      | nil => simpa using e2
      | cons d u => simp at e2
    obtain ⟨rfl, rfl⟩ := hu
    cases q with
    | nil => simp at hc
    | cons x q =>
      simp only [Bool.and_eq_true, Bool.or_eq_true, beq_iff_eq] at hc
      obtain ⟨rfl, hc⟩ := hc
      rw [List.nil_append] at e4
      cases b2 with
      | nil => simp [textOfToks] at e4
      | cons w b2 =>
        have hw := h w (by simp)
        have hh := brk_head (b := b2) hw
        rw [← e4] at hh
        obtain ⟨m1, m2, m3⟩ := hw.brk .LeftParenthesis '(' rfl (by simp) (List.mem_of_mem_head? hh.symm)
        rw [text_cons, m2] at e4
        simp only [List.cons_append, List.nil_append, List.cons.injEq, true_and] at e4
        refine .inr ⟨b1, t, w, b2, rfl, ?_, by simp [isRightBracket, k1, k3], by simp [isLeftParen, m1, m3], ?_⟩
        · intro y hy
          rw [Bool.eq_false_iff]
          intro hb
          have hmem : ']' ∈ textOfToks src b1 := List.mem_flatMap.2 ⟨y, hy, bracket_char (h y (by simp [hy])) hb⟩
          exact h1 (by rw [e3]; simp [hmem])
        · rcases hc with hc | hc
          · exact .inl hc
          · right
            rw [List.contains_iff_mem, e4] at hc
            obtain ⟨y, hy, hm⟩ := List.mem_flatMap.1 hc
            exact ⟨y, hy, ((h y (by simp [hy])).brk .RightParenthesis ')' rfl (by simp) hm).1⟩

theorem readsAnchor_split {more : Bool} : ∀ {s : Str}, readsAnchor more s = true → ∃ x y, s = x ++ '[' :: y ∧ closesAnchor more y = true
  | [], h => by simp [readsAnchor] at h
  | c :: r, h => by
    simp only [readsAnchor, Bool.or_eq_true, Bool.and_eq_true, beq_iff_eq] at h
    rcases h with ⟨rfl, h⟩ | h
    · exact ⟨[], r, rfl, h⟩
    · obtain ⟨x, y, rfl, h1⟩ := readsAnchor_split h
      exact ⟨c :: x, y, rfl, h1⟩

theorem plain_of_brk : ∀ {l : List HeadItem}, (∀ ts, .text ts ∈ l → ∀ t ∈ ts, Brk src t) → TextsPlain l →
    plainHeading (l.map (HeadItem.denote src)) = true
  | [], _, _ => rfl
  | .anchor k :: l, h, hp => by
    simp only [List.map_cons, HeadItem.denote, plainHeading]
    exact plain_of_brk (l := l) (fun ts hts => h ts (by simp [hts])) hp
  | .text ts :: l, h, hp => by
    have h' : ∀ t ∈ ts, Brk src t := h ts (by simp)
    simp only [List.map_cons, HeadItem.denote, plainHeading, Bool.and_eq_true, Bool.not_eq_true']
    refine ⟨?_, plain_of_brk (fun ts hts => h ts (by simp [hts])) hp.2⟩
    rw [Bool.eq_false_iff]
    intro hr
    obtain ⟨x, y, e, hc⟩ := readsAnchor_split hr
    obtain ⟨b1, t, b2, u, v, rfl, e2, e3, e4⟩ := flat_split e
    have ht := h' t (by simp)
    obtain ⟨k1, k2, k3⟩ := ht.brk .LeftSquareBracket '[' rfl (by simp) (by rw [e2]; simp)
    rw [k2] at e2
    have hv : v = [] := by
      cases u with
      | nil => simpa using e2.symm
      | cons d u => simp at e2
    subst hv
    rw [List.nil_append] at e4
    rw [e4] at hc
    have hm : (l.map (HeadItem.denote src)).isEmpty = l.isEmpty := by cases l <;> rfl
    rw [hm] at hc
    exact hp.1 b1 t b2 rfl (by simp [isLeftBracket, k1, k3]) (reaches_of_closes (fun u hu => h' u (by simp [hu])) hc)

theorem plain_of_texts {l : List HeadItem} (h : Tidy src (l.flatMap HeadItem.toks)) (hp : TextsPlain l) :
    plainHeading (l.map (HeadItem.denote src)) = true :=
  plain_of_brk (fun ts hts t ht => (h.mem (List.mem_flatMap.2 ⟨.text ts, hts, ht⟩)).toBrk) hp

end

end Yamd.Ref
