import Verif.Proofs.HeadPlain
import Verif.Proofs.SteadyItems

/-!
# What is read can be written: blocks
-/

namespace Yamd.Ref

open Yamd Yamd.Spec Yamd.ToYamd

/-! ### Trimming -/

theorem noClash_left {α : Type} {clash : α → α → Bool} : ∀ {a : List α} {x : α}, noClash clash (a ++ [x]) = true → noClash clash a = true
  | [], _, _ => rfl
  | [_], _, _ => rfl
  | a :: b :: r, x, h => by
    simp only [List.cons_append, noClash, Bool.and_eq_true] at h ⊢
    exact ⟨h.1, noClash_left (a := b :: r) (x := x) h.2⟩

theorem noClash_set {α : Type} {clash : α → α → Bool} {x y : α} (hxy : ∀ z, clash z y = clash z x) :
    ∀ {a : List α}, noClash clash (a ++ [x]) = true → noClash clash (a ++ [y]) = true
  | [], _ => rfl
  | [z], h => by
    simp only [List.cons_append, List.nil_append, noClash, Bool.and_eq_true] at h ⊢
    rw [hxy]; exact h
  | a :: b :: r, h => by
    simp only [List.cons_append, noClash, Bool.and_eq_true] at h ⊢
    exact ⟨h.1, noClash_set (a := b :: r) hxy h.2⟩

theorem occurs_prefix {pat s t : Str} (h : s <+: t) (ho : occurs pat t = false) : occurs pat s = false := by
  simp only [occurs, decide_eq_false_iff_not] at ho ⊢
  exact fun hi => ho (hi.trans h.isInfix)

theorem safeText_trim {t : Str} (hne : trimEndNl t ≠ []) (ho : safeText t = true) : safeText (trimEndNl t) = true := by
  unfold safeText at ho ⊢
  simp only [Bool.and_eq_true, Bool.not_eq_true'] at ho ⊢
  refine ⟨by simpa using hne, ?_⟩
  obtain ⟨u, hu⟩ := trimEndNl_prefix t
  have hl : (trimEndNl t).getLast? ≠ some '\n' := by
    intro h
    unfold trimEndNl at h
    rw [List.getLast?_reverse] at h
    have := List.head?_dropWhile_not (· == '\n') t.reverse
    rw [h] at this
    simp at this
  have h2 := ho.2
  unfold leftBlankText at h2 ⊢
  rw [← hu, Round.replace_append _ hl] at h2
  exact occurs_prefix (List.prefix_append _ _) h2

theorem safeInline_trim {pl : Place} {p : Paragraph} (h : safeInline pl p = true) : safeInline pl (trimTrailingNewline p) = true := by
  rcases trim_cases p with e | ⟨q, t, rfl, ⟨ht, e⟩ | ⟨ht, e⟩⟩
  · rw [e]; exact h
  · rw [e]
    unfold safeInline at h ⊢
    simp only [Bool.and_eq_true, List.all_append] at h ⊢
    exact ⟨h.1.1, noClash_left h.2⟩
  · rw [e]
    unfold safeInline at h ⊢
    simp only [Bool.and_eq_true, List.all_append, List.all_cons, List.all_nil, and_true] at h ⊢
    refine ⟨⟨h.1.1, ?_⟩, noClash_set ?_ h.2⟩
    · exact safeText_trim ht h.1.2
    · intro z; cases z <;> rfl

theorem leading_trim (p : Paragraph) : leadingText (trimTrailingNewline p) <+: leadingText p := by
  rcases trim_cases p with e | ⟨q, t, rfl, ⟨ht, e⟩ | ⟨ht, e⟩⟩
  · rw [e]; exact List.prefix_rfl
  · rw [e]
    cases q with
    | nil => exact List.nil_prefix
    | cons x q =>
      cases x with
      | text s => exact List.prefix_rfl
      | _ => exact List.nil_prefix
  · rw [e]
    cases q with
    | nil => exact trimEndNl_prefix t
    | cons x q =>
      cases x with
      | text s => exact List.prefix_rfl
      | _ => exact List.nil_prefix

theorem starts_char {c : Char} {s : Str} : starts [c] s = true ↔ s.head? = some c := by
  cases s with
  | nil => simp [starts, List.isPrefixOf]
  | cons d s => simp [starts, List.isPrefixOf]; exact eq_comm

theorem starts_prefix {c : Char} {s t : Str} (h : s <+: t) (ht : starts [c] t = false) : starts [c] s = false := by
  obtain ⟨r, rfl⟩ := h
  rw [Bool.eq_false_iff] at ht ⊢
  rw [Ne, starts_char] at ht ⊢
  cases s with
  | nil => simp
  | cons d s => simpa using ht

theorem startsLine_cr {s : Str} (h : '\r' ∉ s) : startsLine s = starts ['\n'] s := by
  unfold startsLine
  have : starts (cs! "\r\n") s = false := by
    cases s with
    | nil => rfl
    | cons c s =>
      have : c ≠ '\r' := by rintro rfl; simp at h
      simp [starts, List.isPrefixOf]
      intro e; exact absurd e.symm this
  rw [this, Bool.or_false]

theorem endsLine_cr {s : Str} (h : '\r' ∉ s) (hn : s.getLast? ≠ some '\n') : endsLine s = false := by
  unfold endsLine
  have : s.getLast? ≠ some '\r' := fun e => h (List.mem_of_getLast? e)
  simp [hn, this]

theorem leading_sub (p : Paragraph) : leadingText p ⊆ paragraphString p := by
  cases p with
  | nil => simp [leadingText]
  | cons x p =>
    cases x with
    | text s => simp [leadingText, paragraphString, stringP]
    | _ => simp [leadingText]

theorem trailing_sub (p : Paragraph) : trailingText p ⊆ paragraphString p := by
  unfold trailingText
  split
  · rename_i s h
    obtain ⟨q, rfl⟩ := List.getLast?_eq_some_iff.1 h
    simp [paragraphString, stringP]
  · simp

section
variable {src : Str}

theorem para_cr {l : List Inl} (h : Tidy src (paraToks l)) : '\r' ∉ paragraphString (paraDenote src l) :=
  fun hm => no_cr h ((para_sub l).subset hm)

theorem para_cr_trim {l : List Inl} (h : Tidy src (paraToks l)) :
    '\r' ∉ paragraphString (trimTrailingNewline (paraDenote src l)) :=
  fun hm => para_cr h ((trim_sub _).subset hm)

theorem trim_ends {l : List Inl} (hl : ParaOk l) (h : Tidy src (paraToks l)) :
    endsLine (trailingText (trimTrailingNewline (paraDenote src l))) = false := by
  refine endsLine_cr (fun hm => para_cr_trim h (trailing_sub _ hm)) ?_
  unfold trailingText
  split
  · rename_i s hs
    exact trim_last hs (normal_para hl h.live).2.1
  · simp

/-- After a space comes no space. -/
theorem after_space {s t : Token} {r : List Token} (h : Tidy src (s :: t :: r)) (hs : s.kind = .Space) :
    (sliceD src t).head? ≠ some ' ' := by
  intro e
  have hk := h.tail.head.space e
  have := h.2.1.run (hs.trans hk.symm)
  rw [hs] at this; simp [runCharOf] at this

theorem text_after_space {s : Token} {ts r : List Token} (h : Tidy src (s :: (ts ++ r))) (hs : s.kind = .Space) :
    starts [' '] (textOfToks src ts) = false := by
  rw [Bool.eq_false_iff, Ne, starts_char]
  cases ts with
  | nil => simp [textOfToks]
  | cons t ts =>
    rw [text_head h.tail.head]
    exact after_space h hs

theorem para_after_space {s : Token} {l : List Inl} (h : Tidy src (s :: paraToks l)) (hs : s.kind = .Space) :
    starts [' '] (leadingText (paraDenote src l)) = false := by
  cases l with
  | nil => rfl
  | cons x l =>
    cases x with
    | text ts => exact text_after_space (r := paraToks l) (by simpa [paraToks, Inl.toks] using h) hs
    | delim d => simp only [paraDenote, List.map_cons, Inl.denote]; split <;> rfl
    | _ => rfl

/-! ### Lists -/

theorem MarkerOk.space {level k m} (h : MarkerOk level k m) : ∃ m' s, m = m' ++ [s] ∧ s.kind = .Space := by
  rcases h with ⟨-, a, b, rfl, -, h1, h2⟩ | ⟨-, s, a, b, rfl, -, h0, -, h1, h2⟩
  · exact ⟨[a], b, rfl, kind_of_len h2⟩
  · exact ⟨[s, a], b, rfl, kind_of_len h2⟩

theorem items_kind {i : Items} {level k} (h : i.Ok level (some k)) : ∀ k', i.kind = some k' → k' = k := by
  cases i with
  | nil => intro k' e; cases e
  | cons k2 m p n r =>
    intro k' e
    simp only [Items.kind, Option.some.injEq] at e
    have := h.1
    simp at this
    rw [← e, this]

theorem marker_listType (k : ListKind) : (listType k).marker = Round.markOf k := by cases k <;> rfl

/-- Items that were read can be written. -/
theorem items_safe {c : Bool} {stops : List Stop} : ∀ {i : Items} {level want rest own M}, i.Ok level want → i.Ext stops level rest →
    Tidy src i.toks → (c = true → NoEnd i.toks) → (∀ k, i.kind = some k → own = Round.markOf k) →
    safeListItems (at' c) ⟨level, own, M⟩ (i.denote src level) = true
  | .nil, _, _, _, _, _, _, _, _, _, _ => by simp [Items.denote, safeListItems]
  | .cons k m q n r, level, want, rest, own, M, h, he, ht, hE, hk => by
    obtain ⟨-, h2, h3, h4, h5⟩ := h
    obtain ⟨x1, x2, x3⟩ := he
    obtain rfl := hk k rfl
    have e : (Items.cons k m q n r).toks = m ++ (paraToks q ++ (n.toks ++ r.toks)) := by simp [Items.toks]
    have hp : paraToks q <:+: (Items.cons k m q n r).toks := ⟨m, n.toks ++ r.toks, by simp [e]⟩
    have hn : n.toks <:+: (Items.cons k m q n r).toks := ⟨m ++ paraToks q, r.toks, by simp [e]⟩
    have hr : r.toks <:+: (Items.cons k m q n r).toks := ⟨m ++ (paraToks q ++ n.toks), [], by simp [e]⟩
    have calm : Calm src c (paraToks q) := ⟨ht.infix hp, h3.2.2, fun e => (hE e).infix hp⟩
    have own : safeItemText (at' c) ⟨level, Round.markOf k, M⟩ (trimTrailingNewline (paraDenote src q)) = true := by
      simp only [safeItemText, Bool.and_eq_true, Bool.not_eq_true', List.all_eq_true]
      refine ⟨⟨⟨safeInline_trim (para_safe (pl := at' c) h3 calm), ?_⟩, trim_ends h3 (ht.infix hp)⟩,
        item_noItem (ht.infix hp) (x1.2.sub (by simp))⟩
      obtain ⟨m', s, rfl, hs⟩ := h2.space
      exact starts_prefix (leading_trim _) (para_after_space (ht.infix ⟨m', n.toks ++ r.toks, by simp [e]⟩) hs)
    have ih2 := items_safe (c := c) (M := M) (own := Round.markOf k) h5 x3 (ht.infix hr) (fun e => (hE e).infix hr)
      (fun k' e => by rw [items_kind h5 k' e])
    rw [Items.denote, safeListItems, Bool.and_eq_true]
    refine ⟨?_, ih2⟩
    cases hk' : n.kind with
    | none =>
      simp only [wrapDenote, Option.map_none, safeListItem]
      exact own
    | some k' =>
      have ih1 := items_safe (c := c) (M := M ++ [(listType k').marker]) (own := (listType k').marker) h4 x2 (ht.infix hn)
        (fun e => (hE e).infix hn) (fun k2 e => by rw [hk'] at e; cases e; exact marker_listType k')
      simp only [wrapDenote, Option.map_some, safeListItem, safeList, Bool.and_eq_true]
      exact ⟨own, ih1⟩

theorem list_safe {c : Bool} {i : Items} {stops rest} (h : (Block.list i).Ok) (he : i.Ext stops 0 rest) (ht : Tidy src i.toks)
    (hE : c = true → NoEnd i.toks) : safeLeaf (at' c) ((Block.list i).denote src) = true := by
  simp only [Block.denote, safeLeaf, Bool.and_eq_true, levelsOk, beq_self_eq_true, true_and, safeList]
  refine ⟨⟨?_, levels_items h.1⟩, ?_⟩
  · cases i with
    | nil => exact absurd rfl h.2
    | cons => rfl
  · refine items_safe h.1 he ht hE (fun k e => ?_)
    rw [e]; exact marker_listType k

/-! ### Headings, images, paragraphs -/

theorem heading_safe {c : Bool} {m : List Token} {b : List HeadItem} (h : (Block.heading m b).Ok)
    (ht : Tidy src (Block.heading m b).toks) (hE : c = true → NoEnd (Block.heading m b).toks)
    (hp : TextsPlain b) : safeLeaf (at' c) ((Block.heading m b).denote src) = true := by
  obtain ⟨hm, hb⟩ := h
  have hlev := heading_level (src := src) (Tidy.left (b := b.flatMap HeadItem.toks) ht).live hm
  obtain ⟨a, s, rfl, -, hsp⟩ := hm
  have hi : b.flatMap HeadItem.toks <:+: (Block.heading [a, s] b).toks := ⟨[a, s], [], by simp [Block.toks]⟩
  have calm : Calm src c (b.flatMap HeadItem.toks) := ⟨ht.infix hi, hb.2.2, fun e => (hE e).infix hi⟩
  simp only [Block.denote, safeLeaf, Bool.and_eq_true, decide_eq_true_eq, Bool.not_eq_true', List.all_eq_true]
  refine ⟨⟨⟨⟨hlev, ?_⟩, plain_of_texts calm.tidy hp⟩, ?_⟩, ?_⟩
  · intro y hy
    obtain ⟨x, hx, rfl⟩ := List.mem_map.1 hy
    have hc := calm.mem hx
    cases x with
    | text ts =>
      have hne : textOfToks src ts ≠ [] := live_text hc.tidy.live (hb.1 _ hx)
      simp only [HeadItem.denote, safeHeadingNode, Bool.and_eq_true]
      exact ⟨by simpa using hne, calm_body (pl := at' c) hc⟩
    | anchor l => exact link_safe (pl := at' c) hc
  · refine noClash_map (src := src) (f := HeadItem.isText) (toks := HeadItem.toks) (ok := fun _ => True) ?_ (fun _ _ => trivial) hb.2.1 calm.tidy.live
    intro x y _ _ _ hn
    cases x <;> cases y <;> first | rfl | exact absurd ⟨rfl, rfl⟩ hn
  · cases b with
    | nil => rfl
    | cons x b =>
      cases x with
      | text ts =>
        refine text_after_space (s := s) (r := b.flatMap HeadItem.toks) ?_ (kind_of_len hsp)
        have : Tidy src (a :: s :: (ts ++ b.flatMap HeadItem.toks)) := by simpa [Block.toks, HeadItem.toks] using ht
        exact this.tail
      | anchor l => rfl

theorem image_safe {c : Bool} {i : Img} (h : i.Ok) (ht : Tidy src i.toks) (hE : c = true → NoEnd i.toks) :
    safeImage (at' c) (i.denote src) = true := by
  have hi : i.link.toks <:+: i.toks := ⟨[i.bang], i.eol, by simp [Img.toks]⟩
  have calm : Calm src c i.link.toks := ⟨ht.infix hi, fun t ht => h.2.2.2 t (hi.subset ht), fun e => (hE e).infix hi⟩
  exact link_safe (pl := at' c) calm

theorem images_safe {c : Bool} {l : List Img} (h : (Block.images l).Ok) (ht : Tidy src (l.flatMap Img.toks))
    (hE : c = true → NoEnd (l.flatMap Img.toks)) : safeLeaf (at' c) ((Block.images l).denote src) = true := by
  have key : ∀ x ∈ l, safeImage (at' c) (x.denote src) = true := by
    intro x hx
    have hi : x.toks <:+: l.flatMap Img.toks := by
      obtain ⟨a, b, rfl⟩ := List.append_of_mem hx
      exact ⟨a.flatMap Img.toks, b.flatMap Img.toks, by simp⟩
    exact image_safe (h.2 x hx) (ht.infix hi) (fun e => (hE e).infix hi)
  match l, h with
  | [], h => exact absurd rfl h.1
  | [i], _ => exact key i (by simp)
  | i :: j :: r, _ =>
    simp only [Block.denote, safeLeaf, Bool.and_eq_true, decide_eq_true_eq, List.all_eq_true]
    refine ⟨by simp, fun y hy => ?_⟩
    obtain ⟨x, hx, rfl⟩ := List.mem_map.1 hy
    exact key x hx

theorem paraBlock_safe {c : Bool} {l : List Inl} (h : ParaOk l) (hne : l ≠ []) (ht : Tidy src (paraToks l))
    (hE : c = true → NoEnd (paraToks l)) (hs : steadyLeaf ((Block.para l).denote src) = true) :
    safeLeaf (at' c) ((Block.para l).denote src) = true := by
  simp only [Block.denote, safeLeaf, steadyLeaf, Bool.and_eq_true] at hs ⊢
  refine ⟨⟨⟨?_, para_safe (pl := at' c) h ⟨ht, h.2.2, hE⟩⟩, hs.1⟩, hs.2⟩
  cases l with
  | nil => exact absurd rfl hne
  | cons => rfl

/-! ### Opening lines -/

/-- The rest of an opening line does not start with a space. -/
theorem mod_safe {m : Mod} (h : m.Ok) {s : Token} (ht : Tidy src (s :: (m.body ++ [m.eol]))) (hs : s.kind = .Space) :
    safeLine (textOfToks src m.body) = true := by
  have htb : Tidy src m.body := ht.tail.left
  have h2 := text_after_space ht hs
  unfold safeLine
  simp only [Bool.and_eq_true, Bool.not_eq_true', bne_iff_ne, ne_eq]
  refine ⟨⟨?_, h2⟩, fun e => no_cr htb (List.mem_of_getLast? e)⟩
  rw [Bool.eq_false_iff, Ne, List.contains_iff_mem]
  intro hm
  obtain ⟨t, htm, hm⟩ := List.mem_flatMap.1 hm
  have h3 := h.2 t htm
  simp only [isEolOrTerminator, Bool.or_eq_false_iff, decide_eq_false_iff_not] at h3
  exact (htb.mem htm).nl h3.1 h3.2 hm

theorem highlightB_open {stops ts b r} (h : highlightB stops ts = some (b, r)) :
    ∃ o m i body c, b = .highlight o m i body c ∧ (m = none ∨ ∃ a s, o = [a, s] ∧ s.kind = .Space) := by
  have key : ∀ {opening m r b rest}, hlRestB stops opening m r = some (b, rest) →
      ∃ i body c, b = .highlight opening m i body c := by
    intro opening m r b rest h
    unfold hlRestB at h
    simp only at h
    split at h
    · simp only [Option.map_eq_some_iff] at h
      obtain ⟨⟨l, c, r'⟩, h1, h2⟩ := h
      simp only [Prod.mk.injEq] at h2
      obtain ⟨rfl, rfl⟩ := h2
      exact ⟨_, _, _, rfl⟩
    · simp at h
  unfold highlightB at h
  split at h
  · rename_i hh
    simp only [Bool.and_eq_true] at hh
    match ts, hh.1, hh.2 with
    | a :: s :: ts, h1, h2 =>
      split at h
      · obtain ⟨i, body, c, e⟩ := key h
        exact ⟨_, _, i, body, c, e, .inl rfl⟩
      · rename_i hne
        obtain ⟨i, body, c, e⟩ := key h
        refine ⟨_, _, i, body, c, e, .inr ⟨a, s, rfl, ?_⟩⟩
        have h2 : (isSpace1 s || isEol s) = true := h2
        have hne : ¬ isEol s = true := hne
        rcases Bool.or_eq_true_iff.1 h2 with h2 | h2
        · exact kind_of_len h2
        · exact absurd h2 hne
  · simp at h

theorem iconOk_body {stops ts} : ∀ i, (optIconB stops ts).1 = some i → ∀ t ∈ i.body, isEol t = false := by
  intro i hi
  unfold optIconB at hi
  split at hi
  · rename_i m r h
    simp only [Option.some.injEq] at hi
    subst hi
    unfold iconB at h
    split at h
    · simp only [Option.map_eq_some_iff] at h
      obtain ⟨⟨b, c, r'⟩, h3, h4⟩ := h
      simp only [Prod.mk.injEq] at h4
      obtain ⟨rfl, rfl⟩ := h4
      exact (untilB_ok h3).2.1
    · simp at h
  · simp at hi

theorem highlightB_icon {stops ts b r} (h : highlightB stops ts = some (b, r)) :
    ∀ o m i body c, b = .highlight o m (some i) body c → ∀ t ∈ i.body, isEol t = false := by
  have key : ∀ {opening m r b rest}, hlRestB stops opening m r = some (b, rest) →
      ∀ o m' i body c, b = .highlight o m' (some i) body c → ∀ t ∈ i.body, isEol t = false := by
    intro opening m r b rest h o m' i body c e
    unfold hlRestB at h
    simp only at h
    split at h
    · simp only [Option.map_eq_some_iff] at h
      obtain ⟨⟨l, c, r'⟩, h1, h2⟩ := h
      simp only [Prod.mk.injEq] at h2
      obtain ⟨h2, rfl⟩ := h2
      rw [e] at h2
      simp only [Block.highlight.injEq] at h2
      exact iconOk_body _ h2.2.2.1
    · simp at h
  unfold highlightB at h
  split at h
  · split at h
    · exact key h
    · exact key h
  · simp at h

theorem highlight_safe {c : Bool} {o m i body cl} (h : (Block.highlight o m i body cl).Ok)
    (ht : Tidy src (Block.highlight o m i body cl).toks) (hE : c = true → NoEnd (Block.highlight o m i body cl).toks)
    (ho : m = none ∨ ∃ a s, o = [a, s] ∧ s.kind = .Space)
    (hic : ∀ x, i = some x → ∀ t ∈ x.body, isEol t = false)
    (hs : steadyLeaf ((Block.highlight o m i body cl).denote src) = true) :
    safeLeaf (at' c) ((Block.highlight o m i body cl).denote src) = true := by
  obtain ⟨h1, h2, h3, h4, h5⟩ := h
  simp only [Block.denote, steadyLeaf, Bool.and_eq_true, Bool.not_eq_true', List.all_eq_true] at hs
  obtain ⟨⟨⟨s1, s2⟩, s3⟩, s4⟩ := hs
  have hpara : ∀ x ∈ body, paraToks x.para <:+: (Block.highlight o m i body cl).toks := by
    intro x hx
    obtain ⟨b1, b2, rfl⟩ := List.append_of_mem hx
    exact ⟨o ++ (modToks m ++ (iconToks i ++ (b1.flatMap HPara.toks ++ x.term))), b2.flatMap HPara.toks ++ cl, by
      simp [Block.toks, HPara.toks]⟩
  simp only [Block.denote, safeLeaf, Bool.and_eq_true, Bool.not_eq_true', List.all_eq_true]
  refine ⟨⟨⟨⟨?_, ?_⟩, s1⟩, ?_⟩, ?_⟩
  · cases m with
    | none => rfl
    | some m =>
      rcases ho with ho | ⟨a, s, rfl, hk⟩
      · cases ho
      · refine mod_safe (s := s) h2 ?_ hk
        refine ht.infix ⟨[a], iconToks i ++ (body.flatMap HPara.toks ++ cl), by simp [Block.toks, modToks]⟩
  · cases i with
    | none => simpa [iconDenote] using s4
    | some i =>
      obtain ⟨⟨a, s, e, -, hk⟩, j2, j3⟩ := h3
      refine mod_safe (m := ⟨i.body, i.eol⟩) (s := s) ?_ ?_ (kind_of_len hk)
      · constructor
        · have j3 : isEol i.eol = true := j3
          simp only [isEol, decide_eq_true_eq] at j3
          simp [isEolOrTerminator, j3]
        · intro t ht
          have e1 := hic i rfl t ht
          have e2 := j2 t ht
          simp only [isEol, decide_eq_false_iff_not] at e1
          simp [isEolOrTerminator, e1, e2]
      · refine ht.infix ⟨o ++ (modToks m ++ [a]), body.flatMap HPara.toks ++ cl, by simp [Block.toks, iconToks, e]⟩
  · intro p hp
    have hne := s2 p hp
    obtain ⟨x, hx, rfl⟩ := List.mem_map.1 hp
    have hok := (h4 x hx).2
    have hti := ht.infix (hpara x hx)
    unfold safeHighlightParagraph
    simp only [Bool.and_eq_true, Bool.not_eq_true']
    exact ⟨⟨hne, safeInline_trim (para_safe (pl := at' c) hok ⟨hti, hok.2.2, fun e => (hE e).infix (hpara x hx)⟩)⟩,
      trim_ends hok hti⟩
  · rw [startsLine_cr]
    · exact s3
    · cases body with
      | nil => simp [leadingText]
      | cons x body =>
        simp only [List.map_cons, List.head?_cons, Option.getD_some]
        exact fun hm => para_cr_trim (ht.infix (hpara x (by simp))) (leading_sub _ hm)

/-! ### Any block -/

/-- What is known about the opening of a block beyond its shape. -/
def OpenOk : Block → Prop
  | .highlight o m i _ _ => (m = none ∨ ∃ a s, o = [a, s] ∧ s.kind = .Space) ∧
      ∀ x, i = some x → ∀ t ∈ x.body, isEol t = false
  | .para l => l ≠ []
  | .heading _ b => TextsPlain b
  | .list i => ∃ stops rest, i.Ext stops 0 rest
  | _ => True

theorem newCode_eq (l c : Str) : YamdNode.newCode l (trimEndNl c) = .code l (trimEndNl c) := by
  rw [YamdNode.newCode, trimEndNl_idem]

theorem block_safe {c : Bool} {b : Block} (h : b.Ok) (ho : OpenOk b) (ht : Tidy src b.toks)
    (hE : (∀ o m x y, b ≠ .code o m x y) → c = true → NoEnd b.toks) (hs : steadyLeaf (b.denote src) = true) :
    safeLeaf (at' c) (b.denote src) = true := by
  cases b with
  | list i =>
    obtain ⟨stops, rest, he⟩ := ho
    exact list_safe h he ht (hE (by simp))
  | heading m b => exact heading_safe h ht (hE (by simp)) ho
  | images l => exact images_safe h ht (hE (by simp))
  | para l => exact paraBlock_safe h ho ht (hE (by simp)) hs
  | highlight o m i b c => exact highlight_safe h ht (hE (by simp)) ho.1 ho.2 hs
  | thematic t => rfl
  | embed o l p r cl =>
    have hi : l <:+: (Block.embed o l p r cl).toks := ⟨[o], p :: (r ++ cl), by simp [Block.toks]⟩
    exact noClose_of (pl := at' c) (ht.infix hi) (fun e => (hE (by simp) e).infix hi)
  | code o m b cl =>
    have hb : b <:+: (Block.code o m b cl).toks := ⟨o ++ modToks m, cl, by simp [Block.toks]⟩
    have hm : '\r' ∉ (modDenote src m).getD [] := by
      cases m with
      | none => simp [modDenote]
      | some m =>
        have hm : m.body <:+: (Block.code o (some m) b cl).toks := ⟨o, m.eol :: (b ++ cl), by simp [Block.toks, modToks]⟩
        exact no_cr (ht.infix hm)
    have hcr : '\r' ∉ trimEndNl (textOfToks src b) :=
      fun hm => no_cr (ht.infix hb) ((trimEndNl_prefix _).subset hm)
    simp only [Block.denote, newCode_eq, steadyLeaf, safeLeaf, Bool.and_eq_true, Bool.not_eq_true', bne_iff_ne, ne_eq] at hs ⊢
    refine ⟨⟨fun e => hm (List.mem_of_getLast? e), ?_⟩, trimEndNl_last _⟩
    rw [startsLine_cr]
    · cases hc : trimEndNl (textOfToks src b) with
      | nil => rfl
      | cons d r =>
        rw [hc] at hs
        rw [Bool.eq_false_iff, Ne, starts_char] at hs ⊢
        simpa using hs
    · intro hm
      rcases List.mem_append.1 hm with hm | hm
      · exact hcr hm
      · split at hm
        · simp at hm
        · revert hm; decide

end

end Yamd.Ref
