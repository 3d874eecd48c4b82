import Verif.Proofs.WrapBody
import Verif.Proofs.SteadyItems
import Verif.Proofs.LocalTop
import Verif.Spec.Wrap

/-!
# Strings without a line starting with `%}` (C66): tokens
-/

namespace Yamd.Ref

open Yamd Yamd.Spec Yamd.Round

/-- Tokens of a text: what is needed to find a `%}` at the start of a line in the strings. -/
def Lined (src : Str) (ts : List Token) : Prop :=
  Cols ts ∧ ∀ t ∈ ts, (isCollapsibleEnd t = true → sliceD src t = cs! "%}") ∧
    (isEolOrTerminator t = true → ∃ p, sliceD src t = p ++ ['\n'])

theorem Lined.left {src a b} (h : Lined src (a ++ b)) : Lined src a := ⟨h.1.left, fun t ht => h.2 t (by simp [ht])⟩
theorem Lined.right {src a b} (h : Lined src (a ++ b)) : Lined src b := ⟨h.1.right, fun t ht => h.2 t (by simp [ht])⟩
theorem Lined.tail {src t r} (h : Lined src (t :: r)) : Lined src r := Lined.right (a := [t]) h
theorem Lined.mem {src} {α : Type} {f : α → List Token} {l : List α} (h : Lined src (l.flatMap f)) {x} (hx : x ∈ l) :
    Lined src (f x) := by
  obtain ⟨a, b, rfl⟩ := List.append_of_mem hx
  rw [List.flatMap_append, List.flatMap_cons] at h
  exact h.right.left

theorem break_end {s : Str} (h : IsBreak s) : ∃ p, s = p ++ ['\n'] := by
  rcases h with rfl | rfl
  · exact ⟨[], rfl⟩
  · exact ⟨['\r'], rfl⟩

theorem lined_tokens (a : Str) : Lined a (tokens a) := by
  refine ⟨cols_tokens a, fun t ht => ⟨fun h => ?_, fun h => ?_⟩⟩
  · have hk : t.kind = .CollapsibleEnd := by
      simp only [isCollapsibleEnd, Bool.and_eq_true, decide_eq_true_eq] at h; exact h.1
    have := fixed_text (input := a) (t := t) (f := cs! "%}") (by rw [hk]; rfl) (fun _ => lexed_tokens ht)
    rwa [text_one] at this
  · obtain ⟨s, h1, h2, -⟩ := lexed_tokens ht
    simp only [isEolOrTerminator, Bool.or_eq_true, decide_eq_true_eq] at h
    rcases h with h | h
    · rw [h] at h2
      obtain ⟨p, hp⟩ := break_end h2
      exact ⟨p, by rw [h1, hp]⟩
    · rw [h] at h2
      obtain ⟨x, y, -, h3, rfl⟩ := h2
      obtain ⟨p, hp⟩ := break_end h3
      exact ⟨x ++ p, by rw [h1, hp, List.append_assoc]⟩

theorem Lined.flips {src a b} (h : Lined src a) (hf : Flips a b) : Lined src b := by
  refine ⟨hf.cols h.1, fun u hu => ?_⟩
  obtain ⟨t, ht, hr⟩ := hf.mem_left u hu
  rcases hr with rfl | ⟨-, rfl⟩
  · exact h.2 _ ht
  · simp [isCollapsibleEnd, isEolOrTerminator]

/-- No closing mark at the start of a line. -/
abbrev Free (ts : List Token) : Prop := ∀ t ∈ ts, isCollapsibleEnd t = false

theorem Free.append {a b : List Token} (h1 : Free a) (h2 : Free b) : Free (a ++ b) := by
  intro t ht; rcases List.mem_append.1 ht with h | h
  · exact h1 t h
  · exact h2 t h

theorem Free.cons {t : Token} {a : List Token} (h1 : isCollapsibleEnd t = false) (h2 : Free a) : Free (t :: a) := by
  intro u hu; rcases List.mem_cons.1 hu with rfl | h
  · exact h1
  · exact h2 u h

theorem Free.nil : Free [] := by intro t ht; cases ht

theorem Free.flatMap {α : Type} {f : α → List Token} {l : List α} (h : ∀ x ∈ l, Free (f x)) : Free (l.flatMap f) := by
  intro t ht
  obtain ⟨x, hx, ht⟩ := List.mem_flatMap.1 ht
  exact h x hx t ht

theorem noEndLine_iff {s : Str} : noEndLine s = true ↔ ¬ cs! "%}" <+: s ∧ ¬ cs! "\n%}" <:+: s := by
  unfold noEndLine
  rw [Bool.and_eq_true, Bool.not_eq_true', Bool.not_eq_true', ← Bool.not_eq_true, ← Bool.not_eq_true]
  unfold starts occurs
  rw [List.isPrefixOf_iff_prefix, decide_eq_true_iff]

/-- A string without a line starting with `%}` is made of tokens without a closing mark at the start of a line. -/
theorem free_text {src : Str} {b : List Token} (h : Lined src b) (hs : noEndLine (textOfToks src b) = true) :
    Free b := by
  intro t ht
  cases hx : isCollapsibleEnd t with
  | false => rfl
  | true =>
    exfalso
    obtain ⟨l, r, rfl⟩ := List.append_of_mem ht
    rw [noEndLine_iff] at hs
    have hsl := (h.2 t ht).1 hx
    have hcol : col0 t = true := by
      simp only [isCollapsibleEnd, Bool.and_eq_true] at hx; exact hx.2
    rcases List.eq_nil_or_concat l with rfl | ⟨l', u, rfl⟩
    · refine hs.1 ⟨textOfToks src r, ?_⟩
      rw [List.nil_append, text_cons, hsl]
    · rw [List.concat_eq_append, List.append_assoc] at h hs
      have hc := h.1.right
      have hu : isEolOrTerminator u = true := hc.1.2 hcol
      obtain ⟨p, hp⟩ := (h.2 u (by simp)).2 hu
      refine hs.2 ⟨textOfToks src l' ++ p, textOfToks src r, ?_⟩
      have : textOfToks src (l' ++ ([u] ++ t :: r)) = textOfToks src l' ++ (sliceD src u ++ (sliceD src t ++ textOfToks src r)) := by
        simp [textOfToks]
      rw [this, hp, hsl]
      simp

theorem infix_snoc {pat u : Str} {c : Char} (hp : pat.getLast? ≠ some c) (hne : pat ≠ []) (h : pat <:+: u ++ [c]) : pat <:+: u := by
  obtain ⟨a, b, e⟩ := h
  rcases List.eq_nil_or_concat b with rfl | ⟨b', x, rfl⟩
  · exfalso
    have := congrArg List.getLast? e
    obtain ⟨q, x, rfl⟩ : ∃ q x, pat = q ++ [x] := by
      rcases List.eq_nil_or_concat pat with rfl | ⟨q, x, rfl⟩
      · exact absurd rfl hne
      · exact ⟨q, x, List.concat_eq_append⟩
    rw [List.append_nil, ← List.append_assoc, List.getLast?_concat, List.getLast?_concat] at this
    rw [List.getLast?_concat] at hp
    exact hp this
  · rw [List.concat_eq_append, ← List.append_assoc] at e
    have := List.append_inj_left' e rfl
    exact ⟨a, b', this⟩

theorem prefix_snoc {pat u : Str} {c : Char} (hp : pat.getLast? ≠ some c) (h : pat <+: u ++ [c]) : pat <+: u := by
  obtain ⟨b, e⟩ := h
  rcases List.eq_nil_or_concat b with rfl | ⟨b', x, rfl⟩
  · exfalso
    have := congrArg List.getLast? e
    rw [List.append_nil] at this
    simp at this
    exact hp this
  · rw [List.concat_eq_append, ← List.append_assoc] at e
    exact ⟨b', List.append_inj_left' e rfl⟩

theorem noEndLine_trim {s : Str} (h : noEndLine (trimEndNl s) = true) : noEndLine s = true := by
  obtain ⟨n, e⟩ := trimEndNl_rest s
  have key : ∀ n (u : Str), noEndLine u = true → noEndLine (u ++ List.replicate n '\n') = true := by
    intro n
    induction n with
    | zero => intro u hu; simpa using hu
    | succ n ih =>
      intro u hu
      rw [List.replicate_succ, List.append_cons]
      refine ih _ ?_
      rw [noEndLine_iff] at hu ⊢
      exact ⟨fun hh => hu.1 (prefix_snoc (by decide) hh), fun hh => hu.2 (infix_snoc (by decide) (by decide) hh)⟩
  rw [e]
  exact key n _ h

/-! ### Inline content -/

theorem delim_free {src : Str} {d : Delim} (h : Lined src d.toks) (h1 : d.opening.kind ≠ .CollapsibleEnd)
    (h2 : d.closing.kind ≠ .CollapsibleEnd) (hs : noEndLine (textOfToks src d.body) = true) : Free d.toks :=
  Free.cons (not_end h1) (Free.append (free_text h.tail.left hs) (Free.cons (not_end h2) Free.nil))

theorem link_free {src : Str} {l : Link} (hok : l.Ok) (h : Lined src l.toks)
    (h1 : noEndLine (textOfToks src l.title.body) = true) (h2 : noEndLine (textOfToks src l.dest.body) = true) :
    Free l.toks := by
  obtain ⟨-, o1, o2, -, o3, o4⟩ := hok
  refine Free.append (delim_free h.left ?_ ?_ h1) (delim_free h.right ?_ ?_ h2)
  · intro hk; simp [isLeftBracket, hk] at o1
  · intro hk; simp [isRightBracket, hk] at o2
  · intro hk; simp [isLeftParen, hk] at o3
  · rw [o4]; simp

theorem Delim.Style.ends {d : Delim} (h : d.Style) : d.opening.kind ≠ .CollapsibleEnd ∧ d.closing.kind ≠ .CollapsibleEnd := by
  rcases h with ⟨-, h1, h2⟩ | ⟨-, h1, h2⟩ | ⟨-, h1, h2⟩ | ⟨-, h1, h2⟩
  · exact ⟨fun hk => by simp [isTilde2, hk] at h1, fun hk => by simp [isTilde2, hk] at h2⟩
  · exact ⟨fun hk => by simp [isUnderscore, hk] at h1, fun hk => by simp [isUnderscore, hk] at h2⟩
  · exact ⟨fun hk => by simp [isBacktick1, hk] at h1, fun hk => by simp [isBacktick1, hk] at h2⟩
  · exact ⟨fun hk => by simp [isStar1, hk] at h1, fun hk => by simp [isStar1, hk] at h2⟩

theorem Delim.BoldStyle.ends {d : Delim} (h : d.BoldStyle) :
    d.opening.kind ≠ .CollapsibleEnd ∧ d.closing.kind ≠ .CollapsibleEnd := by
  rcases h with ⟨-, h1, h2⟩ | ⟨-, h1, h2⟩
  · exact ⟨fun hk => by simp [isTilde2, hk] at h1, fun hk => by simp [isTilde2, hk] at h2⟩
  · exact ⟨fun hk => by simp [isUnderscore, hk] at h1, fun hk => by simp [isUnderscore, hk] at h2⟩

theorem inl_free {src : Str} {x : Inl} (hok : x.Ok) (h : Lined src x.toks)
    (hs : ∀ s ∈ inlineStrings [x.denote src], noEndLine s = true) : Free x.toks := by
  cases x with
  | text ts => exact free_text (b := ts) h (hs _ (by simp [inlineStrings, Inl.denote]))
  | delim d =>
    have he := Delim.Style.ends hok
    refine delim_free h he.1 he.2 (hs _ ?_)
    simp only [inlineStrings, Inl.denote, List.flatMap_cons, List.flatMap_nil, List.append_nil]
    split <;> rename_i heq <;> split at heq <;> simp_all
  | anchor l =>
    exact link_free hok h (hs _ (by simp [inlineStrings, Inl.denote, Link.denote]))
      (hs _ (by simp [inlineStrings, Inl.denote, Link.denote]))
  | bold o items c =>
    obtain ⟨h1, h2, h3, -⟩ := hok
    have hl : Lined src (items.flatMap BoldItem.toks) := h.tail.left
    refine Free.cons (not_end fun hk => by simp [isStar2, hk] at h1) (Free.append (Free.flatMap fun y hy => ?_)
      (Free.cons (not_end fun hk => by simp [isStar2, hk] at h2) Free.nil))
    have hy' := hl.mem hy
    have hmem : ∀ s, (match y.denote src with
        | .text s => s
        | .italic s => s
        | .strikethrough s => s) = s → noEndLine s = true := by
      intro s hs'
      refine hs s ?_
      simp only [inlineStrings, Inl.denote, List.flatMap_cons, List.flatMap_nil, List.append_nil, List.mem_map]
      exact ⟨y.denote src, ⟨y, hy, rfl⟩, hs'⟩
    cases y with
    | text ts => exact free_text hy' (hmem _ rfl)
    | delim d =>
      have he := Delim.BoldStyle.ends (h3 _ hy)
      refine delim_free hy' he.1 he.2 (hmem _ ?_)
      simp only [BoldItem.denote]
      split <;> rename_i heq <;> split at heq <;> simp_all

theorem inlineStrings_cons (x : ParagraphNode) (p : Paragraph) : inlineStrings (x :: p) = inlineStrings [x] ++ inlineStrings p := by
  simp [inlineStrings]

theorem inlineStrings_append (p q : Paragraph) : inlineStrings (p ++ q) = inlineStrings p ++ inlineStrings q := by
  simp [inlineStrings]

theorem inlineStrings_mem {x : ParagraphNode} {p : Paragraph} (h : x ∈ p) {s} (hs : s ∈ inlineStrings [x]) : s ∈ inlineStrings p := by
  obtain ⟨a, b, rfl⟩ := List.append_of_mem h
  rw [inlineStrings_append, inlineStrings_cons]
  simp [hs]

theorem para_free {src : Str} {l : List Inl} (hok : ParaOk l) (h : Lined src (paraToks l))
    (hs : ∀ s ∈ inlineStrings (paraDenote src l), noEndLine s = true) : Free (paraToks l) := by
  refine Free.flatMap fun x hx => inl_free (hok.1 x hx) (h.mem hx) fun s hm => hs s ?_
  exact inlineStrings_mem (List.mem_map_of_mem hx) hm

theorem trim_strings {p : Paragraph} (h : ∀ s ∈ inlineStrings (ToYamd.trimTrailingNewline p), noEndLine s = true) :
    ∀ s ∈ inlineStrings p, noEndLine s = true := by
  unfold ToYamd.trimTrailingNewline at h
  cases hl : p.getLast? with
  | none => rw [hl] at h; exact h
  | some x =>
    rw [hl] at h
    cases x with
    | text t =>
      simp only at h
      obtain ⟨q, rfl⟩ := List.getLast?_eq_some_iff.1 hl
      rw [List.dropLast_concat] at h
      intro s hs
      rw [inlineStrings_append] at hs
      rcases List.mem_append.1 hs with hs | hs
      · refine h s ?_
        split
        · exact hs
        · rw [inlineStrings_append]; simp [hs]
      · simp only [inlineStrings, List.flatMap_cons, List.flatMap_nil, List.append_nil, List.mem_singleton] at hs
        subst hs
        refine noEndLine_trim ?_
        by_cases h0 : trimEndNl s = []
        · rw [h0]; decide
        · rw [if_neg h0] at h
          refine h _ ?_
          rw [inlineStrings_append]
          simp [inlineStrings]
    | _ => exact h

theorem para_free_trim {src : Str} {l : List Inl} (hok : ParaOk l) (h : Lined src (paraToks l))
    (hs : ∀ s ∈ inlineStrings (ToYamd.trimTrailingNewline (paraDenote src l)), noEndLine s = true) :
    Free (paraToks l) := para_free hok h (trim_strings hs)

/-! ### Blocks -/

theorem line_free {f g : Token → Bool} {ts : List Token} (hf : ∀ t, f t = true → isCollapsibleEnd t = false)
    (hg : ∀ t, g t = true → isCollapsibleEnd t = false) (h : LineOf f g ts) : Free ts := by
  rcases h with ⟨t, rfl, h⟩ | ⟨t, e, rfl, h1, h2⟩
  · exact Free.cons (hf _ h) Free.nil
  · exact Free.cons (hf _ h1) (Free.cons (hg _ h2) Free.nil)

theorem pair_free {f g : Token → Bool} {ts : List Token} (hf : ∀ t, f t = true → isCollapsibleEnd t = false)
    (hg : ∀ t, g t = true → isCollapsibleEnd t = false) (h : PairOf f g ts) : Free ts := by
  obtain ⟨t, e, rfl, h1, h2⟩ := h
  exact Free.cons (hf _ h1) (Free.cons (hg _ h2) Free.nil)

theorem eol_free (t : Token) (h : isEol t = true) : isCollapsibleEnd t = false :=
  not_end fun hk => by simp [isEol, hk] at h

theorem marker_free {level k m} (h : MarkerOk level k m) : Free m := by
  have hk : ∀ a, ListKind.tryFrom a = some k → isCollapsibleEnd a = false := by
    intro a ha
    refine not_end fun h => ?_
    simp [ListKind.tryFrom, h] at ha
  have hs : ∀ b, isSpace1 b = true → isCollapsibleEnd b = false := by
    intro b hb
    exact not_end fun h => by simp [isSpace1, h] at hb
  rcases h with ⟨-, a, b, rfl, -, h1, h2⟩ | ⟨-, s, a, b, rfl, -, h3, -, h1, h2⟩
  · exact Free.cons (hk a h1) (Free.cons (hs b h2) Free.nil)
  · exact Free.cons (not_end (by simp [h3])) (Free.cons (hk a h1) (Free.cons (hs b h2) Free.nil))

theorem itemsTexts_cons (x : YItem) (r : List YItem) : itemsTexts (x :: r) = itemText x ++ itemsTexts r := by
  rw [itemsTexts]

theorem items_free {src : Str} : ∀ {i : Items} {level want}, i.Ok level want → Lined src i.toks →
    (∀ s ∈ (itemsTexts (i.denote src level)).flatMap inlineStrings, noEndLine s = true) → Free i.toks
  | .nil, _, _, _, _, _ => Free.nil
  | .cons k m p n r, level, want, h, hl, hs => by
    obtain ⟨-, hm, hp, hn, hr⟩ := h
    rw [Items.toks] at hl
    rw [Items.denote, itemsTexts_cons] at hs
    simp only [List.flatMap_append, List.mem_append] at hs
    have hs1 : ∀ s ∈ inlineStrings (ToYamd.trimTrailingNewline (paraDenote src p)), noEndLine s = true := by
      intro s h
      refine hs s (.inl ?_)
      cases wrapDenote n.kind (level + 1) (n.denote src (level + 1)) <;> simp [itemText, h]
    have hs2 : ∀ s ∈ (itemsTexts (n.denote src (level + 1))).flatMap inlineStrings, noEndLine s = true := by
      intro s h
      refine hs s (.inl ?_)
      cases n with
      | nil => simp [Items.denote, itemsTexts] at h
      | cons k' m' p' n' r' =>
        simp only [wrapDenote, Items.kind, Option.map_some, itemText, itemTexts, List.flatMap_cons, List.mem_append]
        exact .inr h
    exact Free.append (marker_free hm) (Free.append (para_free_trim hp hl.right.left hs1)
      (Free.append (items_free hn hl.right.right.left hs2)
        (items_free hr hl.right.right.right fun s h => hs s (.inr h))))

theorem mod_free {src : Str} {m : Option Mod} (h : ModOk m) (hl : Lined src (modToks m))
    (hs : ∀ s ∈ (modDenote src m).toList, noEndLine s = true) : Free (modToks m) := by
  cases m with
  | none => exact Free.nil
  | some m =>
    refine Free.append (free_text hl.left (hs _ (by simp [modDenote]))) (Free.cons (not_end fun hk => ?_) Free.nil)
    have := h.1
    simp [isEolOrTerminator, hk] at this

theorem iconLine_free {src : Str} {m : Option IconLine} (h : IconOk m) (hl : Lined src (iconToks m))
    (hs : ∀ s ∈ (iconDenote src m).toList, noEndLine s = true) : Free (iconToks m) := by
  cases m with
  | none => exact Free.nil
  | some m =>
    obtain ⟨h1, -, h3⟩ := h
    refine Free.append (pair_free ?_ ?_ h1)
      (Free.append (free_text hl.right.left (hs _ (by simp [iconDenote]))) (Free.cons (eol_free _ h3) Free.nil))
    · intro t ht; exact not_end fun hk => by simp [isOneBang, hk] at ht
    · intro t ht; exact not_end fun hk => by simp [isSpace1, hk] at ht

theorem img_free {src : Str} {i : Img} (h : i.Ok) (hl : Lined src i.toks)
    (h1 : noEndLine (i.denote src).alt = true) (h2 : noEndLine (i.denote src).src = true) : Free i.toks := by
  obtain ⟨hb, hlk, he, -⟩ := h
  refine Free.cons (not_end fun hk => by simp [isBang1, hk] at hb) (Free.append (link_free hlk hl.tail.left h1 h2) ?_)
  rcases he with e | ⟨e, he, h'⟩
  · rw [e]; exact Free.nil
  · rw [he]; exact Free.cons (eol_free _ h') Free.nil

/-- A block whose strings have no line starting with `%}`. -/
theorem block_free {src : Str} {b : Block} (h : b.Ok) (hl : Lined src b.toks) (hw : wrappable (b.denote src) = true) :
    (∃ o m x c, b = .code o m x c) ∨ Free b.toks := by
  cases b with
  | code o m x c => exact .inl ⟨o, m, x, c, rfl⟩
  | embed o l p r c =>
    right
    obtain ⟨h1, -, h2, -, h3⟩ := h
    simp only [Block.denote, wrappable, stringsIn, List.all_cons, List.all_nil, Bool.and_true, Bool.and_eq_true] at hw
    rw [Block.toks] at hl ⊢
    refine Free.cons (not_end fun hk => by simp [isLeftCurly2, hk] at h1) (Free.append (free_text hl.tail.left hw.1)
      (Free.cons (not_end fun hk => by simp [isPipe, hk] at h2) (Free.append (free_text hl.tail.right.tail.left hw.2)
        (line_free ?_ eol_free h3))))
    intro t ht; exact not_end fun hk => by simp [isRightCurly2, hk] at ht
  | highlight o m i b c =>
    right
    obtain ⟨h1, h2, h3, h4, h5⟩ := h
    simp only [Block.denote, wrappable, stringsIn, List.all_append, Bool.and_eq_true, List.all_eq_true] at hw
    have hb : ∀ t, isTwoBangs t = true → isCollapsibleEnd t = false :=
      fun t ht => not_end fun hk => by simp [isTwoBangs, hk] at ht
    rw [Block.toks] at hl ⊢
    refine Free.append (pair_free hb ?_ h1) (Free.append (mod_free h2 hl.right.left hw.1.1)
      (Free.append (iconLine_free h3 hl.right.right.left hw.1.2) (Free.append (Free.flatMap fun x hx => ?_)
        (line_free hb eol_free h5))))
    · intro t ht
      refine not_end fun hk => ?_
      simp [isSpace1, isEol, hk] at ht
    · have hx' := (hl.right.right.right.left).mem hx
      obtain ⟨ht, hp⟩ := h4 x hx
      refine Free.append ?_ (para_free_trim hp hx'.right fun s hs => hw.2 s ?_)
      · rcases ht with e | ⟨t, e, h'⟩
        · rw [e]; exact Free.nil
        · rw [e]; exact Free.cons (not_end fun hk => by simp [isTerminator, hk] at h') Free.nil
      · rw [List.flatMap_map]
        exact List.mem_flatMap.2 ⟨x, hx, hs⟩
  | list i =>
    right
    simp only [Block.denote, wrappable, stringsIn, List.all_eq_true, itemTexts] at hw
    exact items_free h.1 hl hw
  | images l =>
    right
    have hw' : ∀ i ∈ l, noEndLine (i.denote src).alt = true ∧ noEndLine (i.denote src).src = true := by
      intro i hi
      match l, hi with
      | [j], hi =>
        simp only [List.mem_singleton] at hi
        subst hi
        simpa [Block.denote, wrappable, stringsIn] using hw
      | j :: k :: l, hi =>
        simp only [Block.denote, wrappable, stringsIn, List.all_eq_true] at hw
        exact ⟨hw _ (List.mem_flatMap.2 ⟨i.denote src, List.mem_map_of_mem hi, by simp⟩),
          hw _ (List.mem_flatMap.2 ⟨i.denote src, List.mem_map_of_mem hi, by simp⟩)⟩
    refine Free.flatMap fun i hi => img_free (h.2 i hi) (Lined.mem (f := Img.toks) hl hi) (hw' i hi).1 (hw' i hi).2
  | thematic t =>
    right
    exact Free.cons (not_end fun hk => by simp [Block.Ok, isDash5, hk] at h) Free.nil
  | heading m b =>
    right
    obtain ⟨⟨a, s, rfl, h1, h2⟩, hb⟩ := h
    simp only [Block.denote, wrappable, stringsIn, headingStrings, List.all_eq_true] at hw
    rw [Block.toks] at hl ⊢
    refine Free.append (Free.cons (not_end fun hk => by simp [isHash, hk] at h1)
      (Free.cons (not_end fun hk => by simp [isSpace1, hk] at h2) Free.nil)) (Free.flatMap fun x hx => ?_)
    have hx' := hl.right.mem hx
    have hm : ∀ s, (s ∈ match x.denote src with
        | .text s => [s]
        | .anchor a => [a.text, a.url]) → noEndLine s = true := by
      intro s hs
      exact hw s (List.mem_flatMap.2 ⟨_, List.mem_map_of_mem hx, hs⟩)
    cases x with
    | text ts => exact free_text (b := ts) hx' (hm _ (by simp [HeadItem.denote]))
    | anchor l =>
      exact link_free (hb.1 _ hx) hx' (hm _ (by simp [HeadItem.denote, Link.denote]))
        (hm _ (by simp [HeadItem.denote, Link.denote]))
  | para l =>
    right
    simp only [Block.denote, wrappable, stringsIn, List.all_eq_true] at hw
    exact para_free h hl hw

/-- A document of wrappable blocks. -/
theorem doc_free {src : Str} : ∀ {d : Doc}, d.Ok → Lined src d.toks → (d.denote src).all wrappable = true → d.Free
  | .nil, _, _, _ => trivial
  | .term t r, h, hl, hw => doc_free (d := r) h.2 hl.tail hw
  | .block b r, h, hl, hw => by
    rw [Doc.denote, List.all_cons, Bool.and_eq_true] at hw
    exact ⟨block_free h.1 hl.left hw.1, doc_free h.2 hl.right hw.2⟩
  | .coll o m i s c r, h, hl, hw => by
    rw [Doc.denote, List.all_cons, Bool.and_eq_true] at hw
    refine ⟨?_, doc_free h.2.2.2.2.2 ?_ hw.2⟩
    · rintro rfl
      simp [wrappable, Doc.denote] at hw
    · rw [Doc.toks] at hl
      exact hl.right.right.right.right.right

end Yamd.Ref
