import Verif.Proofs.Round.Good

/-!
# Headings, images, thematic breaks and embeds
-/

namespace Yamd.Round

open Yamd Yamd.Spec Yamd.Lexer Yamd.Ref

theorem stop_kind {stops t r} (hd : DStops stops) (h1 : t.kind ≠ .CollapsibleEnd) (h2 : t.kind ≠ .Eol) :
    stopAt stops (t :: r) = false := by
  rw [stopAt, List.any_eq_false]
  intro st hst
  rw [hd st hst]
  simp [stopHere, h1, h2]

theorem codeB_no {stops t r} (h : t.kind ≠ .Backtick) : codeB stops (t :: r) = none := by
  rw [codeB, if_neg (by simp [isBacktick3, h])]

theorem otherB_leaf {stops t r} (h1 : t.kind ≠ .LeftCurlyBrace) (h2 : isTwoBangs t = false) :
    otherB stops (t :: r) = leafB (.Terminator :: stops) (t :: r) := by
  have e1 : embedB stops (t :: r) = none := by rw [embedB, if_neg (by simp [isLeftCurly2, h1])]
  have e2 : highlightB stops (t :: r) = none := by
    rw [highlightB, tokenIs_zero, h2]; simp
  unfold otherB
  rw [e1, e2]

theorem markerB_no {t r} (h : isListMarker none t = false) : markerB 0 none (t :: r) = none := by
  rw [markerB, tokenIs_zero, tokenIs_zero, h]; simp

theorem notMarker {t : Token} (h1 : t.kind ≠ .Minus) (h2 : t.kind ≠ .Plus) : isListMarker none t = false := by
  cases h : isListMarker none t with
  | false => rfl
  | true => rcases listMarker_kind h with e | e <;> contradiction

theorem leafB_noitem {S t r} (h : isListMarker none t = false) (hb : t.kind ≠ .Bang) :
    leafB S (t :: r) = match thematicB (t :: r) with
      | some x => x
      | none =>
        match headingB S (t :: r) with
        | some x => x
        | none => (.para (paraB S [] (t :: r)).1, (paraB S [] (t :: r)).2) := by
  have hi : imageB S (t :: r) = none := by rw [imageB, if_neg (by simp [isBang1, hb])]
  unfold leafB
  rw [itemsB_none (markerB_no h), imagesB_none hi]
  split
  · simp_all
  · split at *
    · rename_i h1 h2
      split at h2 <;> simp at h2
    · rfl

/-! ### Thematic breaks -/

theorem good_thematic {c stops} (hi : Inside c stops) : Good stops .thematicBreak (cs! "-----") := by
  refine ⟨free (cs! "-----"), rfl, ⟨valid_free (by decide), by decide, ?_⟩, fun _ => by simp [CleanEnd, free], fun _ => ?_⟩
  · intro src ts hs
    obtain ⟨t, rfl, st⟩ := spv_one (p := ⟨false, .Minus, cs! "-----"⟩) rfl hs
    have hk : t.kind = .Minus := st.kind
    have hl : t.len = 5 := st.len
    refine reads_other (fun rest hr => ?_)
    have e : otherB stops ([t] ++ rest) = (.thematic t, rest) := by
      rw [List.cons_append, List.nil_append, otherB_leaf (by simp [hk]) (by simp [isTwoBangs, hk]),
        leafB_noitem (by simp [isListMarker, ListKind.tryFrom, hk, hl]) (by simp [hk])]
      rw [thematicB, if_pos (by simp [isDash5, hk, hl, st.col])]
    refine ⟨stop_kind hi.1 (by simp [hk]) (by simp [hk]), by simp [tokenIs, isTerminator, hk],
      codeB_no (by simp [hk]), by simp [tokenIs, isCollapsibleStart, hk], ?_, ?_⟩
    · rw [e]; rfl
    · rw [e]; exact .inl rfl
  · constructor <;> decide

/-! ### Headings -/

/-- Mark every free `a`. -/
def mark (a : Char) (v : V) : V := v.map (fun x => if x = (false, a) then (true, a) else x)

theorem replace_one {a : Char} (ha : a ≠ '\\') : ∀ {v : V}, (true, a) ∉ v →
    replace [a] ['\\', a] (render v) = render (mark a v)
  | [], _ => replace_nil _ _
  | (true, c) :: v, h => by
    have hca : c ≠ a := by rintro rfl; simp at h
    have e : mark a ((true, c) :: v) = (true, c) :: mark a v := by simp [mark]
    rw [e, render_esc, render_esc, replace_no (by simp [List.isPrefixOf, ha]),
      replace_no (by simp [List.isPrefixOf, Ne.symm hca]), replace_one ha (fun hm => h (by simp [hm]))]
  | (false, c) :: v, h => by
    by_cases hca : c = a
    · subst hca
      have e : mark c ((false, c) :: v) = (true, c) :: mark c v := by simp [mark]
      have := replace_yes (pat := [c]) (rep := ['\\', c]) (s := render v) (by simp)
      rw [List.singleton_append] at this
      rw [e, render_free, render_esc, this, replace_one ha (fun hm => h (by simp [hm]))]; rfl
    · have e : mark a ((false, c) :: v) = (false, c) :: mark a v := by simp [mark, hca]
      rw [e, render_free, render_free, replace_no (by simp [List.isPrefixOf, Ne.symm hca]),
        replace_one ha (fun hm => h (by simp [hm]))]

theorem more_mark (a : Char) : ∀ v : V, More v (mark a v)
  | [] => trivial
  | x :: v => by
    refine ⟨?_, more_mark a v⟩
    by_cases h : x = (false, a)
    · right; subst h; simp
    · left; simp [h]

def headW : HeadingNode → V
  | .text s => mark '#' (bodyV ['\\'] s)
  | .anchor a => linkV (bodyV [']', '[', '\\'] a.text) (bodyV [')', '(', '\\'] a.url)

theorem headW_eq (n : HeadingNode) : n.display = render (headW n) := by
  cases n with
  | anchor a => exact anchor_eq a
  | text s =>
    show replace (cs! "#") (cs! "\\#") (replace (cs! "\n\n") (cs! "\\\n\n") (replace (cs! "\\") (cs! "\\\\") s)) = _
    rw [show replace (cs! "\\") (cs! "\\\\") s = _ from replace_backslash s, replace_blank (by simp)]
    exact replace_one (by decide) (bodyV_notEsc (by simp) (by decide))

theorem headW_ok {pl : Place} {stops} (hp : Placed pl stops) {n : HeadingNode} (h : safeHeadingNode pl n = true) :
    HeadV stops false n (headW n) := by
  cases n with
  | text s =>
    simp only [safeHeadingNode, Bool.and_eq_true, Bool.not_eq_true'] at h
    obtain ⟨h1, h2⟩ := h
    have hb := bodyV_body (S := []) (S' := ['\\']) (s := s) (stops := stops) (by simp) (by simp) (safeBody_q hp h2)
    refine ⟨by simpa using h1, hb.more (more_mark '#' _), ?_⟩
    intro c hc hm
    obtain ⟨x, hx, e⟩ := List.mem_map.1 hm
    have hne : c ≠ '#' ∧ c ≠ '\n' ∧ c ∉ ['\\'] := by
      simp only [List.mem_cons, List.not_mem_nil, or_false] at hc
      rcases hc with rfl | rfl | rfl | rfl <;> decide
    split at e
    · simp only [Prod.mk.injEq, true_and] at e
      exact hne.1 e.symm
    · subst e
      exact bodyV_notEsc hne.2.2 hne.2.1 hx
  | anchor a =>
    simp only [safeHeadingNode, safeAnchor, Bool.and_eq_true] at h
    exact ⟨_, _, rfl, bodyV_body (by simp) (by simp) (safeBody_q hp h.1), bodyV_body (by simp) (by simp) (safeBody_q hp h.2)⟩

theorem headsW_ok {pl : Place} {stops} (hp : Placed pl stops) : ∀ {l : List HeadingNode}, l.all (safeHeadingNode pl) = true →
    SeqV (HeadV stops) false l (l.flatMap headW)
  | [], _ => rfl
  | n :: l, h => by
    rw [List.all_cons, Bool.and_eq_true] at h
    exact ⟨_, _, rfl, headW_ok hp h.1, headsW_ok hp h.2⟩

theorem headsW_eq (l : List HeadingNode) : (l.map HeadingNode.display).flatten = render (l.flatMap headW) := by
  rw [render_flatMap]
  congr 1
  exact List.map_congr_left (fun n _ => headW_eq n)

theorem heads_clean_end {stops b p v} (h : SeqV (HeadV stops) b p v) (hp : p ≠ []) (he : endsLine (trailingHeadingText p) = false) :
    CleanEnd v := by
  obtain ⟨b', n, w, e, hn, hl⟩ := seq_last head_shape h hp
  have key : ∀ c, (c = '\n' ∨ c = '\r') → v.getLast? ≠ some (false, c) := by
    intro c hc hv
    rw [hl] at hv
    have hsh := (head_shape _ _ _ hn).1.ends
    cases n with
    | text s =>
      have := last_chars hv
      rw [hn.2.1.chars] at this
      rw [trailingHeadingText, e] at he
      simp only [endsLine, this] at he
      rcases hc with rfl | rfl <;> simp at he
    | anchor a =>
      simp only [headShape] at hsh
      rw [hsh.2] at hv
      simp only [Option.some.injEq, Prod.mk.injEq, true_and] at hv
      subst hv
      revert hc; decide
  exact ⟨key _ (.inl rfl), key _ (.inr rfl)⟩

theorem heads_space {stops b p v} (h : SeqV (HeadV stops) b p v) (he : starts (cs! " ") (leadingHeadingText p) = false) :
    v.head? ≠ some (false, ' ') := by
  cases p with
  | nil => have : v = [] := h; subst this; simp
  | cons n p =>
    obtain ⟨v1, v2, rfl, h1, -⟩ := h
    have hsh := (head_shape _ _ _ h1).1
    obtain ⟨x, r, e⟩ := List.exists_cons_of_ne_nil hsh.ne
    subst e
    intro hh
    simp only [List.cons_append, List.head?_cons, Option.some.injEq] at hh
    subst hh
    cases n with
    | text s =>
      have := h1.2.1.chars
      simp only [List.map_cons] at this
      rw [leadingHeadingText, ← this] at he
      simp [starts, List.isPrefixOf] at he
    | anchor a =>
      have := hsh.ends
      simp [headShape] at this

theorem headB_reads {stops l rest} (h : ∀ x ∈ l, HeadItemOk (.Terminator :: stops) x) (hl : HeadsPlain l) (hp : NoPair isTextH l)
    (hr : Bd stops rest) : headB (.Terminator :: stops) [] (l.flatMap HeadItem.toks ++ rest) = (l, rest) :=
  (headB_exec h hl hp hr.stop (hr.calm _)).1

theorem good_heading {c stops level b} (hi : Inside c stops) (h : safeLeaf ⟨c⟩ (.heading level b) = true) :
    Good stops (.heading level b) (displayHeading level b) := by
  simp only [safeLeaf, Bool.and_eq_true, Bool.not_eq_true', decide_eq_true_eq] at h
  obtain ⟨⟨⟨⟨⟨h1, h6⟩, hall⟩, hpl⟩, hcl⟩, hsp⟩ := h
  have hw : SeqV (HeadV (.Terminator :: stops)) false b (b.flatMap headW) := headsW_ok hi.placed hall
  have hwv : Valid (b.flatMap headW) := seq_valid head_shape hw
  have hne : List.replicate level '#' ≠ [] := by simp; omega
  have hhash : ∀ x ∈ List.replicate level '#', x = '#' := fun x hx => List.eq_of_mem_replicate hx
  have hvh : Valid (free (List.replicate level '#')) := valid_free (fun hm => by have := hhash _ hm; simp at this)
  obtain ⟨n, rfl⟩ : ∃ n, level = n + 1 := ⟨level - 1, by omega⟩
  have htok : tok1 (List.replicate (n + 1) '#') = some (⟨false, .Hash, List.replicate (n + 1) '#'⟩, []) := by
    have e1 : (List.replicate n '#').takeWhile (· == '#') = List.replicate n '#' := by simp
    have e2 : (List.replicate n '#').dropWhile (· == '#') = [] := by simp
    rw [List.replicate_succ, tok1.eq_def]
    simp only
    rw [if_neg (by decide)]
    simp only [lineBreak, tokPlain, runKind]
    simp [e1]
  have hj1 : Join (free (List.replicate (n + 1) '#')) (free [' '] ++ b.flatMap headW) := by
    refine join_after (c := '#') hvh ?_ (by decide) (by decide) (by simp) (.inr (by simp [free]))
    rw [free_getLast, List.getLast?_replicate]; simp
  have hj2 : Join (free [' ']) (b.flatMap headW) := by
    refine join_known (l := []) (p := ⟨false, .Space, [' ']⟩) (valid_free (by decide)) (pieces_one rfl) ?_
    have hh := heads_space hw hsp
    simp only [joinOk, runCharOf, bne_iff_ne, ne_eq]
    intro e
    exact hh (render_head (by decide) e)
  refine ⟨free (List.replicate (n + 1) '#') ++ (free [' '] ++ b.flatMap headW), ?_, ⟨?_, ?_, ?_⟩, ?_, ?_⟩
  · rw [render_append, render_append, render_free_all, render_free_all, displayHeading, headsW_eq]; rfl
  · exact hvh.append ((valid_free (by decide)).append hwv)
  · simp [free]
  · intro src ts hs
    obtain ⟨t1, t2, rfl, s1, s2⟩ := spv_split hvh hj1 hs
    obtain ⟨t, rfl, st⟩ := spv_one (p := ⟨false, .Hash, List.replicate (n + 1) '#'⟩) (by rw [render_free_all]; exact htok) s1
    obtain ⟨t3, t4, rfl, s3, s4⟩ := spv_split (valid_free (by decide)) hj2 s2
    obtain ⟨u, rfl, su⟩ := spv_one (p := ⟨false, .Space, [' ']⟩) rfl s3
    have hfl : ∀ b, flag b (free [' ']) = false := fun b => rfl
    rw [hfl] at s4
    obtain ⟨l, rfl, ok, pl, np, den⟩ := heading_tree hw (chainH hcl) hpl s4
    have hk : t.kind = .Hash := st.kind
    have hl : t.len = n + 1 := by
      rw [st.len]
      have : ∀ n, blen (List.replicate n '#') = n := by
        intro n
        induction n with
        | zero => rfl
        | succ n ih => rw [List.replicate_succ, blen, ih]; simp only [show '#'.utf8Size = 1 from rfl]; omega
      exact this _
    have hu : isSpace1 u = true := by simp [isSpace1, su.kind, su.len]; rfl
    refine reads_other (fun rest hr => ?_)
    have hb := headB_reads ok pl np hr
    have e : otherB stops ([t] ++ ([u] ++ l.flatMap HeadItem.toks) ++ rest) = (.heading [t, u] l, rest) := by
      simp only [List.cons_append, List.nil_append]
      rw [otherB_leaf (by simp [hk]) (by simp [isTwoBangs, hk]), leafB_noitem (notMarker (by simp [hk]) (by simp [hk])) (by simp [hk])]
      rw [thematicB, if_neg (by simp [isDash5, hk]), headingB, tokenIs_zero, tokenIs_one, hu,
        show isHash t = true by simp [isHash, hk, st.col, hl]; omega]
      simp only [Bool.and_self, if_true, List.take_succ_cons, List.take_zero, List.drop_succ_cons, List.drop_zero]
      rw [hb]
    refine ⟨stop_kind hi.1 (by simp [hk]) (by simp [hk]), by simp [tokenIs, isTerminator, hk],
      codeB_no (by simp [hk]), by simp [tokenIs, isCollapsibleStart, hk], ?_, ?_⟩
    · rw [e]
      simp only [Block.denote, den]
      congr 1
      rw [headLevel, text_cons, text_cons, st.text, su.text]
      simp only
      rw [List.takeWhile_append_of_pos (by simp)]
      simp [textOfToks]
      omega
    · rw [e]; exact .inl rfl
  · intro he
    simp only [endsClean, Bool.not_eq_true'] at he
    by_cases hb : b = []
    · subst hb
      simp [CleanEnd, free, List.getLast?_append]
    · have := heads_clean_end hw hb he
      have hne : b.flatMap headW ≠ [] := by
        cases b with
        | nil => exact absurd rfl hb
        | cons m b =>
          obtain ⟨v1, v2, e, g1, -⟩ := hw
          rw [e]
          have := (head_shape _ _ _ g1).1.ne
          simp [this]
      unfold CleanEnd
      rw [last_append (by simp [hne]), last_append hne]
      exact this
  · intro _
    constructor <;> simp [List.replicate_succ, free]

end Yamd.Round
