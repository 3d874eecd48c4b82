import Verif.Proofs.Exact.ParaLead
import Verif.Proofs.SteadyBlocks

/-!
# A heading that is read back is safe
-/

namespace Yamd.Round

open Yamd Yamd.Spec Yamd.Lexer Yamd.Ref

theorem mark_chars (a : Char) (v : V) : (mark a v).map Prod.snd = v.map Prod.snd := by
  unfold mark
  rw [List.map_map]
  refine List.map_congr_left fun x _ => ?_
  simp only [Function.comp]
  split
  · rename_i h; rw [h]
  · rfl

theorem NB.of_mark {a : Char} {v : V} (ha : a ≠ '\n' ∧ a ≠ '\r') (h : NB (mark a v)) : NB v := by
  have key : ∀ pat : Str, a ∉ pat → free pat <:+: v → free pat <:+: mark a v := by
    rintro pat hp ⟨x, y, rfl⟩
    refine ⟨mark a x, mark a y, ?_⟩
    unfold mark
    rw [List.map_append, List.map_append]
    congr 2
    unfold free
    rw [List.map_map]
    refine List.map_congr_left fun c hc => ?_
    have : c ≠ a := by rintro rfl; exact hp hc
    simp [this]
  exact ⟨fun hi => h.1 (key _ (by simp [ha]) hi), fun hi => h.2 (key _ (by simp [ha]) hi)⟩

theorem headW_valid (n : HeadingNode) : Valid (headW n) := by
  cases n with
  | text s => exact (more_mark '#' _).valid (bodyV_valid (by simp) s)
  | anchor a => exact (link_shape (bodyV_valid (by simp) _) (bodyV_valid (by simp) _)).1

theorem headsW_valid (l : List HeadingNode) : Valid (l.flatMap headW) := by
  intro hm
  obtain ⟨n, hn, hx⟩ := List.mem_flatMap.1 hm
  exact headW_valid n hx

theorem headItem_text {src : Str} {x : HeadItem} (hx : x.Ok) (hl : Live src x.toks) :
    textOfToks src x.toks = (headW (x.denote src)).map Prod.snd := by
  cases x with
  | text ts => simp only [HeadItem.denote, headW, mark_chars, bodyV_chars]; rfl
  | anchor l =>
    simp only [HeadItem.denote, headW, linkV_chars, bodyV_chars, Link.denote]
    refine (link_text hx hl).trans ?_
    simp

theorem heads_text {src : Str} : ∀ {l : List HeadItem}, (∀ x ∈ l, x.Ok) → Live src (l.flatMap HeadItem.toks) →
    textOfToks src (l.flatMap HeadItem.toks) = ((l.map (HeadItem.denote src)).flatMap headW).map Prod.snd
  | [], _, _ => rfl
  | x :: l, h, hl => by
    rw [List.flatMap_cons] at hl
    rw [List.flatMap_cons, text_append, List.map_cons, List.flatMap_cons, List.map_append,
      headItem_text (h x (by simp)) (hl.infix ⟨[], l.flatMap HeadItem.toks, rfl⟩),
      heads_text (fun y hy => h y (by simp [hy])) (hl.infix ⟨x.toks, [], by simp⟩)]

/-- Two ways to divide tokens into items of the same nodes are the same. -/
theorem items_align {src : Str} : ∀ {l l' : List HeadItem}, l.flatMap HeadItem.toks = l'.flatMap HeadItem.toks →
    l.map (HeadItem.denote src) = l'.map (HeadItem.denote src) →
    (∀ t ∈ l.flatMap HeadItem.toks, sliceD src t ≠ []) →
    (∀ x ∈ l, textOfToks src x.toks = (headW (x.denote src)).map Prod.snd) →
    (∀ x ∈ l', textOfToks src x.toks = (headW (x.denote src)).map Prod.snd) →
    ∀ ts, .text ts ∈ l → .text ts ∈ l'
  | [], _, _, _, _, _, _, _, h => by simp at h
  | x :: l, [], _, e2, _, _, _, _, _ => by simp at e2
  | x :: l, y :: l', e1, e2, hn, h1, h2, ts, hts => by
    simp only [List.map_cons, List.cons.injEq] at e2
    rw [List.flatMap_cons, List.flatMap_cons] at e1
    have ht : textOfToks src x.toks = textOfToks src y.toks := by rw [h1 x (by simp), h2 y (by simp), e2.1]
    have hxy : x.toks = y.toks ∧ l.flatMap HeadItem.toks = l'.flatMap HeadItem.toks := by
      have empty : ∀ {a w : List Token}, (∀ t ∈ w, sliceD src t ≠ []) → textOfToks src (a ++ w) = textOfToks src a → w = [] := by
        intro a w hw e
        cases w with
        | nil => rfl
        | cons t w =>
          rw [text_append, text_cons] at e
          have := congrArg List.length e
          have h3 := List.length_pos_iff.2 (hw t (by simp))
          simp only [List.length_append] at this
          omega
      rcases List.append_eq_append_iff.1 e1 with ⟨w, a1, a2⟩ | ⟨w, a1, a2⟩
      · have hw : w = [] := empty (a := x.toks) (fun t ht => hn t (by rw [List.flatMap_cons, a2]; simp [ht])) (by rw [← a1, ht])
        subst hw
        simp only [List.append_nil, List.nil_append] at a1 a2
        exact ⟨a1.symm, a2⟩
      · have hw : w = [] := empty (a := y.toks) (fun t ht => hn t (by rw [List.flatMap_cons, a1]; simp [ht])) (by rw [← a1, ht])
        subst hw
        simp only [List.append_nil, List.nil_append] at a1 a2
        exact ⟨a1, a2.symm⟩
    rcases List.mem_cons.1 hts with e | hts
    · subst e
      cases y with
      | text us =>
        have : ts = us := hxy.1
        subst this; simp
      | anchor k => have := e2.1; simp [HeadItem.denote] at this
    · refine List.mem_cons_of_mem _ (items_align hxy.2 e2.2 (fun t ht => hn t (by rw [List.flatMap_cons]; simp [ht]))
        (fun z hz => h1 z (by simp [hz])) (fun z hz => h2 z (by simp [hz])) ts hts)

/-- A node of a heading with its own view. -/
def OwnH (b : Bool) (n : HeadingNode) (v : V) : Prop := HeadV [.Terminator] b n v ∧ v = headW n

theorem ownH_shape (b : Bool) (n : HeadingNode) (v : V) (h : OwnH b n v) : HasShape [] (headShape n) v ∧ ShapeOk [] (headShape n) :=
  head_shape b n v h.1

theorem brk_of {src b t p} (h : SpT src b t p) (hf : KindText p.kind p.esc p.text) (hlex : t.kind ≠ .Literal → Lexed src t)
    (he : ∀ c ∈ ['[', ']', '(', ')'], (true, c) ∉ pview p) : Brk src t := by
  refine ⟨by rw [h.text]; exact form_ne_nil hf, hlex, ?_⟩
  intro k c hk hc hm
  rcases single_iff h hf hk hc (he c hc) with ⟨a1, a2, a3⟩ | ⟨-, a2⟩
  · exact ⟨a1, by rw [h.text, a3], a2⟩
  · rw [h.text] at hm; exact absurd hm a2

theorem ownH_tree {src : Str} (b : Bool) (n : HeadingNode) (v : V) (bs : Bool) (ts : List Token)
    (h : OwnH b n v) (hb : headShape n = .text → bs = b) (hs : SpV src bs ts v) :
    ∃ x : HeadItem, x.toks = ts ∧ (textOfToks src x.toks = (headW (x.denote src)).map Prod.snd ∧
      ∀ us, x = .text us → ∀ t ∈ us, (t.kind ≠ .Literal → Lexed src t) → Brk src t) ∧ x.denote src = n := by
  obtain ⟨x, e1, -, den⟩ := head_node_tree b n v bs ts h.1 hb hs
  obtain ⟨hN, rfl⟩ := h
  refine ⟨x, e1, ⟨by rw [e1, den, spv_text (headW_valid n) hs], ?_⟩, den⟩
  rintro us rfl t ht hlex
  obtain rfl : us = ts := e1
  cases n with
  | anchor a => simp [HeadItem.denote] at den
  | text s =>
    obtain ⟨p, v1, v2, e, hp, hf, he⟩ := spv_mem (headW_valid _) hs ht
    refine brk_of hp hf hlex (fun c hc hm => hN.2.2 c hc ?_)
    rw [e]; simp [hm]

theorem ownH_seq : ∀ {l : List HeadingNode}, l.all (safeHeadingNode ⟨false⟩) = true → SeqV OwnH false l (l.flatMap headW)
  | [], _ => rfl
  | n :: r, h => by
    rw [List.all_cons, Bool.and_eq_true] at h
    exact ⟨headW n, _, rfl, ⟨headW_ok placed_out h.1, rfl⟩, ownH_seq h.2⟩

theorem NB.head {n : HeadingNode} (h : NB (headW n)) (hn : ∀ s, n = .text s → s ≠ []) : safeHeadingNode ⟨false⟩ n = true := by
  cases n with
  | text s =>
    have := NB.body (by simp) (by simp) (NB.of_mark (by decide) h)
    have hs := hn s rfl
    simp [safeHeadingNode, safeBody_out, this, hs]
  | anchor a =>
    obtain ⟨h1, h2⟩ := NB.link h
    simp [safeHeadingNode, safeAnchor, safeBody_out, NB.body (by simp) (by simp) h1, NB.body (by simp) (by simp) h2]

/-- A heading that is read back is safe. -/
theorem heading_exact {level : Nat} {b : List HeadingNode} (h : deserialize (displayHeading level b) = .ok ⟨none, [.heading level b]⟩) :
    safeLeaf ⟨false⟩ (.heading level b) = true := by
  generalize hd : displayHeading level b = d at h
  obtain ⟨t1, bl, t2, D, hf, hl, b1, b2, ok, den, hD⟩ := reads_one (fun _ _ => by simp) h
  obtain ⟨m, l, rfl, hlev, hden⟩ : ∃ m l, bl = .heading m l ∧ headLevel d m = level ∧ l.map (HeadItem.denote d) = b := by
    cases bl with
    | heading m l =>
      simp only [Block.denote, YamdNode.heading.injEq] at den
      exact ⟨m, l, rfl, den.1, den.2⟩
    | images l =>
      match l with
      | [] => simp [Block.denote] at den
      | [i] => simp [Block.denote] at den
      | i :: j :: l => simp [Block.denote] at den
    | _ => simp [Block.denote, YamdNode.newCode] at den
  obtain ⟨hm, okh⟩ := ok
  have hlb : Live d (m ++ l.flatMap HeadItem.toks) := hl.infix ⟨t1, t2, by simp [Block.toks]⟩
  have hlm : Live d m := hlb.infix ⟨[], l.flatMap HeadItem.toks, by simp⟩
  have hll : Live d (l.flatMap HeadItem.toks) := hlb.infix ⟨m, [], by simp⟩
  have hlevel := heading_level hlm hm
  rw [hlev] at hlevel
  obtain ⟨a, s, rfl, ha, hsp⟩ := hm
  simp only [isHash, Bool.and_eq_true, decide_eq_true_eq] at ha
  have sa := (hlm.lexed a (by simp) (by rw [ha.1.1]; decide)).run (c := '#') (by rw [ha.1.1]; rfl)
  have ss : sliceD d s = [' '] := run_slice hlm (by simp) hsp (c := ' ') rfl
  have hal : a.len = level := by
    rw [← hlev]
    have : ((textOfToks d [a, s]).takeWhile (· == '#')).length = a.len := by
      rw [text_cons, text_one, sa.1, ss]
      rw [List.takeWhile_append_of_pos (by simp)]
      simp
    unfold headLevel
    rw [this, Nat.mod_eq_of_lt (by omega)]
  have htext := heads_text okh.1 hll
  rw [hden] at htext
  -- the view
  have hvh : Valid (free (List.replicate level '#')) := valid_free (fun hm => by have := List.eq_of_mem_replicate hm; simp at this)
  have hvalid : Valid (free (List.replicate level '#') ++ (free [' '] ++ b.flatMap headW)) :=
    hvh.append ((valid_free (by decide)).append (headsW_valid b))
  have ev : d = render (free (List.replicate level '#') ++ (free [' '] ++ b.flatMap headW)) := by
    rw [render_append, render_append, render_free_all, render_free_all, ← hd, displayHeading, headsW_eq]; rfl
  have hs : SpV d true (tokens d) (free (List.replicate level '#') ++ (free [' '] ++ b.flatMap headW)) := by
    unfold SpV; rw [← ev]; exact sp_tokens d
  have hu : unescape d = List.replicate level '#' ++ ([' '] ++ (b.flatMap headW).map Prod.snd) := by
    rw [ev, unescape_render hvalid]
    simp only [List.map_append, free_chars]
  obtain ⟨rfl, rfl⟩ := no_blanks hf hl (by
    rw [hu, Block.toks, text_append, htext, text_cons, text_one, sa.1, ss, hal]
    simp)
  simp only [Block.toks, List.nil_append, List.append_nil, List.cons_append] at hf
  have hnt : NoTerm (tokens d) := by
    refine hf.noTerm (.cons ?_ (.cons ?_ okh.2.2))
    · rw [ha.1.1]; decide
    · rw [kind_of_len hsp]; decide
  obtain ⟨r, ets⟩ : ∃ r, tokens d = a :: s :: r := by
    generalize tokens d = T at hf
    cases hf with
    | cons x1 y1 =>
      cases y1 with
      | cons x2 y2 =>
        rw [flipRel_kind x1 (by rw [ha.1.1]; decide), flipRel_kind x2 (by rw [kind_of_len hsp]; decide)]
        exact ⟨_, rfl⟩
  have hnb : NB (b.flatMap headW) := NB.infix (vq_of_noTerm hvalid hs hnt) ⟨free (List.replicate level '#') ++ free [' '], [], by simp⟩
  have hall : b.all (safeHeadingNode ⟨false⟩) = true := by
    rw [List.all_eq_true]
    intro n hn
    have hi : headW n <:+: b.flatMap headW := by
      obtain ⟨x, y, rfl⟩ := List.append_of_mem hn
      exact ⟨x.flatMap headW, y.flatMap headW, by simp⟩
    refine (hnb.infix hi).head ?_
    rintro z rfl
    rw [← hden] at hn
    obtain ⟨x, hx, e⟩ := List.mem_map.1 hn
    cases x with
    | anchor k => simp [HeadItem.denote] at e
    | text us =>
      simp only [HeadItem.denote, HeadingNode.text.injEq] at e
      have h1 : us ≠ [] := okh.1 _ hx
      rw [← e]
      cases us with
      | nil => exact absurd rfl h1
      | cons t us =>
        rw [text_cons]
        have := hll.text t (List.mem_flatMap.2 ⟨_, hx, by simp [HeadItem.toks]⟩)
        simp [this]
  have hclash : noClash clashH b = true := by
    rw [← hden]
    refine noClash_map (src := d) (f := HeadItem.isText) (toks := HeadItem.toks) (ok := fun _ => True) ?_ (fun _ _ => trivial) okh.2.1 hll
    intro x y _ _ _ hn
    cases x <;> cases y <;> first | rfl | exact absurd ⟨rfl, rfl⟩ hn
  -- the first character is no space
  have hspace : starts (cs! " ") (leadingHeadingText b) = false := by
    cases hst : starts (cs! " ") (leadingHeadingText b) with
    | false => rfl
    | true =>
      exfalso
      rw [ets] at hs
      obtain ⟨p1, q1, v2, ev2, st1, st2, hv2⟩ := spv_space hvalid hs (kind_of_len hsp)
      have hlen : (pview p1 ++ pview q1).length = level + 1 := by
        have l1 := congrArg List.length (pview_chars p1)
        have l2 := congrArg List.length (pview_chars q1)
        rw [List.length_map] at l1 l2
        rw [List.length_append, l1, l2, ← st1.text, ← st2.text, sa.1, ss, hal]
        simp
      have h5 := congrArg (List.drop (level + 1)) ev2
      rw [← List.append_assoc, ← List.append_assoc, ← hlen, List.drop_left] at h5
      have h6 : (free (List.replicate level '#') ++ free [' ']).length = (pview p1 ++ pview q1).length := by
        rw [hlen]; simp [free]
      rw [← h6, List.drop_left] at h5
      rw [← h5] at hv2
      cases b with
      | nil => simp [leadingHeadingText, starts] at hst
      | cons n q =>
        cases n with
        | anchor k => simp [leadingHeadingText, starts] at hst
        | text z =>
          cases z with
          | nil => simp [leadingHeadingText, starts] at hst
          | cons c z =>
            have hc : c = ' ' := by
              simp only [leadingHeadingText, starts, List.isPrefixOf, Bool.and_true, beq_iff_eq] at hst
              exact hst.symm
            subst hc
            refine hv2 ?_
            show (mark '#' (bodyV ['\\'] (' ' :: z)) ++ q.flatMap headW).head? = _
            have : bodyV ['\\'] (' ' :: z) = (false, ' ') :: bodyV ['\\'] z := by
              unfold bodyV
              have := mark2_free (a := '\n') (b := '\n') (fb := false) (pat := [' ']) (by decide) (by decide) (markSet ['\\'] z)
              exact this
            rw [this]
            rfl
  -- no anchor in a text
  have hplain : plainHeading b = true := by
    have hD' := hD rfl
    rw [ets] at hD'
    have hleaf := docB_plain hD' (by simp [isCollapsibleStart, ha.1.1]) (by simp [isBacktick3, ha.1.1]) (by simp [isLeftCurly2, ha.1.1])
        (by simp [isTwoBangs, ha.1.1])
    rw [← hden]
    refine plain_of_brk ?_ ?_
    · have htoks := leafB_toks [.Terminator] (a :: s :: r)
      rw [hleaf] at htoks
      simp only [Block.toks, List.cons_append, List.nil_append, List.cons.injEq, true_and] at htoks
      have hrest : (leafB [.Terminator] (a :: s :: r)).2 = [] := by
        have h1 := hf.length
        rw [ets] at h1
        have h2 := congrArg List.length htoks
        simp only [List.length_cons, List.length_append] at h1 h2
        exact List.length_eq_zero_iff.1 (by omega)
      rw [hrest, List.append_nil] at htoks
      have hw := heads_space (headsW_ok placed_out hall) hspace
      obtain ⟨n, rfl⟩ : ∃ n, level = n + 1 := ⟨level - 1, by omega⟩
      obtain ⟨t, u, r', e, -, -, -, -, s4⟩ := hash_space hw hs
      rw [ets] at e
      simp only [List.cons.injEq] at e
      obtain ⟨-, -, rfl⟩ := e
      obtain ⟨l', e', ot, dt⟩ := seq_tree (src := d) ownH_shape (ownH_tree (src := d)) (ownH_seq hall) (chainH hclash) (fun _ _ _ => rfl) s4
      intro us hus t ht
      have hmem := items_align (src := d) (by rw [e', htoks]) (by rw [dt, hden]) hll.text
        (fun x hx => headItem_text (okh.1 x hx) (hll.mem hx)) (fun x hx => (ot x hx).1) us hus
      refine (ot _ hmem).2 us rfl t ht (fun _ => hll.lexed t (List.mem_flatMap.2 ⟨_, hus, ht⟩) ‹_›)
    · rcases leafB_cases [.Terminator] (a :: s :: r) with ⟨k, m, p, n, r', rest, h1, h2⟩ | ⟨i, l, r', h1, h2⟩ | h1 | h1 | h1
      · rw [h2] at hleaf; simp at hleaf
      · rw [h2] at hleaf; simp at hleaf
      · rw [thematicB, if_neg (by simp [isDash5, ha.1.1])] at h1; simp at h1
      · unfold headingB at h1
        split at h1
        · rw [← Option.some.inj h1] at hleaf
          simp only [Block.heading.injEq] at hleaf
          rw [← hleaf.2]
          exact headB_plain [] _ trivial (by intro a t r e; simp at e)
        · simp at h1
      · rw [h1] at hleaf; simp at hleaf
  simp only [safeLeaf, Bool.and_eq_true, decide_eq_true_eq, Bool.not_eq_true']
  exact ⟨⟨⟨⟨hlevel, hall⟩, hplain⟩, hclash⟩, hspace⟩

end Yamd.Round
