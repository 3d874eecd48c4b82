import Verif.Proofs.Exact.DocPara
import Verif.Proofs.Exact.Heading

/-!
# The first heading of a document that is read back
-/

namespace Yamd.Round

open Yamd Yamd.Spec Yamd.Lexer Yamd.Ref

theorem mark_last {a c : Char} {v : V} (hc : c ≠ a) (h : v.getLast? = some (false, c)) : (mark a v).getLast? = some (false, c) := by
  unfold mark
  rw [List.getLast?_map, h]
  simp [hc]

theorem markSet_last {set : List Char} {c : Char} {s : Str} (hc : c ∉ set) (h : s.getLast? = some c) :
    (markSet set s).getLast? = some (false, c) := by
  unfold markSet
  rw [List.getLast?_map, h]
  simp [hc]

theorem headsW_last {b : List HeadingNode} (h : endsLine (trailingHeadingText b) = true) : ¬ CleanEnd (b.flatMap headW) := by
  rcases List.eq_nil_or_concat b with rfl | ⟨q, n, rfl⟩
  · exact absurd h (by decide)
  · rw [List.concat_eq_append] at *
    cases n with
    | anchor a => simp [trailingHeadingText, endsLine] at h
    | text s =>
      have hs : endsLine s = true := by simpa [trailingHeadingText] using h
      have key : ∀ c, (c = '\n' ∨ c = '\r') → s.getLast? = some c → ((q ++ [HeadingNode.text s]).flatMap headW).getLast? = some (false, c) := by
        intro c hc he
        have h1 : (headW (.text s)).getLast? = some (false, c) := by
          refine mark_last (by rcases hc with rfl | rfl <;> decide) ?_
          exact mark2_keep_last (markSet_last (by rcases hc with rfl | rfl <;> decide) he)
        have hne : headW (.text s) ≠ [] := by intro e; rw [e] at h1; simp at h1
        rw [List.flatMap_append, List.flatMap_cons, List.flatMap_nil, List.append_nil, last_append hne]
        exact h1
      simp only [endsLine, Bool.or_eq_true, beq_iff_eq] at hs
      rintro ⟨c1, c2⟩
      rcases hs with hs | hs
      · exact c1 (key _ (.inl rfl) hs)
      · exact c2 (key _ (.inr rfl) hs)

/-- The first heading is safe, and if a blank line follows it does not end with a line break. -/
theorem first_head {c S} {d : Str} {level : Nat} {b : List HeadingNode} {bl t1 t2 v X} (h : First c S d (.heading level b) bl t1 t2 v X) :
    safeLeaf ⟨c⟩ (.heading level b) = true ∧ (X ≠ [] → endsClean (.heading level b) = true) := by
  have den := h.den
  have ok := h.ok
  have hlb := h.live
  have hf := h.own
  obtain ⟨D, hD⟩ := h.read
  obtain ⟨m, l, rfl, hlev, hden⟩ : ∃ m l, bl = .heading m l ∧ headLevel d m = level ∧ l.map (HeadItem.denote d) = b := by
    cases bl with
    | heading m l =>
      simp only [Block.denote, YamdNode.heading.injEq] at den
      exact ⟨m, l, rfl, den.1, den.2⟩
    | images l =>
      match l with
      | [] => simp [Block.denote] at den
      | [i] => simp [Block.denote] at den
      | i :: j :: l => simp [Block.denote] at den
    | _ => simp [Block.denote, YamdNode.newCode] at den
  simp only [Block.toks] at hlb hf
  obtain ⟨hm, okh⟩ := ok
  have hlm : Live d m := hlb.infix ⟨[], l.flatMap HeadItem.toks, by simp⟩
  have hll : Live d (l.flatMap HeadItem.toks) := hlb.infix ⟨m, [], by simp⟩
  have hlevel := heading_level hlm hm
  rw [hlev] at hlevel
  obtain ⟨a, s, rfl, ha, hsp⟩ := hm
  simp only [isHash, Bool.and_eq_true, decide_eq_true_eq] at ha
  have sa := (hlm.lexed a (by simp) (by rw [ha.1.1]; decide)).run (c := '#') (by rw [ha.1.1]; rfl)
  have ss : sliceD d s = [' '] := run_slice hlm (by simp) hsp (c := ' ') rfl
  have hal : a.len = level := by
    rw [← hlev]
    have : ((textOfToks d [a, s]).takeWhile (· == '#')).length = a.len := by
      rw [text_cons, text_one, sa.1, ss]
      rw [List.takeWhile_append_of_pos (by simp)]
      simp
    unfold headLevel
    rw [this, Nat.mod_eq_of_lt (by omega)]
  have htext := heads_text okh.1 hll
  rw [hden] at htext
  -- the view
  have hvh : Valid (free (List.replicate level '#')) := valid_free (fun hm => by have := List.eq_of_mem_replicate hm; simp at this)
  have hvalid : Valid (free (List.replicate level '#') ++ (free [' '] ++ b.flatMap headW)) :=
    hvh.append ((valid_free (by decide)).append (headsW_valid b))
  have ev : v = free (List.replicate level '#') ++ (free [' '] ++ b.flatMap headW) := by
    refine render_inj h.valid.left hvalid ?_
    rw [← h.shown, render_append, render_append, render_free_all, render_free_all]
    show displayHeading level b = _
    rw [displayHeading, headsW_eq]; rfl
  obtain ⟨g1, g2, g3⟩ := spv_take h.valid h.spells (by
    rw [← hf.text (src := d), text_append, htext, text_cons, text_one, sa.1, ss, hal, ev]
    simp [free])
  have hs := g1
  rw [ev] at hs
  simp only [List.cons_append, List.nil_append] at hf
  have hnt : NoTerm t1 := by
    refine hf.noTerm (.cons ?_ (.cons ?_ okh.2.2))
    · rw [ha.1.1]; decide
    · rw [kind_of_len hsp]; decide
  obtain ⟨r, ets⟩ : ∃ r, t1 = a :: s :: r := by
    clear g1 hs hnt g3 hD h
    cases hf with
    | cons x1 y1 =>
      cases y1 with
      | cons x2 y2 =>
        rw [flipRel_kind x1 (by rw [ha.1.1]; decide), flipRel_kind x2 (by rw [kind_of_len hsp]; decide)]
        exact ⟨_, rfl⟩
  have hnb : NB (b.flatMap headW) := NB.infix (vq_of_noTerm hvalid hs hnt) ⟨free (List.replicate level '#') ++ free [' '], [], by simp⟩
  have hall : b.all (safeHeadingNode ⟨false⟩) = true := by
    rw [List.all_eq_true]
    intro n hn
    have hi : headW n <:+: b.flatMap headW := by
      obtain ⟨x, y, rfl⟩ := List.append_of_mem hn
      exact ⟨x.flatMap headW, y.flatMap headW, by simp⟩
    refine (hnb.infix hi).head ?_
    rintro z rfl
    rw [← hden] at hn
    obtain ⟨x, hx, e⟩ := List.mem_map.1 hn
    cases x with
    | anchor k => simp [HeadItem.denote] at e
    | text us =>
      simp only [HeadItem.denote, HeadingNode.text.injEq] at e
      have h1 : us ≠ [] := okh.1 _ hx
      rw [← e]
      cases us with
      | nil => exact absurd rfl h1
      | cons t us =>
        rw [text_cons]
        have := hll.text t (List.mem_flatMap.2 ⟨_, hx, by simp [HeadItem.toks]⟩)
        simp [this]
  have hclash : noClash clashH b = true := by
    rw [← hden]
    refine noClash_map (src := d) (f := HeadItem.isText) (toks := HeadItem.toks) (ok := fun _ => True) ?_ (fun _ _ => trivial) okh.2.1 hll
    intro x y _ _ _ hn
    cases x <;> cases y <;> first | rfl | exact absurd ⟨rfl, rfl⟩ hn
  -- the first character is no space
  have hspace : starts (cs! " ") (leadingHeadingText b) = false := by
    cases hst : starts (cs! " ") (leadingHeadingText b) with
    | false => rfl
    | true =>
      exfalso
      rw [ets] at hs
      obtain ⟨p1, q1, v2, ev2, st1, st2, hv2⟩ := spv_space hvalid hs (kind_of_len hsp)
      have hlen : (pview p1 ++ pview q1).length = level + 1 := by
        have l1 := congrArg List.length (pview_chars p1)
        have l2 := congrArg List.length (pview_chars q1)
        rw [List.length_map] at l1 l2
        rw [List.length_append, l1, l2, ← st1.text, ← st2.text, sa.1, ss, hal]
        simp
      have h5 := congrArg (List.drop (level + 1)) ev2
      rw [← List.append_assoc, ← List.append_assoc, ← hlen, List.drop_left] at h5
      have h6 : (free (List.replicate level '#') ++ free [' ']).length = (pview p1 ++ pview q1).length := by
        rw [hlen]; simp [free]
      rw [← h6, List.drop_left] at h5
      rw [← h5] at hv2
      cases b with
      | nil => simp [leadingHeadingText, starts] at hst
      | cons n q =>
        cases n with
        | anchor k => simp [leadingHeadingText, starts] at hst
        | text z =>
          cases z with
          | nil => simp [leadingHeadingText, starts] at hst
          | cons c z =>
            have hc : c = ' ' := by
              simp only [leadingHeadingText, starts, List.isPrefixOf, Bool.and_true, beq_iff_eq] at hst
              exact hst.symm
            subst hc
            refine hv2 ?_
            show (mark '#' (bodyV ['\\'] (' ' :: z)) ++ q.flatMap headW).head? = _
            have : bodyV ['\\'] (' ' :: z) = (false, ' ') :: bodyV ['\\'] z := by
              unfold bodyV
              have := mark2_free (a := '\n') (b := '\n') (fb := false) (pat := [' ']) (by decide) (by decide) (markSet ['\\'] z)
              exact this
            rw [this]
            rfl
  -- no anchor in a text
  have hplain : plainHeading b = true := by
    have hD' := hD
    rw [ets, List.cons_append, List.cons_append] at hD'
    have hleaf := docB_plain hD' (by simp [isCollapsibleStart, ha.1.1]) (by simp [isBacktick3, ha.1.1]) (by simp [isLeftCurly2, ha.1.1])
        (by simp [isTwoBangs, ha.1.1])
    rw [← hden]
    refine plain_of_brk ?_ ?_
    · have htoks := leafB_toks (.Terminator :: S) (a :: s :: (r ++ t2))
      rw [hleaf] at htoks
      simp only [Block.toks, List.cons_append, List.nil_append, List.cons.injEq, true_and] at htoks
      replace htoks : l.flatMap HeadItem.toks = r := by
        have h1 := hf.length
        rw [ets] at h1
        simp only [List.length_cons] at h1
        exact (List.append_inj htoks (by omega)).1.symm
      have hw := heads_space (headsW_ok placed_out hall) hspace
      obtain ⟨n, rfl⟩ : ∃ n, level = n + 1 := ⟨level - 1, by omega⟩
      obtain ⟨t, u, r', e, -, -, -, -, s4⟩ := hash_space hw hs
      rw [ets] at e
      simp only [List.cons.injEq] at e
      obtain ⟨-, -, rfl⟩ := e
      obtain ⟨l', e', ot, dt⟩ := seq_tree (src := d) ownH_shape (ownH_tree (src := d)) (ownH_seq hall) (chainH hclash) (fun _ _ _ => rfl) s4
      intro us hus t ht
      have hmem := items_align (src := d) (by rw [e', htoks]) (by rw [dt, hden]) hll.text
        (fun x hx => headItem_text (okh.1 x hx) (hll.mem hx)) (fun x hx => (ot x hx).1) us hus
      refine (ot _ hmem).2 us rfl t ht (fun _ => hll.lexed t (List.mem_flatMap.2 ⟨_, hus, ht⟩) ‹_›)
    · rcases leafB_cases (.Terminator :: S) (a :: s :: (r ++ t2)) with ⟨k, m, p, n, r', rest, h1, h2⟩ | ⟨i, l, r', h1, h2⟩ | h1 | h1 | h1
      · rw [h2] at hleaf; simp at hleaf
      · rw [h2] at hleaf; simp at hleaf
      · rw [thematicB, if_neg (by simp [isDash5, ha.1.1])] at h1; simp at h1
      · unfold headingB at h1
        split at h1
        · rw [← Option.some.inj h1] at hleaf
          simp only [Block.heading.injEq] at hleaf
          rw [← hleaf.2]
          exact headB_plain [] _ trivial (by intro a t r e; simp at e)
        · simp at h1
      · rw [h1] at hleaf; simp at hleaf
  refine ⟨?_, fun hne => ?_⟩
  · simp only [safeLeaf, Bool.and_eq_true, decide_eq_true_eq, Bool.not_eq_true']
    refine ⟨⟨⟨⟨hlevel, ?_⟩, hplain⟩, hclash⟩, hspace⟩
    rw [List.all_eq_true]
    intro n hn
    have h0 := List.all_eq_true.1 hall n hn
    have hi : headW n <:+: v := by
      obtain ⟨x, y, rfl⟩ := List.append_of_mem hn
      exact infix_mid (a := free (List.replicate level '#') ++ (free [' '] ++ x.flatMap headW)) (b := y.flatMap headW) (by rw [ev]; simp)
    have hcl : c = true → ¬ Closes v := fun hc => spv_close h.valid.left g1 (h.noEnd rfl hc)
    cases n with
    | text z =>
      simp only [safeHeadingNode, Bool.and_eq_true] at h0 ⊢
      exact ⟨h0.1, body_in (S := ['\\']) (by decide) h0.2 hcl ⟨_, keep_mark (by decide) _, hi⟩⟩
    | anchor k => exact anchor_close h0 hcl hi
  · obtain ⟨Y, rfl⟩ := after_split h.after hne
    have hc := cut_clean h.valid.left g1 hnt g3
    cases he : endsLine (trailingHeadingText b) with
    | false => simp [endsClean, he]
    | true =>
      refine absurd ?_ (headsW_last he)
      have hne : b.flatMap headW ≠ [] := by
        intro e
        rw [ev, e] at hc
        have : b = [] := by
          cases b with
          | nil => rfl
          | cons n q =>
            exfalso
            have h1 : headW n = [] := (List.append_eq_nil_iff.1 e).1
            have h2 := List.all_eq_true.1 hall n (by simp)
            exact (head_shape _ _ _ (headW_ok (placed_out) h2)).1.ne h1
        subst this
        exact absurd he (by decide)
      rw [ev, ← List.append_assoc] at hc
      unfold CleanEnd at hc ⊢
      rw [last_append hne] at hc
      exact hc

end Yamd.Round
