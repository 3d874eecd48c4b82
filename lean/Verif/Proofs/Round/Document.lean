import Verif.Proofs.Round.Coll
import Verif.Proofs.Round.RunEnds

/-!
# Documents read back
-/

namespace Yamd.Round

open Yamd Yamd.Spec Yamd.Lexer Yamd.Ref

/-! ### The front of a body is not a front matter delimiter -/

theorem joinWith_front (sep a : Str) (l : List Str) : ∃ X, joinWith sep (a :: l) = a ++ X := by
  cases l with
  | nil => exact ⟨[], by simp [joinWith]⟩
  | cons b l => exact ⟨sep ++ joinWith sep (b :: l), by simp [joinWith]⟩

theorem dispB_front {c : Bool} {n : YamdNode} (h : safeBlock c n = true) (hp : cs! "---" <+: dispB n) : n = .thematicBreak := by
  cases n with
  | thematicBreak => rfl
  | paragraph p =>
    exfalso
    simp only [dispB, escapeLeadingBlockMarker] at hp
    split at hp
    · simp at hp
    · rename_i hn
      simp only [Bool.or_eq_true, not_or] at hn
      exact hn.2 (List.isPrefixOf_iff_prefix.2 hp)
  | heading l b =>
    exfalso
    simp only [safeBlock, safeLeaf, Bool.and_eq_true, decide_eq_true_eq] at h
    have h1 : 1 ≤ l := h.1.1.1.1.1
    obtain ⟨k, rfl⟩ : ∃ k, l = k + 1 := ⟨l - 1, by omega⟩
    simp [dispB, YamdNode.display, displayHeading, List.replicate_succ] at hp
  | image i => exfalso; simp [dispB, YamdNode.display, Image.display] at hp
  | images l =>
    exfalso
    simp only [safeBlock, safeLeaf, Bool.and_eq_true, decide_eq_true_eq] at h
    match l, h.1 with
    | a :: l, _ =>
      simp only [dispB, YamdNode.display, displayImages, List.map_cons] at hp
      obtain ⟨X, e⟩ := joinWith_front (cs! "\n") a.display (l.map Image.display)
      rw [e] at hp
      simp [Image.display] at hp
  | code l b => exfalso; simp [dispB, YamdNode.display, displayCode] at hp
  | highlight t i b => exfalso; simp [dispB, YamdNode.display, displayHighlight] at hp
  | embed k a => exfalso; simp [dispB, YamdNode.display, displayEmbed] at hp
  | collapsible t b => exfalso; simp [dispB, YamdNode.display] at hp
  | list l =>
    exfalso
    obtain ⟨ty, level, items⟩ := l
    simp only [safeBlock, safeLeaf, levelsOk, Bool.and_eq_true, beq_iff_eq] at h
    obtain ⟨⟨rfl, hi, -⟩, -⟩ := h
    cases items with
    | nil => simp at hi
    | cons i items =>
      simp only [dispB, YamdNode.display, YList.display, YList.displayItems] at hp
      obtain ⟨X, e⟩ := joinWith_front (cs! "\n") (List.replicate 0 ' ' ++ ty.marker :: ' ' ::
        replace ['\n', ty.marker, ' '] ['\n', '\\', ty.marker, ' '] (YItem.display i)) (YList.displayItems ty 0 items)
      rw [e] at hp
      simp at hp

/-- The tokens of a body do not start with three dashes. -/
theorem body_front {src c l vs ts} (hi : safeBlocks c l = true) (h : GoodVs [] l vs) (hs : SpV src true ts (joinV vs)) :
    tokenIs ts 0 isThreeDashes = false := by
  have hv := joinV_valid h.blocks
  cases h with
  | nil => rw [spv_nil hs]; rfl
  | @cons n l v w hd hb _ _ hr =>
    simp only [safeBlocks, Bool.and_eq_true] at hi
    have hX : ∃ X, joinV (v :: w) = v ++ X ∧ (X = [] ∨ ∃ Y, X = free ['\n', '\n'] ++ Y) := by
      cases w with
      | nil => exact ⟨[], by simp [joinV], .inl rfl⟩
      | cons u w => exact ⟨_, rfl, .inr ⟨_, rfl⟩⟩
    obtain ⟨X, eX, hX⟩ := hX
    rw [eX] at hs hv
    by_cases hn : n = .thematicBreak
    · subst hn
      have ev : v = free (cs! "-----") := by
        refine render_inj hb.valid (valid_free (by decide)) ?_
        rw [← hd, render_free_all]; rfl
      subst ev
      have hj : Join (free (cs! "-----")) X := by
        rcases hX with rfl | ⟨Y, rfl⟩
        · exact join_nil_right _
        · exact join_blank hb.valid (by simp [CleanEnd, free])
      obtain ⟨t1, t2, rfl, s1, -⟩ := spv_split hb.valid hj hs
      obtain ⟨t, rfl, st⟩ := spv_one (p := ⟨false, .Minus, cs! "-----"⟩) rfl s1
      have : t.len = 5 := by rw [st.len]; rfl
      simp [tokenIs, isThreeDashes, this]
    · cases ts with
      | nil => rfl
      | cons t ts =>
        rw [tokenIs_zero]
        cases ht : isThreeDashes t with
        | false => rfl
        | true =>
          exfalso
          simp only [isThreeDashes, Bool.and_eq_true, decide_eq_true_eq] at ht
          have hk : t.kind = .Minus := by tauto
          have hl : t.len = 3 := by tauto
          obtain ⟨hp, -, -⟩ := spv_run1 (c := '-') hv hs (by rw [hk]; rfl)
          rw [hl] at hp
          apply hn
          refine dispB_front hi.1 ?_
          rw [hd]
          refine (render_prefix (by decide)).2 ?_
          rcases hX with rfl | ⟨Y, rfl⟩
          · simpa using hp
          · have h3 : ∀ v : V, free (List.replicate 3 '-') <+: v ++ (free ['\n', '\n'] ++ Y) → free (cs! "---") <+: v := by
              intro v hp
              match v with
              | [] => simp [free, List.replicate_succ] at hp
              | [x] => simp [free, List.replicate_succ] at hp
              | [x, y] => simp [free, List.replicate_succ] at hp
              | x :: y :: z :: v => simpa [free, List.replicate_succ] using hp
            exact h3 v hp

/-! ### The body of a document -/

theorem body_reads {src l vs ts} (h : GoodVs [] l vs) (he : l.dropLast.all endsClean = true) (hs : SpV src true ts (joinV vs)) :
    (docB [] ts).1.denote src = l := by
  by_cases hl : l = []
  · subst hl
    cases h
    rw [spv_nil hs, docB_stop (show stopAt [] [] = true from rfl)]; rfl
  · obtain ⟨f, r, e, hf, hor⟩ := reads_blocks Inside.top.1 hl h.blocks (fun v hv => h.dropLast.ends he v hv) hs [] .nil
    rw [List.append_nil] at e
    rw [e]
    simp only
    have : r = [] := by
      rcases hor with h | ⟨e, h, -⟩
      · exact h
      · simp at h
    subst this
    rw [hf, docB_stop (show stopAt [] [] = true from rfl)]
    simp [Doc.denote]

/-! ### Front matter -/

theorem trimEndNl_snoc (s : Str) : trimEndNl (s ++ ['\n']) = trimEndNl s := by
  simp [trimEndNl]

theorem trimNl_wrap (m : Str) : trimNl ('\n' :: (m ++ ['\n'])) = trimNl m := by
  unfold trimNl
  rw [List.dropWhile_cons_of_pos (by simp), List.dropWhile_append]
  split
  · rename_i h
    simp only [List.isEmpty_iff] at h
    rw [h]; rfl
  · exact trimEndNl_snoc _

theorem trimmed_last {m : Str} (h : trimNl m = m) : m.getLast? ≠ some '\n' := by
  rw [← h]
  unfold trimNl trimEndNl
  rw [List.getLast?_reverse]
  exact Yamd.Props.dropWhile_head

theorem fenceLine_iff (s : Str) : fenceLine s = true ↔ ∃ a r, s = a ++ '\n' :: r ∧ startsFence r = true := by
  induction s with
  | nil => simp [fenceLine]
  | cons c s ih =>
    simp only [fenceLine, Bool.or_eq_true, Bool.and_eq_true, beq_iff_eq, ih]
    constructor
    · rintro (⟨rfl, h⟩ | ⟨a, r, rfl, h⟩)
      · exact ⟨[], s, rfl, h⟩
      · exact ⟨c :: a, r, rfl, h⟩
    · rintro ⟨a, r, e, h⟩
      cases a with
      | nil =>
        simp only [List.nil_append, List.cons.injEq] at e
        exact .inl ⟨e.1, e.2 ▸ h⟩
      | cons y a =>
        simp only [List.cons_append, List.cons.injEq] at e
        exact .inr ⟨a, r, e.2, h⟩

theorem startsFence_iff (s : Str) : startsFence s = true ↔ ∃ r, s = cs! "---" ++ r ∧ r.head? ≠ some '-' := by
  simp only [startsFence, starts, Bool.and_eq_true, List.isPrefixOf_iff_prefix, Bool.not_eq_true', Bool.eq_false_iff, ne_eq]
  constructor
  · rintro ⟨⟨r, rfl⟩, h⟩
    refine ⟨r, rfl, fun hr => h ?_⟩
    cases r with
    | nil => simp at hr
    | cons x r =>
      simp only [List.head?_cons, Option.some.injEq] at hr
      subst hr
      exact ⟨r, rfl⟩
  · rintro ⟨r, rfl, h⟩
    refine ⟨⟨r, rfl⟩, ?_⟩
    rintro ⟨q, e⟩
    simp only [List.cons_append, List.nil_append, List.cons.injEq, true_and] at e
    rw [← e] at h
    simp at h

theorem startsFence_of {s : Str} (h : starts (cs! "---") s = false) : startsFence s = false := by
  rw [startsFence, h]; rfl

theorem fenceLine_of {s : Str} (h : occurs (cs! "\n---") s = false) : fenceLine s = false := by
  rw [Bool.eq_false_iff]
  intro hf
  obtain ⟨a, r, rfl, hr⟩ := (fenceLine_iff s).1 hf
  obtain ⟨q, rfl, -⟩ := (startsFence_iff r).1 hr
  simp only [occurs, decide_eq_false_iff_not] at h
  exact h ⟨a, q, by simp⟩

/-- No line of the front matter as it is written reads as its end. -/
theorem meta_noFence {m : Str} (h1 : startsFence m = false) (h2 : fenceLine m = false) {a b : Str}
    (e : '\n' :: (m ++ ['\n']) = a ++ (cs! "---" ++ b)) (ha : a.getLast? = some '\n') (hb : b.head? ≠ some '-') : False := by
  obtain ⟨a', rfl⟩ := List.getLast?_eq_some_iff.1 ha
  have hbn : b ≠ [] := by
    rintro rfl
    have := congrArg List.getLast? e
    rw [← List.cons_append, List.getLast?_concat, List.append_nil, List.getLast?_append] at this
    simp at this
  obtain ⟨b', x, rfl⟩ : ∃ b' x, b = b' ++ [x] := ⟨b.dropLast, b.getLast hbn, (List.dropLast_concat_getLast hbn).symm⟩
  have e2 : '\n' :: m = a' ++ '\n' :: (cs! "---" ++ b') := by
    have := congrArg List.dropLast e
    rw [← List.cons_append, List.dropLast_concat, ← List.append_assoc, ← List.append_assoc, List.dropLast_concat] at this
    simpa using this
  have hb' : b'.head? ≠ some '-' := by
    cases b' with
    | nil => simp
    | cons y b' => simpa using hb
  have hf : startsFence (cs! "---" ++ b') = true := (startsFence_iff _).2 ⟨b', rfl, hb'⟩
  cases a' with
  | nil =>
    simp only [List.nil_append, List.cons.injEq, true_and] at e2
    rw [e2, hf] at h1; simp at h1
  | cons y a' =>
    simp only [List.cons_append, List.cons.injEq] at e2
    have : fenceLine m = true := (fenceLine_iff m).2 ⟨a', _, e2.2, hf⟩
    rw [h2] at this; simp at this

theorem meta_reads {src m w ts} (hm : safeMetadata m = true)
    (hs : SpV src true ts (free (cs! "---") ++ (free ('\n' :: (m ++ ['\n'])) ++ (free (cs! "---") ++ (free (cs! "\n\n") ++ w))))) :
    ∃ d t r, delimB isThreeDashes isThreeDashes .Metadata [] ts = some (d, t :: r) ∧ trimNl (textOfToks src d.body) = m ∧
      t.kind = .Terminator ∧ SpV src true r w := by
  simp only [safeMetadata, Bool.and_eq_true, beq_iff_eq, Bool.not_eq_true'] at hm
  obtain ⟨⟨⟨ht, hb⟩, h1⟩, h2⟩ := hm
  have v3 : Valid (free (cs! "---")) := valid_free (by decide)
  have vm : Valid (free ('\n' :: (m ++ ['\n']))) := by
    refine valid_free ?_
    have : '\\' ∉ m := by simpa using hb
    simp [this]
  obtain ⟨t1, r1, rfl, s1, hs1⟩ := spv_split v3 (join_stop v3 (c := '\n') rfl (by decide) (by decide) (by decide) (by decide)) hs
  obtain ⟨o, rfl, so⟩ := spv_one (p := ⟨false, .Minus, cs! "---"⟩) rfl s1
  have hf : flag true (free (cs! "---")) = false := rfl
  rw [hf] at hs1
  have hlast : (free ('\n' :: (m ++ ['\n']))).getLast? = some (false, '\n') := by
    rw [free_getLast, ← List.cons_append, List.getLast?_concat]; rfl
  obtain ⟨bd, r2, rfl, s2, hs2⟩ := spv_split vm (join_stop vm (c := '-') rfl (by decide) (by rw [hlast]; decide) (by simp) (by simp)) hs1
  have hf2 : flag false (free ('\n' :: (m ++ ['\n']))) = true := by
    simp only [flag, hlast]; rfl
  rw [hf2] at hs2
  obtain ⟨t3, r3, rfl, s3, hs3⟩ := spv_split v3 (join_stop v3 (c := '\n') rfl (by decide) (by decide) (by decide) (by decide)) hs2
  obtain ⟨c, rfl, sc⟩ := spv_one (p := ⟨false, .Minus, cs! "---"⟩) rfl s3
  obtain ⟨t4, r4, rfl, s4, hs4⟩ := spv_split (valid_free (by decide)) (join_after_blank w) hs3
  obtain ⟨t, rfl, st⟩ := spv_one (p := ⟨false, .Terminator, ['\n', '\n']⟩) rfl s4
  have is3 : ∀ x, SpT src true x ⟨false, .Minus, cs! "---"⟩ → isThreeDashes x = true := by
    intro x hx
    have hl : x.len = 3 := by rw [hx.len]; rfl
    have hc : col0 x = true := hx.col
    simp [isThreeDashes, hx.kind, hl, hc]
  have hbody : ∀ x ∈ bd, isThreeDashes x = false := by
    intro x hx
    cases h3 : isThreeDashes x with
    | false => rfl
    | true =>
      exfalso
      simp only [isThreeDashes, Bool.and_eq_true, decide_eq_true_eq] at h3
      have hk : x.kind = .Minus := by tauto
      have hl : x.len = 3 := by tauto
      have hc : col0 x = true := by tauto
      obtain ⟨v1, v2, e, hfl, hnx⟩ := spv_mem_run (c := '-') vm s2 hx (by rw [hk]; rfl)
      have hf := hfl hc
      rw [hl] at e
      have ec := congrArg (List.map Prod.snd) e
      rw [show (free ('\n' :: (m ++ ['\n']))).map Prod.snd = '\n' :: (m ++ ['\n']) by simp [free, Function.comp_def],
        List.map_append, List.map_append, show (free (List.replicate 3 '-')).map Prod.snd = cs! "---" from rfl] at ec
      have hlast' : v1.getLast? = some (false, '\n') := by
        unfold flag at hf
        cases hg : v1.getLast? with
        | none => rw [hg] at hf; simp at hf
        | some y => rw [hg] at hf; simpa using hf
      refine meta_noFence h1 h2 ec (last_chars hlast') ?_
      intro hh
      cases v2 with
      | nil => simp at hh
      | cons y v2 =>
        simp only [List.map_cons, List.head?_cons, Option.some.injEq] at hh
        have hy : y ∈ free ('\n' :: (m ++ ['\n'])) := by rw [e]; simp
        have : y.1 = false := by
          obtain ⟨d, -, rfl⟩ := List.mem_map.1 hy
          rfl
        exact hnx (by rw [List.head?_cons, ← hh, ← this])
  refine ⟨⟨.Metadata, o, bd, c⟩, t, r4, ?_, ?_, st.kind, ?_⟩
  · have := delimB_exec (stops := []) (o := isThreeDashes) (c := isThreeDashes) (n := .Metadata) (d := ⟨.Metadata, o, bd, c⟩)
      (rest := t :: r4) ⟨rfl, is3 o so, is3 c sc, rfl, rfl, fun x hx => ⟨rfl, hbody x hx⟩⟩ (by intro h; simp at h)
    rw [← this]
    simp [Delim.toks]
  · simp only
    rw [spv_text vm s2]
    have ec : (free ('\n' :: (m ++ ['\n']))).map Prod.snd = '\n' :: (m ++ ['\n']) := by
      simp [free, Function.comp_def]
    rw [ec, trimNl_wrap, ht]
  · exact hs4

/-! ### Documents -/

/-- A safe document is read back from what is displayed for it. -/
theorem document_reads {y : Yamd} (h : safeDocument y = true) : deserialize y.display = .ok y := by
  obtain ⟨m, body⟩ := y
  simp only [safeDocument, Bool.and_eq_true] at h
  obtain ⟨⟨hm, hb⟩, he⟩ := h
  obtain ⟨vs, hvs⟩ := good_blocks Inside.top hb
  have ebody : joinWith (cs! "\n\n") (displayBlocks body) = render (joinV vs) := by
    rw [displayBlocks_map, hvs.disp, joinV_eq]
  rw [deserialize_eq]
  congr 1
  cases m with
  | none =>
    have ed : Yamd.display ⟨none, body⟩ = render (joinV vs) := by simp only [Yamd.display, ebody]
    have hs : SpV (render (joinV vs)) true (tokens (render (joinV vs))) (joinV vs) := sp_tokens _
    rw [ed]
    have hfront := body_front hb hvs hs
    have hd : delimB isThreeDashes isThreeDashes .Metadata [] (tokens (render (joinV vs))) = none := by
      cases hts : tokens (render (joinV vs)) with
      | nil => rfl
      | cons t r => rw [hts] at hfront; exact delimB_no hfront
    unfold topB
    rw [hd]
    simp only [Top.denote, body_reads hvs he hs]
    rfl
  | some m =>
    simp only at hm
    have hm' := hm
    simp only [safeMetadata, Bool.and_eq_true, beq_iff_eq] at hm'
    have htrim : trimNl m = m := hm'.1.1.1
    have hnl := trimmed_last htrim
    have ed : Yamd.display ⟨some m, body⟩ =
        render (free (cs! "---") ++ (free ('\n' :: (m ++ ['\n'])) ++ (free (cs! "---") ++ (free (cs! "\n\n") ++ joinV vs)))) := by
      simp only [Yamd.display, if_neg hnl, ebody, render_append, render_free_all]
      simp
    rw [ed]
    generalize hS : render (free (cs! "---") ++ (free ('\n' :: (m ++ ['\n'])) ++ (free (cs! "---") ++ (free (cs! "\n\n") ++ joinV vs)))) = S
    have hs : SpV S true (tokens S) (free (cs! "---") ++ (free ('\n' :: (m ++ ['\n'])) ++ (free (cs! "---") ++ (free (cs! "\n\n") ++ joinV vs)))) := by
      unfold SpV; rw [hS]; exact sp_tokens S
    obtain ⟨d, t, r, e1, e2, hk, hs2⟩ := meta_reads hm hs
    unfold topB
    rw [e1]
    simp only [Top.denote, Option.map_some, e2]
    rw [docB_term (stop_term Inside.top.1 hk) (by simp [isTerminator, hk])]
    simp only [Doc.denote, body_reads hvs he hs2, Yamd.new, Option.map_some, htrim]

end Yamd.Round
