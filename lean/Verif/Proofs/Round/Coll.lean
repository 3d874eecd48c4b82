import Verif.Proofs.Round.ListDisplay

/-!
# Collapsibles read back, and with them all safe blocks
-/

namespace Yamd.Round

open Yamd Yamd.Spec Yamd.Lexer Yamd.Ref

/-- What is displayed for a block of a body. -/
def dispB : YamdNode → Str
  | .paragraph p => escapeLeadingBlockMarker (displayParagraph p)
  | n => YamdNode.display n

theorem displayBlocks_map : ∀ l : List YamdNode, displayBlocks l = l.map dispB
  | [] => rfl
  | n :: r => by
    cases n <;> simp only [displayBlocks, displayBlocks_map r, List.map_cons, dispB]

/-- Views of blocks, with their ends. -/
inductive GoodVs (stops : List Stop) : List YamdNode → List V → Prop
  | nil : GoodVs stops [] []
  | cons {n l v w} : dispB n = render v → BlockV stops n v → (endsClean n = true → CleanEnd v) → (startsClean n = true → CleanStart v) →
      GoodVs stops l w → GoodVs stops (n :: l) (v :: w)

theorem GoodVs.blocks {stops} : ∀ {l vs}, GoodVs stops l vs → BlocksV stops l vs
  | _, _, .nil => .nil
  | _, _, .cons _ h _ _ hr => .cons h hr.blocks

theorem GoodVs.disp {stops} : ∀ {l vs}, GoodVs stops l vs → l.map dispB = vs.map render
  | _, _, .nil => rfl
  | _, _, .cons h _ _ _ hr => by rw [List.map_cons, List.map_cons, h, hr.disp]

theorem GoodVs.ends {stops} : ∀ {l vs}, GoodVs stops l vs → l.all endsClean = true → ∀ v ∈ vs, CleanEnd v
  | _, _, .nil, _ => by simp
  | _, _, .cons _ _ h _ hr, ha => by
    rw [List.all_cons, Bool.and_eq_true] at ha
    intro v hv
    rcases List.mem_cons.1 hv with rfl | h1
    · exact h ha.1
    · exact hr.ends ha.2 v h1

theorem GoodVs.dropLast {stops} : ∀ {l vs}, GoodVs stops l vs → GoodVs stops l.dropLast vs.dropLast
  | _, _, .nil => .nil
  | _, _, .cons _ _ _ _ .nil => .nil
  | _, _, .cons a b c d (.cons a' b' c' d' hr) => by
    simp only [List.dropLast_cons₂]
    exact .cons a b c d (GoodVs.dropLast (.cons a' b' c' d' hr))

theorem GoodVs.joinStart {stops n l vs} (h : GoodVs stops (n :: l) vs) (hs : startsClean n = true) (he : endsClean n = true) (X : V) :
    CleanStart (joinV vs ++ (false, '\n') :: X) := by
  cases h with
  | @cons _ _ v w _ hb hend hstart hr =>
    cases w with
    | nil => exact cleanStart_nl (hstart hs) hb.ne (hend he)
    | cons u w =>
      have e : joinV (v :: u :: w) ++ (false, '\n') :: X = v ++ (false, '\n') :: ((false, '\n') :: (joinV (u :: w) ++ (false, '\n') :: X)) := by
        simp [joinV, free]
      rw [e]
      exact cleanStart_nl (hstart hs) hb.ne (hend he)

theorem GoodVs.joinEnd {stops} : ∀ {l vs}, GoodVs stops l vs → l.all endsClean = true → CleanEnd (joinV vs)
  | _, _, .nil, _ => cleanEnd_nil
  | _, _, .cons _ _ h _ .nil, ha => by
    rw [List.all_cons, Bool.and_eq_true] at ha
    exact h ha.1
  | _, _, .cons (v := v) (w := _) _ _ _ _ (.cons (v := u) (w := w) a b c d hr), ha => by
    rw [List.all_cons, Bool.and_eq_true] at ha
    have ih := GoodVs.joinEnd (.cons a b c d hr) ha.2
    have hne : joinV (u :: w) ≠ [] := by
      cases hr with
      | nil => exact b.ne
      | cons => simp [joinV, free]
    unfold CleanEnd at ih ⊢
    rw [joinV, last_append (by simp [free]), last_append hne]
    exact ih

/-! ### The opening line -/

def ctitleV (t : Str) : V := mark2 '%' '}' false (lineV t)

theorem ctitle_more (t : Str) : More (lineV t) (ctitleV t) := more_mark2 _

theorem ctitle_eq (t : Str) : replace (cs! "%}") (cs! "\\%}") (replace (cs! "\\") (cs! "\\\\") t) = render (ctitleV t) := by
  rw [show replace (cs! "\\") (cs! "\\\\") t = _ from replace_backslash t]
  exact replace_two (a := '%') (b := '}') (fb := false) (rep := cs! "\\%}") (by decide) (by decide) rfl (markSet_notEsc (by decide) t)

theorem ctitle_valid (t : Str) : Valid (ctitleV t) := (ctitle_more t).valid (lineV_valid t)

theorem ctitle_clean {t : Str} (h : safeLine t = true) : CleanEnd (ctitleV t) := (lineV_clean h).more (ctitle_more t)

theorem ctitle_nl {t : Str} (h : safeLine t = true) : (false, '\n') ∉ ctitleV t := (ctitle_more t).notFree (lineV_notNl h)

theorem ctitle_space {t : Str} (h : safeLine t = true) (w : V) : (ctitleV t ++ (free ['\n'] ++ w)).head? ≠ some (false, ' ') := by
  intro e
  refine lineV_space h w ?_
  cases hc : ctitleV t with
  | nil =>
    rw [hc] at e
    simp [free] at e
  | cons x r =>
    have : (ctitleV t).head? = some (false, ' ') := by rw [hc] at e ⊢; simpa using e
    have h2 := mark2_head this
    cases hl : lineV t with
    | nil => rw [hl] at h2; simp at h2
    | cons y r => rw [hl] at h2; simpa using h2

theorem ctitle_text {src t l} (hs : SpV src false l (ctitleV t)) : textOfToks src l = t := by
  rw [spv_text (ctitle_valid t) hs, ctitleV, mark2_chars, lineV, markSet_chars]

/-- The rest of an opening line, whatever ends it. -/
theorem mod_open' {src stops b l e tail} (hl : ∀ t ∈ l, quiet stops t = true ∧ isEolOrTerminator t = false)
    (hst : stopAt stops (e :: tail) = false) (hk : isEolOrTerminator e = true)
    (h0 : tokenIs (l ++ e :: tail) 0 col0 = false) (hb : textOfToks src l = b) :
    ∃ m, optModB stops (l ++ e :: tail) = (some m, tail) ∧ modDenote src (some m) = some b := by
  have hcalm : Calm stops (e :: tail) := by
    intro _
    have : e.kind ≠ .CollapsibleEnd := by
      intro h; simp [isEolOrTerminator, h] at hk
    simp [closesColl, tokenIs, this]
  have hu : ∀ {l : List Token}, (∀ t ∈ l, quiet stops t = true ∧ isEolOrTerminator t = false) →
      untilB stops isEolOrTerminator (l ++ e :: tail) = some (l, e, tail) := by
    intro l hl
    induction l with
    | nil => rw [List.nil_append, untilB, if_neg (by simp [hst]), if_pos hk]
    | cons t l ih =>
      have h1 := hl t (by simp)
      have h2 : ∀ t ∈ l, quiet stops t = true ∧ isEolOrTerminator t = false := fun u hu => hl u (by simp [hu])
      rw [List.cons_append, untilB, if_neg, if_neg (by simp [h1.2]), ih h2]
      · rfl
      · rw [quiet_stop h1.1 (calm_append (fun u hu => (h2 u hu).1) hcalm)]; simp
  refine ⟨⟨l, e⟩, ?_, by simp [modDenote, hb]⟩
  unfold optModB modifierB
  rw [h0, hu hl]
  rfl

/-! ### The whole block -/

def collV (t : Str) (vs : List V) : V :=
  free ['{', '%'] ++ (free [' '] ++ (ctitleV t ++ (free ['\n'] ++ (joinV vs ++ (free ['\n'] ++ free ['%', '}'])))))

theorem coll_eq {t : Str} {l : List YamdNode} {vs : List V} (h : l.map dispB = vs.map render) :
    YamdNode.display (.collapsible t l) = render (collV t vs) := by
  simp only [YamdNode.display, collV, render_append, render_free_all, displayBlocks_map, h, ctitle_eq, joinV_eq]
  simp

/-- The body is read up to the closing line. -/
theorem coll_body {src stops l vs ts} (hd : DStops stops) (h : GoodVs (.CollapsibleEnd :: stops) l vs) (hl : l ≠ [])
    (he : l.all endsClean = true) (hs : SpV src true ts (joinV vs ++ (free ['\n'] ++ free ['%', '}']))) :
    ∃ t r, ts = t :: r ∧ col0 t = true ∧ ∀ rest, ∃ D r2 s c, docB (.CollapsibleEnd :: stops) (ts ++ rest) = (D, r2) ∧ D.denote src = l ∧
      skipEolB r2 = (s, c :: rest) ∧ isCollapsibleEnd c = true ∧ stopAt (.CollapsibleEnd :: stops) (ts ++ rest) = false := by
  have hv := joinV_valid h.blocks
  have hc := h.joinEnd he
  obtain ⟨tb, r1, rfl, s1, s2⟩ := spv_split hv (join_nl hv hc) hs
  obtain ⟨t2, t3, rfl, s3, s4⟩ := spv_split (valid_free (by decide)) (join_eol (cleanStart_of_head (c := '%') rfl (by decide) (by decide))) s2
  obtain ⟨e, rfl, se⟩ := spv_one (p := ⟨false, .Eol, ['\n']⟩) rfl s3
  obtain ⟨c, rfl, sc⟩ := spv_one (p := ⟨false, .CollapsibleEnd, ['%', '}']⟩) rfl s4
  have hcol : col0 c = true := sc.col
  have hce : isCollapsibleEnd c = true := by simp [isCollapsibleEnd, sc.kind, hcol]
  have hjne : joinV vs ≠ [] := by
    cases h with
    | nil => exact absurd rfl hl
    | cons _ b _ _ hr =>
      cases hr with
      | nil => exact b.ne
      | cons => simp [joinV, free]
  obtain ⟨t, r, rfl⟩ := List.exists_cons_of_ne_nil (spv_ne hv s1 hjne)
  obtain ⟨p1, v2, -, st, -⟩ := spv_head hv s1
  refine ⟨t, r ++ ([e] ++ [c]), rfl, st.col, fun rest => ?_⟩
  have hbd : Bd (.CollapsibleEnd :: stops) (e :: c :: rest) := .close e c rest (by simp) se.kind sc.kind hcol
  obtain ⟨f, r2, e1, hf, hor⟩ := reads_blocks hd.coll hl h.blocks (fun v hv => h.ends he v (List.dropLast_subset _ hv)) s1 _ hbd
  have hst : stopAt (.CollapsibleEnd :: stops) r2 = true := by
    rcases hor with rfl | ⟨x, hx, -⟩
    · simp [stopAt, stopHere, se.kind, tokenIs, sc.kind, hcol]
    · simp only [List.cons.injEq] at hx
      rw [← hx.2]
      simp [stopAt, stopHere, sc.kind, hcol]
  rw [docB_stop hst] at e1
  have ets : (t :: r) ++ ([e] ++ [c]) ++ rest = (t :: r) ++ e :: c :: rest := by simp
  have hstop : stopAt (.CollapsibleEnd :: stops) ((t :: r) ++ e :: c :: rest) = false := by
    cases hh : stopAt (.CollapsibleEnd :: stops) ((t :: r) ++ e :: c :: rest) with
    | false => rfl
    | true =>
      rw [docB_stop hh] at e1
      have h1 := congrArg Prod.fst e1
      simp only at h1
      have h2 := hf .nil
      rw [← h1] at h2
      simp only [Doc.denote, List.append_nil] at h2
      exact absurd h2.symm hl
  rw [ets]
  rcases hor with rfl | ⟨x, hx, -⟩
  · refine ⟨f .nil, _, [e], c, e1, by rw [hf]; simp [Doc.denote], ?_, hce, hstop⟩
    simp [skipEolB, tokenIs, isEol, se.kind]
  · simp only [List.cons.injEq] at hx
    rw [← hx.2] at e1
    refine ⟨f .nil, _, [], c, e1, by rw [hf]; simp [Doc.denote], ?_, hce, hstop⟩
    simp [skipEolB, tokenIs, isEol, sc.kind]

theorem coll_close {stops c rest} (hc : isCollapsibleEnd c = true) (hr : Bd stops rest) :
    ∃ cl r, collCloseB (c :: rest) = some (cl, r) ∧ (r = rest ∨ ∃ e, rest = e :: r ∧ e.kind = .Eol) := by
  unfold collCloseB
  rw [if_pos (by simpa [tokenIs] using hc)]
  cases hr with
  | nil => exact ⟨_, _, rfl, .inl rfl⟩
  | term t r h =>
    rw [if_neg (by simp [tokenIs, isEol, h])]
    exact ⟨_, _, rfl, .inl rfl⟩
  | close e k r hm he hc h0 =>
    rw [if_pos (by simp [tokenIs, isEol, he])]
    exact ⟨_, _, rfl, .inr ⟨e, rfl, he⟩⟩

theorem calm_of_stop {stops ts} (h : stopAt (.CollapsibleEnd :: stops) ts = false) : closesColl ts = false := by
  cases ts with
  | nil => rfl
  | cons t r =>
    simp only [stopAt, List.any_cons, Bool.or_eq_false_iff, stopHere] at h
    exact h.1.1

theorem coll_good {c stops t l vs} (hi : Inside c stops) (ht : safeLine t = true) (h : GoodVs (.CollapsibleEnd :: stops) l vs)
    (he : l.all endsClean = true) (hst : ∀ n ∈ l.head?, startsClean n = true) :
    Good stops (.collapsible t l) (YamdNode.display (.collapsible t l)) := by
  have vt := ctitle_valid t
  have vj := joinV_valid h.blocks
  have vc : Valid (free ['\n'] ++ free ['%', '}']) := (valid_free (by decide)).append (valid_free (by decide))
  refine ⟨collV t vs, coll_eq h.disp, ⟨?_, by simp [collV, free], ?_⟩, ?_, ?_⟩
  · exact (valid_free (by decide)).append ((valid_free (by decide)).append (vt.append ((valid_free (by decide)).append (vj.append vc))))
  · intro src ts hs
    unfold collV at hs
    have j1 : ∀ w : V, Join (free ['{', '%']) (free [' '] ++ w) := by
      intro w
      refine join_known (l := []) (p := ⟨false, .CollapsibleStart, ['{', '%']⟩) (valid_free (by decide)) (pieces_one rfl) ?_
      rfl
    obtain ⟨t1, r1, rfl, s1, hs1⟩ := spv_split (valid_free (by decide)) (j1 _) hs
    obtain ⟨o, rfl, so⟩ := spv_one (p := ⟨false, .CollapsibleStart, ['{', '%']⟩) rfl s1
    obtain ⟨t2, r2, rfl, s2, hs2⟩ := spv_split (valid_free (by decide)) (join_space (ctitle_space ht _)) hs1
    obtain ⟨sp, rfl, ssp⟩ := spv_one (p := ⟨false, .Space, [' ']⟩) rfl s2
    have hf2 : ∀ b, flag b (free [' ']) = false := fun _ => rfl
    rw [hf2] at hs2
    obtain ⟨ln, r3, rfl, sl, hs3⟩ := spv_split vt (join_nl vt (ctitle_clean ht)) hs2
    have hq := spv_quiet vt sl ((ctitle_more t).VQ (lineV_vq hi.1 ht))
    have hnn := spv_nonl vt (ctitle_nl ht) sl
    have hlq : ∀ x ∈ ln, quiet stops x = true ∧ isEolOrTerminator x = false := by
      intro x hx
      refine ⟨?_, by simp [isEolOrTerminator, hnn x hx]⟩
      have := hq x hx
      simp only [quiet, List.all_cons, Bool.and_eq_true] at this ⊢
      exact this.2
    intro rest hr
    have ok : o.kind = .CollapsibleStart := so.kind
    have ho : isCollapsibleStart o = true := by simp [isCollapsibleStart, ok, so.col]
    have hsp : isSpaceOrEol sp = true := by simp [isSpaceOrEol, ssp.kind]
    -- the line break after the title, and the body
    have key : ∃ e rb, r3 = e :: rb ∧ SpT src (flag false (ctitleV t)) e ⟨false, e.kind, if l = [] then ['\n', '\n'] else ['\n']⟩ ∧
        isEolOrTerminator e = true ∧ stopAt stops (e :: (rb ++ rest)) = false ∧ tokenIs (rb ++ rest) 0 col0 = true ∧
        ∃ D r2 s c, docB (.CollapsibleEnd :: stops) (rb ++ rest) = (D, r2) ∧ D.denote src = l ∧
          skipEolB r2 = (s, c :: rest) ∧ isCollapsibleEnd c = true := by
      by_cases hl : l = []
      · subst hl
        cases h
        have hs4 : SpV src (flag false (ctitleV t)) r3 (free ['\n', '\n'] ++ free ['%', '}']) := by simpa [joinV, free] using hs3
        obtain ⟨t4, r4, rfl, s4, s5⟩ := spv_split (valid_free (by decide)) (join_after_blank _) hs4
        obtain ⟨e, rfl, se⟩ := spv_one (p := ⟨false, .Terminator, ['\n', '\n']⟩) rfl s4
        obtain ⟨c, rfl, sc⟩ := spv_one (p := ⟨false, .CollapsibleEnd, ['%', '}']⟩) rfl s5
        have hcol : col0 c = true := sc.col
        refine ⟨e, [c], rfl, by rw [se.kind]; exact se, by simp [isEolOrTerminator, se.kind], stop_term hi.1 se.kind,
          by simpa [tokenIs] using hcol, .nil, c :: rest, [], c, ?_, rfl, ?_, by simp [isCollapsibleEnd, sc.kind, hcol]⟩
        · exact docB_stop (by simp [stopAt, stopHere, sc.kind, hcol])
        · simp [skipEolB, tokenIs, isEol, sc.kind]
      · obtain ⟨n, l', rfl⟩ := List.exists_cons_of_ne_nil hl
        have hcs : CleanStart (joinV vs ++ (free ['\n'] ++ free ['%', '}'])) := by
          have he' := he
          rw [List.all_cons, Bool.and_eq_true] at he'
          exact h.joinStart (hst n (by simp)) he'.1 _
        obtain ⟨t4, rb, rfl, s4, s5⟩ := spv_split (valid_free (by decide)) (join_eol hcs) hs3
        obtain ⟨e, rfl, se⟩ := spv_one (p := ⟨false, .Eol, ['\n']⟩) rfl s4
        obtain ⟨t5, r5, rfl, hcol, hb⟩ := coll_body hi.1 h hl he s5
        obtain ⟨D, r6, s, c, e1, e2, e3, e4, e5⟩ := hb rest
        refine ⟨e, t5 :: r5, rfl, by rw [se.kind, if_neg (by simp)]; exact se, by simp [isEolOrTerminator, se.kind], ?_,
          by simpa [tokenIs] using hcol, D, r6, s, c, e1, e2, e3, e4⟩
        exact quiet_stop (quiet_kind (by rw [se.kind]; decide)) (fun _ => calm_of_stop e5)
    obtain ⟨e, rb, rfl, se, hek, hstop, hcol, D, r6, s, cl, e1, e2, e3, e4⟩ := key
    obtain ⟨m, em, dm⟩ := mod_open' (src := src) (stops := stops) (l := ln) (e := e) (tail := rb ++ rest) (b := t)
      hlq hstop hek (head_col vt sl se) (ctitle_text sl)
    obtain ⟨cc, r7, e5, e6⟩ := coll_close e4 hr
    have ets : [o] ++ ([sp] ++ (ln ++ e :: rb)) ++ rest = o :: sp :: (ln ++ e :: (rb ++ rest)) := by simp
    have hopen : collOpenB stops (o :: sp :: (ln ++ e :: (rb ++ rest))) = some ([o, sp], some m, rb ++ rest) := by
      unfold collOpenB
      rw [if_pos (by simp [tokenIs_zero, tokenIs_one, ho, hsp])]
      simp only [List.drop_succ_cons, List.drop_zero, em, List.take_succ_cons, List.take_zero]
      rw [if_pos hcol]
    refine ⟨fun d => .coll [o, sp] (some m) D s cc d, r7, ?_, ?_, e6⟩
    · rw [ets]
      have := docB_coll (stops := stops) (ts := o :: sp :: (ln ++ e :: (rb ++ rest))) (c := cc) (r4 := r7)
        (stop_kind hi.1 (by simp [ok]) (by simp [ok])) (by simp [tokenIs, isTerminator, ok])
        (codeB_no (by simp [ok])) hopen (by rw [e1]; simp only [e3]; exact e5)
      rw [this, e1, e3]
    · intro d
      simp only [Doc.denote, dm, Option.getD_some, e2]
  · intro _
    have hl : (collV t vs).getLast? = some (false, '}') := by
      rw [collV, last_append (by simp [free]), last_append (by simp [free]), last_append (by simp [free]),
        last_append (by simp [free]), last_append (by simp [free]), last_append (by simp [free])]
      rfl
    simp [CleanEnd, hl]
  · intro _
    exact cleanStart_of_head (c := '{') rfl (by decide) (by decide)

/-! ### All blocks -/

mutual
theorem good_block {c : Bool} {stops : List Stop} (hi : Inside c stops) : ∀ {n : YamdNode}, safeBlock c n = true → Good stops n (dispB n)
  | .paragraph p, h => good_paragraph hi (by simpa [safeBlock] using h)
  | .heading l b, h => good_heading hi (by simpa [safeBlock] using h)
  | .image i, h => good_image hi (by simpa [safeBlock] using h)
  | .images l, h => good_images hi (by simpa [safeBlock] using h)
  | .code l b, h => good_code hi (by simpa [safeBlock] using h)
  | .list l, h => good_list hi (by simpa [safeBlock] using h)
  | .highlight t i b, h => good_highlight hi (by simpa [safeBlock] using h)
  | .thematicBreak, _ => good_thematic hi
  | .embed k a, h => good_embed hi (by simpa [safeBlock] using h)
  | .collapsible t b, h => by
    simp only [safeBlock, Bool.and_eq_true] at h
    obtain ⟨⟨⟨ht, hb⟩, he⟩, hs⟩ := h
    obtain ⟨vs, hvs⟩ := good_blocks hi.coll hb
    refine coll_good hi ht hvs he ?_
    cases b with
    | nil => simp
    | cons n r => intro m hm; simp at hm; subst hm; exact hs
theorem good_blocks {c : Bool} {stops : List Stop} (hi : Inside c stops) : ∀ {l : List YamdNode}, safeBlocks c l = true → ∃ vs, GoodVs stops l vs
  | [], _ => ⟨[], .nil⟩
  | n :: r, h => by
    rw [safeBlocks, Bool.and_eq_true] at h
    obtain ⟨v, e, hb, hend, hstart⟩ := good_block hi h.1
    obtain ⟨vs, hvs⟩ := good_blocks hi h.2
    exact ⟨v :: vs, .cons e hb hend hstart hvs⟩
end

end Yamd.Round
