import Verif.Proofs.Spell.List
import Verif.Proofs.Round.Coll

/-!
# Collapsibles and block sequences whose content is escaped throughout
-/

namespace Yamd.Round.SpellC

open Yamd Yamd.Spec Yamd.Lexer Yamd.Ref

inductive GVs (stops : List Stop) : List YamdNode → List V → Prop
  | nil : GVs stops [] []
  | cons {n v l vs} (g : GoodV stops n v) (h : GVs stops l vs) : GVs stops (n :: l) (v :: vs)

theorem GVs.blocks {stops} : ∀ {l vs}, GVs stops l vs → BlocksV stops l vs
  | _, _, .nil => .nil
  | _, _, .cons g h => .cons g.block h.blocks

theorem GVs.ends {stops} : ∀ {l vs}, GVs stops l vs → ∀ v ∈ vs, CleanEnd v
  | _, _, .nil, v, hv => by simp at hv
  | _, _, .cons g h, v, hv => by
    rcases List.mem_cons.1 hv with rfl | h1
    · exact g.stop
    · exact h.ends v h1

theorem GVs.joinStart {stops n l vs} (h : GVs stops (n :: l) vs) (X : V) : CleanStart (joinV vs ++ (false, '\n') :: X) := by
  cases h with
  | @cons _ v _ w g hr =>
    cases w with
    | nil => exact cleanStart_nl g.start g.block.ne g.stop
    | cons u w =>
      have e : joinV (v :: u :: w) ++ (false, '\n') :: X = v ++ (false, '\n') :: ((false, '\n') :: (joinV (u :: w) ++ (false, '\n') :: X)) := by
        simp [joinV, free]
      rw [e]
      exact cleanStart_nl g.start g.block.ne g.stop

theorem GVs.joinNe {stops n l vs} (h : GVs stops (n :: l) vs) : joinV vs ≠ [] := by
  cases h with
  | cons g hr =>
    cases hr with
    | nil => exact g.block.ne
    | cons => simp [joinV, free]

theorem GVs.joinEnd {stops} : ∀ {l vs}, GVs stops l vs → CleanEnd (joinV vs)
  | _, _, .nil => cleanEnd_nil
  | _, _, .cons g .nil => g.stop
  | _, _, .cons g (.cons g2 h) => by
    have ih := (GVs.cons g2 h).joinEnd
    have hne := (GVs.cons g2 h).joinNe
    unfold CleanEnd at ih ⊢
    rw [joinV, last_append (by simp [free]), last_append hne]
    exact ih

theorem title_space (t : Str) (w : V) : (hid t ++ (free ['\n'] ++ w)).head? ≠ some (false, ' ') := by
  cases t <;> simp [hid, free]

/-! ### The whole block -/

def collV (t : Str) (vs : List V) : V :=
  free ['{', '%'] ++ (free [' '] ++ (hid t ++ (free ['\n'] ++ (joinV vs ++ (free ['\n'] ++ free ['%', '}'])))))

/-- The body is read up to the closing line. -/
theorem coll_body {src stops l vs ts} (hd : DStops stops) (h : GVs (.CollapsibleEnd :: stops) l vs) (hl : l ≠ [])
    (hs : SpV src true ts (joinV vs ++ (free ['\n'] ++ free ['%', '}']))) :
    ∃ t r, ts = t :: r ∧ col0 t = true ∧ ∀ rest, ∃ D r2 s c, docB (.CollapsibleEnd :: stops) (ts ++ rest) = (D, r2) ∧ D.denote src = l ∧
      skipEolB r2 = (s, c :: rest) ∧ isCollapsibleEnd c = true ∧ stopAt (.CollapsibleEnd :: stops) (ts ++ rest) = false := by
  have hv := joinV_valid h.blocks
  have hc := h.joinEnd
  obtain ⟨tb, r1, rfl, s1, s2⟩ := spv_split hv (join_nl hv hc) hs
  obtain ⟨t2, t3, rfl, s3, s4⟩ := spv_split (valid_free (by decide)) (join_eol (cleanStart_of_head (c := '%') rfl (by decide) (by decide))) s2
  obtain ⟨e, rfl, se⟩ := spv_one (p := ⟨false, .Eol, ['\n']⟩) rfl s3
  obtain ⟨c, rfl, sc⟩ := spv_one (p := ⟨false, .CollapsibleEnd, ['%', '}']⟩) rfl s4
  have hcol : col0 c = true := sc.col
  have hce : isCollapsibleEnd c = true := by simp [isCollapsibleEnd, sc.kind, hcol]
  have hjne : joinV vs ≠ [] := by
    cases h with
    | nil => exact absurd rfl hl
    | cons g hr => exact (GVs.cons g hr).joinNe
  obtain ⟨t, r, rfl⟩ := List.exists_cons_of_ne_nil (spv_ne hv s1 hjne)
  obtain ⟨p1, v2, -, st, -⟩ := spv_head hv s1
  refine ⟨t, r ++ ([e] ++ [c]), rfl, st.col, fun rest => ?_⟩
  have hbd : Bd (.CollapsibleEnd :: stops) (e :: c :: rest) := .close e c rest (by simp) se.kind sc.kind hcol
  obtain ⟨f, r2, e1, hf, hor⟩ := reads_blocks hd.coll hl h.blocks (fun v hv => h.ends v (List.dropLast_subset _ hv)) s1 _ hbd
  have hst : stopAt (.CollapsibleEnd :: stops) r2 = true := by
    rcases hor with rfl | ⟨x, hx, -⟩
    · simp [stopAt, stopHere, se.kind, tokenIs, sc.kind, hcol]
    · simp only [List.cons.injEq] at hx
      rw [← hx.2]
      simp [stopAt, stopHere, sc.kind, hcol]
  rw [docB_stop hst] at e1
  have ets : (t :: r) ++ ([e] ++ [c]) ++ rest = (t :: r) ++ e :: c :: rest := by simp
  have hstop : stopAt (.CollapsibleEnd :: stops) ((t :: r) ++ e :: c :: rest) = false := by
    cases hh : stopAt (.CollapsibleEnd :: stops) ((t :: r) ++ e :: c :: rest) with
    | false => rfl
    | true =>
      rw [docB_stop hh] at e1
      have h1 := congrArg Prod.fst e1
      simp only at h1
      have h2 := hf .nil
      rw [← h1] at h2
      simp only [Doc.denote, List.append_nil] at h2
      exact absurd h2.symm hl
  rw [ets]
  rcases hor with rfl | ⟨x, hx, -⟩
  · refine ⟨f .nil, _, [e], c, e1, by rw [hf]; simp [Doc.denote], ?_, hce, hstop⟩
    simp [skipEolB, tokenIs, isEol, se.kind]
  · simp only [List.cons.injEq] at hx
    rw [← hx.2] at e1
    refine ⟨f .nil, _, [], c, e1, by rw [hf]; simp [Doc.denote], ?_, hce, hstop⟩
    simp [skipEolB, tokenIs, isEol, sc.kind]

theorem hid_coll {stops t l vs} (hd : DStops stops) (h : GVs (.CollapsibleEnd :: stops) l vs) :
    GoodV stops (.collapsible t l) (collV t vs) := by
  have vt := hid_valid t
  have vj := joinV_valid h.blocks
  have vc : Valid (free ['\n'] ++ free ['%', '}']) := (valid_free (by decide)).append (valid_free (by decide))
  refine ⟨⟨?_, by simp [collV, free], ?_⟩, ?_, ?_⟩
  · exact (valid_free (by decide)).append ((valid_free (by decide)).append (vt.append ((valid_free (by decide)).append (vj.append vc))))
  · intro src ts hs
    unfold collV at hs
    have j1 : ∀ w : V, Join (free ['{', '%']) (free [' '] ++ w) := by
      intro w
      refine join_known (l := []) (p := ⟨false, .CollapsibleStart, ['{', '%']⟩) (valid_free (by decide)) (pieces_one rfl) ?_
      rfl
    obtain ⟨t1, r1, rfl, s1, hs1⟩ := spv_split (valid_free (by decide)) (j1 _) hs
    obtain ⟨o, rfl, so⟩ := spv_one (p := ⟨false, .CollapsibleStart, ['{', '%']⟩) rfl s1
    obtain ⟨t2, r2, rfl, s2, hs2⟩ := spv_split (valid_free (by decide)) (join_space (title_space t _)) hs1
    obtain ⟨sp, rfl, ssp⟩ := spv_one (p := ⟨false, .Space, [' ']⟩) rfl s2
    have hf2 : ∀ b, flag b (free [' ']) = false := fun _ => rfl
    rw [hf2] at hs2
    obtain ⟨ln, r3, rfl, sl, hs3⟩ := spv_split vt (join_nl vt (hid_cleanEnd t)) hs2
    have hq := spv_quiet vt sl (hid_vq (stops := .Terminator :: stops))
    have hnn := spv_nonl vt hid_notFree sl
    have hlq : ∀ x ∈ ln, quiet stops x = true ∧ isEolOrTerminator x = false := by
      intro x hx
      refine ⟨?_, by simp [isEolOrTerminator, hnn x hx]⟩
      have := hq x hx
      simp only [quiet, List.all_cons, Bool.and_eq_true] at this ⊢
      exact this.2
    intro rest hr
    have ok : o.kind = .CollapsibleStart := so.kind
    have ho : isCollapsibleStart o = true := by simp [isCollapsibleStart, ok, so.col]
    have hsp : isSpaceOrEol sp = true := by simp [isSpaceOrEol, ssp.kind]
    -- the line break after the title, and the body
    have key : ∃ e rb, r3 = e :: rb ∧ SpT src (flag false (hid t)) e ⟨false, e.kind, if l = [] then ['\n', '\n'] else ['\n']⟩ ∧
        isEolOrTerminator e = true ∧ stopAt stops (e :: (rb ++ rest)) = false ∧ tokenIs (rb ++ rest) 0 col0 = true ∧
        ∃ D r2 s c, docB (.CollapsibleEnd :: stops) (rb ++ rest) = (D, r2) ∧ D.denote src = l ∧
          skipEolB r2 = (s, c :: rest) ∧ isCollapsibleEnd c = true := by
      by_cases hl : l = []
      · subst hl
        cases h
        have hs4 : SpV src (flag false (hid t)) r3 (free ['\n', '\n'] ++ free ['%', '}']) := by simpa [joinV, free] using hs3
        obtain ⟨t4, r4, rfl, s4, s5⟩ := spv_split (valid_free (by decide)) (join_after_blank _) hs4
        obtain ⟨e, rfl, se⟩ := spv_one (p := ⟨false, .Terminator, ['\n', '\n']⟩) rfl s4
        obtain ⟨c, rfl, sc⟩ := spv_one (p := ⟨false, .CollapsibleEnd, ['%', '}']⟩) rfl s5
        have hcol : col0 c = true := sc.col
        refine ⟨e, [c], rfl, by rw [se.kind]; exact se, by simp [isEolOrTerminator, se.kind], stop_term hd se.kind,
          by simpa [tokenIs] using hcol, .nil, c :: rest, [], c, ?_, rfl, ?_, by simp [isCollapsibleEnd, sc.kind, hcol]⟩
        · exact docB_stop (by simp [stopAt, stopHere, sc.kind, hcol])
        · simp [skipEolB, tokenIs, isEol, sc.kind]
      · obtain ⟨n, l', rfl⟩ := List.exists_cons_of_ne_nil hl
        have hcs : CleanStart (joinV vs ++ (free ['\n'] ++ free ['%', '}'])) := by
          exact h.joinStart _
        obtain ⟨t4, rb, rfl, s4, s5⟩ := spv_split (valid_free (by decide)) (join_eol hcs) hs3
        obtain ⟨e, rfl, se⟩ := spv_one (p := ⟨false, .Eol, ['\n']⟩) rfl s4
        obtain ⟨t5, r5, rfl, hcol, hb⟩ := coll_body hd h hl s5
        obtain ⟨D, r6, s, c, e1, e2, e3, e4, e5⟩ := hb rest
        refine ⟨e, t5 :: r5, rfl, by rw [se.kind, if_neg (by simp)]; exact se, by simp [isEolOrTerminator, se.kind], ?_,
          by simpa [tokenIs] using hcol, D, r6, s, c, e1, e2, e3, e4⟩
        exact quiet_stop (quiet_kind (by rw [se.kind]; decide)) (fun _ => calm_of_stop e5)
    obtain ⟨e, rb, rfl, se, hek, hstop, hcol, D, r6, s, cl, e1, e2, e3, e4⟩ := key
    obtain ⟨m, em, dm⟩ := mod_open' (src := src) (stops := stops) (l := ln) (e := e) (tail := rb ++ rest) (b := t)
      hlq hstop hek (head_col vt sl se) (by rw [spv_text vt sl, hid_chars])
    obtain ⟨cc, r7, e5, e6⟩ := coll_close e4 hr
    have ets : [o] ++ ([sp] ++ (ln ++ e :: rb)) ++ rest = o :: sp :: (ln ++ e :: (rb ++ rest)) := by simp
    have hopen : collOpenB stops (o :: sp :: (ln ++ e :: (rb ++ rest))) = some ([o, sp], some m, rb ++ rest) := by
      unfold collOpenB
      rw [if_pos (by simp [tokenIs_zero, tokenIs_one, ho, hsp])]
      simp only [List.drop_succ_cons, List.drop_zero, em, List.take_succ_cons, List.take_zero]
      rw [if_pos hcol]
    refine ⟨fun d => .coll [o, sp] (some m) D s cc d, r7, ?_, ?_, e6⟩
    · rw [ets]
      have := docB_coll (stops := stops) (ts := o :: sp :: (ln ++ e :: (rb ++ rest))) (c := cc) (r4 := r7)
        (stop_kind hd (by simp [ok]) (by simp [ok])) (by simp [tokenIs, isTerminator, ok])
        (codeB_no (by simp [ok])) hopen (by rw [e1]; simp only [e3]; exact e5)
      rw [this, e1, e3]
    · intro d
      simp only [Doc.denote, dm, Option.getD_some, e2]
  · have hl : (collV t vs).getLast? = some (false, '}') := by
      rw [collV, last_append (by simp [free]), last_append (by simp [free]), last_append (by simp [free]),
        last_append (by simp [free]), last_append (by simp [free]), last_append (by simp [free])]
      rfl
    simp [CleanEnd, hl]
  · exact cleanStart_of_head (c := '{') rfl (by decide) (by decide)

/-! ### All blocks -/

theorem render_coll {t : Str} {l : List YamdNode} {vs : List V} (h : vs.map render = spellBlocks l) :
    render (collV t vs) = spellBlock (.collapsible t l) := by
  rw [spellBlock.eq_def]
  simp only [collV, render_append, render_free_all, render_hid, joinV_eq, h]
  simp

mutual
theorem hid_block {c : Bool} {stops : List Stop} (hi : Inside c stops) : ∀ {n : YamdNode}, (blocksIn n).all exprBlock = true →
    ∃ v, render v = spellBlock n ∧ GoodV stops n v
  | .paragraph p, h => ⟨_, by rw [render_hidPara, spellBlock.eq_def], hid_paragraph (by simpa [blocksIn] using h)⟩
  | .heading l b, h => ⟨_, by rw [render_headingV, spellBlock.eq_def], hid_heading hi (by simpa [blocksIn] using h)⟩
  | .image i, h => ⟨_, by rw [render_hidImgs, spellBlock.eq_def]; rfl, hid_image hi⟩
  | .images l, h => ⟨_, by rw [render_hidImgs, spellBlock.eq_def], hid_images hi (by simpa [blocksIn] using h)⟩
  | .code l b, h => ⟨_, by rw [render_hidCode, spellBlock.eq_def], hid_code hi (by simpa [blocksIn] using h)⟩
  | .list l, h => ⟨_, by rw [SpellL.render_list, spellBlock.eq_def], SpellL.hid_list hi.1 (by simpa [blocksIn] using h)⟩
  | .highlight t i b, h => hid_highlight hi (by simpa [blocksIn] using h)
  | .thematicBreak, _ => by
    obtain ⟨v, e, hb, h1, h2⟩ := good_thematic hi
    exact ⟨v, by rw [← e, spellBlock.eq_def], hb, h1 rfl, h2 rfl⟩
  | .embed k a, h => ⟨_, by rw [render_hidEmbed, spellBlock.eq_def], hid_embed hi⟩
  | .collapsible t b, h => by
    simp only [blocksIn, List.all_cons, Bool.and_eq_true] at h
    obtain ⟨vs, e, hvs⟩ := hid_blocks hi.coll h.2
    exact ⟨_, render_coll e, hid_coll hi.1 hvs⟩
theorem hid_blocks {c : Bool} {stops : List Stop} (hi : Inside c stops) : ∀ {l : List YamdNode}, (blocksOf l).all exprBlock = true →
    ∃ vs, vs.map render = spellBlocks l ∧ GVs stops l vs
  | [], _ => ⟨[], by rw [spellBlocks]; rfl, .nil⟩
  | n :: r, h => by
    rw [blocksOf, List.all_append, Bool.and_eq_true] at h
    obtain ⟨v, e, g⟩ := hid_block hi h.1
    obtain ⟨vs, es, hvs⟩ := hid_blocks hi h.2
    exact ⟨v :: vs, by rw [spellBlocks, List.map_cons, e, es], .cons g hvs⟩
end


end Yamd.Round.SpellC
