import Verif.Proofs.Spell.Blocks2

/-!
# Highlights whose content is escaped throughout
-/

namespace Yamd.Round

open Yamd Yamd.Spec Yamd.Lexer Yamd.Ref

/-- A paragraph of a highlight and its view; `p'` is what is read before line breaks at its end are dropped. -/
structure HidHl (stops : List Stop) (p' p : Paragraph) (v : V) : Prop where
  view : ParaV (hlStops stops) true p' v
  chain : Chain nodeShape p'
  ne : p' ≠ []
  clean : CleanEnd v
  start : CleanStart v
  bang : v.head? ≠ some (false, '!')
  trim : ToYamd.trimTrailingNewline p' = p
  trimNl : ToYamd.trimTrailingNewline (appendNl p') = p

inductive HidHls (stops : List Stop) : List Paragraph → List V → Prop
  | nil : HidHls stops [] []
  | cons {p' p l v w} : HidHl stops p' p v → HidHls stops l w → HidHls stops (p :: l) (v :: w)

theorem HidHl.viewNe {stops p' p v} (h : HidHl stops p' p v) : v ≠ [] := para_ne h.view h.ne

theorem hidHls_valid {stops} : ∀ {l : List Paragraph} {vs : List V}, HidHls stops l vs → Valid (joinV vs)
  | _, _, .nil => by simp [joinV, Valid]
  | _, _, .cons h .nil => para_valid h.view
  | _, _, .cons h (.cons h2 hr) =>
    (para_valid h.view).append ((valid_free (by decide)).append (hidHls_valid (.cons h2 hr)))

theorem hidHls_last {stops} : ∀ {l : List Paragraph} {vs : List V}, HidHls stops l vs → CleanEnd (joinV vs)
  | _, _, .nil => cleanEnd_nil
  | _, _, .cons h .nil => h.clean
  | _, _, .cons h (.cons (v := w) (w := ws) h2 hr) => by
    have ih := hidHls_last (.cons h2 hr)
    have hne : joinV (w :: ws) ≠ [] := by
      intro e
      cases hr with
      | nil => exact h2.viewNe e
      | cons => simp [joinV] at e; exact h2.viewNe e.1
    unfold CleanEnd at ih ⊢
    rw [joinV, last_append (by simp [free]), last_append hne]
    exact ih

theorem hidHls_exec {src stops} (hd : DStops stops) : ∀ {l : List Paragraph} {vs : List V} {pre ts : List Token} {c : Token}
    {rest : List Token}, HidHls stops l vs → l ≠ [] → (pre = [] ∨ ∃ u : Token, pre = [u] ∧ u.kind = .Terminator) →
    SpV src true ts (joinV vs ++ free ['\n']) → isTwoBangs c = true → Bd stops rest →
    ∃ hs cl r, hlParasB stops (pre ++ (ts ++ c :: rest)) = some (hs, cl, r) ∧
      hs.map (fun h => ToYamd.trimTrailingNewline (paraDenote src h.para)) = l ∧
      (r = rest ∨ ∃ e, rest = e :: r ∧ e.kind = .Eol)
  | _, _, _, _, _, _, .nil, hl, _, _, _, _ => absurd rfl hl
  | _, _, pre, ts, c, rest, .cons (v := v) h .nil, _, hpre, hs, hc, hr => by
    have hv : ParaV (hlStops stops) true (appendNl _) (v ++ free ['\n']) := para_nl h.view h.clean
    obtain ⟨l, e1, ok, np, den⟩ := para_tree hv (chain_appendNl h.chain) hs
    have hk : c.kind = .Bang := by simp [isTwoBangs] at hc; exact hc.1.1
    have hp : paraB (hlStops stops) [] (ts ++ c :: rest) = (l, c :: rest) := by
      rw [← e1]
      refine paraB_exec ok np ?_ ?_
      · simp only [stopAt, List.any_cons, stopHere, Bool.or_eq_true]
        refine .inr (.inl ?_)
        exact hc
      · intro _; simp [closesColl, tokenIs, hk]
    obtain ⟨t, r, rfl⟩ := List.exists_cons_of_ne_nil (spv_ne (para_valid hv) hs (by simp [free]))
    have hq : ∀ u ∈ t :: r, quiet (hlStops stops) u = true := e1 ▸ para_quiet ok
    obtain ⟨cl, r', ecl, hor⟩ := hl_close hd hc hr
    refine ⟨[⟨pre, l⟩], cl, r', ?_, ?_, hor⟩
    · have := hl_step (pre := pre) (t := t) (r := r ++ c :: rest) hd hpre (hq t (by simp))
        (calm_append (tailAll hq) (fun _ => by simp [closesColl, tokenIs, hk])) hp (by simp; omega)
      rw [show pre ++ (t :: r ++ c :: rest) = pre ++ t :: (r ++ c :: rest) from rfl, this, ecl]
      rfl
    · simp only [List.map_cons, List.map_nil, den, h.trimNl]
  | _, _, pre, ts, c, rest, .cons (v := v) h (.cons (v := w) (l := l) (w := vs) h2 hr2), _, hpre, hs, hc, hr => by
    have hs' : SpV src true ts (v ++ (free ['\n', '\n'] ++ (joinV (w :: vs) ++ free ['\n']))) := by
      simpa only [joinV, List.append_assoc] using hs
    obtain ⟨t1, t2, rfl, s1, s2⟩ := spv_split (para_valid h.view) (join_blank (para_valid h.view) h.clean) hs'
    obtain ⟨t3, t4, rfl, s3, s4⟩ := spv_split (valid_free (by decide)) (join_after_blank _) s2
    obtain ⟨b, rfl, sb⟩ := spv_one (p := ⟨false, .Terminator, ['\n', '\n']⟩) rfl s3
    have hfl : flag (flag true v) (free ['\n', '\n']) = true := rfl
    rw [hfl] at s4
    have hbk : b.kind = .Terminator := sb.kind
    obtain ⟨hs2, cl, r', e2, den2, hor⟩ := hidHls_exec hd (pre := [b]) (.cons h2 hr2) (by simp) (.inr ⟨b, rfl, hbk⟩) s4 hc hr
    obtain ⟨l1, e1, ok, np, den⟩ := para_tree h.view h.chain s1
    have hp : paraB (hlStops stops) [] (t1 ++ b :: (t4 ++ c :: rest)) = (l1, b :: (t4 ++ c :: rest)) := by
      rw [← e1]
      refine paraB_exec ok np ?_ ?_
      · simp [stopAt, stopHere, hbk]
      · intro _; simp [closesColl, tokenIs, hbk]
    obtain ⟨t, r, rfl⟩ := List.exists_cons_of_ne_nil (spv_ne (para_valid h.view) s1 h.viewNe)
    have hq : ∀ u ∈ t :: r, quiet (hlStops stops) u = true := e1 ▸ para_quiet ok
    refine ⟨⟨pre, l1⟩ :: hs2, cl, r', ?_, ?_, hor⟩
    · have := hl_step (pre := pre) (t := t) (r := r ++ b :: (t4 ++ c :: rest)) hd hpre (hq t (by simp))
        (calm_append (tailAll hq) (fun _ => by simp [closesColl, tokenIs, hbk])) hp (by simp; omega)
      rw [show pre ++ (t :: r ++ ([b] ++ t4) ++ c :: rest) = pre ++ t :: (r ++ b :: (t4 ++ c :: rest)) by simp, this,
        show b :: (t4 ++ c :: rest) = [b] ++ (t4 ++ c :: rest) from rfl, e2]
      rfl
    · simp only [List.map_cons, den, h.trim, den2]


/-! ### The last lines -/

def hidTail (vs : List V) : V := (if vs.isEmpty then [] else joinV vs ++ free ['\n']) ++ free ['!', '!']

theorem hidTail_cons (v : V) (vs : List V) : ∃ X, hidTail (v :: vs) = v ++ (false, '\n') :: X := by
  cases vs with
  | nil => exact ⟨free ['!', '!'], by simp [hidTail, joinV, free]⟩
  | cons w vs => exact ⟨(false, '\n') :: (joinV (w :: vs) ++ (free ['\n'] ++ free ['!', '!'])), by simp [hidTail, joinV, free]⟩

theorem hidTail_valid {stops l vs} (h : HidHls stops l vs) : Valid (hidTail vs) := by
  cases h with
  | nil => exact valid_free (by decide)
  | cons h hr => exact ((hidHls_valid (.cons h hr)).append (valid_free (by decide))).append (valid_free (by decide))

theorem hidTail_start {stops l vs} (h : HidHls stops l vs) : CleanStart (hidTail vs) := by
  cases h with
  | nil => exact cleanStart_of_head (c := '!') rfl (by decide) (by decide)
  | @cons p' p l' v w h hr =>
    obtain ⟨X, eX⟩ := hidTail_cons v w
    rw [eX]
    exact cleanStart_nl h.start h.viewNe h.clean

theorem quiet_dstops {stops : List Stop} {t : Token} (hd : DStops stops) (hk : t.kind ≠ .CollapsibleEnd) : quiet stops t = true := by
  refine List.all_eq_true.2 (fun st hst => ?_)
  rw [hd st hst]
  simp [quiet1, hk]

theorem hid_tail {src stops l vs ts} (hd : DStops stops) (h : HidHls stops l vs) (hs : SpV src true ts (hidTail vs)) :
    ∃ t r, ts = t :: r ∧ col0 t = true ∧ isOneBang t = false ∧ quiet (.Terminator :: stops) t = true ∧
      ∀ rest, Bd stops rest → ∃ hs cl r', hlParasB stops (ts ++ rest) = some (hs, cl, r') ∧
        hs.map (fun h => ToYamd.trimTrailingNewline (paraDenote src h.para)) = l ∧
        (r' = rest ∨ ∃ e, rest = e :: r' ∧ e.kind = .Eol) := by
  cases h with
  | nil =>
    obtain ⟨c, rfl, sc⟩ := spv_one (p := ⟨false, .Bang, ['!', '!']⟩) rfl hs
    have hk : c.kind = .Bang := sc.kind
    have hl : c.len = 2 := sc.len
    have hc : isTwoBangs c = true := by simp [isTwoBangs, hk, sc.col, hl]
    refine ⟨c, [], rfl, sc.col, by simp [isOneBang, hl], ?_, fun rest hr => ?_⟩
    · rw [quiet, List.all_cons, Bool.and_eq_true]
      exact ⟨by simp [quiet1, hk], quiet_dstops hd (by simp [hk])⟩
    · obtain ⟨cl, r', e, hor⟩ := hl_close hd hc hr
      exact ⟨[], cl, r', e, rfl, hor⟩
  | @cons p' p l' v w h hr =>
    have hh : HidHls stops (p :: l') (v :: w) := .cons h hr
    have hv := hidHls_valid hh
    have hv2 : Valid (joinV (v :: w) ++ free ['\n']) := hv.append (valid_free (by decide))
    have hs1 : SpV src true ts ((joinV (v :: w) ++ free ['\n']) ++ free ['!', '!']) := hs
    obtain ⟨t1, t2, rfl, s1, s2⟩ := spv_split hv2 (join_stop (c := '!') hv2 rfl (by decide) (by simp [free]) (by simp) (by simp)) hs1
    obtain ⟨c, rfl, sc⟩ := spv_one (p := ⟨false, .Bang, ['!', '!']⟩) rfl s2
    have hcol : col0 c = true := by
      rw [sc.col, flag, last_append (by simp [free])]; rfl
    have hc : isTwoBangs c = true := by simp [isTwoBangs, sc.kind, hcol, sc.len]; rfl
    obtain ⟨t, r, rfl⟩ := List.exists_cons_of_ne_nil (spv_ne hv2 s1 (by simp [free]))
    obtain ⟨p1, v2, -, st, -⟩ := spv_head hv2 s1
    refine ⟨t, r ++ [c], rfl, st.col, ?_, ?_, ?_⟩
    · cases hb : isOneBang t with
      | false => rfl
      | true =>
        exfalso
        have hk : t.kind = .Bang := by simp [isOneBang] at hb; exact hb.1.1
        obtain ⟨h1, -, h3⟩ := spv_run1 hv2 s1 (c := '!') (by rw [hk]; rfl)
        have := head_of_prefix h3 h1
        obtain ⟨x, v', ev⟩ := List.exists_cons_of_ne_nil h.viewNe
        have hbang := h.bang
        rw [ev] at this hbang
        cases w <;> exact hbang (by simpa [joinV] using this)
    · have hq : quiet (hlStops stops) t = true := by
        cases hr with
        | nil =>
          obtain ⟨l1, e1, ok, -, -⟩ := para_tree (para_nl h.view h.clean) (chain_appendNl h.chain) s1
          exact para_quiet ok t (by rw [e1]; simp)
        | cons h2 hr2 =>
          rename_i q' q l'' v' w'
          have s1' : SpV src true (t :: r) (v ++ (free ['\n', '\n'] ++ (joinV (v' :: w') ++ free ['\n']))) := by
            simpa only [joinV, List.append_assoc] using s1
          obtain ⟨t1, t2, e0, g1, -⟩ := spv_split (para_valid h.view) (join_blank (para_valid h.view) h.clean) s1'
          obtain ⟨l1, e1, ok, -, -⟩ := para_tree h.view h.chain g1
          obtain ⟨x, t1', rfl⟩ := List.exists_cons_of_ne_nil (spv_ne (para_valid h.view) g1 h.viewNe)
          simp only [List.cons_append, List.cons.injEq] at e0
          rw [e0.1]
          exact para_quiet ok x (by rw [e1]; simp)
      simp only [hlStops, quiet, List.all_cons, Bool.and_eq_true] at hq ⊢
      exact ⟨hq.1, hq.2.2⟩
    · intro rest hr'
      obtain ⟨hs', cl, r2, e1, e2, e3⟩ := hidHls_exec hd (pre := []) hh (by simp) (.inl rfl) s1 hc hr'
      refine ⟨hs', cl, r2, ?_, e2, e3⟩
      rw [← e1]; simp

/-! ### Title and icon -/

/-- A line of escaped text and the line break after it. -/
theorem hid_line {src s ts w} (hw : CleanStart w) (hs : SpV src false ts (hid s ++ (free ['\n'] ++ w))) :
    ∃ l e r, ts = l ++ e :: r ∧ SpV src false l (hid s) ∧ e.kind = .Eol ∧ SpT src (flag false (hid s)) e ⟨false, .Eol, ['\n']⟩ ∧
      SpV src true r w ∧ textOfToks src l = s ∧ (∀ t ∈ l, t.kind ≠ .Eol ∧ t.kind ≠ .Terminator) := by
  have hv := hid_valid s
  obtain ⟨l, r1, rfl, s1, hs1⟩ := spv_split hv (join_nl hv (hid_cleanEnd s)) hs
  obtain ⟨t2, r, rfl, s2, hs2⟩ := spv_split (valid_free (by decide)) (join_eol hw) hs1
  obtain ⟨e, rfl, se⟩ := spv_one (p := ⟨false, .Eol, ['\n']⟩) rfl s2
  exact ⟨l, e, r, rfl, s1, se.kind, se, hs2, by rw [spv_text hv s1, hid_chars], spv_nonl hv hid_notFree s1⟩

theorem hid_space {s : Str} {c : Char} {w : V} (h : c ≠ ' ') : (hid s ++ (free [c] ++ w)).head? ≠ some (false, ' ') := by
  cases s with
  | nil => simpa [hid, free] using h
  | cons d s => simp [hid]

def hidIcon : Option Str → V
  | none => []
  | some i => free ['!'] ++ (free [' '] ++ (hid i ++ free ['\n']))

theorem hid_icon {src stops icon l vs ts} (hd : DStops stops) (h : HidHls stops l vs)
    (hs : SpV src true ts (hidIcon icon ++ hidTail vs)) :
    ∃ t2, SpV src true t2 (hidTail vs) ∧ tokenIs ts 0 (fun t => col0 t && quiet stops t) = true ∧ ∀ rest, ∃ m,
      optIconB (.Terminator :: stops) (ts ++ rest) = (m, t2 ++ rest) ∧ iconDenote src m = icon := by
  cases icon with
  | none =>
    have hs' : SpV src true ts (hidTail vs) := hs
    obtain ⟨t, r, rfl, hcol, hone, hq, -⟩ := hid_tail hd h hs'
    simp only [quiet, List.all_cons, Bool.and_eq_true] at hq
    refine ⟨_, hs', by simp only [tokenIs_zero, hcol, Bool.true_and, quiet]; exact hq.2, fun rest => ⟨none, ?_, rfl⟩⟩
    have : iconB (.Terminator :: stops) (t :: r ++ rest) = none := by
      rw [iconB, if_neg]
      simp [tokenIs_zero, hone]
    unfold optIconB
    rw [this]
  | some i =>
    have hs' : SpV src true ts (free ['!'] ++ (free [' '] ++ (hid i ++ (free ['\n'] ++ hidTail vs)))) := by
      simpa only [hidIcon, List.append_assoc] using hs
    obtain ⟨t1, r1, rfl, s1, hs1⟩ := spv_split (valid_free (by decide))
      (join_after (c := '!') (valid_free (by decide)) rfl (by decide) (by decide) (by simp) (.inr (by simp [free]))) hs'
    obtain ⟨b, rfl, sb⟩ := spv_one (p := ⟨false, .Bang, ['!']⟩) rfl s1
    obtain ⟨t2, r2, rfl, s2, hs2⟩ := spv_split (valid_free (by decide)) (join_space (hid_space (by decide))) hs1
    obtain ⟨sp, rfl, ssp⟩ := spv_one (p := ⟨false, .Space, [' ']⟩) rfl s2
    have hfl : ∀ b, flag b (free [' ']) = false := fun b => rfl
    rw [hfl] at hs2
    obtain ⟨ln, e, r, rfl, sl, ek, -, sr, tx, nn⟩ := hid_line (hidTail_start h) hs2
    have hq := spv_quiet (stops := .Terminator :: stops) (hid_valid i) sl hid_vq
    obtain ⟨t, r', rfl, -, -, hqt, -⟩ := hid_tail hd h sr
    refine ⟨_, sr, ?_, fun rest => ⟨some ⟨[b, sp], ln, e⟩, ?_, by simp [iconDenote, tx]⟩⟩
    · simp only [List.singleton_append, tokenIs_zero, sb.col, Bool.true_and]
      exact quiet_dstops hd (by simp [sb.kind])
    · have hb : isOneBang b = true := by simp [isOneBang, sb.kind, sb.col, sb.len]; rfl
      have hsp : isSpace1 sp = true := by simp [isSpace1, ssp.kind, ssp.len]; rfl
      have hu : untilB (.Terminator :: stops) isEol (ln ++ e :: (t :: r' ++ rest)) = some (ln, e, t :: r' ++ rest) := by
        refine untilB_exec (fun x hx => ⟨hq x hx, ?_⟩) (quiet_kind (by rw [ek]; decide)) (by simp [isEol, ek]) (calm_cons hqt)
        simp [isEol, (nn x hx).1]
      have : iconB (.Terminator :: stops) ([b] ++ ([sp] ++ (ln ++ e :: t :: r')) ++ rest) = some (⟨[b, sp], ln, e⟩, t :: r' ++ rest) := by
        rw [show [b] ++ ([sp] ++ (ln ++ e :: t :: r')) ++ rest = b :: sp :: (ln ++ e :: (t :: r' ++ rest)) by simp,
          iconB, if_pos (by simp [tokenIs_zero, tokenIs_one, hb, hsp])]
        simp only [List.drop_succ_cons, List.drop_zero, hu, Option.map_some, List.take_succ_cons, List.take_zero]
      unfold optIconB
      rw [this]

/-! ### The whole highlight -/

def hidTitle : Option Str → V
  | none => []
  | some t => free [' '] ++ hid t

def hidHlV (title icon : Option Str) (vs : List V) : V :=
  free ['!', '!'] ++ (hidTitle title ++ (free ['\n'] ++ (hidIcon icon ++ hidTail vs)))

theorem hidHlV_valid {stops title icon l vs} (h : HidHls stops l vs) : Valid (hidHlV title icon vs) := by
  have h1 : Valid (hidTitle title) := by
    cases title with
    | none => simp [hidTitle, Valid]
    | some t => exact (valid_free (by decide)).append (hid_valid t)
  have h2 : Valid (hidIcon icon) := by
    cases icon with
    | none => simp [hidIcon, Valid]
    | some t => exact (valid_free (by decide)).append ((valid_free (by decide)).append ((hid_valid t).append (valid_free (by decide))))
  exact (valid_free (by decide)).append (h1.append ((valid_free (by decide)).append (h2.append (hidTail_valid h))))

theorem hidHls_good {c stops title icon ps vs} (hi : Inside c stops) (hvs : HidHls stops ps vs) :
    GoodV stops (.highlight title icon ps) (hidHlV title icon vs) := by
  have hcs := hidTail_start hvs
  have hcs2 : CleanStart (hidIcon icon ++ hidTail vs) := by
    cases icon with
    | none => exact hcs
    | some i => exact cleanStart_of_head (c := '!') rfl (by decide) (by decide)
  refine ⟨⟨hidHlV_valid hvs, by simp [hidHlV, free], ?_⟩, ?_, ?_⟩
  · intro src ts hs
    -- the opening token
    have j1 : Join (free ['!', '!']) (hidTitle title ++ (free ['\n'] ++ (hidIcon icon ++ hidTail vs))) := by
      refine join_after (c := '!') (valid_free (by decide)) rfl (by decide) (by decide) (by simp) (.inr ?_)
      cases title <;> simp [hidTitle, free]
    obtain ⟨t1, r1, rfl, s1, hs1⟩ := spv_split (valid_free (by decide)) j1 hs
    obtain ⟨o, rfl, so⟩ := spv_one (p := ⟨false, .Bang, ['!', '!']⟩) rfl s1
    have hf1 : ∀ b, flag b (free ['!', '!']) = false := fun _ => rfl
    rw [hf1] at hs1
    have hok : o.kind = .Bang := so.kind
    have ho : isTwoBangs o = true := by simp [isTwoBangs, so.kind, so.col, so.len]; rfl
    refine reads_other (fun rest hr => ?_)
    -- the rest after the opening line
    have key : ∀ (r : List Token) (op : List Token) (m : Option Mod), SpV src true r (hidIcon icon ++ hidTail vs) → modDenote src m = title →
        ∃ b r', hlRestB stops op m (r ++ rest) = some (b, r') ∧ b.denote src = .highlight title icon ps ∧
          (r' = rest ∨ ∃ e, rest = e :: r' ∧ e.kind = .Eol) := by
      intro r op m sr hm
      obtain ⟨t2, s2, -, hopt⟩ := hid_icon hi.1 hvs sr
      obtain ⟨ic, eic, dic⟩ := hopt rest
      obtain ⟨t, r2, rfl, hcol, -, -, hex⟩ := hid_tail hi.1 hvs s2
      obtain ⟨hs', cl, r', e1, e2, e3⟩ := hex rest hr
      refine ⟨.highlight op m ic hs' cl, r', ?_, ?_, e3⟩
      · rw [hlRestB, eic]
        simp only
        rw [if_pos (by simpa [tokenIs] using hcol), e1]
        rfl
      · simp only [Block.denote, hm, dic, e2]
    have fin : ∃ b r', highlightB stops ([o] ++ r1 ++ rest) = some (b, r') ∧ b.denote src = .highlight title icon ps ∧
          (r' = rest ∨ ∃ e, rest = e :: r' ∧ e.kind = .Eol) := by
      cases title with
      | none =>
        have hs2 : SpV src false r1 (free ['\n'] ++ (hidIcon icon ++ hidTail vs)) := hs1
        obtain ⟨t3, r, rfl, s3, sr⟩ := spv_split (valid_free (by decide)) (join_eol hcs2) hs2
        obtain ⟨e, rfl, se⟩ := spv_one (p := ⟨false, .Eol, ['\n']⟩) rfl s3
        have hek : isEol e = true := by simp [isEol, se.kind]
        obtain ⟨b, r', e1, e2, e3⟩ := key r [o, e] none sr rfl
        refine ⟨b, r', ?_, e2, e3⟩
        rw [show [o] ++ ([e] ++ r) ++ rest = o :: e :: (r ++ rest) by simp, highlightB,
          if_pos (by simp [tokenIs_zero, tokenIs_one, ho, hek]), if_pos (by simp [tokenIs_one, hek])]
        exact e1
      | some t =>
        have hs2 : SpV src false r1 (free [' '] ++ (hid t ++ (free ['\n'] ++ (hidIcon icon ++ hidTail vs)))) := by
          simpa only [hidTitle, List.append_assoc] using hs1
        obtain ⟨t3, r2, rfl, s3, hs3⟩ := spv_split (valid_free (by decide)) (join_space (hid_space (by decide))) hs2
        obtain ⟨sp, rfl, ssp⟩ := spv_one (p := ⟨false, .Space, [' ']⟩) rfl s3
        have hf2 : ∀ b, flag b (free [' ']) = false := fun _ => rfl
        rw [hf2] at hs3
        obtain ⟨ln, e, r, rfl, sl, ek, se, sr, tx, nn⟩ := hid_line hcs2 hs3
        have hsp : isSpace1 sp = true := by simp [isSpace1, ssp.kind, ssp.len]; rfl
        have hq := spv_quiet (stops := .Terminator :: stops) (hid_valid t) sl hid_vq
        obtain ⟨-, -, hfirst, -⟩ := hid_icon hi.1 hvs sr
        have hcalm : Calm stops (r ++ rest) := by
          cases r with
          | nil => simp [tokenIs] at hfirst
          | cons x r =>
            simp only [tokenIs_zero, Bool.and_eq_true] at hfirst
            exact calm_cons hfirst.2
        obtain ⟨m, em, dm⟩ := mod_open (src := src) (stops := stops) (l := ln) (e := e) (tail := r ++ rest) (b := t)
          (fun x hx => ⟨by
            have := hq x hx
            simp only [quiet, List.all_cons, Bool.and_eq_true] at this ⊢
            exact this.2, by simp [isEolOrTerminator, nn x hx]⟩)
          (quiet_kind (by rw [ek]; decide)) (by simp [isEolOrTerminator, ek]) hcalm (head_col (hid_valid t) sl se) tx
        obtain ⟨b, r', e1, e2, e3⟩ := key r [o, sp] (some m) sr dm
        refine ⟨b, r', ?_, e2, e3⟩
        rw [show [o] ++ ([sp] ++ (ln ++ e :: r)) ++ rest = o :: sp :: (ln ++ e :: (r ++ rest)) by simp, highlightB,
          if_pos (by simp [tokenIs_zero, tokenIs_one, ho, hsp]), if_neg (by simp [tokenIs_one, isEol, ssp.kind])]
        simp only [List.drop_succ_cons, List.drop_zero, em, List.take_succ_cons, List.take_zero]
        exact e1
    obtain ⟨b, r', e1, e2, e3⟩ := fin
    have eo : otherB stops ([o] ++ r1 ++ rest) = (b, r') := by
      unfold otherB
      rw [show embedB stops ([o] ++ r1 ++ rest) = none by
        rw [show [o] ++ r1 ++ rest = o :: (r1 ++ rest) by simp, embedB, if_neg (by simp [isLeftCurly2, hok])], e1]
    refine ⟨stop_kind hi.1 (by simp [hok]) (by simp [hok]), by simp [tokenIs, isTerminator, hok],
      codeB_no (by simp [hok]), by simp [tokenIs, isCollapsibleStart, hok], by rw [eo]; exact e2, by rw [eo]; exact e3⟩
  · have hl : (hidHlV title icon vs).getLast? = some (false, '!') := by
      rw [hidHlV, last_append (by simp [free]), last_append (by simp [free]), last_append (by simp [hidTail, free]),
        last_append (by simp [hidTail, free]), hidTail, last_append (by simp [free])]
      rfl
    simp [CleanEnd, hl]
  · exact cleanStart_of_head (c := '!') rfl (by decide) (by decide)

theorem render_hidHlV {title icon : Option Str} {ps : List Paragraph} {vs : List V} (e : ps.map spellHl = vs.map render) :
    render (hidHlV title icon vs) = spellBlock (.highlight title icon ps) := by
  have he : vs.isEmpty = ps.isEmpty := by
    have := congrArg List.length e
    simp only [List.length_map] at this
    cases ps <;> cases vs <;> simp at this ⊢
  have ht : render (hidTitle title) = spellLine (cs! " ") title := by
    cases title with
    | none => rfl
    | some t => simp only [hidTitle, spellLine, render_append, render_free_all, render_hid]
  have htail : render (hidTail vs) = joinWith (cs! "\n\n") (ps.map spellHl) ++ (if ps.isEmpty then cs! "!!" else cs! "\n!!") := by
    rw [hidTail, render_append, he]
    cases hp : ps.isEmpty with
    | true =>
      have : ps = [] := by simpa using hp
      subst this
      rfl
    | false => simp [render_append, render_free_all, joinV_eq, e]
  rw [hidHlV, spellBlock.eq_def]
  simp only [render_append, render_free_all, ht, htail]
  cases icon <;> simp only [hidIcon, render_append, render_free_all, render_hid, render_nil, List.append_assoc, List.nil_append] <;> rfl

/-! ### Paragraphs -/

theorem trim_id {p : Paragraph} (h : (trailingText p).getLast? ≠ some '\n') (hne : ∀ s, ParagraphNode.text s ∈ p → s ≠ []) :
    ToYamd.trimTrailingNewline p = p := by
  unfold ToYamd.trimTrailingNewline
  split
  · rename_i t e
    have hs : t ≠ [] := hne t (List.mem_of_getLast? e)
    rw [trailingText, e] at h
    simp only [trimEnd_id h, if_neg hs]
    obtain ⟨q, rfl⟩ := List.getLast?_eq_some_iff.1 e
    simp
  · rfl

theorem trim_add {p : Paragraph} (h : (trailingText p).getLast? ≠ some '\n') (hne : ∀ s, ParagraphNode.text s ∈ p → s ≠ []) :
    ToYamd.trimTrailingNewline (appendNl p) = p := by
  rcases appendNl_last p with ⟨q, s, rfl, e2⟩ | ⟨h1, e2⟩
  · rw [e2]
    have hs : s ≠ [] := hne s (by simp)
    simp only [trailingText, List.getLast?_append, List.getLast?_singleton, Option.some_or] at h
    unfold ToYamd.trimTrailingNewline
    simp only [List.getLast?_append, List.getLast?_singleton, Option.some_or, List.dropLast_concat]
    rw [trimEnd_nl h, if_neg hs]
  · rw [e2]
    unfold ToYamd.trimTrailingNewline
    simp only [List.getLast?_append, List.getLast?_singleton, Option.some_or, List.dropLast_concat]
    rw [if_pos (by decide)]

theorem expr_text_ne {p : Paragraph} (h : p.all exprNode = true) : ∀ s, ParagraphNode.text s ∈ p → s ≠ [] := by
  intro s hs
  have := List.all_eq_true.1 h _ hs
  simpa [exprNode] using this

theorem exprTrim_parts {p : Paragraph} (h : exprTrim p = true) :
    exprPara p = true ∧ p.all exprNode = true ∧ (trailingText p).getLast? ≠ some '\n' := by
  simp only [exprTrim, Bool.and_eq_true, bne_iff_ne, ne_eq] at h
  refine ⟨h.1, ?_, h.2⟩
  have := h.1; simp only [exprPara, Bool.and_eq_true] at this; exact this.1

theorem hid_hl {stops p} (h : exprTrim p = true) : ∃ p' v, render v = spellHl p ∧ HidHl stops p' p v := by
  obtain ⟨h1, h2, h3⟩ := exprTrim_parts h
  by_cases hp : p = []
  · subst hp
    refine ⟨[.text ['\n']], hid ['\n'], rfl, ⟨⟨hid ['\n'], [], by simp, ⟨by simp, hid_body⟩, rfl⟩, trivial, by simp, hid_cleanEnd _, cleanStart_esc,
      by simp [hid], by decide, by decide⟩⟩
  · obtain ⟨a, b⟩ := hidPara_ok (stops := hlStops stops) (b := true) h1
    refine ⟨p, hidPara p, by rw [render_hidPara, spellHl]; simp [hp], ⟨a, b, hp, hidPara_cleanEnd h2, hidPara_cleanStart h2, ?_,
      trim_id h3 (expr_text_ne h2), trim_add h3 (expr_text_ne h2)⟩⟩
    cases e : hidPara p with
    | nil => simp
    | cons x r =>
      rcases hidPara_head h2 e with ⟨c, rfl⟩ | ⟨c, rfl, hc⟩
      · simp
      · intro e
        simp only [List.head?_cons, Option.some.injEq, Prod.mk.injEq, true_and] at e
        subst e; revert hc; decide

theorem hid_hls {stops} : ∀ {ps : List Paragraph}, ps.all exprTrim = true → ∃ vs, ps.map spellHl = vs.map render ∧ HidHls stops ps vs
  | [], _ => ⟨[], rfl, .nil⟩
  | p :: ps, h => by
    rw [List.all_cons, Bool.and_eq_true] at h
    obtain ⟨p', v, e, hv⟩ := hid_hl h.1
    obtain ⟨vs, es, hvs⟩ := hid_hls h.2
    exact ⟨v :: vs, by simp [e, es], .cons hv hvs⟩

theorem hid_highlight {c stops title icon ps} (hi : Inside c stops) (h : exprBlock (.highlight title icon ps) = true) :
    ∃ v, render v = spellBlock (.highlight title icon ps) ∧ GoodV stops (.highlight title icon ps) v := by
  obtain ⟨vs, e, hvs⟩ := hid_hls (stops := stops) (ps := ps) (by simpa [exprBlock] using h)
  exact ⟨_, render_hidHlV e, hidHls_good hi hvs⟩

end Yamd.Round
