import Verif.Proofs.Round.LineEnd

/-!
# Highlights read back
-/

namespace Yamd.Round

open Yamd Yamd.Spec Yamd.Lexer Yamd.Ref

/-- The stop conditions of the paragraphs of a highlight. -/
abbrev hlStops (stops : List Stop) : List Stop := .Terminator :: .HighlightEnd :: stops

/-- A paragraph of a highlight and its view. -/
structure HlP (stops : List Stop) (p : Paragraph) (v : V) : Prop where
  view : ParaV (hlStops stops) true p v
  chain : Chain nodeShape p
  ne : p ≠ []
  ends : endsLine (trailingText p) = false
  texts : ∀ s, ParagraphNode.text s ∈ p → s ≠ []

inductive HlPs (stops : List Stop) : List Paragraph → List V → Prop
  | nil : HlPs stops [] []
  | cons {p l v w} : HlP stops p v → HlPs stops l w → HlPs stops (p :: l) (v :: w)

theorem HlP.clean {stops p v} (h : HlP stops p v) : CleanEnd v := para_clean_end h.view h.ne h.ends

theorem HlP.viewNe {stops p v} (h : HlP stops p v) : v ≠ [] := para_ne h.view h.ne

theorem hlPs_valid {stops} : ∀ {l : List Paragraph} {vs : List V}, HlPs stops l vs → Valid (joinV vs)
  | _, _, .nil => by simp [joinV, Valid]
  | _, _, .cons h .nil => para_valid h.view
  | _, _, .cons h (.cons h2 hr) =>
    (para_valid h.view).append ((valid_free (by decide)).append (hlPs_valid (.cons h2 hr)))

theorem hlPs_last {stops} : ∀ {l : List Paragraph} {vs : List V}, HlPs stops l vs → CleanEnd (joinV vs)
  | _, _, .nil => cleanEnd_nil
  | _, _, .cons h .nil => h.clean
  | _, _, .cons h (.cons (v := w) (w := ws) h2 hr) => by
    have ih := hlPs_last (.cons h2 hr)
    have hne : joinV (w :: ws) ≠ [] := by
      intro e
      cases hr with
      | nil => exact h2.viewNe e
      | cons => simp [joinV] at e; exact h2.viewNe e.1
    unfold CleanEnd at ih ⊢
    rw [joinV, last_append (by simp [free]), last_append hne]
    exact ih

/-- One paragraph of a highlight. -/
theorem hl_step {stops pre t r l rest} (hd : DStops stops) (hpre : pre = [] ∨ ∃ u : Token, pre = [u] ∧ u.kind = .Terminator)
    (hq : quiet (hlStops stops) t = true) (hcalm : Calm (hlStops stops) r)
    (hp : paraB (hlStops stops) [] (t :: r) = (l, rest)) (hlen : rest.length < (t :: r).length) :
    hlParasB stops (pre ++ t :: r) = (hlParasB stops rest).map (fun x => (⟨pre, l⟩ :: x.1, x.2)) := by
  have hq' := hq
  simp only [hlStops, quiet, List.all_cons, Bool.and_eq_true, quiet1, Bool.not_eq_true', decide_eq_false_iff_not] at hq'
  obtain ⟨h1, h2, h3⟩ := hq'
  have hst : stopAt stops (pre ++ t :: r) = false := by
    rcases hpre with rfl | ⟨u, rfl, hu⟩
    · exact quiet_stop h3 (fun hm => hcalm (by simp [hm]))
    · exact stop_term hd hu
  have htb : tokenIs (pre ++ t :: r) 0 isTwoBangs = false := by
    rcases hpre with rfl | ⟨u, rfl, hu⟩
    · exact h2
    · simp [tokenIs, isTwoBangs, hu]
  have hterm : termB (pre ++ t :: r) = (pre, t :: r) := by
    rcases hpre with rfl | ⟨u, rfl, hu⟩
    · simp [termB, tokenIs, isTerminator, h1]
    · simp [termB, tokenIs, isTerminator, hu]
  rw [hlParasB, if_neg (by simp [hst]), if_neg (by simp [htb])]
  simp only [hterm, hp]
  rw [dif_pos (by simp at hlen ⊢; omega)]

theorem hl_close {stops c rest} (hd : DStops stops) (hc : isTwoBangs c = true) (hr : Bd stops rest) :
    ∃ cl r, hlParasB stops (c :: rest) = some ([], cl, r) ∧ (r = rest ∨ ∃ e, rest = e :: r ∧ e.kind = .Eol) := by
  have hk : c.kind = .Bang := by simp [isTwoBangs] at hc; exact hc.1.1
  rw [hlParasB, if_neg (by simp [stop_kind hd (t := c) (r := rest) (by simp [hk]) (by simp [hk])]), if_pos (by simpa [tokenIs] using hc)]
  cases hr with
  | nil => exact ⟨[c], [], rfl, .inl rfl⟩
  | term t r h =>
    rw [if_neg (by simp [tokenIs, isEol, h])]
    exact ⟨_, _, rfl, .inl rfl⟩
  | close e k r hm he hc h0 =>
    rw [if_pos (by simp [tokenIs, isEol, he])]
    exact ⟨_, _, rfl, .inr ⟨e, rfl, he⟩⟩

theorem hl_exec {src stops} (hd : DStops stops) : ∀ {l : List Paragraph} {vs : List V} {pre ts : List Token} {c : Token}
    {rest : List Token}, HlPs stops l vs → l ≠ [] → (pre = [] ∨ ∃ u : Token, pre = [u] ∧ u.kind = .Terminator) →
    SpV src true ts (joinV vs ++ free ['\n']) → isTwoBangs c = true → Bd stops rest →
    ∃ hs cl r, hlParasB stops (pre ++ (ts ++ c :: rest)) = some (hs, cl, r) ∧
      hs.map (fun h => ToYamd.trimTrailingNewline (paraDenote src h.para)) = l ∧
      (r = rest ∨ ∃ e, rest = e :: r ∧ e.kind = .Eol)
  | _, _, _, _, _, _, .nil, hl, _, _, _, _ => absurd rfl hl
  | _, _, pre, ts, c, rest, .cons (p := p) (v := v) h .nil, _, hpre, hs, hc, hr => by
    have hv : ParaV (hlStops stops) true (appendNl p) (v ++ free ['\n']) := para_nl h.view h.clean
    obtain ⟨l, e1, ok, np, den⟩ := para_tree hv (chain_appendNl h.chain) hs
    have hk : c.kind = .Bang := by simp [isTwoBangs] at hc; exact hc.1.1
    have hp : paraB (hlStops stops) [] (ts ++ c :: rest) = (l, c :: rest) := by
      rw [← e1]
      refine paraB_exec ok np ?_ ?_
      · simp only [stopAt, List.any_cons, stopHere, Bool.or_eq_true]
        refine .inr (.inl ?_)
        exact hc
      · intro _; simp [closesColl, tokenIs, hk]
    obtain ⟨t, r, rfl⟩ := List.exists_cons_of_ne_nil (spv_ne (para_valid hv) hs (by simp [free]))
    have hq : ∀ u ∈ t :: r, quiet (hlStops stops) u = true := e1 ▸ para_quiet ok
    obtain ⟨cl, r', ecl, hor⟩ := hl_close hd hc hr
    refine ⟨[⟨pre, l⟩], cl, r', ?_, ?_, hor⟩
    · have := hl_step (pre := pre) (t := t) (r := r ++ c :: rest) hd hpre (hq t (by simp))
        (calm_append (tailAll hq) (fun _ => by simp [closesColl, tokenIs, hk])) hp (by simp; omega)
      rw [show pre ++ (t :: r ++ c :: rest) = pre ++ t :: (r ++ c :: rest) from rfl, this, ecl]
      rfl
    · simp only [List.map_cons, List.map_nil, den, trim_appendNl h.ends h.texts]
  | _, _, pre, ts, c, rest, .cons (p := p) (v := v) h (.cons (p := q) (v := w) (l := l) (w := vs) h2 hr2), _, hpre, hs, hc, hr => by
    have hs' : SpV src true ts (v ++ (free ['\n', '\n'] ++ (joinV (w :: vs) ++ free ['\n']))) := by
      simpa only [joinV, List.append_assoc] using hs
    obtain ⟨t1, t2, rfl, s1, s2⟩ := spv_split (para_valid h.view) (join_blank (para_valid h.view) h.clean) hs'
    obtain ⟨t3, t4, rfl, s3, s4⟩ := spv_split (valid_free (by decide)) (join_after_blank _) s2
    obtain ⟨b, rfl, sb⟩ := spv_one (p := ⟨false, .Terminator, ['\n', '\n']⟩) rfl s3
    have hfl : flag (flag true v) (free ['\n', '\n']) = true := rfl
    rw [hfl] at s4
    have hbk : b.kind = .Terminator := sb.kind
    obtain ⟨hs2, cl, r', e2, den2, hor⟩ := hl_exec hd (pre := [b]) (.cons h2 hr2) (by simp) (.inr ⟨b, rfl, hbk⟩) s4 hc hr
    obtain ⟨l1, e1, ok, np, den⟩ := para_tree h.view h.chain s1
    have hp : paraB (hlStops stops) [] (t1 ++ b :: (t4 ++ c :: rest)) = (l1, b :: (t4 ++ c :: rest)) := by
      rw [← e1]
      refine paraB_exec ok np ?_ ?_
      · simp [stopAt, stopHere, hbk]
      · intro _; simp [closesColl, tokenIs, hbk]
    obtain ⟨t, r, rfl⟩ := List.exists_cons_of_ne_nil (spv_ne (para_valid h.view) s1 h.viewNe)
    have hq : ∀ u ∈ t :: r, quiet (hlStops stops) u = true := e1 ▸ para_quiet ok
    refine ⟨⟨pre, l1⟩ :: hs2, cl, r', ?_, ?_, hor⟩
    · have := hl_step (pre := pre) (t := t) (r := r ++ b :: (t4 ++ c :: rest)) hd hpre (hq t (by simp))
        (calm_append (tailAll hq) (fun _ => by simp [closesColl, tokenIs, hbk])) hp (by simp; omega)
      rw [show pre ++ (t :: r ++ ([b] ++ t4) ++ c :: rest) = pre ++ t :: (r ++ b :: (t4 ++ c :: rest)) by simp, this,
        show b :: (t4 ++ c :: rest) = [b] ++ (t4 ++ c :: rest) from rfl, e2]
      rfl
    · simp only [List.map_cons, den, trim_same h.ends h.texts, den2]

/-! ### The start of a paragraph -/

theorem node_open {n : ParagraphNode} {o d : Char} (h : nodeShape n = .delim o d) : o ∈ textSet := by
  cases n <;> simp only [nodeShape, Shape.delim.injEq, reduceCtorEq] at h <;> (rw [← h.1]; decide)

/-- An unescaped prefix of characters that open nothing stands in the leading text. -/
theorem para_prefix {stops b p v} {pat : Str} (h : ParaV stops b p v) (hc : Chain nodeShape p) (hp : ∀ c ∈ pat, c ∉ textSet)
    (hf : free pat <+: v) : pat <+: leadingText p := by
  cases p with
  | nil =>
    have : v = [] := h
    rw [this] at hf
    have : pat = [] := by simpa [free] using hf
    rw [this]; exact List.nil_prefix
  | cons n p =>
    obtain ⟨v1, v2, rfl, h1, h2⟩ := h
    have hsh := (node_shape _ _ _ h1).1
    have hok := shapeOk_node n
    cases hs : nodeShape n with
    | delim o d =>
      rw [hs] at hsh hok
      have hh := hsh.ends.1
      cases pat with
      | nil => exact List.nil_prefix
      | cons c pat =>
        cases v1 with
        | nil => simp at hh
        | cons x v1 =>
          simp only [List.head?_cons, Option.some.injEq] at hh
          subst hh
          rw [List.cons_append, free_cons_prefix] at hf
          simp only [Prod.mk.injEq, true_and] at hf
          exact absurd (node_open hs) (hf.1 ▸ hp c (by simp))
    | text =>
      cases n with
      | text s =>
        show pat <+: s
        have hch := h1.2.chars
        by_cases hl : (free pat).length ≤ v1.length
        · have := free_prefix_chars (List.prefix_of_prefix_length_le hf (List.prefix_append _ _) hl)
          rwa [hch] at this
        · exfalso
          have hl' : v1.length ≤ (free pat).length := by omega
          have hpre := List.prefix_of_prefix_length_le (List.prefix_append v1 v2) hf hl'
          obtain ⟨y, hy⟩ := hpre
          have hyne : y ≠ [] := by
            rintro rfl
            rw [List.append_nil] at hy
            rw [hy] at hl; omega
          rw [← hy] at hf
          have hf2 := (List.prefix_append_right_inj v1).1 hf
          obtain ⟨z, y, rfl⟩ := List.exists_cons_of_ne_nil hyne
          have hz : z ∈ free pat := by rw [← hy]; simp
          simp only [free, List.mem_map] at hz
          obtain ⟨cz, hcz, rfl⟩ := hz
          cases p with
          | nil => have : v2 = [] := h2; subst this; simp at hf2
          | cons m p =>
            obtain ⟨u1, u2, rfl, g1, -⟩ := h2
            have gsh := (node_shape _ _ _ g1).1
            have gok := shapeOk_node m
            have := hc.1
            cases hm : nodeShape m with
            | text => rw [hs, hm] at this; simp [compat] at this
            | delim o d =>
              rw [hm] at gsh gok
              have hh := gsh.ends.1
              cases u1 with
              | nil => simp at hh
              | cons y2 u1 =>
                simp only [List.head?_cons, Option.some.injEq] at hh
                subst hh
                rw [List.cons_append, List.cons_prefix_cons] at hf2
                simp only [Prod.mk.injEq, true_and] at hf2
                exact hp cz hcz (hf2.1 ▸ node_open hm)
      | _ => simp [nodeShape] at hs

/-! ### The last lines of a highlight -/

/-- The paragraphs and the closing line. -/
def hlTail (vs : List V) : V := (joinV vs ++ free ['\n']) ++ free ['!', '!']

theorem hlTail_cons (v : V) (vs : List V) : ∃ X, hlTail (v :: vs) = v ++ (false, '\n') :: X := by
  cases vs with
  | nil => exact ⟨free ['!', '!'], by simp [hlTail, joinV, free]⟩
  | cons w vs => exact ⟨(false, '\n') :: (joinV (w :: vs) ++ (free ['\n'] ++ free ['!', '!'])), by simp [hlTail, joinV, free]⟩

theorem hl_tail {src stops l vs ts} (hd : DStops stops) (h : HlPs stops l vs) (hl : l ≠ []) (hs : SpV src true ts (hlTail vs)) :
    ∃ t u r, ts = t :: u :: r ∧ col0 t = true ∧ quiet (hlStops stops) t = true ∧
      ∀ rest, Bd stops rest → ∃ hs cl r', hlParasB stops (ts ++ rest) = some (hs, cl, r') ∧
        hs.map (fun h => ToYamd.trimTrailingNewline (paraDenote src h.para)) = l ∧
        (r' = rest ∨ ∃ e, rest = e :: r' ∧ e.kind = .Eol) := by
  have hv := hlPs_valid h
  have hv2 : Valid (joinV vs ++ free ['\n']) := hv.append (valid_free (by decide))
  obtain ⟨t1, t2, rfl, s1, s2⟩ := spv_split hv2 (join_stop (c := '!') hv2 rfl (by decide) (by simp [free]) (by simp) (by simp)) hs
  obtain ⟨c, rfl, sc⟩ := spv_one (p := ⟨false, .Bang, ['!', '!']⟩) rfl s2
  have hcol : col0 c = true := by
    rw [sc.col, flag, last_append (by simp [free])]; rfl
  have hc : isTwoBangs c = true := by simp [isTwoBangs, sc.kind, hcol, sc.len]; rfl
  obtain ⟨t, r, rfl⟩ := List.exists_cons_of_ne_nil (spv_ne hv2 s1 (by simp [free]))
  obtain ⟨p1, v2, -, st, -⟩ := spv_head hv2 s1
  have key : ∃ u r', r ++ [c] = u :: r' := by cases r <;> simp
  obtain ⟨u, r', e⟩ := key
  refine ⟨t, u, r', by simp [e], st.col, ?_, ?_⟩
  · cases h with
    | nil => exact absurd rfl hl
    | cons h hr =>
      rename_i p l' v w
      cases hr with
      | nil =>
        obtain ⟨l1, e1, ok, -, -⟩ := para_tree (para_nl h.view h.clean) (chain_appendNl h.chain) s1
        exact para_quiet ok t (by rw [e1]; simp)
      | cons h2 hr2 =>
        rename_i q l'' v' w'
        have s1' : SpV src true (t :: r) (v ++ (free ['\n', '\n'] ++ (joinV (v' :: w') ++ free ['\n']))) := by
          simpa only [joinV, List.append_assoc] using s1
        obtain ⟨t1, t2, e0, g1, -⟩ := spv_split (para_valid h.view) (join_blank (para_valid h.view) h.clean) s1'
        obtain ⟨l1, e1, ok, -, -⟩ := para_tree h.view h.chain g1
        obtain ⟨x, t1', rfl⟩ := List.exists_cons_of_ne_nil (spv_ne (para_valid h.view) g1 h.viewNe)
        simp only [List.cons_append, List.cons.injEq] at e0
        rw [e0.1]
        exact para_quiet ok x (by rw [e1]; simp)
  · intro rest hr
    obtain ⟨hs', cl, r2, e1, e2, e3⟩ := hl_exec hd (pre := []) h hl (.inl rfl) s1 hc hr
    refine ⟨hs', cl, r2, ?_, e2, e3⟩
    rw [← e1]; simp

/-! ### Title and icon -/

/-- A title or an icon: only backslashes are escaped. -/
def lineV (s : Str) : V := markSet ['\\'] s

theorem lineV_valid (s : Str) : Valid (lineV s) := markSet_valid (by simp) s

theorem lineV_notNl {s : Str} (h : safeLine s = true) : (false, '\n') ∉ lineV s := by
  simp only [safeLine, Bool.and_eq_true, Bool.not_eq_true'] at h
  intro hm
  have : '\n' ∈ (lineV s).map Prod.snd := List.mem_map.2 ⟨_, hm, rfl⟩
  rw [lineV, markSet_chars] at this
  have h1 := h.1.1
  simp [this] at h1

theorem lineV_clean {s : Str} (h : safeLine s = true) : CleanEnd (lineV s) := by
  refine ⟨notFree_last (lineV_notNl h), fun e => ?_⟩
  have := last_chars e
  rw [lineV, markSet_chars] at this
  simp [safeLine, this] at h

theorem lineV_space {s : Str} (h : safeLine s = true) (w : V) : (lineV s ++ (free ['\n'] ++ w)).head? ≠ some (false, ' ') := by
  simp only [safeLine, Bool.and_eq_true, Bool.not_eq_true', starts] at h
  have h1 := h.1.2
  cases s with
  | nil => simp [lineV, markSet, free]
  | cons c s =>
    intro e
    simp only [lineV, markSet, List.map_cons, List.cons_append, List.head?_cons, Option.some.injEq, Prod.mk.injEq] at e
    rw [e.2] at h1
    simp [List.isPrefixOf] at h1

theorem join_space {w : V} (h : w.head? ≠ some (false, ' ')) : Join (free [' ']) w := by
  refine join_known (l := []) (p := ⟨false, .Space, [' ']⟩) (valid_free (by decide)) (pieces_one rfl) ?_
  simp only [joinOk, runCharOf, bne_iff_ne, ne_eq]
  exact fun e => h (render_head (by decide) e)

theorem lineV_vq {stops s} (hd : DStops stops) (h : safeLine s = true) : VQ (.Terminator :: stops) false (lineV s) := by
  have hn := lineV_notNl h
  intro st hst
  rcases List.mem_cons.1 hst with rfl | h1
  · exact ⟨notFree_noInf hn (by simp), notFree_noInf hn (by simp)⟩
  · rw [hd st h1]
    exact ⟨by simp, notFree_noInf hn (by simp)⟩

/-- A line of text and the line break after it. -/
theorem line_split {src s ts w} (h : safeLine s = true) (hw : CleanStart w) (hs : SpV src false ts (lineV s ++ (free ['\n'] ++ w))) :
    ∃ l e r, ts = l ++ e :: r ∧ SpV src false l (lineV s) ∧ e.kind = .Eol ∧ SpT src (flag false (lineV s)) e ⟨false, .Eol, ['\n']⟩ ∧
      SpV src true r w ∧ textOfToks src l = s ∧ (∀ t ∈ l, t.kind ≠ .Eol ∧ t.kind ≠ .Terminator) := by
  have hv := lineV_valid s
  obtain ⟨l, r1, rfl, s1, hs1⟩ := spv_split hv (join_nl hv (lineV_clean h)) hs
  obtain ⟨t2, r, rfl, s2, hs2⟩ := spv_split (valid_free (by decide)) (join_eol hw) hs1
  obtain ⟨e, rfl, se⟩ := spv_one (p := ⟨false, .Eol, ['\n']⟩) rfl s2
  exact ⟨l, e, r, rfl, s1, se.kind, se, hs2, by rw [spv_text hv s1, lineV, markSet_chars], spv_nonl hv (lineV_notNl h) s1⟩

/-- The icon line. -/
def iconV : Option Str → V
  | none => []
  | some i => free ['!'] ++ (free [' '] ++ (lineV i ++ free ['\n']))

/-- The icon reads back; without an icon the first paragraph does not look like one. -/
def IconOk (l : List Paragraph) : Option Str → Prop
  | some i => safeLine i = true
  | none => starts (cs! "! ") (leadingText (l.head?.getD [])) = false

theorem icon_exec {src stops icon l vs ts} (hd : DStops stops) (h : HlPs stops l vs) (hl : l ≠ []) (hi : IconOk l icon)
    (hcs : CleanStart (hlTail vs)) (hs : SpV src true ts (iconV icon ++ hlTail vs)) :
    ∃ t2, SpV src true t2 (hlTail vs) ∧ tokenIs ts 0 (fun t => col0 t && quiet stops t) = true ∧ ∀ rest, ∃ m,
      optIconB (.Terminator :: stops) (ts ++ rest) = (m, t2 ++ rest) ∧ iconDenote src m = icon := by
  cases icon with
  | none =>
    have hs' : SpV src true ts (hlTail vs) := hs
    obtain ⟨t, u, r, rfl, hcol, hq, -⟩ := hl_tail hd h hl hs'
    simp only [hlStops, quiet, List.all_cons, Bool.and_eq_true] at hq
    refine ⟨_, hs', by simp only [tokenIs_zero, hcol, Bool.true_and, quiet]; exact hq.2.2, fun rest => ⟨none, ?_, rfl⟩⟩
    have : iconB (.Terminator :: stops) (t :: u :: r ++ rest) = none := by
      rw [iconB, if_neg]
      intro hb
      simp only [List.cons_append, tokenIs_zero, tokenIs_one, Bool.and_eq_true, isOneBang, isSpace1, decide_eq_true_eq] at hb
      obtain ⟨⟨⟨hk, -⟩, hl1⟩, hk2, hl2⟩ := hb
      have hvt : Valid (hlTail vs) := ((hlPs_valid h).append (valid_free (by decide))).append (valid_free (by decide))
      have hp := (spv_run2 (c := '!') (d := ' ') hvt hs' (by rw [hk]; rfl) (by rw [hk2]; rfl)).1
      rw [hl1, hl2] at hp
      cases h with
      | nil => exact hl rfl
      | cons h hr =>
        rename_i p l' v w
        obtain ⟨X, eX⟩ := hlTail_cons v w
        rw [eX] at hp
        have hpv : free ['!', ' '] <+: v := by
          match v, hp, h.viewNe with
          | [], _, h0 => exact absurd rfl h0
          | [x], hp, _ =>
            have hp : free ['!', ' '] <+: x :: (false, '\n') :: X := hp
            rw [free_cons_prefix, free_cons_prefix] at hp
            simp at hp
          | x :: y :: v, hp, _ =>
            have hp : free ['!', ' '] <+: x :: y :: (v ++ (false, '\n') :: X) := hp
            rw [free_cons_prefix, free_cons_prefix] at hp ⊢
            exact ⟨hp.1, hp.2.1, List.nil_prefix⟩
        have := para_prefix h.view h.chain (by decide) hpv
        simp only [IconOk, List.head?_cons, Option.getD_some, starts] at hi
        rw [← List.isPrefixOf_iff_prefix, hi] at this
        simp at this
    unfold optIconB
    rw [this]
  | some i =>
    have hs' : SpV src true ts (free ['!'] ++ (free [' '] ++ (lineV i ++ (free ['\n'] ++ hlTail vs)))) := by
      simpa only [iconV, List.append_assoc] using hs
    obtain ⟨t1, r1, rfl, s1, hs1⟩ := spv_split (valid_free (by decide))
      (join_after (c := '!') (valid_free (by decide)) rfl (by decide) (by decide) (by simp) (.inr (by simp [free]))) hs'
    obtain ⟨b, rfl, sb⟩ := spv_one (p := ⟨false, .Bang, ['!']⟩) rfl s1
    obtain ⟨t2, r2, rfl, s2, hs2⟩ := spv_split (valid_free (by decide)) (join_space (lineV_space hi _)) hs1
    obtain ⟨sp, rfl, ssp⟩ := spv_one (p := ⟨false, .Space, [' ']⟩) rfl s2
    have hfl : ∀ b, flag b (free [' ']) = false := fun b => rfl
    rw [hfl] at hs2
    obtain ⟨ln, e, r, rfl, sl, ek, -, sr, tx, nn⟩ := line_split hi hcs hs2
    have hq := spv_quiet (lineV_valid i) sl (lineV_vq hd hi)
    obtain ⟨t, u, r', rfl, -, hqt, -⟩ := hl_tail hd h hl sr
    have hqt' : quiet (.Terminator :: stops) t = true := by
      simp only [hlStops, quiet, List.all_cons, Bool.and_eq_true] at hqt ⊢
      exact ⟨hqt.1, hqt.2.2⟩
    refine ⟨_, sr, ?_, fun rest => ⟨some ⟨[b, sp], ln, e⟩, ?_, by simp [iconDenote, tx]⟩⟩
    · simp only [List.singleton_append, tokenIs_zero, sb.col, Bool.true_and]
      refine List.all_eq_true.2 (fun st hst => ?_)
      rw [hd st hst]
      simp [quiet1, sb.kind]
    · have hb : isOneBang b = true := by simp [isOneBang, sb.kind, sb.col, sb.len]; rfl
      have hsp : isSpace1 sp = true := by simp [isSpace1, ssp.kind, ssp.len]; rfl
      have hu : untilB (.Terminator :: stops) isEol (ln ++ e :: (t :: u :: r' ++ rest)) = some (ln, e, t :: u :: r' ++ rest) := by
        refine untilB_exec (fun x hx => ⟨hq x hx, ?_⟩) (quiet_kind (by rw [ek]; decide)) (by simp [isEol, ek]) (calm_cons hqt')
        simp [isEol, (nn x hx).1]
      have : iconB (.Terminator :: stops) ([b] ++ ([sp] ++ (ln ++ e :: t :: u :: r')) ++ rest) = some (⟨[b, sp], ln, e⟩, t :: u :: r' ++ rest) := by
        rw [show [b] ++ ([sp] ++ (ln ++ e :: t :: u :: r')) ++ rest = b :: sp :: (ln ++ e :: (t :: u :: r' ++ rest)) by simp,
          iconB, if_pos (by simp [tokenIs_zero, tokenIs_one, hb, hsp])]
        simp only [List.drop_succ_cons, List.drop_zero, hu, Option.map_some, List.take_succ_cons, List.take_zero]
      unfold optIconB
      rw [this]

/-! ### The whole highlight -/

theorem cleanStart_nl {v X : V} (h : CleanStart v) (hne : v ≠ []) (he : CleanEnd v) : CleanStart (v ++ (false, '\n') :: X) := by
  match v, hne with
  | [x], _ =>
    constructor
    · intro hp
      rw [List.singleton_append, free_cons_prefix] at hp
      exact h.1 (by rw [free_cons_prefix]; exact ⟨hp.1, List.nil_prefix⟩)
    · intro hp
      rw [List.singleton_append, free_cons_prefix] at hp
      have := he.2
      simp [hp.1] at this
  | x :: y :: v, _ =>
    constructor
    · intro hp
      rw [List.cons_append, free_cons_prefix] at hp
      exact h.1 (by rw [free_cons_prefix]; exact ⟨hp.1, List.nil_prefix⟩)
    · intro hp
      rw [List.cons_append, List.cons_append, free_cons_prefix, free_cons_prefix] at hp
      exact h.2 (by rw [free_cons_prefix, free_cons_prefix]; exact ⟨hp.1, hp.2.1, List.nil_prefix⟩)

/-- The title on the opening line. -/
def titleV : Option Str → V
  | none => []
  | some t => free [' '] ++ lineV t

def hlV (title icon : Option Str) (vs : List V) : V :=
  free ['!', '!'] ++ (titleV title ++ (free ['\n'] ++ (iconV icon ++ hlTail vs)))

theorem bodyV_bang {S : List Char} {s : Str} (h : '!' ∉ S) : (true, '!') ∉ bodyV S s := bodyV_notEsc h (by decide)

theorem nodeW_bang (n : ParagraphNode) : (true, '!') ∉ nodeW n := by
  cases n with
  | text s =>
    intro h
    exact markSet_notEsc (by decide) s (mark2_mem (mark2_mem h (by decide) (by decide)) (by decide) (by decide))
  | italic s => exact notEsc_append notEsc_free (notEsc_append (bodyV_bang (by decide)) notEsc_free)
  | strikethrough s => exact notEsc_append notEsc_free (notEsc_append (bodyV_bang (by decide)) notEsc_free)
  | emphasis s => exact notEsc_append notEsc_free (notEsc_append (bodyV_bang (by decide)) notEsc_free)
  | codeSpan s => exact notEsc_append notEsc_free (notEsc_append (bodyV_bang (by decide)) notEsc_free)
  | anchor a =>
    exact notEsc_append notEsc_free (notEsc_append (bodyV_bang (by decide)) (notEsc_append notEsc_free
      (notEsc_append notEsc_free (notEsc_append (bodyV_bang (by decide)) notEsc_free))))
  | bold l =>
    refine notEsc_append notEsc_free (notEsc_append ?_ notEsc_free)
    intro h
    obtain ⟨n, -, hn⟩ := List.mem_flatMap.1 h
    revert hn
    cases n with
    | text s => exact bodyV_bang (by decide)
    | italic s =>
      exact notEsc_append notEsc_free (notEsc_append (fun h => bodyV_bang (by decide) (mark2_mem h (by decide) (by decide))) notEsc_free)
    | strikethrough s =>
      exact notEsc_append notEsc_free (notEsc_append (fun h => bodyV_bang (by decide) (mark2_mem h (by decide) (by decide))) notEsc_free)

theorem paraW_bang (p : Paragraph) : (true, '!') ∉ paraW p := by
  intro h
  obtain ⟨n, -, hn⟩ := List.mem_flatMap.1 h
  exact nodeW_bang n hn

/-- The paragraphs of a highlight as they are written. -/
def hlPara (p : Paragraph) : Str := escapeLeadingBlockMarker (replace (cs! "!!") (cs! "\\!!") (displayParagraph p))

theorem hl_para {c stops p} (hi : Inside c stops) (h : safeHighlightParagraph ⟨c⟩ p = true) :
    ∃ v, hlPara p = render v ∧ HlP stops p v := by
  simp only [safeHighlightParagraph, safeInline, Bool.and_eq_true, Bool.not_eq_true'] at h
  obtain ⟨⟨hne, hall, hcl⟩, hends⟩ := h
  have hchain := chainP hcl
  have hpv : ParaV (.Terminator :: stops) true p (paraW p) := paraW_ok hi.placed hall
  have hb : ParaV (hlStops stops) true p (mark2 '!' '!' false (paraW p)) :=
    para_bang (by intro st hst; simp [hlStops] at hst ⊢; rcases hst with h | h | h <;> simp [h]) hchain hpv
  obtain ⟨v', e, -, hv', -, -⟩ := para_lead hb
  refine ⟨v', ?_, hv', hchain, by simpa using hne, hends, text_ne hall⟩
  rw [hlPara, paraW_eq hall, replace_two (a := '!') (b := '!') (fb := false) (rep := cs! "\\!!") (by decide) (by decide) rfl (paraW_bang p), e]

theorem hl_paras {c stops} (hi : Inside c stops) : ∀ {ps : List Paragraph}, ps.all (safeHighlightParagraph ⟨c⟩) = true →
    ∃ vs, ps.map hlPara = vs.map render ∧ HlPs stops ps vs
  | [], _ => ⟨[], rfl, .nil⟩
  | p :: ps, h => by
    rw [List.all_cons, Bool.and_eq_true] at h
    obtain ⟨v, e, hv⟩ := hl_para hi h.1
    obtain ⟨vs, es, hvs⟩ := hl_paras hi h.2
    exact ⟨v :: vs, by simp [e, es], .cons hv hvs⟩

theorem hlV_valid {stops title icon l vs} (h : HlPs stops l vs) : Valid (hlV title icon vs) := by
  have h1 : Valid (titleV title) := by
    cases title with
    | none => simp [titleV, Valid]
    | some t => exact (valid_free (by decide)).append (lineV_valid t)
  have h2 : Valid (iconV icon) := by
    cases icon with
    | none => simp [iconV, Valid]
    | some t => exact (valid_free (by decide)).append ((valid_free (by decide)).append ((lineV_valid t).append (valid_free (by decide))))
  exact (valid_free (by decide)).append (h1.append ((valid_free (by decide)).append (h2.append
    (((hlPs_valid h).append (valid_free (by decide))).append (valid_free (by decide))))))

theorem hlV_eq {title icon ps vs} (e : ps.map hlPara = vs.map render) : displayHighlight title icon ps = render (hlV title icon vs) := by
  have hr : ∀ s, replace (cs! "\\") (cs! "\\\\") s = render (lineV s) := fun s => replace_backslash s
  rw [hlV, hlTail]
  simp only [render_append, render_free_all, joinV_eq, ← e]
  unfold displayHighlight
  have e2 : (ps.map fun p => escapeLeadingBlockMarker (replace (cs! "!!") (cs! "\\!!") (displayParagraph p))) = ps.map hlPara := rfl
  rw [e2]
  cases title <;> cases icon <;>
    simp only [titleV, iconV, render_append, render_free_all, hr, render_nil, List.append_assoc, List.cons_append, List.nil_append]

theorem good_highlight {c stops title icon ps} (hi : Inside c stops) (h : safeLeaf ⟨c⟩ (.highlight title icon ps) = true) :
    Good stops (.highlight title icon ps) (displayHighlight title icon ps) := by
  simp only [safeLeaf, Bool.and_eq_true, Bool.not_eq_true'] at h
  obtain ⟨⟨⟨⟨ht, hic⟩, hne⟩, hall⟩, hst⟩ := h
  have hne : ps ≠ [] := by simpa using hne
  obtain ⟨vs, e, hvs⟩ := hl_paras hi hall
  have hcs : CleanStart (hlTail vs) := by
    cases hvs with
    | nil => exact absurd rfl hne
    | @cons p l' v w h hr =>
      obtain ⟨X, eX⟩ := hlTail_cons v w
      rw [eX]
      exact cleanStart_nl (para_clean_start h.view h.chain hst) h.viewNe h.clean
  have hcs2 : CleanStart (iconV icon ++ hlTail vs) := by
    cases icon with
    | none => exact hcs
    | some i => exact cleanStart_of_head (c := '!') rfl (by decide) (by decide)
  have hic' : IconOk ps icon := by
    cases icon with
    | none => simpa [IconOk] using hic
    | some i => exact hic
  refine ⟨hlV title icon vs, hlV_eq e, ⟨hlV_valid hvs, by simp [hlV, free], ?_⟩, ?_, ?_⟩
  · intro src ts hs
    -- the opening token
    have j1 : Join (free ['!', '!']) (titleV title ++ (free ['\n'] ++ (iconV icon ++ hlTail vs))) := by
      refine join_after (c := '!') (valid_free (by decide)) rfl (by decide) (by decide) (by simp) (.inr ?_)
      cases title <;> simp [titleV, free]
    obtain ⟨t1, r1, rfl, s1, hs1⟩ := spv_split (valid_free (by decide)) j1 hs
    obtain ⟨o, rfl, so⟩ := spv_one (p := ⟨false, .Bang, ['!', '!']⟩) rfl s1
    have hf1 : ∀ b, flag b (free ['!', '!']) = false := fun _ => rfl
    rw [hf1] at hs1
    have hok : o.kind = .Bang := so.kind
    have ho : isTwoBangs o = true := by simp [isTwoBangs, so.kind, so.col, so.len]; rfl
    refine reads_other (fun rest hr => ?_)
    -- the rest after the opening line
    have key : ∀ (r : List Token) (op : List Token) (m : Option Mod), SpV src true r (iconV icon ++ hlTail vs) → modDenote src m = title →
        ∃ b r', hlRestB stops op m (r ++ rest) = some (b, r') ∧ b.denote src = .highlight title icon ps ∧
          (r' = rest ∨ ∃ e, rest = e :: r' ∧ e.kind = .Eol) := by
      intro r op m sr hm
      obtain ⟨t2, s2, -, hopt⟩ := icon_exec hi.1 hvs hne hic' hcs sr
      obtain ⟨ic, eic, dic⟩ := hopt rest
      obtain ⟨t, u, r2, rfl, hcol, -, hex⟩ := hl_tail hi.1 hvs hne s2
      obtain ⟨hs', cl, r', e1, e2, e3⟩ := hex rest hr
      refine ⟨.highlight op m ic hs' cl, r', ?_, ?_, e3⟩
      · rw [hlRestB, eic]
        simp only
        rw [if_pos (by simpa [tokenIs] using hcol), e1]
        rfl
      · simp only [Block.denote, hm, dic, e2]
    have fin : ∃ b r', highlightB stops ([o] ++ r1 ++ rest) = some (b, r') ∧ b.denote src = .highlight title icon ps ∧
          (r' = rest ∨ ∃ e, rest = e :: r' ∧ e.kind = .Eol) := by
      cases title with
      | none =>
        have hs2 : SpV src false r1 (free ['\n'] ++ (iconV icon ++ hlTail vs)) := hs1
        obtain ⟨t3, r, rfl, s3, sr⟩ := spv_split (valid_free (by decide)) (join_eol hcs2) hs2
        obtain ⟨e, rfl, se⟩ := spv_one (p := ⟨false, .Eol, ['\n']⟩) rfl s3
        have hek : isEol e = true := by simp [isEol, se.kind]
        obtain ⟨b, r', e1, e2, e3⟩ := key r [o, e] none sr rfl
        refine ⟨b, r', ?_, e2, e3⟩
        rw [show [o] ++ ([e] ++ r) ++ rest = o :: e :: (r ++ rest) by simp, highlightB,
          if_pos (by simp [tokenIs_zero, tokenIs_one, ho, hek]), if_pos (by simp [tokenIs_one, hek])]
        exact e1
      | some t =>
        have hs2 : SpV src false r1 (free [' '] ++ (lineV t ++ (free ['\n'] ++ (iconV icon ++ hlTail vs)))) := by
          simpa only [titleV, List.append_assoc] using hs1
        obtain ⟨t3, r2, rfl, s3, hs3⟩ := spv_split (valid_free (by decide)) (join_space (lineV_space ht _)) hs2
        obtain ⟨sp, rfl, ssp⟩ := spv_one (p := ⟨false, .Space, [' ']⟩) rfl s3
        have hf2 : ∀ b, flag b (free [' ']) = false := fun _ => rfl
        rw [hf2] at hs3
        obtain ⟨ln, e, r, rfl, sl, ek, se, sr, tx, nn⟩ := line_split ht hcs2 hs3
        have hsp : isSpace1 sp = true := by simp [isSpace1, ssp.kind, ssp.len]; rfl
        have hq := spv_quiet (lineV_valid t) sl (lineV_vq hi.1 ht)
        obtain ⟨-, -, hfirst, -⟩ := icon_exec hi.1 hvs hne hic' hcs sr
        have hcalm : Calm stops (r ++ rest) := by
          cases r with
          | nil => simp [tokenIs] at hfirst
          | cons x r =>
            simp only [tokenIs_zero, Bool.and_eq_true] at hfirst
            exact calm_cons hfirst.2
        obtain ⟨m, em, dm⟩ := mod_open (src := src) (stops := stops) (l := ln) (e := e) (tail := r ++ rest) (b := t)
          (fun x hx => ⟨by
            have := hq x hx
            simp only [quiet, List.all_cons, Bool.and_eq_true] at this ⊢
            exact this.2, by simp [isEolOrTerminator, nn x hx]⟩)
          (quiet_kind (by rw [ek]; decide)) (by simp [isEolOrTerminator, ek]) hcalm (head_col (lineV_valid t) sl se) tx
        obtain ⟨b, r', e1, e2, e3⟩ := key r [o, sp] (some m) sr dm
        refine ⟨b, r', ?_, e2, e3⟩
        rw [show [o] ++ ([sp] ++ (ln ++ e :: r)) ++ rest = o :: sp :: (ln ++ e :: (r ++ rest)) by simp, highlightB,
          if_pos (by simp [tokenIs_zero, tokenIs_one, ho, hsp]), if_neg (by simp [tokenIs_one, isEol, ssp.kind])]
        simp only [List.drop_succ_cons, List.drop_zero, em, List.take_succ_cons, List.take_zero]
        exact e1
    obtain ⟨b, r', e1, e2, e3⟩ := fin
    have eo : otherB stops ([o] ++ r1 ++ rest) = (b, r') := by
      unfold otherB
      rw [show embedB stops ([o] ++ r1 ++ rest) = none by
        rw [show [o] ++ r1 ++ rest = o :: (r1 ++ rest) by simp, embedB, if_neg (by simp [isLeftCurly2, hok])], e1]
    refine ⟨stop_kind hi.1 (by simp [hok]) (by simp [hok]), by simp [tokenIs, isTerminator, hok],
      codeB_no (by simp [hok]), by simp [tokenIs, isCollapsibleStart, hok], by rw [eo]; exact e2, by rw [eo]; exact e3⟩
  · intro _
    have hl : (hlV title icon vs).getLast? = some (false, '!') := by
      rw [hlV, last_append (by simp [free]), last_append (by simp [free]), last_append (by simp [hlTail, free]),
        last_append (by simp [hlTail, free]), hlTail, last_append (by simp [free])]
      rfl
    simp [CleanEnd, hl]
  · intro _
    exact cleanStart_of_head (c := '!') rfl (by decide) (by decide)

end Yamd.Round
