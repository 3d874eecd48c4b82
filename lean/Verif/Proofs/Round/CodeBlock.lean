import Verif.Proofs.Round.Leaf2

/-!
# Code blocks
-/

namespace Yamd.Round

open Yamd Yamd.Spec Yamd.Lexer Yamd.Ref

/-- Mark the first character of every free `aaa`, from left to right. -/
def mark3 (a : Char) : V → V
  | x :: y :: z :: r =>
    if x = (false, a) ∧ y = (false, a) ∧ z = (false, a) then (true, a) :: (false, a) :: (false, a) :: mark3 a r
    else x :: mark3 a (y :: z :: r)
  | [x, y] => [x, y]
  | [x] => [x]
  | [] => []

theorem mark3_yes {a : Char} {r : V} : mark3 a ((false, a) :: (false, a) :: (false, a) :: r) =
    (true, a) :: (false, a) :: (false, a) :: mark3 a r := by rw [mark3, if_pos ⟨rfl, rfl, rfl⟩]

theorem mark3_no {a : Char} {x y z} {r : V} (h : ¬ (x = (false, a) ∧ y = (false, a) ∧ z = (false, a))) :
    mark3 a (x :: y :: z :: r) = x :: mark3 a (y :: z :: r) := by rw [mark3, if_neg h]

theorem more_mark3 {a : Char} : ∀ v : V, More v (mark3 a v)
  | [] => trivial
  | [_] => More.refl _
  | [_, _] => More.refl _
  | x :: y :: z :: r => by
    by_cases h : x = (false, a) ∧ y = (false, a) ∧ z = (false, a)
    · obtain ⟨rfl, rfl, rfl⟩ := h
      rw [mark3_yes]
      exact ⟨.inr rfl, .inl rfl, .inl rfl, more_mark3 r⟩
    · rw [mark3_no h]
      exact ⟨.inl rfl, more_mark3 (y :: z :: r)⟩

theorem isPrefix_three {a : Char} {w : V} (ha : a ≠ '\\') {x} :
    [a, a, a].isPrefixOf (render (x :: w)) = true ↔ free [a, a, a] <+: x :: w := by
  rw [List.isPrefixOf_iff_prefix]
  exact render_prefix (by simp [Ne.symm ha])

theorem replace_three {a : Char} (ha : a ≠ '\\') : ∀ {v : V}, (true, a) ∉ v →
    replace [a, a, a] ['\\', a, a, a] (render v) = render (mark3 a v)
  | [], _ => replace_nil _ _
  | (true, c) :: v, h => by
    have hca : c ≠ a := by rintro rfl; simp at h
    have e : mark3 a ((true, c) :: v) = (true, c) :: mark3 a v := by
      match v with
      | [] => rfl
      | [_] => rfl
      | _ :: _ :: _ => rw [mark3_no (by simp)]
    rw [e, render_esc, render_esc, replace_no (by simp [List.isPrefixOf, ha]),
      replace_no (by simp [List.isPrefixOf, Ne.symm hca]), replace_three ha (fun hm => h (by simp [hm]))]
  | (false, c) :: v, h => by
    by_cases hp : free [a, a, a] <+: (false, c) :: v
    · rw [free_cons_prefix] at hp
      obtain ⟨e1, hp⟩ := hp
      match v, hp, h with
      | [], hp, _ => simp [free] at hp
      | y :: [], hp, _ =>
        rw [free_cons_prefix] at hp
        simp [free] at hp
      | y :: z :: r, hp, h =>
        rw [free_cons_prefix, free_cons_prefix] at hp
        obtain ⟨rfl, rfl, -⟩ := hp
        simp only [Prod.mk.injEq, true_and] at e1
        subst e1
        have := replace_yes (pat := [c, c, c]) (rep := ['\\', c, c, c]) (s := render r) (by simp)
        rw [mark3_yes, render_free, render_free, render_free, render_esc, render_free, render_free,
          show c :: c :: c :: render r = [c, c, c] ++ render r from rfl, this, replace_three ha (fun hm => h (by simp [hm]))]
        rfl
    · have e : mark3 a ((false, c) :: v) = (false, c) :: mark3 a v := by
        match v, hp with
        | [], _ => rfl
        | [_], _ => rfl
        | y :: z :: r, hp =>
          rw [mark3_no]
          rintro ⟨e1, e2, e3⟩
          exact hp (by rw [e1, e2, e3]; exact ⟨r, rfl⟩)
      have hp' : [a, a, a].isPrefixOf (c :: render v) = false := by
        rw [← render_free]
        cases hh : [a, a, a].isPrefixOf (render ((false, c) :: v)) with
        | false => rfl
        | true => exact absurd ((isPrefix_three ha).1 hh) hp
      rw [e, render_free, render_free, replace_no hp', replace_three ha (fun hm => h (by simp [hm]))]

theorem mark3_front {a : Char} (v : V) : ¬ free [a, a, a] <+: mark3 a v := by
  match v with
  | [] => simp [mark3, free]
  | [x] => intro h; have := h.length_le; simp [mark3, free] at this
  | [x, y] => intro h; have := h.length_le; simp [mark3, free] at this
  | x :: y :: z :: r =>
    by_cases hx : x = (false, a) ∧ y = (false, a) ∧ z = (false, a)
    · obtain ⟨rfl, rfl, rfl⟩ := hx
      rw [mark3_yes, free_cons_prefix]; simp
    · rw [mark3_no hx, free_cons_prefix]
      rintro ⟨h1, h2⟩
      have h3 := (more_mark3 (a := a) (y :: z :: r)).prefix h2
      rw [free_cons_prefix, free_cons_prefix] at h3
      exact hx ⟨h1, h3.1, h3.2.1⟩

theorem noStart_mark3 {a : Char} (ha : a ≠ '\n') (b : Bool) (v : V) : NoStart b [a, a, a] (mark3 a v) := by
  refine ⟨fun _ => mark3_front v, ?_⟩
  have : ∀ n, ∀ v : V, v.length ≤ n → NoInf ['\n', a, a, a] (mark3 a v) := by
    intro n
    induction n with
    | zero =>
      intro v hv
      have : v = [] := by simpa using hv
      subst this
      intro h; simp [mark3, free] at h
    | succ n ih =>
      intro v hv h
      match v, hv, h with
      | [], _, h => simp [mark3, free] at h
      | [x], _, h => have := h.length_le; simp [mark3, free] at this
      | [x, y], _, h => have := h.length_le; simp [mark3, free] at this
      | x :: y :: z :: s, hv, h =>
        by_cases hx : x = (false, a) ∧ y = (false, a) ∧ z = (false, a)
        · obtain ⟨rfl, rfl, rfl⟩ := hx
          rw [mark3_yes, List.infix_cons_iff, List.infix_cons_iff, List.infix_cons_iff] at h
          rcases h with h | h | h | h
          · rw [free_cons_prefix] at h; simp at h
          · rw [free_cons_prefix] at h; simp [ha] at h
          · rw [free_cons_prefix] at h; simp [ha] at h
          · exact ih s (by simp at hv; omega) h
        · rw [mark3_no hx, List.infix_cons_iff] at h
          rcases h with h | h
          · rw [free_cons_prefix] at h
            exact mark3_front _ h.2
          · exact ih (y :: z :: s) (by simp at hv ⊢; omega) h
  exact this _ v (Nat.le_refl _)

/-! ### Tokens of line breaks -/

/-- Without a free line feed there is no line break token. -/
theorem spv_nonl {src b ts v} (hv : Valid v) (hn : (false, '\n') ∉ v) (h : SpV src b ts v) :
    ∀ t ∈ ts, t.kind ≠ .Eol ∧ t.kind ≠ .Terminator := by
  intro t ht
  obtain ⟨p, v1, v2, e, hs, hf, he⟩ := spv_mem hv h ht
  have hnl : isNl p = false := by
    cases hp : isNl p with
    | false => rfl
    | true =>
      have := pview_nl hf he
      rw [hp, beq_iff_eq] at this
      have := List.mem_of_getLast? this
      exact absurd (by rw [e]; simp [this]) hn
  simp only [isNl, Bool.or_eq_false_iff, decide_eq_false_iff_not] at hnl
  rw [hs.kind]
  exact hnl

theorem infix_concat {α : Type} {p v : List α} {x : α} (h : p <:+: v ++ [x]) (hp : p.getLast? ≠ some x) (hne : p ≠ []) : p <:+: v := by
  obtain ⟨a, b, e⟩ := h
  rcases List.eq_nil_or_concat b with rfl | ⟨b', y, rfl⟩
  · exfalso
    rw [List.append_nil] at e
    have := congrArg List.getLast? e
    rw [List.getLast?_append, List.getLast?_concat] at this
    cases hl : p.getLast? with
    | none => exact hne (List.getLast?_eq_none_iff.1 hl)
    | some z => rw [hl] at this hp; simp at this hp; exact hp this
  · rw [List.concat_eq_append, ← List.append_assoc] at e
    have := List.append_inj_left' e (by simp)
    exact ⟨a, b', this⟩

theorem noStart_nl {b : Bool} {pat : Str} {v : V} (h : NoStart b pat v) (hp : pat.getLast? ≠ some '\n') (hne : pat ≠ []) :
    NoStart b pat (v ++ free ['\n']) := by
  have hl : (free pat).getLast? ≠ some (false, '\n') := by
    rw [free_getLast]; intro e; simp only [Option.map_eq_some_iff, Prod.mk.injEq, true_and, exists_eq_right] at e; exact hp e
  have hfne : free pat ≠ [] := by simpa [free] using hne
  constructor
  · intro hb hpre
    rcases List.prefix_concat_iff.1 hpre with e | e
    · apply hl; rw [e]; simp
    · exact h.1 hb e
  · intro hi
    refine h.2 (infix_concat hi ?_ (by simp [free]))
    have : free ('\n' :: pat) = (false, '\n') :: free pat := rfl
    rw [this, List.getLast?_cons]
    cases hx : (free pat).getLast? with
    | none => exact absurd (List.getLast?_eq_none_iff.1 hx) hfne
    | some z => rw [hx] at hl; simpa using hl

/-! ### Reading a code block -/

theorem reads_code {src stops ts n}
    (h : ∀ rest, Bd stops rest → stopAt stops (ts ++ rest) = false ∧ tokenIs (ts ++ rest) 0 isTerminator = false ∧
      ∃ b r, codeB stops (ts ++ rest) = some (b, r) ∧ b.denote src = n ∧
        (r = rest ∨ ∃ e, rest = e :: r ∧ e.kind = .Eol)) : Reads src stops ts n := by
  intro rest hr
  obtain ⟨h1, h2, b, r, h3, h5, h6⟩ := h rest hr
  exact ⟨fun d => .block b d, r, docB_code h1 h2 h3, fun d => by simp [Doc.denote, h5], h6⟩

/-- The rest of an opening line. -/
theorem mod_open {src stops b l e tail} (hl : ∀ t ∈ l, quiet stops t = true ∧ isEolOrTerminator t = false)
    (he : quiet stops e = true) (hk : isEolOrTerminator e = true) (hc : Calm stops tail)
    (h0 : tokenIs (l ++ e :: tail) 0 col0 = false) (hb : textOfToks src l = b) :
    ∃ m, optModB stops (l ++ e :: tail) = (some m, tail) ∧ modDenote src (some m) = some b := by
  refine ⟨⟨l, e⟩, ?_, by simp [modDenote, hb]⟩
  unfold optModB modifierB
  rw [h0, untilB_exec hl he hk hc]
  rfl

theorem quiet_nil (t : Token) : quiet [] t = true := rfl
theorem calm_nil (r : List Token) : Calm [] r := fun h => by simp at h

theorem code_open {src stops t l e tail b} (ht : isBacktick3 t = true) (hl : ∀ u ∈ l, isEolOrTerminator u = false)
    (hk : isEolOrTerminator e = true) (h0 : tokenIs (l ++ e :: tail) 0 col0 = false) (hb : textOfToks src l = b) :
    ∃ o m, codeB stops (t :: (l ++ e :: tail)) = codeRestB stops o m tail ∧ (modDenote src m).getD [] = b := by
  rw [codeB, if_pos ht]
  cases hh : tokenIs (l ++ e :: tail) 0 isEol with
  | true =>
    cases l with
    | nil => exact ⟨_, _, rfl, by rw [← hb]; rfl⟩
    | cons u l =>
      have h1 := hl u (by simp)
      have h2 : isEol u = true := hh
      simp only [isEol, decide_eq_true_eq] at h2
      simp [isEolOrTerminator, h2] at h1
  | false =>
    obtain ⟨m, e1, e2⟩ := mod_open (stops := []) (fun u hu => ⟨quiet_nil u, hl u hu⟩) (quiet_nil e) hk (calm_nil tail) h0 hb
    refine ⟨[t], some m, ?_, by rw [e2]; rfl⟩
    rw [e1]; simp

/-- The first token after an opening is not at the start of a line. -/
theorem head_col {src l v e p tail} (hv : Valid v) (hs : SpV src false l v) (he : SpT src (flag false v) e p) :
    tokenIs (l ++ e :: tail) 0 col0 = false := by
  cases l with
  | nil =>
    have : v = [] := by
      by_cases h : v = []
      · exact h
      · exact absurd rfl (spv_ne hv hs h)
    subst this
    exact he.col
  | cons t l =>
    obtain ⟨p, v2, -, st, -⟩ := spv_head hv hs
    exact st.col

def langV (lang : Str) : V := markSet ['\n', '`', '\\'] lang
def codeV (code : Str) : V := mark3 '`' (markSet ['\\'] code)

theorem langV_eq (lang : Str) : replace (cs! "\n") (cs! "\\\n") (replace (cs! "`") (cs! "\\`") (replace (cs! "\\") (cs! "\\\\") lang)) =
    render (langV lang) := by
  rw [show replace (cs! "\\") (cs! "\\\\") lang = _ from replace_backslash lang,
    show replace (cs! "`") (cs! "\\`") (render (markSet ['\\'] lang)) = _ from replace_char (by decide) (by decide) _,
    show replace (cs! "\n") (cs! "\\\n") (render (markSet ['`', '\\'] lang)) = _ from replace_char (by decide) (by decide) _]
  rfl

theorem codeV_eq (code : Str) : replace (cs! "```") (cs! "\\```") (replace (cs! "\\") (cs! "\\\\") code) = render (codeV code) := by
  rw [show replace (cs! "\\") (cs! "\\\\") code = _ from replace_backslash code]
  exact replace_three (by decide) (markSet_notEsc (by simp) _)

theorem codeV_chars (code : Str) : (codeV code).map Prod.snd = code := by
  rw [codeV, (more_mark3 _).chars, markSet_chars]

theorem codeV_valid (code : Str) : Valid (codeV code) := (more_mark3 _).valid (markSet_valid (by simp) _)

theorem trimEnd_nl {s : Str} (h : s.getLast? ≠ some '\n') : trimEndNl (s ++ ['\n']) = s := by
  unfold trimEndNl
  rw [List.reverse_append]
  simp only [List.reverse_cons, List.reverse_nil, List.nil_append, List.cons_append]
  rw [List.dropWhile_cons_of_pos (by simp)]
  rw [← List.head?_reverse] at h
  cases hr : s.reverse with
  | nil => simp at hr; simp [hr]
  | cons x r =>
    rw [hr] at h
    rw [List.dropWhile_cons_of_neg (by simpa using h), ← hr, List.reverse_reverse]

theorem trimEnd_id {s : Str} (h : s.getLast? ≠ some '\n') : trimEndNl s = s := by
  unfold trimEndNl
  rw [← List.head?_reverse] at h
  cases hr : s.reverse with
  | nil => simp at hr; simp [hr]
  | cons x r =>
    rw [hr] at h
    rw [List.dropWhile_cons_of_neg (by simpa using h), ← hr, List.reverse_reverse]

theorem code_rest {src stops o m b c rest} (hb : ∀ t ∈ b, isBacktick3 t = false) (hc : isBacktick3 c = true) (hr : Bd stops rest)
    {lang code : Str} (hm : (modDenote src m).getD [] = lang) (ht : trimEndNl (trimEndNl (textOfToks src b)) = code) :
    ∃ k r, codeRestB stops o m (b ++ c :: rest) = some (k, r) ∧ k.denote src = .code lang code ∧
      (r = rest ∨ ∃ e, rest = e :: r ∧ e.kind = .Eol) := by
  obtain ⟨cl, r, e, hor⟩ := closeLine_bd (c := c) hr
  refine ⟨.code o m b cl, r, ?_, ?_, hor⟩
  · rw [codeRestB, untilB_exec (fun t h => ⟨quiet_nil t, hb t h⟩) (quiet_nil c) hc (calm_nil rest)]
    simp only [e, Option.map_some]
  · simp only [Block.denote, YamdNode.newCode, hm, ht]

theorem good_code {c stops lang code} (hi : Inside c stops) (h : safeLeaf ⟨c⟩ (.code lang code) = true) :
    Good stops (.code lang code) (displayCode lang code) := by
  simp only [safeLeaf, Bool.and_eq_true, Bool.not_eq_true', bne_iff_ne, ne_eq] at h
  obtain ⟨⟨hlr, hst⟩, hnl⟩ := h
  have vl : Valid (langV lang) := markSet_valid (by simp) _
  have nl1 : (false, '`') ∉ langV lang := markSet_notFree (by simp) _
  have nl2 : (false, '\n') ∉ langV lang := markSet_notFree (by simp) _
  have cl : CleanEnd (langV lang) := by
    refine ⟨notFree_last nl2, fun e => hlr ?_⟩
    have := last_chars e
    rw [langV, markSet_chars] at this
    exact this
  have v3 : Valid (free ['`', '`', '`']) := valid_free (by decide)
  have hj1 : ∀ w, Join (free ['`', '`', '`']) (langV lang ++ (free ['\n'] ++ w)) := by
    intro w
    refine join_after (c := '`') v3 rfl (by decide) (by decide) (by simp) (.inr ?_)
    cases hh : langV lang with
    | nil => simp [free]
    | cons x r =>
      intro e
      simp only [List.cons_append, List.head?_cons, Option.some.injEq] at e
      rw [hh, e] at nl1; simp at nl1
  have hdisp : displayCode lang code =
      render (free ['`', '`', '`'] ++ (langV lang ++ (free ['\n'] ++ (codeV code ++ (free ['\n'] ++ free ['`', '`', '`']))))) := by
    unfold displayCode
    rw [langV_eq, codeV_eq]
    simp only [render_append, render_free_all]
    simp
  have hlast : CleanEnd (free ['`', '`', '`'] ++ (langV lang ++ (free ['\n'] ++ (codeV code ++ (free ['\n'] ++ free ['`', '`', '`']))))) := by
    unfold CleanEnd
    rw [last_append (by simp [free]), last_append (by simp [free]), last_append (by simp [free]), last_append (by simp [free]),
      last_append (by simp [free])]
    simp [free]
  refine ⟨_, hdisp, ⟨v3.append (vl.append ((valid_free (by decide)).append ((codeV_valid code).append
    ((valid_free (by decide)).append v3)))), by simp [free], ?_⟩, fun _ => hlast,
    fun _ => cleanStart_of_head (c := '`') rfl (by decide) (by decide)⟩
  intro src ts hs
  refine reads_code (fun rest hr => ?_)
  obtain ⟨t1, r1, rfl, s1, hs1⟩ := spv_split v3 (hj1 _) hs
  obtain ⟨t, rfl, st⟩ := spv_one (p := ⟨false, .Backtick, ['`', '`', '`']⟩) rfl s1
  have f1 : ∀ b, flag b (free ['`', '`', '`']) = false := fun _ => rfl
  rw [f1] at hs1
  have ht : isBacktick3 t = true := by simp [isBacktick3, st.kind, st.col, st.len]; rfl
  have hk : t.kind = .Backtick := st.kind
  obtain ⟨t2, r2, rfl, s2, hs2⟩ := spv_split vl (join_nl vl cl) hs1
  have htl : textOfToks src t2 = lang := by rw [spv_text vl s2, langV, markSet_chars]
  have hnt : ∀ u ∈ t2, isEolOrTerminator u = false := fun u hu => by
    have := spv_nonl vl nl2 s2 u hu
    simp [isEolOrTerminator, this]
  refine ⟨stop_kind hi.1 (by simp [hk]) (by simp [hk]), by simp [tokenIs, isTerminator, hk], ?_⟩
  by_cases hcode : code = []
  · subst hcode
    have hs3 : SpV src (flag false (langV lang)) r2 (free ['\n', '\n'] ++ free ['`', '`', '`']) := hs2
    obtain ⟨t3, t4, rfl, s3, s4⟩ := spv_split (valid_free (by decide)) (join_after_blank _) hs3
    obtain ⟨e, rfl, se⟩ := spv_one (p := ⟨false, .Terminator, ['\n', '\n']⟩) rfl s3
    obtain ⟨k, rfl, sk⟩ := spv_one (p := ⟨false, .Backtick, ['`', '`', '`']⟩) rfl s4
    have hkc : isBacktick3 k = true := by simp [isBacktick3, sk.kind, sk.col, sk.len]; exact ⟨rfl, rfl⟩
    obtain ⟨o, m, e1, e2⟩ := code_open (stops := stops) (tail := [] ++ k :: rest) ht hnt
      (show isEolOrTerminator e = true by simp [isEolOrTerminator, se.kind]) (head_col vl s2 se) htl
    obtain ⟨b, r, e3, e4, e5⟩ := code_rest (o := o) (src := src) (b := []) (lang := lang) (code := []) (by simp) hkc hr e2 rfl
    refine ⟨b, r, ?_, e4, e5⟩
    rw [← e3, ← e1]
    simp
  · have hcs : CleanStart (codeV code ++ (free ['\n'] ++ free ['`', '`', '`'])) := by
      have hne : code.isEmpty = false := by simpa using hcode
      rw [hne] at hst
      simp only [Bool.false_eq_true, if_false, startsLine, Bool.or_eq_false_iff, starts] at hst
      have hlen : 1 ≤ code.length := by
        cases code with
        | nil => exact absurd rfl hcode
        | cons _ _ => simp
      have key : ∀ pat : Str, pat.length ≤ 2 → pat.isPrefixOf (code ++ ['\n']) = false →
          ¬ free pat <+: codeV code ++ (free ['\n'] ++ free ['`', '`', '`']) := by
        intro pat hl hp hpre
        have := free_prefix_chars hpre
        simp only [List.map_append, codeV_chars] at this
        have h2 : pat <+: code ++ ['\n'] := by
          refine List.prefix_of_prefix_length_le this ⟨['`', '`', '`'], by simp [free]⟩ (by simp; omega)
        rw [← List.isPrefixOf_iff_prefix, hp] at h2
        simp at h2
      exact ⟨key _ (by simp) hst.1, key _ (by simp) hst.2⟩
    obtain ⟨t3, r3, rfl, s3, hs3⟩ := spv_split (valid_free (by decide)) (join_eol hcs) hs2
    obtain ⟨e, rfl, se⟩ := spv_one (p := ⟨false, .Eol, ['\n']⟩) rfl s3
    have f2 : ∀ b, flag b (free ['\n']) = true := fun _ => rfl
    rw [f2, ← List.append_assoc] at hs3
    have vcn : Valid (codeV code ++ free ['\n']) := (codeV_valid code).append (valid_free (by decide))
    have hlastn : (codeV code ++ free ['\n']).getLast? = some (false, '\n') := by simp [free]
    have hj : Join (codeV code ++ free ['\n']) (free ['`', '`', '`']) :=
      join_stop (c := '`') vcn rfl (by decide) (by rw [hlastn]; simp) (by simp) (by simp)
    obtain ⟨t4, t5, rfl, s4, s5⟩ := spv_split vcn hj hs3
    obtain ⟨k, rfl, sk⟩ := spv_one (p := ⟨false, .Backtick, ['`', '`', '`']⟩) rfl s5
    have f3 : flag true (codeV code ++ free ['\n']) = true := by unfold flag; rw [hlastn]; rfl
    rw [f3] at sk
    have hkc : isBacktick3 k = true := by simp [isBacktick3, sk.kind, sk.col, sk.len]; rfl
    have hbody : ∀ u ∈ t4, isBacktick3 u = false := by
      intro u hu
      cases hb : isBacktick3 u with
      | false => rfl
      | true =>
        exfalso
        simp only [isBacktick3, Bool.and_eq_true, decide_eq_true_eq] at hb
        obtain ⟨p, v1, v2, ev, hsp, hf, he⟩ := spv_mem vcn s4 hu
        obtain ⟨g1, -, -⟩ := spt_run hsp hf he (c := '`') (by rw [hb.1.1]; rfl)
        have hcol : flag true v1 = true := by rw [← hsp.col]; exact hb.1.2
        refine no_start (noStart_nl (noStart_mark3 (a := '`') (by decide) true (markSet ['\\'] code)) (by decide) (by simp)) ev hcol ?_
        rw [g1, hb.2]
        exact List.prefix_refl _
    have htext : trimEndNl (trimEndNl (textOfToks src t4)) = code := by
      rw [spv_text vcn s4, List.map_append, codeV_chars]
      show trimEndNl (trimEndNl (code ++ ['\n'])) = code
      rw [trimEnd_nl hnl, trimEnd_id hnl]
    obtain ⟨o, m, e1, e2⟩ := code_open (stops := stops) (tail := t4 ++ k :: rest) ht hnt
      (show isEolOrTerminator e = true by simp [isEolOrTerminator, se.kind]) (head_col vl s2 se) htl
    obtain ⟨b, r, e3, e4, e5⟩ := code_rest (o := o) (src := src) (lang := lang) (code := code) hbody hkc hr e2 htext
    refine ⟨b, r, ?_, e4, e5⟩
    rw [← e3, ← e1]
    simp

end Yamd.Round
