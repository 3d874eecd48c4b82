import Verif.Proofs.Exact.HlLines

/-!
# The lines of a collapsible that was read back
-/

namespace Yamd.Round

open Yamd Yamd.Spec Yamd.Lexer Yamd.Ref

theorem ctitle_chars (s : Str) : (ctitleV s).map Prod.snd = s := by rw [ctitleV, mark2_chars, lineV_chars]

theorem mark2_false_mem {a b c : Char} (ha : c ≠ a) : ∀ {v : V}, (false, c) ∈ v → (false, c) ∈ mark2 a b false v
  | [], h => by simp at h
  | [x], h => h
  | x :: y :: r, h => by
    by_cases hxy : x = (false, a) ∧ y = (false, b)
    · obtain ⟨rfl, rfl⟩ := hxy
      rw [mark2_yes]
      simp only [List.mem_cons, Prod.mk.injEq] at h ⊢
      rcases h with h | h | h
      · exact absurd h.2 ha
      · exact .inr (.inl ⟨trivial, h.2⟩)
      · exact .inr (.inr (mark2_false_mem ha h))
    · rw [mark2_no hxy]
      rcases List.mem_cons.1 h with rfl | h
      · simp
      · exact List.mem_cons.2 (.inr (mark2_false_mem ha h))

/-- The title of a collapsible that is read back is safe. -/
theorem ctitle_exact {src : Str} {b : Bool} {body R : List Token} {o sp e : Token} {s : Str} {w : V}
    (hsp : isSpaceOrEol sp = true) (hl : Live src (o :: sp :: (body ++ e :: R)))
    (hb : textOfToks src body = s) (hn : ∀ t ∈ body, isEolOrTerminator t = false) (hw : Valid w)
    (hs : SpV src b (o :: sp :: (body ++ e :: R)) (free ['{', '%'] ++ (free [' '] ++ (ctitleV s ++ (free ['\n'] ++ w))))) :
    safeLine s = true ∧ ∃ b', SpV src b' (e :: R) (free ['\n'] ++ w) := by
  have vu := ctitle_valid s
  have hv2 : Valid (free [' '] ++ (ctitleV s ++ (free ['\n'] ++ w))) :=
    (valid_free (by decide)).append (vu.append ((valid_free (by decide)).append hw))
  have j1 : ∀ w : V, Join (free ['{', '%']) (free [' '] ++ w) := by
    intro w
    refine join_known (l := []) (p := ⟨false, .CollapsibleStart, ['{', '%']⟩) (valid_free (by decide)) (pieces_one rfl) ?_
    rfl
  obtain ⟨t1, r1, e1, s1, s2⟩ := spv_split (valid_free (by decide)) (j1 _) hs
  obtain ⟨o', rfl, so⟩ := spv_one (p := ⟨false, .CollapsibleStart, ['{', '%']⟩) rfl s1
  simp only [List.cons_append, List.nil_append, List.cons.injEq] at e1
  obtain ⟨rfl, rfl⟩ := e1
  have hf : flag b (free ['{', '%']) = false := rfl
  rw [hf] at s2
  have l2 : Live src (sp :: (body ++ e :: R)) := hl.infix ⟨[o], [], by simp⟩
  -- the token after the mark is one space
  have h1 : isSpace1 sp = true := by
    simp only [isSpaceOrEol, Bool.or_eq_true, decide_eq_true_eq] at hsp
    have hv1 : ∃ v1 v2, free [' '] ++ (ctitleV s ++ (free ['\n'] ++ w)) = v1 ++ v2 ∧ v1.map Prod.snd = textOfToks src [sp] ∧ True := by
      obtain ⟨v1, v2, e, h, -, -⟩ := spv_cut (t1 := [sp]) (t2 := body ++ e :: R) hv2 s2
      exact ⟨v1, v2, e, (spv_text (by rw [e] at hv2; exact hv2.left) h).symm, trivial⟩
    rcases hsp with hk | hk
    · obtain ⟨x1, x2, e1, e2, -, -, -⟩ := spv_at_run (t1 := []) (t := sp) (t2 := body ++ e :: R) (c := ' ') hv2 s2 (by rw [hk]; rfl)
      obtain ⟨v1, v2, e3, h3, h4, -⟩ := spv_cut (t1 := sp :: body) (t2 := e :: R) hv2 (by simpa using s2)
      have hv1 : Valid v1 := by rw [e3] at hv2; exact hv2.left
      have hlen : v1.length = sp.len + s.length := by
        have := congrArg List.length (spv_text hv1 h3)
        rw [List.length_map, text_cons, List.length_append, hb] at this
        rw [← this]
        congr 1
        have hsl : sliceD src sp = List.replicate sp.len ' ' := run_slice l2 (by simp) (k := .Space) (n := sp.len) (by simp [hk]) rfl
        rw [hsl, List.length_replicate]
      have hx : x1 = [] := by
        have := congrArg List.length e2
        rw [List.length_map] at this
        exact List.length_eq_zero_iff.1 this
      have hpos : 0 < sp.len := by
        rcases Nat.eq_zero_or_pos sp.len with h0 | h0
        · exfalso
          have hsl : sliceD src sp = List.replicate sp.len ' ' := run_slice l2 (by simp) (k := .Space) (n := sp.len) (by simp [hk]) rfl
          rw [h0] at hsl
          exact l2.text sp (by simp) hsl
        · exact h0
      rcases Nat.lt_or_ge 1 sp.len with h2 | h2
      · exfalso
        have hu : (ctitleV s).length = s.length := by rw [← List.length_map (f := Prod.snd), ctitle_chars]
        have hpre : (free [' '] ++ (ctitleV s ++ free ['\n'])) <+: v1 := by
          refine List.prefix_of_prefix_length_le (l₃ := v1 ++ v2) ⟨w, by rw [← e3]; simp⟩ ⟨v2, rfl⟩ ?_
          rw [hlen]
          simp [free, hu]
          omega
        obtain ⟨t, ht, hk2⟩ := spv_nl hv1 h3 (hpre.subset (by simp [free]))
        rcases List.mem_cons.1 ht with rfl | ht
        · simp [isEolOrTerminator, hk] at hk2
        · rw [hn t ht] at hk2; simp at hk2
      · simp only [isSpace1, hk, decide_true, Bool.true_and, decide_eq_true_eq]
        omega
    · exfalso
      obtain ⟨v1, v2, e3, h3, -⟩ := hv1
      obtain ⟨q, g1, g2, -⟩ := l2.lexed sp (by simp) (by rw [hk]; decide)
      rw [text_one, g1] at h3
      rw [hk] at g2
      cases v1 with
      | nil => simp at h3; exact form_ne_nil g2 h3
      | cons x v1 =>
        simp only [free, List.map_cons, List.map_nil, List.cons_append, List.cons.injEq] at e3
        rw [← e3.1] at h3
        rcases g2 with rfl | rfl <;> simp at h3
  refine line_exact_of (m0 := [o]) (A := ['{', '%']) (by decide) vu (ctitle_chars s) (fun h => ?_) (fun h => ?_) (fun h => ?_) ?_ h1 hl hb hn hw hs
  · exact mark2_false_mem (by decide) (lineV_free (by decide) h)
  · cases s with
    | nil => simp at h
    | cons c s =>
      simp only [List.head?_cons, Option.some.injEq] at h
      subst h
      rw [ctitleV, show lineV (' ' :: s) = free [' '] ++ lineV s from rfl, mark2_free (by decide) (by decide)]
      rfl
  · refine mark2_keep_last ?_
    obtain ⟨q, rfl⟩ := List.getLast?_eq_some_iff.1 h
    simp [lineV, markSet]
  · rw [spv_text (valid_free (by decide)) s1]; rfl

/-- A text that is shown with a line break at its start. -/
theorem textV_first {s : Str} (h : startsLine (shownText s) = true) : ¬ CleanStart (textV s) := by
  rw [shownText_view] at h
  have hno : (true, '\r') ∉ mark2 '\n' '\n' true (markSet ['{', '[', '`', '~', '_', '*', '\\'] s) :=
    fun hm => markSet_notEsc (by decide) s (mark2_mem hm (by decide) (by decide))
  generalize hu : mark2 '\n' '\n' true (markSet ['{', '[', '`', '~', '_', '*', '\\'] s) = u at h hno
  have key : ∀ {P : Str} {u : V}, (true, '\r') ∉ u → (∀ c ∈ P, c = '\n' ∨ c = '\r') → P <+: u.map ink → free P <+: u := by
    intro P
    induction P with
    | nil => exact fun _ _ _ => List.nil_prefix
    | cons c P ih =>
      intro u hr hc hp
      cases u with
      | nil => simp at hp
      | cons x u =>
        obtain ⟨f, y⟩ := x
        rw [List.map_cons, List.cons_prefix_cons] at hp
        have hc1 := hc c (by simp)
        have h1 := ink_line (x := (f, y)) (by rw [← hp.1]; exact hc1)
        simp only at h1
        rw [← hp.1] at h1
        subst h1
        have hf : f = false := by
          cases f with
          | false => rfl
          | true =>
            rcases hc1 with rfl | rfl
            · have := hp.1; simp [ink] at this
            · exact absurd (by simp) hr
        subst hf
        exact List.cons_prefix_cons.2 ⟨rfl, ih (fun hm => hr (by simp [hm])) (fun c hc' => hc c (by simp [hc'])) hp.2⟩
  have key2 : ∀ {P : Str}, (∀ c ∈ P, c = '\n' ∨ c = '\r') → P <+: u.map ink → free P <+: textV s := by
    intro P hP hp
    obtain ⟨y, hy⟩ := key hno hP hp
    rw [textV, hu, ← hy, mark2_free (fun hm => by rcases hP _ hm with e | e <;> simp at e) (fun hm => by rcases hP _ hm with e | e <;> simp at e)]
    exact ⟨_, rfl⟩
  rintro ⟨c1, c2⟩
  simp only [startsLine, starts, Bool.or_eq_true, List.isPrefixOf_iff_prefix] at h
  rcases h with h | h
  · exact c1 (key2 (by decide) h)
  · exact c2 (key2 (by decide) h)

/-- A paragraph before which a single line break stands does not start with one. -/
theorem para_start {p : Paragraph} {v w : V} (hs : p.all solid = true) (hv : Valid v) (e : dispB (.paragraph p) = render v)
    (hc : CleanStart (v ++ w)) : startsClean (.paragraph p) = true := by
  cases hst : startsLine (shownText (leadingText p)) with
  | false => simp [startsClean, hst]
  | true =>
    exfalso
    cases p with
    | nil => revert hst; decide
    | cons n p =>
      cases n with
      | text s =>
        have h1 := textV_first (s := s) hst
        obtain ⟨v', ev, -, hor⟩ := escapeLeading_view (v := paraW (.text s :: p))
        have e2 : render v' = render v := by rw [← ev, ← e, ← paraW_solid hs]; rfl
        have hp : paraW (.text s :: p) = textV s ++ paraW p := rfl
        have hne : ∀ {P : Str}, P = ['\n'] ∨ P = ['\r', '\n'] → free P <+: textV s → False := by
          intro P hP hpre
          have hpre2 : free P <+: paraW (.text s :: p) := by rw [hp]; exact hpre.trans ⟨_, rfl⟩
          rcases hor with rfl | ⟨rfl, c, hc1, hc2⟩
          · have := render_inj (paraW_valid _) hv e2
            subst this
            have := hpre2.trans (List.prefix_append _ w)
            rcases hP with rfl | rfl
            · exact hc.1 this
            · exact hc.2 this
          · obtain ⟨y, hy⟩ := hpre2
            rw [← hy] at hc2
            rcases hP with rfl | rfl <;> simp [free] at hc2 <;> subst hc2 <;> exact absurd hc1 (by decide)
        refine h1 ⟨fun h => hne (.inl rfl) h, fun h => hne (.inr rfl) h⟩
      | _ => simp [leadingText, shownText, startsLine, starts, replace_nil] at hst

theorem para_chars {p : Paragraph} {v : V} (hs : p.all solid = true) (hv : Valid v) (e : dispB (.paragraph p) = render v) :
    v.map Prod.snd = (paraW p).map Prod.snd := by
  obtain ⟨v', ev, -, hor⟩ := escapeLeading_view (v := paraW p)
  have e2 : render v' = render v := by rw [← ev, ← e, ← paraW_solid hs]; rfl
  have hv' : Valid v' := by
    rcases hor with rfl | ⟨rfl, -⟩
    · exact paraW_valid _
    · exact (more_mark1 _).valid (paraW_valid _)
  have := render_inj hv' hv e2
  subst this
  rcases hor with rfl | ⟨rfl, -⟩
  · rfl
  · cases paraW p with
    | nil => rfl
    | cons x r => simp [mark1]

theorem lead_le (a b : Str) : lead a ≤ lead (a ++ b) := by
  cases h : a.all brk with
  | false => rw [lead_some h]; exact Nat.le_refl _
  | true =>
    have := lead_all h []
    rw [List.append_nil] at this
    rw [lead_all h, this]
    simp [lead]

end Yamd.Round
