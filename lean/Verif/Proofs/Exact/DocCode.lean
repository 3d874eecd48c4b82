import Verif.Proofs.Exact.DocPara
import Verif.Proofs.Exact.Code

/-!
# The first code block of a document that is read back
-/

namespace Yamd.Round

open Yamd Yamd.Spec Yamd.Lexer Yamd.Ref

theorem trimEnd_rest (s : Str) : ∃ R, s = trimEndNl s ++ R := by
  unfold trimEndNl
  refine ⟨(s.reverse.takeWhile (· == '\n')).reverse, ?_⟩
  rw [← List.reverse_append, List.takeWhile_append_dropWhile, List.reverse_reverse]

theorem break_shift {A R : Str} : ∀ {code : Str}, code ++ '\n' :: A = ['\n'] ++ (code ++ R) → ∀ x ∈ code, x = '\n'
  | [], _ => by simp
  | c :: cs, h => by
    simp only [List.cons_append, List.nil_append, List.cons.injEq] at h
    obtain ⟨rfl, h⟩ := h
    intro x hx
    rcases List.mem_cons.1 hx with rfl | hx
    · rfl
    · exact break_shift (A := A) (R := R) (by simpa using h) x hx

theorem crlf_shift {A R : Str} : ∀ (n : Nat) {code : Str}, code.length ≤ n → code ++ '\n' :: '`' :: A = ['\r', '\n'] ++ (code ++ R) → False
  | _, [], _, h => by simp at h
  | _, [c], _, h => by
    simp at h
    obtain ⟨rfl, h, -⟩ := h
    simp at h
  | n + 2, c :: c' :: cs, hn, h => by
    simp only [List.cons_append, List.nil_append, List.cons.injEq] at h
    obtain ⟨rfl, rfl, h⟩ := h
    simp only [List.length_cons] at hn
    exact crlf_shift (A := A) (R := R) n (code := cs) (by omega) (by simpa using h)
  | 0, _ :: _ :: _, hn, _ => by simp at hn
  | 1, _ :: _ :: _, hn, _ => by simp at hn

/-- The first code block is safe. -/
theorem first_code {c S} {d : Str} {lang code : Str} {bl t1 t2 v X} (h : First c S d (.code lang code) bl t1 t2 v X) :
    safeLeaf ⟨c⟩ (.code lang code) = true := by
  have vl : ∀ l, Valid (langV l) := fun l => markSet_valid (by simp) _
  have nl1 : ∀ l, (false, '`') ∉ langV l := fun l => markSet_notFree (by simp) _
  have nl2 : ∀ l, (false, '\n') ∉ langV l := fun l => markSet_notFree (by simp) _
  have v3 : Valid (free ['`', '`', '`']) := valid_free (by decide)
  have hdisp : displayCode lang code =
      render (free ['`', '`', '`'] ++ (langV lang ++ (free ['\n'] ++ (codeV code ++ (free ['\n'] ++ free ['`', '`', '`']))))) := by
    unfold displayCode
    rw [langV_eq, codeV_eq]
    simp only [render_append, render_free_all]
    simp
  have hj1 : Join (free ['`', '`', '`']) (langV lang ++ (free ['\n'] ++ (codeV code ++ (free ['\n'] ++ (free ['`', '`', '`'] ++ X))))) := by
    refine join_after (c := '`') v3 rfl (by decide) (by decide) (by simp) (.inr ?_)
    have := nl1 lang
    cases hh : langV lang with
    | nil => simp [free]
    | cons x r =>
      intro e
      simp only [List.cons_append, List.head?_cons, Option.some.injEq] at e
      rw [hh, e] at this; simp at this
  have ev : v = free ['`', '`', '`'] ++ (langV lang ++ (free ['\n'] ++ (codeV code ++ (free ['\n'] ++ free ['`', '`', '`'])))) := by
    refine render_inj h.valid.left ?_ (by rw [← h.shown, ← hdisp]; rfl)
    exact v3.append ((vl _).append ((valid_free (by decide)).append ((codeV_valid code).append ((valid_free (by decide)).append v3))))
  have hs := h.spells
  have hval := h.valid
  have eX : v ++ X = free ['`', '`', '`'] ++ (langV lang ++ (free ['\n'] ++ (codeV code ++ (free ['\n'] ++ (free ['`', '`', '`'] ++ X))))) := by
    rw [ev]; simp only [List.append_assoc]
  rw [eX] at hs hval
  obtain ⟨D, hD⟩ := h.read
  have den := h.den
  clear h eX
  obtain ⟨ta, r1, ets, s1, hs1⟩ := spv_split v3 hj1 hs
  obtain ⟨t, rfl, st⟩ := spv_one (p := ⟨false, .Backtick, ['`', '`', '`']⟩) rfl s1
  have f1 : ∀ b, flag b (free ['`', '`', '`']) = false := fun _ => rfl
  rw [f1] at hs1
  have ht : isBacktick3 t = true := by simp [isBacktick3, st.kind, st.col, st.len]; rfl
  have hk : t.kind = .Backtick := st.kind
  rw [List.singleton_append] at ets
  rw [ets] at hD
  -- the code does not end with a line feed
  have core : ∀ {l tail : List Token} {e : Token} {lg : Str}, r1 = l ++ e :: tail → SpV d false l (langV lg) → isEolOrTerminator e = true →
      col0 e = flag false (langV lg) → lg = lang ∧
        ∃ body k rest, tail = body ++ k :: rest ∧ trimEndNl (textOfToks d body) = code ∧ isBacktick3 k = true := by
    intro l tail e lg er hl he hc
    rw [er] at hD
    have h0 : tokenIs (l ++ e :: tail) 0 col0 = false := by
      cases l with
      | nil =>
        have : langV lg = [] := by
          by_cases h : langV lg = []
          · exact h
          · exact absurd rfl (spv_ne (vl lg) hl h)
        rw [this] at hc
        exact hc
      | cons u l =>
        obtain ⟨p, v2, -, st, -⟩ := spv_head (vl lg) hl
        exact st.col
    obtain ⟨e1, e2⟩ := code_inv (lang := lang) (code := code) ht (fun u hu => by
      have := spv_nonl (vl lg) (nl2 lg) hl u hu
      simp [isEolOrTerminator, this]) he h0 hD den
    refine ⟨?_, e2⟩
    rw [← e1, spv_text (vl lg) hl, langV, markSet_chars]
  have hlr : lang.getLast? ≠ some '\r' := by
    intro e
    obtain ⟨w, rfl⟩ := List.getLast?_eq_some_iff.1 e
    have ev : langV (w ++ ['\r']) = langV w ++ free ['\r'] := by simp [langV, markSet, free]
    rw [ev, List.append_assoc, ← List.append_assoc (free ['\r'])] at hs1
    obtain ⟨l, r2, er, sl, sr⟩ := spv_split (vl w) (join_crlf (vl w) (nl2 w)) hs1
    obtain ⟨e, tail, w', rfl, he, hc, -, -⟩ := break_first (B := ['\r', '\n']) (.inr rfl) sr
    have := (core er sl he hc).1
    have := congrArg List.length this
    simp at this
  have cl : CleanEnd (langV lang) := by
    refine ⟨notFree_last (nl2 _), fun e => hlr ?_⟩
    have := last_chars e
    rw [langV, markSet_chars] at this
    exact this
  obtain ⟨l, r2, er, sl, sr⟩ := spv_split (vl lang) (join_nl (vl lang) cl) hs1
  obtain ⟨e, tail, w', rfl, he, hc, st', hw⟩ := break_first (B := ['\n']) (.inl rfl) sr
  obtain ⟨-, body, k, rest, rfl, hcode, hk3⟩ := core er sl he hc
  have hnl : code.getLast? ≠ some '\n' := by rw [← hcode]; exact trimEnd_last _
  have vc : Valid (codeV code ++ (free ['\n'] ++ (free ['`', '`', '`'] ++ X))) := hval.right.right.right
  have hst : startsLine (code ++ if code.isEmpty then [] else cs! "\n") = false := by
    rcases hw with ⟨-, hw⟩ | ⟨B', hB', ew⟩
    · -- no second line break
      cases code with
      | nil => rfl
      | cons c code =>
        simp only [List.isEmpty_cons, Bool.false_eq_true, if_false]
        cases hst : startsLine ((c :: code) ++ cs! "\n") with
        | false => rfl
        | true =>
          exfalso
          simp only [startsLine, starts, Bool.or_eq_true, List.isPrefixOf_iff_prefix] at hst
          rcases hst with ⟨x, ex⟩ | ⟨x, ex⟩
          · simp only [List.cons_append, List.nil_append, List.cons.injEq] at ex
            refine hw.1 ?_
            rw [← ex.1, codeV_cons (by decide) (by decide)]
            exact ⟨_, rfl⟩
          · refine hw.2 ?_
            simp only [List.cons_append, List.nil_append, List.cons.injEq] at ex
            rw [← ex.1, codeV_cons (by decide) (by decide)]
            cases code with
            | nil => exact ⟨_, rfl⟩
            | cons c' code =>
              simp only [List.cons_append, List.cons.injEq] at ex
              rw [← ex.2.1, codeV_cons (by decide) (by decide)]
              exact ⟨_, rfl⟩
    · -- a second one: too little is left for the code
      by_cases hc0 : code = []
      · subst hc0; rfl
      · exfalso
        have hv' : Valid w' := by rw [ew] at vc; exact vc.right
        have htx := spv_text hv' st'
        have hch := congrArg (List.map Prod.snd) ew
        simp only [List.map_append, codeV_chars, free_chars] at hch
        obtain ⟨R, hR⟩ := trimEnd_rest (textOfToks d body)
        rw [hcode] at hR
        rw [← htx, text_append, hR, List.append_assoc] at hch
        rcases hB' with rfl | rfl
        · have := break_shift hch
          rcases List.eq_nil_or_concat code with rfl | ⟨q, c, rfl⟩
          · exact hc0 rfl
          · rw [List.concat_eq_append] at *
            refine hnl ?_
            rw [List.getLast?_concat, this c (by simp)]
        · exact crlf_shift code.length (Nat.le_refl _) hch
  simp only [safeLeaf, Bool.and_eq_true, Bool.not_eq_true', bne_iff_ne, ne_eq]
  exact ⟨⟨hlr, hst⟩, hnl⟩

end Yamd.Round
