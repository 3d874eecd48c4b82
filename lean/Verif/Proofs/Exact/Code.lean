import Verif.Proofs.Exact.Images

/-!
# Code that survives
-/

namespace Yamd.Round

open Yamd Yamd.Spec Yamd.Lexer Yamd.Ref

/-- A carriage return and a line feed start a new piece. -/
theorem join_crlf {v w : V} (hv : Valid v) (hn : (false, '\n') ∉ v) : Join v (free ['\r', '\n'] ++ w) := by
  refine join_of hv (fun p hp => ?_)
  obtain ⟨hf, he, hl⟩ := last_piece hv hp
  have hs : render (free ['\r', '\n'] ++ w) = '\r' :: '\n' :: render w := by
    rw [render_append, render_free_all]; rfl
  rw [hs]
  unfold joinOk
  cases hk : p.kind with
  | Literal => simp [litStop, tailOk]
  | Eol =>
    exfalso
    refine hn (List.mem_of_getLast? (a := (false, '\n')) ?_)
    rw [hl]
    refine pview_last ?_
    have hesc : p.esc = false := by
      cases h : p.esc with
      | false => rfl
      | true => rw [he h] at hk; cases hk
    rw [hesc]
    rw [hk] at hf
    rcases hf with hf | hf <;> rw [hf] <;> rfl
  | LeftCurlyBrace => simp
  | _ => simp [runCharOf]

/-- The token of a line break, which takes a second line break with it. -/
theorem break_first {src b ts w} {B : Str} (hB : IsBreak B) (hs : SpV src b ts (free B ++ w)) : ∃ e tail w', ts = e :: tail ∧
    isEolOrTerminator e = true ∧ col0 e = b ∧ SpV src true tail w' ∧ ((w' = w ∧ CleanStart w) ∨ ∃ B', IsBreak B' ∧ w = free B' ++ w') := by
  have go : ∀ {k : TokenKind} {x : Str} {y : V}, k = .Eol ∨ k = .Terminator → '\\' ∉ x → tok1 x = some (⟨false, k, x⟩, []) →
      x.getLast? = some '\n' → joinOk ⟨false, k, x⟩ (render y) = true → SpV src b ts (free x ++ y) →
      ∃ e tail, ts = e :: tail ∧ isEolOrTerminator e = true ∧ col0 e = b ∧ SpV src true tail y := by
    intro k x y hk hx h1 hx2 hj hs
    have hv : Valid (free x) := valid_free hx
    have hp : pieces (render (free x)) = [⟨false, k, x⟩] := by rw [render_free_all]; exact pieces_one h1
    obtain ⟨t1, t2, rfl, s1, s2⟩ := spv_split hv (join_known (l := []) (p := ⟨false, k, x⟩) hv hp hj) hs
    obtain ⟨e, rfl, se⟩ : ∃ e, t1 = [e] ∧ SpT src b e ⟨false, k, x⟩ := by
      unfold SpV at s1
      rw [hp] at s1
      match t1, s1 with
      | [], h => simp [Sp] at h
      | [e], h => exact ⟨e, rfl, h.1⟩
      | _ :: _ :: _, h => simp [Sp] at h
    refine ⟨e, t2, rfl, ?_, se.col, ?_⟩
    · have := se.kind
      simp only at this
      simp only [isEolOrTerminator, this]
      rcases hk with rfl | rfl <;> simp
    · have : flag b (free x) = true := by
        unfold flag
        rw [free_getLast, hx2]; rfl
      rwa [this] at s2
  by_cases hw : CleanStart w
  · have h1 := fun e => hw.1 ((render_prefix (pat := ['\n']) (by decide)).1 e)
    have h2 := fun e => hw.2 ((render_prefix (pat := ['\r', '\n']) (by decide)).1 e)
    have hl : lineBreak (render w) = none := by
      unfold lineBreak
      split
      · rename_i r e; exact absurd (show ['\n'] <+: render w from ⟨r, by rw [e]; rfl⟩) h1
      · rename_i r e; exact absurd (show ['\r', '\n'] <+: render w from ⟨r, by rw [e]; rfl⟩) h2
      · rfl
    obtain ⟨e, tail, h3, h4, h5, h6⟩ := go (k := .Eol) (x := B) (y := w) (.inl rfl) (by rcases hB with rfl | rfl <;> decide)
      (by rcases hB with rfl | rfl <;> rfl) (by rcases hB with rfl | rfl <;> rfl) (by simp [joinOk, hl]) hs
    exact ⟨e, tail, w, h3, h4, h5, h6, .inl ⟨rfl, hw⟩⟩
  · obtain ⟨B', hB', w', rfl⟩ : ∃ B', IsBreak B' ∧ ∃ w', w = free B' ++ w' := by
      unfold CleanStart at hw
      by_cases hp : free ['\n'] <+: w
      · obtain ⟨w', e⟩ := hp; exact ⟨_, .inl rfl, w', e.symm⟩
      · have : free ['\r', '\n'] <+: w := Decidable.byContradiction fun hq => hw ⟨hp, hq⟩
        obtain ⟨w', e⟩ := this; exact ⟨_, .inr rfl, w', e.symm⟩
    have hs' : SpV src b ts (free (B ++ B') ++ w') := by
      simpa [free] using hs
    obtain ⟨e, tail, h3, h4, h5, h6⟩ := go (k := .Terminator) (x := B ++ B') (y := w') (.inr rfl)
      (by rcases hB with rfl | rfl <;> rcases hB' with rfl | rfl <;> decide)
      (by rcases hB with rfl | rfl <;> rcases hB' with rfl | rfl <;> rfl)
      (by rcases hB with rfl | rfl <;> rcases hB' with rfl | rfl <;> rfl) rfl hs'
    exact ⟨e, tail, w', h3, h4, h5, h6, .inr ⟨B', hB', rfl⟩⟩

theorem trimEnd_last (s : Str) : (trimEndNl s).getLast? ≠ some '\n' := by
  unfold trimEndNl
  rw [List.getLast?_reverse]
  intro h
  cases hd : s.reverse.dropWhile (· == '\n') with
  | nil => rw [hd] at h; simp at h
  | cons x r =>
    rw [hd] at h
    have := List.head?_dropWhile_not (· == '\n') s.reverse
    rw [hd] at this
    simp at h this
    exact this h

theorem trimEnd_length (s : Str) : (trimEndNl s).length ≤ s.length := by
  unfold trimEndNl
  rw [List.length_reverse]
  have := (List.dropWhile_sublist (p := (· == '\n')) (l := s.reverse)).length_le
  simpa using this

theorem trimEnd_full {s : Str} (h : s.length ≤ (trimEndNl s).length) : trimEndNl s = s := by
  have e : s.reverse.dropWhile (· == '\n') = s.reverse := by
    refine (List.dropWhile_sublist (p := (· == '\n'))).eq_of_length_le ?_
    unfold trimEndNl at h
    rw [List.length_reverse] at h
    simpa using h
  unfold trimEndNl
  rw [e, List.reverse_reverse]

/-- The parts of a code block whose first line ends at the token `e`. -/
theorem code_inv {S : List Stop} {d : Str} {t e : Token} {l tail : List Token} {b : Block} {D : Doc} {lang code : Str}
    (ht : isBacktick3 t = true) (hl : ∀ u ∈ l, isEolOrTerminator u = false) (he : isEolOrTerminator e = true)
    (h0 : tokenIs (l ++ e :: tail) 0 col0 = false) (hD : (docB S (t :: (l ++ e :: tail))).1 = .block b D)
    (den : b.denote d = .code lang code) :
    textOfToks d l = lang ∧ ∃ body k rest, tail = body ++ k :: rest ∧ trimEndNl (textOfToks d body) = code ∧ isBacktick3 k = true := by
  have hk : t.kind = .Backtick := by
    simp only [isBacktick3, Bool.and_eq_true, decide_eq_true_eq] at ht
    exact ht.1.1
  rcases docB_leaf hD (by simp [tokenIs, isCollapsibleStart, hk]) with g | g | g | g
  · obtain ⟨o, m, e1, e2⟩ := code_open (src := d) (stops := S) ht hl he h0 rfl
    rw [e1, codeRestB] at g
    cases hu : untilB [] isBacktick3 tail with
    | none => rw [hu] at g; simp at g
    | some x =>
      obtain ⟨body, k, rest⟩ := x
      rw [hu] at g
      simp only at g
      cases hc : closeLineB S k rest with
      | none => rw [hc] at g; simp at g
      | some y =>
        rw [hc] at g
        simp only [Option.map_some, Option.some.injEq] at g
        subst g
        simp only [Block.denote, YamdNode.newCode, YamdNode.code.injEq] at den
        refine ⟨by rw [← e2, den.1], body, k, rest, untilB_length hu, ?_, (untilB_ok hu).1⟩
        rw [← den.2, trimEndNl_idem]
  · rw [embedB, if_neg (by simp [isLeftCurly2, hk])] at g; simp at g
  · rw [highlightB, if_neg (by simp [tokenIs, isTwoBangs, hk])] at g; simp at g
  · exfalso
    obtain ⟨g, -, -⟩ := g
    rcases leafB_cases (.Terminator :: S) (t :: (l ++ e :: tail)) with ⟨k, m, p, n, r', rest, h1, h2⟩ | ⟨i, l, r', h1, h2⟩ | h1 | h1 | h1
    · rw [← g, h2] at den; simp [Block.denote] at den
    · rw [← g, h2] at den
      cases l <;> simp [Block.denote] at den
    · rw [thematicB, if_neg (by simp [isDash5, hk])] at h1; simp at h1
    · unfold headingB at h1
      split at h1
      · rw [← g, ← Option.some.inj h1] at den; simp [Block.denote] at den
      · simp at h1
    · rw [← g, h1] at den; simp [Block.denote] at den

theorem first_not_blank {t : Token} {r t1 b : List Token} (hf : Flips (t :: r) (t1 ++ b)) (h1 : Blanks t1) (hk : t.kind ≠ .Terminator) :
    t1 = [] := by
  cases t1 with
  | nil => rfl
  | cons u t1 =>
    exfalso
    cases hf with
    | cons x1 y1 =>
      have huk : u.kind = .Terminator := by simpa [isTerminator] using h1 u (by simp)
      have := flipRel_kind x1 (by rw [huk]; decide)
      rw [this, huk] at hk
      exact hk rfl

theorem codeV_cons {c : Char} (h1 : c ≠ '`') (h2 : c ≠ '\\') (s : Str) : codeV (c :: s) = (false, c) :: codeV s := by
  unfold codeV
  have e : markSet ['\\'] (c :: s) = (false, c) :: markSet ['\\'] s := by
    simp [markSet, h2]
  rw [e]
  cases hm : markSet ['\\'] s with
  | nil => rfl
  | cons y r =>
    cases r with
    | nil => rfl
    | cons z r => rw [mark3_no (by simp [h1])]

/-- Code that is read back is safe. -/
theorem code_exact {lang code : Str} (h : deserialize (displayCode lang code) = .ok ⟨none, [.code lang code]⟩) :
    safeLeaf ⟨false⟩ (.code lang code) = true := by
  have vl : ∀ l, Valid (langV l) := fun l => markSet_valid (by simp) _
  have nl1 : ∀ l, (false, '`') ∉ langV l := fun l => markSet_notFree (by simp) _
  have nl2 : ∀ l, (false, '\n') ∉ langV l := fun l => markSet_notFree (by simp) _
  have v3 : Valid (free ['`', '`', '`']) := valid_free (by decide)
  have hdisp : displayCode lang code =
      render (free ['`', '`', '`'] ++ (langV lang ++ (free ['\n'] ++ (codeV code ++ (free ['\n'] ++ free ['`', '`', '`']))))) := by
    unfold displayCode
    rw [langV_eq, codeV_eq]
    simp only [render_append, render_free_all]
    simp
  have hj1 : Join (free ['`', '`', '`']) (langV lang ++ (free ['\n'] ++ (codeV code ++ (free ['\n'] ++ free ['`', '`', '`'])))) := by
    refine join_after (c := '`') v3 rfl (by decide) (by decide) (by simp) (.inr ?_)
    have := nl1 lang
    cases hh : langV lang with
    | nil => simp [free]
    | cons x r =>
      intro e
      simp only [List.cons_append, List.head?_cons, Option.some.injEq] at e
      rw [hh, e] at this; simp at this
  generalize displayCode lang code = d at h hdisp
  have hs : SpV d true (tokens d) (free ['`', '`', '`'] ++ (langV lang ++ (free ['\n'] ++ (codeV code ++ (free ['\n'] ++ free ['`', '`', '`']))))) := by
    unfold SpV; rw [← hdisp]; exact sp_tokens d
  obtain ⟨t1, bl, t2, D, hf, -, b1, b2, ok, den, hD⟩ := reads_one (fun _ _ => by simp) h
  obtain ⟨ta, r1, ets, s1, hs1⟩ := spv_split v3 hj1 hs
  obtain ⟨t, rfl, st⟩ := spv_one (p := ⟨false, .Backtick, ['`', '`', '`']⟩) rfl s1
  have f1 : ∀ b, flag b (free ['`', '`', '`']) = false := fun _ => rfl
  rw [f1] at hs1
  have ht : isBacktick3 t = true := by simp [isBacktick3, st.kind, st.col, st.len]; rfl
  have hk : t.kind = .Backtick := st.kind
  rw [List.singleton_append] at ets
  have h1 : t1 = [] := by
    rw [ets] at hf
    exact first_not_blank hf b1 (by rw [hk]; decide)
  have hD := hD h1
  rw [ets] at hD
  -- the code does not end with a line feed
  have core : ∀ {l tail : List Token} {e : Token} {lg : Str}, r1 = l ++ e :: tail → SpV d false l (langV lg) → isEolOrTerminator e = true →
      col0 e = flag false (langV lg) → lg = lang ∧
        ∃ body k rest, tail = body ++ k :: rest ∧ trimEndNl (textOfToks d body) = code ∧ isBacktick3 k = true := by
    intro l tail e lg er hl he hc
    rw [er] at hD
    have h0 : tokenIs (l ++ e :: tail) 0 col0 = false := by
      cases l with
      | nil =>
        have : langV lg = [] := by
          by_cases h : langV lg = []
          · exact h
          · exact absurd rfl (spv_ne (vl lg) hl h)
        rw [this] at hc
        exact hc
      | cons u l =>
        obtain ⟨p, v2, -, st, -⟩ := spv_head (vl lg) hl
        exact st.col
    obtain ⟨e1, e2⟩ := code_inv (lang := lang) (code := code) ht (fun u hu => by
      have := spv_nonl (vl lg) (nl2 lg) hl u hu
      simp [isEolOrTerminator, this]) he h0 hD den
    refine ⟨?_, e2⟩
    rw [← e1, spv_text (vl lg) hl, langV, markSet_chars]
  have hlr : lang.getLast? ≠ some '\r' := by
    intro e
    obtain ⟨w, rfl⟩ := List.getLast?_eq_some_iff.1 e
    have ev : langV (w ++ ['\r']) = langV w ++ free ['\r'] := by simp [langV, markSet, free]
    rw [ev, List.append_assoc, ← List.append_assoc (free ['\r'])] at hs1
    obtain ⟨l, r2, er, sl, sr⟩ := spv_split (vl w) (join_crlf (vl w) (nl2 w)) hs1
    obtain ⟨e, tail, w', rfl, he, hc, -, -⟩ := break_first (B := ['\r', '\n']) (.inr rfl) sr
    have := (core er sl he hc).1
    have := congrArg List.length this
    simp at this
  have cl : CleanEnd (langV lang) := by
    refine ⟨notFree_last (nl2 _), fun e => hlr ?_⟩
    have := last_chars e
    rw [langV, markSet_chars] at this
    exact this
  obtain ⟨l, r2, er, sl, sr⟩ := spv_split (vl lang) (join_nl (vl lang) cl) hs1
  obtain ⟨e, tail, w', rfl, he, hc, st', hw⟩ := break_first (B := ['\n']) (.inl rfl) sr
  obtain ⟨-, body, k, rest, rfl, hcode, hk3⟩ := core er sl he hc
  have hnl : code.getLast? ≠ some '\n' := by rw [← hcode]; exact trimEnd_last _
  have hlen := trimEnd_length (textOfToks d body)
  rw [hcode] at hlen
  have vc : Valid (codeV code ++ (free ['\n'] ++ free ['`', '`', '`'])) :=
    (codeV_valid code).append ((valid_free (by decide)).append v3)
  have hst : startsLine (code ++ if code.isEmpty then [] else cs! "\n") = false := by
    rcases hw with ⟨-, hw⟩ | ⟨B', hB', ew⟩
    · -- no second line break
      cases code with
      | nil => rfl
      | cons c code =>
        simp only [List.isEmpty_cons, Bool.false_eq_true, if_false]
        cases hst : startsLine ((c :: code) ++ cs! "\n") with
        | false => rfl
        | true =>
          exfalso
          simp only [startsLine, starts, Bool.or_eq_true, List.isPrefixOf_iff_prefix] at hst
          rcases hst with ⟨x, ex⟩ | ⟨x, ex⟩
          · simp only [List.cons_append, List.nil_append, List.cons.injEq] at ex
            refine hw.1 ?_
            rw [← ex.1, codeV_cons (by decide) (by decide)]
            exact ⟨_, rfl⟩
          · refine hw.2 ?_
            simp only [List.cons_append, List.nil_append, List.cons.injEq] at ex
            rw [← ex.1, codeV_cons (by decide) (by decide)]
            cases code with
            | nil => exact ⟨_, rfl⟩
            | cons c' code =>
              simp only [List.cons_append, List.cons.injEq] at ex
              rw [← ex.2.1, codeV_cons (by decide) (by decide)]
              exact ⟨_, rfl⟩
    · -- a second one: too little is left for the code
      by_cases hc0 : code = []
      · subst hc0; rfl
      · exfalso
        have hv' : Valid w' := by rw [ew] at vc; exact vc.right
        have htx := spv_text hv' st'
        have hk' : textOfToks d [k] = ['`', '`', '`'] := by
          obtain ⟨p, v1, v2, -, hsp, hf, he⟩ := spv_mem hv' st' (t := k) (by simp)
          simp only [isBacktick3, Bool.and_eq_true, decide_eq_true_eq] at hk3
          obtain ⟨-, g2, -⟩ := spt_run hsp hf he (c := '`') (by rw [hk3.1.1]; rfl)
          rw [text_one, g2, hk3.2]; rfl
        have hch := congrArg (List.map Prod.snd) ew
        simp only [List.map_append, codeV_chars, free_chars] at hch
        rw [← htx, show body ++ k :: rest = body ++ ([k] ++ rest) by simp, text_append, text_append, hk'] at hch
        -- `code ++ "\n```" = B' ++ (body ++ ("```" ++ rest))`
        have hl2 := congrArg List.length hch
        simp only [List.length_append, List.length_cons, List.length_nil] at hl2
        rcases hB' with rfl | rfl
        · simp only [List.length_cons, List.length_nil] at hl2
          have hfull : trimEndNl (textOfToks d body) = textOfToks d body := trimEnd_full (by rw [hcode]; omega)
          rw [hcode] at hfull
          have hlast : (textOfToks d body).getLast? = some '\n' := by
            have e1 : code ++ ['\n'] = ['\n'] ++ textOfToks d body := by
              have := congrArg (List.take (code.length + 1)) hch
              rw [← List.append_assoc, ← List.append_assoc, List.take_left' (by simp), List.take_left' (by simp [hfull])] at this
              exact this
            have := congrArg List.getLast? e1
            simp only [List.getLast?_append, List.getLast?_singleton, Option.some_or] at this
            cases hb : (textOfToks d body).getLast? with
            | none =>
              have := List.getLast?_eq_none_iff.1 hb
              rw [← hfull] at this
              exact absurd this hc0
            | some x => rw [hb] at this; simp at this; rw [this]
          rw [← hfull] at hlast
          exact hnl hlast
        · simp only [List.length_cons, List.length_nil] at hl2
          omega
  simp only [safeLeaf, Bool.and_eq_true, Bool.not_eq_true', bne_iff_ne, ne_eq]
  exact ⟨⟨hlr, hst⟩, hnl⟩

end Yamd.Round
