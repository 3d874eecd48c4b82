import Verif.Proofs.Exact.HlText
import Verif.Proofs.Exact.DocCode

/-!
# The lines of a highlight that was read back
-/

namespace Yamd.Round

open Yamd Yamd.Spec Yamd.Lexer Yamd.Ref

/-! ### The blank lines between the paragraphs -/

/-- Every paragraph after the first has a blank line before it. -/
theorem hparas_chain {S ts l c r} (h : hlParasB S ts = some (l, c, r)) : ∀ x ∈ l.tail, x.term ≠ [] := by
  have := hlParasB_ind S (P := fun ts l _ _ => stopAt S ts = false ∧ ts ≠ [] ∧ (∀ x ∈ l.tail, x.term ≠ []) ∧
    (tokenIs ts 0 isTerminator = true → ∀ x ∈ l, x.term ≠ []) ∧ (tokenIs ts 0 isTwoBangs = true → l = [])) ?_ ?_ ?_ ts l c r h
  · exact this.2.2.1
  · intro ts h0 h1 _
    exact ⟨h0, by rintro rfl; simp [tokenIs] at h1, by simp, by simp, by simp⟩
  · intro ts h0 h1 _
    exact ⟨h0, by rintro rfl; simp [tokenIs] at h1, by simp, by simp, by simp⟩
  · intro ts l c r h1 h2 h3 ⟨i0, i1, i2, i3, i4⟩
    have ext := (paraB_extent (.Terminator :: .HighlightEnd :: S) (termB ts).2).1
    have hall : ∀ x ∈ l, x.term ≠ [] := by
      generalize (paraB (.Terminator :: .HighlightEnd :: S) [] (termB ts).2).2 = q at *
      cases q with
      | nil => exact absurd rfl i1
      | cons a q =>
        have i0' : S.any (stopHere a q) = false := i0
        simp only [stopAt, List.any_cons, i0', stopHere, Bool.or_false, Bool.or_eq_true, decide_eq_true_eq] at ext
        rcases ext with e | e
        · exact i3 (by simp [tokenIs, isTerminator, e])
        · rw [i4 e]; simp
    refine ⟨h1, by rintro rfl; simp [stopAt] at h1, by simpa using hall, fun ht x hx => ?_, fun hb => by rw [hb] at h2; simp at h2⟩
    rcases List.mem_cons.1 hx with rfl | hx
    · cases ts with
      | nil => simp [tokenIs] at ht
      | cons t ts => simp only [termB, ht]; simp
    · exact hall x hx

/-! ### A line -/

theorem sp_kind {src : Str} : ∀ {b : Bool} {ts : List Token} {ps : List Piece}, Sp src b ts ps → ∀ p ∈ ps, ∃ t ∈ ts, t.kind = p.kind
  | _, [], [], _, _, hp => by simp at hp
  | _, t :: ts, q :: ps, h, p, hp => by
    rcases List.mem_cons.1 hp with rfl | hp
    · exact ⟨t, by simp, h.1.kind⟩
    · obtain ⟨u, hu, e⟩ := sp_kind h.2 p hp
      exact ⟨u, by simp [hu], e⟩
  | _, [], _ :: _, h, _, _ => by simp [Sp] at h
  | _, _ :: _, [], h, _, _ => by simp [Sp] at h

/-- A line feed that is not escaped is a token of its own kind. -/
theorem spv_nl {src : Str} {b : Bool} {ts : List Token} {v : V} (hv : Valid v) (h : SpV src b ts v) (hm : (false, '\n') ∈ v) :
    ∃ t ∈ ts, isEolOrTerminator t = true := by
  rw [← pieces_view hv] at hm
  obtain ⟨p, hp, hx⟩ := List.mem_flatMap.1 hm
  have hf := pieces_form (render v) p hp
  obtain ⟨t, ht, e⟩ := sp_kind h p hp
  refine ⟨t, ht, ?_⟩
  rcases nl_piece hf.1 hf.2 hx with hk | ⟨hk, -⟩ <;> simp [isEolOrTerminator, e, hk]

theorem lineV_chars (s : Str) : (lineV s).map Prod.snd = s := by rw [lineV, markSet_chars]

theorem lineV_free {s : Str} {c : Char} (hc : c ≠ '\\') (h : c ∈ s) : (false, c) ∈ lineV s := by
  unfold lineV markSet
  refine List.mem_map.2 ⟨c, h, ?_⟩
  simp [hc]

/-- A line that is read back is safe, however it is escaped. -/
theorem line_exact_of {src : Str} {b : Bool} {m0 body R : List Token} {sp e : Token} {A s : Str} {w : V} (hA : '\\' ∉ A) {u : V}
    (hu : Valid u) (huc : u.map Prod.snd = s) (hun : '\n' ∈ s → (false, '\n') ∈ u) (hus : s.head? = some ' ' → u.head? = some (false, ' '))
    (hul : s.getLast? = some '\r' → u.getLast? = some (false, '\r'))
    (hm : (textOfToks src m0).length = A.length) (hsp : isSpace1 sp = true) (hl : Live src (m0 ++ sp :: (body ++ e :: R)))
    (hb : textOfToks src body = s) (hn : ∀ t ∈ body, isEolOrTerminator t = false) (hw : Valid w)
    (hs : SpV src b (m0 ++ sp :: (body ++ e :: R)) (free A ++ (free [' '] ++ (u ++ (free ['\n'] ++ w))))) :
    safeLine s = true ∧ ∃ b', SpV src b' (e :: R) (free ['\n'] ++ w) := by
  have hk : sp.kind = .Space ∧ sp.len = 1 := by simpa [isSpace1] using hsp
  have hsl : sliceD src sp = [' '] := run_slice hl (by simp) (k := .Space) (n := 1) (by simp [hk.1, hk.2]) rfl
  have hvl : Valid (u ++ (free ['\n'] ++ w)) := (hu).append ((valid_free (by decide)).append hw)
  have hv : Valid (free A ++ (free [' '] ++ (u ++ (free ['\n'] ++ w)))) := (valid_free hA).append ((valid_free (by decide)).append hvl)
  obtain ⟨v1, v2, e1, e2, -, -, e4⟩ := spv_at_run (t1 := m0) (t := sp) (t2 := body ++ e :: R) (c := ' ') hv hs (by rw [hk.1]; rfl)
  have l1 : v1.length = A.length := by
    have := congrArg List.length e2
    rwa [List.length_map, hm] at this
  have e3 := (List.append_inj e1 (by simp [free, l1])).2
  rw [hk.2] at e3
  have e5 : u ++ (free ['\n'] ++ w) = v2 := List.append_cancel_left e3
  rw [← e5] at e4
  have hs2 : SpV src b ((m0 ++ [sp]) ++ (body ++ e :: R)) ((free A ++ free [' ']) ++ (u ++ (free ['\n'] ++ w))) := by simpa using hs
  have hv2 : Valid ((free A ++ free [' ']) ++ (u ++ (free ['\n'] ++ w))) := by simpa using hv
  obtain ⟨-, g2, -⟩ := spv_take hv2 hs2 (by rw [text_append, text_one, hsl, List.length_append, hm]; simp [free])
  obtain ⟨k1, k2, k3⟩ := spv_take (v := u) hvl g2 (by rw [hb, ← huc, List.length_map])
  have hnt : NoTerm body := by
    intro t ht hk
    have := hn t ht
    simp [isEolOrTerminator, hk] at this
  have hce := cut_clean (hu) k1 hnt k3
  refine ⟨?_, _, k2⟩
  have c1 : s.contains '\n' = false := by
    cases hc : s.contains '\n' with
    | false => rfl
    | true =>
      exfalso
      obtain ⟨t, ht, hk⟩ := spv_nl (hu) k1 (hun (by simpa using hc))
      rw [hn t ht] at hk
      simp at hk
  have c2 : starts (cs! " ") s = false := by
    cases s with
    | nil => rfl
    | cons c s =>
      cases hc : starts (cs! " ") (c :: s) with
      | false => rfl
      | true =>
        exfalso
        simp only [starts, List.isPrefixOf, Bool.and_eq_true, beq_iff_eq] at hc
        have hc := hc.1
        subst hc
        have := hus rfl
        cases u with
        | nil => simp at this
        | cons x u => exact e4 (by simpa using this)
  have c3 : s.getLast? ≠ some '\r' := by
    intro hc
    exact hce.2 (hul hc)
  simp only [safeLine, c1, c2, Bool.not_false, Bool.true_and, Bool.and_self, bne_iff_ne, ne_eq]
  exact c3

/-- A title or an icon that is read back is safe. -/
theorem line_exact {src : Str} {b : Bool} {m0 body R : List Token} {sp e : Token} {A s : Str} {w : V} (hA : '\\' ∉ A)
    (hm : (textOfToks src m0).length = A.length) (hsp : isSpace1 sp = true) (hl : Live src (m0 ++ sp :: (body ++ e :: R)))
    (hb : textOfToks src body = s) (hn : ∀ t ∈ body, isEolOrTerminator t = false) (hw : Valid w)
    (hs : SpV src b (m0 ++ sp :: (body ++ e :: R)) (free A ++ (free [' '] ++ (lineV s ++ (free ['\n'] ++ w))))) :
    safeLine s = true ∧ ∃ b', SpV src b' (e :: R) (free ['\n'] ++ w) := by
  refine line_exact_of hA (lineV_valid s) (lineV_chars s) (lineV_free (by decide)) (fun h => ?_) (fun h => ?_) hm hsp hl hb hn hw hs
  · cases s with
    | nil => simp at h
    | cons c s => simp only [List.head?_cons, Option.some.injEq] at h; subst h; rfl
  · obtain ⟨q, rfl⟩ := List.getLast?_eq_some_iff.1 h
    simp [lineV, markSet]

/-! ### The start of the first paragraph -/

theorem nodeW_end {n : ParagraphNode} (h : ∀ s, n ≠ .text s) : ∃ c ∈ (nodeW n).map Prod.snd, brk c = false := by
  cases n with
  | text s => exact absurd rfl (h s)
  | italic s => exact ⟨'_', by simp [nodeW, free], rfl⟩
  | strikethrough s => exact ⟨'~', by simp [nodeW, free], rfl⟩
  | emphasis s => exact ⟨'*', by simp [nodeW, free], rfl⟩
  | codeSpan s => exact ⟨'`', by simp [nodeW, free], rfl⟩
  | anchor a => exact ⟨'[', by simp [nodeW, linkV, free], rfl⟩
  | bold l => exact ⟨'*', by simp [nodeW, free], rfl⟩

theorem para_ends {p : Paragraph} (hs : p.all solid = true) (hne : p ≠ []) (h1 : (trailingText p).getLast? ≠ some '\n')
    (h2 : (trailingText p).getLast? ≠ some '\r') : ((paraW p).map Prod.snd).all brk = false := by
  rcases List.eq_nil_or_concat p with rfl | ⟨q, n, rfl⟩
  · exact absurd rfl hne
  · rw [List.concat_eq_append] at *
    rw [paraW_concat, List.map_append, List.all_append, Bool.and_eq_false_iff]
    right
    have key : ∀ c ∈ (nodeW n).map Prod.snd, brk c = false → ((nodeW n).map Prod.snd).all brk = false := by
      intro c hc hb
      cases ha : ((nodeW n).map Prod.snd).all brk with
      | false => rfl
      | true => rw [List.all_eq_true.1 ha c hc] at hb; simp at hb
    rcases Classical.em (∃ s, n = .text s) with ⟨s, rfl⟩ | hn
    · simp only [trailingText, List.getLast?_concat] at h1 h2
      rw [List.all_append, Bool.and_eq_true] at hs
      have hs2 := hs.2
      simp only [List.all_cons, List.all_nil, Bool.and_true, solid, Bool.not_eq_true', List.isEmpty_eq_false_iff] at hs2
      obtain ⟨c, hc⟩ : ∃ c, s.getLast? = some c := by
        cases hx : s.getLast? with
        | none => exact absurd (List.getLast?_eq_none_iff.1 hx) hs2
        | some c => exact ⟨c, rfl⟩
      refine key c (by rw [nodeW, textV_chars]; exact List.mem_of_getLast? hc) ?_
      rw [hc] at h1 h2
      simp only [Option.some.injEq, ne_eq] at h1 h2
      simp [brk, h1, h2]
    · obtain ⟨c, hc, hb⟩ := nodeW_end (n := n) (fun s e => hn ⟨s, e⟩)
      exact key c hc hb

/-- The first paragraph starts after one line feed. -/
theorem start_exact {src : Str} {b : Bool} {e : Token} {h : HPara} {R : List Token} {p : Paragraph} {v w : V}
    (ok : h.Ok) (hl : Live src (h.term ++ (paraToks h.para ++ R)))
    (hd : ToYamd.trimTrailingNewline (paraDenote src h.para) = p) (hv : HV p v) (hp : plainH p = true) (hw : Valid w)
    (hs : SpV src b (e :: (h.term ++ (paraToks h.para ++ R))) (free ['\n'] ++ (v ++ w))) :
    h.term = [] ∧ SpV src true (paraToks h.para ++ R) (v ++ w) ∧ CleanStart (v ++ w) := by
  have hll : Live src (paraToks h.para) := hl.right.left
  obtain ⟨s1, s2⟩ := para_solid ok.2 hll
  obtain ⟨t1, t2, t3, n, t4⟩ := trim_solid s1 s2
  rw [hd] at t1 t2 t3 t4
  have htext := para_text ok.2.1 hll
  rw [t4] at htext
  simp only [plainH, Bool.and_eq_true, bne_iff_ne, ne_eq, Bool.not_eq_true', List.isEmpty_eq_false_iff] at hp
  have hbrk := para_ends t1 hp.1.1 t3 hp.2
  have hvw : Valid (v ++ w) := hv.valid.append hw
  have ht : (textOfToks src h.term).all brk = true ∧ (textOfToks src h.term = [] → h.term = []) := by
    rcases ok.1 with e | ⟨t, e, ht⟩
    · rw [e]; exact ⟨rfl, fun _ => rfl⟩
    · rw [e] at hl ⊢
      obtain ⟨k1, k2⟩ := term_text hl.left ht
      rw [text_one]
      exact ⟨k1, fun e => by rw [e] at k2; simp at k2⟩
  have hR : lead (textOfToks src (h.term ++ (paraToks h.para ++ R))) = (textOfToks src h.term).length + lead ((paraW p).map Prod.snd) := by
    rw [text_append, lead_all ht.1, text_append, htext, List.append_assoc, lead_some hbrk]
  have hV : lead ((v ++ w).map Prod.snd) = lead ((paraW p).map Prod.snd) := by
    rw [List.map_append, hv.chars, lead_some hbrk]
  obtain ⟨e', tail, w', e1, he, hc, st, hor⟩ := break_first (B := ['\n']) (.inl rfl) hs
  obtain ⟨rfl, rfl⟩ := List.cons.inj e1
  rcases hor with ⟨rfl, hcs⟩ | ⟨B', hB, ew⟩
  · have := spv_text hvw st
    rw [this, hV] at hR
    have h0 : h.term = [] := ht.2 (List.length_eq_zero_iff.1 (by omega))
    rw [h0, List.nil_append] at st
    exact ⟨h0, st, hcs⟩
  · exfalso
    have hv' : Valid w' := by rw [ew] at hvw; exact hvw.right
    have := spv_text hv' st
    rw [this] at hR
    rw [ew, List.map_append, free_chars, lead_all (by rcases hB with rfl | rfl <;> rfl), hR] at hV
    have : 0 < B'.length := by rcases hB with rfl | rfl <;> simp
    omega

/-- A text that starts with a line break is shown so. -/
theorem text_starts {p : Paragraph} {v w : V} (hv : HV p v) (hp : plainH p = true) (hc : CleanStart (v ++ w)) : startsLine (leadingText p) = false := by
  cases hst : startsLine (leadingText p) with
  | false => rfl
  | true =>
    exfalso
    cases p with
    | nil => simp [leadingText, startsLine, starts] at hst
    | cons n p =>
      cases n with
      | text s =>
        simp only [plainH, List.all_cons, noBlankText, Bool.and_eq_true, Bool.not_eq_true'] at hp
        have hb := hp.1.2.1
        have hnl : ∀ c, c = '\n' ∨ c = '\r' → (true, c) ∉ textV s := by
          intro c hc hm
          have h' : ¬ ['\n', '\n'] <:+: (markSet ['{', '[', '`', '~', '_', '*', '\\'] s).map Prod.snd := by
            rw [markSet_chars]; simpa [occurs] using hb
          rw [textV, mark2_none (a := '\n') h'] at hm
          exact markSet_notEsc (by rcases hc with rfl | rfl <;> decide) s
            (mark2_mem hm (by rcases hc with rfl | rfl <;> decide) (by rcases hc with rfl | rfl <;> decide))
        have key : ∀ {pat : Str}, pat ≠ [] → (∀ c ∈ pat, c = '\n' ∨ c = '\r') → pat <+: s → free pat <+: v ++ w := by
          rintro pat hne hpat ⟨y, ey⟩
          obtain ⟨Y, eY, -⟩ := chars_free (P := pat) (y := y) (v := textV s) (by rw [textV_chars, ey]) (fun c hc => hnl c (hpat c hc))
          have := hv.start hne hpat (by
            rw [paraW, List.flatMap_cons, nodeW, eY, List.append_assoc]; exact ⟨_, rfl⟩)
          exact this.trans ⟨w, rfl⟩
        simp only [leadingText, startsLine, starts, Bool.or_eq_true, List.isPrefixOf_iff_prefix] at hst
        rcases hst with h | h
        · exact hc.1 (key (by simp) (by decide) h)
        · exact hc.2 (key (by simp) (by decide) h)
      | _ => simp [leadingText, startsLine, starts] at hst

end Yamd.Round
