import Verif.Proofs.Exact.HlLines
import Verif.Proofs.Exact.DocList

/-!
# A highlight that is read back is safe
-/

namespace Yamd.Round

open Yamd Yamd.Spec Yamd.Lexer Yamd.Ref

/-- A highlight was read as one. -/
theorem docB_highlight {S} {t : Token} {r : List Token} {o m i hs c} {D : Doc} (h : (docB S (t :: r)).1 = .block (.highlight o m i hs c) D)
    (hc : isCollapsibleStart t = false) (h2 : isBacktick3 t = false) : ∃ rest, highlightB S (t :: r) = some (.highlight o m i hs c, rest) := by
  rcases docB_leaf h hc with g | g | g | g
  · exfalso
    rw [codeB, if_neg (by simp [h2])] at g; simp at g
  · exfalso
    unfold embedB at g
    repeat' split at g
    all_goals simp at g
  · cases hh : highlightB S (t :: r) with
    | none => rw [hh] at g; simp at g
    | some x =>
      rw [hh] at g
      simp only [Option.map_some, Option.some.injEq] at g
      exact ⟨x.2, by rw [← g]⟩
  · exfalso
    have hleaf := g.1
    rcases leafB_cases (.Terminator :: S) (t :: r) with ⟨k', m, p, n, r, rest, e1, e2⟩ | ⟨i, l, r, e1, e2⟩ | e | e | e
    · rw [e2] at hleaf; simp at hleaf
    · rw [e2] at hleaf; simp at hleaf
    · rw [thematicB] at e
      split at e
      · have := Option.some.inj e
        rw [← this] at hleaf; simp at hleaf
      · simp at e
    · unfold headingB at e
      split at e
      · have := Option.some.inj e
        rw [← this] at hleaf; simp at hleaf
      · simp at e
    · rw [e] at hleaf; simp at hleaf

/-- What the parser guarantees about the parts of a highlight. -/
theorem highlightB_parts {S ts o m i hs c rest} (h : highlightB S ts = some (.highlight o m i hs c, rest)) :
    (tokenIs ts 1 isEol = true → m = none) ∧ (∀ x, i = some x → x.OneLine) ∧ ∀ x ∈ hs.tail, x.term ≠ [] := by
  have key : ∀ {o' m' r}, hlRestB S o' m' r = some (.highlight o m i hs c, rest) →
      m = m' ∧ (∀ x, i = some x → x.OneLine) ∧ ∀ x ∈ hs.tail, x.term ≠ [] := by
    intro o' m' r h
    unfold hlRestB at h
    simp only at h
    split at h
    · cases hp : hlParasB S (optIconB (.Terminator :: S) r).2 with
      | none => rw [hp] at h; simp at h
      | some y =>
        rw [hp] at h
        simp only [Option.map_some, Option.some.injEq, Prod.mk.injEq, Block.highlight.injEq] at h
        obtain ⟨⟨-, rfl, rfl, rfl, rfl⟩, rfl⟩ := h
        exact ⟨rfl, fun x hx => optIconB_lay hx (by simp), hparas_chain hp⟩
    · simp at h
  unfold highlightB at h
  split at h
  · split at h
    · have := key h
      exact ⟨fun _ => this.1, this.2⟩
    · rename_i hne
      have := key h
      exact ⟨fun e => absurd e hne, this.2⟩
  · simp at h

/-- The paragraphs, after the line feed that ends the title or the icon. -/
theorem body_exact {f : Bool} {src : Str} {b : Bool} {e c : Token} {hs : List HPara} {rest : List Token} {ps : List Paragraph} {vs : List V} {X : V}
    (hc : isTwoBangs c = true) (hX : Valid X) (hv : HVs ps vs) (hne : ps ≠ [])
    (hd : hs.map (fun h => ToYamd.trimTrailingNewline (paraDenote src h.para)) = ps)
    (ok : ∀ x ∈ hs, x.Ok) (ht : ∀ x ∈ hs.tail, x.term ≠ []) (hl : Live src (hs.flatMap HPara.toks ++ c :: rest)) (hp : ps.all plainH = true)
    (hend : f = true → ∀ x ∈ hs, NoEnd (paraToks x.para))
    (hs' : SpV src b (e :: (hs.flatMap HPara.toks ++ c :: rest)) (free ['\n'] ++ (hlTail vs ++ X))) :
    ps.all (safeHighlightParagraph ⟨f⟩) = true ∧ startsLine (leadingText (ps.head?.getD [])) = false := by
  cases hv with
  | nil => exact absurd rfl hne
  | cons hv hvs =>
    rename_i p ps v vs
    cases hs with
    | nil => simp at hd
    | cons h hs =>
      obtain ⟨Y, hY⟩ := hlTail_cons v vs
      have hval : Valid (hlTail (v :: vs) ++ X) :=
        (((HVs.cons hv hvs).valid.append (valid_free (by decide))).append (valid_free (by decide))).append hX
      have hd1 := (List.cons.inj hd).1
      have hp1 : plainH p = true := by
        simp only [List.all_cons, Bool.and_eq_true] at hp
        exact hp.1
      have eT : (h :: hs).flatMap HPara.toks ++ c :: rest = h.term ++ (paraToks h.para ++ (hs.flatMap HPara.toks ++ c :: rest)) := by
        simp [HPara.toks]
      have eV : hlTail (v :: vs) ++ X = v ++ ((false, '\n') :: Y ++ X) := by rw [hY]; simp
      rw [eT] at hl hs'
      have hs'' := hs'
      rw [eV] at hs'' hval
      obtain ⟨s1, s2, s3⟩ := start_exact (ok h (by simp)) hl hd1 hv hp1 hval.right hs''
      rw [← eV] at s2
      refine ⟨hparas_exact hc hX (.cons hv hvs) hd ok ht hend hl.right s2 hp, ?_⟩
      exact text_starts hv hp1 s3

/-- A plain highlight that is read back is safe. -/
theorem first_highlight {k : Bool} {S} {d : Str} {title icon : Option Str} {ps : List Paragraph} {b t1 t2 v X} (hn : isPlain (.highlight title icon ps) = true)
    (h : First k S d (.highlight title icon ps) b t1 t2 v X) : safeBlock k (.highlight title icon ps) = true := by
  have den := h.den
  obtain ⟨o, m, i, hs, c, rfl, hm, hi, hps⟩ : ∃ o m i hs c, b = .highlight o m i hs c ∧ modDenote d m = title ∧ iconDenote d i = icon ∧
      hs.map (fun h => ToYamd.trimTrailingNewline (paraDenote d h.para)) = ps := by
    cases b with
    | highlight o m i hs c =>
      simp only [Block.denote, YamdNode.highlight.injEq] at den
      exact ⟨o, m, i, hs, c, rfl, den⟩
    | images l =>
      match l with
      | [] => simp [Block.denote] at den
      | [i] => simp [Block.denote] at den
      | i :: j :: l => simp [Block.denote] at den
    | _ => simp [Block.denote, YamdNode.newCode] at den
  obtain ⟨⟨o1, o2, rfl, ho1, ho2⟩, okm, oki, okp, okc⟩ := h.ok
  simp only [isPlain, plainHighlight, Bool.and_eq_true, Bool.not_eq_true', List.isEmpty_eq_false_iff] at hn
  obtain ⟨⟨hne, hpl⟩, hlead⟩ := hn
  have hpl : ps.all plainH = true := hpl
  have hlive := h.live
  obtain ⟨vs, hvs⟩ := hvs_of (ps := ps) (by
    rw [← hps]
    exact hparas_solid okp (hlive.infix ⟨[o1, o2] ++ (modToks m ++ iconToks i), c, by simp [Block.toks]⟩))
  have hshow := h.shown
  rw [show dispB (.highlight title icon ps) = displayHighlight title icon ps from rfl, hlV_eq hvs.shown] at hshow
  have ev := render_inj hvs.all h.valid.left hshow
  have hsp := h.spells
  have hvv := h.valid
  have hall := h.all
  obtain ⟨D, hD⟩ := h.read
  have hend : k = true → ∀ x ∈ hs, NoEnd (paraToks x.para) := by
    intro hk x hx t ht
    refine docB_noEnd (h.place.stop hk) hD rfl t ?_
    simp only [Block.toks, List.mem_append, List.mem_flatMap]
    exact .inr (.inr (.inr (.inl ⟨x, hx, by simp [HPara.toks, ht]⟩)))
  generalize t1 ++ t2 = ts at hsp hD hall
  rw [← ev] at hsp hvv
  have hX : Valid X := hvv.right
  cases ts with
  | nil =>
    have := spv_text hvv hsp
    simp [textOfToks, hlV, free] at this
  | cons t ts =>
    have htext := spv_text hvv hsp
    rw [hlV, text_cons] at htext
    have hc0 : isCollapsibleStart t = false := by
      cases hk : isCollapsibleStart t with
      | false => rfl
      | true =>
        have e : sliceD d t = ['{', '%'] := fixed_slice hall (by simp) (k := .CollapsibleStart) (by simp [isCollapsibleStart] at hk; exact hk.1) rfl
        rw [e] at htext
        simp [free] at htext
    have hc2 : isBacktick3 t = false := by
      cases hk : isBacktick3 t with
      | false => rfl
      | true =>
        have e : sliceD d t = ['`', '`', '`'] := run_slice hall (by simp) (k := .Backtick) (n := 3) (by simp [isBacktick3] at hk; simp [hk.1.1, hk.2]) rfl
        rw [e] at htext
        simp [free] at htext
    obtain ⟨rest, hB⟩ := docB_highlight hD hc0 hc2
    obtain ⟨p1, p2, p3⟩ := highlightB_parts hB
    have htoks := highlightB_toks hB
    rw [htoks] at hsp hall p1
    obtain ⟨c1, cr, rfl, hc1⟩ : ∃ c1 cr, c = c1 :: cr ∧ isTwoBangs c1 = true := by
      rcases okc with ⟨x, rfl, hx⟩ | ⟨x, y, rfl, hx, -⟩
      · exact ⟨x, [], rfl, hx⟩
      · exact ⟨x, [y], rfl, hx⟩
    have eT : (Block.highlight [o1, o2] m i hs (c1 :: cr)).toks ++ rest =
        [o1] ++ o2 :: (modToks m ++ (iconToks i ++ (hs.flatMap HPara.toks ++ c1 :: (cr ++ rest)))) := by simp [Block.toks]
    have hsl : sliceD d o1 = ['!', '!'] := by
      have hk : (o1.kind = .Bang ∧ col0 o1 = true) ∧ o1.len = 2 := by simpa [isTwoBangs] using ho1
      exact run_slice hall (by rw [eT]; simp) (k := .Bang) (n := 2) (by simp [hk.1.1, hk.2]) rfl
    rw [eT] at hsp hall p1
    have eV : hlV title icon vs ++ X = free ['!', '!'] ++ (titleV title ++ (free ['\n'] ++ (iconV icon ++ (hlTail vs ++ X)))) := by
      simp [hlV]
    rw [eV] at hsp hvv
    generalize hR : iconToks i ++ (hs.flatMap HPara.toks ++ c1 :: (cr ++ rest)) = R at *
    have hw : Valid (iconV icon ++ (hlTail vs ++ X)) := (iconV_valid _).append
      (((hvs.valid.append (valid_free (by decide))).append (valid_free (by decide))).append hX)
    -- the title
    have step1 : (match title with | none => true | some t => safeLine t) = true ∧
        ∃ b' e, SpV d b' (e :: R) (free ['\n'] ++ (iconV icon ++ (hlTail vs ++ X))) := by
      cases m with
      | none =>
        have : title = none := by rw [← hm]; rfl
        subst this
        refine ⟨rfl, ?_⟩
        obtain ⟨-, g2, -⟩ := spv_take (v := free ['!', '!']) hvv hsp (by rw [text_one, hsl]; rfl)
        exact ⟨_, o2, g2⟩
      | some m =>
        have : title = some (textOfToks d m.body) := by rw [← hm]; rfl
        subst this
        have hs1 : isSpace1 o2 = true := by
          cases he : isEol o2 with
          | true => have := p1 (by simp [tokenIs, he]); simp at this
          | false => simpa [he] using ho2
        obtain ⟨g1, b', g2⟩ := line_exact (m0 := [o1]) (body := m.body) (sp := o2) (e := m.eol) (R := R) (A := ['!', '!'])
          (s := textOfToks d m.body) (w := iconV icon ++ (hlTail vs ++ X)) (by decide) (by rw [text_one, hsl]) hs1
          (by simpa [modToks] using hall) rfl okm.2 hw (by simpa [modToks, titleV] using hsp)
        exact ⟨g1, b', m.eol, g2⟩
    obtain ⟨s1, b', e, g⟩ := step1
    have hallR : Live d R := by
      have : [o1] ++ o2 :: (modToks m ++ R) = ([o1, o2] ++ modToks m) ++ R := by simp
      rw [this] at hall
      exact hall.right
    -- the icon
    have step2 : (match icon with | some i => safeLine i | none => !starts (cs! "! ") (leadingText (ps.head?.getD []))) = true ∧
        ∃ b'' e', SpV d b'' (e' :: (hs.flatMap HPara.toks ++ c1 :: (cr ++ rest))) (free ['\n'] ++ (hlTail vs ++ X)) := by
      cases i with
      | none =>
        have : icon = none := by rw [← hi]; rfl
        subst this
        refine ⟨by simpa using hlead, b', e, ?_⟩
        rw [← hR] at g
        simpa [iconToks, iconV] using g
      | some i =>
        have : icon = some (textOfToks d i.body) := by rw [← hi]; rfl
        subst this
        obtain ⟨⟨i1, i2, hmk, hi1, hi2⟩, -, -⟩ := oki
        obtain ⟨e', tail, w', q1, -, -, st, hor⟩ := break_first (B := ['\n']) (.inl rfl) g
        obtain ⟨rfl, rfl⟩ := List.cons.inj q1
        have hww : w' = iconV (some (textOfToks d i.body)) ++ (hlTail vs ++ X) := by
          rcases hor with ⟨e, -⟩ | ⟨B', hB', e⟩
          · exact e
          · exfalso
            rcases hB' with rfl | rfl <;> simp [iconV, free] at e
        rw [hww] at st
        have eR : R = [i1] ++ i2 :: (i.body ++ i.eol :: (hs.flatMap HPara.toks ++ c1 :: (cr ++ rest))) := by
          rw [← hR]; simp [iconToks, hmk]
        have hsl1 : sliceD d i1 = ['!'] := by
          have hk : (i1.kind = .Bang ∧ i1.len = 1) := by simp [isOneBang] at hi1; exact ⟨hi1.1.1, hi1.2⟩
          exact run_slice hallR (by rw [eR]; simp) (k := .Bang) (n := 1) (by simp [hk.1, hk.2]) rfl
        rw [eR] at st hallR
        obtain ⟨g1, b'', g2⟩ := line_exact (m0 := [i1]) (body := i.body) (sp := i2) (e := i.eol) (A := ['!'])
          (s := textOfToks d i.body) (w := hlTail vs ++ X) (by decide) (by rw [text_one, hsl1]) hi2
          hallR rfl (p2 i rfl) hw.right (by simpa [iconV] using st)
        exact ⟨g1, b'', i.eol, g2⟩
    obtain ⟨s2, b'', e', g'⟩ := step2
    obtain ⟨s3, s4⟩ := body_exact hc1 hX hvs hne hps okp p3 (by rw [← hR] at hallR; exact hallR.right) hpl hend g'
    have hpe : ps.isEmpty = false := by simpa using hne
    simp only [safeBlock, safeLeaf, hpe, Bool.not_false, Bool.and_true, s3, s4]
    cases title <;> cases icon <;> simp_all only [Bool.and_self]

end Yamd.Round
