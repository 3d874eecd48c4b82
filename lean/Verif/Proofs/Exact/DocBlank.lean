import Verif.Proofs.Exact.CollLines
import Verif.Proofs.Exact.DocPara
import Verif.Proofs.BlockLeft

/-!
# A document of blank paragraphs before the end of a collapsible
-/

namespace Yamd.Round

open Yamd Yamd.Spec Yamd.Lexer Yamd.Ref

/-- Whether the last part of the document is a blank line. -/
def lastTerm : Doc → Bool
  | .nil => false
  | .term _ .nil => true
  | .term _ D => lastTerm D
  | .block _ D => lastTerm D
  | .coll _ _ _ _ _ D => lastTerm D

/-- Paragraphs and blank lines only. -/
def OnlyParas : Doc → Prop
  | .nil => True
  | .term _ D => OnlyParas D
  | .block b D => (∃ l, b = .para l) ∧ OnlyParas D
  | .coll _ _ _ _ _ _ => False

theorem lastTerm_term {t : Token} {D : Doc} (h : D ≠ .nil) : lastTerm (.term t D) = lastTerm D := by
  cases D with
  | nil => exact absurd rfl h
  | _ => rfl

/-- A text read as blank paragraphs: it is as long as they are shown, and longer by two for a blank line before or after them. -/
theorem blank_doc {src : Str} {rest : List Token} : ∀ {D : Doc} {vs : List V}, D.Ok → D.Lay rest → Live src D.toks →
    (D.denote src).all isPlain = true → Shown (D.denote src) vs → ((joinV vs).map Prod.snd).all brk = true →
    OnlyParas D ∧ (textOfToks src D.toks).all brk = true ∧
      (joinV vs).length + (if isTerm D then 2 else 0) + (if lastTerm D = true ∧ vs ≠ [] then 2 else 0) ≤ (textOfToks src D.toks).length
  | .nil, vs, _, _, _, _, hs, _ => by
    have : vs = [] := by
      have := hs.1
      simpa [Doc.denote] using this
    subst this
    simp [joinV, isTerm, OnlyParas, lastTerm, Doc.toks, textOfToks]
  | .term t D, vs, ok, lay, live, hsim, hs, hb => by
    obtain ⟨i1, i2, i3⟩ := blank_doc (vs := vs) ok.2 lay (live.infix ⟨[t], [], by simp [Doc.toks]⟩ : Live src D.toks) hsim hs hb
    obtain ⟨h1, h2⟩ := term_text (live.infix ⟨[], D.toks, by simp [Doc.toks]⟩ : Live src [t]) ok.1
    refine ⟨i1, ?_, ?_⟩
    · rw [Doc.toks, text_cons, List.all_append, h1, i2]; rfl
    · rw [Doc.toks, text_cons, List.length_append]
      simp only [isTerm, if_true]
      cases D with
      | nil =>
        have : vs = [] := by
          have := hs.1
          simpa [Doc.denote] using this
        subst this
        simp [joinV]
        omega
      | _ =>
        rw [lastTerm_term (by simp)]
        omega
  | .block b D, vs, ok, lay, live, hsim, hs, hb => by
    have lb : Live src b.toks := live.infix ⟨[], D.toks, by simp [Doc.toks]⟩
    have lD : Live src D.toks := live.infix ⟨b.toks, [], by simp [Doc.toks]⟩
    simp only [Doc.denote, List.all_cons, Bool.and_eq_true] at hsim
    obtain ⟨v, hv1, hv2, hv3⟩ := block_shown ok.1 lb hsim.1
    obtain ⟨hs1, hs2⟩ := hs
    cases vs with
    | nil => simp [Doc.denote] at hs1
    | cons v' vs =>
      simp only [Doc.denote, List.map_cons, List.cons.injEq] at hs1
      have ev : v' = v := render_inj (hs2 v' (by simp)) hv2 (by rw [← hs1.1, hv1])
      subst ev
      have hsD : Shown (D.denote src) vs := ⟨hs1.2, fun w hw => hs2 w (by simp [hw])⟩
      rw [joinV_cons, List.map_append, List.all_append, Bool.and_eq_true] at hb
      obtain ⟨hb1, hb2⟩ := hb
      have hbD : ((joinV vs).map Prod.snd).all brk = true := by
        by_cases hvs : vs = []
        · subst hvs; rfl
        · rw [if_neg hvs, List.map_append, List.all_append, Bool.and_eq_true] at hb2
          exact hb2.2
      obtain ⟨i1, i2, i3⟩ := blank_doc (vs := vs) ok.2 lay.2.2 lD hsim.2 hsD hbD
      rcases hv3 with ⟨⟨l, rfl⟩, ht⟩ | ⟨c, r, rfl, hc⟩
      · refine ⟨⟨⟨l, rfl⟩, i1⟩, ?_, ?_⟩
        · rw [Doc.toks, text_append, List.all_append, ht, hb1, i2]; rfl
        · rw [Doc.toks, text_append, List.length_append, ht, List.length_map, joinV_cons, List.length_append]
          simp only [isTerm, lastTerm, Bool.false_eq_true, if_false]
          by_cases hvs : vs = []
          · rw [if_pos hvs]
            subst hvs
            have hD : lastTerm D = true → isTerm D = true := by
              intro h
              cases D with
              | nil => simp [lastTerm] at h
              | term t D => rfl
              | block b D => have := hsD.1; simp [Doc.denote] at this
              | coll o m i s c D => have := hsD.1; simp [Doc.denote] at this
            by_cases hlt : lastTerm D = true
            · rw [if_pos (hD hlt)] at i3
              simp only [hlt, List.length_nil, ne_eq, not_false_eq_true, and_self, if_true, reduceCtorEq]
              omega
            · simp only [hlt, Bool.false_eq_true, false_and, if_false, List.length_nil]
              omega
          · rw [if_neg hvs]
            have hD : isTerm D = true := by
              have hnext := lay.2.1
              cases D with
              | nil =>
                have := hsD.1
                simp [Doc.denote] at this
                exact absurd this hvs
              | term t D => rfl
              | block b' D => have := hnext.1; simp [Block.isText] at this
              | coll _ _ _ _ _ D => have := hnext.1; simp [Block.isText] at this
            rw [hD, if_pos rfl] at i3
            simp only [ne_eq, hvs, not_false_eq_true, and_true, reduceCtorEq] at i3 ⊢
            simp only [List.length_append, free, List.length_map, List.length_cons, List.length_nil]
            omega
      · simp [hc] at hb1
  | .coll o m i s c D, vs, ok, lay, live, hsim, hs, hb => by
    exfalso
    obtain ⟨hs1, hs2⟩ := hs
    cases vs with
    | nil => simp [Doc.denote] at hs1
    | cons v' vs =>
      simp only [Doc.denote, List.map_cons, List.cons.injEq] at hs1
      obtain ⟨q, he⟩ := coll_brace ((modDenote src m).getD []) (Doc.denote src i)
      rw [hs1.1] at he
      obtain ⟨r, rfl⟩ := head_free (by decide) he
      rw [joinV_cons] at hb
      simp only [List.cons_append, List.map_cons, List.all_cons, Bool.and_eq_true] at hb
      exact absurd hb.1 (by decide)

theorem other_para {S : List Stop} {ts : List Token} {l : List Inl} (h : (otherB S ts).1 = .para l) :
    otherB S ts = (.para (paraB (.Terminator :: S) [] ts).1, (paraB (.Terminator :: S) [] ts).2) := by
  rcases otherB_cases S ts with h' | h' | h'
  · exfalso
    obtain ⟨o, a, p, x, c, e⟩ := embedB_shape (b := (otherB S ts).1) (r := (otherB S ts).2) h'
    rw [e] at h; simp at h
  · exfalso
    have key : ∀ {o m r x}, hlRestB S o m r = some x → x.1 ≠ .para l := by
      intro o m r x hx
      unfold hlRestB at hx
      simp only at hx
      split at hx
      · simp only [Option.map_eq_some_iff] at hx
        obtain ⟨y, -, h2⟩ := hx
        rw [← h2]; simp
      · cases hx
    unfold highlightB at h'
    split at h'
    · split at h'
      all_goals exact key h' h
    · cases h'
  · have hl : leafB (.Terminator :: S) ts = (.para l, (otherB S ts).2) := by rw [← h', ← h]
    have := (Yamd.Ref.leafB_para hl).2.2.2.2
    rw [← this, h', hl]

/-- A document of paragraphs and blank lines that does not end with a blank line: its last token is one at which the last paragraph
goes on. -/
theorem last_para (S : List Stop) (ts : List Token) : OnlyParas (docB S ts).1 → lastTerm (docB S ts).1 = false →
    (docB S ts).1 = .nil ∨ ∃ a e, (docB S ts).1.toks = a ++ [e] ∧ stopAt (.Terminator :: S) (e :: (docB S ts).2) = false := by
  have step : ∀ {s : List Stop} {x : List Token}, stopAt (.Terminator :: s) x = false →
      (OnlyParas (docB s (otherB s x).2).1 → lastTerm (docB s (otherB s x).2).1 = false →
        (docB s (otherB s x).2).1 = .nil ∨ ∃ a e, (docB s (otherB s x).2).1.toks = a ++ [e] ∧
          stopAt (.Terminator :: s) (e :: (docB s (otherB s x).2).2) = false) →
      OnlyParas (.block (otherB s x).1 (docB s (otherB s x).2).1) → lastTerm (docB s (otherB s x).2).1 = false →
      ∃ a e, (Doc.block (otherB s x).1 (docB s (otherB s x).2).1).toks = a ++ [e] ∧
        stopAt (.Terminator :: s) (e :: (docB s (otherB s x).2).2) = false := by
    intro s x hst ih ho hlt
    obtain ⟨⟨l, hl⟩, ho⟩ := ho
    rcases ih ho hlt with hn | ⟨a, e, h1, h2⟩
    · have hrest : (docB s (otherB s x).2).2 = (otherB s x).2 := by
        cases hs : stopAt s (otherB s x).2 with
        | true => rw [docB_stop hs]
        | false =>
          exfalso
          cases docB_step hs with
          | term t r _ ht e => rw [e] at hn; simp at hn
          | code t r _ ht b' rest hc' e => rw [e] at hn; simp at hn
          | coll t r _ ht o' m' r1 c r4 _ ho _ e => rw [e] at hn; simp at hn
          | fallback t r _ ht o m r1 _ ho _ e => rw [e] at hn; simp at hn
          | other t r _ ht _ _ e => rw [e] at hn; simp at hn
      have eo := other_para hl
      have hlt := otherB_lt hst
      have htk := otherB_toks s x
      have hun := paraB_un (stops := .Terminator :: s) [] x trivial
      have e2 : (otherB s x).1.toks = paraToks (paraB (.Terminator :: s) [] x).1 := by rw [eo]; rfl
      have e3 : (otherB s x).2 = (paraB (.Terminator :: s) [] x).2 := by rw [eo]
      rw [← e2, ← e3] at hun
      rcases List.eq_nil_or_concat (otherB s x).1.toks with h0 | ⟨a, e, h0⟩
      · rw [h0] at htk
        have := congrArg List.length htk
        simp at this
        omega
      · rw [List.concat_eq_append] at h0
        refine ⟨a, e, ?_, ?_⟩
        · rw [Doc.toks, hn, h0]; simp [Doc.toks]
        · rw [h0] at hun
          rw [hrest]
          exact hun.right.1
    · exact ⟨(otherB s x).1.toks ++ a, e, by rw [Doc.toks, h1]; simp, h2⟩
  induction S, ts using docB_ind with
  | stop s ts h e => intro _ _; rw [e]; exact .inl rfl
  | term s t r hs ht e ih =>
    intro ho hlt
    rw [e] at ho hlt ⊢
    right
    by_cases hn : (docB s r).1 = .nil
    · rw [hn] at hlt; simp [lastTerm] at hlt
    · rw [lastTerm_term hn] at hlt
      rcases ih ho hlt with h | ⟨a, e', h1, h2⟩
      · exact absurd h hn
      · exact ⟨t :: a, e', by simp [Doc.toks, h1], h2⟩
  | code s t r b rest hs ht hcode e ih =>
    intro ho _
    exfalso
    rw [e] at ho
    obtain ⟨⟨l, hl⟩, -⟩ := ho
    obtain ⟨o, m, x, y, e2⟩ := codeB_shape hcode
    rw [hl] at e2; simp at e2
  | coll s t r o m r1 c r4 hs ht hcode ho hcl e ih1 ih2 =>
    intro ho _
    rw [e] at ho
    exact ho.elim
  | fallback s t r o m r1 x hs ht hcode ho hcl hx hlen hst e ih1 ih2 =>
    intro ho hlt
    rw [e] at ho hlt ⊢
    exact .inr (step hst ih2 ho hlt)
  | other s t r hs ht hcode ho hst e ih =>
    intro ho hlt
    rw [e] at ho hlt ⊢
    exact .inr (step hst ih ho hlt)

/-- A token whose text ends with an unescaped line feed. -/
theorem last_nl {src : Str} {b : Bool} {l : List Token} {e : Token} {v : V} (hv : Valid (v ++ free ['\n']))
    (h : SpV src b (l ++ [e]) (v ++ free ['\n'])) : e.kind = .Eol ∨ e.kind = .Terminator := by
  obtain ⟨v1, v2, ev, -, h2, -⟩ := spv_cut hv h
  have hv2 : Valid v2 := by rw [ev] at hv; exact hv.right
  obtain ⟨p, v3, e2, hs, hf, he⟩ := spv_head hv2 h2
  have ht := spv_text hv2 h2
  rw [text_one, hs.text, e2, List.map_append, pview_chars] at ht
  have h3 : v3 = [] := by
    have := congrArg List.length ht
    simpa using this
  rw [h3, List.append_nil] at e2
  have hlast : (pview p).getLast? = some (false, '\n') := by
    have h5 : (v1 ++ v2).getLast? = some (false, '\n') := by rw [← ev]; simp [free]
    rw [← e2]
    rw [last_append ?_] at h5
    · exact h5
    · intro e0
      rw [e0] at e2
      have := pview_chars p
      rw [← e2] at this
      exact form_ne_nil hf this.symm
  rcases nl_piece hf he (List.mem_of_getLast? hlast) with hk | ⟨hk, -⟩
  · rw [hs.kind, hk]; exact .inr rfl
  · rw [hs.kind, hk]; exact .inl rfl

/-- A body of blank paragraphs is not read from a text in which the line break of the title took one of its line breaks. -/
theorem no_blank_body {S : List Stop} {d : Str} {r1 : List Token} {vs : List V} {X w' : V} {B' : Str}
    (hok : (docB (.CollapsibleEnd :: S) r1).1.Ok)
    (hlay : (docB (.CollapsibleEnd :: S) r1).1.Lay (docB (.CollapsibleEnd :: S) r1).2)
    (hlive : Live d (docB (.CollapsibleEnd :: S) r1).1.toks)
    (hp : ((docB (.CollapsibleEnd :: S) r1).1.denote d).all isPlain = true)
    (hsh : Shown ((docB (.CollapsibleEnd :: S) r1).1.denote d) vs) (hne : vs ≠ [])
    (hb : ((joinV vs).map Prod.snd).all brk = true) (hX : Valid X) (hB : IsBreak B')
    (ew : joinV vs ++ (free ['\n', '%', '}'] ++ X) = free B' ++ w') (hw : Valid w') (st : SpV d true r1 w') : False := by
  have hflips := docB_flips (.CollapsibleEnd :: S) r1
  have hlp := last_para (.CollapsibleEnd :: S) r1
  obtain ⟨h1, h2, h3⟩ := blank_doc hok hlay hlive hp hsh hb
  have hB1 : 0 < B'.length := by rcases hB with rfl | rfl <;> simp
  obtain ⟨A, R, rfl, fA, fR⟩ := hflips.split
  generalize hD : (docB (.CollapsibleEnd :: S) (A ++ R)).1 = D at *
  generalize hrest : (docB (.CollapsibleEnd :: S) (A ++ R)).2 = rest at *
  obtain ⟨v1, v2, ev, s1, s2, -⟩ := spv_cut hw st
  rw [ev] at hw
  have ht1 : v1.map Prod.snd = textOfToks d D.toks := by rw [fA.text (src := d)]; exact (spv_text hw.left s1).symm
  -- the text of the body is all of the line breaks
  have hlen : v1.length = (textOfToks d D.toks).length := by rw [← ht1]; simp
  have hall : (v1.map Prod.snd).all brk = true := by rw [ht1]; exact h2
  have e1 : free B' ++ v1 ++ v2 = (joinV vs ++ free ['\n']) ++ (free ['%', '}'] ++ X) := by
    rw [List.append_assoc, ← ev, ← ew]; simp [free]
  have hle : (free B' ++ v1).length ≤ (joinV vs ++ free ['\n']).length := by
    rcases Nat.lt_or_ge (joinV vs ++ free ['\n']).length (free B' ++ v1).length with hlt | hge
    · exfalso
      have hm : (false, '%') ∈ free B' ++ v1 := by
        have g : (free B' ++ v1 ++ v2)[(joinV vs ++ free ['\n']).length]? =
            ((joinV vs ++ free ['\n']) ++ (free ['%', '}'] ++ X))[(joinV vs ++ free ['\n']).length]? := by rw [e1]
        rw [List.getElem?_append_left hlt, List.getElem?_append_right (Nat.le_refl _), Nat.sub_self] at g
        exact List.mem_of_getElem? (g.trans rfl)
      rcases List.mem_append.1 hm with hm | hm
      · rcases hB with rfl | rfl <;> simp [free] at hm
      · have := List.all_eq_true.1 hall '%' (List.mem_map.2 ⟨_, hm, rfl⟩)
        exact absurd this (by decide)
    · exact hge
  simp only [List.length_append, free, List.length_map, List.length_cons, List.length_nil] at hle
  have hlt : lastTerm D = false := by
    by_cases hx : lastTerm D = true
    · exfalso
      rw [if_pos (show lastTerm D = true ∧ vs ≠ [] from ⟨hx, hne⟩)] at h3
      omega
    · simpa using hx
  have heq : (free B' ++ v1).length = (joinV vs ++ free ['\n']).length := by
    simp only [List.length_append, free, List.length_map, List.length_cons, List.length_nil]
    omega
  obtain ⟨e2, e3⟩ := List.append_inj e1 heq
  subst e3
  -- the closing mark follows
  have hj2 : Join (free ['%', '}']) X := by
    refine join_known (l := []) (p := ⟨false, .CollapsibleEnd, ['%', '}']⟩) (valid_free (by decide)) (pieces_one rfl) ?_
    rfl
  obtain ⟨t3, t4, rfl, s3, -⟩ := spv_split (valid_free (by decide)) hj2 s2
  obtain ⟨c, rfl, sc⟩ := spv_one (p := ⟨false, .CollapsibleEnd, ['%', '}']⟩) rfl s3
  have hlast : v1 = [] ∨ ∃ v0, v1 = v0 ++ free ['\n'] := by
    rcases List.eq_nil_or_concat v1 with h | ⟨v0, x, h⟩
    · exact .inl h
    · right
      rw [List.concat_eq_append] at h
      subst h
      have := congrArg List.getLast? e2
      rw [← List.append_assoc] at this
      simp [free] at this
      exact ⟨v0, by rw [this]; rfl⟩
  have hcol : col0 c = true := by
    have h := sc.col
    rw [show col0 c = flag true v1 from h]
    rcases hlast with rfl | ⟨v0, rfl⟩
    · rfl
    · simp [flag, free]
  have hk : c.kind = .CollapsibleEnd := sc.kind
  rcases hlp h1 hlt with h | ⟨a, e, g1, g2⟩
  · have := hsh.1
    rw [h] at this
    simp [Doc.denote] at this
    exact hne this
  · rw [g1] at fA
    obtain ⟨a', e', rfl, fa, fe⟩ := fA.split
    match e', fe with
    | [e0], .cons he0 .nil =>
      rcases hlast with rfl | ⟨v0, rfl⟩
      · have := spv_nil s1
        simp at this
      · have hkind := last_nl hw.left s1
        have he : e = e0 := by
          rcases he0 with h | ⟨h, -⟩
          · exact h
          · rw [h] at hkind; rcases hkind with h | h <;> cases h
        subst he
        obtain ⟨c', r', hr, hc'⟩ : ∃ c' r', rest = c' :: r' ∧ c' = c := by
          cases fR with
          | cons hc hr =>
            refine ⟨_, _, rfl, ?_⟩
            rcases hc with h | ⟨h, -⟩
            · exact h
            · rw [hk] at h; cases h
        subst hc'
        rw [hr] at g2
        rcases hkind with hke | hke
        · simp [stopAt, stopHere, hke, tokenIs, hk, hcol] at g2
        · simp [stopAt, stopHere, hke] at g2

end Yamd.Round
