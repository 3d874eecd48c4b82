import Verif.Proofs.Exact.Lead
import Verif.Proofs.Exact.ParaLead
import Verif.Proofs.Exact.Close
import Verif.Proofs.Exact.Images
import Verif.Proofs.SteadyDoc

/-!
# The first paragraph of a document that is read back
-/

namespace Yamd.Round

open Yamd Yamd.Spec Yamd.Lexer Yamd.Ref

/-- A document, or the body of a collapsible, that is read with the stops `S`. -/
structure At (c : Bool) (S : List Stop) : Prop where
  inside : Inside c S
  stop : c = true → .CollapsibleEnd ∈ S

theorem At.top : At false [] := ⟨Inside.top, fun h => by simp at h⟩
theorem At.coll {c S} (h : At c S) : At true (.CollapsibleEnd :: S) := ⟨h.inside.coll, fun _ => by simp⟩

/-- What follows the first block: nothing, a blank line, or the closing line of the collapsible. -/
def AfterV (c : Bool) (X : V) : Prop := X = [] ∨ (∃ Y, X = free ['\n', '\n'] ++ Y) ∨ (c = true ∧ ∃ Y, X = free ['\n', '%', '}'] ++ Y)

/-- The closing line of a collapsible. -/
theorem spv_closing {src b ts Y} (h : SpV src b ts (free ['\n', '%', '}'] ++ Y)) : ∃ e c r, ts = e :: c :: r ∧ e.kind = .Eol ∧
    c.kind = .CollapsibleEnd ∧ col0 c = true ∧ SpT src b e ⟨false, .Eol, ['\n']⟩ ∧ SpT src true c ⟨false, .CollapsibleEnd, ['%', '}']⟩ ∧
    SpV src false r Y := by
  have e1 : free ['\n', '%', '}'] ++ Y = free ['\n'] ++ (free ['%', '}'] ++ Y) := by simp [free]
  rw [e1] at h
  obtain ⟨t2, t3, rfl, s3, s4⟩ := spv_split (valid_free (by decide))
    (join_eol (w := free ['%', '}'] ++ Y) (cleanStart_of_head (c := '%') rfl (by decide) (by decide))) h
  obtain ⟨e, rfl, se⟩ := spv_one (p := ⟨false, .Eol, ['\n']⟩) rfl s3
  have hj2 : Join (free ['%', '}']) Y := by
    refine join_known (l := []) (p := ⟨false, .CollapsibleEnd, ['%', '}']⟩) (valid_free (by decide)) (pieces_one rfl) ?_
    rfl
  obtain ⟨t4, t5, rfl, s5, s6⟩ := spv_split (valid_free (by decide)) hj2 s4
  obtain ⟨c, rfl, sc⟩ := spv_one (p := ⟨false, .CollapsibleEnd, ['%', '}']⟩) rfl s5
  exact ⟨e, c, t5, rfl, se.kind, sc.kind, sc.col, se, sc, s6⟩

theorem after_bd {c S src b ts X} (hS : At c S) (hX : AfterV c X) (h : SpV src b ts X) : Bd S ts := by
  rcases hX with rfl | ⟨Y, rfl⟩ | ⟨hc, Y, rfl⟩
  · rw [spv_nil h]; exact .nil
  · obtain ⟨t1, t2, rfl, s1, -⟩ := spv_split (valid_free (by decide)) (join_after_blank Y) h
    obtain ⟨t, rfl, st⟩ := spv_one (p := ⟨false, .Terminator, ['\n', '\n']⟩) rfl s1
    exact .term t _ st.kind
  · obtain ⟨e, k, r, rfl, h1, h2, h3, -⟩ := spv_closing h
    exact .close e k r (hS.stop hc) h1 h2 h3

/-- The first block of a document or body, its own tokens `t1` and the tokens `t2` of the rest; `v` is what `Display` wrote for it, `X`
what it wrote after it. -/
structure First (c : Bool) (S : List Stop) (d : Str) (n : YamdNode) (b : Block) (t1 t2 : List Token) (v X : V) : Prop where
  place : At c S
  spells : SpV d true (t1 ++ t2) (v ++ X)
  valid : Valid (v ++ X)
  after : AfterV c X
  shown : dispB n = render v
  read : ∃ D, (docB S (t1 ++ t2)).1 = .block b D
  own : Flips t1 b.toks
  ok : b.Ok
  live : Live d b.toks
  all : Live d (t1 ++ t2)
  den : b.denote d = n

/-- A block that is not code. -/
def notCode : Block → Bool
  | .code .. => false
  | _ => true

theorem docB_noEnd {S : List Stop} {ts : List Token} {b : Block} {D : Doc} (hE : .CollapsibleEnd ∈ S) (h : (docB S ts).1 = .block b D)
    (hb : notCode b = true) : NoEnd b.toks := by
  cases hs : stopAt S ts with
  | true => rw [docB_stop hs] at h; simp at h
  | false =>
    cases docB_step hs with
    | term t r _ ht e => rw [e] at h; simp at h
    | code t r _ ht b' rest hc' e =>
      rw [e] at h
      simp only [Doc.block.injEq] at h
      obtain ⟨o, m, x, y, e⟩ := codeB_shape hc'
      rw [← h.1, e] at hb
      simp [notCode] at hb
    | coll t r _ ht o m r1 c r4 _ ho _ e => rw [e] at h; simp at h
    | fallback t r _ ht o m r1 _ ho _ e =>
      rw [e] at h
      simp only [Doc.block.injEq] at h
      rw [← h.1]; exact otherB_noEnd hE _
    | other t r _ ht _ _ e =>
      rw [e] at h
      simp only [Doc.block.injEq] at h
      rw [← h.1]; exact otherB_noEnd hE _

theorem flips_noEnd {a b : List Token} (hf : Flips a b) (h : NoEnd b) : NoEnd a := by
  induction hf with
  | nil => exact NoEnd.nil
  | cons hr _ ih =>
    intro t ht hk
    rcases List.mem_cons.1 ht with rfl | ht
    · rcases hr with rfl | ⟨h1, -⟩
      · exact h _ (by simp) hk
      · rw [h1] at hk; cases hk
    · exact ih (fun u hu => h u (by simp [hu])) t ht hk

theorem First.noEnd {c S d n b t1 t2 v X} (h : First c S d n b t1 t2 v X) (hb : notCode b = true) (hc : c = true) : NoEnd t1 := by
  obtain ⟨D, hD⟩ := h.read
  exact flips_noEnd h.own (docB_noEnd (h.place.stop hc) hD hb)

theorem mark2_keep_last {a b c : Char} : ∀ {v : V}, v.getLast? = some (false, c) → (mark2 a b false v).getLast? = some (false, c)
  | [], h => by simp at h
  | [x], h => h
  | x :: y :: r, h => by
    rw [List.getLast?_cons_cons] at h
    by_cases hxy : x = (false, a) ∧ y = (false, b)
    · obtain ⟨rfl, rfl⟩ := hxy
      rw [mark2_yes]
      cases r with
      | nil => simpa [mark2] using h
      | cons z r =>
        rw [List.getLast?_cons_cons] at h
        have := mark2_keep_last (a := a) (b := b) h
        have hne : mark2 a b false (z :: r) ≠ [] := by intro e; rw [e] at this; simp at this
        obtain ⟨p, q, e⟩ := List.exists_cons_of_ne_nil hne
        rw [e] at this ⊢
        rw [List.getLast?_cons_cons, List.getLast?_cons_cons]; exact this
    · rw [mark2_no hxy]
      have := mark2_keep_last (a := a) (b := b) h
      have hne : mark2 a b false (y :: r) ≠ [] := by intro e; rw [e] at this; simp at this
      obtain ⟨p, q, e⟩ := List.exists_cons_of_ne_nil hne
      rw [e] at this ⊢
      rw [List.getLast?_cons_cons]; exact this

/-- A text that is shown with a line break at its end. -/
theorem textV_last {s : Str} (h : endsLine (shownText s) = true) : ¬ CleanEnd (textV s) := by
  rw [shownText_view] at h
  have hno : (true, '\r') ∉ mark2 '\n' '\n' true (markSet ['{', '[', '`', '~', '_', '*', '\\'] s) :=
    fun hm => markSet_notEsc (by decide) s (mark2_mem hm (by decide) (by decide))
  generalize hu : mark2 '\n' '\n' true (markSet ['{', '[', '`', '~', '_', '*', '\\'] s) = u at h hno
  have key : ∀ c, (c = '\n' ∨ c = '\r') → (u.map ink).getLast? = some c → (textV s).getLast? = some (false, c) := by
    intro c hc he
    rw [textV, hu]
    refine mark2_keep_last ?_
    rw [List.getLast?_map] at he
    cases hg : u.getLast? with
    | none => rw [hg] at he; simp at he
    | some x =>
      rw [hg] at he
      simp only [Option.map_some, Option.some.injEq] at he
      have h1 := ink_line (x := x) (by rw [he]; exact hc)
      obtain ⟨f, y⟩ := x
      simp only at h1
      rw [he] at h1
      subst h1
      cases f with
      | false => rfl
      | true =>
        rcases hc with rfl | rfl
        · simp [ink] at he
        · exact absurd (List.mem_of_getLast? hg) hno
  simp only [endsLine, Bool.or_eq_true, beq_iff_eq] at h
  rintro ⟨c1, c2⟩
  rcases h with h | h
  · exact c1 (key _ (.inl rfl) h)
  · exact c2 (key _ (.inr rfl) h)

theorem paraW_last {p : Paragraph} (h : endsLine (shownText (trailingText p)) = true) : ¬ CleanEnd (paraW p) := by
  rcases List.eq_nil_or_concat p with rfl | ⟨q, n, rfl⟩
  · exact absurd h (by decide)
  · rw [List.concat_eq_append] at *
    rw [paraW_concat]
    cases n with
    | text s =>
      have hs : endsLine (shownText s) = true := by simpa [trailingText] using h
      have hne : textV s ≠ [] := by
        intro e
        have := textV_chars s
        rw [e] at this
        rw [← this] at hs
        revert hs; decide
      have := textV_last hs
      unfold CleanEnd at this ⊢
      rw [show nodeW (.text s) = textV s from rfl, last_append hne]
      exact this
    | _ => simp [trailingText, shownText, endsLine, replace_nil] at h

theorem mark1_last {c : Char} {v : V} (hc : c ≠ '\n' ∧ c ≠ '\r') (hh : v.head? = some (false, c)) (h : CleanEnd (mark1 v)) : CleanEnd v := by
  match v with
  | [] => simp at hh
  | [x] =>
    simp only [List.head?_cons, Option.some.injEq] at hh
    subst hh
    simp [CleanEnd, hc]
  | x :: y :: r =>
    unfold CleanEnd at h ⊢
    rw [mark1, List.getLast?_cons_cons] at h
    rw [List.getLast?_cons_cons]
    exact h

/-- A paragraph is not read as a heading. -/
theorem first_heading {c S} {d : Str} {p : Paragraph} {l t1 t2 v X} (hi : safeInline ⟨c⟩ p = true)
    (h : First c S d (.paragraph p) (.para l) t1 t2 v X) : startsHeading (leadingText p) = false := by
  cases hh : startsHeading (leadingText p) with
  | false => rfl
  | true =>
    exfalso
    simp only [safeInline, Bool.and_eq_true] at hi
    cases p with
    | nil => revert hh; decide
    | cons m q =>
      cases m with
      | text s =>
        obtain ⟨n, s', rfl, h6, hs'⟩ := startsHeading_form hh
        have ev : paraW (.text (List.replicate (n + 2) '#' ++ ' ' :: s') :: q)
            = free (List.replicate (n + 2) '#') ++ (free [' '] ++ (textV s' ++ paraW q)) := by
          show textV _ ++ paraW q = _
          rw [show List.replicate (n + 2) '#' ++ ' ' :: s' = (List.replicate (n + 2) '#' ++ [' ']) ++ s' by simp,
            textV_free]
          · simp [free]
          · intro c hc
            rcases List.mem_append.1 hc with h | h
            · exact .inl (List.eq_of_mem_replicate h)
            · exact .inr (by simpa using h)
        have ed : escapeLeadingBlockMarker (displayParagraph (.text (List.replicate (n + 2) '#' ++ ' ' :: s') :: q))
            = render (free (List.replicate (n + 2) '#') ++ (free [' '] ++ (textV s' ++ paraW q))) := by
          rw [paraW_eq hi.1, ev, render_append, render_free_all, List.replicate_succ, List.replicate_succ]
          rfl
        have hv : v = free (List.replicate (n + 2) '#') ++ (free [' '] ++ (textV s' ++ paraW q)) := by
          refine render_inj h.valid.left ?_ ?_
          · rw [← ev]; exact paraW_valid _
          · rw [← ed, ← h.shown]; rfl
        have hs := h.spells
        obtain ⟨D, hD⟩ := h.read
        rw [hv, List.append_assoc, List.append_assoc] at hs
        have hw : (textV s' ++ paraW q ++ X).head? ≠ some (false, ' ') := by
          cases hx : textV s' with
          | nil =>
            cases q with
            | nil =>
              rcases h.after with hX | ⟨Y, hX⟩ | ⟨-, Y, hX⟩ <;> rw [hX] <;> simp [paraW, free]
            | cons m q =>
              have hc := hi.2
              rw [noClash, Bool.and_eq_true] at hc
              have hm : ∀ s, m ≠ .text s := by
                rintro s rfl
                simp [clashP] at hc
              have := node_space hm (paraW q ++ X)
              simpa [paraW] using this
          | cons x r =>
            have := congrArg List.head? (congrArg (List.map Prod.snd) hx)
            rw [textV_chars] at this
            intro e
            simp only [List.cons_append, List.head?_cons, Option.some.injEq] at e
            rw [e] at this
            exact hs' this
        obtain ⟨t, u, r, ets, hk, hl, hc, hu, -⟩ := hash_space hw hs
        rw [ets] at hD
        have := docB_plain hD (by simp [isCollapsibleStart, hk]) (by simp [isBacktick3, hk]) (by simp [isLeftCurly2, hk])
          (by simp [isTwoBangs, hk])
        have h2 := (leafB_para (stops := .Terminator :: S) (ts := t :: u :: r) (by rw [this]; rfl)).1
        unfold headingB at h2
        rw [if_pos] at h2
        · simp at h2
        · simp [tokenIs, hu, isHash, hk, hc, hl]; omega
      | _ => simp [leadingText, startsHeading] at hh

/-- A paragraph is not read as images. -/
theorem first_images {c S} {d : Str} {p : Paragraph} {l t1 t2 v X} (hi : safeInline ⟨c⟩ p = true)
    (h : First c S d (.paragraph p) (.para l) t1 t2 v X) (s1 : SpV d true t1 v) (hbd : Bd S t2) : imageLines p = false := by
  cases hh : imageLines p with
  | false => rfl
  | true =>
    exfalso
    simp only [safeInline, Bool.and_eq_true] at hi
    obtain ⟨a, r, rfl, hm⟩ : ∃ a r, p = .text ['!'] :: .anchor a :: r ∧ moreImageLines r = true := by
      unfold imageLines at hh
      split at hh
      · simp only [Bool.and_eq_true, beq_iff_eq] at hh
        exact ⟨_, _, by rw [hh.1], hh.2⟩
      · simp at hh
    have hv : v = paraW (.text ['!'] :: .anchor a :: r) := by
      refine render_inj h.valid.left (paraW_valid _) ?_
      rw [← h.shown]
      show escapeLeadingBlockMarker (displayParagraph _) = _
      rw [paraW_eq hi.1]; rfl
    obtain ⟨D, hD⟩ := h.read
    rw [hv] at s1
    obtain ⟨l', e, ot, dt⟩ := seq_tree (src := d) own_shape (own_tree (src := d)) (own_seq h.place.inside.placed hi.1) (chainP hi.2) (fun _ _ _ => rfl) s1
    have np : NoPair isTextI l' := by
      have hc := chainP hi.2
      rw [← dt] at hc
      refine noPair_of_chain (den := Inl.denote d) (f := isTextI) ?_ hc
      intro x hx
      cases x with
      | text ts => rfl
      | _ => simp [isTextI] at hx
    match l', dt with
    | [x], dt => simp at dt
    | x :: y :: l', dt =>
      simp only [List.map_cons, List.cons.injEq] at dt
      obtain ⟨d1, d2, d3⟩ := dt
      obtain ⟨ts, rfl, ets⟩ := den_text d1
      obtain ⟨k, rfl⟩ := den_anchor d2
      obtain ⟨t, rfl, ht⟩ := ((ot (.text ts) (by simp)).2 ts rfl _ rfl).1 ets
      have hshape := more_toks (src := d) l'.length (Nat.le_refl _) (fun z hz => (ot z (by simp [hz])).2) (by rw [paraDenote, d3]; exact hm) t k ht
      have hok : ∀ x ∈ Inl.anchor k :: l', InlOk (.Terminator :: S) x := fun x hx => (ot x (List.mem_cons_of_mem _ hx)).1
      have hq := inl_quiet (ot (.text [t]) (by simp)).1
      obtain ⟨t0, r0, e0, htx, -⟩ := inl_head (ot (.text [t]) (by simp)).1
      have him := (imagesB_shape (stops := S) (rest := t2) hbd (Inl.anchor k :: l').length (w := [t]) (Nat.le_refl _) hok np.2 rfl
        (fun u hu => ⟨hq u hu, (htx rfl).2 u (by
          have := (htx rfl).1
          simp only [Inl.text.injEq] at this
          rw [← this]; exact hu)⟩)).2 hshape
      have ett : [t] ++ (paraToks (.anchor k :: l') ++ t2) = t1 ++ t2 := by
        rw [← e]; simp [paraToks, Inl.toks]
      rw [ett] at him
      obtain ⟨q, eq⟩ : ∃ q, t1 ++ t2 = t :: q := ⟨_, ett.symm⟩
      rw [eq] at him hD
      have hk : t.kind = .Bang ∧ t.len = 1 := by simpa [isBang1] using ht
      have hleaf := docB_plain hD (by simp [isCollapsibleStart, hk]) (by simp [isBacktick3, hk]) (by simp [isLeftCurly2, hk])
        (by simp [isTwoBangs, hk])
      have h2 := (leafB_para (stops := .Terminator :: S) (ts := t :: q) (by rw [hleaf]; rfl)).2
      cases hx : imagesB (.Terminator :: S) (t :: q) with
      | none => exact him hx
      | some z =>
        obtain ⟨il, ir⟩ := z
        cases il with
        | cons i il => exact h2 _ _ _ hx
        | nil =>
          cases hib : imageB (.Terminator :: S) (t :: q) with
          | some w =>
            obtain ⟨i, r'⟩ := w
            rw [imagesB_some hib] at hx
            simp at hx
          | none =>
            rw [imagesB_none hib] at hx
            split at hx
            · rename_i hst
              rw [bang_stop h.place.inside.1 hk.1] at hst
              simp at hst
            · simp at hx

theorem after_split {c} {X : V} (hX : AfterV c X) (hne : X ≠ []) : ∃ Y, X = free ['\n'] ++ Y := by
  rcases hX with rfl | ⟨Y, rfl⟩ | ⟨-, Y, rfl⟩
  · exact absurd rfl hne
  · exact ⟨free ['\n'] ++ Y, by simp [free]⟩
  · exact ⟨free ['%', '}'] ++ Y, by simp [free]⟩

/-- The first paragraph is safe, and if a blank line follows it does not end with a line break. -/
theorem first_para {c S} {d : Str} {p : Paragraph} {b t1 t2 v X} (h : First c S d (.paragraph p) b t1 t2 v X) :
    safeLeaf ⟨c⟩ (.paragraph p) = true ∧ (X ≠ [] → endsClean (.paragraph p) = true) := by
  have den := h.den
  obtain ⟨l, rfl, hden⟩ : ∃ l, b = .para l ∧ paraDenote d l = p := by
    cases b with
    | para l =>
      simp only [Block.denote, YamdNode.paragraph.injEq] at den
      exact ⟨l, rfl, den⟩
    | images l =>
      match l with
      | [] => simp [Block.denote] at den
      | [i] => simp [Block.denote] at den
      | i :: j :: l => simp [Block.denote] at den
    | _ => simp [Block.denote, YamdNode.newCode] at den
  have okp : ParaOk l := h.ok
  have hll : Live d (paraToks l) := h.live
  obtain ⟨s1, s2⟩ := para_solid okp hll
  rw [hden] at s1 s2
  have htext := para_text okp.1 hll
  rw [hden] at htext
  obtain ⟨v', ev, -, hv⟩ := escapeLeading_view (v := paraW p)
  rw [← paraW_solid s1] at ev
  have hvalid : Valid v' := by
    rcases hv with rfl | ⟨rfl, -⟩
    · exact paraW_valid p
    · exact (more_mark1 _).valid (paraW_valid p)
  have e : v = v' := render_inj h.valid.left hvalid (by rw [← ev, ← h.shown]; rfl)
  subst e
  have hch : v.map Prod.snd = (paraW p).map Prod.snd := by
    rcases hv with rfl | ⟨rfl, c, -, hc⟩
    · rfl
    · cases hq : paraW p with
      | nil => rfl
      | cons x r => simp [mark1]
  have hlen : (textOfToks d t1).length = v.length := by
    rw [← h.own.text (src := d), Block.toks, htext, ← hch, List.length_map]
  obtain ⟨g1, g2, g3⟩ := spv_take h.valid h.spells hlen
  have hnt : NoTerm t1 := h.own.noTerm okp.2.2
  have hnb : NB v := vq_of_noTerm hvalid g1 hnt
  have hnb' : NB (paraW p) := by
    rcases hv with rfl | ⟨rfl, c, hc, hh⟩
    · exact hnb
    · exact hnb.of_mark1 (c := c) (by rintro rfl; simp at hc) hh
  have hp : p ≠ [] := by
    rintro rfl
    obtain ⟨D, hD⟩ := h.read
    have : l = [] := by simpa [paraDenote] using hden
    subst this
    have h0 : t1 = [] := by
      have := h.own.length
      exact List.length_eq_zero_iff.1 (by simpa [Block.toks, paraToks, eq_comm] using this.symm)
    subst h0
    have := after_bd h.place h.after g2
    rw [List.nil_append] at hD
    cases this with
    | nil => rw [docB_stop rfl] at hD; simp at hD
    | term t r ht => rw [docB_term (stop_term h.place.inside.1 ht) (by simp [isTerminator, ht])] at hD; simp at hD
    | close e k r hm he hk h0 =>
      rw [docB_stop (by simp only [stopAt, List.any_eq_true]; exact ⟨_, hm, by simp [stopHere, he, tokenIs, hk, h0]⟩)] at hD
      simp at hD
  have hin : safeInline ⟨c⟩ p = true := by
    refine inline_close ?_ (fun hc hcl => spv_close hvalid g1 (h.noEnd rfl hc) ?_)
    · unfold safeInline
      rw [calm_solid s1 hnb'.para, s2]; rfl
    · rcases hv with rfl | ⟨rfl, k, hk, hh⟩
      · exact hcl
      · exact hcl.keep (keep_mark1 (c := k) (by rintro hm; simp only [closeChars, List.mem_cons, List.not_mem_nil, or_false] at hm; rcases hm with rfl | rfl | rfl <;> simp at hk) hh)
  refine ⟨?_, fun hne => ?_⟩
  · simp only [safeLeaf, Bool.and_eq_true, Bool.not_eq_true']
    exact ⟨⟨⟨by simpa using hp, hin⟩, first_heading hin h⟩, first_images hin h g1 (after_bd h.place h.after g2)⟩
  · obtain ⟨Y, rfl⟩ := after_split h.after hne
    have hc := cut_clean hvalid g1 hnt g3
    have hc' : CleanEnd (paraW p) := by
      rcases hv with rfl | ⟨rfl, c, hc1, hh⟩
      · exact hc
      · exact mark1_last (c := c) (by constructor <;> (rintro rfl; simp at hc1)) hh hc
    cases he : endsLine (shownText (trailingText p)) with
    | false => simp [endsClean, he]
    | true => exact absurd hc' (paraW_last he)

end Yamd.Round
