import Verif.Proofs.Round.ImageLines

/-!
# Paragraphs as blocks
-/

namespace Yamd.Round

open Yamd Yamd.Spec Yamd.Lexer Yamd.Ref

/-! ### Tokens of runs -/

theorem spv_two {src : Str} {b : Bool} {t u : Token} {ts : List Token} {v : V} (hv : Valid v)
    (h : SpV src b (t :: u :: ts) v) : ∃ p q v2, v = pview p ++ (pview q ++ v2) ∧ SpT src b t p ∧ SpT src (isNl p) u q ∧
      (KindText p.kind p.esc p.text ∧ (p.esc = true → p.kind = .Literal)) ∧
      (KindText q.kind q.esc q.text ∧ (q.esc = true → q.kind = .Literal)) := by
  unfold SpV at h
  have hform := pieces_form (render v)
  have hview := pieces_view hv
  cases hp : pieces (render v) with
  | nil => rw [hp] at h; simp [Sp] at h
  | cons p ps =>
    rw [hp] at h hform hview
    cases ps with
    | nil => simp [Sp] at h
    | cons q ps =>
      rw [List.flatMap_cons, List.flatMap_cons] at hview
      exact ⟨p, q, ps.flatMap pview, hview.symm, h.1, h.2.1, hform p (by simp), hform q (by simp)⟩

theorem spt_run {src b t p} {c : Char} (h : SpT src b t p) (hf : KindText p.kind p.esc p.text)
    (he : p.esc = true → p.kind = .Literal) (hk : runCharOf t.kind = some c) :
    pview p = free (List.replicate t.len c) ∧ sliceD src t = List.replicate t.len c ∧ 0 < t.len := by
  rw [h.kind] at hk
  have h1 := pview_run hf he hk
  have h2 := run_len hf hk
  rw [h.len, h.text, h2]
  refine ⟨?_, ?_, ?_⟩
  · rw [h1.1]; simp [free]
  · rw [kindText_run hk] at hf
    exact List.eq_replicate_iff.2 ⟨rfl, fun x hx => hf.2 x hx⟩
  · exact List.length_pos_iff.2 h1.2

theorem spv_run1 {src b t ts v} {c : Char} (hv : Valid v) (h : SpV src b (t :: ts) v) (hk : runCharOf t.kind = some c) :
    free (List.replicate t.len c) <+: v ∧ sliceD src t = List.replicate t.len c ∧ 0 < t.len := by
  obtain ⟨p, v2, e, hs, hf, he⟩ := spv_head hv h
  obtain ⟨h1, h2, h3⟩ := spt_run hs hf he hk
  exact ⟨⟨v2, by rw [e, h1]⟩, h2, h3⟩

theorem spv_run2 {src b t u ts v} {c d : Char} (hv : Valid v) (h : SpV src b (t :: u :: ts) v)
    (hk : runCharOf t.kind = some c) (hk2 : runCharOf u.kind = some d) :
    free (List.replicate t.len c ++ List.replicate u.len d) <+: v ∧ sliceD src u = List.replicate u.len d := by
  obtain ⟨p, q, v2, e, hs, hs2, hf, hf2⟩ := spv_two hv h
  obtain ⟨h1, h2, h3⟩ := spt_run hs hf.1 hf.2 hk
  obtain ⟨g1, g2, g3⟩ := spt_run hs2 hf2.1 hf2.2 hk2
  refine ⟨⟨v2, ?_⟩, g2⟩
  rw [e, h1, g1]; simp [free]

/-! ### The first token of a construct -/

/-! ### No other block -/

/-- Nothing but a paragraph starts here. -/
structure OnlyPara (stops : List Stop) (ts : List Token) : Prop where
  code : codeB stops ts = none
  coll : tokenIs ts 0 isCollapsibleStart = false
  embed : embedB stops ts = none
  highlight : highlightB stops ts = none
  marker : markerB 0 none ts = none
  image : imageB (.Terminator :: stops) ts = none ∨ imagesB (.Terminator :: stops) ts = none
  thematic : thematicB ts = none
  heading : headingB (.Terminator :: stops) ts = none

theorem otherB_para {stops ts} (h : OnlyPara stops ts) :
    otherB stops ts = (.para (paraB (.Terminator :: stops) [] ts).1, (paraB (.Terminator :: stops) [] ts).2) := by
  unfold otherB
  rw [h.embed, h.highlight]
  simp only
  unfold leafB
  rw [itemsB_none h.marker, h.thematic, h.heading]
  rcases h.image with hi | hi
  · rw [imagesB_none hi]
    simp only
    split <;> simp_all
  · rw [hi]

theorem only_of_head {stops t r} (h0 : isBacktick3 t = false) (h1 : isCollapsibleStart t = false) (h2 : isLeftCurly2 t = false)
    (h3 : isTwoBangs t = false ∨ tokenIs r 0 (fun t => isSpace1 t || isEol t) = false)
    (h4 : isListMarker none t = false ∨ tokenIs r 0 isSpace1 = false)
    (h5 : isBang1 t = false ∨ imagesB (.Terminator :: stops) (t :: r) = none) (h6 : isDash5 t = false)
    (h7 : isHash t = false ∨ tokenIs r 0 isSpace1 = false) : OnlyPara stops (t :: r) := by
  have e0 : ∀ f, tokenIs (t :: r) 0 f = f t := fun f => rfl
  have e1 : ∀ f, tokenIs (t :: r) 1 f = tokenIs r 0 f := fun f => rfl
  refine ⟨?_, h1, ?_, ?_, ?_, ?_, ?_, ?_⟩
  · rw [codeB]; rw [if_neg (by simp [h0])]
  · rw [embedB]; rw [if_neg (by simp [h2])]
  · rw [highlightB, e0, e1]
    rcases h3 with h | h <;> rw [h] <;> simp
  · rw [markerB, e0, e0, e1]
    rcases h4 with h | h <;> rw [h] <;> simp
  · refine h5.imp (fun h => ?_) id
    rw [imageB, if_neg (by simp [h])]
  · rw [thematicB, if_neg (by simp [h6])]
  · rw [headingB, e0, e1]
    rcases h7 with h | h <;> rw [h] <;> simp

theorem only_of_kind {stops t r} (h0 : isBacktick3 t = false) (h : t.kind ∈ inlineOpen) : OnlyPara stops (t :: r) := by
  simp only [inlineOpen, List.mem_cons, List.not_mem_nil, or_false] at h
  have hm : isListMarker none t = false := by
    cases hk : isListMarker none t with
    | false => rfl
    | true =>
      have := listMarker_kind hk
      rcases this with e | e <;> rw [e] at h <;> simp at h
  refine only_of_head h0 ?_ ?_ (.inl ?_) (.inl hm) (.inl ?_) ?_ (.inl ?_) <;>
    (rcases h with e | e | e | e | e <;>
      simp [isCollapsibleStart, isLeftCurly2, isTwoBangs, isBang1, isDash5, isHash, e])

/-- What keeps a paragraph from being read as another block. -/
structure ParaLead (p : Paragraph) (v : V) : Prop where
  marker : NoMarker v
  curly : v.head? ≠ some (false, '{')
  heading : startsHeading (leadingText p) = false
  image : imageLines p = false
  spaces : ∀ s r, p = .text s :: r → ∃ w1 w2, v = w1 ++ w2 ∧ w1.map Prod.snd = s ∧ (true, ' ') ∉ w1.tail

theorem listMarker_len {k : Option ListKind} {t : Token} (h : isListMarker k t = true) : t.len = 1 := by
  unfold isListMarker ListKind.tryFrom at h
  split at h
  · simp at h
  · rename_i h1
    split at h1
    · rename_i h2; exact h2.2
    · split at h1
      · rename_i h2; exact h2.2
      · simp at h1

theorem head_of_prefix {c : Char} {n : Nat} {v : V} (hn : 0 < n) (h : free (List.replicate n c) <+: v) :
    v.head? = some (false, c) := by
  obtain ⟨r, rfl⟩ := h
  cases n with
  | zero => simp at hn
  | succ n => simp [List.replicate_succ, free]

theorem startsHeading_of {n : Nat} {s : Str} (h2 : 2 ≤ n) (h6 : n ≤ 6) (hs : s.head? ≠ some ' ') : startsHeading (List.replicate n '#' ++ ' ' :: s) = true := by
  have e1 : (List.replicate n '#' ++ ' ' :: s).takeWhile (· == '#') = List.replicate n '#' := by
    rw [List.takeWhile_append_of_pos (by simp)]
    simp
  have e2 : (List.replicate n '#' ++ ' ' :: s).dropWhile (· == '#') = ' ' :: s := by
    rw [List.dropWhile_append_of_pos (by simp)]
    simp
  unfold startsHeading
  rw [e1, e2]
  simp [h2, h6, hs]

theorem bd_space {stops rest} (h : Bd stops rest) : tokenIs rest 0 isSpace1 = false :=
  h.head (fun t ht => by rcases ht with e | e <;> simp [isSpace1, e])

theorem bd_link {stops S rest} (h : Bd stops rest) : linkB S rest = none := by
  cases h with
  | nil => rfl
  | term t r h => exact linkB_no (by simp [h])
  | close e c r hm he hc h0 => exact linkB_no (by simp [he])

/-- A view of a paragraph that starts no other block. -/
theorem para_only {src stops p v ts rest} (hne : p ≠ []) (hv : Valid v) (hs : SpV src true ts v) (hl : ParaLead p v)
    {l : List Inl} (e1 : paraToks l = ts) (ok : ∀ x ∈ l, InlOk (.Terminator :: stops) x) (np : NoPair isTextI l)
    (den : paraDenote src l = p) (hr : Bd stops rest) : OnlyPara stops (ts ++ rest) := by
  cases l with
  | nil => simp [paraDenote] at den; exact absurd den hne
  | cons x l =>
    obtain ⟨t, r, e, htext, hother⟩ := inl_head (ok x (by simp))
    have ets : ts = t :: (r ++ paraToks l) := by
      rw [← e1, paraToks, List.flatMap_cons, e]; simp [paraToks]
    cases hx : isTextI x with
    | false =>
      obtain ⟨hk, hb, -⟩ := hother hx
      rw [ets]
      exact only_of_kind hb hk
    | true =>
      obtain ⟨rfl, hk⟩ := htext hx
      have hkt := hk t (by simp)
      simp only [inlineOpen, List.mem_cons, List.not_mem_nil, or_false, not_or] at hkt
      -- the token after `t`
      have hnext : ∀ f : Token → Bool, (∀ u : Token, u.kind ∈ inlineOpen → f u = false) → tokenIs rest 0 f = false →
          tokenIs (r ++ (paraToks l ++ rest)) 0 f = true → ∃ u r', r = u :: r' ∧ f u = true := by
        intro f hf hrest hh
        cases r with
        | cons u r' => exact ⟨u, r', rfl, hh⟩
        | nil =>
          exfalso
          rw [List.nil_append] at hh
          cases l with
          | nil => rw [paraToks, List.flatMap_nil, List.nil_append, hrest] at hh; simp at hh
          | cons y l =>
            obtain ⟨t', r', e', -, hother'⟩ := inl_head (ok y (by simp))
            have hy : isTextI y = false := by
              cases hy : isTextI y with
              | false => rfl
              | true => exact absurd ⟨hx, hy⟩ np.1
            have := hf t' (hother' hy).1
            rw [paraToks, List.flatMap_cons, e'] at hh
            have hh' : f t' = true := hh
            rw [this] at hh'; simp at hh'
      have hsp : tokenIs (r ++ (paraToks l ++ rest)) 0 isSpace1 = true → ∃ u r', r = u :: r' ∧ u.kind = .Space ∧ u.len = 1 := by
        intro hh
        obtain ⟨u, r', hu, hf⟩ := hnext isSpace1
          (fun u hu => by
            simp only [inlineOpen, List.mem_cons, List.not_mem_nil, or_false] at hu
            rcases hu with e | e | e | e | e <;> simp [isSpace1, e]) (bd_space hr) hh
        exact ⟨u, r', hu, by simpa [isSpace1] using hf⟩
      have e2 : ts ++ rest = t :: (r ++ (paraToks l ++ rest)) := by rw [ets]; simp
      have hst := hs
      rw [ets] at hst
      rw [e2]
      refine only_of_head ?_ ?_ ?_ ?_ ?_ ?_ ?_ ?_
      · simp [isBacktick3, hkt]
      · cases hh : isCollapsibleStart t with
        | false => rfl
        | true =>
          exfalso
          simp only [isCollapsibleStart, Bool.and_eq_true, decide_eq_true_eq] at hh
          obtain ⟨p', v2, e, hs', hf, he⟩ := spv_head hv hst
          have := pview_fixed hf he (s := ['{', '%']) (by rw [← hs'.kind, hh.1]; rfl)
          exact hl.curly (by rw [e, this]; rfl)
      · cases hh : isLeftCurly2 t with
        | false => rfl
        | true =>
          exfalso
          simp only [isLeftCurly2, Bool.and_eq_true, decide_eq_true_eq] at hh
          obtain ⟨h1, -, h3⟩ := spv_run1 hv hst (c := '{') (by rw [hh.1.1]; rfl)
          exact hl.curly (head_of_prefix h3 h1)
      · left
        cases hh : isTwoBangs t with
        | false => rfl
        | true =>
          exfalso
          simp only [isTwoBangs, Bool.and_eq_true, decide_eq_true_eq] at hh
          obtain ⟨h1, -, h3⟩ := spv_run1 hv hst (c := '!') (by rw [hh.1.1]; rfl)
          rw [hh.2] at h1
          exact hl.marker.2.2.2.1 h1
      · cases hm : isListMarker none t with
        | false => exact .inl rfl
        | true =>
          right
          cases hh : tokenIs (r ++ (paraToks l ++ rest)) 0 isSpace1 with
          | false => rfl
          | true =>
            exfalso
            obtain ⟨u, r', rfl, hu, hu1⟩ := hsp hh
            have ht1 := listMarker_len hm
            rcases listMarker_kind hm with hk' | hk'
            · have h1 := (spv_run2 hv hst (c := '-') (d := ' ') (by rw [hk']; rfl) (by rw [hu]; rfl)).1
              rw [ht1, hu1] at h1
              exact hl.marker.1 h1
            · have h1 := (spv_run2 hv hst (c := '+') (d := ' ') (by rw [hk']; rfl) (by rw [hu]; rfl)).1
              rw [ht1, hu1] at h1
              exact hl.marker.2.1 h1
      · cases hb : isBang1 t with
        | false => exact .inl rfl
        | true =>
          right
          have hnt : NoText l := by
            cases l with
            | nil => trivial
            | cons z l =>
              show isTextI z = false
              cases hz : isTextI z with
              | false => rfl
              | true => exact absurd ⟨hx, hz⟩ np.1
          have hnp : NoPair isTextI l := by
            cases l with
            | nil => trivial
            | cons z l => exact np.2
          have hqs := inl_quiet (ok (.text (t :: r)) (by simp))
          cases him : imagesB (.Terminator :: stops) (t :: (r ++ (paraToks l ++ rest))) with
          | none => rfl
          | some y =>
            exfalso
            have hsh := (imagesB_shape hr l.length (w := t :: r) (Nat.le_refl _) (fun y hy => ok y (by simp [hy])) hnp hnt
              (fun u hu => ⟨hqs u hu, hk u hu⟩)).1 (by rw [List.cons_append, him]; simp)
            have himg := hl.image
            rw [← den] at himg
            have hall : ∀ u ∈ ts, (isBang1 u = true → sliceD src u = ['!']) ∧
                (isEol u = true → sliceD src u = ['\n'] ∨ sliceD src u = ['\r', '\n']) := fun u hu => img_slices hv hs hu
            have := (imgToks_text (src := src) hsh (fun u hu => hall u (by rw [ets]; simpa using hu))).2 (by simp)
            rw [show paraDenote src (.text (t :: r) :: l) = .text (textOfToks src (t :: r)) :: paraDenote src l from rfl, this] at himg
            simp at himg
      · cases hh : isDash5 t with
        | false => rfl
        | true =>
          exfalso
          simp only [isDash5, Bool.and_eq_true, decide_eq_true_eq] at hh
          obtain ⟨h1, -, h3⟩ := spv_run1 hv hst (c := '-') (by rw [hh.1.1]; rfl)
          rw [hh.2] at h1
          exact hl.marker.2.2.2.2 (List.IsPrefix.trans ⟨free ['-', '-'], rfl⟩ h1)
      · cases hm : isHash t with
        | false => exact .inl rfl
        | true =>
          right
          cases hh : tokenIs (r ++ (paraToks l ++ rest)) 0 isSpace1 with
          | false => rfl
          | true =>
            exfalso
            obtain ⟨u, r', rfl, hu, hu1⟩ := hsp hh
            simp only [isHash, Bool.and_eq_true, decide_eq_true_eq] at hm
            have hr1 := spv_run1 hv hst (c := '#') (by rw [hm.1.1]; rfl)
            have hr2 := spv_run2 hv hst (c := '#') (d := ' ') (by rw [hm.1.1]; rfl) (by rw [hu]; rfl)
            by_cases h1 : t.len = 1
            · rw [h1, hu1] at hr2
              exact hl.marker.2.2.1 hr2.1
            · have hh' := hl.heading
              rw [← den] at hh'
              have e3 : textOfToks src (t :: u :: r') = List.replicate t.len '#' ++ ' ' :: textOfToks src r' := by
                rw [text_cons, text_cons, hr1.2.1, hr2.2, hu1]; rfl
              simp only [paraDenote, List.map_cons, Inl.denote, leadingText] at hh'
              have hnx : (textOfToks src r').head? ≠ some ' ' := by
                intro hsp'
                have e4 : p = .text (List.replicate t.len '#' ++ ' ' :: textOfToks src r') :: paraDenote src l := by
                  rw [← den, ← e3]; rfl
                obtain ⟨w1, w2, rfl, ew, hno⟩ := hl.spaces _ _ e4
                obtain ⟨p1, q1, v2, ev, st1, st2, hv2⟩ := spv_space hv hst hu
                have hch : w1.drop (t.len + 1) ≠ [] ∧ (w1.drop (t.len + 1)).head?.map Prod.snd = some ' ' := by
                  have : (w1.drop (t.len + 1)).map Prod.snd = textOfToks src r' := by
                    rw [List.map_drop, ew, List.drop_append]
                    simp
                  rw [← List.head?_map, this]
                  refine ⟨?_, hsp'⟩
                  intro e
                  rw [e] at this
                  rw [← this] at hsp'
                  simp at hsp'
                have hlen : (pview p1 ++ pview q1).length = t.len + 1 := by
                  have l1 := congrArg List.length (pview_chars p1)
                  have l2 := congrArg List.length (pview_chars q1)
                  rw [List.length_map] at l1 l2
                  rw [List.length_append, l1, l2, ← st1.text, ← st2.text, hr1.2.1, hr2.2, hu1]
                  simp
                have hd : v2 = w1.drop (t.len + 1) ++ w2 := by
                  have h5 := congrArg (List.drop (t.len + 1)) ev
                  rw [← List.append_assoc, ← hlen, List.drop_left, hlen, List.drop_append] at h5
                  rw [← h5]
                  have : t.len + 1 - w1.length = 0 := by
                    have := hch.1
                    rw [ne_eq, List.drop_eq_nil_iff] at this
                    omega
                  rw [this, List.drop_zero]
                obtain ⟨y, ys, ey⟩ := List.exists_cons_of_ne_nil hch.1
                rw [ey] at hd hch
                rw [hd] at hv2
                obtain ⟨f, c⟩ := y
                have hc : c = ' ' := by simpa using hch.2
                subst hc
                cases f with
                | false => exact hv2 rfl
                | true =>
                  refine hno ?_
                  have : (true, ' ') ∈ w1.drop (t.len + 1) := by rw [ey]; simp
                  rw [← List.drop_one]
                  rw [Nat.add_comm, ← List.drop_drop] at this
                  exact List.mem_of_mem_drop this
              rw [e3, startsHeading_of (by omega) hm.2 hnx] at hh'
              simp at hh'

/-- A paragraph view reads as the paragraph. -/
theorem para_reads {src stops p v ts} (hne : p ≠ []) (h : ParaV (.Terminator :: stops) true p v)
    (hc : Chain nodeShape p) (hl : ParaLead p v) (hs : SpV src true ts v) : Reads src stops ts (.paragraph p) := by
  obtain ⟨l, e1, ok, np, den⟩ := para_tree h hc hs
  have hv := para_valid h
  refine reads_other (fun rest hr => ?_)
  have honly := para_only hne hv hs hl e1 ok np den hr
  have hq : ∀ t ∈ ts, quiet (.Terminator :: stops) t = true := e1 ▸ para_quiet ok
  have hp : paraB (.Terminator :: stops) [] (ts ++ rest) = (l, rest) := by
    rw [← e1]; exact paraB_exec ok np hr.stop (hr.calm _)
  have hts : ts ≠ [] := by
    intro e
    rw [e] at e1
    cases l with
    | nil => simp [paraDenote] at den; exact hne den
    | cons x l =>
      obtain ⟨t, r, e, -, -⟩ := inl_head (ok x (by simp))
      rw [paraToks, List.flatMap_cons, e] at e1; simp at e1
  obtain ⟨t, r, rfl⟩ := List.exists_cons_of_ne_nil hts
  have hqt := hq t (by simp)
  have hq1 : quiet stops t = true := by
    simp only [quiet, List.all_cons, Bool.and_eq_true] at hqt ⊢; exact hqt.2
  have hq2 : t.kind ≠ .Terminator := by
    simp only [quiet, List.all_cons, Bool.and_eq_true, quiet1] at hqt; simpa using hqt.1
  refine ⟨?_, ?_, honly.code, honly.coll, ?_, ?_⟩
  · refine quiet_stop hq1 ?_
    refine calm_append (fun u hu => ?_) (hr.calm _)
    have := hq u (by simp [hu])
    simp only [quiet, List.all_cons, Bool.and_eq_true] at this ⊢; exact this.2
  · show isTerminator t = false
    simpa [isTerminator] using hq2
  · rw [otherB_para honly, hp]
    simp only [Block.denote, den]
  · rw [otherB_para honly, hp]
    exact .inl rfl

theorem para_ne {stops b p v} (h : ParaV stops b p v) (hne : p ≠ []) : v ≠ [] := by
  cases p with
  | nil => exact absurd rfl hne
  | cons n p =>
    obtain ⟨v1, v2, rfl, h1, -⟩ := h
    have := (node_shape _ _ _ h1).1.ne
    simp [this]

/-- A paragraph view is a block. -/
theorem para_block {stops p v} (hne : p ≠ []) (h : ParaV (.Terminator :: stops) true p v)
    (hc : Chain nodeShape p) (hl : ParaLead p v) : BlockV stops (.paragraph p) v :=
  ⟨para_valid h, para_ne h hne, fun _ _ hs => para_reads hne h hc hl hs⟩

end Yamd.Round
