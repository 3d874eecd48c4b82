import Verif.Proofs.Spell.Inline

/-!
# Blocks whose content is escaped throughout
-/

namespace Yamd.Round

open Yamd Yamd.Spec Yamd.Lexer Yamd.Ref

/-- A view that reads as the block and does not touch line breaks around it. -/
structure GoodV (stops : List Stop) (n : YamdNode) (v : V) : Prop where
  block : BlockV stops n v
  stop : CleanEnd v
  start : CleanStart v

/-! ### Paragraphs -/

/-- Where only a paragraph starts, a paragraph view reads as the paragraph. -/
theorem para_reads_of {src stops p v ts} (hne : p ≠ []) (h : ParaV (.Terminator :: stops) true p v)
    (hc : Chain nodeShape p) (hs : SpV src true ts v)
    (ho : ∀ (l : List Inl) rest, paraToks l = ts → (∀ x ∈ l, InlOk (.Terminator :: stops) x) → paraDenote src l = p →
      OnlyPara stops (ts ++ rest)) : Reads src stops ts (.paragraph p) := by
  obtain ⟨l, e1, ok, np, den⟩ := para_tree h hc hs
  refine reads_other (fun rest hr => ?_)
  have honly := ho l rest e1 ok den
  have hq : ∀ t ∈ ts, quiet (.Terminator :: stops) t = true := e1 ▸ para_quiet ok
  have hp : paraB (.Terminator :: stops) [] (ts ++ rest) = (l, rest) := by
    rw [← e1]; exact paraB_exec ok np hr.stop (hr.calm _)
  have hts : ts ≠ [] := spv_ne (para_valid h) hs (para_ne h hne)
  obtain ⟨t, r, rfl⟩ := List.exists_cons_of_ne_nil hts
  have hqt := hq t (by simp)
  have hq1 : quiet stops t = true := by
    simp only [quiet, List.all_cons, Bool.and_eq_true] at hqt ⊢; exact hqt.2
  have hq2 : t.kind ≠ .Terminator := by
    simp only [quiet, List.all_cons, Bool.and_eq_true, quiet1] at hqt; simpa using hqt.1
  refine ⟨?_, ?_, honly.code, honly.coll, ?_, ?_⟩
  · refine quiet_stop hq1 ?_
    refine calm_append (fun u hu => ?_) (hr.calm _)
    have := hq u (by simp [hu])
    simp only [quiet, List.all_cons, Bool.and_eq_true] at this ⊢; exact this.2
  · show isTerminator t = false
    simpa [isTerminator] using hq2
  · rw [otherB_para honly, hp]
    simp only [Block.denote, den]
  · rw [otherB_para honly, hp]
    exact .inl rfl

/-- The first token of a view that starts with an escaped character. -/
theorem spv_head_esc {src : Str} {b : Bool} {t : Token} {ts : List Token} {c : Char} {v : V} (hv : Valid ((true, c) :: v))
    (h : SpV src b (t :: ts) ((true, c) :: v)) : t.kind = .Literal := by
  obtain ⟨p, v2, e, hs, hf, he⟩ := spv_head hv h
  rw [hs.kind]
  refine he ?_
  have hne := form_ne_nil hf
  unfold pview at e
  cases ht : p.text with
  | nil => exact absurd ht hne
  | cons d r =>
    rw [ht] at e
    simp only [List.cons_append, List.cons.injEq, Prod.mk.injEq] at e
    exact e.1.1.symm

theorem only_literal {stops t r} (h : t.kind = .Literal) : OnlyPara stops (t :: r) :=
  only_of_head (by simp [isBacktick3, h]) (by simp [isCollapsibleStart, h]) (by simp [isLeftCurly2, h])
    (.inl (by simp [isTwoBangs, h])) (.inl (notMarker (by simp [h]) (by simp [h]))) (.inl (by simp [isBang1, h]))
    (by simp [isDash5, h]) (.inl (by simp [isHash, h]))

theorem hid_paragraph {stops p} (h : exprBlock (.paragraph p) = true) : GoodV stops (.paragraph p) (hidPara p) := by
  simp only [exprBlock, Bool.and_eq_true, Bool.not_eq_true'] at h
  have hne : p ≠ [] := by simpa using h.1
  obtain ⟨hpv, hch⟩ := hidPara_ok (stops := .Terminator :: stops) (b := true) h.2
  have hall : p.all exprNode = true := by
    have := h.2; simp only [exprPara, Bool.and_eq_true] at this; exact this.1
  refine ⟨⟨para_valid hpv, para_ne hpv hne, fun src ts hs => ?_⟩, hidPara_cleanEnd hall, hidPara_cleanStart hall⟩
  refine para_reads_of hne hpv hch hs (fun l rest e1 ok den => ?_)
  cases l with
  | nil => simp [paraDenote] at den; exact absurd den hne
  | cons x l =>
    obtain ⟨t, r, e, htext, hother⟩ := inl_head (ok x (by simp))
    have ets : ts = t :: (r ++ paraToks l) := by
      rw [← e1, paraToks, List.flatMap_cons, e]; simp [paraToks]
    cases hx : isTextI x with
    | false =>
      obtain ⟨hk, hb, -⟩ := hother hx
      rw [ets]
      exact only_of_kind hb hk
    | true =>
      obtain ⟨rfl, -⟩ := htext hx
      rw [ets, List.cons_append]
      refine only_literal ?_
      rw [ets] at hs
      rw [← den] at hall hs hpv
      rw [paraDenote, List.map_cons, Inl.denote] at hall hs hpv
      have hn : textOfToks src (t :: r) ≠ [] := by
        rw [List.all_cons, Bool.and_eq_true] at hall
        simpa [exprNode] using hall.1
      obtain ⟨c, s, es⟩ := List.exists_cons_of_ne_nil hn
      have ev : hidPara (.text (textOfToks src (t :: r)) :: l.map (Inl.denote src)) =
          (true, c) :: (hid s ++ hidPara (l.map (Inl.denote src))) := by
        rw [es, hidPara, List.flatMap_cons]; rfl
      rw [ev] at hs hpv
      exact spv_head_esc (para_valid hpv) hs

/-! ### Headings -/

def HidHead (n : HeadingNode) (v : V) : Prop := exprHead n = true ∧ v = hidH n

theorem hidHead_shape (b : Bool) (n : HeadingNode) (v : V) (h : HidHead n v) :
    HasShape [] (headShape n) v ∧ ShapeOk [] (headShape n) := by
  obtain ⟨h, rfl⟩ := h
  cases n with
  | text s =>
    have : s ≠ [] := by simpa [exprHead] using h
    exact ⟨⟨hid_valid s, hid_ne this, fun _ h => absurd h (by simp)⟩, trivial⟩
  | anchor a =>
    obtain ⟨a1, a2, a3, a4⟩ := link_shape (hid_valid a.text) (hid_valid a.url)
    exact ⟨⟨a1, a2, a3, a4⟩, shapeOk_head _⟩

theorem hidHead_tree {stops} {src : Str} (n : HeadingNode) (v : V) (bs : Bool) (ts : List Token)
    (h : HidHead n v) (hs : SpV src bs ts v) :
    ∃ x : HeadItem, x.toks = ts ∧ (HeadItemOk stops x ∧ ∀ t, x = .text t → ∀ u ∈ t, u.kind = .Literal) ∧ x.denote src = n := by
  obtain ⟨h, rfl⟩ := h
  cases n with
  | text s =>
    have hne : s ≠ [] := by simpa [exprHead] using h
    refine ⟨.text ts, rfl, ⟨⟨spv_ne (hid_valid s) hs (hid_ne hne), fun t ht => spv_quiet (hid_valid s) hs hid_vq t ht⟩, ?_⟩, ?_⟩
    · rintro t e
      cases e
      exact hid_literal hs
    · simp only [HeadItem.denote]; rw [spv_text (hid_valid s) hs, hid_chars]
  | anchor a =>
    obtain ⟨x, e, ok, den⟩ := link_tree (stops := stops) hid_body hid_body hs
    exact ⟨.anchor x, e, ⟨ok, by simp⟩, by simp [HeadItem.denote, den]⟩

theorem heads_literal : ∀ {l : List HeadItem}, (∀ x ∈ l, ∀ t, x = .text t → ∀ u ∈ t, u.kind = .Literal) → HeadsPlain l
  | [], _ => trivial
  | .anchor k :: l, h => heads_literal (l := l) (fun x hx => h x (by simp [hx]))
  | .text ts :: l, h => by
    refine ⟨?_, heads_literal (fun x hx => h x (by simp [hx]))⟩
    rintro a t r e hb
    have := h (.text ts) (by simp) ts rfl t (by rw [e]; simp)
    simp [isLeftBracket, this] at hb

theorem hidHeads_seq : ∀ {l : List HeadingNode} {b : Bool}, l.all exprHead = true → SeqV (fun _ => HidHead) b l (l.flatMap hidH)
  | [], _, _ => rfl
  | n :: l, _, h => by
    rw [List.all_cons, Bool.and_eq_true] at h
    exact ⟨_, _, rfl, ⟨h.1, rfl⟩, hidHeads_seq h.2⟩

theorem hidHeads_tree {src stops b p ts} (h : p.all exprHead = true) (hc : Chain headShape p)
    (hs : SpV src b ts (p.flatMap hidH)) :
    ∃ l : List HeadItem, l.flatMap HeadItem.toks = ts ∧ (∀ x ∈ l, HeadItemOk stops x) ∧ HeadsPlain l ∧ NoPair isTextH l ∧
      l.map (HeadItem.denote src) = p := by
  obtain ⟨t, e, ot, dt⟩ := seq_tree (src := src) (den := HeadItem.denote src) (NV := fun _ => HidHead)
    (Ok := fun x => HeadItemOk stops x ∧ ∀ t, x = .text t → ∀ u ∈ t, u.kind = .Literal) hidHead_shape
    (fun _ n v bs ts h1 _ h3 => hidHead_tree (src := src) n v bs ts h1 h3) (hidHeads_seq (b := b) h) hc (fun _ _ _ => rfl) hs
  refine ⟨t, e, fun x hx => (ot x hx).1, heads_literal (fun x hx => (ot x hx).2), ?_, dt⟩
  rw [← dt] at hc
  refine noPair_of_chain (den := HeadItem.denote src) (f := isTextH) ?_ hc
  intro x hx
  cases x with
  | text ts => rfl
  | _ => simp [isTextH] at hx

theorem hidHeads_ends {p : List HeadingNode} (h : p.all exprHead = true) :
    CleanEnd (p.flatMap hidH) ∧ (p.flatMap hidH).head? ≠ some (false, ' ') := by
  constructor
  · by_cases hp : p = []
    · subst hp; simp [CleanEnd]
    · obtain ⟨b', n, w, e, hn, hl⟩ := seq_last hidHead_shape (hidHeads_seq (b := false) h) hp
      have hsh := (hidHead_shape b' n w hn).1
      unfold CleanEnd
      rw [hl]
      obtain ⟨-, rfl⟩ := hn
      cases n with
      | text s => exact hid_cleanEnd s
      | anchor a =>
        have := hsh.ends
        simp only [headShape] at this
        rw [this.2]; simp
  · cases p with
    | nil => simp
    | cons n p =>
      rw [List.all_cons, Bool.and_eq_true] at h
      have hsh := (hidHead_shape false n _ ⟨h.1, rfl⟩).1
      obtain ⟨x, r, e⟩ := List.exists_cons_of_ne_nil hsh.ne
      rw [List.flatMap_cons, e, List.cons_append, List.head?_cons]
      intro hx
      simp only [Option.some.injEq] at hx
      subst hx
      cases n with
      | text s => exact hid_notFree (s := s) (c := ' ') (by simp only [hidH] at e; rw [e]; simp)
      | anchor a => simp [hidH, linkV, free] at e

def headingV (level : Nat) (b : List HeadingNode) : V :=
  free (List.replicate level '#') ++ (free [' '] ++ b.flatMap hidH)

theorem hid_heading {c stops level b} (hi : Inside c stops) (h : exprBlock (.heading level b) = true) :
    GoodV stops (.heading level b) (headingV level b) := by
  simp only [exprBlock, Bool.and_eq_true, decide_eq_true_eq] at h
  obtain ⟨⟨⟨h1, h6⟩, hall⟩, hcl⟩ := h
  have hwv : Valid (b.flatMap hidH) := seq_valid hidHead_shape (hidHeads_seq (b := false) hall)
  have hhash : ∀ x ∈ List.replicate level '#', x = '#' := fun x hx => List.eq_of_mem_replicate hx
  have hvh : Valid (free (List.replicate level '#')) := valid_free (fun hm => by have := hhash _ hm; simp at this)
  obtain ⟨n, rfl⟩ : ∃ n, level = n + 1 := ⟨level - 1, by omega⟩
  have htok : tok1 (List.replicate (n + 1) '#') = some (⟨false, .Hash, List.replicate (n + 1) '#'⟩, []) := by
    have e1 : (List.replicate n '#').takeWhile (· == '#') = List.replicate n '#' := by simp
    have e2 : (List.replicate n '#').dropWhile (· == '#') = [] := by simp
    rw [List.replicate_succ, tok1.eq_def]
    simp only
    rw [if_neg (by decide)]
    simp only [lineBreak, tokPlain, runKind]
    simp [e1]
  have hj1 : Join (free (List.replicate (n + 1) '#')) (free [' '] ++ b.flatMap hidH) := by
    refine join_after (c := '#') hvh ?_ (by decide) (by decide) (by simp) (.inr (by simp [free]))
    rw [free_getLast, List.getLast?_replicate]; simp
  have hj2 : Join (free [' ']) (b.flatMap hidH) := by
    refine join_known (l := []) (p := ⟨false, .Space, [' ']⟩) (valid_free (by decide)) (pieces_one rfl) ?_
    have hh := (hidHeads_ends hall).2
    simp only [joinOk, runCharOf, bne_iff_ne, ne_eq]
    intro e
    exact hh (render_head (by decide) e)
  refine ⟨⟨?_, ?_, ?_⟩, ?_, ?_⟩
  · exact hvh.append ((valid_free (by decide)).append hwv)
  · simp [free, headingV]
  · intro src ts hs
    obtain ⟨t1, t2, rfl, s1, s2⟩ := spv_split hvh hj1 hs
    obtain ⟨t, rfl, st⟩ := spv_one (p := ⟨false, .Hash, List.replicate (n + 1) '#'⟩) (by rw [render_free_all]; exact htok) s1
    obtain ⟨t3, t4, rfl, s3, s4⟩ := spv_split (valid_free (by decide)) hj2 s2
    obtain ⟨u, rfl, su⟩ := spv_one (p := ⟨false, .Space, [' ']⟩) rfl s3
    have hfl : ∀ b, flag b (free [' ']) = false := fun b => rfl
    rw [hfl] at s4
    obtain ⟨l, rfl, ok, pl, np, den⟩ := hidHeads_tree (stops := .Terminator :: stops) hall (chainH hcl) s4
    have hk : t.kind = .Hash := st.kind
    have hl : t.len = n + 1 := by
      rw [st.len]
      have : ∀ n, blen (List.replicate n '#') = n := by
        intro n
        induction n with
        | zero => rfl
        | succ n ih => rw [List.replicate_succ, blen, ih]; simp only [show '#'.utf8Size = 1 from rfl]; omega
      exact this _
    have hu : isSpace1 u = true := by simp [isSpace1, su.kind, su.len]; rfl
    refine reads_other (fun rest hr => ?_)
    have hb := headB_reads ok pl np hr
    have e : otherB stops ([t] ++ ([u] ++ l.flatMap HeadItem.toks) ++ rest) = (.heading [t, u] l, rest) := by
      simp only [List.cons_append, List.nil_append]
      rw [otherB_leaf (by simp [hk]) (by simp [isTwoBangs, hk]), leafB_noitem (notMarker (by simp [hk]) (by simp [hk])) (by simp [hk])]
      rw [thematicB, if_neg (by simp [isDash5, hk]), headingB, tokenIs_zero, tokenIs_one, hu,
        show isHash t = true by simp [isHash, hk, st.col, hl]; omega]
      simp only [Bool.and_self, if_true, List.take_succ_cons, List.take_zero, List.drop_succ_cons, List.drop_zero]
      rw [hb]
    refine ⟨stop_kind hi.1 (by simp [hk]) (by simp [hk]), by simp [tokenIs, isTerminator, hk],
      codeB_no (by simp [hk]), by simp [tokenIs, isCollapsibleStart, hk], ?_, ?_⟩
    · rw [e]
      simp only [Block.denote, den]
      congr 1
      rw [headLevel, text_cons, text_cons, st.text, su.text]
      simp only
      rw [List.takeWhile_append_of_pos (by simp)]
      simp [textOfToks]
      omega
    · rw [e]; exact .inl rfl
  · by_cases hb : b.flatMap hidH = []
    · simp [CleanEnd, headingV, hb, free, List.getLast?_append]
    · unfold CleanEnd headingV
      rw [last_append (by simp [hb]), last_append hb]
      exact (hidHeads_ends hall).1
  · constructor <;> simp [headingV, List.replicate_succ, free]

theorem render_headingV (level : Nat) (b : List HeadingNode) :
    render (headingV level b) = List.replicate level '#' ++ cs! " " ++ b.flatMap spellH := by
  simp only [headingV, render_append, render_free_all, render_flat render_hidH, List.append_assoc]

end Yamd.Round
