import Verif.Proofs.Exact.Cut
import Verif.Proofs.Exact.Heading
import Verif.Proofs.Exact.Code
import Verif.Proofs.Exact.HlShow
import Verif.Proofs.LayoutDoc
import Verif.Spec.Simple

/-!
# A document that is read back does not start with a blank line
-/

namespace Yamd.Round

open Yamd Yamd.Spec Yamd.Lexer Yamd.Ref

/-- What is known of the tokens of a text, some of them read as text. -/
theorem live_flips {input : Str} {l : List Token} (hf : Flips (tokens input) l) : Live input l := by
  refine ⟨?_, fun t ht hk => lexed_tokens (hf.mem t ht hk), ?_⟩
  · intro t ht
    have : ∃ u ∈ tokens input, FlipRel u t := by
      obtain ⟨l1, l2, e⟩ := List.append_of_mem ht
      rw [e] at hf
      obtain ⟨m1, m2, e2, -, h2⟩ := hf.split
      cases h2 with
      | cons h3 h4 => exact ⟨_, by rw [e2]; simp, h3⟩
    obtain ⟨u, hu, hr⟩ := this
    rw [hr.slice_eq]
    obtain ⟨s, h1, h2, -⟩ := lexed_tokens hu
    rw [h1]
    exact form_ne_nil h2
  · intro l1 a b l2 e hk
    rw [e] at hf
    obtain ⟨m1, a', b', m2, e2, ha, hb⟩ := hf.split2
    cases hr : runCharOf a.kind with
    | none => rfl
    | some c =>
      exfalso
      have hl : a.kind ≠ .Literal := by intro h; rw [h] at hr; simp [runCharOf] at hr
      have ea := flipRel_kind ha hl
      have eb := flipRel_kind hb (by rw [← hk]; exact hl)
      subst ea eb
      have hesc : b'.escaped = false := by
        cases he : b'.escaped with
        | false => rfl
        | true =>
          have hm : b' ∈ tokens input := by rw [e2]; simp
          obtain ⟨x, p, y, f1, f2, f3, f4, f5, f6, -⟩ := Props.tokens_facts hm
          have := (pieces_form _ p f4).2 (by rw [← f6]; exact he)
          rw [hk, f5, this] at hl; exact absurd rfl hl
      exact Props.place_chain input 0 0 0 m1 a' b' m2 e2 hesc (.inl ⟨hk, .inl (by rw [hr]; simp)⟩)

/-! ### The line breaks at the start of a text -/

/-- A character of a line break. -/
def brk (c : Char) : Bool := c == '\n' || c == '\r'

/-- How many characters of line breaks a text starts with. -/
def lead (s : Str) : Nat := (s.takeWhile brk).length

theorem lead_all {a : Str} (h : a.all brk = true) (b : Str) : lead (a ++ b) = a.length + lead b := by
  unfold lead
  rw [List.takeWhile_append_of_pos (by simpa using h), List.length_append]

theorem lead_some : ∀ {a : Str}, a.all brk = false → ∀ b, lead (a ++ b) = lead a
  | [], h, _ => by simp at h
  | c :: a, h, b => by
    unfold lead
    rw [List.cons_append, List.takeWhile_cons, List.takeWhile_cons]
    cases hc : brk c with
    | false => rfl
    | true =>
      have h' : a.all brk = false := by simpa [hc] using h
      have := lead_some h' b
      unfold lead at this
      simp [this]

theorem lead_zero {c : Char} {s : Str} (h : brk c = false) : lead (c :: s) = 0 := by
  unfold lead
  rw [List.takeWhile_cons, h]; rfl

/-- The views of the blocks of a body. -/
def Shown (l : List YamdNode) (vs : List V) : Prop := l.map dispB = vs.map render ∧ ∀ v ∈ vs, Valid v

/-- The view of a plain block that was read. -/
theorem block_shown {src : Str} {b : Block} (hb : b.Ok) (hl : Live src b.toks) (hn : isPlain (b.denote src) = true) :
    ∃ v, dispB (b.denote src) = render v ∧ Valid v ∧
      (((∃ l, b = .para l) ∧ textOfToks src b.toks = v.map Prod.snd) ∨ ∃ c r, v = (false, c) :: r ∧ brk c = false) := by
  cases b with
  | para l =>
    obtain ⟨s1, s2⟩ := para_solid hb hl
    have htext := para_text hb.1 hl
    obtain ⟨v, ev, -, hv⟩ := escapeLeading_view (v := paraW (paraDenote src l))
    refine ⟨v, ?_, ?_, .inl ⟨⟨l, rfl⟩, ?_⟩⟩
    · rw [← ev, ← paraW_solid s1]; rfl
    · rcases hv with rfl | ⟨rfl, -⟩
      · exact paraW_valid _
      · exact (more_mark1 _).valid (paraW_valid _)
    · rw [Block.toks, htext]
      rcases hv with rfl | ⟨rfl, c, -, hc⟩
      · rfl
      · cases hq : paraW (paraDenote src l) with
        | nil => rfl
        | cons x r => simp [mark1]
  | heading m l =>
    obtain ⟨hm, okh⟩ := hb
    have hlevel := heading_level (hl.infix ⟨[], l.flatMap HeadItem.toks, by simp [Block.toks]⟩ : Live src m) hm
    generalize hlv : headLevel src m = level at hlevel
    generalize hB : l.map (HeadItem.denote src) = B
    have hvh : Valid (free (List.replicate level '#')) := valid_free (fun hm => by have := List.eq_of_mem_replicate hm; simp at this)
    refine ⟨free (List.replicate level '#') ++ (free [' '] ++ B.flatMap headW), ?_, hvh.append ((valid_free (by decide)).append (headsW_valid B)),
      .inr ?_⟩
    · rw [Block.denote, hlv, hB, render_append, render_append, render_free_all, render_free_all]
      show displayHeading level B = _
      rw [displayHeading, headsW_eq]; rfl
    · obtain ⟨k, rfl⟩ : ∃ k, level = k + 1 := ⟨level - 1, by omega⟩
      exact ⟨'#', _, by rw [List.replicate_succ]; rfl, rfl⟩
  | images l =>
    have key : ∀ l : List Image, l ≠ [] → ∃ c r, imgsV l = (false, c) :: r ∧ brk c = false := by
      intro l hl
      match l with
      | [] => exact absurd rfl hl
      | [i] => exact ⟨'!', _, rfl, rfl⟩
      | i :: j :: r => exact ⟨'!', _, rfl, rfl⟩
    match l, hb with
    | [], hb => exact absurd rfl hb.1
    | [i], _ => exact ⟨imgsV [i.denote src], image_eq _, imgsV_valid _, .inr (key _ (by simp))⟩
    | i :: j :: l, _ => exact ⟨imgsV ((i :: j :: l).map (Img.denote src)), imgsV_eq _, imgsV_valid _, .inr (key _ (by simp))⟩
  | code o m body c =>
    simp only [Block.denote, YamdNode.newCode]
    generalize (modDenote src m).getD [] = lang
    generalize trimEndNl (trimEndNl (textOfToks src body)) = code
    refine ⟨free ['`', '`', '`'] ++ (langV lang ++ (free ['\n'] ++ (codeV code ++ (free ['\n'] ++ free ['`', '`', '`'])))), ?_, ?_,
      .inr ⟨'`', _, rfl, rfl⟩⟩
    · show displayCode lang code = _
      unfold displayCode
      rw [langV_eq, codeV_eq]
      simp only [render_append, render_free_all]
      simp
    · exact (valid_free (by decide)).append ((markSet_valid (by simp) _).append ((valid_free (by decide)).append
        ((codeV_valid code).append ((valid_free (by decide)).append (valid_free (by decide))))))
  | embed o l p r c =>
    refine ⟨embedV (textOfToks src l) (textOfToks src r), embedV_eq _ _, ?_, .inr ⟨'{', _, rfl, rfl⟩⟩
    exact (embed_reads (c := false) (stops := []) Inside.top (by simp [noCloseLine])).valid
  | thematic t => exact ⟨free (cs! "-----"), rfl, valid_free (by decide), .inr ⟨'-', _, rfl, rfl⟩⟩
  | list i =>
    obtain ⟨ok, hne⟩ := hb
    refine ⟨listV [] (.mk (listType (i.kind.getD .Unordered)) 0 (i.denote src 0)), list_written ok hl, listV_valid _, .inr ?_⟩
    obtain ⟨r, e⟩ := listV_marker (M := []) (ty := listType (i.kind.getD .Unordered)) (l := i.denote src 0)
      (by cases i with
        | nil => exact absurd rfl hne
        | cons => simp [Items.denote])
    exact ⟨_, r, e, by cases listType (i.kind.getD .Unordered) <;> rfl⟩
  | highlight o m i b c =>
    obtain ⟨-, -, -, ok, -⟩ := hb
    obtain ⟨vs, hvs⟩ := hvs_of (hparas_solid ok (hl.infix ⟨o ++ (modToks m ++ iconToks i), c, by simp [Block.toks]⟩))
    exact ⟨hlV (modDenote src m) (iconDenote src i) vs, hlV_eq hvs.shown, hvs.all, .inr ⟨'!', _, rfl, rfl⟩⟩

theorem joinV_cons (v : V) (vs : List V) : joinV (v :: vs) = v ++ (if vs = [] then [] else free ['\n', '\n'] ++ joinV vs) := by
  cases vs with
  | nil => simp [joinV]
  | cons w vs => simp [joinV]

def isTerm : Doc → Bool
  | .term .. => true
  | _ => false

theorem term_text {src : Str} {t : Token} (hl : Live src [t]) (ht : isTerminator t = true) :
    (sliceD src t).all brk = true ∧ 2 ≤ (sliceD src t).length := by
  have hk : t.kind = .Terminator := by simpa [isTerminator] using ht
  obtain ⟨s, h1, h2, -⟩ := hl.lexed t (by simp) (by rw [hk]; decide)
  rw [h1]
  rw [hk] at h2
  obtain ⟨a, b, ha, hb, rfl⟩ := h2
  rcases ha with rfl | rfl <;> rcases hb with rfl | rfl <;> decide

theorem head_free {v : V} {c : Char} {q : Str} (hc : c ≠ '\\') (he : render v = c :: q) : ∃ r, v = (false, c) :: r := by
  cases v with
  | nil => simp [render] at he
  | cons x r =>
    obtain ⟨f, y⟩ := x
    cases f with
    | true => rw [render_esc] at he; simp only [List.cons.injEq] at he; exact absurd he.1.symm hc
    | false => rw [render_free] at he; simp only [List.cons.injEq] at he; exact ⟨r, by rw [he.1]⟩

theorem coll_brace (t : Str) (b : List YamdNode) : ∃ q, dispB (.collapsible t b) = '{' :: q := by
  simp only [dispB, YamdNode.display]
  exact ⟨_, rfl⟩

theorem denote_para {src : Str} {b : Block} {p : Paragraph} (den : b.denote src = .paragraph p) : ∃ l, b = .para l := by
  cases b with
  | para l => exact ⟨l, rfl⟩
  | images l =>
    match l with
    | [] => simp [Block.denote] at den
    | [i] => simp [Block.denote] at den
    | i :: j :: l => simp [Block.denote] at den
  | _ => simp [Block.denote, YamdNode.newCode] at den

/-- The first block of what was read: a paragraph, or a block that starts with the character of its own mark. -/
theorem doc_head {src : Str} {n : YamdNode} {l : List YamdNode} {v : V} (hv : Valid v) (e : dispB n = render v) : ∀ {D : Doc}, D.Ok →
    Live src D.toks → (D.denote src).all isPlain = true → D.denote src = n :: l →
    (∃ p, n = .paragraph p ∧ p.all solid = true) ∨ (∀ p, n ≠ .paragraph p) ∧ ∃ c r, v = (false, c) :: r ∧ brk c = false
  | .nil, _, _, _, h => by simp [Doc.denote] at h
  | .term t D, ok, live, hs, h => doc_head hv e (D := D) ok.2 (live.infix ⟨[t], [], by simp [Doc.toks]⟩) hs h
  | .block b D, ok, live, hs, h => by
    have lb : Live src b.toks := live.infix ⟨[], D.toks, by simp [Doc.toks]⟩
    simp only [Doc.denote, List.cons.injEq] at h
    simp only [Doc.denote, List.all_cons, Bool.and_eq_true] at hs
    obtain ⟨v', h1, h2, h3⟩ := block_shown ok.1 lb hs.1
    rw [h.1] at h1
    have ev : v = v' := render_inj hv h2 (by rw [← e, h1])
    subst ev
    by_cases hn : ∃ l, b = .para l
    · obtain ⟨q, rfl⟩ := hn
      exact .inl ⟨_, h.1.symm, (para_solid ok.1 lb).1⟩
    · rcases h3 with ⟨h3, -⟩ | h3
      · exact absurd h3 hn
      · refine .inr ⟨fun p e => hn ?_, h3⟩
        have den := h.1
        rw [e] at den
        exact denote_para den
  | .coll o m i s c D, _, _, _, h => by
    simp only [Doc.denote, List.cons.injEq] at h
    obtain ⟨q, he⟩ := coll_brace ((modDenote src m).getD []) (Doc.denote src i)
    rw [h.1, e] at he
    obtain ⟨r, e⟩ := head_free (by decide) he
    exact .inr ⟨fun p e => by rw [← h.1] at e; simp at e, _, r, e, rfl⟩

/-- A text starts with at least as many line breaks as the document it is read as shows, with more if it starts with a blank line. -/
theorem lead_doc {src : Str} {rest : List Token} : ∀ {D : Doc} {vs : List V}, D.Ok → D.Lay rest → Live src D.toks →
    (D.denote src).all isPlain = true → Shown (D.denote src) vs →
    lead ((joinV vs).map Prod.snd) + (if isTerm D then 2 else 0) ≤ lead (textOfToks src D.toks)
  | .nil, vs, _, _, _, _, hs => by
    have : vs = [] := by
      have := hs.1
      simpa [Doc.denote] using this
    subst this
    simp [joinV, lead, isTerm]
  | .term t D, vs, ok, lay, live, hsim, hs => by
    have ih := lead_doc (vs := vs) ok.2 lay (live.infix ⟨[t], [], by simp [Doc.toks]⟩ : Live src D.toks) hsim hs
    obtain ⟨h1, h2⟩ := term_text (live.infix ⟨[], D.toks, by simp [Doc.toks]⟩ : Live src [t]) ok.1
    rw [Doc.toks, text_cons, lead_all h1]
    simp only [isTerm, if_true]
    omega
  | .block b D, vs, ok, lay, live, hsim, hs => by
    have lb : Live src b.toks := live.infix ⟨[], D.toks, by simp [Doc.toks]⟩
    have lD : Live src D.toks := live.infix ⟨b.toks, [], by simp [Doc.toks]⟩
    simp only [Doc.denote, List.all_cons, Bool.and_eq_true] at hsim
    obtain ⟨v, hv1, hv2, hv3⟩ := block_shown ok.1 lb hsim.1
    obtain ⟨hs1, hs2⟩ := hs
    cases vs with
    | nil => simp [Doc.denote] at hs1
    | cons v' vs =>
      simp only [Doc.denote, List.map_cons, List.cons.injEq] at hs1
      have ev : v' = v := render_inj (hs2 v' (by simp)) hv2 (by rw [← hs1.1, hv1])
      subst ev
      have hsD : Shown (D.denote src) vs := ⟨hs1.2, fun w hw => hs2 w (by simp [hw])⟩
      have ih := lead_doc (vs := vs) ok.2 lay.2.2 lD hsim.2 hsD
      simp only [isTerm, Bool.false_eq_true, if_false, Nat.add_zero]
      rw [Doc.toks, text_append, joinV_cons, List.map_append]
      rcases hv3 with ⟨⟨l, rfl⟩, ht⟩ | ⟨c, r, rfl, hc⟩
      · rw [ht]
        cases ha : (v'.map Prod.snd).all brk with
        | false => rw [lead_some ha, lead_some ha]; exact Nat.le_refl _
        | true =>
          rw [lead_all ha, lead_all ha]
          refine Nat.add_le_add_left ?_ _
          by_cases hvs : vs = []
          · rw [if_pos hvs]; simp [lead]
          · rw [if_neg hvs]
            have hD : isTerm D = true := by
              have hnext := lay.2.1
              cases D with
              | nil =>
                have := hsD.1
                simp [Doc.denote] at this
                exact absurd this hvs
              | term t D => rfl
              | block b' D => have := hnext.1; simp [Block.isText] at this
              | coll _ _ _ _ _ D => have := hnext.1; simp [Block.isText] at this
            rw [hD, if_pos rfl] at ih
            rw [List.map_append, free_chars, lead_all (by decide)]
            simp only [List.length_cons, List.length_nil]
            omega
      · simp only [List.map_cons, List.cons_append]
        rw [lead_zero hc]
        exact Nat.zero_le _
  | .coll o m i s c D, vs, ok, lay, live, hsim, hs => by
    obtain ⟨hs1, hs2⟩ := hs
    cases vs with
    | nil => simp [Doc.denote] at hs1
    | cons v' vs =>
      simp only [Doc.denote, List.map_cons, List.cons.injEq] at hs1
      obtain ⟨q, he⟩ := coll_brace ((modDenote src m).getD []) (Doc.denote src i)
      rw [hs1.1] at he
      obtain ⟨r, rfl⟩ := head_free (by decide) he
      rw [joinV_cons]
      simp only [isTerm, Bool.false_eq_true, if_false, Nat.add_zero, List.cons_append, List.map_cons]
      rw [lead_zero rfl]
      exact Nat.zero_le _

end Yamd.Round
