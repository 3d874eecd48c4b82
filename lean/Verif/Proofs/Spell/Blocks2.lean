import Verif.Proofs.Spell.Blocks

/-!
# Images, embeds and code whose content is escaped throughout
-/

namespace Yamd.Round

open Yamd Yamd.Spec Yamd.Lexer Yamd.Ref

/-! ### Images -/

def hidImg (i : Image) : V := free ['!'] ++ linkV (hid i.alt) (hid i.src)

theorem render_hidImg (i : Image) : render (hidImg i) = spellImage i := by
  rw [hidImg, render_append, render_link, render_free_all]; rfl

def hidImgs : List Image → V
  | [] => []
  | [i] => hidImg i
  | i :: j :: r => hidImg i ++ (free ['\n'] ++ hidImgs (j :: r))

theorem hidImg_valid (i : Image) : Valid (hidImg i) :=
  (valid_free (by decide)).append (link_shape (hid_valid i.alt) (hid_valid i.src)).1

theorem hidImg_clean (i : Image) : CleanEnd (hidImg i) := by
  have h := link_shape (hid_valid i.alt) (hid_valid i.src)
  unfold CleanEnd hidImg
  rw [last_append h.2.1, h.2.2.2]
  simp

theorem hidImg_head (i : Image) : (hidImg i).head? = some (false, '!') := rfl

theorem hidImgs_head : ∀ l : List Image, l ≠ [] → (hidImgs l).head? = some (false, '!')
  | [], h => absurd rfl h
  | [_], _ => rfl
  | _ :: _ :: _, _ => rfl

theorem hidImgs_valid : ∀ l : List Image, Valid (hidImgs l)
  | [] => by simp [hidImgs, Valid]
  | [i] => hidImg_valid i
  | i :: j :: r => (hidImg_valid i).append ((valid_free (by decide)).append (hidImgs_valid (j :: r)))

theorem hidImgs_clean : ∀ l : List Image, CleanEnd (hidImgs l)
  | [] => by simp [hidImgs, CleanEnd]
  | [i] => hidImg_clean i
  | i :: j :: r => by
    have ih := hidImgs_clean (j :: r)
    have hne : hidImgs (j :: r) ≠ [] := by
      intro e
      have := hidImgs_head (j :: r) (by simp)
      rw [e] at this; simp at this
    unfold CleanEnd
    rw [hidImgs, last_append (by simp [hne]), last_append hne]
    exact ih

theorem hidImg_tree {src b ts S i} (hs : SpV src b ts (hidImg i)) :
    ∃ t l, ts = t :: Link.toks l ∧ SpT src b t ⟨false, .Bang, ['!']⟩ ∧ LinkOk S l ∧ l.denote src = ⟨i.alt, i.src⟩ := by
  have hj : Join (free ['!']) (linkV (hid i.alt) (hid i.src)) :=
    join_after (c := '!') (valid_free (by decide)) rfl (by decide) (by decide) (by simp) (.inr (by simp [linkV, free]))
  obtain ⟨t1, t2, rfl, s1, s2⟩ := spv_split (valid_free (by decide)) hj hs
  obtain ⟨t, rfl, st⟩ := spv_one (p := ⟨false, .Bang, ['!']⟩) rfl s1
  obtain ⟨l, rfl, ok, den⟩ := link_tree (stops := S) hid_body hid_body s2
  exact ⟨t, l, rfl, st, ok, den⟩

theorem hidImgs_exec {src stops} : ∀ {l : List Image} {b : Bool} {ts : List Token},
    l ≠ [] → SpV src b ts (hidImgs l) → ∀ rest, Bd stops rest →
    ∃ (is : List Img) (r : List Token), imagesB (.Terminator :: stops) (ts ++ rest) = some (is, r) ∧
      is.map (Img.denote src) = l ∧ (r = rest ∨ ∃ e, rest = e :: r ∧ e.kind = .Eol)
  | [], _, _, h, _, _, _ => absurd rfl h
  | [i], b, ts, _, hs, rest, hr => by
    obtain ⟨t, l, rfl, st, ok, den⟩ := hidImg_tree hs
    have hlink : linkB (.Terminator :: stops) (l.toks ++ rest) = some (l, rest) := linkB_exec ok (hr.calm _)
    have hden : ∀ x, Img.denote src ⟨t, l, x⟩ = i := by
      intro x
      simp only [Link.denote, Anchor.mk.injEq] at den
      simp [Img.denote, den.1, den.2]
    cases hr with
    | nil =>
      refine ⟨[⟨t, l, []⟩], [], ?_, by simp [hden], .inl rfl⟩
      rw [imagesB_some (i := ⟨t, l, []⟩) (r := [])]
      · rw [imagesB_none (by rfl)]; simp [stopAt]
      · rw [List.cons_append, imageB, if_pos (bang1_of st), hlink]; simp [tokenIs, stopAt]
    | term e r h =>
      refine ⟨[⟨t, l, []⟩], e :: r, ?_, by simp [hden], .inl rfl⟩
      have hstop : stopAt (.Terminator :: stops) (e :: r) = true := (Bd.term e r h : Bd stops _).stop
      rw [imagesB_some (i := ⟨t, l, []⟩) (r := e :: r)]
      · rw [imagesB_none (by rw [imageB, if_neg (by simp [isBang1, h])]), if_pos hstop]; rfl
      · rw [List.cons_append, imageB, if_pos (bang1_of st), hlink]; simp [tokenIs, hstop, isEol, h]
    | close e c r hm he hc h0 =>
      refine ⟨[⟨t, l, [e]⟩], c :: r, ?_, by simp [hden], .inr ⟨e, rfl, he⟩⟩
      have hstop : stopAt (.Terminator :: stops) (c :: r) = true := by
        simp only [stopAt, List.any_eq_true]
        exact ⟨.CollapsibleEnd, by simp [hm], by simp [stopHere, hc, h0]⟩
      rw [imagesB_some (i := ⟨t, l, [e]⟩) (r := c :: r)]
      · rw [imagesB_none (by rw [imageB, if_neg (by simp [isBang1, hc])]), if_pos hstop]; rfl
      · rw [List.cons_append, imageB, if_pos (bang1_of st), hlink]; simp [tokenIs, isEol, he]
  | i :: j :: l', b, ts, _, hs, rest, hr => by
    obtain ⟨t1, t2, rfl, s1, s2⟩ := spv_split (hidImg_valid i) (join_nl (hidImg_valid i) (hidImg_clean i)) hs
    obtain ⟨t3, t4, rfl, s3, s4⟩ := spv_split (valid_free (by decide))
      (join_eol (cleanStart_of_head (hidImgs_head (j :: l') (by simp)) (by decide) (by decide))) s2
    obtain ⟨e, rfl, se⟩ := spv_one (p := ⟨false, .Eol, ['\n']⟩) rfl s3
    obtain ⟨t, l, rfl, st, ok, den⟩ := hidImg_tree s1
    obtain ⟨is, r, e1, e2, e3⟩ := hidImgs_exec (by simp) s4 rest hr
    have he : e.kind = .Eol := se.kind
    have hc : Calm (.Terminator :: stops) (e :: (t4 ++ rest)) := by
      intro _; simp [closesColl, tokenIs, he]
    have hlink : linkB (.Terminator :: stops) (l.toks ++ (e :: (t4 ++ rest))) = some (l, e :: (t4 ++ rest)) := linkB_exec ok hc
    have hden : ∀ x, Img.denote src ⟨t, l, x⟩ = i := by
      intro x
      simp only [Link.denote, Anchor.mk.injEq] at den
      simp [Img.denote, den.1, den.2]
    refine ⟨⟨t, l, [e]⟩ :: is, r, ?_, by simp [hden, e2], e3⟩
    have e4 : t :: l.toks ++ ([e] ++ t4) ++ rest = t :: (l.toks ++ (e :: (t4 ++ rest))) := by simp
    rw [e4, imagesB_some (i := ⟨t, l, [e]⟩) (r := t4 ++ rest), e1]
    · rfl
    · rw [imageB, if_pos (bang1_of st), hlink]; simp [tokenIs, isEol, he]

theorem hidImgs_reads {c stops} (hi : Inside c stops) {l : List Image} (hl : l ≠ [])
    {n : YamdNode} (hn : ∀ src is, is.map (Img.denote src) = l → Block.denote src (.images is) = n) : BlockV stops n (hidImgs l) := by
  refine ⟨hidImgs_valid l, ?_, ?_⟩
  · intro e
    have := hidImgs_head l hl
    rw [e] at this; simp at this
  · intro src ts hs
    refine reads_other (fun rest hr => ?_)
    obtain ⟨is, r, e1, e2, e3⟩ := hidImgs_exec hl hs rest hr
    have hne : ts ≠ [] := spv_ne (hidImgs_valid l) hs (by
      intro e
      have := hidImgs_head l hl
      rw [e] at this; simp at this)
    obtain ⟨t, ts', rfl⟩ := List.exists_cons_of_ne_nil hne
    -- the first token is one bang
    have ht : t.kind = .Bang ∧ t.len = 1 := by
      have hsplit : ∃ w, hidImgs l = hidImg (l.head hl) ++ w ∧ Join (hidImg (l.head hl)) w := by
        match l, hl with
        | [i], _ => exact ⟨[], by simp [hidImgs], join_nil_right _⟩
        | i :: j :: r, _ => exact ⟨free ['\n'] ++ hidImgs (j :: r), rfl, join_nl (hidImg_valid i) (hidImg_clean i)⟩
      obtain ⟨w, ew, hj⟩ := hsplit
      rw [ew] at hs
      obtain ⟨t1, t2, e, s1, -⟩ := spv_split (hidImg_valid _) hj hs
      obtain ⟨t0, l0, rfl, st, -, -⟩ := hidImg_tree (S := []) s1
      simp only [List.cons_append, List.cons.injEq] at e
      rw [e.1]
      exact ⟨st.kind, st.len⟩
    have e : otherB stops (t :: ts' ++ rest) = (.images is, r) := by
      rw [List.cons_append, otherB_leaf (by simp [ht.1]) (by simp [isTwoBangs, ht.2])]
      unfold leafB
      rw [List.cons_append] at e1
      rw [itemsB_none (markerB_no (notMarker (by simp [ht.1]) (by simp [ht.1]))), e1]
      cases is with
      | nil => simp at e2; exact absurd e2 hl
      | cons i is => rfl
    refine ⟨stop_kind hi.1 (by simp [ht.1]) (by simp [ht.1]), by simp [tokenIs, isTerminator, ht.1],
      codeB_no (by simp [ht.1]), by simp [tokenIs, isCollapsibleStart, ht.1], ?_, ?_⟩
    · rw [e]; exact hn src is e2
    · rw [e]; exact e3

theorem render_hidImgs : ∀ l : List Image, render (hidImgs l) = joinWith (cs! "\n") (l.map spellImage)
  | [] => rfl
  | [i] => render_hidImg i
  | i :: j :: r => by
    have ih := render_hidImgs (j :: r)
    simp only [List.map_cons] at ih ⊢
    rw [hidImgs, render_append, render_append, ih, joinWith, render_hidImg, render_free_all, List.append_assoc]

theorem hid_image {c stops i} (hi : Inside c stops) : GoodV stops (.image i) (hidImgs [i]) := by
  refine ⟨hidImgs_reads hi (by simp) ?_, hidImgs_clean _,
    cleanStart_of_head (hidImgs_head [i] (by simp)) (by decide) (by decide)⟩
  intro src is hm
  cases is with
  | nil => simp at hm
  | cons x r =>
    cases r with
    | nil => simp at hm; simp [Block.denote, hm]
    | cons y r => simp at hm

theorem hid_images {c stops l} (hi : Inside c stops) (h : exprBlock (.images l) = true) :
    GoodV stops (.images l) (hidImgs l) := by
  simp only [exprBlock, decide_eq_true_eq] at h
  have hl : l ≠ [] := by intro e; subst e; simp at h
  refine ⟨hidImgs_reads hi hl ?_, hidImgs_clean _,
    cleanStart_of_head (hidImgs_head l hl) (by decide) (by decide)⟩
  intro src is hm
  match is, hm with
  | [], hm => simp at hm; exact absurd hm hl
  | [x], hm =>
    have : l.length = 1 := by rw [← hm]; rfl
    omega
  | x :: y :: r, hm => simp only [Block.denote, hm]

/-! ### Embeds -/

def hidEmbed (kind args : Str) : V := free ['{', '{'] ++ (hid kind ++ (free ['|'] ++ (hid args ++ free ['}', '}'])))

theorem render_hidEmbed (kind args : Str) : render (hidEmbed kind args) = cs! "{{" ++ hide kind ++ cs! "|" ++ hide args ++ cs! "}}" := by
  simp only [hidEmbed, render_append, render_free_all, render_hid, List.append_assoc]

theorem hid_embed_block {c stops kind args} (hi : Inside c stops) : BlockV stops (.embed kind args) (hidEmbed kind args) := by
  have vk := hid_valid kind
  have va := hid_valid args
  have nk : (false, '|') ∉ hid kind := hid_notFree
  have nk2 : (false, '{') ∉ hid kind := hid_notFree
  have na : (false, '}') ∉ hid args := hid_notFree
  have na2 : (false, '%') ∉ hid args := hid_notFree
  have qk : VQ stops false (hid kind) := hid_vq
  have qa : VQ stops false (hid args) := hid_vq
  refine ⟨(valid_free (by decide)).append (vk.append ((valid_free (by decide)).append (va.append (valid_free (by decide))))),
    by simp [hidEmbed, free], ?_⟩
  intro src ts hs
  have j1 : Join (free ['{', '{']) (hid kind ++ (free ['|'] ++ (hid args ++ free ['}', '}']))) := by
    refine join_known (l := []) (p := ⟨false, .LeftCurlyBrace, ['{', '{']⟩) (valid_free (by decide)) (pieces_one rfl) ?_
    simp only [joinOk, bne_iff_ne, ne_eq, Bool.and_eq_true, List.length_cons, List.length_nil]
    refine ⟨fun e => ?_, by simp⟩
    have := render_head (by decide) e
    cases hh : hid kind with
    | nil => rw [hh] at this; simp [free] at this
    | cons x r =>
      rw [hh] at this
      simp only [List.cons_append, List.head?_cons, Option.some.injEq] at this
      rw [hh, this] at nk2; simp at nk2
  have j2 : Join (hid kind) (free ['|'] ++ (hid args ++ free ['}', '}'])) :=
    join_stop (c := '|') vk rfl (by decide) (notFree_last nk) (by simp) (by simp)
  have j3 : Join (free ['|']) (hid args ++ free ['}', '}']) :=
    join_after (c := '|') (valid_free (by decide)) rfl (by decide) (by decide) (by simp) (.inl (by simp))
  have j4 : Join (hid args) (free ['}', '}']) :=
    join_stop (c := '}') va rfl (by decide) (notFree_last na) (by simp) (fun _ => notFree_last na2)
  obtain ⟨t1, r1, rfl, s1, hs⟩ := spv_split (valid_free (by decide)) j1 hs
  obtain ⟨t2, r2, rfl, s2, hs⟩ := spv_split vk j2 hs
  obtain ⟨t3, r3, rfl, s3, hs⟩ := spv_split (valid_free (by decide)) j3 hs
  obtain ⟨t4, t5, rfl, s4, s5⟩ := spv_split va j4 hs
  obtain ⟨o, rfl, so⟩ := spv_one (p := ⟨false, .LeftCurlyBrace, ['{', '{']⟩) rfl s1
  obtain ⟨p, rfl, sp⟩ := spv_one (p := ⟨false, .Pipe, ['|']⟩) rfl s3
  obtain ⟨cl, rfl, sc⟩ := spv_one (p := ⟨false, .RightCurlyBrace, ['}', '}']⟩) rfl s5
  have f1 : ∀ b, flag b (free ['{', '{']) = false := fun _ => rfl
  have f3 : ∀ b, flag b (free ['|']) = false := fun _ => rfl
  rw [f1] at s2
  rw [f3] at s4
  have q2 := spv_quiet vk s2 qk
  have q4 := spv_quiet va s4 qa
  have hok : o.kind = .LeftCurlyBrace := so.kind
  refine reads_other (fun rest hr => ?_)
  obtain ⟨cls, r, hcl, hor⟩ := closeLine_bd (c := cl) hr
  have hq : ∀ {t : Token}, t.kind ∉ loud → quiet stops t = true := fun h => quiet_kind h
  have hu1 : untilB stops isPipe (t2 ++ p :: (t4 ++ cl :: rest)) = some (t2, p, t4 ++ cl :: rest) := by
    refine untilB_exec (fun t ht => ⟨q2 t ht, ?_⟩) (hq (by rw [sp.kind]; decide)) (by simp [isPipe, sp.kind, sp.len]; rfl)
      (calm_append q4 (calm_cons (hq (by rw [sc.kind]; decide))))
    have := body_kind (k := .Pipe) vk nk (.inr rfl) s2 t ht
    simp [isPipe, this]
  have hu2 : untilB stops isRightCurly2 (t4 ++ cl :: rest) = some (t4, cl, rest) := by
    refine untilB_exec (fun t ht => ⟨q4 t ht, ?_⟩) (hq (by rw [sc.kind]; decide)) (by simp [isRightCurly2, sc.kind, sc.len]; rfl)
      (hr.calm _)
    have := body_kind (k := .RightCurlyBrace) va na (.inl rfl) s4 t ht
    simp [isRightCurly2, this]
  have e : otherB stops ([o] ++ (t2 ++ ([p] ++ (t4 ++ [cl]))) ++ rest) = (.embed o t2 p t4 cls, r) := by
    have e0 : [o] ++ (t2 ++ ([p] ++ (t4 ++ [cl]))) ++ rest = o :: (t2 ++ p :: (t4 ++ cl :: rest)) := by simp
    rw [e0]
    unfold otherB
    have : embedB stops (o :: (t2 ++ p :: (t4 ++ cl :: rest))) = some (.embed o t2 p t4 cls, r) := by
      rw [embedB, if_pos (by simp [isLeftCurly2, hok, so.col, so.len]; rfl), hu1]
      simp only
      rw [hu2]
      simp only
      rw [hcl]; rfl
    rw [this]
  refine ⟨stop_kind hi.1 (by simp [hok]) (by simp [hok]), by simp [tokenIs, isTerminator, hok],
    codeB_no (by simp [hok]), by simp [tokenIs, isCollapsibleStart, hok], ?_, ?_⟩
  · rw [e]
    simp only [Block.denote]
    rw [spv_text vk s2, spv_text va s4, hid_chars, hid_chars]
  · rw [e]; exact hor

theorem hid_embed {c stops kind args} (hi : Inside c stops) : GoodV stops (.embed kind args) (hidEmbed kind args) :=
  ⟨hid_embed_block hi, by
      unfold CleanEnd hidEmbed
      rw [last_append (by simp [free]), last_append (by simp [free]), last_append (by simp [free]), last_append (by simp [free])]
      simp [free],
    cleanStart_of_head (c := '{') rfl (by decide) (by decide)⟩

/-! ### Code -/

def hidCode (lang code : Str) : V :=
  free ['`', '`', '`'] ++ (hid lang ++ (free ['\n'] ++ (hid code ++ (free ['\n'] ++ free ['`', '`', '`']))))

theorem render_hidCode (lang code : Str) :
    render (hidCode lang code) = cs! "```" ++ hide lang ++ cs! "\n" ++ hide code ++ cs! "\n```" := by
  simp only [hidCode, render_append, render_free_all, render_hid, List.append_assoc]; rfl

theorem hid_code {c stops lang code} (hi : Inside c stops) (h : exprBlock (.code lang code) = true) :
    GoodV stops (.code lang code) (hidCode lang code) := by
  have hnl : code.getLast? ≠ some '\n' := by simpa [exprBlock] using h
  have vl := hid_valid lang
  have nl1 : (false, '`') ∉ hid lang := hid_notFree
  have nl2 : (false, '\n') ∉ hid lang := hid_notFree
  have cl := hid_cleanEnd lang
  have v3 : Valid (free ['`', '`', '`']) := valid_free (by decide)
  have hj1 : ∀ w, Join (free ['`', '`', '`']) (hid lang ++ (free ['\n'] ++ w)) := by
    intro w
    refine join_after (c := '`') v3 rfl (by decide) (by decide) (by simp) (.inr ?_)
    cases hh : hid lang with
    | nil => simp [free]
    | cons x r =>
      intro e
      simp only [List.cons_append, List.head?_cons, Option.some.injEq] at e
      rw [hh, e] at nl1; simp at nl1
  have hlast : CleanEnd (free ['`', '`', '`'] ++ (hid lang ++ (free ['\n'] ++ (hid code ++ (free ['\n'] ++ free ['`', '`', '`']))))) := by
    unfold CleanEnd
    rw [last_append (by simp [free]), last_append (by simp [free]), last_append (by simp [free]), last_append (by simp [free]),
      last_append (by simp [free])]
    simp [free]
  refine ⟨⟨v3.append (vl.append ((valid_free (by decide)).append ((hid_valid code).append
    ((valid_free (by decide)).append v3)))), by simp [free, hidCode], ?_⟩, hlast,
    cleanStart_of_head (c := '`') rfl (by decide) (by decide)⟩
  intro src ts hs
  refine reads_code (fun rest hr => ?_)
  obtain ⟨t1, r1, rfl, s1, hs1⟩ := spv_split v3 (hj1 _) hs
  obtain ⟨t, rfl, st⟩ := spv_one (p := ⟨false, .Backtick, ['`', '`', '`']⟩) rfl s1
  have f1 : ∀ b, flag b (free ['`', '`', '`']) = false := fun _ => rfl
  rw [f1] at hs1
  have ht : isBacktick3 t = true := by simp [isBacktick3, st.kind, st.col, st.len]; rfl
  have hk : t.kind = .Backtick := st.kind
  obtain ⟨t2, r2, rfl, s2, hs2⟩ := spv_split vl (join_nl vl cl) hs1
  have htl : textOfToks src t2 = lang := by rw [spv_text vl s2, hid_chars]
  have hnt : ∀ u ∈ t2, isEolOrTerminator u = false := fun u hu => by
    have := spv_nonl vl nl2 s2 u hu
    simp [isEolOrTerminator, this]
  refine ⟨stop_kind hi.1 (by simp [hk]) (by simp [hk]), by simp [tokenIs, isTerminator, hk], ?_⟩
  by_cases hcode : code = []
  · subst hcode
    have hs3 : SpV src (flag false (hid lang)) r2 (free ['\n', '\n'] ++ free ['`', '`', '`']) := hs2
    obtain ⟨t3, t4, rfl, s3, s4⟩ := spv_split (valid_free (by decide)) (join_after_blank _) hs3
    obtain ⟨e, rfl, se⟩ := spv_one (p := ⟨false, .Terminator, ['\n', '\n']⟩) rfl s3
    obtain ⟨k, rfl, sk⟩ := spv_one (p := ⟨false, .Backtick, ['`', '`', '`']⟩) rfl s4
    have hkc : isBacktick3 k = true := by simp [isBacktick3, sk.kind, sk.col, sk.len]; exact ⟨rfl, rfl⟩
    obtain ⟨o, m, e1, e2⟩ := code_open (stops := stops) (tail := [] ++ k :: rest) ht hnt
      (show isEolOrTerminator e = true by simp [isEolOrTerminator, se.kind]) (head_col vl s2 se) htl
    obtain ⟨b, r, e3, e4, e5⟩ := code_rest (o := o) (src := src) (b := []) (lang := lang) (code := []) (by simp) hkc hr e2 rfl
    refine ⟨b, r, ?_, e4, e5⟩
    rw [← e3, ← e1]
    simp
  · have hcs : CleanStart (hid code ++ (free ['\n'] ++ free ['`', '`', '`'])) := by
      cases code with
      | nil => exact absurd rfl hcode
      | cons d r => exact cleanStart_esc
    obtain ⟨t3, r3, rfl, s3, hs3⟩ := spv_split (valid_free (by decide)) (join_eol hcs) hs2
    obtain ⟨e, rfl, se⟩ := spv_one (p := ⟨false, .Eol, ['\n']⟩) rfl s3
    have f2 : ∀ b, flag b (free ['\n']) = true := fun _ => rfl
    rw [f2, ← List.append_assoc] at hs3
    have vcn : Valid (hid code ++ free ['\n']) := (hid_valid code).append (valid_free (by decide))
    have hlastn : (hid code ++ free ['\n']).getLast? = some (false, '\n') := by simp [free]
    have hj : Join (hid code ++ free ['\n']) (free ['`', '`', '`']) :=
      join_stop (c := '`') vcn rfl (by decide) (by rw [hlastn]; simp) (by simp) (by simp)
    obtain ⟨t4, t5, rfl, s4, s5⟩ := spv_split vcn hj hs3
    obtain ⟨k, rfl, sk⟩ := spv_one (p := ⟨false, .Backtick, ['`', '`', '`']⟩) rfl s5
    have f3 : flag true (hid code ++ free ['\n']) = true := by unfold flag; rw [hlastn]; rfl
    rw [f3] at sk
    have hkc : isBacktick3 k = true := by simp [isBacktick3, sk.kind, sk.col, sk.len]; rfl
    have hbody : ∀ u ∈ t4, isBacktick3 u = false := by
      intro u hu
      cases hb : isBacktick3 u with
      | false => rfl
      | true =>
        exfalso
        simp only [isBacktick3, Bool.and_eq_true, decide_eq_true_eq] at hb
        obtain ⟨p, v1, v2, ev, hsp, hf, he⟩ := spv_mem vcn s4 hu
        obtain ⟨g1, -, -⟩ := spt_run hsp hf he (c := '`') (by rw [hb.1.1]; rfl)
        have hcol : flag true v1 = true := by rw [← hsp.col]; exact hb.1.2
        refine no_start (noStart_nl (hid_noStart (b := true) (s := code) (pat := ['`', '`', '`']) (by simp)) (by decide) (by simp)) ev hcol ?_
        rw [g1, hb.2]
        exact List.prefix_refl _
    have htext : trimEndNl (trimEndNl (textOfToks src t4)) = code := by
      rw [spv_text vcn s4, List.map_append, hid_chars]
      show trimEndNl (trimEndNl (code ++ ['\n'])) = code
      rw [trimEnd_nl hnl, trimEnd_id hnl]
    obtain ⟨o, m, e1, e2⟩ := code_open (stops := stops) (tail := t4 ++ k :: rest) ht hnt
      (show isEolOrTerminator e = true by simp [isEolOrTerminator, se.kind]) (head_col vl s2 se) htl
    obtain ⟨b, r, e3, e4, e5⟩ := code_rest (o := o) (src := src) (lang := lang) (code := code) hbody hkc hr e2 htext
    refine ⟨b, r, ?_, e4, e5⟩
    rw [← e3, ← e1]
    simp

end Yamd.Round
