import Verif.Proofs.Round.Leaf

/-!
# Images and embeds
-/

namespace Yamd.Round

open Yamd Yamd.Spec Yamd.Lexer Yamd.Ref

/-! ### Images -/

def imgV (i : Image) : V := free ['!'] ++ linkV (bodyV [']', '\\'] i.alt) (bodyV [')', '(', '\\'] i.src)

def imgsV : List Image → V
  | [] => []
  | [i] => imgV i
  | i :: j :: r => imgV i ++ (free ['\n'] ++ imgsV (j :: r))

theorem imgsV_eq : ∀ l : List Image, displayImages l = render (imgsV l)
  | [] => rfl
  | [i] => image_eq i
  | i :: j :: r => by
    have ih := imgsV_eq (j :: r)
    simp only [displayImages, List.map_cons] at ih ⊢
    rw [imgsV, render_append, render_append, ← ih, joinWith, image_eq, imgV, render_free_all, List.append_assoc]

theorem imgV_link (i : Image) : Valid (bodyV [']', '\\'] i.alt) ∧ Valid (bodyV [')', '(', '\\'] i.src) :=
  ⟨mark2_valid (markSet_valid (by simp) _), mark2_valid (markSet_valid (by simp) _)⟩

theorem imgV_valid (i : Image) : Valid (imgV i) :=
  (valid_free (by decide)).append (link_shape (imgV_link i).1 (imgV_link i).2).1

theorem imgV_clean (i : Image) : CleanEnd (imgV i) := by
  have h := link_shape (imgV_link i).1 (imgV_link i).2
  unfold CleanEnd imgV
  rw [last_append h.2.1, h.2.2.2]
  simp

theorem imgV_head (i : Image) : (imgV i).head? = some (false, '!') := rfl

theorem imgsV_head : ∀ l : List Image, l ≠ [] → (imgsV l).head? = some (false, '!')
  | [], h => absurd rfl h
  | [_], _ => rfl
  | _ :: _ :: _, _ => rfl

theorem imgsV_valid : ∀ l : List Image, Valid (imgsV l)
  | [] => by simp [imgsV, Valid]
  | [i] => imgV_valid i
  | i :: j :: r => (imgV_valid i).append ((valid_free (by decide)).append (imgsV_valid (j :: r)))

theorem imgsV_clean : ∀ l : List Image, CleanEnd (imgsV l)
  | [] => by simp [imgsV, CleanEnd]
  | [i] => imgV_clean i
  | i :: j :: r => by
    have ih := imgsV_clean (j :: r)
    have hne : imgsV (j :: r) ≠ [] := by
      intro e
      have := imgsV_head (j :: r) (by simp)
      rw [e] at this; simp at this
    unfold CleanEnd
    rw [imgsV, last_append (by simp [hne]), last_append hne]
    exact ih

theorem img_tree {src b ts S i pl} (hp : Placed pl S) (hsafe : safeImage pl i = true) (hs : SpV src b ts (imgV i)) :
    ∃ t l, ts = t :: Link.toks l ∧ SpT src b t ⟨false, .Bang, ['!']⟩ ∧ LinkOk S l ∧ l.denote src = ⟨i.alt, i.src⟩ := by
  simp only [safeImage, Bool.and_eq_true] at hsafe
  have hj : Join (free ['!']) (linkV (bodyV [']', '\\'] i.alt) (bodyV [')', '(', '\\'] i.src)) :=
    join_after (c := '!') (valid_free (by decide)) rfl (by decide) (by decide) (by simp) (.inr (by simp [linkV, free]))
  obtain ⟨t1, t2, rfl, s1, s2⟩ := spv_split (valid_free (by decide)) hj hs
  obtain ⟨t, rfl, st⟩ := spv_one (p := ⟨false, .Bang, ['!']⟩) rfl s1
  obtain ⟨l, rfl, ok, den⟩ := link_tree (stops := S)
    (bodyV_body (by simp) (by simp) (safeBody_q hp hsafe.1)) (bodyV_body (by simp) (by simp) (safeBody_q hp hsafe.2)) s2
  exact ⟨t, l, rfl, st, ok, den⟩

theorem join_eol {w : V} (h : CleanStart w) : Join (free ['\n']) w := by
  refine join_known (l := []) (p := ⟨false, .Eol, ['\n']⟩) (valid_free (by decide)) (pieces_one rfl) ?_
  simp only [joinOk]
  have h1 := fun e => h.1 ((render_prefix (pat := ['\n']) (by decide)).1 e)
  have h2 := fun e => h.2 ((render_prefix (pat := ['\r', '\n']) (by decide)).1 e)
  unfold lineBreak
  split
  · rename_i r e; exact absurd (show ['\n'] <+: render w from ⟨r, by rw [e]; rfl⟩) h1
  · rename_i r e; exact absurd (show ['\r', '\n'] <+: render w from ⟨r, by rw [e]; rfl⟩) h2
  · rfl

theorem cleanStart_of_head {v : V} {c : Char} (h : v.head? = some (false, c)) (h1 : c ≠ '\n') (h2 : c ≠ '\r') : CleanStart v := by
  cases v with
  | nil => simp at h
  | cons x v =>
    simp only [List.head?_cons, Option.some.injEq] at h
    subst h
    constructor
    · rw [free_cons_prefix]; simp [h1]
    · rw [free_cons_prefix]; simp [h2]

theorem bang1_of {src b t} (st : SpT src b t ⟨false, .Bang, ['!']⟩) : isBang1 t = true := by
  simp [isBang1, st.kind, st.len]; rfl

theorem images_exec {src stops pl} (hp : Placed pl (.Terminator :: stops)) : ∀ {l : List Image} {b : Bool} {ts : List Token},
    l ≠ [] → l.all (safeImage pl) = true → SpV src b ts (imgsV l) → ∀ rest, Bd stops rest →
    ∃ (is : List Img) (r : List Token), imagesB (.Terminator :: stops) (ts ++ rest) = some (is, r) ∧
      is.map (Img.denote src) = l ∧ (r = rest ∨ ∃ e, rest = e :: r ∧ e.kind = .Eol)
  | [], _, _, h, _, _, _, _ => absurd rfl h
  | [i], b, ts, _, hall, hs, rest, hr => by
    simp only [List.all_cons, List.all_nil, Bool.and_true] at hall
    obtain ⟨t, l, rfl, st, ok, den⟩ := img_tree hp hall hs
    have hlink : linkB (.Terminator :: stops) (l.toks ++ rest) = some (l, rest) := linkB_exec ok (hr.calm _)
    have hden : ∀ x, Img.denote src ⟨t, l, x⟩ = i := by
      intro x
      simp only [Link.denote, Anchor.mk.injEq] at den
      simp [Img.denote, den.1, den.2]
    cases hr with
    | nil =>
      refine ⟨[⟨t, l, []⟩], [], ?_, by simp [hden], .inl rfl⟩
      rw [imagesB_some (i := ⟨t, l, []⟩) (r := [])]
      · rw [imagesB_none (by rfl)]; simp [stopAt]
      · rw [List.cons_append, imageB, if_pos (bang1_of st), hlink]; simp [tokenIs, stopAt]
    | term e r h =>
      refine ⟨[⟨t, l, []⟩], e :: r, ?_, by simp [hden], .inl rfl⟩
      have hstop : stopAt (.Terminator :: stops) (e :: r) = true := (Bd.term e r h : Bd stops _).stop
      rw [imagesB_some (i := ⟨t, l, []⟩) (r := e :: r)]
      · rw [imagesB_none (by rw [imageB, if_neg (by simp [isBang1, h])]), if_pos hstop]; rfl
      · rw [List.cons_append, imageB, if_pos (bang1_of st), hlink]; simp [tokenIs, hstop, isEol, h]
    | close e c r hm he hc h0 =>
      refine ⟨[⟨t, l, [e]⟩], c :: r, ?_, by simp [hden], .inr ⟨e, rfl, he⟩⟩
      have hstop : stopAt (.Terminator :: stops) (c :: r) = true := by
        simp only [stopAt, List.any_eq_true]
        exact ⟨.CollapsibleEnd, by simp [hm], by simp [stopHere, hc, h0]⟩
      rw [imagesB_some (i := ⟨t, l, [e]⟩) (r := c :: r)]
      · rw [imagesB_none (by rw [imageB, if_neg (by simp [isBang1, hc])]), if_pos hstop]; rfl
      · rw [List.cons_append, imageB, if_pos (bang1_of st), hlink]; simp [tokenIs, isEol, he]
  | i :: j :: l', b, ts, _, hall, hs, rest, hr => by
    rw [List.all_cons, Bool.and_eq_true] at hall
    obtain ⟨t1, t2, rfl, s1, s2⟩ := spv_split (imgV_valid i) (join_nl (imgV_valid i) (imgV_clean i)) hs
    obtain ⟨t3, t4, rfl, s3, s4⟩ := spv_split (valid_free (by decide))
      (join_eol (cleanStart_of_head (imgsV_head (j :: l') (by simp)) (by decide) (by decide))) s2
    obtain ⟨e, rfl, se⟩ := spv_one (p := ⟨false, .Eol, ['\n']⟩) rfl s3
    obtain ⟨t, l, rfl, st, ok, den⟩ := img_tree hp hall.1 s1
    obtain ⟨is, r, e1, e2, e3⟩ := images_exec hp (by simp) hall.2 s4 rest hr
    have he : e.kind = .Eol := se.kind
    have hc : Calm (.Terminator :: stops) (e :: (t4 ++ rest)) := by
      intro _; simp [closesColl, tokenIs, he]
    have hlink : linkB (.Terminator :: stops) (l.toks ++ (e :: (t4 ++ rest))) = some (l, e :: (t4 ++ rest)) := linkB_exec ok hc
    have hden : ∀ x, Img.denote src ⟨t, l, x⟩ = i := by
      intro x
      simp only [Link.denote, Anchor.mk.injEq] at den
      simp [Img.denote, den.1, den.2]
    refine ⟨⟨t, l, [e]⟩ :: is, r, ?_, by simp [hden, e2], e3⟩
    have e4 : t :: l.toks ++ ([e] ++ t4) ++ rest = t :: (l.toks ++ (e :: (t4 ++ rest))) := by simp
    rw [e4, imagesB_some (i := ⟨t, l, [e]⟩) (r := t4 ++ rest), e1]
    · rfl
    · rw [imageB, if_pos (bang1_of st), hlink]; simp [tokenIs, isEol, he]

theorem imgs_reads {c stops} (hi : Inside c stops) {l : List Image} (hl : l ≠ []) (hall : l.all (safeImage ⟨c⟩) = true)
    {n : YamdNode} (hn : ∀ src is, is.map (Img.denote src) = l → Block.denote src (.images is) = n) : BlockV stops n (imgsV l) := by
  refine ⟨imgsV_valid l, ?_, ?_⟩
  · intro e
    have := imgsV_head l hl
    rw [e] at this; simp at this
  · intro src ts hs
    refine reads_other (fun rest hr => ?_)
    obtain ⟨is, r, e1, e2, e3⟩ := images_exec hi.placed hl hall hs rest hr
    have hne : ts ≠ [] := spv_ne (imgsV_valid l) hs (by
      intro e
      have := imgsV_head l hl
      rw [e] at this; simp at this)
    obtain ⟨t, ts', rfl⟩ := List.exists_cons_of_ne_nil hne
    -- the first token is one bang
    have ht : t.kind = .Bang ∧ t.len = 1 := by
      have hsplit : ∃ w, imgsV l = imgV (l.head hl) ++ w ∧ Join (imgV (l.head hl)) w := by
        match l, hl with
        | [i], _ => exact ⟨[], by simp [imgsV], join_nil_right _⟩
        | i :: j :: r, _ => exact ⟨free ['\n'] ++ imgsV (j :: r), rfl, join_nl (imgV_valid i) (imgV_clean i)⟩
      obtain ⟨w, ew, hj⟩ := hsplit
      rw [ew] at hs
      obtain ⟨t1, t2, e, s1, -⟩ := spv_split (imgV_valid _) hj hs
      obtain ⟨t0, l0, rfl, st, -, -⟩ := img_tree hi.placed
        (List.all_eq_true.1 hall _ (List.head_mem hl)) s1
      simp only [List.cons_append, List.cons.injEq] at e
      rw [e.1]
      exact ⟨st.kind, st.len⟩
    have e : otherB stops (t :: ts' ++ rest) = (.images is, r) := by
      rw [List.cons_append, otherB_leaf (by simp [ht.1]) (by simp [isTwoBangs, ht.2])]
      unfold leafB
      rw [List.cons_append] at e1
      rw [itemsB_none (markerB_no (notMarker (by simp [ht.1]) (by simp [ht.1]))), e1]
      cases is with
      | nil => simp at e2; exact absurd e2 hl
      | cons i is => rfl
    refine ⟨stop_kind hi.1 (by simp [ht.1]) (by simp [ht.1]), by simp [tokenIs, isTerminator, ht.1],
      codeB_no (by simp [ht.1]), by simp [tokenIs, isCollapsibleStart, ht.1], ?_, ?_⟩
    · rw [e]; exact hn src is e2
    · rw [e]; exact e3

theorem good_image {c stops i} (hi : Inside c stops) (h : safeLeaf ⟨c⟩ (.image i) = true) :
    Good stops (.image i) i.display := by
  refine ⟨imgsV [i], image_eq i, imgs_reads hi (by simp) (by simpa [safeLeaf] using h) ?_, fun _ => imgsV_clean _,
    fun _ => cleanStart_of_head (imgsV_head [i] (by simp)) (by decide) (by decide)⟩
  intro src is hm
  cases is with
  | nil => simp at hm
  | cons x r =>
    cases r with
    | nil => simp at hm; simp [Block.denote, hm]
    | cons y r => simp at hm

theorem good_images {c stops l} (hi : Inside c stops) (h : safeLeaf ⟨c⟩ (.images l) = true) :
    Good stops (.images l) (displayImages l) := by
  simp only [safeLeaf, Bool.and_eq_true, decide_eq_true_eq] at h
  have hl : l ≠ [] := by intro e; subst e; simp at h
  refine ⟨imgsV l, imgsV_eq l, imgs_reads hi hl h.2 ?_, fun _ => imgsV_clean _,
    fun _ => cleanStart_of_head (imgsV_head l hl) (by decide) (by decide)⟩
  intro src is hm
  match is, hm with
  | [], hm => simp at hm; exact absurd hm hl
  | [x], hm =>
    have : l.length = 1 := by rw [← hm]; rfl
    omega
  | x :: y :: r, hm => simp only [Block.denote, hm]

/-! ### Embeds -/

/-- A line break after a closing token is read with it. -/
theorem closeLine_bd {stops c rest} (h : Bd stops rest) : ∃ cl r, closeLineB stops c rest = some (cl, r) ∧
    (r = rest ∨ ∃ e, rest = e :: r ∧ e.kind = .Eol) := by
  cases h with
  | nil => exact ⟨[c], [], rfl, .inl rfl⟩
  | term t r h => exact ⟨[c], t :: r, by rw [closeLineB]; simp [isEol, h], .inl rfl⟩
  | close e k r hm he hc h0 => exact ⟨[c, e], k :: r, by rw [closeLineB]; simp [isEol, he], .inr ⟨e, rfl, he⟩⟩

def embedV (kind args : Str) : V :=
  free ['{', '{'] ++ (markSet ['|', '{', '\\'] kind ++ (free ['|'] ++ (markSet ['}', '%', '{', '\\'] args ++ free ['}', '}'])))

theorem embedV_eq (kind args : Str) : displayEmbed kind args = render (embedV kind args) := by
  unfold displayEmbed embedV
  rw [show replace (cs! "\\") (cs! "\\\\") kind = _ from replace_backslash kind,
    show replace (cs! "\\") (cs! "\\\\") args = _ from replace_backslash args,
    show replace (cs! "{") (cs! "\\{") (render (markSet ['\\'] kind)) = _ from replace_char (by decide) (by decide) _,
    show replace (cs! "{") (cs! "\\{") (render (markSet ['\\'] args)) = _ from replace_char (by decide) (by decide) _,
    show replace (cs! "|") (cs! "\\|") (render (markSet ['{', '\\'] kind)) = _ from replace_char (by decide) (by decide) _,
    show replace (cs! "%") (cs! "\\%") (render (markSet ['{', '\\'] args)) = _ from replace_char (by decide) (by decide) _,
    show replace (cs! "}") (cs! "\\}") (render (markSet ['%', '{', '\\'] args)) = _ from replace_char (by decide) (by decide) _]
  simp only [render_append, render_free_all]
  simp

theorem vq_coll {stops v} (hd : DStops stops) (h : stops ≠ [] → NoStart false ['%', '}'] v) : VQ stops false v := by
  intro st hst
  rw [hd st hst]
  exact h (List.ne_nil_of_mem hst)

theorem notFree_last {v : V} {c : Char} (h : (false, c) ∉ v) : v.getLast? ≠ some (false, c) :=
  fun e => h (List.mem_of_getLast? e)

theorem notFree_noInf {v : V} {c : Char} {pat : Str} (h : (false, c) ∉ v) (hc : c ∈ pat) : NoInf pat v := by
  intro hp
  exact h (hp.subset (by simpa [free] using hc))

theorem embed_reads {c stops kind args} (hi : Inside c stops) (hk : noCloseLine ⟨c⟩ kind = true) :
    BlockV stops (.embed kind args) (embedV kind args) := by
  have vk : Valid (markSet ['|', '{', '\\'] kind) := markSet_valid (by simp) _
  have va : Valid (markSet ['}', '%', '{', '\\'] args) := markSet_valid (by simp) _
  have nk : (false, '|') ∉ markSet ['|', '{', '\\'] kind := markSet_notFree (by simp) _
  have nk2 : (false, '{') ∉ markSet ['|', '{', '\\'] kind := markSet_notFree (by simp) _
  have na : (false, '}') ∉ markSet ['}', '%', '{', '\\'] args := markSet_notFree (by simp) _
  have na2 : (false, '%') ∉ markSet ['}', '%', '{', '\\'] args := markSet_notFree (by simp) _
  have qk : VQ stops false (markSet ['|', '{', '\\'] kind) := by
    refine vq_coll hi.1 (fun hne => noStart_of ?_)
    rw [markSet_chars]
    have := hi.2 hne
    simp only [noCloseLine, this, Bool.not_true, Bool.false_or, Bool.not_eq_true'] at hk
    exact occurs_false hk
  have qa : VQ stops false (markSet ['}', '%', '{', '\\'] args) :=
    vq_coll hi.1 (fun _ => ⟨by simp, notFree_noInf na2 (by simp)⟩)
  refine ⟨(valid_free (by decide)).append (vk.append ((valid_free (by decide)).append (va.append (valid_free (by decide))))),
    by simp [embedV, free], ?_⟩
  intro src ts hs
  have j1 : Join (free ['{', '{']) (markSet ['|', '{', '\\'] kind ++ (free ['|'] ++ (markSet ['}', '%', '{', '\\'] args ++ free ['}', '}']))) := by
    refine join_known (l := []) (p := ⟨false, .LeftCurlyBrace, ['{', '{']⟩) (valid_free (by decide)) (pieces_one rfl) ?_
    simp only [joinOk, bne_iff_ne, ne_eq, Bool.and_eq_true, List.length_cons, List.length_nil]
    refine ⟨fun e => ?_, by simp⟩
    have := render_head (by decide) e
    cases hh : markSet ['|', '{', '\\'] kind with
    | nil => rw [hh] at this; simp [free] at this
    | cons x r =>
      rw [hh] at this
      simp only [List.cons_append, List.head?_cons, Option.some.injEq] at this
      rw [hh, this] at nk2; simp at nk2
  have j2 : Join (markSet ['|', '{', '\\'] kind) (free ['|'] ++ (markSet ['}', '%', '{', '\\'] args ++ free ['}', '}'])) :=
    join_stop (c := '|') vk rfl (by decide) (notFree_last nk) (by simp) (by simp)
  have j3 : Join (free ['|']) (markSet ['}', '%', '{', '\\'] args ++ free ['}', '}']) :=
    join_after (c := '|') (valid_free (by decide)) rfl (by decide) (by decide) (by simp) (.inl (by simp))
  have j4 : Join (markSet ['}', '%', '{', '\\'] args) (free ['}', '}']) :=
    join_stop (c := '}') va rfl (by decide) (notFree_last na) (by simp) (fun _ => notFree_last na2)
  obtain ⟨t1, r1, rfl, s1, hs⟩ := spv_split (valid_free (by decide)) j1 hs
  obtain ⟨t2, r2, rfl, s2, hs⟩ := spv_split vk j2 hs
  obtain ⟨t3, r3, rfl, s3, hs⟩ := spv_split (valid_free (by decide)) j3 hs
  obtain ⟨t4, t5, rfl, s4, s5⟩ := spv_split va j4 hs
  obtain ⟨o, rfl, so⟩ := spv_one (p := ⟨false, .LeftCurlyBrace, ['{', '{']⟩) rfl s1
  obtain ⟨p, rfl, sp⟩ := spv_one (p := ⟨false, .Pipe, ['|']⟩) rfl s3
  obtain ⟨cl, rfl, sc⟩ := spv_one (p := ⟨false, .RightCurlyBrace, ['}', '}']⟩) rfl s5
  have f1 : ∀ b, flag b (free ['{', '{']) = false := fun _ => rfl
  have f3 : ∀ b, flag b (free ['|']) = false := fun _ => rfl
  rw [f1] at s2
  rw [f3] at s4
  have q2 := spv_quiet vk s2 qk
  have q4 := spv_quiet va s4 qa
  have hok : o.kind = .LeftCurlyBrace := so.kind
  refine reads_other (fun rest hr => ?_)
  obtain ⟨cls, r, hcl, hor⟩ := closeLine_bd (c := cl) hr
  have hq : ∀ {t : Token}, t.kind ∉ loud → quiet stops t = true := fun h => quiet_kind h
  have hu1 : untilB stops isPipe (t2 ++ p :: (t4 ++ cl :: rest)) = some (t2, p, t4 ++ cl :: rest) := by
    refine untilB_exec (fun t ht => ⟨q2 t ht, ?_⟩) (hq (by rw [sp.kind]; decide)) (by simp [isPipe, sp.kind, sp.len]; rfl)
      (calm_append q4 (calm_cons (hq (by rw [sc.kind]; decide))))
    have := body_kind (k := .Pipe) vk nk (.inr rfl) s2 t ht
    simp [isPipe, this]
  have hu2 : untilB stops isRightCurly2 (t4 ++ cl :: rest) = some (t4, cl, rest) := by
    refine untilB_exec (fun t ht => ⟨q4 t ht, ?_⟩) (hq (by rw [sc.kind]; decide)) (by simp [isRightCurly2, sc.kind, sc.len]; rfl)
      (hr.calm _)
    have := body_kind (k := .RightCurlyBrace) va na (.inl rfl) s4 t ht
    simp [isRightCurly2, this]
  have e : otherB stops ([o] ++ (t2 ++ ([p] ++ (t4 ++ [cl]))) ++ rest) = (.embed o t2 p t4 cls, r) := by
    have e0 : [o] ++ (t2 ++ ([p] ++ (t4 ++ [cl]))) ++ rest = o :: (t2 ++ p :: (t4 ++ cl :: rest)) := by simp
    rw [e0]
    unfold otherB
    have : embedB stops (o :: (t2 ++ p :: (t4 ++ cl :: rest))) = some (.embed o t2 p t4 cls, r) := by
      rw [embedB, if_pos (by simp [isLeftCurly2, hok, so.col, so.len]; rfl), hu1]
      simp only
      rw [hu2]
      simp only
      rw [hcl]; rfl
    rw [this]
  refine ⟨stop_kind hi.1 (by simp [hok]) (by simp [hok]), by simp [tokenIs, isTerminator, hok],
    codeB_no (by simp [hok]), by simp [tokenIs, isCollapsibleStart, hok], ?_, ?_⟩
  · rw [e]
    simp only [Block.denote]
    rw [spv_text vk s2, spv_text va s4, markSet_chars, markSet_chars]
  · rw [e]; exact hor

theorem good_embed {c stops kind args} (hi : Inside c stops) (h : safeLeaf ⟨c⟩ (.embed kind args) = true) :
    Good stops (.embed kind args) (displayEmbed kind args) :=
  ⟨embedV kind args, embedV_eq _ _, embed_reads hi (by simpa [safeLeaf] using h),
    fun _ => by
      unfold CleanEnd embedV
      rw [last_append (by simp [free]), last_append (by simp [free]), last_append (by simp [free]), last_append (by simp [free])]
      simp [free],
    fun _ => cleanStart_of_head (c := '{') rfl (by decide) (by decide)⟩

end Yamd.Round
