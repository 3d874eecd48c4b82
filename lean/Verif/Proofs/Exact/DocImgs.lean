import Verif.Proofs.Exact.DocPara
import Verif.Proofs.Exact.Images

/-!
# The first images of a document that is read back
-/

namespace Yamd.Round

open Yamd Yamd.Spec Yamd.Lexer Yamd.Ref

/-- An image line: the text of its view and its line break. -/
theorem img_text {d : Str} {i : Img} (hi : i.Ok) (hl : Live d i.toks) :
    textOfToks d i.toks = (imgV (i.denote d)).map Prod.snd ++ textOfToks d i.eol := by
  have hb : sliceD d i.bang = ['!'] := run_slice (n := 1) hl (by simp [Img.toks]) hi.1 rfl
  have hlk := link_text hi.2.1 (hl.infix ⟨[i.bang], i.eol, by simp [Img.toks]⟩)
  rw [Img.toks, text_cons, text_append, hlk, hb, imgV, List.map_append, linkV_chars, free_chars, bodyV_chars, bodyV_chars, Img.denote]
  simp

theorem img_eol {d : Str} {i : Img} (hi : i.Ok) (hl : Live d i.toks) : i.eol = [] ∨ IsBreak (textOfToks d i.eol) := by
  rcases hi.2.2.1 with h | ⟨e, h1, h2⟩
  · exact .inl h
  · right
    rw [h1, text_one]
    exact eol_text h2 (hl.lexed e (by simp [Img.toks, h1]))

theorem break_prefix {B A : Str} (hB : IsBreak B) (h : B <+: '\n' :: A) : B = ['\n'] := by
  rcases hB with rfl | rfl
  · rfl
  · obtain ⟨x, e⟩ := h
    simp at e

/-- Images that are read at the start of their own text have no line break of their own, or the one after them. -/
theorem imgs_prefix {d : Str} {Z : Str} (hZ : Z = [] ∨ ∃ A, Z = '\n' :: A) : ∀ {l : List Img}, l ≠ [] → (∀ x ∈ l, x.Ok) → EolsOk l →
    Live d (l.flatMap Img.toks) → textOfToks d (l.flatMap Img.toks) <+: (imgsV (l.map (Img.denote d))).map Prod.snd ++ Z →
    textOfToks d (l.flatMap Img.toks) = (imgsV (l.map (Img.denote d))).map Prod.snd ∨
      (Z ≠ [] ∧ textOfToks d (l.flatMap Img.toks) = (imgsV (l.map (Img.denote d))).map Prod.snd ++ ['\n'])
  | [], h, _, _, _, _ => absurd rfl h
  | [i], _, hok, _, hl, hp => by
    simp only [List.flatMap_cons, List.flatMap_nil, List.append_nil, List.map_cons, List.map_nil, imgsV] at hl hp ⊢
    rw [img_text (hok i (by simp)) hl] at hp ⊢
    rcases img_eol (hok i (by simp)) hl with he | he
    · left; rw [he]; simp [textOfToks]
    · right
      have hp := (List.prefix_append_right_inj _).1 hp
      rcases hZ with rfl | ⟨A, rfl⟩
      · have := List.prefix_nil.1 hp
        rw [this] at he
        rcases he with he | he <;> simp at he
      · refine ⟨by simp, ?_⟩
        rw [break_prefix he hp]
  | i :: j :: r, _, hok, he, hl, hp => by
    rw [List.flatMap_cons] at hl hp ⊢
    have hl1 : Live d i.toks := hl.left
    rw [text_append, img_text (hok i (by simp)) hl1, List.append_assoc] at hp
    rw [text_append, img_text (hok i (by simp)) hl1]
    simp only [List.map_cons, imgsV, List.map_append, List.append_assoc] at hp ⊢
    have hp := (List.prefix_append_right_inj _).1 hp
    have hb : IsBreak (textOfToks d i.eol) := (img_eol (hok i (by simp)) hl1).resolve_left he.1
    have hb' : textOfToks d i.eol = ['\n'] := break_prefix hb (List.IsPrefix.trans ⟨_, rfl⟩ hp)
    rw [hb'] at hp ⊢
    have hp := (List.prefix_append_right_inj ['\n']).1 hp
    have := imgs_prefix hZ (l := j :: r) (by simp) (fun x hx => hok x (by simp [List.mem_cons.1 hx])) he.2 hl.right hp
    rcases this with h | ⟨h1, h⟩
    · left; rw [h]; rfl
    · right
      refine ⟨h1, ?_⟩
      rw [h]; rfl

theorem NB.images {l : List Image} {c : Bool} (hnb : NB (imgsV l)) (hc : c = true → ¬ Closes (imgsV l)) : l.all (safeImage ⟨c⟩) = true := by
  rw [List.all_eq_true]
  have hinf : ∀ {l : List Image} {i}, i ∈ l → imgV i <:+: imgsV l := by
    intro l
    induction l with
    | nil => intro i hi; simp at hi
    | cons a l ih =>
      intro i hi
      cases l with
      | nil =>
        simp only [List.mem_singleton] at hi
        subst hi; exact ⟨[], [], by simp [imgsV]⟩
      | cons b l =>
        rcases List.mem_cons.1 hi with rfl | hi
        · exact ⟨[], free ['\n'] ++ imgsV (b :: l), by simp [imgsV]⟩
        · obtain ⟨x, y, e⟩ := ih hi
          exact ⟨imgV a ++ (free ['\n'] ++ x), y, by simp [imgsV, ← e]⟩
  intro i hi
  have hin := hinf hi
  have h1 := hnb.infix hin
  obtain ⟨h2, h3⟩ := NB.link (w1 := bodyV [']', '\\'] i.alt) (w2 := bodyV [')', '(', '\\'] i.src)
    (h1.infix ⟨free ['!'], [], by simp [imgV]⟩)
  simp only [safeImage, Bool.and_eq_true]
  refine ⟨body_in (S := [']', '\\']) (by decide) (by simp [safeBody_out, NB.body (by decide) (by decide) h2]) hc ⟨_, Keep.refl _, List.IsInfix.trans ?_ hin⟩,
    body_in (S := [')', '(', '\\']) (by decide) (by simp [safeBody_out, NB.body (by decide) (by decide) h3]) hc ⟨_, Keep.refl _, List.IsInfix.trans ?_ hin⟩⟩
  · exact infix_mid (a := free ['!'] ++ free ['[']) (b := free [']'] ++ (free ['('] ++ (bodyV [')', '(', '\\'] i.src ++ free [')']))) (by simp [imgV, linkV])
  · exact infix_mid (a := free ['!'] ++ (free ['['] ++ (bodyV [']', '\\'] i.alt ++ (free [']'] ++ free ['('])))) (b := free [')']) (by simp [imgV, linkV])

/-- The first images are safe. -/
theorem first_imgs {c S} {d : Str} {l : List Image} {n : YamdNode} {b t1 t2 v X} (hl0 : l ≠ []) (hd : dispB n = render (imgsV l))
    (hb : ∃ is, b = .images is ∧ is.map (Img.denote d) = l) (h : First c S d n b t1 t2 v X) : l.all (safeImage ⟨c⟩) = true := by
  have ev : v = imgsV l := render_inj h.valid.left (imgsV_valid l) (by rw [← h.shown, hd])
  obtain ⟨is, rfl, hden⟩ := hb
  obtain ⟨D, hD⟩ := h.read
  have ok := h.ok
  have hl : Live d (is.flatMap Img.toks) := h.live
  have his : is ≠ [] := by rintro rfl; exact hl0 (by rw [← hden]; rfl)
  -- the first token
  have hs := h.spells
  obtain ⟨t, r, ets, hbang⟩ : ∃ t r, t1 ++ t2 = t :: r ∧ isBang1 t = true := by
    obtain ⟨w, e⟩ : ∃ w, v ++ X = free ['!'] ++ ((false, '[') :: w) := by
      rw [ev]
      match l with
      | [] => exact absurd rfl hl0
      | [i] => exact ⟨_, rfl⟩
      | i :: j :: r => exact ⟨_, rfl⟩
    rw [e] at hs
    have hj : Join (free ['!']) ((false, '[') :: w) :=
      join_after (c := '!') (valid_free (by decide)) rfl (by decide) (by decide) (by simp) (.inr (by simp))
    obtain ⟨u1, u2, e2, s1, s2⟩ := spv_split (valid_free (by decide)) hj hs
    obtain ⟨t, rfl, st⟩ := spv_one (p := ⟨false, .Bang, ['!']⟩) rfl s1
    exact ⟨t, u2, e2, bang1_of st⟩
  have hk : t.kind = .Bang ∧ t.len = 1 := by simpa [isBang1] using hbang
  rw [ets] at hD
  have hleaf := docB_plain hD (by simp [isCollapsibleStart, hk.1]) (by simp [isBacktick3, hk.1]) (by simp [isLeftCurly2, hk.1])
    (by simp [isTwoBangs, hk.1, hk.2])
  have he : EolsOk is := by
    rcases leafB_cases (.Terminator :: S) (t :: r) with ⟨k, m, p, n, r', rest, h1, h2⟩ | ⟨i, l, r', h1, h2⟩ | h1 | h1 | h1
    · rw [h2] at hleaf; simp at hleaf
    · rw [h2] at hleaf
      simp only [Block.images.injEq] at hleaf
      rw [← hleaf]
      exact imagesB_eols h.place.inside.1 _ (Nat.le_refl _) h1
    · rw [thematicB, if_neg (by simp [isDash5, hk.1])] at h1; simp at h1
    · unfold headingB at h1
      split at h1
      · rw [← Option.some.inj h1] at hleaf; simp at hleaf
      · simp at h1
    · rw [h1] at hleaf; simp at hleaf
  have htx := spv_text h.valid hs
  rw [text_append, List.map_append] at htx
  have hown : textOfToks d (is.flatMap Img.toks) = textOfToks d t1 := h.own.text (src := d)
  have hnt : NoTerm t1 := by
    refine h.own.noTerm ?_
    intro u hu
    simp only [Block.toks, List.mem_flatMap] at hu
    obtain ⟨x, hx, hu⟩ := hu
    exact (ok.2 x hx).2.2.2 u hu
  have hZ : X.map Prod.snd = [] ∨ ∃ A, X.map Prod.snd = '\n' :: A := by
    rcases h.after with rfl | ⟨Y, rfl⟩ | ⟨-, Y, rfl⟩
    · exact .inl rfl
    · exact .inr ⟨_, rfl⟩
    · exact .inr ⟨_, rfl⟩
  have hpre : textOfToks d (is.flatMap Img.toks) <+: (imgsV (is.map (Img.denote d))).map Prod.snd ++ X.map Prod.snd := by
    rw [hden, ← ev, hown, ← htx]; exact ⟨_, rfl⟩
  have := imgs_prefix hZ his ok.2 he hl hpre
  rw [hden, ← ev, hown] at this
  have hend : c = true → NoEnd t1 := h.noEnd rfl
  rcases this with e | ⟨hne, e⟩
  · obtain ⟨g1, -, -⟩ := spv_take h.valid hs (by rw [e, List.length_map])
    rw [ev] at g1
    have hv := h.valid.left
    rw [ev] at hv
    exact NB.images (vq_of_noTerm hv g1 hnt) (fun hc => spv_close hv g1 (hend hc))
  · have hval := h.valid
    rcases h.after with rfl | ⟨Y, rfl⟩ | ⟨-, Y, rfl⟩
    · exact absurd rfl hne
    · exfalso
      have eX : v ++ (free ['\n', '\n'] ++ Y) = (v ++ free ['\n']) ++ (free ['\n'] ++ Y) := by simp [free]
      rw [eX] at hs hval
      obtain ⟨g1, -, g3⟩ := spv_take hval hs (by rw [e]; simp [free])
      have := cut_clean hval.left g1 hnt g3
      refine this.1 ?_
      rw [last_append (by simp [free])]
      rfl
    · have eX : v ++ (free ['\n', '%', '}'] ++ Y) = (v ++ free ['\n']) ++ (free ['%', '}'] ++ Y) := by simp [free]
      rw [eX] at hs hval
      obtain ⟨g1, -, -⟩ := spv_take hval hs (by rw [e]; simp [free])
      have hi : imgsV l <:+: v ++ free ['\n'] := by rw [ev]; exact ⟨[], free ['\n'], by simp⟩
      exact NB.images (NB.infix (vq_of_noTerm hval.left g1 hnt) hi) (fun hc hcl => spv_close hval.left g1 (hend hc) (hcl.infix hi))

theorem first_image {c S} {d : Str} {i : Image} {b t1 t2 v X} (h : First c S d (.image i) b t1 t2 v X) : safeLeaf ⟨c⟩ (.image i) = true := by
  have den := h.den
  have := first_imgs (n := .image i) (l := [i]) (by simp) (image_eq i) (by
    cases b with
    | images l =>
      match l with
      | [] => simp [Block.denote] at den
      | [j] => exact ⟨_, rfl, by simpa [Block.denote] using den⟩
      | i :: j :: l => simp [Block.denote] at den
    | _ => simp [Block.denote, YamdNode.newCode] at den) h
  simpa [safeLeaf] using this

theorem first_gallery {c S} {d : Str} {l : List Image} {b t1 t2 v X} (h : First c S d (.images l) b t1 t2 v X) : safeLeaf ⟨c⟩ (.images l) = true := by
  have den := h.den
  have key : 2 ≤ l.length ∧ ∃ is, b = .images is ∧ is.map (Img.denote d) = l := by
    cases b with
    | images l' =>
      match l', h.ok with
      | [], ok => exact absurd rfl ok.1
      | [j], _ => simp [Block.denote] at den
      | i :: j :: l', _ =>
        simp only [Block.denote, YamdNode.images.injEq] at den
        exact ⟨by rw [← den]; simp, _, rfl, den⟩
    | _ => simp [Block.denote, YamdNode.newCode] at den
  have := first_imgs (n := .images l) (l := l) (by rintro rfl; simp at key) (imgsV_eq l) key.2 h
  simp [safeLeaf, key.1, this]

end Yamd.Round
