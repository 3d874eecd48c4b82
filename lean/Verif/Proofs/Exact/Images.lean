import Verif.Proofs.Exact.Invert

/-!
# Images that survive
-/

namespace Yamd.Round

open Yamd Yamd.Spec Yamd.Lexer Yamd.Ref

/-- Every image but the last ends its line. -/
def EolsOk : List Img → Prop
  | [] => True
  | [_] => True
  | i :: j :: r => i.eol ≠ [] ∧ EolsOk (j :: r)

theorem imageB_bang {stops ts x} (h : imageB stops ts = some x) : tokenIs ts 0 isBang1 = true := by
  cases ts with
  | nil => simp [imageB] at h
  | cons t ts =>
    rw [imageB] at h
    split at h
    · rename_i h1; simpa [tokenIs] using h1
    · simp at h

theorem imageB_eol {S ts i r} (h : imageB (.Terminator :: S) ts = some (i, r)) (he : i.eol = []) : stopAt (.Terminator :: S) r = true := by
  cases ts with
  | nil => simp [imageB] at h
  | cons t ts =>
    rw [imageB] at h
    split at h
    · split at h
      · simp at h
      · rename_i l r1 h1
        split at h
        · rename_i h2
          simp only [Option.some.injEq, Prod.mk.injEq] at h
          obtain ⟨rfl, rfl⟩ := h
          cases r1 with
          | nil => simp [tokenIs] at h2
          | cons a r1 => simp at he
        · split at h
          · rename_i h2
            simp only [Option.some.injEq, Prod.mk.injEq] at h
            obtain ⟨rfl, rfl⟩ := h
            exact h2
          · simp at h
    · simp at h

theorem bang_stop {S : List Stop} {t : Token} {r : List Token} (hd : DStops S) (hk : t.kind = .Bang) : stopAt (.Terminator :: S) (t :: r) = false := by
  simp only [stopAt, List.any_eq_false]
  intro st hst
  rcases List.mem_cons.1 hst with rfl | hst
  · simp [stopHere, hk]
  · rw [hd st hst]; simp [stopHere, hk]

theorem bang_noStop {S} {r : List Token} (hd : DStops S) (h : tokenIs r 0 isBang1 = true) : stopAt (.Terminator :: S) r = false := by
  cases r with
  | nil => simp [tokenIs] at h
  | cons t r =>
    have hk : t.kind = .Bang := by
      simp only [tokenIs, isBang1] at h
      simp at h
      exact h.1
    exact bang_stop hd hk

theorem imagesB_eols {S} (hd : DStops S) : ∀ (n : Nat) {ts l r}, ts.length ≤ n → imagesB (.Terminator :: S) ts = some (l, r) → EolsOk l := by
  intro n
  induction n with
  | zero =>
    intro ts l r hn h
    have : ts = [] := List.length_eq_zero_iff.1 (by omega)
    subst this
    rw [imagesB_none rfl] at h
    split at h
    · simp only [Option.some.injEq, Prod.mk.injEq] at h
      rw [← h.1]; trivial
    · simp at h
  | succ n ih =>
    intro ts l r hn h
    cases h1 : imageB (.Terminator :: S) ts with
    | none =>
      rw [imagesB_none h1] at h
      split at h
      · simp only [Option.some.injEq, Prod.mk.injEq] at h
        rw [← h.1]; trivial
      · simp at h
    | some x =>
      obtain ⟨i, r1⟩ := x
      rw [imagesB_some h1, Option.map_eq_some_iff] at h
      obtain ⟨⟨l', r'⟩, h2, e⟩ := h
      simp only [Prod.mk.injEq] at e
      obtain ⟨rfl, rfl⟩ := e
      have hlen := imageB_length h1
      have := ih (by omega) h2
      cases l' with
      | nil => trivial
      | cons j l'' =>
        refine ⟨fun he => ?_, this⟩
        have hstop := imageB_eol h1 he
        cases h3 : imageB (.Terminator :: S) r1 with
        | none =>
          rw [imagesB_none h3] at h2
          split at h2 <;> simp at h2
        | some y => rw [bang_noStop hd (imageB_bang h3)] at hstop; simp at hstop

theorem imgs_long {d : Str} : ∀ {l : List Img}, (∀ x ∈ l, x.Ok) → EolsOk l → Live d (l.flatMap Img.toks) →
    (imgsV (l.map (Img.denote d))).length ≤ (textOfToks d (l.flatMap Img.toks)).length := by
  have one : ∀ {i : Img}, i.Ok → Live d i.toks → (textOfToks d i.toks).length = (imgV (i.denote d)).length + (textOfToks d i.eol).length := by
    intro i hi hl
    have hb : sliceD d i.bang = ['!'] := run_slice (n := 1) hl (by simp [Img.toks]) hi.1 rfl
    have hlk := link_text hi.2.1 (hl.infix ⟨[i.bang], i.eol, by simp [Img.toks]⟩)
    have e : (imgV (i.denote d)).length = ((imgV (i.denote d)).map Prod.snd).length := by simp
    rw [e, Img.toks, text_cons, text_append, hlk, hb, imgV, List.map_append, linkV_chars, free_chars, bodyV_chars, bodyV_chars, Img.denote]
    simp only [List.length_append, List.length_cons, List.length_nil]
    omega
  intro l
  induction l with
  | nil => intro _ _ _; simp [imgsV]
  | cons i l ih =>
    intro hok he hl
    have hl1 : Live d i.toks := hl.mem (f := Img.toks) (by simp)
    have hl2 : Live d (l.flatMap Img.toks) := hl.infix ⟨i.toks, [], by simp⟩
    have h1 := one (hok i (by simp)) hl1
    rw [List.flatMap_cons, text_append, List.length_append, h1]
    cases l with
    | nil => simp only [List.map_cons, List.map_nil, imgsV]; omega
    | cons j l =>
      have := ih (fun x hx => hok x (List.mem_cons_of_mem _ hx)) he.2 hl2
      have h2 : 0 < (textOfToks d i.eol).length := by
        obtain ⟨t, r, e⟩ := List.exists_cons_of_ne_nil he.1
        rw [e, text_cons, List.length_append]
        have := List.length_pos_iff.2 (hl1.text t (by simp [Img.toks, e]))
        omega
      simp only [List.map_cons, imgsV, List.length_append] at this ⊢
      have : (free ['\n']).length = 1 := rfl
      omega

theorem first_bang {d b ts} {l : List Image} (hl : l ≠ []) (hs : SpV d b ts (imgsV l)) :
    ∃ t r, ts = t :: r ∧ isBang1 t = true := by
  obtain ⟨w, e⟩ : ∃ w, imgsV l = free ['!'] ++ ((false, '[') :: w) := by
    match l with
    | [] => exact absurd rfl hl
    | [i] => exact ⟨_, rfl⟩
    | i :: j :: r => exact ⟨_, rfl⟩
  rw [e] at hs
  have hj : Join (free ['!']) ((false, '[') :: w) :=
    join_after (c := '!') (valid_free (by decide)) rfl (by decide) (by decide) (by simp) (.inr (by simp))
  obtain ⟨t1, t2, rfl, s1, s2⟩ := spv_split (valid_free (by decide)) hj hs
  obtain ⟨t, rfl, st⟩ := spv_one (p := ⟨false, .Bang, ['!']⟩) rfl s1
  exact ⟨t, t2, rfl, bang1_of st⟩

/-- Images that are read back are safe. -/
theorem imgs_exact {l : List Image} {n : YamdNode} (hl0 : l ≠ []) (hn : ∀ t b, n ≠ .collapsible t b)
    (hb : ∀ d b, Block.denote d b = n → ∃ is, b = .images is ∧ is.map (Img.denote d) = l)
    (h : deserialize (render (imgsV l)) = .ok ⟨none, [n]⟩) : l.all (safeImage ⟨false⟩) = true := by
  have hvalid := imgsV_valid l
  have hu := unescape_render hvalid
  have hs : SpV (render (imgsV l)) true (tokens (render (imgsV l))) (imgsV l) := sp_tokens _
  generalize render (imgsV l) = d at h hu hs
  obtain ⟨t1, bl, t2, D, hf, hl, b1, b2, ok, den, hD⟩ := reads_one hn h
  obtain ⟨is, rfl, hden⟩ := hb _ _ den
  obtain ⟨t, r, ets, hbang⟩ := first_bang hl0 hs
  have hk : t.kind = .Bang ∧ t.len = 1 := by simpa [isBang1] using hbang
  have h1 : t1 = [] := by
    cases t1 with
    | nil => rfl
    | cons u t1 =>
      rw [ets] at hf
      cases hf with
      | cons x1 y1 =>
        have hu := b1 u (by simp)
        have huk : u.kind = .Terminator := by simpa [isTerminator] using hu
        have := flipRel_kind x1 (by rw [huk]; decide)
        rw [this, huk] at hk
        simp at hk
  subst h1
  have hD := hD rfl
  rw [ets] at hD
  have hleaf := docB_plain hD (by simp [isCollapsibleStart, hk.1]) (by simp [isBacktick3, hk.1]) (by simp [isLeftCurly2, hk.1])
    (by simp [isTwoBangs, hk.1, hk.2])
  have he : EolsOk is := by
    rcases leafB_cases [.Terminator] (t :: r) with ⟨k, m, p, n, r', rest, h1, h2⟩ | ⟨i, l, r', h1, h2⟩ | h1 | h1 | h1
    · rw [h2] at hleaf; simp at hleaf
    · rw [h2] at hleaf
      simp only [Block.images.injEq] at hleaf
      rw [← hleaf]
      exact imagesB_eols (S := []) (fun _ h => by simp at h) _ (Nat.le_refl _) h1
    · rw [thematicB, if_neg (by simp [isDash5, hk.1])] at h1; simp at h1
    · unfold headingB at h1
      split at h1
      · rw [← Option.some.inj h1] at hleaf; simp at hleaf
      · simp at h1
    · rw [h1] at hleaf; simp at hleaf
  have hlb : Live d (is.flatMap Img.toks) := hl.infix ⟨[], t2, by simp [Block.toks]⟩
  have hlong := imgs_long ok.2 he hlb
  rw [hden] at hlong
  obtain ⟨-, rfl⟩ := no_blanks_le hf hl (by rw [hu, List.length_map, Block.toks]; exact hlong)
  have hnt : NoTerm (tokens d) := by
    refine hf.noTerm ?_
    intro u hu
    simp only [Block.toks, List.nil_append, List.append_nil, List.mem_flatMap] at hu
    obtain ⟨x, hx, hu⟩ := hu
    exact (ok.2 x hx).2.2.2 u hu
  have hnb : NB (imgsV l) := vq_of_noTerm hvalid hs hnt
  clear hs hu hb hl0 hden hlong hvalid h
  rw [List.all_eq_true]
  have hinf : ∀ {l : List Image} {i}, i ∈ l → imgV i <:+: imgsV l := by
    intro l
    induction l with
    | nil => intro i hi; simp at hi
    | cons a l ih =>
      intro i hi
      cases l with
      | nil =>
        simp only [List.mem_singleton] at hi
        subst hi; exact ⟨[], [], by simp [imgsV]⟩
      | cons b l =>
        rcases List.mem_cons.1 hi with rfl | hi
        · exact ⟨[], free ['\n'] ++ imgsV (b :: l), by simp [imgsV]⟩
        · obtain ⟨x, y, e⟩ := ih hi
          exact ⟨imgV a ++ (free ['\n'] ++ x), y, by simp [imgsV, ← e]⟩
  intro i hi
  have h1 := hnb.infix (hinf hi)
  obtain ⟨h2, h3⟩ := NB.link (w1 := bodyV [']', '\\'] i.alt) (w2 := bodyV [')', '(', '\\'] i.src)
    (h1.infix ⟨free ['!'], [], by simp [imgV]⟩)
  simp [safeImage, safeBody_out, NB.body (by decide) (by decide) h2, NB.body (by decide) (by decide) h3]

theorem image_exact {i : Image} (h : deserialize i.display = .ok ⟨none, [.image i]⟩) : safeLeaf ⟨false⟩ (.image i) = true := by
  rw [image_eq] at h
  have := imgs_exact (l := [i]) (by simp) (fun _ _ => by simp) (by
    intro d b den
    cases b with
    | images l =>
      match l with
      | [] => simp [Block.denote] at den
      | [j] => exact ⟨_, rfl, by simpa [Block.denote] using den⟩
      | i :: j :: l => simp [Block.denote] at den
    | _ => simp [Block.denote, YamdNode.newCode] at den) h
  simpa [safeLeaf] using this

theorem images_exact {l : List Image} (h : deserialize (displayImages l) = .ok ⟨none, [.images l]⟩) :
    safeLeaf ⟨false⟩ (.images l) = true := by
  have key : ∀ d b, Block.denote d b = .images l → b ≠ .images [] → 2 ≤ l.length ∧ ∃ is, b = .images is ∧ is.map (Img.denote d) = l := by
    intro d b den hne
    cases b with
    | images l' =>
      match l' with
      | [] => exact absurd rfl hne
      | [j] => simp [Block.denote] at den
      | i :: j :: l' =>
        simp only [Block.denote, YamdNode.images.injEq] at den
        exact ⟨by rw [← den]; simp, _, rfl, den⟩
    | _ => simp [Block.denote, YamdNode.newCode] at den
  have hlen : 2 ≤ l.length := by
    obtain ⟨t1, bl, t2, D, hf, hl, b1, b2, ok, den, hD⟩ := reads_one (fun _ _ => by simp) h
    refine (key _ _ den ?_).1
    rintro rfl
    exact ok.1 rfl
  have hl0 : l ≠ [] := by intro e; simp [e] at hlen
  rw [imgsV_eq] at h
  have := imgs_exact hl0 (fun _ _ => by simp) (fun d b den => (key d b den (by
    rintro rfl
    simp only [Block.denote, YamdNode.images.injEq] at den
    exact hl0 den.symm)).2) h
  simp [safeLeaf, hlen, this]

end Yamd.Round
