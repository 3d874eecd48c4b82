import Verif.Proofs.Exact.Para

/-!
# A paragraph that is read back starts no heading and is no images
-/

namespace Yamd.Round

open Yamd Yamd.Spec Yamd.Lexer Yamd.Ref

theorem blen_hashes : ∀ n, blen (List.replicate n '#') = n := by
  intro n
  induction n with
  | zero => rfl
  | succ n ih => rw [List.replicate_succ, blen, ih]; simp only [show '#'.utf8Size = 1 from rfl]; omega

theorem tok1_hashes (n : Nat) : tok1 (List.replicate (n + 1) '#') = some (⟨false, .Hash, List.replicate (n + 1) '#'⟩, []) := by
  have e1 : (List.replicate n '#').takeWhile (· == '#') = List.replicate n '#' := by simp
  have e2 : (List.replicate n '#').dropWhile (· == '#') = [] := by simp
  rw [List.replicate_succ, tok1.eq_def]
  simp only
  rw [if_neg (by decide)]
  simp only [lineBreak, tokPlain, runKind]
  simp [e1]

/-- Hashes and one space are two tokens. -/
theorem hash_space {src : Str} {n : Nat} {w : V} {ts : List Token} (hw : w.head? ≠ some (false, ' '))
    (hs : SpV src true ts (free (List.replicate (n + 1) '#') ++ (free [' '] ++ w))) : ∃ t u r, ts = t :: u :: r ∧
      t.kind = .Hash ∧ t.len = n + 1 ∧ col0 t = true ∧ isSpace1 u = true ∧ SpV src false r w := by
  have hhash : ∀ x ∈ List.replicate (n + 1) '#', x = '#' := fun x hx => List.eq_of_mem_replicate hx
  have hvh : Valid (free (List.replicate (n + 1) '#')) := valid_free (fun hm => by have := hhash _ hm; simp at this)
  have hj1 : Join (free (List.replicate (n + 1) '#')) (free [' '] ++ w) := by
    refine join_after (c := '#') hvh ?_ (by decide) (by decide) (by simp) (.inr (by simp [free]))
    rw [free_getLast, List.getLast?_replicate]; simp
  have hj2 : Join (free [' ']) w := by
    refine join_known (l := []) (p := ⟨false, .Space, [' ']⟩) (valid_free (by decide)) (pieces_one rfl) ?_
    simp only [joinOk, runCharOf, bne_iff_ne, ne_eq]
    intro e
    exact hw (render_head (by decide) e)
  obtain ⟨t1, t2, rfl, s1, s2⟩ := spv_split hvh hj1 hs
  obtain ⟨t, rfl, st⟩ := spv_one (p := ⟨false, .Hash, List.replicate (n + 1) '#'⟩) (by rw [render_free_all]; exact tok1_hashes n) s1
  obtain ⟨t3, t4, rfl, s3, s4⟩ := spv_split (valid_free (by decide)) hj2 s2
  obtain ⟨u, rfl, su⟩ := spv_one (p := ⟨false, .Space, [' ']⟩) rfl s3
  refine ⟨t, u, t4, rfl, st.kind, by rw [st.len]; exact blen_hashes _, by have := st.col; simpa using this, ?_, s4⟩
  simp [isSpace1, su.kind, su.len]; rfl

theorem startsHeading_form {s : Str} (h : startsHeading s = true) : ∃ n s', s = List.replicate (n + 2) '#' ++ ' ' :: s' ∧ n + 2 ≤ 6 ∧
    s'.head? ≠ some ' ' := by
  unfold startsHeading at h
  simp only [Bool.and_eq_true, decide_eq_true_eq, beq_iff_eq, bne_iff_ne, ne_eq] at h
  obtain ⟨⟨⟨h2, h6⟩, h3⟩, h4⟩ := h
  have e1 : s.takeWhile (· == '#') = List.replicate (s.takeWhile (· == '#')).length '#' := by
    refine List.eq_replicate_iff.2 ⟨rfl, fun x hx => ?_⟩
    have := List.all_takeWhile (l := s) (p := (· == '#'))
    rw [List.all_eq_true] at this
    simpa using this x hx
  have e2 := List.takeWhile_append_dropWhile (p := (· == '#')) (l := s)
  cases hd : s.dropWhile (· == '#') with
  | nil => rw [hd] at h3; simp at h3
  | cons c s' =>
    rw [hd] at h3 h4 e2
    simp only [List.head?_cons, Option.some.injEq] at h3
    subst h3
    refine ⟨(s.takeWhile (· == '#')).length - 2, s', ?_, by omega, h4⟩
    rw [show (s.takeWhile (· == '#')).length - 2 + 2 = (s.takeWhile (· == '#')).length by omega, ← e1, e2]

theorem markSet_free {S : List Char} {pat : Str} (h : ∀ c ∈ pat, c ∉ S) (s : Str) : markSet S (pat ++ s) = free pat ++ markSet S s := by
  unfold markSet free
  rw [List.map_append]
  congr 1
  refine List.map_congr_left fun c hc => ?_
  simp [h c hc]

theorem textV_free {pat : Str} (h : ∀ c ∈ pat, c = '#' ∨ c = ' ') (s : Str) : textV (pat ++ s) = free pat ++ textV s := by
  unfold textV
  have hn : ∀ c, c ≠ '#' → c ≠ ' ' → c ∉ pat := fun c h1 h2 hm => by rcases h c hm with e | e <;> contradiction
  rw [markSet_free, mark2_free (hn _ (by decide) (by decide)) (hn _ (by decide) (by decide)),
    mark2_free (hn _ (by decide) (by decide)) (hn _ (by decide) (by decide))]
  intro c hc
  rcases h c hc with rfl | rfl <;> decide

theorem node_space {n : ParagraphNode} (h : ∀ s, n ≠ .text s) (w : V) : (nodeW n ++ w).head? ≠ some (false, ' ') := by
  cases n with
  | text s => exact absurd rfl (h s)
  | _ => simp [nodeW, linkV, free]

theorem para_heading {p : Paragraph} {l D} (hi : safeInline ⟨false⟩ p = true)
    (hD : (docB [] (tokens (escapeLeadingBlockMarker (displayParagraph p)))).1 = .block (.para l) D) :
    startsHeading (leadingText p) = false := by
  cases hh : startsHeading (leadingText p) with
  | false => rfl
  | true =>
    exfalso
    simp only [safeInline, Bool.and_eq_true] at hi
    cases p with
    | nil => revert hh; decide
    | cons m q =>
      cases m with
      | text s =>
        obtain ⟨n, s', rfl, h6, hs'⟩ := startsHeading_form hh
        have ev : paraW (.text (List.replicate (n + 2) '#' ++ ' ' :: s') :: q)
            = free (List.replicate (n + 2) '#') ++ (free [' '] ++ (textV s' ++ paraW q)) := by
          show textV _ ++ paraW q = _
          rw [show List.replicate (n + 2) '#' ++ ' ' :: s' = (List.replicate (n + 2) '#' ++ [' ']) ++ s' by simp,
            textV_free]
          · simp [free]
          · intro c hc
            rcases List.mem_append.1 hc with h | h
            · exact .inl (List.eq_of_mem_replicate h)
            · exact .inr (by simpa using h)
        have ed : escapeLeadingBlockMarker (displayParagraph (.text (List.replicate (n + 2) '#' ++ ' ' :: s') :: q))
            = render (free (List.replicate (n + 2) '#') ++ (free [' '] ++ (textV s' ++ paraW q))) := by
          rw [paraW_eq hi.1, ev, render_append, render_free_all, List.replicate_succ, List.replicate_succ]
          rfl
        generalize hd : escapeLeadingBlockMarker (displayParagraph (.text (List.replicate (n + 2) '#' ++ ' ' :: s') :: q)) = d at hD ed
        have hs : SpV d true (tokens d) (free (List.replicate (n + 2) '#') ++ (free [' '] ++ (textV s' ++ paraW q))) := by
          unfold SpV; rw [← ed]; exact sp_tokens d
        have hw : (textV s' ++ paraW q).head? ≠ some (false, ' ') := by
          cases hx : textV s' with
          | nil =>
            cases q with
            | nil => simp [paraW]
            | cons m q =>
              have hc := hi.2
              rw [noClash, Bool.and_eq_true] at hc
              have hm : ∀ s, m ≠ .text s := by
                rintro s rfl
                simp [clashP] at hc
              exact node_space hm (paraW q)
          | cons x r =>
            have := congrArg List.head? (congrArg (List.map Prod.snd) hx)
            rw [textV_chars] at this
            intro e
            simp only [List.cons_append, List.head?_cons, Option.some.injEq] at e
            rw [e] at this
            exact hs' this
        obtain ⟨t, u, r, ets, hk, hl, hc, hu, -⟩ := hash_space hw hs
        rw [ets] at hD
        have := docB_plain hD (by simp [isCollapsibleStart, hk]) (by simp [isBacktick3, hk]) (by simp [isLeftCurly2, hk])
          (by simp [isTwoBangs, hk])
        have h2 := (leafB_para (stops := [.Terminator]) (ts := t :: u :: r) (by rw [this]; rfl)).1
        unfold headingB at h2
        rw [if_pos] at h2
        · simp at h2
        · simp [tokenIs, hu, isHash, hk, hc, hl]; omega
      | _ => simp [leadingText, startsHeading] at hh

/-! ### Image lines -/

theorem pieces_two {s : Str} {p q : Piece} {r : Str} (h : tok1 s = some (p, r)) (h2 : tok1 r = some (q, [])) : pieces s = [p, q] := by
  rw [pieces_some h, pieces_one h2]

/-- The text of an image line, or of the line break between two, is tokens of that kind. -/
def LineToks (src : Str) (x : Inl) : Prop := ∀ ts, x = .text ts → ∀ s, textOfToks src ts = s →
  (s = ['!'] → ∃ t, ts = [t] ∧ isBang1 t = true) ∧
  (s = ['\n'] ∨ s = ['\r', '\n'] → ∃ e, ts = [e] ∧ isEol e = true) ∧
  (s = ['\n', '!'] ∨ s = ['\r', '\n', '!'] → ∃ e t, ts = [e, t] ∧ isEol e = true ∧ isBang1 t = true)

/-- A node with its own view. -/
def OwnV (S : List Stop) (b : Bool) (n : ParagraphNode) (v : V) : Prop := NodeV (.Terminator :: S) b n v ∧ v = nodeW n

theorem own_shape {S} (b : Bool) (n : ParagraphNode) (v : V) (h : OwnV S b n v) : HasShape textSet (nodeShape n) v ∧ ShapeOk textSet (nodeShape n) :=
  node_shape b n v h.1

theorem sp_two {src : Str} {b : Bool} {ts : List Token} {p q : Piece} (h : Sp src b ts [p, q]) : ∃ t u, ts = [t, u] ∧
    SpT src b t p ∧ SpT src (isNl p) u q := by
  match ts, h with
  | [t, u], h => exact ⟨t, u, rfl, h.1, h.2.1⟩

theorem own_tree {S} {src : Str} (b : Bool) (n : ParagraphNode) (v : V) (bs : Bool) (ts : List Token) (h : OwnV S b n v)
    (hb : nodeShape n = .text → bs = b) (hs : SpV src bs ts v) :
    ∃ x : Inl, x.toks = ts ∧ (InlOk (.Terminator :: S) x ∧ LineToks src x) ∧ x.denote src = n := by
  obtain ⟨x, e1, ok, den⟩ := node_tree b n v bs ts h.1 hb hs
  refine ⟨x, e1, ⟨ok, ?_⟩, den⟩
  rintro us rfl s rfl
  obtain rfl : us = ts := e1
  have hn : n = .text (textOfToks src us) := den.symm
  obtain ⟨hN, rfl⟩ := h
  rw [hn] at hs
  simp only [nodeW] at hs
  have hbang : ∀ {b t}, SpT src b t ⟨false, .Bang, ['!']⟩ → isBang1 t = true := by
    intro b t st
    simp [isBang1, st.kind, st.len]; rfl
  have heol : ∀ {b t s}, SpT src b t ⟨false, .Eol, s⟩ → isEol t = true := by
    intro b t s st
    simp [isEol, st.kind]
  refine ⟨fun e => ?_, fun e => ?_, fun e => ?_⟩
  · rw [e] at hs
    obtain ⟨t, rfl, st⟩ := spv_one (p := ⟨false, .Bang, ['!']⟩) rfl hs
    exact ⟨t, rfl, hbang st⟩
  · rcases e with e | e <;> rw [e] at hs
    · obtain ⟨t, rfl, st⟩ := spv_one (p := ⟨false, .Eol, ['\n']⟩) rfl hs
      exact ⟨t, rfl, heol st⟩
    · obtain ⟨t, rfl, st⟩ := spv_one (p := ⟨false, .Eol, ['\r', '\n']⟩) rfl hs
      exact ⟨t, rfl, heol st⟩
  · rcases e with e | e <;> rw [e] at hs
    · unfold SpV at hs
      rw [pieces_two (p := ⟨false, .Eol, ['\n']⟩) (q := ⟨false, .Bang, ['!']⟩) (r := ['!']) rfl rfl] at hs
      obtain ⟨t, u, rfl, st, su⟩ := sp_two hs
      exact ⟨t, u, rfl, heol st, hbang su⟩
    · unfold SpV at hs
      rw [pieces_two (p := ⟨false, .Eol, ['\r', '\n']⟩) (q := ⟨false, .Bang, ['!']⟩) (r := ['!']) rfl rfl] at hs
      obtain ⟨t, u, rfl, st, su⟩ := sp_two hs
      exact ⟨t, u, rfl, heol st, hbang su⟩

theorem own_seq {c S} (hp : Placed ⟨c⟩ (.Terminator :: S)) : ∀ {p : Paragraph} {b : Bool}, p.all (safeNode ⟨c⟩) = true → SeqV (OwnV S) b p (paraW p)
  | [], _, _ => rfl
  | n :: r, b, h => by
    rw [List.all_cons, Bool.and_eq_true] at h
    exact ⟨nodeW n, paraW r, rfl, ⟨nodeW_ok hp h.1, rfl⟩, own_seq hp h.2⟩

theorem den_text {src : Str} {x : Inl} {s : Str} (h : x.denote src = .text s) : ∃ ts, x = .text ts ∧ textOfToks src ts = s := by
  cases x with
  | text ts => exact ⟨ts, rfl, by simpa [Inl.denote] using h⟩
  | delim d =>
    simp only [Inl.denote] at h
    split at h <;> simp at h
  | bold o i c => simp [Inl.denote] at h
  | anchor l => simp [Inl.denote] at h

theorem den_anchor {src : Str} {x : Inl} {a : Anchor} (h : x.denote src = .anchor a) : ∃ l, x = .anchor l := by
  cases x with
  | text ts => simp [Inl.denote] at h
  | delim d =>
    simp only [Inl.denote] at h
    split at h <;> simp at h
  | bold o i c => simp [Inl.denote] at h
  | anchor l => exact ⟨l, rfl⟩

/-- What follows an image is images. -/
theorem more_toks {src : Str} : ∀ (n : Nat) {l : List Inl}, l.length ≤ n → (∀ x ∈ l, LineToks src x) → moreImageLines (paraDenote src l) = true →
    ∀ t a, isBang1 t = true → ImgToks [t] (.anchor a :: l)
  | _, [], _, _, _, t, a, ht => .last t a ht
  | 0, x :: l, hn, _, _, _, _, _ => by simp at hn
  | n + 1, [x], _, hl, h, t, a, ht => by
    have hx := hl x (by simp)
    cases x with
    | text ts =>
      simp only [paraDenote, List.map_cons, List.map_nil, Inl.denote, moreImageLines, Bool.or_eq_true, beq_iff_eq] at h
      obtain ⟨e, rfl, he⟩ := (hx ts rfl _ rfl).2.1 h
      exact .more t a e [] [] ht he .done
    | delim d =>
      simp only [paraDenote, List.map_cons, List.map_nil, Inl.denote] at h
      split at h <;> simp [moreImageLines] at h
    | bold o i c => simp [paraDenote, Inl.denote, moreImageLines] at h
    | anchor l => simp [paraDenote, Inl.denote, moreImageLines] at h
  | n + 1, x :: y :: l, hn, hl, h, t, a, ht => by
    have hx := hl x (by simp)
    have key : ∃ s b, x.denote src = .text s ∧ y.denote src = .anchor b ∧ (s = ['\n', '!'] ∨ s = ['\r', '\n', '!']) ∧
        moreImageLines (paraDenote src l) = true := by
      simp only [paraDenote, List.map_cons] at h
      generalize x.denote src = X at h
      generalize y.denote src = Y at h
      unfold moreImageLines at h
      split at h
      · simp at *
      · simp at *
      · rename_i h1
        simp only [List.cons.injEq] at h1
        obtain ⟨rfl, rfl, rfl⟩ := h1
        simp only [Bool.and_eq_true, Bool.or_eq_true, beq_iff_eq] at h
        exact ⟨_, _, rfl, rfl, h.1, h.2⟩
      · simp at h
    obtain ⟨s, b, e1, e2, e3, e4⟩ := key
    obtain ⟨ts, rfl, rfl⟩ := den_text e1
    obtain ⟨k, rfl⟩ := den_anchor e2
    obtain ⟨e, u, rfl, he, hu⟩ := (hx ts rfl _ rfl).2.2 e3
    exact .more t a e [u] (.anchor k :: l) ht he
      (more_toks n (by simp only [List.length_cons] at hn; omega) (fun z hz => hl z (by simp [hz])) e4 u k hu)

theorem para_images {p : Paragraph} {l D} (hi : safeInline ⟨false⟩ p = true)
    (hD : (docB [] (tokens (escapeLeadingBlockMarker (displayParagraph p)))).1 = .block (.para l) D) :
    imageLines p = false := by
  cases hh : imageLines p with
  | false => rfl
  | true =>
    exfalso
    simp only [safeInline, Bool.and_eq_true] at hi
    obtain ⟨a, r, rfl, hm⟩ : ∃ a r, p = .text ['!'] :: .anchor a :: r ∧ moreImageLines r = true := by
      unfold imageLines at hh
      split at hh
      · simp only [Bool.and_eq_true, beq_iff_eq] at hh
        exact ⟨_, _, by rw [hh.1], hh.2⟩
      · simp at hh
    have ed : escapeLeadingBlockMarker (displayParagraph (.text ['!'] :: .anchor a :: r)) = render (paraW (.text ['!'] :: .anchor a :: r)) := by
      rw [paraW_eq hi.1]
      rfl
    generalize hd : escapeLeadingBlockMarker (displayParagraph (.text ['!'] :: .anchor a :: r)) = d at hD ed
    have hs : SpV d true (tokens d) (paraW (.text ['!'] :: .anchor a :: r)) := by
      unfold SpV; rw [← ed]; exact sp_tokens d
    obtain ⟨l', e, ot, dt⟩ := seq_tree (src := d) own_shape (own_tree (src := d)) (own_seq placed_out hi.1) (chainP hi.2) (fun _ _ _ => rfl) hs
    have np : NoPair isTextI l' := by
      have hc := chainP hi.2
      rw [← dt] at hc
      refine noPair_of_chain (den := Inl.denote d) (f := isTextI) ?_ hc
      intro x hx
      cases x with
      | text ts => rfl
      | _ => simp [isTextI] at hx
    match l', dt with
    | [x], dt => simp at dt
    | x :: y :: l', dt =>
      simp only [List.map_cons, List.cons.injEq] at dt
      obtain ⟨d1, d2, d3⟩ := dt
      obtain ⟨ts, rfl, ets⟩ := den_text d1
      obtain ⟨k, rfl⟩ := den_anchor d2
      obtain ⟨t, rfl, ht⟩ := ((ot (.text ts) (by simp)).2 ts rfl _ rfl).1 ets
      have hshape := more_toks (src := d) l'.length (Nat.le_refl _) (fun z hz => (ot z (by simp [hz])).2) (by rw [paraDenote, d3]; exact hm) t k ht
      have hok : ∀ x ∈ Inl.anchor k :: l', InlOk [.Terminator] x := fun x hx => (ot x (List.mem_cons_of_mem _ hx)).1
      have hq := inl_quiet (ot (.text [t]) (by simp)).1
      obtain ⟨t0, r0, e0, htx, -⟩ := inl_head (ot (.text [t]) (by simp)).1
      have him := (imagesB_shape (stops := []) (rest := []) .nil (Inl.anchor k :: l').length (w := [t]) (Nat.le_refl _) hok np.2 rfl
        (fun u hu => ⟨hq u hu, (htx rfl).2 u (by
          have := (htx rfl).1
          simp only [Inl.text.injEq] at this
          rw [← this]; exact hu)⟩)).2 hshape
      have ett : [t] ++ (paraToks (.anchor k :: l') ++ []) = tokens d := by
        rw [← e]; simp [paraToks, Inl.toks]
      rw [ett] at him
      obtain ⟨q, eq⟩ : ∃ q, tokens d = t :: q := ⟨_, ett.symm⟩
      rw [eq] at him hD
      have hk : t.kind = .Bang ∧ t.len = 1 := by simpa [isBang1] using ht
      have hleaf := docB_plain hD (by simp [isCollapsibleStart, hk]) (by simp [isBacktick3, hk]) (by simp [isLeftCurly2, hk])
        (by simp [isTwoBangs, hk])
      have h2 := (leafB_para (stops := [.Terminator]) (ts := t :: q) (by rw [hleaf]; rfl)).2
      cases hx : imagesB [.Terminator] (t :: q) with
      | none => exact him hx
      | some z =>
        obtain ⟨il, ir⟩ := z
        cases il with
        | cons i il => exact h2 _ _ _ hx
        | nil =>
          cases hib : imageB [.Terminator] (t :: q) with
          | some w =>
            obtain ⟨i, r'⟩ := w
            rw [imagesB_some hib] at hx
            simp at hx
          | none =>
            rw [imagesB_none hib] at hx
            split at hx
            · rename_i hst
              simp [stopAt, stopHere, hk] at hst
            · simp at hx

/-- A paragraph that is read back is safe. -/
theorem para_exact {p : Paragraph} (h : deserialize (escapeLeadingBlockMarker (displayParagraph p)) = .ok ⟨none, [.paragraph p]⟩) :
    safeLeaf ⟨false⟩ (.paragraph p) = true := by
  obtain ⟨h1, h2, l, D, hD⟩ := para_inline h
  simp only [safeLeaf, Bool.and_eq_true, Bool.not_eq_true']
  exact ⟨⟨⟨by simpa using h1, h2⟩, para_heading h2 hD⟩, para_images h2 hD⟩

end Yamd.Round
