import Verif.Proofs.LexProps

/-!
# Texts with escape marks

A view is a text whose characters are marked "escaped" or "free"; `render` writes it with backslashes.
What the serializer writes is described by views, and the pieces the lexer finds in a rendered view are
described by the view.
-/

namespace Yamd.Round

open Yamd Yamd.Spec Yamd.Lexer

/-- Characters with their escape mark. -/
abbrev V := List (Bool × Char)

def render (v : V) : Str := v.flatMap (fun x => if x.1 then ['\\', x.2] else [x.2])

/-- A free backslash would escape what follows it. -/
def Valid (v : V) : Prop := (false, '\\') ∉ v

theorem render_append {v w : V} : render (v ++ w) = render v ++ render w := by simp [render]
theorem render_nil : render [] = [] := rfl
theorem render_free {c : Char} {w : V} : render ((false, c) :: w) = c :: render w := rfl
theorem render_esc {c : Char} {w : V} : render ((true, c) :: w) = '\\' :: c :: render w := rfl

/-- A text without any escape. -/
def free (s : Str) : V := s.map (fun c => (false, c))

theorem render_free_all : ∀ s : Str, render (free s) = s
  | [] => rfl
  | c :: s => by rw [free, List.map_cons, render_free, ← free, render_free_all]

theorem Valid.append {v w : V} (h1 : Valid v) (h2 : Valid w) : Valid (v ++ w) := by
  intro h; rcases List.mem_append.1 h with h | h
  · exact h1 h
  · exact h2 h
theorem Valid.left {v w : V} (h : Valid (v ++ w)) : Valid v := fun hm => h (by simp [hm])
theorem Valid.right {v w : V} (h : Valid (v ++ w)) : Valid w := fun hm => h (by simp [hm])
theorem Valid.tail {x} {w : V} (h : Valid (x :: w)) : Valid w := fun hm => h (by simp [hm])
theorem Valid.cons {x} {w : V} (h1 : x ≠ (false, '\\')) (h2 : Valid w) : Valid (x :: w) := by
  intro h; rcases List.mem_cons.1 h with h | h
  · exact h1 h.symm
  · exact h2 h
theorem valid_free {s : Str} (h : '\\' ∉ s) : Valid (free s) := by
  intro hm
  obtain ⟨c, hc, e⟩ := List.mem_map.1 hm
  simp only [Prod.mk.injEq, true_and] at e
  subst e; exact h hc

theorem dangling_render : ∀ {v : V}, Valid v → dangling (render v) = false
  | [], _ => rfl
  | (true, c) :: v, h => by
    rw [render_esc, dangling, if_pos rfl, dangling_render h.tail]
  | (false, c) :: v, h => by
    have hc : c ≠ '\\' := fun e => h (by simp [e])
    rw [render_free, dangling_src hc, dangling_render h.tail]

theorem unescape_render : ∀ {v : V}, Valid v → unescape (render v) = v.map Prod.snd
  | [], _ => rfl
  | (true, c) :: v, h => by
    rw [render_esc, unescape, if_pos rfl, unescape_render h.tail]; rfl
  | (false, c) :: v, h => by
    have hc : c ≠ '\\' := fun e => h (by simp [e])
    rw [render_free, unescape_src hc, unescape_render h.tail]; rfl

theorem render_inj : ∀ {v w : V}, Valid v → Valid w → render v = render w → v = w
  | [], [], _, _, _ => rfl
  | [], (true, c) :: w, _, _, h => by rw [render_esc] at h; simp [render] at h
  | [], (false, c) :: w, _, _, h => by rw [render_free] at h; simp [render] at h
  | (true, c) :: v, [], _, _, h => by rw [render_esc] at h; simp [render] at h
  | (false, c) :: v, [], _, _, h => by rw [render_free] at h; simp [render] at h
  | (true, c) :: v, (true, d) :: w, hv, hw, h => by
    rw [render_esc, render_esc] at h
    simp only [List.cons.injEq, true_and] at h
    rw [h.1, render_inj hv.tail hw.tail h.2]
  | (false, c) :: v, (false, d) :: w, hv, hw, h => by
    rw [render_free, render_free] at h
    simp only [List.cons.injEq] at h
    rw [h.1, render_inj hv.tail hw.tail h.2]
  | (true, c) :: v, (false, d) :: w, hv, hw, h => by
    rw [render_esc, render_free] at h
    simp only [List.cons.injEq] at h
    rw [← h.1] at hw
    exact absurd (by simp) hw
  | (false, c) :: v, (true, d) :: w, hv, hw, h => by
    rw [render_esc, render_free] at h
    simp only [List.cons.injEq] at h
    rw [h.1] at hv
    exact absurd (by simp) hv

/-! ### Pieces of a rendered view -/

/-- The characters of a piece with their marks. -/
def pview (p : Piece) : V :=
  match p.text with
  | [] => []
  | c :: r => (p.esc, c) :: free r

theorem pview_chars (p : Piece) : (pview p).map Prod.snd = p.text := by
  unfold pview
  cases p.text with
  | nil => rfl
  | cons c r => simp [free, Function.comp_def]

theorem pview_src {p : Piece} (h : p.text ≠ []) : render (pview p) = p.src := by
  unfold pview Piece.src
  cases ht : p.text with
  | nil => exact absurd ht h
  | cons c r =>
    cases p.esc with
    | true => simp only [render_esc, render_free_all]; rfl
    | false => simp only [render_free, render_free_all]; rfl

theorem pview_valid {p : Piece} (h : KindText p.kind p.esc p.text) (he : p.esc = true → p.kind = .Literal) :
    Valid (pview p) := by
  unfold pview
  cases ht : p.text with
  | nil => simp [Valid]
  | cons c r =>
    rw [ht] at h
    cases hp : p.esc with
    | false =>
      rw [hp] at h
      have := form_noBackslash h
      simp only [List.mem_cons, not_or] at this
      exact Valid.cons (by simpa using Ne.symm this.1) (valid_free this.2)
    | true =>
      rw [hp, he hp] at h
      obtain ⟨c', r', e, h1, -⟩ := h
      simp only [List.cons.injEq] at e
      obtain ⟨rfl, rfl⟩ := e
      exact Valid.cons (by simp) (valid_free (fun hm => h1 _ hm (by simp [specials])))

/-- The pieces of a rendered view give the view back. -/
theorem pieces_view {v : V} (hv : Valid v) : (pieces (render v)).flatMap pview = v := by
  have hform := pieces_form (render v)
  have hsrc := pieces_src (render v)
  rw [dangling_render hv] at hsrc
  simp only [Bool.false_eq_true, if_false, List.append_nil] at hsrc
  refine render_inj ?_ hv ?_
  · intro hm
    obtain ⟨p, hp, hx⟩ := List.mem_flatMap.1 hm
    exact pview_valid (hform p hp).1 (hform p hp).2 hx
  · conv => rhs; rw [hsrc]
    have : ∀ ps : List Piece, (∀ p ∈ ps, p.text ≠ []) → render (ps.flatMap pview) = srcOf ps := by
      intro ps
      induction ps with
      | nil => intro _; rfl
      | cons p ps ih =>
        intro h
        rw [List.flatMap_cons, render_append, pview_src (h p (by simp)), ih (fun q hq => h q (by simp [hq]))]
        simp [srcOf]
    exact this _ (fun p hp => form_ne_nil (hform p hp).1)

/-- `v` followed by `w` is lexed to the pieces of `v` and the pieces of `w`. -/
def Join (v w : V) : Prop := pieces (render (v ++ w)) = pieces (render v) ++ pieces (render w)

theorem join_of {v w : V} (hv : Valid v)
    (hj : ∀ p, (pieces (render v)).getLast? = some p → joinOk p (render w) = true) : Join v w := by
  unfold Join
  rw [render_append]
  exact pieces_append _ _ (dangling_render hv) hj

theorem join_nil_right (v : V) : Join v [] := by
  unfold Join
  rw [List.append_nil, render_nil, pieces_none (show tok1 [] = none from rfl), List.append_nil]

theorem join_nil_left (v : V) : Join [] v := by
  unfold Join
  rw [List.nil_append, render_nil, pieces_none (show tok1 [] = none from rfl), List.nil_append]

/-- The last piece of a rendered view ends the view. -/
theorem last_piece {v : V} (hv : Valid v) {p : Piece} (hp : (pieces (render v)).getLast? = some p) :
    KindText p.kind p.esc p.text ∧ (p.esc = true → p.kind = .Literal) ∧ v.getLast? = (pview p).getLast? := by
  obtain ⟨l, hl⟩ := List.getLast?_eq_some_iff.1 hp
  have hf := pieces_form (render v) p (by rw [hl]; simp)
  refine ⟨hf.1, hf.2, ?_⟩
  have := pieces_view hv
  rw [hl, List.flatMap_append, List.flatMap_cons, List.flatMap_nil, List.append_nil] at this
  rw [← this, List.getLast?_append]
  have hne : pview p ≠ [] := by
    have := form_ne_nil hf.1
    unfold pview
    cases ht : p.text with
    | nil => exact absurd ht this
    | cons c r => simp
  cases hq : (pview p).getLast? with
  | none => exact absurd (List.getLast?_eq_none_iff.1 hq) hne
  | some x => rfl

theorem free_getLast {r : Str} : (free r).getLast? = r.getLast?.map (fun c => (false, c)) := by
  simp [free, List.getLast?_map]

/-- The last mark and character of a piece. -/
theorem pview_last {p : Piece} {c : Char} (h : (if p.esc then p.text.tail else p.text).getLast? = some c) :
    (pview p).getLast? = some (false, c) := by
  unfold pview
  cases ht : p.text with
  | nil => rw [ht] at h; cases p.esc <;> simp at h
  | cons d r =>
    rw [ht] at h
    cases hp : p.esc with
    | true =>
      rw [hp] at h
      simp only [if_true, List.tail_cons] at h
      rw [List.getLast?_cons, free_getLast, h]; rfl
    | false =>
      rw [hp] at h
      simp only [Bool.false_eq_true, if_false] at h
      show (free (d :: r)).getLast? = _
      rw [free_getLast, h]; rfl

theorem last_run {p : Piece} {c : Char} (hf : KindText p.kind p.esc p.text) (he : p.esc = true → p.kind = .Literal)
    (hk : runCharOf p.kind = some c) : (pview p).getLast? = some (false, c) := by
  have hesc : p.esc = false := by
    cases h : p.esc with
    | false => rfl
    | true => rw [he h] at hk; simp [runCharOf] at hk
  rw [kindText_run hk] at hf
  refine pview_last ?_
  rw [hesc]
  simp only [Bool.false_eq_true, if_false]
  cases hl : p.text.getLast? with
  | none => exact absurd (List.getLast?_eq_none_iff.1 hl) hf.1
  | some x => rw [hf.2 x (List.mem_of_getLast? hl)]

/-- A free special character that the last character does not combine with starts a new piece. -/
theorem join_stop {v w : V} {c : Char} (hv : Valid v) (hw : (render w).head? = some c) (hc : c ∈ stopChars)
    (h1 : v.getLast? ≠ some (false, c)) (h2 : c = '\n' → v.getLast? ≠ some (false, '\r'))
    (h3 : c = '}' → v.getLast? ≠ some (false, '%')) : Join v w := by
  refine join_of hv (fun p hp => ?_)
  obtain ⟨hf, he, hl⟩ := last_piece hv hp
  rw [hl] at h1 h2 h3
  obtain ⟨s, hs⟩ : ∃ s, render w = c :: s := by
    cases hr : render w with
    | nil => rw [hr] at hw; simp at hw
    | cons a s => rw [hr] at hw; simp at hw; exact ⟨s, by rw [hw]⟩
  have hr : ∀ d, runCharOf p.kind = some d → (render w).head? ≠ some d := by
    intro d hd e
    rw [hw] at e
    simp only [Option.some.injEq] at e
    subst e
    exact h1 (last_run hf he hd)
  unfold joinOk
  cases hk : p.kind with
  | Literal =>
    simp only [Bool.and_eq_true]
    refine ⟨by rw [hs]; simp [litStop, hc], ?_⟩
    simp only [tailOk, Bool.and_eq_true, Bool.not_eq_true', Bool.and_eq_false_iff, beq_eq_false_iff_ne]
    constructor
    · by_cases hcn : c = '\n'
      · left; intro e; exact h2 hcn (pview_last e)
      · right; rw [hw]; simpa using hcn
    · by_cases hcn : c = '}'
      · left; intro e; exact h3 hcn (pview_last e)
      · right; rw [hw]; simpa using hcn
  | Eol =>
    have hcn : c ≠ '\n' := by
      rintro rfl
      apply h1
      refine pview_last ?_
      have hesc : p.esc = false := by
        cases h : p.esc with
        | false => rfl
        | true => rw [he h] at hk; cases hk
      rw [hesc]
      rw [hk] at hf
      rcases hf with hf | hf <;> rw [hf] <;> rfl
    have hcr : c ≠ '\r' := by rintro rfl; simp [stopChars] at hc
    rw [hs, lineBreak_ne hcn (by simp [hcr])]; rfl
  | LeftCurlyBrace =>
    have := hr '{' (by rw [hk]; rfl)
    have hcp : c ≠ '%' := by rintro rfl; simp [stopChars] at hc
    simp [this, hw, hcp]
    rw [hw] at this; simpa using this
  | _ =>
    simp only [runCharOf]
    first
      | done
      | (have := hr _ (by rw [hk]; rfl); simpa using this)

/-- An escaped character starts a new piece. -/
theorem join_esc {v w : V} {c : Char} (hv : Valid v) : Join v ((true, c) :: w) := by
  by_cases h : v.getLast? = some (false, '\\')
  · exact absurd (List.mem_of_getLast? h) hv
  · exact join_stop (c := '\\') hv rfl (by simp [stopChars]) h (by simp) (by simp)

/-- A view with known pieces. -/
theorem join_known {v w : V} {l : List Piece} {p : Piece} (hv : Valid v) (h : pieces (render v) = l ++ [p])
    (hj : joinOk p (render w) = true) : Join v w := by
  refine join_of hv (fun q hq => ?_)
  rw [h] at hq
  simp only [List.getLast?_append, List.getLast?_singleton, Option.some_or, Option.some.injEq] at hq
  rw [← hq]; exact hj

/-- Pieces known by one step. -/
theorem pieces_one {s : Str} {p : Piece} (h : tok1 s = some (p, [])) : pieces s = [p] := by
  rw [pieces_some h, pieces_none (show tok1 [] = none from rfl)]

/-! ### Escaping by replacement -/

/-- Mark the characters of a set. -/
def markSet (S : List Char) (s : Str) : V := s.map (fun c => (S.contains c, c))

theorem replaceGo_skip (pat rep : Str) : ∀ (a b : Str), replaceGo pat rep a.length (a ++ b) = replaceGo pat rep 0 b
  | [], b => by simp
  | x :: a, b => by rw [List.length_cons, List.cons_append, replaceGo, replaceGo_skip pat rep a b]

theorem replace_nil (pat rep : Str) : replace pat rep [] = [] := by rw [replace, replaceGo]

theorem replace_no {pat rep : Str} {c : Char} {s : Str} (h : pat.isPrefixOf (c :: s) = false) :
    replace pat rep (c :: s) = c :: replace pat rep s := by
  rw [replace, replaceGo, if_neg (by simp [h]), ← replace]

theorem replace_yes {pat rep : Str} {s : Str} (h : pat ≠ []) :
    replace pat rep (pat ++ s) = rep ++ replace pat rep s := by
  cases pat with
  | nil => exact absurd rfl h
  | cons c p =>
    rw [replace, List.cons_append, replaceGo, if_pos]
    · rw [List.length_cons, Nat.add_sub_cancel, replaceGo_skip, ← replace]
    · rw [List.isPrefixOf_iff_prefix]; exact ⟨s, rfl⟩

/-- A pattern that does not occur is not replaced. -/
theorem replace_id {pat rep : Str} : ∀ {s : Str}, ¬ pat <:+: s → replace pat rep s = s
  | [], _ => replace_nil _ _
  | c :: s, h => by
    rw [replace_no, replace_id (fun hi => h (hi.trans (List.suffix_cons c s).isInfix))]
    cases hp : pat.isPrefixOf (c :: s) with
    | false => rfl
    | true => exact absurd (List.isPrefixOf_iff_prefix.1 hp).isInfix h

/-- Escaping the backslashes. -/
theorem replace_backslash : ∀ s : Str, replace ['\\'] ['\\', '\\'] s = render (markSet ['\\'] s)
  | [] => replace_nil _ _
  | c :: s => by
    by_cases hc : c = '\\'
    · subst hc
      have := replace_yes (pat := ['\\']) (rep := ['\\', '\\']) (s := s) (by simp)
      rw [List.singleton_append] at this
      rw [this, replace_backslash s]
      rfl
    · rw [replace_no (by simp [List.isPrefixOf, Ne.symm hc]), replace_backslash s]
      have : (markSet ['\\'] (c :: s)) = (false, c) :: markSet ['\\'] s := by simp [markSet, hc]
      rw [this, render_free]

/-- Escaping one more character. -/
theorem replace_char {a : Char} {S : List Char} (ha : a ≠ '\\') (haS : a ∉ S) : ∀ s : Str,
    replace [a] ['\\', a] (render (markSet S s)) = render (markSet (a :: S) s)
  | [] => replace_nil _ _
  | c :: s => by
    have ih := replace_char ha haS s
    have e : ∀ S, markSet S (c :: s) = (S.contains c, c) :: markSet S s := fun S => rfl
    rw [e, e]
    by_cases hS : c ∈ S
    · have h1 : S.contains c = true := by simpa using hS
      have h2 : (a :: S).contains c = true := by simp [hS]
      have hca : c ≠ a := fun h => haS (h ▸ hS)
      rw [h1, h2, render_esc, render_esc, replace_no (by simp [List.isPrefixOf, ha]),
        replace_no (by simp [List.isPrefixOf, Ne.symm hca]), ih]
    · have h1 : S.contains c = false := by simpa using hS
      rw [h1, render_free]
      by_cases hca : c = a
      · subst hca
        have h2 : (c :: S).contains c = true := by simp
        have := replace_yes (pat := [c]) (rep := ['\\', c]) (s := render (markSet S s)) (by simp)
        rw [List.singleton_append] at this
        rw [h2, render_esc, this, ih]; rfl
      · have h2 : (a :: S).contains c = false := by simp [hca, hS]
        rw [h2, render_free, replace_no (by simp [List.isPrefixOf, Ne.symm hca]), ih]

/-- Mark the first character (and the second when `fb`) of every free `ab`, from left to right. -/
def mark2 (a b : Char) (fb : Bool) : V → V
  | [] => []
  | [x] => [x]
  | x :: y :: r =>
    if x = (false, a) ∧ y = (false, b) then (true, a) :: (fb, b) :: mark2 a b fb r
    else x :: mark2 a b fb (y :: r)

theorem mark2_no {a b : Char} {fb : Bool} {x y : Bool × Char} {r : V} (h : ¬ (x = (false, a) ∧ y = (false, b))) :
    mark2 a b fb (x :: y :: r) = x :: mark2 a b fb (y :: r) := by rw [mark2, if_neg h]

theorem mark2_yes {a b : Char} {fb : Bool} {r : V} :
    mark2 a b fb ((false, a) :: (false, b) :: r) = (true, a) :: (fb, b) :: mark2 a b fb r := by
  rw [mark2, if_pos ⟨rfl, rfl⟩]

theorem replace_two {a b : Char} {fb : Bool} (ha : a ≠ '\\') (hb : b ≠ '\\') {rep : Str}
    (hrep : rep = render [(true, a), (fb, b)]) : ∀ {v : V}, (true, a) ∉ v →
    replace [a, b] rep (render v) = render (mark2 a b fb v)
  | [], _ => replace_nil _ _
  | [(true, c)], h => by
    have hca : c ≠ a := by rintro rfl; simp at h
    rw [mark2, render_esc, replace_no (by simp [List.isPrefixOf, ha]), replace_no (by simp [List.isPrefixOf, Ne.symm hca])]
    rw [render_nil, replace_nil]
  | [(false, c)], _ => by
    rw [mark2, render_free, replace_no (by simp [List.isPrefixOf, render]), render_nil, replace_nil]
  | (true, c) :: y :: r, h => by
    have hca : c ≠ a := by rintro rfl; simp at h
    rw [mark2_no (by simp), render_esc, render_esc, replace_no (by simp [List.isPrefixOf, ha]),
      replace_no (by simp [List.isPrefixOf, Ne.symm hca]), replace_two ha hb hrep (fun hm => h (by simp [hm]))]
  | (false, c) :: (true, d) :: r, h => by
    rw [mark2_no (by simp), render_free, render_free, replace_no,
      replace_two ha hb hrep (fun hm => h (by simp [hm]))]
    rw [render_esc]; simp [List.isPrefixOf, hb]
  | (false, c) :: (false, d) :: r, h => by
    by_cases hm : c = a ∧ d = b
    · obtain ⟨rfl, rfl⟩ := hm
      have := replace_yes (pat := [c, d]) (rep := rep) (s := render r) (by simp)
      rw [mark2_yes, render_free, render_free, show c :: d :: render r = [c, d] ++ render r from rfl, this,
        replace_two ha hb hrep (fun hm => h (by simp [hm])), hrep, ← render_append]
      rfl
    · have hp : [a, b].isPrefixOf (c :: d :: render r) = false := by
        cases hp : [a, b].isPrefixOf (c :: d :: render r) with
        | false => rfl
        | true =>
          exfalso
          simp [List.isPrefixOf] at hp
          exact hm ⟨hp.1.symm, hp.2.symm⟩
      have ih := replace_two ha hb hrep (v := (false, d) :: r) (fun hm => h (by simp [hm]))
      rw [render_free] at ih
      rw [mark2_no (by simpa using hm), render_free, render_free, replace_no hp, ih, render_free]

end Yamd.Round
