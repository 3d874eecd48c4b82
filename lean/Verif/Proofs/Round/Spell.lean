import Verif.Proofs.Round.View
import Verif.Proofs.DocFacts

/-!
# Tokens that spell a view

`SpV src b ts v`: the tokens `ts` are what the lexer finds in the text written for the view `v`, `b` tells
whether they start a line. The facts the reparse lemmas need about tokens are read off the view.
-/

namespace Yamd.Round

open Yamd Yamd.Spec Yamd.Lexer Yamd.Ref

/-- One token spells one piece. -/
structure SpT (src : Str) (b : Bool) (t : Token) (p : Piece) : Prop where
  kind : t.kind = p.kind
  text : sliceD src t = p.text
  len : t.len = blen p.text
  col : col0 t = b

/-- A piece that ends a line. -/
def isNl (p : Piece) : Bool := p.kind = .Eol || p.kind = .Terminator

def Sp (src : Str) : Bool → List Token → List Piece → Prop
  | _, [], [] => True
  | b, t :: ts, p :: ps => SpT src b t p ∧ Sp src (isNl p) ts ps
  | _, _, _ => False

theorem sp_place (s : Str) : ∀ (pre : Str) (col row : Nat),
    Sp (pre ++ s) (decide (col = 0)) (place (blen pre) col row (pieces s)) (pieces s) := by
  induction s using pieces_induction with
  | h0 s h => intros; rw [pieces_none h]; trivial
  | h1 s p r h ih =>
    intro pre col row
    rw [pieces_some h]
    have hsrc := tok1_src h
    have hne := form_ne_nil (tok1_form h).1
    simp only [place]
    refine ⟨⟨rfl, ?_, ?_, ?_⟩, ?_⟩
    · unfold sliceD tokenOf
      simp only
      have e : pre ++ s = (pre ++ (if p.esc then ['\\'] else [])) ++ (p.text ++ r) := by
        rw [hsrc]; simp [Piece.src]
      have e2 : blen pre + (if p.esc = true then 1 else 0) = blen (pre ++ (if p.esc then ['\\'] else [])) := by
        rw [blen_append]; split <;> rfl
      rw [e, e2, slice_append _ _ _ _ rfl]; rfl
    · simp [tokenOf, Token.len]
    · rfl
    · have e : blen pre + (if p.esc = true then 1 else 0) + blen p.text = blen (pre ++ p.src) := by
        simp only [Piece.src, blen_append]
        have := e1; split <;> simp [blen] <;> omega
      rw [e, show pre ++ s = (pre ++ p.src) ++ r by rw [hsrc]; simp]
      have := ih (pre ++ p.src) (advancePos p col row).1 (advancePos p col row).2
      have ec : decide ((advancePos p col row).1 = 0) = isNl p := by
        have : p.text.length ≠ 0 := by simpa using hne
        unfold advancePos isNl
        cases p.kind <;> simp <;> intro _ <;> exact hne
      rw [ec] at this
      exact this

theorem sp_tokens (input : Str) : Sp input true (tokens input) (pieces input) := by
  have := sp_place input [] 0 0
  simpa [tokens, blen] using this

/-- Whether the text after the pieces starts a line. -/
def endFlag (b : Bool) (ps : List Piece) : Bool :=
  match ps.getLast? with
  | none => b
  | some p => isNl p

theorem endFlag_cons (b : Bool) (p : Piece) (ps : List Piece) : endFlag b (p :: ps) = endFlag (isNl p) ps := by
  unfold endFlag
  cases ps with
  | nil => rfl
  | cons q ps => rw [List.getLast?_cons_cons]; cases h : (q :: ps).getLast? <;> simp_all

theorem sp_split {src : Str} : ∀ {b : Bool} {ts : List Token} {p1 p2 : List Piece}, Sp src b ts (p1 ++ p2) →
    ∃ t1 t2, ts = t1 ++ t2 ∧ Sp src b t1 p1 ∧ Sp src (endFlag b p1) t2 p2
  | b, ts, [], p2, h => ⟨[], ts, rfl, trivial, h⟩
  | b, [], p :: p1, p2, h => by simp [Sp] at h
  | b, t :: ts, p :: p1, p2, h => by
    obtain ⟨h1, h2⟩ := h
    obtain ⟨t1, t2, rfl, h3, h4⟩ := sp_split h2
    exact ⟨t :: t1, t2, rfl, ⟨h1, h3⟩, by rw [endFlag_cons]; exact h4⟩

theorem sp_text {src : Str} : ∀ {b : Bool} {ts : List Token} {ps : List Piece}, Sp src b ts ps →
    textOfToks src ts = ps.flatMap Piece.text
  | _, [], [], _ => rfl
  | _, [], _ :: _, h => by simp [Sp] at h
  | _, _ :: _, [], h => by simp [Sp] at h
  | b, t :: ts, p :: ps, h => by
    rw [text_cons, List.flatMap_cons, h.1.text, sp_text h.2]

theorem sp_nil {src : Str} {b : Bool} {ts : List Token} (h : Sp src b ts []) : ts = [] := by
  cases ts with
  | nil => rfl
  | cons t ts => simp [Sp] at h

theorem sp_one {src : Str} {b : Bool} {ts : List Token} {p : Piece} (h : Sp src b ts [p]) :
    ∃ t, ts = [t] ∧ SpT src b t p := by
  cases ts with
  | nil => simp [Sp] at h
  | cons t ts => exact ⟨t, by rw [sp_nil h.2], h.1⟩

theorem sp_nil_iff {src : Str} {b : Bool} {ts : List Token} {ps : List Piece} (h : Sp src b ts ps) :
    ts = [] ↔ ps = [] := by
  cases ts <;> cases ps <;> simp_all [Sp]

/-- Where a token stands: its piece, and what is before and after it. -/
theorem sp_mem {src : Str} : ∀ {b : Bool} {ts : List Token} {ps : List Piece} {t : Token}, Sp src b ts ps → t ∈ ts →
    ∃ p1 p p2, ps = p1 ++ p :: p2 ∧ SpT src (endFlag b p1) t p
  | b, [], ps, t, _, ht => by simp at ht
  | b, u :: ts, [], t, h, _ => by simp [Sp] at h
  | b, u :: ts, p :: ps, t, h, ht => by
    rcases List.mem_cons.1 ht with rfl | ht
    · exact ⟨[], p, ps, rfl, h.1⟩
    · obtain ⟨p1, q, p2, rfl, h3⟩ := sp_mem h.2 ht
      exact ⟨p :: p1, q, p2, rfl, by rw [endFlag_cons]; exact h3⟩

/-! ### Views -/

/-- The tokens `ts` spell the view `v`. -/
def SpV (src : Str) (b : Bool) (ts : List Token) (v : V) : Prop := Sp src b ts (pieces (render v))

/-- Whether what follows a view starts a line. -/
def flag (b : Bool) (v : V) : Bool :=
  match v.getLast? with
  | none => b
  | some x => x == (false, '\n')

theorem pview_nl {p : Piece} (hf : KindText p.kind p.esc p.text) (he : p.esc = true → p.kind = .Literal) :
    ((pview p).getLast? == some (false, '\n')) = isNl p := by
  have hne := form_ne_nil hf
  cases hk : p.kind with
  | Literal =>
    have h1 : isNl p = false := by simp [isNl, hk]
    rw [h1, beq_eq_false_iff_ne]
    rw [hk] at hf
    obtain ⟨c, r, e, h2, h3⟩ := hf
    unfold pview
    rw [e]
    simp only
    intro h
    have hm := List.mem_of_getLast? h
    rcases List.mem_cons.1 hm with h4 | h4
    · simp only [Prod.mk.injEq] at h4
      exact (h3 h4.1.symm).1 (by rw [← h4.2]; simp [specials])
    · obtain ⟨x, hx, e2⟩ := List.mem_map.1 h4
      simp only [Prod.mk.injEq, true_and] at e2
      exact h2 x hx (by rw [e2]; simp [specials])
  | Eol =>
    have hesc : p.esc = false := by
      cases h : p.esc with
      | false => rfl
      | true => rw [he h] at hk; cases hk
    rw [hk] at hf
    have h1 : isNl p = true := by simp [isNl, hk]
    rw [h1]
    rcases hf with e | e <;> simp [pview, e, hesc, free]
  | Terminator =>
    have hesc : p.esc = false := by
      cases h : p.esc with
      | false => rfl
      | true => rw [he h] at hk; cases hk
    rw [hk] at hf
    have h1 : isNl p = true := by simp [isNl, hk]
    rw [h1]
    obtain ⟨x, y, hx, hy, e⟩ := hf
    rcases hx with rfl | rfl <;> rcases hy with rfl | rfl <;> simp [pview, e, hesc, free]
  | _ =>
    have h1 : isNl p = false := by simp [isNl, hk]
    rw [h1, beq_eq_false_iff_ne]
    rw [hk] at hf
    simp only [KindText, runCharOf, fixedText] at hf
    first
      | (obtain ⟨h2, h3⟩ := hf
         intro h
         have hm := List.mem_of_getLast? h
         have : '\n' ∈ p.text := by
           rw [← pview_chars]; exact List.mem_map.2 ⟨_, hm, rfl⟩
         have := h3 _ this
         revert this; decide)
      | (simp only [Option.some.injEq] at hf
         intro h
         have hm := List.mem_of_getLast? h
         have : '\n' ∈ p.text := by
           rw [← pview_chars]; exact List.mem_map.2 ⟨_, hm, rfl⟩
         rw [← hf] at this
         revert this; decide)

theorem endFlag_pieces {v : V} (hv : Valid v) (b : Bool) : endFlag b (pieces (render v)) = flag b v := by
  unfold endFlag flag
  cases h : (pieces (render v)).getLast? with
  | none =>
    have h1 : pieces (render v) = [] := List.getLast?_eq_none_iff.1 h
    have := pieces_view hv
    rw [h1] at this
    rw [← this]; rfl
  | some p =>
    obtain ⟨hf, he, hl⟩ := last_piece hv h
    have := pview_nl hf he
    rw [← hl] at this
    simp only
    rw [← this]
    cases hx : v.getLast? with
    | none =>
      have : v = [] := List.getLast?_eq_none_iff.1 hx
      subst this
      rw [render_nil, pieces_none (show tok1 [] = none from rfl)] at h
      simp at h
    | some x => rfl

theorem spv_split {src : Str} {b : Bool} {ts : List Token} {v w : V} (hv : Valid v) (hj : Join v w)
    (h : SpV src b ts (v ++ w)) : ∃ t1 t2, ts = t1 ++ t2 ∧ SpV src b t1 v ∧ SpV src (flag b v) t2 w := by
  unfold SpV at h
  rw [hj] at h
  obtain ⟨t1, t2, e, h1, h2⟩ := sp_split h
  rw [endFlag_pieces hv] at h2
  exact ⟨t1, t2, e, h1, h2⟩

theorem spv_text {src : Str} {b : Bool} {ts : List Token} {v : V} (hv : Valid v) (h : SpV src b ts v) :
    textOfToks src ts = v.map Prod.snd := by
  rw [sp_text h, pieces_text, unescape_render hv]

theorem spv_nil {src : Str} {b : Bool} {ts : List Token} (h : SpV src b ts []) : ts = [] := by
  unfold SpV at h
  rw [render_nil, pieces_none (show tok1 [] = none from rfl)] at h
  exact sp_nil h

theorem spv_ne {src : Str} {b : Bool} {ts : List Token} {v : V} (hv : Valid v) (h : SpV src b ts v) (hne : v ≠ []) :
    ts ≠ [] := by
  intro e
  subst e
  have h1 := (sp_nil_iff h).1 rfl
  have := pieces_view hv
  rw [h1] at this
  exact hne (by rw [← this]; rfl)

/-- A view lexed to one piece. -/
theorem spv_one {src : Str} {b : Bool} {ts : List Token} {v : V} {p : Piece} (hp : tok1 (render v) = some (p, []))
    (h : SpV src b ts v) : ∃ t, ts = [t] ∧ SpT src b t p := by
  unfold SpV at h
  rw [pieces_one hp] at h
  exact sp_one h

theorem flag_pieces {b : Bool} {p1 : List Piece} (hform : ∀ p ∈ p1, KindText p.kind p.esc p.text ∧ (p.esc = true → p.kind = .Literal)) :
    flag b (p1.flatMap pview) = endFlag b p1 := by
  unfold flag endFlag
  cases hl : p1.getLast? with
  | none =>
    have : p1 = [] := List.getLast?_eq_none_iff.1 hl
    subst this; rfl
  | some q =>
    obtain ⟨l, rfl⟩ := List.getLast?_eq_some_iff.1 hl
    have hq := hform q (by simp)
    have hne : pview q ≠ [] := by
      have := form_ne_nil hq.1
      unfold pview
      cases ht : q.text with
      | nil => exact absurd ht this
      | cons c r => simp
    rw [List.flatMap_append, List.flatMap_cons, List.flatMap_nil, List.append_nil, List.getLast?_append]
    have hn := pview_nl hq.1 hq.2
    cases hg : (pview q).getLast? with
    | none => exact absurd (List.getLast?_eq_none_iff.1 hg) hne
    | some x =>
      rw [hg] at hn
      simp only [Option.some_or]
      rw [← hn]; rfl

/-- Every token stands for a segment of the view. -/
theorem spv_mem {src : Str} {b : Bool} {ts : List Token} {v : V} {t : Token} (hv : Valid v) (h : SpV src b ts v)
    (ht : t ∈ ts) : ∃ p v1 v2, v = v1 ++ (pview p ++ v2) ∧ SpT src (flag b v1) t p ∧
      KindText p.kind p.esc p.text ∧ (p.esc = true → p.kind = .Literal) := by
  obtain ⟨p1, p, p2, e, hs⟩ := sp_mem h ht
  have hform := pieces_form (render v)
  have hview := pieces_view hv
  rw [e] at hview hform
  rw [List.flatMap_append, List.flatMap_cons] at hview
  refine ⟨p, p1.flatMap pview, p2.flatMap pview, hview.symm, ?_, (hform p (by simp)).1, (hform p (by simp)).2⟩
  rw [flag_pieces (fun q hq => hform q (by simp [hq]))]; exact hs

/-- The first token stands for the front of the view. -/
theorem spv_head {src : Str} {b : Bool} {t : Token} {ts : List Token} {v : V} (hv : Valid v)
    (h : SpV src b (t :: ts) v) : ∃ p v2, v = pview p ++ v2 ∧ SpT src b t p ∧
      KindText p.kind p.esc p.text ∧ (p.esc = true → p.kind = .Literal) := by
  unfold SpV at h
  have hform := pieces_form (render v)
  have hview := pieces_view hv
  cases hp : pieces (render v) with
  | nil => rw [hp] at h; simp [Sp] at h
  | cons p ps =>
    rw [hp] at h hform hview
    rw [List.flatMap_cons] at hview
    exact ⟨p, ps.flatMap pview, hview.symm, h.1, (hform p (by simp)).1, (hform p (by simp)).2⟩

/-- The view of a piece that is not a literal has no escapes. -/
theorem pview_free {p : Piece} (he : p.esc = true → p.kind = .Literal) (hk : p.kind ≠ .Literal) :
    pview p = free p.text := by
  have hesc : p.esc = false := by
    cases h : p.esc with
    | false => rfl
    | true => exact absurd (he h) hk
  unfold pview
  rw [hesc]
  cases p.text <;> rfl

/-- The view of a run. -/
theorem pview_run {p : Piece} {c : Char} (hf : KindText p.kind p.esc p.text) (he : p.esc = true → p.kind = .Literal)
    (hk : runCharOf p.kind = some c) : pview p = List.replicate p.text.length (false, c) ∧ p.text ≠ [] := by
  have hk' : p.kind ≠ .Literal := by intro h; rw [h] at hk; simp [runCharOf] at hk
  rw [kindText_run hk] at hf
  refine ⟨?_, hf.1⟩
  rw [pview_free he hk', free]
  have h2 := hf.2
  generalize p.text = s at h2
  induction s with
  | nil => rfl
  | cons x s ih =>
    rw [List.map_cons, ih (fun y hy => h2 y (by simp [hy])), h2 x (by simp), List.length_cons, List.replicate_succ]

theorem pview_fixed {p : Piece} {s : Str} (hf : KindText p.kind p.esc p.text) (he : p.esc = true → p.kind = .Literal)
    (hk : fixedText p.kind = some s) : pview p = free s := by
  have hk' : p.kind ≠ .Literal := by intro h; rw [h] at hk; simp [fixedText] at hk
  rw [kindText_fixed hk] at hf
  rw [pview_free he hk', hf]

/-- The length of a run is the number of its characters. -/
theorem run_len {p : Piece} {c : Char} (hf : KindText p.kind p.esc p.text)
    (hk : runCharOf p.kind = some c) : blen p.text = p.text.length := by
  have hs : c.utf8Size = 1 := by
    revert hk; cases p.kind <;> simp [runCharOf] <;> rintro rfl <;> decide
  rw [kindText_run hk] at hf
  have h2 := hf.2
  generalize p.text = s at h2
  induction s with
  | nil => rfl
  | cons x s ih =>
    rw [blen, ih (fun y hy => h2 y (by simp [hy])), h2 x (by simp), hs, List.length_cons]; omega

end Yamd.Round
