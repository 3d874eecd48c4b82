import Verif.Proofs.Round.Document

/-!
# A line of exactly three dashes is a token
-/

namespace Yamd.Round

open Yamd Yamd.Spec Yamd.Lexer Yamd.Ref

/-- Exactly three free dashes at the start of a line are read as a front matter delimiter. -/
theorem fence_token {src ts} {v1 v2 : V} (hv : Valid v1) (hs : SpV src true ts (v1 ++ (free (cs! "---") ++ v2)))
    (h1 : v1.getLast? = some (false, '\n') ∨ v1 = []) (h2 : v2.head? ≠ some (false, '-')) :
    ∃ t1 t t2, ts = t1 ++ t :: t2 ∧ isThreeDashes t = true ∧ SpV src true t1 v1 ∧ SpV src false t2 v2 := by
  have v3 : Valid (free (cs! "---")) := valid_free (by decide)
  have hl : v1.getLast? ≠ some (false, '-') := by
    rcases h1 with h | rfl
    · rw [h]; decide
    · simp
  obtain ⟨t1, r, rfl, s1, hs1⟩ := spv_split hv (join_stop hv (c := '-') rfl (by decide) hl (by simp) (by simp)) hs
  obtain ⟨t2, r2, rfl, s2, hs2⟩ := spv_split v3 (join_after (c := '-') v3 rfl (by decide) (by decide) (by simp) (.inr h2)) hs1
  obtain ⟨t, rfl, st⟩ := spv_one (p := ⟨false, .Minus, cs! "---"⟩) rfl s2
  refine ⟨t1, t, r2, by simp, ?_, s1, ?_⟩
  · have hlen : t.len = 3 := by rw [st.len]; rfl
    have hc : col0 t = true := by
      rw [st.col]
      rcases h1 with h | rfl
      · simp only [flag, h]; rfl
      · rfl
    simp [isThreeDashes, st.kind, hlen, hc]
  · exact hs2

theorem render_free_id (s : Str) (h : '\\' ∉ s) : render (free s) = s ∧ Valid (free s) := ⟨render_free_all s, valid_free h⟩

theorem textOfToks_append' (src : Str) (a b : List Token) : textOfToks src (a ++ b) = textOfToks src a ++ textOfToks src b := by
  simp [textOfToks]

/-- Where a fence line is in a text without backslashes, there is a delimiter token. -/
theorem fence_in {src : Str} {p q : List Token} {a b : Str} (hb : '\\' ∉ src) (he : tokens src = p ++ q)
    (ht : textOfToks src p = a ++ (cs! "---" ++ b)) (ha : a.getLast? = some '\n')
    (hnext : (b ++ textOfToks src q).head? ≠ some '-') :
    ∃ t1 t t2, p = t1 ++ t :: t2 ∧ isThreeDashes t = true ∧ textOfToks src t1 = a := by
  have hs : SpV src true (tokens src) (free src) := by
    unfold SpV; rw [render_free_all]; exact sp_tokens src
  have htext := spv_text (valid_free hb) hs
  rw [show (free src).map Prod.snd = src by simp [free, Function.comp_def], he, textOfToks_append', ht] at htext
  have e : free src = free a ++ (free (cs! "---") ++ free (b ++ textOfToks src q)) := by
    conv => lhs; rw [← htext]
    simp [free]
  rw [e] at hs
  have hva : Valid (free a) := valid_free (fun h => hb (by rw [← htext]; simp [h]))
  obtain ⟨t1, t, t2, e2, h3, s1, -⟩ := fence_token hva hs (.inl (by rw [free_getLast, ha]; rfl))
    (by
      intro hh
      refine hnext ?_
      generalize b ++ textOfToks src q = w at hh
      cases w with
      | nil => simp [free] at hh
      | cons x w => simpa [free] using hh)
  have x1 := spv_text hva s1
  rw [show (free a).map Prod.snd = a by simp [free, Function.comp_def]] at x1
  rw [he] at e2
  rcases List.append_eq_append_iff.1 e2 with ⟨w, e3, e4⟩ | ⟨w, e3, e4⟩
  · exfalso
    rw [e3, textOfToks_append', ht] at x1
    have := congrArg List.length x1
    simp at this
  · cases w with
    | nil =>
      exfalso
      rw [List.append_nil] at e3
      rw [e3, x1] at ht
      have := congrArg List.length ht
      simp at this
    | cons y w =>
      simp only [List.cons_append, List.cons.injEq] at e4
      exact ⟨t1, y, w, e3, by rw [← e4.1]; exact h3, x1⟩

theorem trimEndNl_part (s : Str) : ∃ post : Str, s = trimEndNl s ++ post ∧ ∀ c ∈ post, c = '\n' := by
  refine ⟨(s.reverse.takeWhile (· == '\n')).reverse, ?_, ?_⟩
  · unfold trimEndNl
    rw [← List.reverse_append, List.takeWhile_append_dropWhile, List.reverse_reverse]
  · intro c hc
    have := List.all_takeWhile (l := s.reverse) (p := (· == '\n'))
    rw [List.all_eq_true] at this
    simpa using this c (by simpa using hc)

/-- Trimming removes line feeds at both ends. -/
theorem trimNl_part (s : Str) : ∃ pre post : Str, s = pre ++ trimNl s ++ post ∧ (∀ c ∈ pre, c = '\n') ∧ ∀ c ∈ post, c = '\n' := by
  obtain ⟨post, e, hp⟩ := trimEndNl_part (s.dropWhile (· == '\n'))
  refine ⟨s.takeWhile (· == '\n'), post, ?_, ?_, hp⟩
  · rw [trimNl, List.append_assoc, ← e, List.takeWhile_append_dropWhile]
  · intro c hc
    have := List.all_takeWhile (l := s) (p := (· == '\n'))
    rw [List.all_eq_true] at this
    simpa using this c hc

/-- Front matter that was read from a text without backslashes has no line of exactly three dashes. -/
theorem read_noFence {src : Str} {d : Delim} {r : List Token} (hb : '\\' ∉ src)
    (h : delimB isThreeDashes isThreeDashes .Metadata [] (tokens src) = some (d, r)) :
    startsFence (trimNl (textOfToks src d.body)) = false ∧ fenceLine (trimNl (textOfToks src d.body)) = false := by
  obtain ⟨-, ho, hc, hbody, -⟩ := delimB_ok h
  have htk := delimB_toks h
  rw [Delim.toks] at htk
  obtain ⟨pre, post, e, hpre, hpost⟩ := trimNl_part (textOfToks src d.body)
  have hs : SpV src true (tokens src) (free src) := by
    unfold SpV; rw [render_free_all]; exact sp_tokens src
  have run : ∀ t : Token, isThreeDashes t = true → t.kind = .Minus ∧ t.len = 3 ∧ col0 t = true := by
    intro t ht
    simp only [isThreeDashes, Bool.and_eq_true, decide_eq_true_eq] at ht
    exact ⟨by tauto, by tauto, by tauto⟩
  obtain ⟨ok, ol, -⟩ := run d.opening ho
  obtain ⟨ck, cl, cc⟩ := run d.closing hc
  generalize hm : trimNl (textOfToks src d.body) = m at e ⊢
  -- after the opening delimiter there is no dash
  have g1 : (textOfToks src (d.body ++ d.closing :: r)).head? ≠ some '-' ∧ sliceD src d.opening = cs! "---" := by
    obtain ⟨v1, v2, e1, x1, x2, -, x3⟩ := spv_at_run (c := '-') (t1 := []) (t := d.opening) (t2 := d.body ++ d.closing :: r)
      (valid_free hb) (by rw [htk] at hs; simpa using hs) (by rw [ok]; rfl)
    have hv1 : v1 = [] := by simpa [textOfToks] using x1
    refine ⟨?_, ?_⟩
    · rw [← x2]
      intro hh
      cases v2 with
      | nil => simp at hh
      | cons y v2 =>
        simp only [List.map_cons, List.head?_cons, Option.some.injEq] at hh
        have hy : y ∈ free src := by rw [e1]; simp
        obtain ⟨c, -, rfl⟩ := List.mem_map.1 hy
        exact x3 (by rw [List.head?_cons, ← hh])
    · have := (spv_run1 (c := '-') (valid_free hb) (ts := d.body ++ d.closing :: r) (t := d.opening) (b := true) (src := src) (v := free src)
        (by rw [htk] at hs; simpa using hs) (by rw [ok]; rfl)).2.1
      rw [this, ol]; rfl
  -- before the closing delimiter there is a line feed
  have g2 : (textOfToks src d.body).getLast? = some '\n' := by
    obtain ⟨v1, v2, e1, x1, -, x2, -⟩ := spv_at_run (c := '-') (t1 := d.opening :: d.body) (t := d.closing) (t2 := r)
      (valid_free hb) (by rw [htk] at hs; simpa using hs) (by rw [ck]; rfl)
    have hf := x2 cc
    have hl : v1.getLast? = some (false, '\n') := by
      unfold flag at hf
      cases hg : v1.getLast? with
      | none =>
        exfalso
        rw [List.getLast?_eq_none_iff.1 hg, text_cons, g1.2] at x1
        simp at x1
      | some y => rw [hg] at hf; simpa using hf
    have := last_chars hl
    rw [x1, text_cons, g1.2, List.getLast?_append] at this
    cases hx : (textOfToks src d.body).getLast? with
    | none => rw [hx] at this; simp at this
    | some y => rw [hx] at this; simpa using this
  -- a line of three dashes in the body would be the end
  have key : ∀ a b : Str, textOfToks src d.body = a ++ (cs! "---" ++ b) → (a = [] ∨ a.getLast? = some '\n') →
      b.head? ≠ some '-' → False := by
    intro a b eb ha hbh
    rcases ha with rfl | ha
    · rw [textOfToks_append', eb] at g1
      simp at g1
    · have hbn : b ≠ [] := by
        rintro rfl
        rw [eb, List.append_nil, List.getLast?_append] at g2
        simp at g2
      have ha2 : (sliceD src d.opening ++ a).getLast? = some '\n' := by
        rw [List.getLast?_append, ha]; rfl
      obtain ⟨t1, t, t2, e1, e2, e3⟩ := fence_in (src := src) (p := d.opening :: d.body) (q := d.closing :: r) (a := sliceD src d.opening ++ a) (b := b) hb
        (by rw [htk]; simp) (by rw [text_cons, eb]; simp) ha2
        (by
          intro hh
          cases b with
          | nil => exact hbn rfl
          | cons x b => exact hbh (by simpa using hh))
      cases t1 with
      | nil => rw [g1.2] at e3; simp [textOfToks] at e3
      | cons x t1 =>
        simp only [List.cons_append, List.cons.injEq] at e1
        have := hbody t (by rw [e1.2]; simp)
        rw [e2] at this
        simp at this
  have hpost' : ∀ b : Str, b.head? ≠ some '-' → (b ++ post).head? ≠ some '-' := by
    intro b hb hh
    cases b with
    | nil =>
      cases post with
      | nil => simp at hh
      | cons x post =>
        have := hpost x (by simp)
        subst this
        simp at hh
    | cons x b => exact hb (by simpa using hh)
  constructor
  · rw [Bool.eq_false_iff]
    intro hf
    obtain ⟨b, rfl, hbh⟩ := (startsFence_iff _).1 hf
    refine key pre (b ++ post) (by rw [e]; simp) ?_ (hpost' b hbh)
    cases hp : pre.getLast? with
    | none => exact .inl (List.getLast?_eq_none_iff.1 hp)
    | some x => exact .inr (by rw [hpre x (List.mem_of_getLast? hp)])
  · rw [Bool.eq_false_iff]
    intro hf
    obtain ⟨a, q, rfl, hq⟩ := (fenceLine_iff _).1 hf
    obtain ⟨b, rfl, hbh⟩ := (startsFence_iff _).1 hq
    exact key (pre ++ (a ++ ['\n'])) (b ++ post) (by rw [e]; simp) (.inr (by rw [← List.append_assoc, List.getLast?_concat])) (hpost' b hbh)

end Yamd.Round
