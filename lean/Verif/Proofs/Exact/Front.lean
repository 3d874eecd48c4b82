import Verif.Proofs.Exact.DocAll
import Verif.Proofs.Round.Fence

/-!
# Front matter that is read back is safe
-/

namespace Yamd.Round

open Yamd Yamd.Spec Yamd.Lexer Yamd.Ref

/-- A text has a view, up to a backslash at its end. -/
theorem some_view : ∀ (n : Nat) (a : Str), a.length ≤ n → ∃ v, Valid v ∧ (a = render v ∨ a = render v ++ ['\\'])
  | _, [], _ => ⟨[], by simp [Valid], .inl rfl⟩
  | 0, c :: a, h => by simp at h
  | n + 1, c :: a, h => by
    simp only [List.length_cons] at h
    by_cases hc : c = '\\'
    · subst hc
      cases a with
      | nil => exact ⟨[], by simp [Valid], .inr rfl⟩
      | cons x a =>
        simp only [List.length_cons] at h
        obtain ⟨v, hv, e⟩ := some_view n a (by omega)
        refine ⟨(true, x) :: v, hv.cons (by simp), ?_⟩
        rw [render_esc]
        rcases e with e | e
        · left; rw [← e]
        · right; rw [e]; rfl
    · obtain ⟨v, hv, e⟩ := some_view n a (by omega)
      refine ⟨(false, c) :: v, hv.cons (by simpa using hc), ?_⟩
      rw [render_free]
      rcases e with e | e
      · left; rw [← e]
      · right; rw [e]; rfl

/-- A text before a line feed has a view. -/
theorem rest_view {X : V} (hX : Valid X) : ∀ (n : Nat) (a : Str), a.length ≤ n → ∃ v, Valid v ∧ a ++ '\n' :: render X = render v
  | _, [], _ => ⟨(false, '\n') :: X, hX.cons (by simp), rfl⟩
  | 0, c :: a, h => by simp at h
  | n + 1, c :: a, h => by
    simp only [List.length_cons] at h
    by_cases hc : c = '\\'
    · subst hc
      cases a with
      | nil => exact ⟨(true, '\n') :: X, hX.cons (by simp), rfl⟩
      | cons x a =>
        simp only [List.length_cons] at h
        obtain ⟨v, hv, e⟩ := rest_view hX n a (by omega)
        refine ⟨(true, x) :: v, hv.cons (by simp), ?_⟩
        rw [render_esc, ← e]; rfl
    · obtain ⟨v, hv, e⟩ := rest_view hX n a (by omega)
      refine ⟨(false, c) :: v, hv.cons (by simpa using hc), ?_⟩
      rw [render_free, ← e]; rfl

theorem render_length (v : V) : v.length ≤ (render v).length := by
  induction v with
  | nil => simp
  | cons x v ih =>
    obtain ⟨f, c⟩ := x
    cases f with
    | true => rw [render_esc]; simp only [List.length_cons]; omega
    | false => rw [render_free]; simp only [List.length_cons]; omega

theorem render_plain : ∀ {v : V}, Valid v → (render v).length ≤ v.length → '\\' ∉ render v
  | [], _, _ => by simp [render]
  | (true, c) :: v, _, h => by
    rw [render_esc] at h
    have := render_length v
    simp only [List.length_cons] at h
    omega
  | (false, c) :: v, hv, h => by
    rw [render_free] at h ⊢
    simp only [List.length_cons] at h
    have := render_plain hv.tail (by omega)
    have hc : c ≠ '\\' := by rintro rfl; exact hv (by simp)
    simp [this, hc.symm]

theorem trimNl_nl (s : Str) : trimNl ('\n' :: s) = trimNl s := by
  unfold trimNl
  rw [List.dropWhile_cons_of_pos (by simp)]

theorem trimNl_length (s : Str) : (trimNl s).length ≤ s.length := by
  obtain ⟨pre, post, e, -, -⟩ := trimNl_part s
  have := congrArg List.length e
  simp only [List.length_append] at this
  omega

theorem trimNl_prefix {Q x : Str} (h : Q <+: '\n' :: (x ++ ['\n'])) : (trimNl Q).length ≤ x.length := by
  cases Q with
  | nil => simp [trimNl, trimEndNl]
  | cons c y =>
    obtain ⟨z, e⟩ := h
    simp only [List.cons_append, List.cons.injEq] at e
    obtain ⟨rfl, e⟩ := e
    rcases List.eq_nil_or_concat z with rfl | ⟨z', w, rfl⟩
    · rw [List.append_nil] at e
      rw [e, trimNl_wrap]
      exact trimNl_length x
    · rw [List.concat_eq_append, ← List.append_assoc] at e
      have := (List.append_inj' e rfl).1
      rw [trimNl_nl, ← this, List.length_append]
      have := trimNl_length y
      omega

theorem trimNl_head (s : Str) : (trimNl s).head? ≠ some '\n' := by
  unfold trimNl
  intro h
  obtain ⟨R, e⟩ := trimEnd_rest (s.dropWhile (· == '\n'))
  have h1 : (s.dropWhile (· == '\n')).head? = some '\n' := by
    rw [e, List.head?_append, h]; rfl
  have := List.head?_dropWhile_not (· == '\n') s
  rw [h1] at this
  simp at this

/-- Front matter that is read. -/
structure Front (d m : Str) (T : V) (D : Delim) (r : List Token) : Prop where
  text : d = cs! "---" ++ ('\n' :: (m ++ (cs! "\n---\n" ++ '\n' :: render T)))
  valid : Valid T
  read : delimB isThreeDashes isThreeDashes .Metadata [] (tokens d) = some (D, r)
  data : trimNl (textOfToks d D.body) = m

theorem Front.shape {d m T D r} (h : Front d m T D r) : tokens d = D.opening :: (D.body ++ D.closing :: r) ∧
    textOfToks d [D.opening] = cs! "---" ∧ ∀ t ∈ D.body, isThreeDashes t = false := by
  have hr := h.read
  obtain ⟨-, h1, -, h3, -⟩ := delimB_ok hr
  have ht := delimB_toks hr
  have e : tokens d = D.opening :: (D.body ++ D.closing :: r) := by rw [ht]; simp [Delim.toks]
  refine ⟨e, ?_, h3⟩
  simp only [isThreeDashes, Bool.and_eq_true, decide_eq_true_eq] at h1
  have hk : D.opening.kind = .Minus := by tauto
  have hl : D.opening.len = 3 := by tauto
  have := (lexed_tokens (input := d) (t := D.opening) (by rw [e]; simp)).run (c := '-') (by rw [hk]; rfl)
  rw [text_one, this.1, hl]; rfl

/-- The body ends before every fence. -/
theorem Front.cut {d m T D r} (h : Front d m T D r) {v1 v2 : V} (hv1 : Valid v1) (hd : d = cs! "---" ++ render (v1 ++ (free (cs! "---") ++ v2)))
    (h1 : v1.getLast? = some (false, '\n')) (h2 : v2.head? ≠ some (false, '-')) : textOfToks d D.body <+: v1.map Prod.snd := by
  obtain ⟨e, ho, hb⟩ := h.shape
  have v3 : Valid (free (cs! "---")) := valid_free (by decide)
  have hs : SpV d true (tokens d) ((free (cs! "---") ++ v1) ++ (free (cs! "---") ++ v2)) := by
    unfold SpV
    rw [List.append_assoc, render_append (v := free (cs! "---")) (w := v1 ++ _), render_free_all, ← hd]
    exact sp_tokens d
  have hne : v1 ≠ [] := by rintro rfl; simp at h1
  obtain ⟨t1, t, t2, e2, h3, s1, -⟩ := fence_token (v3.append hv1) hs (.inl (by rw [last_append hne, h1])) h2
  have htx := spv_text (v3.append hv1) s1
  cases t1 with
  | nil => simp [textOfToks, free] at htx
  | cons o t1 =>
    rw [e] at e2
    simp only [List.cons_append, List.cons.injEq] at e2
    obtain ⟨rfl, e2⟩ := e2
    rw [text_cons, ← text_one, ho, List.map_append, free_chars] at htx
    have htx := List.append_cancel_left htx
    rw [← htx]
    rcases List.append_eq_append_iff.1 e2 with ⟨w, rfl, -⟩ | ⟨w, a1, a2⟩
    · rw [text_append]; exact ⟨_, rfl⟩
    · cases w with
      | nil => rw [List.append_nil] at a1; rw [a1]; exact ⟨[], by simp⟩
      | cons x w =>
        exfalso
        simp only [List.cons_append, List.cons.injEq] at a2
        have := hb t (by rw [a1, a2.1]; simp)
        rw [h3] at this; simp at this

theorem Front.noFence {d m T D r} (h : Front d m T D r) (hm : '\\' ∉ m) : startsFence m = false ∧ fenceLine m = false := by
  have key : ∀ a rr : Str, startsFence rr = true → '\n' :: m = '\n' :: a ++ rr → (∃ x, '\n' :: a <+: '\n' :: (x ++ ['\n']) ∧ x.length < m.length) →
      ('\n' :: a).getLast? = some '\n' → False := by
    intro a rr hrr e hx hl
    obtain ⟨x, hx, hlt⟩ := hx
    obtain ⟨q, rfl, hq⟩ := (startsFence_iff _).1 hrr
    simp only [List.cons_append, List.cons.injEq, true_and] at e
    have hm' := hm
    rw [e] at hm'
    simp only [List.mem_append, not_or] at hm'
    have hv1 : Valid (free ('\n' :: a)) := valid_free (by simp [hm'.1])
    have hcut := h.cut (v1 := free ('\n' :: a)) (v2 := free (q ++ cs! "\n---\n\n") ++ T) hv1 (by
      rw [h.text, e]
      simp only [render_append, render_free_all]
      simp) (by rw [free, List.getLast?_map, hl]; rfl) (by
      cases q with
      | nil => simp [free]
      | cons c q => simpa [free] using hq)
    rw [free_chars] at hcut
    have := trimNl_prefix (hcut.trans hx)
    rw [h.data] at this
    omega
  constructor
  · cases hf : startsFence m with
    | false => rfl
    | true =>
      exfalso
      refine key [] m hf rfl ⟨[], ⟨['\n'], rfl⟩, ?_⟩ rfl
      obtain ⟨q, rfl, -⟩ := (startsFence_iff _).1 hf
      simp
  · cases hf : fenceLine m with
    | false => rfl
    | true =>
      exfalso
      obtain ⟨a, rr, e, hrr⟩ := (fenceLine_iff _).1 hf
      refine key (a ++ ['\n']) rr hrr (by rw [e]; simp) ⟨a, ⟨[], by simp⟩, by rw [e]; simp⟩ ?_
      rw [← List.cons_append, List.getLast?_concat]

theorem Front.closing {d m T D r} (h : Front d m T D r) : textOfToks d (tokens d) = cs! "---" ++ (textOfToks d D.body ++ (cs! "---" ++ textOfToks d r)) := by
  obtain ⟨e, ho, -⟩ := h.shape
  obtain ⟨-, -, h2, -, -⟩ := delimB_ok h.read
  simp only [isThreeDashes, Bool.and_eq_true, decide_eq_true_eq] at h2
  have hk : D.closing.kind = .Minus := by tauto
  have hl : D.closing.len = 3 := by tauto
  have := (lexed_tokens (input := d) (t := D.closing) (by rw [e]; simp)).run (c := '-') (by rw [hk]; rfl)
  have hc : textOfToks d [D.closing] = cs! "---" := by rw [text_one, this.1, hl]; rfl
  rw [e, text_cons, ← text_one, ho, text_append, text_cons, ← text_one, hc]

theorem run_head {x c'' z : Str} (hc : ∀ c ∈ c'', c = '\n') (e : '-' :: x = c'' ++ '\n' :: z) : False := by
  cases c'' with
  | nil => simp at e
  | cons y c'' =>
    have := hc y (by simp)
    subst this
    simp at e

/-- Where the text between the fences, less its line breaks, is found again. -/
theorem fence_again {A B Y m pre post b1 R : Str} (htx : pre ++ m ++ post ++ (cs! "---" ++ Y) = A ++ '\n' :: (cs! "---\n" ++ B))
    (hA : A.head? = some '\n') (hpre : ∀ c ∈ pre, c = '\n') (hm : m ≠ []) (hh : m.head? ≠ some '\n') (hl : m.getLast? ≠ some '\n')
    (E : '\n' :: (m ++ cs! "\n---\n") = R ++ ['\\'] ++ (cs! "\n---\n" ++ b1)) (hR : A.length ≤ R.length) :
    ∃ a' b', a'.length ≤ A.length ∧ '\n' :: m = a' ++ (cs! "\n---\n" ++ b') := by
  have hlen := congrArg List.length E
  simp only [List.length_cons, List.length_append, List.length_nil] at hlen
  -- there is a break before `m`
  obtain ⟨pre, rfl⟩ : ∃ p, pre = p ++ ['\n'] := by
    rcases List.eq_nil_or_concat pre with rfl | ⟨p, x, rfl⟩
    · exfalso
      have := congrArg List.head? htx
      cases m with
      | nil => exact hm rfl
      | cons c m =>
        rw [List.head?_append (l := A), hA] at this
        simp at this hh; exact hh this
    · rw [List.concat_eq_append] at hpre ⊢
      exact ⟨p, by rw [hpre x (by simp)]⟩
  have e2 : A ++ ((cs! "\n---\n") ++ B) = pre ++ ('\n' :: m ++ (post ++ (cs! "---" ++ Y))) := by
    have : A ++ ((cs! "\n---\n") ++ B) = A ++ '\n' :: (cs! "---\n" ++ B) := by simp
    rw [this, ← htx]; simp
  -- `A` reaches at least as far as `pre`
  obtain ⟨a', rfl⟩ : ∃ a', A = pre ++ a' := by
    rcases List.append_eq_append_iff.1 e2 with ⟨c', ea, eb⟩ | ⟨c', ea, -⟩
    · cases c' with
      | nil => exact ⟨[], by rw [ea]; simp⟩
      | cons x c' =>
        exfalso
        simp only [List.cons_append, List.cons.injEq, List.nil_append] at eb
        exact run_head (x := '-' :: '-' :: '\n' :: B) (c'' := c') (fun c hc => hpre c (by rw [ea]; simp [hc])) eb.2
    · exact ⟨c', ea⟩
  rw [List.append_assoc] at e2
  have e3 := List.append_cancel_left e2
  rw [← List.append_assoc] at e3
  simp only [List.length_append] at hR
  rcases List.append_eq_append_iff.1 e3 with ⟨c', ea, -⟩ | ⟨c', ea, -⟩
  · exact ⟨a', c', by simp, by rw [ea]; simp⟩
  · refine ⟨a', [], by simp, ?_⟩
    have hl2 := congrArg List.length ea
    simp only [List.length_cons, List.length_append, List.length_nil] at hl2
    -- the last character of `m`
    obtain ⟨m0, z, rfl⟩ : ∃ m0 z, m = m0 ++ [z] := by
      rcases List.eq_nil_or_concat m with rfl | ⟨p, x, rfl⟩
      · exact absurd rfl hm
      · exact ⟨p, x, by simp⟩
    have hz : z ≠ '\n' := by rintro rfl; simp at hl
    match b1, hlen, E with
    | [], hlen, E =>
      rw [List.append_nil] at E
      have := (List.append_inj' (s₁ := '\n' :: (m0 ++ [z])) E rfl).1
      have hz2 : z = '\\' := by
        have := (List.append_inj' (s₁ := '\n' :: m0) this rfl).2
        simpa using this
      subst hz2
      match c', hl2, ea with
      | [], hl2, ea => rw [List.append_nil] at ea ⊢; exact ea.symm
      | [c1], hl2, ea => have := congrArg List.reverse ea; simp at this
      | [c1, c2], hl2, ea => have := congrArg List.reverse ea; simp at this
      | [c1, c2, c3], hl2, ea => have := congrArg List.reverse ea; simp at this
      | [c1, c2, c3, c4], hl2, ea => have := congrArg List.reverse ea; simp at this
      | c1 :: c2 :: c3 :: c4 :: c5 :: c', hl2, ea => simp only [List.length_cons] at hl2; omega
    | [b], hlen, E => have := congrArg List.reverse E; simp at this
    | [b, b'], hlen, E => have := congrArg List.reverse E; simp at this
    | [b, b', b''], hlen, E => have := congrArg List.reverse E; simp at this
    | b :: b' :: b'' :: b3 :: b1, hlen, E => 
      simp only [List.length_cons] at hlen
      have hc : c' = [] := List.length_eq_zero_iff.1 (by omega)
      rw [hc, List.append_nil] at ea
      rw [List.append_nil]; exact ea.symm

theorem Front.noSlash {d m T D r} (h : Front d m T D r) (hm : '\\' ∈ m) (ht : trimNl m = m) :
    ∀ (n : Nat) (a b1 : Str), a.length ≤ n → '\n' :: (m ++ cs! "\n---\n") = a ++ (cs! "\n---\n" ++ b1) → False
  | n, a, b1, hn, E => by
    have hmne : m ≠ [] := by rintro rfl; simp at hm
    have hlen := congrArg List.length E
    simp only [List.length_cons, List.length_append, List.length_nil] at hlen
    obtain ⟨va, hva, e⟩ := some_view a.length a (Nat.le_refl _)
    obtain ⟨v, hv, ev⟩ := rest_view h.valid b1.length b1 (Nat.le_refl _)
    have hd : d = cs! "---" ++ (a ++ (cs! "\n---\n" ++ render v)) := by
      rw [h.text, ← ev]
      have : '\n' :: (m ++ (cs! "\n---\n" ++ '\n' :: render T)) = '\n' :: (m ++ cs! "\n---\n") ++ '\n' :: render T := by simp
      rw [this, E]; simp
    have hrl := render_length va
    rcases e with e | e
    · -- the break before the dashes is not escaped
      have hcut := h.cut (v1 := va ++ free ['\n']) (v2 := (false, '\n') :: v) (hva.append (valid_free (s := ['\n']) (by decide))) (by
        rw [hd, e]
        simp only [render_append, render_free_all, render_free]
        simp) (by simp [free]) (by simp)
      rw [List.map_append, free_chars] at hcut
      cases va with
      | nil =>
        have := trimNl_prefix (x := []) (hcut.trans ⟨['\n'], rfl⟩)
        rw [h.data] at this
        exact hmne (List.length_eq_zero_iff.1 (by simpa using this))
      | cons x va =>
        obtain ⟨f, c⟩ := x
        cases f with
        | true => rw [e, render_esc] at E; simp at E
        | false =>
          rw [render_free] at e
          have hc : c = '\n' := by rw [e] at E; simp at E; exact E.1.symm
          subst hc
          have := trimNl_prefix (x := va.map Prod.snd) (by simpa using hcut)
          rw [h.data, List.length_map] at this
          have hrl := render_length va
          have hal := congrArg List.length e
          simp only [List.length_cons] at hal
          have hb : b1 = [] := List.length_eq_zero_iff.1 (by omega)
          subst hb
          rw [e, List.append_nil] at E
          have := (List.append_inj' (s₁ := '\n' :: m) E rfl).1
          simp only [List.cons.injEq, true_and] at this
          rw [this] at hm
          exact render_plain hva.tail (by omega) hm
    · -- it is
      have hal := congrArg List.length e
      simp only [List.length_append, List.length_singleton] at hal
      have hs : SpV d true (tokens d) (free (cs! "---") ++ (va ++ ((true, '\n') :: (free (cs! "---\n") ++ v)))) := by
        unfold SpV
        have : render (free (cs! "---") ++ (va ++ ((true, '\n') :: (free (cs! "---\n") ++ v)))) = d := by
          rw [hd, e]
          simp [render_append, render_free_all, render_esc]
        rw [this]
        exact sp_tokens d
      have hval : Valid (free (cs! "---") ++ (va ++ ((true, '\n') :: (free (cs! "---\n") ++ v)))) :=
        (valid_free (by decide)).append (hva.append (((valid_free (by decide)).append hv).cons (by simp)))
      have htx := spv_text hval hs
      rw [h.closing] at htx
      simp only [List.map_append, List.map_cons, free_chars] at htx
      have htx := List.append_cancel_left htx
      obtain ⟨pre, post, e1, hpre, hpost⟩ := trimNl_part (textOfToks d D.body)
      rw [h.data] at e1
      rw [e1] at htx
      have hAhead : (va.map Prod.snd).head? = some '\n' := by
        cases va with
        | nil => rw [e] at E; simp [render] at E
        | cons x va =>
          obtain ⟨f, c⟩ := x
          cases f with
          | true => rw [e, render_esc] at E; simp at E
          | false => rw [e, render_free] at E; simp at E; simp [← E.1]
      have hml : m.getLast? ≠ some '\n' := trimmed_last ht
      rw [e] at E
      obtain ⟨a', b', h1, h2⟩ := fence_again htx hAhead hpre hmne (by rw [← ht]; exact trimNl_head m) hml E (by simpa using hrl)
      rw [List.length_map] at h1
      match n with
      | 0 => omega
      | n + 1 =>
        refine Front.noSlash h hm ht n a' (b' ++ cs! "\n---\n") (by omega) ?_
        rw [← List.cons_append, h2]; simp

/-- Front matter that is read back is safe. -/
theorem Front.safe {d m T D r} (h : Front d m T D r) : safeMetadata m = true := by
  have ht : trimNl m = m := by rw [← h.data, trimNl_idem]
  have hm : '\\' ∉ m := fun hm => h.noSlash hm ht _ ('\n' :: m) [] (Nat.le_refl _) (by simp)
  obtain ⟨h1, h2⟩ := h.noFence hm
  simp [safeMetadata, ht, hm, h1, h2]

/-- A document of plain blocks that is read back is safe. -/
theorem full_exact {y : Yamd} (hs : y.body.all isPlain = true) (h : deserialize y.display = .ok y) : safeDocument y = true := by
  obtain ⟨md, l⟩ := y
  cases md with
  | none =>
    obtain ⟨h1, h2⟩ := document_exact hs h
    simp [safeDocument, h1, h2]
  | some m =>
    have hd : Yamd.display ⟨some m, l⟩ = cs! "---\n" ++ m ++ (if m.getLast? = some '\n' then [] else cs! "\n") ++ cs! "---\n\n" ++ joinWith (cs! "\n\n") (l.map dispB) := by
      simp only [Yamd.display, displayBlocks_map]
    generalize Yamd.display ⟨some m, l⟩ = d at h hd
    rw [deserialize_eq] at h
    have h1 : (topB (tokens d)).denote d = ⟨some m, l⟩ := Except.ok.inj h
    have hlive := live_top d
    unfold topB at h1 hlive
    cases hdel : delimB isThreeDashes isThreeDashes .Metadata [] (tokens d) with
    | none => rw [hdel] at h1; simp [Top.denote, Yamd.new] at h1
    | some q =>
      obtain ⟨D, r⟩ := q
      rw [hdel] at h1 hlive
      simp only [Top.denote, Yamd.new, Option.map_some, Yamd.mk.injEq, Option.some.injEq, trimNl_idem] at h1
      obtain ⟨hdata, hden⟩ := h1
      have ht : trimNl m = m := by rw [← hdata, trimNl_idem]
      rw [if_neg (trimmed_last ht)] at hd
      simp only [Top.toks] at hlive
      have hlive2 : Live d (docB [] r).1.toks := hlive.right
      obtain ⟨vs, hvs⟩ := doc_shown (docB_ok [] r) hlive2 (by rw [hden]; exact hs)
      rw [hden] at hvs
      have hjoin : joinWith (cs! "\n\n") (l.map dispB) = render (joinV vs) := by rw [joinV_eq, ← hvs.1]
      rw [hjoin] at hd
      have hF : Front d m (joinV vs) D r := ⟨by rw [hd]; simp, joinV_ok hvs.2, hdel, hdata⟩
      have hm := hF.safe
      have hb : '\\' ∉ m := by
        simp only [safeMetadata, Bool.and_eq_true, Bool.not_eq_true'] at hm
        simpa using hm.1.1.2
      have hsp : SpV d true (tokens d) (free (cs! "---") ++ (free ('\n' :: (m ++ ['\n'])) ++ (free (cs! "---") ++ (free (cs! "\n\n") ++ joinV vs)))) := by
        unfold SpV
        have : render (free (cs! "---") ++ (free ('\n' :: (m ++ ['\n'])) ++ (free (cs! "---") ++ (free (cs! "\n\n") ++ joinV vs)))) = d := by
          simp only [render_append, render_free_all]
          rw [hd]; simp
        rw [this]
        exact sp_tokens d
      obtain ⟨D', t, r', e1, -, hk, s1⟩ := meta_reads hm hsp
      rw [hdel] at e1
      simp only [Option.some.injEq, Prod.mk.injEq] at e1
      obtain ⟨rfl, rfl⟩ := e1
      have hden' : (docB [] r').1.denote d = l := by
        rw [docB_term (stop_term Inside.top.1 hk) (by simp [isTerminator, hk])] at hden
        simpa [Doc.denote] using hden
      obtain ⟨i1, i2, -⟩ := blocks_exact (X := []) (pre := D.toks ++ [t]) At.top (.inl rfl) (by rw [delimB_toks hdel]; simp)
        (by rw [List.append_nil]; exact s1) (by rw [List.append_nil]; exact joinV_ok hvs.2) hvs hs hden'
      simp [safeDocument, hm, i1, i2]

end Yamd.Round
