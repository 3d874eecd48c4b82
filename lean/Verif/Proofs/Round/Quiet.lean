import Verif.Proofs.Round.Reparse

/-!
# From forbidden patterns of a view to quiet tokens
-/

namespace Yamd.Round

open Yamd Yamd.Spec Yamd.Lexer Yamd.Ref

/-- The unescaped text `pat` does not occur in the view. -/
def NoInf (pat : Str) (v : V) : Prop := ¬ free pat <:+: v

/-- No line starts with the unescaped text `pat`; `b` tells whether the view starts a line. -/
def NoStart (b : Bool) (pat : Str) (v : V) : Prop := (b = true → ¬ free pat <+: v) ∧ NoInf ('\n' :: pat) v

/-- The view does not meet a stop condition. -/
def vq (b : Bool) (v : V) : Stop → Prop
  | .Terminator => NoInf ['\n', '\n'] v ∧ NoInf ['\n', '\r', '\n'] v
  | .CollapsibleEnd => NoStart b ['%', '}'] v
  | .HighlightEnd => NoStart b ['!', '!'] v
  | .ListBoundary _ _ => NoStart b [' '] v ∧ NoStart b ['-'] v ∧ NoStart b ['+'] v

def VQ (stops : List Stop) (b : Bool) (v : V) : Prop := ∀ s ∈ stops, vq b v s

theorem flag_true {b : Bool} {v : V} (h : flag b v = true) :
    (v = [] ∧ b = true) ∨ ∃ v0, v = v0 ++ [(false, '\n')] := by
  unfold flag at h
  cases hl : v.getLast? with
  | none => rw [hl] at h; exact .inl ⟨List.getLast?_eq_none_iff.1 hl, h⟩
  | some x =>
    rw [hl] at h
    have : x = (false, '\n') := by simpa using h
    subst this
    exact .inr (List.getLast?_eq_some_iff.1 hl)

theorem no_start {b : Bool} {pat : Str} {v v1 v2 w : V} (h : NoStart b pat v) (e : v = v1 ++ (w ++ v2))
    (hc : flag b v1 = true) (hw : free pat <+: w) : False := by
  obtain ⟨x, rfl⟩ := hw
  rcases flag_true hc with ⟨rfl, hb⟩ | ⟨v0, rfl⟩
  · exact h.1 hb ⟨x ++ v2, by rw [e]; simp⟩
  · exact h.2 ⟨v0, x ++ v2, by rw [e]; simp [free]⟩

theorem replicate_prefix {c : Char} {m n : Nat} (h : m ≤ n) :
    free (List.replicate m c) <+: List.replicate n (false, c) := by
  have : free (List.replicate m c) = List.replicate m (false, c) := by simp [free]
  rw [this]
  exact ⟨List.replicate (n - m) (false, c), by rw [List.replicate_append_replicate]; congr 1; omega⟩

/-- The tokens of a view without forbidden patterns are quiet. -/
theorem spv_quiet {src : Str} {b : Bool} {ts : List Token} {v : V} {stops : List Stop} (hv : Valid v)
    (h : SpV src b ts v) (hq : VQ stops b v) : ∀ t ∈ ts, quiet stops t = true := by
  intro t ht
  obtain ⟨p, v1, v2, e, hs, hf, he⟩ := spv_mem hv h ht
  have hrun : ∀ c, runCharOf p.kind = some c → col0 t = true → ¬ NoStart b [c] v := by
    intro c hc hcol hn
    obtain ⟨e1, e2⟩ := pview_run hf he hc
    rw [hs.col] at hcol
    refine no_start hn e hcol ?_
    rw [e1]
    exact replicate_prefix (m := 1) (by have : p.text.length ≠ 0 := by simpa using e2
                                        omega)
  refine List.all_eq_true.2 (fun s hsm => ?_)
  have h1 := hq s hsm
  cases s with
  | Terminator =>
    simp only [quiet1, Bool.not_eq_true', decide_eq_false_iff_not]
    intro hk
    rw [hs.kind] at hk
    have e2 := pview_free he (by rw [hk]; simp)
    rw [hk] at hf
    obtain ⟨x, y, hx, hy, ex⟩ := hf
    rw [e2, ex] at e
    rcases hx with rfl | rfl <;> rcases hy with rfl | rfl
    · exact h1.1 ⟨v1, v2, by rw [e]; simp⟩
    · exact h1.2 ⟨v1, v2, by rw [e]; simp⟩
    · exact h1.1 ⟨v1 ++ free ['\r'], v2, by rw [e]; simp [free]⟩
    · exact h1.2 ⟨v1 ++ free ['\r'], v2, by rw [e]; simp [free]⟩
  | CollapsibleEnd =>
    simp only [quiet1, Bool.not_eq_true', Bool.and_eq_false_iff, decide_eq_false_iff_not]
    by_cases hk : t.kind = .CollapsibleEnd
    · right
      cases hcol : col0 t with
      | false => rfl
      | true =>
        rw [hs.col] at hcol
        have := pview_fixed hf he (s := ['%', '}']) (by rw [← hs.kind, hk]; rfl)
        exact absurd (no_start h1 e hcol (by rw [this]; exact List.prefix_rfl)) id
    · exact .inl hk
  | HighlightEnd =>
    simp only [quiet1, Bool.not_eq_true']
    cases hb : (decide (t.kind = .Bang) && col0 t && decide (t.len = 2)) with
    | false => rfl
    | true =>
      simp only [Bool.and_eq_true, decide_eq_true_eq] at hb
      obtain ⟨⟨hk, hcol⟩, hlen⟩ := hb
      have hk' : runCharOf p.kind = some '!' := by rw [← hs.kind, hk]; rfl
      obtain ⟨e1, e2⟩ := pview_run hf he hk'
      have e3 := run_len hf hk'
      rw [hs.col] at hcol
      rw [hs.len, e3] at hlen
      refine absurd (no_start h1 e hcol ?_) id
      rw [e1]
      exact replicate_prefix (m := 2) (by omega)
  | ListBoundary l k =>
    simp only [quiet1, Bool.not_eq_true']
    cases hcol : col0 t with
    | false => rfl
    | true =>
      rw [Bool.true_and]
      simp only [Bool.or_eq_false_iff, decide_eq_false_iff_not]
      refine ⟨⟨fun hk => ?_, fun hk => ?_⟩, fun hk => ?_⟩
      · exact hrun '-' (by rw [← hs.kind, hk]; rfl) hcol h1.2.1
      · exact hrun '+' (by rw [← hs.kind, hk]; rfl) hcol h1.2.2
      · exact hrun ' ' (by rw [← hs.kind, hk]; rfl) hcol h1.1

/-- A token of a run kind comes from an unescaped character. -/
theorem spv_run {src : Str} {b : Bool} {ts : List Token} {v : V} {t : Token} {c : Char} (hv : Valid v)
    (h : SpV src b ts v) (ht : t ∈ ts) (hk : runCharOf t.kind = some c) : (false, c) ∈ v := by
  obtain ⟨p, v1, v2, e, hs, hf, he⟩ := spv_mem hv h ht
  rw [hs.kind] at hk
  obtain ⟨e1, e2⟩ := pview_run hf he hk
  rw [e, e1]
  have : p.text.length ≠ 0 := by simpa using e2
  simp [this]

/-- A token of a fixed kind comes from unescaped characters. -/
theorem spv_fixed {src : Str} {b : Bool} {ts : List Token} {v : V} {t : Token} {s : Str} (hv : Valid v)
    (h : SpV src b ts v) (ht : t ∈ ts) (hk : fixedText t.kind = some s) : free s <:+: v := by
  obtain ⟨p, v1, v2, e, hs, hf, he⟩ := spv_mem hv h ht
  rw [hs.kind] at hk
  rw [pview_fixed hf he hk] at e
  exact ⟨v1, v2, by rw [e]; simp⟩

/-! ### More marks -/

/-- The same text with at least the same marks. -/
def More : V → V → Prop
  | [], [] => True
  | x :: v, y :: w => (y = x ∨ y = (true, x.2)) ∧ More v w
  | _, _ => False

theorem More.refl : ∀ v : V, More v v
  | [] => trivial
  | _ :: v => ⟨.inl rfl, More.refl v⟩

theorem More.trans : ∀ {u v w : V}, More u v → More v w → More u w
  | [], [], [], _, _ => trivial
  | x :: u, y :: v, z :: w, h1, h2 => by
    refine ⟨?_, More.trans h1.2 h2.2⟩
    rcases h1.1 with rfl | rfl <;> rcases h2.1 with rfl | rfl <;> simp
  | [], _ :: _, _, h, _ => by simp [More] at h
  | _ :: _, [], _, h, _ => by simp [More] at h
  | _, [], _ :: _, _, h => by simp [More] at h
  | _, _ :: _, [], _, h => by simp [More] at h

theorem More.append : ∀ {u v u' v' : V}, More u u' → More v v' → More (u ++ v) (u' ++ v')
  | [], _, [], _, _, h => h
  | _ :: _, _, _ :: _, _, h1, h2 => ⟨h1.1, More.append h1.2 h2⟩
  | [], _, _ :: _, _, h, _ => by simp [More] at h
  | _ :: _, _, [], _, h, _ => by simp [More] at h

theorem More.chars : ∀ {v w : V}, More v w → w.map Prod.snd = v.map Prod.snd
  | [], [], _ => rfl
  | x :: v, y :: w, h => by
    rw [List.map_cons, List.map_cons, More.chars h.2]
    rcases h.1 with rfl | rfl <;> rfl
  | [], _ :: _, h => by simp [More] at h
  | _ :: _, [], h => by simp [More] at h

theorem More.nil_iff {v w : V} (h : More v w) : w = [] ↔ v = [] := by
  cases v <;> cases w <;> simp_all [More]

theorem More.prefix : ∀ {pat : Str} {v w : V}, More v w → free pat <+: w → free pat <+: v
  | [], _, _, _, _ => List.nil_prefix
  | c :: pat, [], [], _, h => h
  | c :: pat, x :: v, y :: w, h, hp => by
    simp only [free, List.map_cons] at hp ⊢
    rw [List.cons_prefix_cons] at hp ⊢
    refine ⟨?_, More.prefix h.2 hp.2⟩
    rcases h.1 with rfl | rfl
    · exact hp.1
    · simp at hp
  | _ :: _, [], _ :: _, h, _ => by simp [More] at h
  | _ :: _, _ :: _, [], h, _ => by simp [More] at h

theorem More.infix : ∀ {pat : Str} {v w : V}, More v w → free pat <:+: w → free pat <:+: v
  | pat, [], [], _, h => h
  | pat, x :: v, y :: w, h, hp => by
    rw [List.infix_cons_iff] at hp ⊢
    rcases hp with hp | hp
    · exact .inl (More.prefix h hp)
    · exact .inr (More.infix h.2 hp)
  | _, [], _ :: _, h, _ => by simp [More] at h
  | _, _ :: _, [], h, _ => by simp [More] at h

theorem More.notFree : ∀ {v w : V} {c : Char}, More v w → (false, c) ∉ v → (false, c) ∉ w
  | [], [], _, _, h => h
  | x :: v, y :: w, c, h, hn => by
    rw [List.mem_cons, not_or] at hn ⊢
    refine ⟨?_, More.notFree h.2 hn.2⟩
    rcases h.1 with rfl | rfl
    · exact hn.1
    · simp
  | [], _ :: _, _, h, _ => by simp [More] at h
  | _ :: _, [], _, h, _ => by simp [More] at h

theorem More.valid {v w : V} (h : More v w) (hv : Valid v) : Valid w := h.notFree hv

theorem More.noInf {v w : V} {pat : Str} (h : More v w) (hv : NoInf pat v) : NoInf pat w := fun hp => hv (h.infix hp)

theorem More.noStart {v w : V} {b : Bool} {pat : Str} (h : More v w) (hv : NoStart b pat v) : NoStart b pat w :=
  ⟨fun hb hp => hv.1 hb (h.prefix hp), h.noInf hv.2⟩

theorem More.vq {v w : V} {b : Bool} (h : More v w) {s : Stop} (hv : vq b v s) : vq b w s := by
  cases s with
  | Terminator => exact ⟨h.noInf hv.1, h.noInf hv.2⟩
  | CollapsibleEnd => exact h.noStart hv
  | HighlightEnd => exact h.noStart hv
  | ListBoundary l k => exact ⟨h.noStart hv.1, h.noStart hv.2.1, h.noStart hv.2.2⟩

theorem More.VQ {v w : V} {b : Bool} {stops : List Stop} (h : More v w) (hv : VQ stops b v) : VQ stops b w :=
  fun s hs => h.vq (hv s hs)

theorem More.last : ∀ {v w : V} {c : Char}, More v w → w.getLast? = some (false, c) → v.getLast? = some (false, c)
  | [], [], _, _, h => h
  | [x], [y], c, h, hl => by
    rcases h.1 with rfl | rfl
    · exact hl
    · simp at hl
  | x :: x' :: v, y :: y' :: w, c, h, hl => by
    rw [List.getLast?_cons_cons] at hl ⊢
    exact More.last h.2 hl
  | [], _ :: _, _, h, _ => by simp [More] at h
  | _ :: _, [], _, h, _ => by simp [More] at h
  | [_], _ :: _ :: _, _, h, _ => by simp [More] at h
  | _ :: _ :: _, [_], _, h, _ => by simp [More] at h

theorem more_markSet (S : List Char) : ∀ s : Str, More (free s) (markSet S s)
  | [] => trivial
  | c :: s => by
    refine ⟨?_, more_markSet S s⟩
    show (S.contains c, c) = (false, c) ∨ (S.contains c, c) = (true, c)
    cases S.contains c
    · exact .inl rfl
    · exact .inr rfl

theorem more_mark2 {a b : Char} {fb : Bool} : ∀ v : V, More v (mark2 a b fb v)
  | [] => trivial
  | [x] => ⟨.inl rfl, trivial⟩
  | x :: y :: r => by
    by_cases h : x = (false, a) ∧ y = (false, b)
    · obtain ⟨rfl, rfl⟩ := h
      rw [mark2_yes]
      exact ⟨.inr rfl, by cases fb <;> simp, more_mark2 r⟩
    · rw [mark2_no h]
      exact ⟨.inl rfl, more_mark2 (y :: r)⟩

/-- Mark the first character. -/
def mark1 : V → V
  | [] => []
  | x :: r => (true, x.2) :: r

theorem more_mark1 : ∀ v : V, More v (mark1 v)
  | [] => trivial
  | _ :: v => ⟨.inr rfl, More.refl v⟩

theorem markSet_notFree {S : List Char} {c : Char} (h : c ∈ S) (s : Str) : (false, c) ∉ markSet S s := by
  intro hm
  obtain ⟨d, hd, e⟩ := List.mem_map.1 hm
  simp only [Prod.mk.injEq] at e
  obtain ⟨e1, rfl⟩ := e
  simp [h] at e1

theorem markSet_notEsc {S : List Char} {c : Char} (h : c ∉ S) (s : Str) : (true, c) ∉ markSet S s := by
  intro hm
  obtain ⟨d, hd, e⟩ := List.mem_map.1 hm
  simp only [Prod.mk.injEq] at e
  obtain ⟨e1, rfl⟩ := e
  simp [h] at e1

theorem mark2_mem {a b : Char} {fb : Bool} : ∀ {v : V} {c : Char}, (true, c) ∈ mark2 a b fb v → c ≠ a → c ≠ b → (true, c) ∈ v
  | [], _, h, _, _ => h
  | [x], _, h, _, _ => h
  | x :: y :: r, c, h, h1, h2 => by
    by_cases hx : x = (false, a) ∧ y = (false, b)
    · obtain ⟨rfl, rfl⟩ := hx
      rw [mark2_yes] at h
      simp only [List.mem_cons, Prod.mk.injEq, true_and] at h
      rcases h with h | h | h
      · exact absurd h h1
      · exact absurd h.2 h2
      · simp [mark2_mem h h1 h2]
    · rw [mark2_no hx] at h
      rcases List.mem_cons.1 h with h | h
      · simp [h]
      · exact List.mem_cons_of_mem _ (mark2_mem h h1 h2)

theorem mark2_head {a b : Char} {fb : Bool} {v : V} {x} (h : (mark2 a b fb v).head? = some (false, x)) :
    v.head? = some (false, x) := by
  match v, h with
  | [], h => exact h
  | [_], h => exact h
  | y :: z :: r, h =>
    by_cases hx : y = (false, a) ∧ z = (false, b)
    · obtain ⟨rfl, rfl⟩ := hx
      rw [mark2_yes] at h; simp at h
    · rw [mark2_no hx] at h; exact h

theorem prefix_two {x y : Bool × Char} {v : V} : [x, y] <+: v ↔ ∃ r, v = x :: y :: r :=
  ⟨fun ⟨r, e⟩ => ⟨r, e.symm⟩, fun ⟨r, e⟩ => ⟨r, e.symm⟩⟩

theorem free_two {a b : Char} : free [a, b] = [(false, a), (false, b)] := rfl

/-- Marking both characters of a pair leaves no pair. -/
theorem noInf_mark2_true {a : Char} : ∀ v : V, NoInf [a, a] (mark2 a a true v)
  | [] => by intro h; rw [free_two] at h; simp [mark2] at h
  | [x] => by
    intro h; rw [free_two, mark2, List.infix_cons_iff] at h
    rcases h with h | h
    · rw [prefix_two] at h; obtain ⟨r, e⟩ := h; simp at e
    · simp at h
  | x :: y :: r => by
    by_cases hx : x = (false, a) ∧ y = (false, a)
    · obtain ⟨rfl, rfl⟩ := hx
      rw [mark2_yes]
      intro h
      have ih := noInf_mark2_true (a := a) r
      unfold NoInf at ih
      rw [free_two] at h ih
      rw [List.infix_cons_iff, List.infix_cons_iff, prefix_two, prefix_two] at h
      rcases h with ⟨_, e⟩ | ⟨_, e⟩ | h
      · simp at e
      · simp at e
      · exact ih h
    · rw [mark2_no hx]
      intro h
      have ih := noInf_mark2_true (a := a) (y :: r)
      unfold NoInf at ih
      rw [free_two] at h ih
      rw [List.infix_cons_iff, prefix_two] at h
      rcases h with ⟨_, e⟩ | h
      · simp only [List.cons.injEq] at e
        have : (mark2 a a true (y :: r)).head? = some (false, a) := by rw [e.2]; rfl
        have := mark2_head this
        simp only [List.head?_cons, Option.some.injEq] at this
        exact hx ⟨e.1, this⟩
      · exact ih h

/-- Marking the first character of every pair leaves no pair when there was no triple. -/
theorem noInf_mark2_false {a : Char} : ∀ {v : V}, NoInf [a, a, a] v → NoInf [a, a] (mark2 a a false v)
  | [], _ => by intro h; rw [free_two] at h; simp [mark2] at h
  | [x], _ => by
    intro h; rw [free_two, mark2, List.infix_cons_iff] at h
    rcases h with h | h
    · rw [prefix_two] at h; obtain ⟨r, e⟩ := h; simp at e
    · simp at h
  | x :: y :: r, hv => by
    by_cases hx : x = (false, a) ∧ y = (false, a)
    · obtain ⟨rfl, rfl⟩ := hx
      rw [mark2_yes]
      intro h
      have ih := noInf_mark2_false (a := a) (v := r)
        (fun hi => hv (hi.trans ⟨[(false, a), (false, a)], [], by simp⟩))
      unfold NoInf at ih
      rw [free_two] at h ih
      rw [List.infix_cons_iff, List.infix_cons_iff, prefix_two, prefix_two] at h
      rcases h with ⟨_, e⟩ | ⟨_, e⟩ | h
      · simp at e
      · simp only [List.cons.injEq, true_and] at e
        have : (mark2 a a false r).head? = some (false, a) := by rw [e]; rfl
        have := mark2_head this
        cases r with
        | nil => simp at this
        | cons z r =>
          simp only [List.head?_cons, Option.some.injEq] at this
          subst this
          exact hv ⟨[], r, by simp [free]⟩
      · exact ih h
    · rw [mark2_no hx]
      intro h
      have ih := noInf_mark2_false (a := a) (v := y :: r) (fun hi => hv (hi.trans ⟨[x], [], by simp⟩))
      unfold NoInf at ih
      rw [free_two] at h ih
      rw [List.infix_cons_iff, prefix_two] at h
      rcases h with ⟨_, e⟩ | h
      · simp only [List.cons.injEq] at e
        have : (mark2 a a false (y :: r)).head? = some (false, a) := by rw [e.2]; rfl
        have := mark2_head this
        simp only [List.head?_cons, Option.some.injEq] at this
        exact hx ⟨e.1, this⟩
      · exact ih h

/-- Marking the first character of every `ab` (`a ≠ b`) leaves no `ab`. -/
theorem noInf_mark2_ne {a b : Char} {fb : Bool} (hab : a ≠ b) : ∀ v : V, NoInf [a, b] (mark2 a b fb v)
  | [] => by intro h; rw [free_two] at h; simp [mark2] at h
  | [x] => by
    intro h; rw [free_two, mark2, List.infix_cons_iff] at h
    rcases h with h | h
    · rw [prefix_two] at h; obtain ⟨r, e⟩ := h; simp at e
    · simp at h
  | x :: y :: r => by
    by_cases hx : x = (false, a) ∧ y = (false, b)
    · obtain ⟨rfl, rfl⟩ := hx
      rw [mark2_yes]
      intro h
      have ih := noInf_mark2_ne (fb := fb) hab r
      unfold NoInf at ih
      rw [free_two] at h ih
      rw [List.infix_cons_iff, List.infix_cons_iff, prefix_two, prefix_two] at h
      rcases h with ⟨_, e⟩ | ⟨_, e⟩ | h
      · simp at e
      · simp [Ne.symm hab] at e
      · exact ih h
    · rw [mark2_no hx]
      intro h
      have ih := noInf_mark2_ne (fb := fb) hab (y :: r)
      unfold NoInf at ih
      rw [free_two] at h ih
      rw [List.infix_cons_iff, prefix_two] at h
      rcases h with ⟨_, e⟩ | h
      · simp only [List.cons.injEq] at e
        have : (mark2 a b fb (y :: r)).head? = some (false, b) := by rw [e.2]; rfl
        have := mark2_head this
        simp only [List.head?_cons, Option.some.injEq] at this
        exact hx ⟨e.1, this⟩
      · exact ih h

/-- A pair left by marking is preceded by a mark: no line starts with a pair. -/
theorem noStart_mark2 {a : Char} {fb : Bool} (ha : a ≠ '\n') : ∀ (v : V) (b : Bool), NoStart b [a, a] (mark2 a a fb v) := by
  have hfront : ∀ v : V, ¬ free [a, a] <+: mark2 a a fb v := by
    intro v
    rw [free_two, prefix_two]
    rintro ⟨r, e⟩
    match v, e with
    | [], e => simp [mark2] at e
    | [x], e => simp [mark2] at e
    | x :: y :: s, e =>
      by_cases hx : x = (false, a) ∧ y = (false, a)
      · obtain ⟨rfl, rfl⟩ := hx
        rw [mark2_yes] at e; simp at e
      · rw [mark2_no hx] at e
        simp only [List.cons.injEq] at e
        have : (mark2 a a fb (y :: s)).head? = some (false, a) := by rw [e.2]; rfl
        have := mark2_head this
        simp only [List.head?_cons, Option.some.injEq] at this
        exact hx ⟨e.1, this⟩
  have hinf : ∀ n, ∀ v : V, v.length ≤ n → NoInf ['\n', a, a] (mark2 a a fb v) := by
    intro n
    induction n with
    | zero =>
      intro v hv
      have : v = [] := by simpa using hv
      subst this
      intro h; simp [mark2, free] at h
    | succ n ih =>
      intro v hv h
      match v, hv, h with
      | [], _, h => simp [mark2, free] at h
      | [x], _, h =>
        have := h.length_le
        simp [mark2, free] at this
      | x :: y :: s, hv, h =>
        by_cases hx : x = (false, a) ∧ y = (false, a)
        · obtain ⟨rfl, rfl⟩ := hx
          rw [mark2_yes, List.infix_cons_iff, List.infix_cons_iff] at h
          rcases h with h | h | h
          · simp only [free, List.map_cons] at h
            rw [List.cons_prefix_cons] at h
            simp at h
          · simp only [free, List.map_cons] at h
            rw [List.cons_prefix_cons] at h
            simp [Ne.symm ha] at h
          · exact ih s (by simp at hv; omega) h
        · rw [mark2_no hx, List.infix_cons_iff] at h
          rcases h with h | h
          · simp only [free, List.map_cons] at h
            rw [List.cons_prefix_cons] at h
            exact hfront (y :: s) h.2
          · exact ih (y :: s) (by simp at hv ⊢; omega) h
  exact fun v b => ⟨fun _ => hfront v, hinf _ v (Nat.le_refl _)⟩

/-- Patterns of the view are patterns of the text. -/
theorem noInf_chars {pat : Str} {v : V} (h : ¬ pat <:+: v.map Prod.snd) : NoInf pat v := by
  rintro ⟨a, b, e⟩
  refine h ⟨a.map Prod.snd, b.map Prod.snd, ?_⟩
  rw [← e]
  simp [free, Function.comp_def]

theorem noFront_chars {pat : Str} {v : V} (h : ¬ pat <+: v.map Prod.snd) : ¬ free pat <+: v := by
  rintro ⟨b, e⟩
  refine h ⟨b.map Prod.snd, ?_⟩
  rw [← e]
  simp [free, Function.comp_def]

/-! ### Putting views together -/

theorem infix_split {α : Type} {p v w : List α} {x : α} (h : p <:+: v ++ x :: w) : p <:+: v ∨ p <:+: w ∨ x ∈ p := by
  induction v with
  | nil =>
    rw [List.nil_append, List.infix_cons_iff] at h
    rcases h with h | h
    · cases p with
      | nil => left; exact List.nil_infix
      | cons y p => rw [List.cons_prefix_cons] at h; right; right; simp [h.1]
    · exact .inr (.inl h)
  | cons y v ih =>
    rw [List.cons_append, List.infix_cons_iff] at h
    rcases h with h | h
    · obtain ⟨q, e⟩ := h
      by_cases hl : p.length ≤ (y :: v).length
      · left
        have : p = (y :: v).take p.length := by
          have := congrArg (List.take p.length) e
          rw [List.take_left, ← List.cons_append, List.take_append_of_le_length hl] at this
          exact this
        rw [this]; exact (List.take_prefix _ _).isInfix
      · right; right
        have h2 : (p ++ q)[(y :: v).length]? = some x := by
          rw [e, ← List.cons_append, List.getElem?_append_right (Nat.le_refl _)]; simp
        rw [List.getElem?_append_left (by omega)] at h2
        exact List.mem_of_getElem? h2
    · rcases ih h with h | h | h
      · exact .inl (List.infix_cons_iff.2 (.inr h))
      · exact .inr (.inl h)
      · exact .inr (.inr h)

theorem noInf_mid {pat : Str} {v w : V} {x : Bool × Char} (h1 : NoInf pat v) (h2 : NoInf pat w) (hx : x.2 ∉ pat ∨ x.1 = true) :
    NoInf pat (v ++ x :: w) := by
  intro h
  rcases infix_split h with h | h | h
  · exact h1 h
  · exact h2 h
  · obtain ⟨c, hc, e⟩ := List.mem_map.1 h
    rcases hx with hx | hx
    · rw [← e] at hx; exact hx hc
    · rw [← e] at hx; simp at hx

theorem noStart_mid {pat : Str} {v w : V} {x : Bool × Char} {b : Bool} (h1 : NoStart b pat v) (h2 : NoStart false pat w)
    (hx : x.2 ∉ '\n' :: pat) : NoStart b pat (v ++ x :: w) := by
  refine ⟨fun hb ⟨q, e⟩ => ?_, noInf_mid h1.2 h2.2 (.inl hx)⟩
  by_cases hl : (free pat).length ≤ v.length
  · refine h1.1 hb ?_
    have := congrArg (List.take (free pat).length) e
    rw [List.take_left, List.take_append_of_le_length hl] at this
    rw [this]; exact List.take_prefix _ _
  · have h2 : (free pat ++ q)[v.length]? = some x := by
      rw [e, List.getElem?_append_right (Nat.le_refl _)]; simp
    rw [List.getElem?_append_left (by omega)] at h2
    obtain ⟨c, hc, e3⟩ := List.mem_map.1 (List.mem_of_getElem? h2)
    rw [← e3] at hx
    simp [hc] at hx

/-- Characters without a part in any stop pattern. -/
def stopPat : List Char := ['\n', '\r', '%', '}', '!', ' ', '-', '+']

theorem vq_mid {v w : V} {x : Bool × Char} {b : Bool} {s : Stop} (h1 : vq b v s) (h2 : vq false w s)
    (hx : x.2 ∉ stopPat) : vq b (v ++ x :: w) s := by
  simp only [stopPat, List.mem_cons, List.not_mem_nil, or_false, not_or] at hx
  obtain ⟨a1, a2, a3, a4, a5, a6, a7, a8⟩ := hx
  cases s with
  | Terminator => exact ⟨noInf_mid h1.1 h2.1 (.inl (by simp [a1])), noInf_mid h1.2 h2.2 (.inl (by simp [a1, a2]))⟩
  | CollapsibleEnd => exact noStart_mid h1 h2 (by simp [a1, a3, a4])
  | HighlightEnd => exact noStart_mid h1 h2 (by simp [a1, a5])
  | ListBoundary l k =>
    exact ⟨noStart_mid h1.1 h2.1 (by simp [a1, a6]), noStart_mid h1.2.1 h2.2.1 (by simp [a1, a7]),
      noStart_mid h1.2.2 h2.2.2 (by simp [a1, a8])⟩

theorem VQ_mid {v w : V} {x : Bool × Char} {b : Bool} {stops : List Stop} (h1 : VQ stops b v) (h2 : VQ stops false w)
    (hx : x.2 ∉ stopPat) : VQ stops b (v ++ x :: w) := fun s hs => vq_mid (h1 s hs) (h2 s hs) hx

theorem noInf_nil {pat : Str} (h : pat ≠ []) : NoInf pat [] := by
  intro hi
  have := List.eq_nil_of_infix_nil hi
  simp [free] at this
  exact h this

theorem noStart_nil {pat : Str} {b : Bool} (h : pat ≠ []) : NoStart b pat [] :=
  ⟨fun _ hp => noInf_nil h hp.isInfix, noInf_nil (by simp)⟩

theorem VQ_nil {b : Bool} {stops : List Stop} : VQ stops b [] := by
  intro s _
  cases s with
  | Terminator => exact ⟨noInf_nil (by simp), noInf_nil (by simp)⟩
  | CollapsibleEnd => exact noStart_nil (by simp)
  | HighlightEnd => exact noStart_nil (by simp)
  | ListBoundary l k => exact ⟨noStart_nil (by simp), noStart_nil (by simp), noStart_nil (by simp)⟩

theorem noStart_false {pat : Str} {b : Bool} {v : V} (h : NoStart b pat v) : NoStart false pat v :=
  ⟨fun h => by simp at h, h.2⟩

end Yamd.Round
