import Verif.Proofs.Round.ListRead

/-!
# Lists read back: the markers `Display` escapes in the text of an item
-/

namespace Yamd.Round

open Yamd Yamd.Spec Yamd.Lexer Yamd.Ref

def isMarker (m : Char) : Prop := m = '-' ∨ m = '+'

theorem marker_isMarker (ty : ListTypes) : isMarker ty.marker := by cases ty <;> simp [isMarker, ListTypes.marker]

theorem marker_ne_nl {m} (h : isMarker m) : m ≠ '\n' ∧ m ≠ ' ' ∧ m ≠ '\\' := by rcases h with rfl | rfl <;> decide

/-- Only markers. -/
def Markers (M : List Char) : Prop := ∀ m ∈ M, isMarker m

theorem Markers.cons {m M} (h : isMarker m) (hM : Markers M) : Markers (m :: M) := by
  intro x hx
  rcases List.mem_cons.1 hx with rfl | hx
  · exact h
  · exact hM x hx

theorem Markers.space {M} (h : Markers M) : ' ' ∉ M := fun hm => by rcases h _ hm with e | e <;> revert e <;> decide
theorem Markers.nl {M} (h : Markers M) : '\n' ∉ M := fun hm => by rcases h _ hm with e | e <;> revert e <;> decide

/-- Mark the markers `M` that start a line and are followed by a space; `p`: a line feed is in front. -/
def mk (M : List Char) : Bool → V → V
  | _, [] => []
  | p, x :: r =>
    (if p = true ∧ x.1 = false ∧ x.2 ∈ M ∧ r.head? = some (false, ' ') then (true, x.2) else x) :: mk M (x.2 == '\n') r

theorem mk_true {m : Char} : ∀ {v : V}, ¬ free [m, ' '] <+: v → mk [m] true v = mk [m] false v
  | [], _ => rfl
  | x :: r, h => by
    rw [mk, mk, if_neg, if_neg (by simp)]
    rintro ⟨-, h1, h2, h3⟩
    apply h
    obtain ⟨e, c⟩ := x
    simp only at h1 h2
    subst h1
    have : c = m := by simpa using h2
    subst this
    cases r with
    | nil => simp at h3
    | cons y r =>
      simp only [List.head?_cons, Option.some.injEq] at h3
      subst h3
      exact ⟨r, rfl⟩

/-- What `Display` escapes. -/
theorem replace_mk {m : Char} (hm : isMarker m) : ∀ v : V,
    replace ['\n', m, ' '] ['\n', '\\', m, ' '] (render v) = render (mk [m] false v)
  | [] => by rw [render_nil, mk, render_nil, replace_nil]
  | (e, c) :: r => by
    have hn := marker_ne_nl hm
    have hb : ∀ s : Str, List.isPrefixOf ['\n', m, ' '] ('\\' :: s) = false := fun s => by simp [List.isPrefixOf]
    have e1 : ∀ w : V, render ((e, c) :: w) = (if e then ['\\'] else []) ++ (c :: render w) := by intro w; cases e <;> rfl
    have hstep : ∀ s : Str, replace ['\n', m, ' '] ['\n', '\\', m, ' '] ((if e then ['\\'] else []) ++ s) =
        (if e then ['\\'] else []) ++ replace ['\n', m, ' '] ['\n', '\\', m, ' '] s := by
      intro s
      cases e with
      | false => rfl
      | true => exact replace_no (hb s)
    have hmk : mk [m] false ((e, c) :: r) = (e, c) :: mk [m] (c == '\n') r := by rw [mk, if_neg (fun h => by simp at h)]
    rw [e1, hstep, hmk, e1]
    congr 1
    by_cases hc : c = '\n'
    · subst hc
      by_cases hp : free [m, ' '] <+: r
      · obtain ⟨r', hr0⟩ := hp
        have hlt : r'.length < ((e, '\n') :: r).length := by rw [← hr0]; simp [free]; omega
        rw [← hr0]
        have hy := replace_yes (pat := ['\n', m, ' ']) (rep := ['\n', '\\', m, ' ']) (s := render r') (by simp)
        have hr : '\n' :: render (free [m, ' '] ++ r') = ['\n', m, ' '] ++ render r' := by
          rw [render_append, render_free_all]; rfl
        rw [hr, hy, replace_mk hm r']
        have : mk [m] ('\n' == '\n') (free [m, ' '] ++ r') = (true, m) :: (false, ' ') :: mk [m] false r' := by
          simp [free, mk]
          intro h; simp [h]
        rw [this, render_esc, render_free]
        simp
      · rw [replace_no, replace_mk hm r]
        · rw [show (('\n' : Char) == '\n') = true from rfl, mk_true hp]
        · cases h : List.isPrefixOf ['\n', m, ' '] ('\n' :: render r) with
          | false => rfl
          | true =>
            rw [List.isPrefixOf_iff_prefix, List.cons_prefix_cons] at h
            exact absurd ((render_prefix (by simp [Ne.symm hn.2.2])).1 h.2) hp
    · rw [replace_no (by simp [List.isPrefixOf, Ne.symm hc]), replace_mk hm r, show (c == '\n') = false by simp [hc]]
termination_by v => v.length
decreasing_by
  all_goals first
    | assumption
    | simp

theorem mk_head {M} (v : V) : (mk M false v).head? = v.head? := by
  cases v with
  | nil => rfl
  | cons x r => simp [mk]

theorem mk_space {M p} (hM : Markers M) (v : V) : (mk M p v).head? = some (false, ' ') ↔ v.head? = some (false, ' ') := by
  cases v with
  | nil => rfl
  | cons x r =>
    rw [mk]
    split
    · rename_i h
      have hs : x.2 ≠ ' ' := fun e => hM.space (e ▸ h.2.2.1)
      simp only [List.head?_cons, Option.some.injEq]
      constructor
      · intro e; simp [Prod.ext_iff] at e
      · rintro rfl; exact absurd rfl hs
    · rfl

theorem mk_mk {m M} (hM : Markers M) : ∀ (p : Bool) (v : V), mk [m] p (mk M p v) = mk (m :: M) p v
  | _, [] => rfl
  | p, x :: r => by
    have ih := mk_mk (m := m) hM (x.2 == '\n') r
    conv => lhs; rw [mk]
    conv => rhs; rw [mk]
    by_cases h : p = true ∧ x.1 = false ∧ x.2 ∈ M ∧ r.head? = some (false, ' ')
    · rw [if_pos h, mk, if_neg (by simp), if_pos ⟨h.1, h.2.1, by simp [h.2.2.1], h.2.2.2⟩]
      simp only
      rw [ih]
    · rw [if_neg h, mk, ih]
      congr 1
      by_cases h2 : p = true ∧ x.1 = false ∧ x.2 ∈ [m] ∧ (mk M (x.2 == '\n') r).head? = some (false, ' ')
      · rw [if_pos h2, if_pos]
        exact ⟨h2.1, h2.2.1, by simp only [List.mem_singleton] at h2; simp [h2.2.2.1], (mk_space hM r).1 h2.2.2.2⟩
      · rw [if_neg h2, if_neg]
        rintro ⟨a1, a2, a3, a4⟩
        rcases List.mem_cons.1 a3 with a3 | a3
        · exact h2 ⟨a1, a2, by simp [a3], (mk_space hM r).2 a4⟩
        · exact h ⟨a1, a2, a3, a4⟩

/-- A line feed is in front of what follows `v`. -/
def endNl (p : Bool) (v : V) : Bool :=
  match v.getLast? with
  | none => p
  | some x => x.2 == '\n'

theorem endNl_cons (p : Bool) (x) (v : V) : endNl p (x :: v) = endNl (x.2 == '\n') v := by
  unfold endNl
  cases v with
  | nil => rfl
  | cons y v =>
    rw [List.getLast?_cons_cons]
    cases h : (y :: v).getLast? with
    | none => simp at h
    | some z => rfl

theorem mk_append {M} {w : V} (hw : w.head? ≠ some (false, ' ')) : ∀ (p : Bool) (v : V),
    mk M p (v ++ w) = mk M p v ++ mk M (endNl p v) w
  | p, [] => rfl
  | p, x :: v => by
    rw [List.cons_append, mk, mk, mk_append hw _ v, List.cons_append, endNl_cons]
    congr 1
    cases v with
    | nil => simp [hw]
    | cons y v => rfl

theorem mk_free {M} : ∀ {s : Str} {w : V}, '\n' ∉ s → mk M false (free s ++ w) = free s ++ mk M false w
  | [], _, _ => rfl
  | c :: s, w, h => by
    have hc : c ≠ '\n' := fun e => h (by simp [e])
    have ih := mk_free (M := M) (s := s) (w := w) (fun hm => h (by simp [hm]))
    have e : free (c :: s) ++ w = (false, c) :: (free s ++ w) := rfl
    rw [e, mk, if_neg (by simp), show (((false, c) : Bool × Char).2 == '\n') = false by simp [hc], ih]
    rfl

/-- Nothing is marked in front of an indented item. -/
theorem mk_mark {M} (hM : Markers M) (p : Bool) (level : Nat) (ty : ListTypes) (w : V) :
    mk M p (markV (level + 1) ty ++ w) = markV (level + 1) ty ++ mk M false w := by
  have e : markV (level + 1) ty = (false, ' ') :: free (List.replicate level ' ' ++ [ty.marker, ' ']) := by
    simp [markV, free, List.replicate_succ]
  rw [e, List.cons_append, mk, if_neg (by simp [hM.space]), show (((false, ' ') : Bool × Char).2 == '\n') = false from rfl, mk_free]
  · rfl
  · intro h
    rcases List.mem_append.1 h with h | h
    · have := (List.mem_replicate.1 h).2; revert this; decide
    · have := (marker_ne_nl (marker_isMarker ty)).1
      simp [Ne.symm this] at h

theorem mk_nl {M} (hM : Markers M) (p : Bool) (w : V) : mk M p (free ['\n'] ++ w) = free ['\n'] ++ mk M true w := by
  show mk M p ((false, '\n') :: w) = _
  rw [mk, if_neg (by simp [hM.nl])]
  rfl

/-! ### The same text with more markers escaped -/

/-- Some free characters of `M` are escaped. -/
def MoreIn (M : List Char) : V → V → Prop
  | [], [] => True
  | x :: v, y :: w => (y = x ∨ (y = (true, x.2) ∧ x.2 ∈ M)) ∧ MoreIn M v w
  | _, _ => False

theorem MoreIn.more {M} : ∀ {v w : V}, MoreIn M v w → More v w
  | [], [], _ => trivial
  | _ :: _, _ :: _, h => ⟨h.1.imp_right And.left, MoreIn.more h.2⟩
  | [], _ :: _, h => by simp [MoreIn] at h
  | _ :: _, [], h => by simp [MoreIn] at h

theorem MoreIn.mono {M N} (hs : M ⊆ N) : ∀ {v w : V}, MoreIn M v w → MoreIn N v w
  | [], [], _ => trivial
  | _ :: _, _ :: _, h => ⟨h.1.imp_right (fun ⟨a, b⟩ => ⟨a, hs b⟩), MoreIn.mono hs h.2⟩
  | [], _ :: _, h => by simp [MoreIn] at h
  | _ :: _, [], h => by simp [MoreIn] at h

theorem mk_more {M} : ∀ (p : Bool) (v : V), MoreIn M v (mk M p v)
  | _, [] => trivial
  | p, x :: r => by
    rw [mk]
    refine ⟨?_, mk_more _ r⟩
    split
    · rename_i h; exact .inr ⟨rfl, h.2.2.1⟩
    · exact .inl rfl

theorem MoreIn.split {M} : ∀ {v1 v2 w : V}, MoreIn M (v1 ++ v2) w → ∃ w1 w2, w = w1 ++ w2 ∧ MoreIn M v1 w1 ∧ MoreIn M v2 w2
  | [], _, w, h => ⟨[], w, rfl, trivial, h⟩
  | x :: v1, v2, [], h => by simp [MoreIn] at h
  | x :: v1, v2, y :: w, h => by
    obtain ⟨w1, w2, rfl, h1, h2⟩ := MoreIn.split h.2
    exact ⟨y :: w1, w2, rfl, ⟨h.1, h1⟩, h2⟩

theorem MoreIn.free {M} : ∀ {s : Str} {w : V}, (∀ c ∈ s, c ∉ M) → MoreIn M (free s) w → w = Round.free s
  | [], [], _, _ => rfl
  | [], _ :: _, _, h => by simp [Round.free, MoreIn] at h
  | c :: s, [], _, h => by simp [Round.free, MoreIn] at h
  | c :: s, y :: w, hs, h => by
    have h1 : (y = (false, c) ∨ (y = (true, c) ∧ c ∈ M)) ∧ MoreIn M (Round.free s) w := h
    rw [MoreIn.free (fun d hd => hs d (by simp [hd])) h1.2]
    rcases h1.1 with rfl | ⟨-, hm⟩
    · rfl
    · exact absurd hm (hs c (by simp))

def marks : List Char := ['-', '+']

theorem Markers.marks {M} (h : Markers M) : M ⊆ Round.marks := fun m hm => by rcases h m hm with rfl | rfl <;> simp [Round.marks]

theorem MoreIn.delim {o c : Str} {v w : V} (ho : ∀ x ∈ o, x ∉ marks) (hc : ∀ x ∈ c, x ∉ marks) (h : MoreIn marks (Round.free o ++ (v ++ Round.free c)) w) :
    ∃ v', w = Round.free o ++ (v' ++ Round.free c) ∧ More v v' := by
  obtain ⟨w1, w2, rfl, h1, h2⟩ := h.split
  obtain ⟨w3, w4, rfl, h3, h4⟩ := h2.split
  rw [h1.free ho, h4.free hc]
  exact ⟨w3, rfl, h3.more⟩

theorem seq_marked {α : Type} {NV : Bool → α → V → Prop} (hn : ∀ b n v w, NV b n v → MoreIn marks v w → NV b n w) :
    ∀ {l : List α} {b : Bool} {v w : V}, SeqV NV b l v → MoreIn marks v w → SeqV NV b l w
  | [], b, v, w, h, hm => by
    have : v = [] := h
    subst this
    cases w with
    | nil => rfl
    | cons y w => simp [MoreIn] at hm
  | n :: r, b, v, w, h, hm => by
    obtain ⟨v1, v2, rfl, h1, h2⟩ := h
    obtain ⟨w1, w2, rfl, m1, m2⟩ := hm.split
    exact ⟨w1, w2, rfl, hn _ _ _ _ h1 m1, seq_marked hn h2 m2⟩

theorem boldItem_marked {stops} (b : Bool) (n : BoldNode) (v w : V) (h : BoldItemV stops b n v) (hm : MoreIn marks v w) :
    BoldItemV stops b n w := by
  cases n with
  | text s => exact ⟨h.1, h.2.more hm.more⟩
  | italic s =>
    obtain ⟨u, rfl, hu⟩ := h
    obtain ⟨u', rfl, hm'⟩ := MoreIn.delim (by decide) (by decide) hm
    exact ⟨u', rfl, hu.more hm'⟩
  | strikethrough s =>
    obtain ⟨h1, u, rfl, hu⟩ := h
    obtain ⟨u', rfl, hm'⟩ := MoreIn.delim (by decide) (by decide) hm
    exact ⟨h1, u', rfl, hu.more hm'⟩

theorem node_marked {stops} (b : Bool) (n : ParagraphNode) (v w : V) (h : NodeV stops b n v) (hm : MoreIn marks v w) :
    NodeV stops b n w := by
  cases n with
  | text s => exact ⟨h.1, h.2.more hm.more⟩
  | italic s =>
    obtain ⟨u, rfl, hu⟩ := h
    obtain ⟨u', rfl, hm'⟩ := MoreIn.delim (by decide) (by decide) hm
    exact ⟨u', rfl, hu.more hm'⟩
  | strikethrough s =>
    obtain ⟨h1, u, rfl, hu⟩ := h
    obtain ⟨u', rfl, hm'⟩ := MoreIn.delim (by decide) (by decide) hm
    exact ⟨h1, u', rfl, hu.more hm'⟩
  | emphasis s =>
    obtain ⟨h1, u, rfl, hu⟩ := h
    obtain ⟨u', rfl, hm'⟩ := MoreIn.delim (by decide) (by decide) hm
    exact ⟨h1, u', rfl, hu.more hm'⟩
  | codeSpan s =>
    obtain ⟨h1, u, rfl, hu⟩ := h
    obtain ⟨u', rfl, hm'⟩ := MoreIn.delim (by decide) (by decide) hm
    exact ⟨h1, u', rfl, hu.more hm'⟩
  | anchor a =>
    obtain ⟨u1, u2, rfl, h1, h2⟩ := h
    unfold linkV at hm
    obtain ⟨w1, w2, rfl, m1, m2⟩ := hm.split
    obtain ⟨w3, w4, rfl, m3, m4⟩ := m2.split
    obtain ⟨w5, w6, rfl, m5, m6⟩ := m4.split
    obtain ⟨u2', rfl, m7⟩ := MoreIn.delim (by decide) (by decide) m6
    rw [m1.free (by decide), m5.free (by decide)]
    exact ⟨w3, u2', rfl, h1.more m3.more, h2.more m7⟩
  | bold l =>
    obtain ⟨h1, h2, u, rfl, hu⟩ := h
    obtain ⟨w1, w2, rfl, m1, m2⟩ := hm.split
    obtain ⟨w3, w4, rfl, m3, m4⟩ := m2.split
    rw [m1.free (by decide), m4.free (by decide)]
    exact ⟨h1, h2, w3, rfl, seq_marked boldItem_marked hu m3⟩

/-- A paragraph with some markers escaped is the view of the same paragraph. -/
theorem para_marked {stops b p v w} (h : ParaV stops b p v) (hm : MoreIn marks v w) : ParaV stops b p w :=
  seq_marked node_marked h hm

end Yamd.Round
