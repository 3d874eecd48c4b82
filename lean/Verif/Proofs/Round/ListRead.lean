import Verif.Proofs.Round.Highlight

/-!
# Lists read back: markers, items, nested lists
-/

namespace Yamd.Round

open Yamd Yamd.Spec Yamd.Lexer Yamd.Ref

/-! ### Tokens of two joined views -/

theorem sp_append {src : Str} : ∀ {b : Bool} {t1 t2 : List Token} {p1 p2 : List Piece}, Sp src b t1 p1 →
    Sp src (endFlag b p1) t2 p2 → Sp src b (t1 ++ t2) (p1 ++ p2)
  | _, [], _, [], _, _, h2 => h2
  | _, [], _, _ :: _, _, h1, _ => by simp [Sp] at h1
  | _, _ :: _, _, [], _, h1, _ => by simp [Sp] at h1
  | b, t :: t1, t2, p :: p1, p2, h1, h2 => by
    rw [endFlag_cons] at h2
    exact ⟨h1.1, sp_append h1.2 h2⟩

theorem spv_append {src : Str} {b : Bool} {t1 t2 : List Token} {v w : V} (hv : Valid v) (hj : Join v w)
    (h1 : SpV src b t1 v) (h2 : SpV src (flag b v) t2 w) : SpV src b (t1 ++ t2) (v ++ w) := by
  unfold SpV at *
  rw [hj]
  exact sp_append h1 (by rw [endFlag_pieces hv]; exact h2)

/-! ### Markers -/

def kindOf : ListTypes → ListKind
  | .Unordered => .Unordered
  | .Ordered => .Ordered

def markKind : ListTypes → TokenKind
  | .Unordered => .Minus
  | .Ordered => .Plus

theorem listType_kindOf (ty : ListTypes) : listType (kindOf ty) = ty := by cases ty <;> rfl

/-- Indentation, marker and space. -/
def markV (level : Nat) (ty : ListTypes) : V := free (List.replicate level ' ') ++ (free [ty.marker] ++ free [' '])

/-- The tokens of a marker. -/
def MarkToks (level : Nat) (k : ListKind) (m : List Token) : Prop :=
  (level = 0 ∧ ∃ a s, m = [a, s] ∧ col0 a = true ∧ ListKind.tryFrom a = some k ∧ isSpace1 s = true) ∨
  (level ≠ 0 ∧ ∃ i a s, m = [i, a, s] ∧ col0 i = true ∧ i.kind = .Space ∧ i.len = level ∧ ListKind.tryFrom a = some k ∧
    isSpace1 s = true)

/-- The tokens start with a marker. -/
def Marked (level : Nat) (k : ListKind) (ts : List Token) : Prop := ∃ m r, ts = m ++ r ∧ MarkToks level k m

theorem Marked.append {level k ts} (h : Marked level k ts) (r : List Token) : Marked level k (ts ++ r) := by
  obtain ⟨m, r', rfl, h⟩ := h
  exact ⟨m, r' ++ r, by simp, h⟩

theorem marker_want {k : ListKind} {a : Token} {want : Option ListKind} (h : ListKind.tryFrom a = some k)
    (hw : want = none ∨ want = some k) : isListMarker want a = true := by
  unfold isListMarker
  rw [h]
  rcases hw with rfl | rfl <;> simp

theorem tryFrom_kind {a : Token} {k} (h : ListKind.tryFrom a = some k) : a.kind = .Minus ∨ a.kind = .Plus := by
  unfold ListKind.tryFrom at h
  split at h
  · rename_i h1; exact .inl h1.1
  · split at h
    · rename_i h1; exact .inr h1.1
    · simp at h

theorem marker_some {level k m r want} (h : MarkToks level k m) (hw : want = none ∨ want = some k) :
    markerB level want (m ++ r) = some (k, m, r) := by
  rcases h with ⟨rfl, a, s, rfl, h1, h2, h3⟩ | ⟨h0, i, a, s, rfl, h1, h2, h3, h4, h5⟩
  · have := marker_want h2 hw
    simp [markerB, tokenIs, h1, h2, h3, this]
  · have := marker_want h4 hw
    simp [markerB, tokenIs, h1, h2, h3, h4, h5, this, h0]

theorem marker_other {level l k ts want} (h : Marked l k ts) (hl : l ≠ level) : markerB level want ts = none := by
  obtain ⟨m, r, rfl, h⟩ := h
  rcases h with ⟨rfl, a, s, rfl, h1, h2, h3⟩ | ⟨h0, i, a, s, rfl, h1, h2, h3, h4, h5⟩
  · have hk : a.kind ≠ .Space := by rcases tryFrom_kind h2 with e | e <;> simp [e]
    have : level ≠ 0 := Ne.symm hl
    simp [markerB, tokenIs, h1, hk, this]
  · have hm : isListMarker want i = false := by simp [isListMarker, ListKind.tryFrom, h2]
    have hne : i.len ≠ level := by rw [h3]; exact hl
    by_cases h : level = 0
    · simp [markerB, tokenIs, h1, hm, h]
    · simp [markerB, tokenIs, h1, h, hne]

theorem marker_bd {stops level ts want} (h : Bd stops ts) : markerB level want ts = none := by
  have h1 : tokenIs ts 0 (isListMarker want) = false :=
    h.head (fun t ht => by
      cases hm : isListMarker want t with
      | false => rfl
      | true => rcases listMarker_kind hm with e | e <;> rcases ht with e' | e' <;> simp [e] at e')
  have h2 : tokenIs ts 0 (fun t => t.kind = .Space && t.len = level) = false :=
    h.head (fun t ht => by rcases ht with e | e <;> simp [e])
  unfold markerB
  rw [h1, h2]
  simp

theorem marked_head {l k ts} (h : Marked l k ts) : ∃ t r, ts = t :: r ∧ col0 t = true ∧
    (t.kind = .Minus ∨ t.kind = .Plus ∨ t.kind = .Space) := by
  obtain ⟨m, r, rfl, h⟩ := h
  rcases h with ⟨rfl, a, s, rfl, h1, h2, h3⟩ | ⟨h0, i, a, s, rfl, h1, h2, h3, h4, h5⟩
  · refine ⟨a, [s] ++ r, rfl, h1, ?_⟩
    rcases tryFrom_kind h2 with e | e <;> simp [e]
  · exact ⟨i, [a, s] ++ r, rfl, h1, .inr (.inr h2)⟩

/-- A marker stops an item of the same list, of a list around it, and starts a nested list. -/
theorem marked_stop {level l k K ts S} (h : Marked l k ts) (hl : l ≤ level + 1) (hk : l = level → k = K) :
    stopAt (.ListBoundary level K :: S) ts = true := by
  have hb : boundaryHere ts level K l = true := by
    have hw : (if l = level then some K else none) = none ∨ (if l = level then some K else none) = some k := by
      by_cases e : l = level
      · right; rw [if_pos e, hk e]
      · left; rw [if_neg e]
    obtain ⟨m, r, rfl, h⟩ := h
    unfold boundaryHere
    rcases h with ⟨rfl, a, s, rfl, h1, h2, h3⟩ | ⟨h0, i, a, s, rfl, h1, h2, h3, h4, h5⟩
    · have := marker_want h2 hw
      simp [tokenIs, h1, h3, this]
    · have := marker_want h4 hw
      simp [tokenIs, h1, h2, h3, h5, this, h0]
  obtain ⟨t, r, rfl, h1, -⟩ := marked_head h
  simp only [stopAt, List.any_cons, stopHere, Bool.or_eq_true, Bool.and_eq_true]
  exact .inl ⟨h1, List.any_eq_true.2 ⟨l, List.mem_range.2 (by omega), hb⟩⟩

theorem marked_nostop {l k ts stops} (hd : DStops stops) (h : Marked l k ts) : stopAt (.Terminator :: stops) ts = false := by
  obtain ⟨t, r, rfl, -, h2⟩ := marked_head h
  have h3 : stopAt stops (t :: r) = false := stop_kind hd (by rcases h2 with e | e | e <;> simp [e]) (by rcases h2 with e | e | e <;> simp [e])
  simp only [stopAt, List.any_cons, Bool.or_eq_false_iff] at h3 ⊢
  exact ⟨by rcases h2 with e | e | e <;> simp [stopHere, e], h3⟩

theorem marked_calm {l k ts S} (h : Marked l k ts) : Calm S ts := by
  obtain ⟨t, r, rfl, -, h2⟩ := marked_head h
  intro _
  rcases h2 with e | e | e <;> simp [closesColl, tokenIs, e]

theorem markV_valid (level : Nat) (ty : ListTypes) : Valid (markV level ty) := by
  refine (valid_free ?_).append ((valid_free ?_).append (valid_free (by decide)))
  · intro h; have := (List.mem_replicate.1 h).2; revert this; decide
  · cases ty <;> decide

theorem tok1_spaces (n : Nat) : tok1 (List.replicate (n + 1) ' ') = some (⟨false, .Space, List.replicate (n + 1) ' '⟩, []) := by
  have e1 : (List.replicate n ' ').takeWhile (· == ' ') = List.replicate n ' ' := by simp
  have e2 : (List.replicate n ' ').dropWhile (· == ' ') = [] := by simp
  rw [List.replicate_succ, tok1.eq_def]
  simp only
  rw [if_neg (by decide)]
  simp only [lineBreak, tokPlain, runKind]
  simp [e1]

theorem blen_spaces : ∀ n, blen (List.replicate n ' ') = n := by
  intro n
  induction n with
  | zero => rfl
  | succ n ih => rw [List.replicate_succ, blen, ih]; simp [Nat.add_comm]; rfl

/-- The marker is read. -/
theorem mark_split {src ts level ty w} (hw : w.head? ≠ some (false, ' ')) (hs : SpV src true ts (markV level ty ++ w)) :
    ∃ m r, ts = m ++ r ∧ MarkToks level (kindOf ty) m ∧ SpV src false r w := by
  have hfl : ∀ b, flag b (free [' ']) = false := fun b => rfl
  have hmk : ∀ {b a}, SpT src b a ⟨false, markKind ty, [ty.marker]⟩ →
      ListKind.tryFrom a = some (kindOf ty) := by
    intro b a h
    have h1 := h.kind
    have h2 := h.len
    cases ty <;> simp_all [ListKind.tryFrom, kindOf, markKind, ListTypes.marker] <;> rfl
  have htok : tok1 [ty.marker] = some (⟨false, markKind ty, [ty.marker]⟩, []) := by
    cases ty <;> rfl
  have vm : Valid (free [ty.marker]) := by cases ty <;> exact valid_free (by decide)
  have hj2 : Join (free [ty.marker]) (free [' '] ++ w) := by
    cases ty
    · exact join_after (c := '-') vm rfl (by decide) (by decide) (by simp) (.inr (by simp [free]))
    · exact join_after (c := '+') vm rfl (by decide) (by decide) (by simp) (.inr (by simp [free]))
  have tail : ∀ {b ts}, SpV src b ts (free [ty.marker] ++ (free [' '] ++ w)) → ∃ a s r, ts = a :: s :: r ∧
      SpT src b a ⟨false, markKind ty, [ty.marker]⟩ ∧ isSpace1 s = true ∧ SpV src false r w := by
    intro b ts hs
    obtain ⟨t1, r1, rfl, s1, hs1⟩ := spv_split vm hj2 hs
    obtain ⟨a, rfl, sa⟩ := spv_one (p := ⟨false, markKind ty, [ty.marker]⟩)
      (by rw [render_free_all]; exact htok) s1
    obtain ⟨t2, r2, rfl, s2, hs2⟩ := spv_split (valid_free (by decide)) (join_space hw) hs1
    obtain ⟨s, rfl, ss⟩ := spv_one (p := ⟨false, .Space, [' ']⟩) rfl s2
    rw [hfl] at hs2
    exact ⟨a, s, r2, rfl, sa, by simp [isSpace1, ss.kind, ss.len]; rfl, hs2⟩
  cases level with
  | zero =>
    have hs' : SpV src true ts (free [ty.marker] ++ (free [' '] ++ w)) := by simpa [markV, free] using hs
    obtain ⟨a, s, r, rfl, sa, hsp, hr⟩ := tail hs'
    exact ⟨[a, s], r, rfl, .inl ⟨rfl, a, s, rfl, sa.col, hmk sa, hsp⟩, hr⟩
  | succ n =>
    have hs' : SpV src true ts (free (List.replicate (n + 1) ' ') ++ (free [ty.marker] ++ (free [' '] ++ w))) := by
      simpa only [markV, List.append_assoc] using hs
    have vi : Valid (free (List.replicate (n + 1) ' ')) :=
      valid_free (fun h => by have := (List.mem_replicate.1 h).2; revert this; decide)
    have hlast : (free (List.replicate (n + 1) ' ')).getLast? = some (false, ' ') := by
      rw [free_getLast, List.getLast?_replicate]; simp
    have hj : Join (free (List.replicate (n + 1) ' ')) (free [ty.marker] ++ (free [' '] ++ w)) := by
      cases ty
      · exact join_stop (c := '-') vi rfl (by decide) (by rw [hlast]; simp) (by simp) (by simp)
      · exact join_stop (c := '+') vi rfl (by decide) (by rw [hlast]; simp) (by simp) (by simp)
    obtain ⟨t1, r1, rfl, s1, hs1⟩ := spv_split vi hj hs'
    obtain ⟨i, rfl, si⟩ := spv_one (p := ⟨false, .Space, List.replicate (n + 1) ' '⟩) (by rw [render_free_all]; exact tok1_spaces n) s1
    obtain ⟨a, s, r, rfl, sa, hsp, hr⟩ := tail hs1
    exact ⟨[i, a, s], r, rfl, .inr ⟨by simp, i, a, s, rfl, si.col, si.kind, by rw [si.len, blen_spaces], hmk sa, hsp⟩, hr⟩

end Yamd.Round
