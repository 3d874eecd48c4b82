import Verif.Proofs.LexProps
import Verif.Spec.Ops

/-!
# Slices of the source
-/

namespace Yamd.Spec

open Yamd Yamd.Lexer

theorem dropBytes_some : ∀ {n : Nat} {s r : Str}, dropBytes n s = some r → ∃ u, s = u ++ r ∧ blen u = n := by
  intro n s
  induction s generalizing n with
  | nil =>
    intro r h
    cases n with
    | zero => simp only [dropBytes, Option.some.injEq] at h; exact ⟨[], by simp [h], rfl⟩
    | succ n => simp [dropBytes] at h
  | cons c s ih =>
    intro r h
    cases n with
    | zero => simp only [dropBytes, Option.some.injEq] at h; exact ⟨[], by simp [h], rfl⟩
    | succ n =>
      unfold dropBytes at h
      split at h
      · obtain ⟨u, h1, h2⟩ := ih h
        exact ⟨c :: u, by simp [h1], by simp [blen, h2]; omega⟩
      · simp at h

theorem takeBytes_some : ∀ {n : Nat} {s x : Str}, takeBytes n s = some x → ∃ v, s = x ++ v ∧ blen x = n := by
  intro n s
  induction s generalizing n with
  | nil =>
    intro r h
    cases n with
    | zero => simp only [takeBytes, Option.some.injEq] at h; exact ⟨[], by simp [h], by simp [← h, blen]⟩
    | succ n => simp [takeBytes] at h
  | cons c s ih =>
    intro r h
    cases n with
    | zero => simp only [takeBytes, Option.some.injEq] at h; exact ⟨c :: s, by simp [← h], by simp [← h, blen]⟩
    | succ n =>
      unfold takeBytes at h
      split at h
      · simp only [Option.map_eq_some_iff] at h
        obtain ⟨y, h1, rfl⟩ := h
        obtain ⟨v, h2, h3⟩ := ih h1
        exact ⟨v, by simp [h2], by simp [blen, h3]; omega⟩
      · simp at h

/-- A slice is a part of the string at the given byte offsets. -/
theorem slice_iff {s : Str} {a b : Nat} {x : Str} : slice s a b = some x ↔
    ∃ u v, s = u ++ (x ++ v) ∧ blen u = a ∧ b = blen u + blen x := by
  constructor
  · intro h
    unfold slice at h
    split at h
    · rename_i hab
      simp only [Option.bind_eq_some_iff] at h
      obtain ⟨r, h1, h2⟩ := h
      obtain ⟨u, h3, h4⟩ := dropBytes_some h1
      obtain ⟨v, h5, h6⟩ := takeBytes_some h2
      exact ⟨u, v, by rw [h3, h5], h4, by omega⟩
    · simp at h
  · rintro ⟨u, v, rfl, rfl, rfl⟩
    exact slice_append u x v _ rfl

theorem prefix_unique : ∀ {u u' v v' : Str}, u ++ v = u' ++ v' → blen u = blen u' → u = u' := by
  intro u
  induction u with
  | nil =>
    intro u' v v' h hb
    cases u' with
    | nil => rfl
    | cons c u' => have := Char.utf8Size_pos c; simp [blen] at hb; omega
  | cons c u ih =>
    intro u' v v' h hb
    cases u' with
    | nil => have := Char.utf8Size_pos c; simp [blen] at hb; omega
    | cons d u' =>
      simp only [List.cons_append, List.cons.injEq] at h
      obtain ⟨rfl, h⟩ := h
      simp only [blen] at hb
      rw [ih h (by omega)]

theorem slice_concat {s : Str} {a b c : Nat} {x y : Str} (h1 : slice s a b = some x)
    (h2 : slice s b c = some y) : slice s a c = some (x ++ y) := by
  obtain ⟨u, v, e1, e2, e3⟩ := slice_iff.1 h1
  obtain ⟨u', v', f1, f2, f3⟩ := slice_iff.1 h2
  rw [slice_iff]
  have : u ++ x = u' := by
    refine prefix_unique (v := v) (v' := y ++ v') ?_ ?_
    · rw [List.append_assoc, ← e1, f1]
    · rw [blen_append]; omega
  subst this
  refine ⟨u, v', by rw [f1]; simp, e2, ?_⟩
  rw [blen_append] at f3 ⊢; omega

theorem slice_le {s : Str} {a b : Nat} {x : Str} (h : slice s a b = some x) : a ≤ b := by
  obtain ⟨u, v, e1, e2, e3⟩ := slice_iff.1 h; omega

theorem slice_empty {s : Str} {a b : Nat} {x : Str} (h : slice s a b = some x) (hb : b ≤ a) : x = [] := by
  obtain ⟨u, v, e1, e2, e3⟩ := slice_iff.1 h
  cases x with
  | nil => rfl
  | cons c x => have := Char.utf8Size_pos c; simp only [blen] at e3; omega

theorem sliceR_ok {s : Str} {a b : Nat} {x : Str} (h : slice s a b = some x) : sliceR s a b = .ok x := by
  unfold sliceR; rw [h]

/-- A span resolves to the slice. -/
theorem span_asStr {s : Str} {a b : Nat} {x : Str} (h : slice s a b = some x) :
    (Content.Span a b).asStr s = .ok x := by
  simp only [Content.asStr]
  split
  · rename_i hb; rw [slice_empty h hb]
  · exact sliceR_ok h

/-- The bytes of adjacent tokens. -/
theorem slice_tokens {s : Str} : ∀ {t : Token} {r : List Token},
    (∀ u ∈ t :: r, ∃ x, slice s u.start u.stop = some x) → NoGap (t :: r) →
    slice s t.start (Content.lastStop t r) = some (textOfTokens s (t :: r)) := by
  intro t r
  induction r generalizing t with
  | nil =>
    intro h _
    obtain ⟨x, hx⟩ := h t (by simp)
    simp [Content.lastStop, textOfTokens, textOf, hx]
  | cons u r ih =>
    intro h hg
    obtain ⟨x, hx⟩ := h t (by simp)
    have h2 := ih (t := u) (fun v hv => h v (by simp [hv])) hg.2
    have hg1 : t.stop = u.start := hg.1
    rw [← hg1] at h2
    have := slice_concat hx h2
    rw [Content.lastStop, this]
    simp [textOfTokens, textOf, hx]

theorem noGap_iff : ∀ {ts : List Token}, NoGap ts ↔ Content.contiguous ts = true
  | [] => by simp [NoGap, Content.contiguous]
  | [_] => by simp [NoGap, Content.contiguous]
  | a :: b :: r => by
    have := noGap_iff (ts := b :: r)
    simp only [NoGap, Content.contiguous, Bool.and_eq_true, beq_iff_eq, this]

theorem lastStop_getLast : ∀ (t : Token) (r : List Token),
    some (Content.lastStop t r) = ((t :: r).getLast?).map Token.stop
  | t, [] => rfl
  | t, u :: r => by rw [Content.lastStop, lastStop_getLast u r]; simp [List.getLast?_cons_cons]

end Yamd.Spec
