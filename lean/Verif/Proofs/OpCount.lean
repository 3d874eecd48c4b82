import Verif.Proofs.TreeOk

/-!
# The number of ops of a tree is linear in the number of its tokens
-/

namespace Yamd.Ref

open Yamd

variable {src : Str}

theorem flatMap_count {α : Type} {f : α → List Op} {g : α → List Token} {k : Nat} :
    ∀ {l : List α}, (∀ x ∈ l, (f x).length ≤ k * (g x).length) →
    (l.flatMap f).length ≤ k * (l.flatMap g).length
  | [], _ => by simp
  | x :: l, h => by
    have h1 := h x (by simp)
    have h2 := flatMap_count (l := l) (fun y hy => h y (by simp [hy]))
    simp only [List.flatMap_cons, List.length_append, Nat.mul_add]
    omega

theorem delim_count (d : Delim) : (d.ops src).length ≤ 2 * d.toks.length := by
  rw [delim_toks_length]
  show 3 ≤ _
  omega

theorem pos_of_ne {α : Type} {l : List α} (h : l ≠ []) : 1 ≤ l.length := by
  cases l with
  | nil => exact absurd rfl h
  | cons a l => simp

theorem boldItem_count {x : BoldItem} (h : x.Ok) : (x.ops src).length ≤ 2 * x.toks.length := by
  cases x with
  | text ts => have := pos_of_ne h; show 1 ≤ 2 * ts.length; omega
  | delim d => exact delim_count d

theorem link_count (l : Link) : (l.ops src).length + 2 ≤ 2 * l.toks.length := by
  simp only [Link.ops, Link.toks, List.length_append, delim_toks_length]
  show 3 + 3 + 2 ≤ _
  omega

theorem inl_count {x : Inl} (h : x.Ok) : (x.ops src).length ≤ 2 * x.toks.length := by
  cases x with
  | text ts => have := pos_of_ne h; show 1 ≤ 2 * ts.length; omega
  | delim d => exact delim_count d
  | bold o items c =>
    obtain ⟨-, -, h3, -⟩ := h
    have := flatMap_count (f := BoldItem.ops src) (g := BoldItem.toks) (k := 2) (fun x hx => boldItem_count (h3 x hx))
    simp only [Inl.ops, Inl.toks, List.length_cons, List.length_append, List.length_nil]
    omega
  | anchor l =>
    have := link_count (src := src) l
    simp only [Inl.ops, Inl.toks, anchorOps, List.length_cons, List.length_append, List.length_nil]
    omega

theorem para_count {l : List Inl} (h : ∀ x ∈ l, x.Ok) : (paraOps src l).length ≤ 2 * (paraToks l).length + 2 := by
  have := flatMap_count (f := Inl.ops src) (g := Inl.toks) (k := 2) (fun x hx => inl_count (h x hx))
  simp only [paraOps, paraToks, List.length_cons, List.length_append, List.length_nil]
  omega

theorem headItem_count {x : HeadItem} (h : x.Ok) : (x.ops src).length ≤ 2 * x.toks.length := by
  cases x with
  | text ts => have := pos_of_ne h; show 1 ≤ 2 * ts.length; omega
  | anchor l =>
    have := link_count (src := src) l
    simp only [HeadItem.ops, HeadItem.toks, anchorOps, List.length_cons, List.length_append, List.length_nil]
    omega

theorem img_count (i : Img) : (i.ops src).length + 2 ≤ 2 * i.toks.length := by
  have := link_count (src := src) i.link
  simp only [Img.ops, Img.toks, List.length_cons, List.length_append, List.length_nil]
  omega

theorem markerOk_length {level k m} (h : MarkerOk level k m) : (if level = 0 then 2 else 3) ≤ m.length := by
  rcases h with ⟨h0, a, b, rfl, -⟩ | ⟨h0, s, a, b, rfl, -⟩
  · simp [h0]
  · simp [h0]

theorem wrap_count {i : Items} (h : (i.ops src).length + (if i = .nil then 0 else k) ≤ n) :
    (wrapList i.kind (i.ops src)).length + (if i = .nil then 0 else k) ≤ n + (if i = .nil then 0 else 2) := by
  cases i with
  | nil => simpa [wrapList, Items.kind] using h
  | cons k m p n r =>
    simp only [Items.kind, wrapList, List.length_cons, List.length_append, List.length_nil, reduceCtorEq,
      if_false] at h ⊢
    omega

/-- An item pays for its own ops; on nested levels the first item pays for the list around it as well. -/
theorem items_count : ∀ {i : Items} {level want}, i.Ok level want →
    (i.ops src).length + (if level = 0 ∨ i = .nil then 0 else 2) ≤ 2 * i.toks.length
  | .nil, _, _, _ => by simp [Items.ops]
  | .cons k m p n r, level, want, h => by
    obtain ⟨-, hm, hp, hn, hr⟩ := h
    have h1 := markerOk_length hm
    have h2 := para_count (src := src) hp.1
    have h3 := items_count hn
    have h4 := items_count hr
    have h5 : (wrapList n.kind (n.ops src)).length ≤ 2 * n.toks.length := by
      cases n with
      | nil => simp [wrapList, Items.kind]
      | cons k' m' p' n' r' =>
        simp only [Items.kind, wrapList, List.length_cons, List.length_append, List.length_nil] at h3 ⊢
        rw [if_neg (by simp)] at h3
        omega
    have h6 : (Items.ops src r).length ≤ 2 * r.toks.length := by omega
    simp only [Items.ops, Items.toks, List.length_cons, List.length_append]
    by_cases h0 : level = 0
    · simp only [h0, if_true, true_or] at h1 ⊢
      omega
    · simp only [h0, if_false, false_or, reduceCtorEq] at h1 ⊢
      omega

theorem list_count {i : Items} {level want} (h : i.Ok level want) :
    (i.listOps src).length ≤ 2 * i.toks.length + 2 := by
  have := items_count (src := src) h
  cases i with
  | nil => simp [Items.listOps, wrapList, Items.kind]
  | cons k m p n r =>
    simp only [Items.listOps, Items.kind, wrapList, List.length_cons, List.length_append, List.length_nil]
    omega

end Yamd.Ref
