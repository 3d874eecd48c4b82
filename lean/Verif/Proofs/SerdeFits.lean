import Verif.Proofs.Serde
import Verif.Spec.Size

/-!
# What is read fits the Rust types; documents of the parser fit (C67)
-/

namespace Yamd.Serde

open Yamd.Spec

theorem mapM_mem {α β : Type} (f : β → Option α) : ∀ (l : List β) (r : List α), l.mapM f = some r →
    ∀ y ∈ r, ∃ x, f x = some y
  | [], r, h, y, hy => by cases h; cases hy
  | x :: l, r, h, y, hy => by
    simp only [List.mapM_cons] at h
    cases hx : f x with
    | none => rw [hx] at h; cases h
    | some a =>
      cases hl : l.mapM f with
      | none => rw [hx, hl] at h; cases h
      | some b =>
        rw [hx, hl] at h
        cases h
        rcases List.mem_cons.1 hy with rfl | hy
        · exact ⟨x, hx⟩
        · exact mapM_mem f l b hl y hy

theorem vec_mem {α : Type} (f : Value → Option α) (v : Option Value) (r : List α) (h : need (toVec f) v = some r) :
    ∀ y ∈ r, ∃ x, f x = some y := by
  cases v with
  | none => cases h
  | some v =>
    cases v with
    | seq vs => exact mapM_mem f vs r h
    | _ => cases h

theorem fitsItems_of : ∀ is : List YItem, (∀ i ∈ is, fitsItem i) → fitsItems is
  | [], _ => trivial
  | i :: r, h => ⟨h i (by simp), fitsItems_of r (fun j hj => h j (by simp [hj]))⟩

theorem fitsNodes_of : ∀ ns : List YamdNode, (∀ i ∈ ns, fitsNode i) → fitsNodes ns
  | [], _ => trivial
  | i :: r, h => ⟨h i (by simp), fitsNodes_of r (fun j hj => h j (by simp [hj]))⟩

theorem usize_fits (v : Option Value) (n : Nat) (h : need toUsize v = some n) : n < 2 ^ 64 := by
  cases v with
  | none => cases h
  | some v =>
    cases v with
    | num m => simp only [need, Option.bind_some, toUsize] at h; split at h <;> simp_all
    | _ => cases h

theorem u8_fits (v : Option Value) (n : Nat) (h : need toU8 v = some n) : n < 2 ^ 8 := by
  cases v with
  | none => cases h
  | some v =>
    cases v with
    | num m => simp only [need, Option.bind_some, toU8] at h; split at h <;> simp_all
    | _ => cases h

theorem optional_some {α : Type} (f : Value → Option α) (v : Option Value) (l : α)
    (h : optional f v = some (some l)) : ∃ x, f x = some l := by
  unfold optional at h
  split at h
  · cases h
  · cases h
  · obtain ⟨l', h1, h2⟩ := Option.map_eq_some_iff.1 h
    cases h2
    exact ⟨_, h1⟩

theorem list_fits : ∀ fuel, (∀ v l, toList fuel v = some l → fitsList l) ∧ (∀ v i, toItem fuel v = some i → fitsItem i)
  | 0 => ⟨fun v l h => by simp [toList] at h, fun v l h => by simp [toItem] at h⟩
  | fuel + 1 => by
    obtain ⟨hl, hi⟩ := list_fits fuel
    refine ⟨fun v l h => ?_, fun v i h => ?_⟩
    · rw [toList] at h
      simp only [Option.bind_eq_bind, Option.bind_eq_some_iff] at h
      obtain ⟨as, -, h⟩ := h
      split at h
      · simp only [Option.bind_eq_some_iff, Option.pure_def, Option.some.injEq] at h
        obtain ⟨t, -, n, hn, b, hb, rfl⟩ := h
        refine ⟨usize_fits _ _ hn, fitsItems_of _ (fun i hm => ?_)⟩
        obtain ⟨x, hx⟩ := vec_mem _ _ _ hb i hm
        exact hi x i hx
      · cases h
    · rw [toItem] at h
      simp only [Option.bind_eq_bind, Option.bind_eq_some_iff] at h
      obtain ⟨as, -, h⟩ := h
      split at h
      · simp only [Option.bind_eq_some_iff, Option.pure_def, Option.some.injEq] at h
        obtain ⟨t, -, n, hn, rfl⟩ := h
        cases n with
        | none => trivial
        | some l =>
          obtain ⟨x, hx⟩ := optional_some _ _ _ hn
          exact hl x l hx
      · cases h

theorem node_fits : ∀ fuel, (∀ v n, toNode fuel v = some n → fitsNode n) ∧
    (∀ v n, toCollapsible fuel v = some n → fitsNode n)
  | 0 => ⟨fun v l h => by simp [toNode] at h, fun v l h => by simp [toCollapsible] at h⟩
  | fuel + 1 => by
    obtain ⟨hn, hc⟩ := node_fits fuel
    refine ⟨fun v n h => ?_, fun v n h => ?_⟩
    · rw [toNode] at h
      simp only [Option.bind_eq_bind, Option.bind_eq_some_iff] at h
      obtain ⟨⟨name, w⟩, -, h⟩ := h
      simp only at h
      split at h
      · obtain ⟨p, -, rfl⟩ := Option.map_eq_some_iff.1 h; trivial
      split at h
      · cases w with
        | none => cases h
        | some w =>
          simp only [need, Option.bind_some, toHeading, Option.bind_eq_bind, Option.bind_eq_some_iff] at h
          obtain ⟨as, -, h⟩ := h
          split at h
          · simp only [Option.bind_eq_some_iff, Option.pure_def, Option.some.injEq] at h
            obtain ⟨l, hl, b, hb, rfl⟩ := h
            exact u8_fits _ l (Option.bind_eq_some_iff.2 hl)
          · cases h
      split at h
      · obtain ⟨p, -, rfl⟩ := Option.map_eq_some_iff.1 h; trivial
      split at h
      · obtain ⟨p, -, rfl⟩ := Option.map_eq_some_iff.1 h; trivial
      split at h
      · cases w with
        | none => cases h
        | some w =>
          simp only [need, Option.bind_some, toCode, Option.bind_eq_bind, Option.bind_eq_some_iff] at h
          obtain ⟨as, -, h⟩ := h
          split at h
          · simp only [Option.bind_eq_some_iff, Option.pure_def, Option.some.injEq] at h
            obtain ⟨l, hl, b, hb, rfl⟩ := h
            trivial
          · cases h
      split at h
      · obtain ⟨l, hl, rfl⟩ := Option.map_eq_some_iff.1 h
        cases w with
        | none => cases hl
        | some w => exact (list_fits fuel).1 w l hl
      split at h
      · cases w with
        | none => cases h
        | some w =>
          simp only [need, Option.bind_some, toHighlight, Option.bind_eq_bind, Option.bind_eq_some_iff] at h
          obtain ⟨as, -, h⟩ := h
          split at h
          · simp only [Option.bind_eq_some_iff, Option.pure_def, Option.some.injEq] at h
            obtain ⟨_, -, _, -, _, -, rfl⟩ := h
            trivial
          · cases h
      split at h
      · cases w with
        | none => cases h
        | some w =>
          simp only [need, Option.bind_some, toThematicBreak, Option.bind_eq_bind, Option.bind_eq_some_iff] at h
          obtain ⟨as, -, h⟩ := h
          split at h
          · simp only [Option.pure_def, Option.some.injEq] at h
            subst h; trivial
          · cases h
      split at h
      · cases w with
        | none => cases h
        | some w =>
          simp only [need, Option.bind_some, toEmbed, Option.bind_eq_bind, Option.bind_eq_some_iff] at h
          obtain ⟨as, -, h⟩ := h
          split at h
          · simp only [Option.bind_eq_some_iff, Option.pure_def, Option.some.injEq] at h
            obtain ⟨l, hl, b, hb, rfl⟩ := h
            trivial
          · cases h
      split at h
      · cases w with
        | none => cases h
        | some w => exact hc w n h
      · cases h
    · rw [toCollapsible] at h
      simp only [Option.bind_eq_bind, Option.bind_eq_some_iff] at h
      obtain ⟨as, -, h⟩ := h
      split at h
      · simp only [Option.bind_eq_some_iff, Option.pure_def, Option.some.injEq] at h
        obtain ⟨l, -, b, hb, rfl⟩ := h
        exact fitsNodes_of _ (fun i hm => by
          obtain ⟨x, hx⟩ := vec_mem _ _ _ hb i hm
          exact hn x i hx)
      · cases h

theorem yamd_fits (v : Value) (y : Yamd) (h : toYamd v = some y) : fitsNodes y.body := by
  simp only [toYamd, Option.bind_eq_bind, Option.bind_eq_some_iff] at h
  obtain ⟨as, -, h⟩ := h
  split at h
  · simp only [Option.bind_eq_some_iff, Option.pure_def, Option.some.injEq] at h
    obtain ⟨l, -, b, hb, rfl⟩ := h
    exact fitsNodes_of _ (fun i hm => by
      obtain ⟨x, hx⟩ := vec_mem _ _ _ hb i hm
      exact (node_fits v.depth).1 x i hx)
  · cases h

mutual
theorem levels_fit : ∀ (l : YList) (k : Nat), levelsOk k l = true → k + nodesL l ≤ 2 ^ 64 → fitsList l
  | .mk t level items, k, h, hb => by
    simp only [levelsOk, Bool.and_eq_true, beq_iff_eq] at h
    simp only [nodesL] at hb
    exact ⟨by omega, items_fit items k h.2.2 (by omega)⟩
theorem items_fit : ∀ (is : List YItem) (k : Nat), itemsLevelsOk k is = true → k + nodesIs is ≤ 2 ^ 64 → fitsItems is
  | [], _, _, _ => trivial
  | i :: r, k, h, hb => by
    simp only [itemsLevelsOk, Bool.and_eq_true] at h
    simp only [nodesIs] at hb
    exact ⟨item_fit i k h.1 (by omega), items_fit r k h.2 (by omega)⟩
theorem item_fit : ∀ (i : YItem) (k : Nat), itemLevelsOk k i = true → k + nodesI i ≤ 2 ^ 64 → fitsItem i
  | .mk _ none, _, _, _ => trivial
  | .mk _ (some l), k, h, hb => by
    simp only [itemLevelsOk] at h
    simp only [nodesI] at hb
    exact levels_fit l (k + 1) h (by omega)
end

mutual
theorem nodes_fit : ∀ ns : List YamdNode, (∀ level body, .heading level body ∈ blocksOf ns → level ≤ 6) →
    (∀ l, .list l ∈ blocksOf ns → levelsOk 0 l = true) → nodesNs ns ≤ 2 ^ 64 → fitsNodes ns
  | [], _, _, _ => trivial
  | n :: r, h1, h2, hb => by
    simp only [nodesNs] at hb
    refine ⟨node_fit n ?_ ?_ (by omega), nodes_fit r ?_ ?_ (by omega)⟩
    · exact fun l b h => h1 l b (by simp [blocksOf, h])
    · exact fun l h => h2 l (by simp [blocksOf, h])
    · exact fun l b h => h1 l b (by simp [blocksOf, h])
    · exact fun l h => h2 l (by simp [blocksOf, h])
theorem node_fit : ∀ n : YamdNode, (∀ level body, .heading level body ∈ blocksIn n → level ≤ 6) →
    (∀ l, .list l ∈ blocksIn n → levelsOk 0 l = true) → nodesN n ≤ 2 ^ 64 → fitsNode n
  | .heading level body, h1, _, _ => by
    have := h1 level body (by simp [blocksIn])
    simp only [fitsNode]; omega
  | .list l, _, h2, hb => by
    simp only [nodesN] at hb
    exact levels_fit l 0 (h2 l (by simp [blocksIn])) (by omega)
  | .collapsible t b, h1, h2, hb => by
    simp only [nodesN] at hb
    simp only [fitsNode]
    exact nodes_fit b (fun l b h => h1 l b (by simp [blocksIn, h])) (fun l h => h2 l (by simp [blocksIn, h])) (by omega)
  | .paragraph _, _, _, _ => trivial
  | .image _, _, _, _ => trivial
  | .images _, _, _, _ => trivial
  | .code _ _, _, _, _ => trivial
  | .highlight _ _ _, _, _, _ => trivial
  | .thematicBreak, _, _, _ => trivial
  | .embed _ _, _, _, _ => trivial
end

end Yamd.Serde
