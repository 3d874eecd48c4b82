import Verif.Model.ToYamd
import Verif.Spec.Ops

/-!
# `try_to_yamd` on arbitrary streams
-/

namespace Yamd.ToYamd

open Yamd Yamd.Spec

/-- Is the frame the outermost one? -/
def isYamd : Frame → Bool
  | .Yamd .. => true
  | _ => false

/-- Which frames of a stack are the outermost one. -/
def shape (st : Stack) : List Bool := st.map isYamd

theorem end_cons (n : Node) (f g : Frame) (st : Stack) :
    ∃ st', onEndFrame n f (g :: st) = some st' ∧ shape st' = shape (g :: st) := by
  cases n <;> cases f <;> first
    | exact ⟨_, rfl, rfl⟩
    | (cases g <;> exact ⟨_, rfl, rfl⟩)

theorem end_nil (n : Node) (f : Frame) : onEndFrame n f [] = none ∨ onEndFrame n f [] = some [] := by
  cases n <;> cases f <;> first
    | exact .inl rfl
    | exact .inr rfl

theorem value_shape (t : Str) (f : Frame) : isYamd (valueInto t f) = isYamd f := by
  cases f <;> rfl

theorem start_shape {n c src st s} (h : c.asStr src = .ok s) :
    ∃ f, onStart n c src st = .ok (f :: st) ∧ isYamd f = false := by
  cases n <;> first
    | exact ⟨_, rfl, rfl⟩
    | exact ⟨.Heading _ [], by simp only [onStart, extractHeadingLevel, h, bind, Except.bind, pure, Except.pure]; rfl, rfl⟩

/-- Once the outermost frame is gone it does not come back. -/
theorem run_dead {src : Str} : ∀ {ops : List Op} {st : Stack}, (∀ op ∈ ops, ∃ s, op.content.asStr src = .ok s) →
    (∀ b ∈ shape st, b = false) → ∃ r, run src ops st = .ok r ∧ ∀ st', r = some st' → ∀ b ∈ shape st', b = false
  | [], st, _, hd => ⟨_, rfl, fun st' h => by cases h; exact hd⟩
  | op :: ops, st, hc, hd => by
    obtain ⟨s, hs⟩ := hc op (by simp)
    have ih : ∀ {st : Stack}, (∀ b ∈ shape st, b = false) → _ := fun {st} h =>
      run_dead (src := src) (ops := ops) (st := st) (fun o ho => hc o (by simp [ho])) h
    rw [run]
    unfold step
    cases hk : op.kind with
    | Start n =>
      obtain ⟨f, h1, h2⟩ := start_shape (n := n) (st := st) hs
      simp only [h1, bind, Except.bind, pure, Except.pure]
      refine ih ?_
      simp only [shape, List.map_cons, List.mem_cons]
      rintro b (rfl | hb)
      · exact h2
      · exact hd b hb
    | Value =>
      simp only [onValue, hs, bind, Except.bind]
      cases st with
      | nil => exact ⟨none, rfl, by simp⟩
      | cons f st =>
        simp only [pure, Except.pure]
        refine ih ?_
        have := value_shape s f
        intro b hb
        refine hd b ?_
        simp only [shape, List.map_cons] at hb ⊢
        rwa [this] at hb
    | End n =>
      simp only [bind, Except.bind, onEnd]
      cases st with
      | nil => exact ⟨none, rfl, by simp⟩
      | cons f st =>
        cases st with
        | nil =>
          rcases end_nil n f with h | h
          · simp only [h]; exact ⟨none, rfl, by simp⟩
          · simp only [h]; exact ih (by simp [shape])
        | cons g st =>
          obtain ⟨st', h1, h2⟩ := end_cons n f g st
          simp only [h1]
          refine ih ?_
          rw [h2]
          intro b hb
          exact hd b (by simp only [shape, List.map_cons] at hb ⊢; exact List.mem_cons_of_mem _ hb)

/-- The stack counts the open nodes. -/
theorem run_alive {src : Str} : ∀ {ops : List Op} {st : Stack} {d : Nat},
    (∀ op ∈ ops, ∃ s, op.content.asStr src = .ok s) → shape st = List.replicate d false ++ [true] →
    ∃ r, run src ops st = .ok r ∧
      (∀ e, depthAfter d (ops.map Op.kind) = some e →
        ∃ st', r = some st' ∧ shape st' = List.replicate e false ++ [true]) ∧
      (depthAfter d (ops.map Op.kind) = none → ∀ st', r = some st' → ∀ b ∈ shape st', b = false)
  | [], st, d, _, hd => ⟨_, rfl, by rintro e h; cases h; exact ⟨st, rfl, hd⟩, by simp [depthAfter]⟩
  | op :: ops, st, d, hc, hd => by
    obtain ⟨s, hs⟩ := hc op (by simp)
    have hc' : ∀ o ∈ ops, ∃ s, o.content.asStr src = .ok s := fun o ho => hc o (by simp [ho])
    obtain ⟨f, st, rfl⟩ : ∃ f st', st = f :: st' := by
      cases st with
      | nil => simp [shape] at hd
      | cons f st => exact ⟨f, st, rfl⟩
    rw [run, List.map_cons]
    unfold step
    cases hk : op.kind with
    | Start n =>
      obtain ⟨g, h1, h2⟩ := start_shape (n := n) (st := f :: st) hs
      simp only [h1, bind, Except.bind, pure, Except.pure]
      have : shape (g :: f :: st) = List.replicate (d + 1) false ++ [true] := by
        rw [List.replicate_succ, List.cons_append, ← hd]
        simp only [shape, List.map_cons, h2]
      have h := run_alive hc' this
      cases d <;> exact h
    | Value =>
      simp only [onValue, hs, bind, Except.bind, pure, Except.pure]
      have : shape (valueInto s f :: st) = List.replicate d false ++ [true] := by
        rw [← hd]; simp only [shape, List.map_cons, value_shape]
      have h := run_alive hc' this
      cases d <;> exact h
    | End n =>
      simp only [bind, Except.bind, onEnd]
      cases d with
      | zero =>
        have e : st = [] := by
          simp only [shape, List.map_cons, List.replicate_zero, List.nil_append, List.cons.injEq] at hd
          simpa using hd.2
        subst e
        rcases end_nil n f with h | h
        · simp only [h]; exact ⟨none, rfl, by simp [depthAfter], by simp⟩
        · simp only [h]
          obtain ⟨r, h1, h2⟩ := run_dead (src := src) (st := []) hc' (by simp [shape])
          exact ⟨r, h1, by simp [depthAfter], fun _ => h2⟩
      | succ d =>
        rw [List.replicate_succ, List.cons_append] at hd
        simp only [shape, List.map_cons, List.cons.injEq] at hd
        obtain ⟨g, st, rfl⟩ : ∃ g st', st = g :: st' := by
          cases st with
          | nil => simp at hd
          | cons g st => exact ⟨g, st, rfl⟩
        obtain ⟨st', h1, h2⟩ := end_cons n f g st
        simp only [h1]
        exact run_alive hc' (by rw [h2]; exact hd.2)

theorem try_iff {src : Str} {ops : List Op} (hc : ∀ op ∈ ops, ∃ s, op.content.asStr src = .ok s) :
    ∃ r, tryToYamd ops src = .ok r ∧ (r.isSome = true ↔ DepthBalanced ops) := by
  obtain ⟨r, h1, h2, h3⟩ := run_alive (d := 0) (st := [.Yamd none []]) hc rfl
  unfold tryToYamd
  simp only [h1, bind, Except.bind, DepthBalanced]
  cases hd : depthAfter 0 (ops.map Op.kind) with
  | none =>
    cases r with
    | none => exact ⟨none, rfl, by simp⟩
    | some st =>
      refine ⟨finish st, rfl, ?_⟩
      have := h3 hd st rfl
      have : finish st = none := by
        unfold finish
        split
        · have := this true (by simp [shape, isYamd]); simp at this
        · rfl
      simp [this]
  | some e =>
    obtain ⟨st, rfl, hs⟩ := h2 e hd
    refine ⟨finish st, rfl, ?_⟩
    cases e with
    | zero =>
      simp only [iff_true]
      match st, hs with
      | .Yamd m b :: st, _ => rfl
      | [], hs => simp [shape] at hs
      | f :: st, hs =>
        simp only [shape, List.map_cons, List.replicate_zero, List.nil_append, List.cons.injEq] at hs
        cases f <;> simp [isYamd, finish] at hs ⊢
    | succ e =>
      suffices h : finish st = none by simp [h]
      cases st with
      | nil => rfl
      | cons f st =>
        rw [List.replicate_succ, List.cons_append] at hs
        simp only [shape, List.map_cons, List.cons.injEq] at hs
        cases f <;> simp [isYamd, finish] at hs ⊢

end Yamd.ToYamd
