import Verif.Proofs.StepsErase
import Verif.Proofs.RefineInline
import Verif.Proofs.OpCount
import Verif.Proofs.RefToks

/-!
# Bounds on the number of steps: inline constructs, paragraphs, headings

`M` bounds the weight of the tokens and the cost of the stop conditions.
-/

namespace Yamd

variable {α β : Type}

theorem Counted.cost_ok {x : Counted α} {f : α → Counted β} {a : α} (h : x.val = .ok a) :
    (x >>= f).cost = x.cost + (f a).cost := by
  obtain ⟨v, c⟩ := x
  cases h
  rfl

theorem Counted.cost_le {x : Counted α} {f : α → Counted β} {A B : Nat} (hx : x.cost ≤ A)
    (hf : ∀ a, x.val = .ok a → (f a).cost ≤ B) : (x >>= f).cost ≤ A + B := by
  obtain ⟨v, c⟩ := x
  cases v with
  | error e => exact Nat.le_trans hx (Nat.le_add_right _ _)
  | ok a => exact Nat.add_le_add hx (hf a rfl)

@[simp] theorem Counted.cost_pure (a : α) : (pure a : Counted α).cost = 0 := rfl
@[simp] theorem Counted.cost_paid (n : Nat) (x : R α) : (paid n x).cost = n := rfl
theorem Counted.cost_tick (n : Nat) (f : Unit → Counted β) : (tick n >>= f).cost = n + (f ()).cost := rfl
theorem Counted.cost_ite (c : Prop) [Decidable c] (x y : Counted α) :
    (if c then x else y).cost = if c then x.cost else y.cost := by split <;> rfl

theorem weight_append (a b : List Token) : weight (a ++ b) = weight a + weight b := by
  simp [weight]
theorem weight_cons (t : Token) (b : List Token) : weight (t :: b) = 1 + t.len + weight b := by
  simp [weight]
theorem length_le_weight : ∀ ts : List Token, ts.length ≤ weight ts
  | [] => Nat.zero_le _
  | t :: r => by have := length_le_weight r; rw [weight_cons]; simp; omega
theorem weight_take_le (n : Nat) (ts : List Token) : weight (ts.take n) ≤ weight ts := by
  conv => rhs; rw [← List.take_append_drop n ts, weight_append]
  omega
theorem weight_drop_le (n : Nat) (ts : List Token) : weight (ts.drop n) ≤ weight ts := by
  conv => rhs; rw [← List.take_append_drop n ts, weight_append]
  omega

end Yamd

namespace Yamd.Ref

open Yamd Counted

variable {α β : Type} {src : Str} {pre ts r : List Token} {eof : List Stop} {ops : List Op} {t : Token} {M : Nat}

/-- The bound fits the tokens and the stop conditions. -/
structure Fit (M : Nat) (all : List Token) (eof : List Stop) : Prop where
  tokens : weight all + 8 ≤ M
  stops : eofCost eof + 2 ≤ M

theorem Fit.eq {all all'} (h : Fit M all eof) (e : all' = all) : Fit M all' eof := by subst e; exact h

theorem Fit.len {all} (h : Fit M all eof) : all.length + 8 ≤ M :=
  Nat.le_trans (Nat.add_le_add_right (length_le_weight _) _) h.tokens

theorem span_cost {p : P} (h : weight p.tokens + 8 ≤ M) (a b : Nat) : (Steps.span p a b).cost ≤ M := by
  have h1 := weight_take_le (b - a) (p.tokens.drop a)
  have h2 := weight_drop_le a p.tokens
  show 1 + weight ((p.tokens.drop a).take (b - a)) ≤ M
  omega

theorem atEof_bind (f : Bool → Counted β) :
    (Steps.atEof (st src pre ts eof ops) >>= f).cost = eofCost eof + (f (stopAt eof ts)).cost := by
  rw [← st_atEof (src := src) (pre := pre) (ops := ops)]
  rfl

/-- How many tokens a scan looks at. -/
def scanned {α : Type} (ts : List Token) : Option (List Token × α) → Nat
  | none => ts.length + 1
  | some (b, _) => b.length + 1

theorem eatUntilLoop_cost {m} (he : eofCost eof + 2 ≤ M) : ∀ {ts pre n}, ts.length < n →
    (Steps.eatUntilLoop m n (st src pre ts eof ops)).cost ≤ M * scanned ts (untilB eof m ts) := by
  intro ts
  induction ts with
  | nil =>
    intro pre n hn
    cases n with
    | zero => omega
    | succ n =>
      rw [Steps.eatUntilLoop, cost_tick, st_get0]
      show 1 + 0 ≤ M * (0 + 1)
      omega
  | cons t r ih =>
    intro pre n hn
    cases n with
    | zero => omega
    | succ n =>
      rw [Steps.eatUntilLoop, cost_tick, st_get0, untilB]
      simp only [List.getElem?_cons_zero, atEof_bind, cost_ite, cost_pure]
      split
      · simp only [scanned, List.length_cons, Nat.mul_add]; omega
      · split
        · simp only [scanned, List.length_nil]; omega
        · have e : ({ st src pre (t :: r) eof ops with pos := (st src pre (t :: r) eof ops).pos + 1 } : P)
              = st src (pre ++ [t]) r eof ops := by simp [st]
          rw [e]
          have := ih (pre := pre ++ [t]) (n := n) (by simp at hn; omega)
          revert this
          cases untilB eof m r with
          | none =>
            simp only [scanned, Option.map_none, List.length_cons, Nat.mul_add, Nat.mul_one]; omega
          | some x =>
            simp only [scanned, Option.map_some, List.length_cons, Nat.mul_add, Nat.mul_one]; omega

theorem eatUntil_cost {m} (he : eofCost eof + 2 ≤ M) :
    (Steps.eatUntil (st src pre ts eof ops) m).cost ≤ M * scanned ts (untilB eof m ts) := by
  have h := eatUntilLoop_cost (M := M) (src := src) (ops := ops) (m := m) he (ts := ts) (pre := pre)
    (n := (pre ++ ts).length + 1) (by simp; omega)
  refine Nat.le_trans (cost_le (B := 0) h ?_) (Nat.le_refl _)
  intro a _
  cases a <;> exact Nat.le_refl 0

theorem eatUntil_val' {m} : (Steps.eatUntil (st src pre ts eof ops) m).val =
    match untilB eof m ts with
    | none => .ok (none, st src pre ts eof ops)
    | some (b, c, r) => .ok (some (pre.length, pre.length + b.length, pre.length + b.length + 1),
        st src (pre ++ (b ++ [c])) r eof ops) := by
  rw [Steps.eatUntil_val, eatUntil_eq]
  rfl

theorem pushTriple_cost {p : P} (h : weight p.tokens + 8 ≤ M) (n a b c) :
    (Steps.pushTriple p n a b c).cost ≤ 3 * M := by
  unfold Steps.pushTriple
  have := cost_le (A := M) (B := M + (M + 0)) (span_cost h a.1 a.2) (f := fun x => (do
    let b ← Steps.span p b.1 b.2
    let c ← Steps.span p c.1 c.2
    pure (((p.push (.start n x)).push (.value b)).push (.close n c)))) (fun _ _ =>
      cost_le (span_cost h _ _) (fun _ _ => cost_le (span_cost h _ _) (fun _ _ => Nat.le_refl _)))
  omega

/-- The cost of `delimited`: a success is paid by the tokens read, a failure scans the rest. -/
def delimCost (M : Nat) (o : Token → Bool) (ts : List Token) : Option (Delim × List Token) → Nat
  | some (d, _) => M * (d.toks.length + 3)
  | none => if tokenIs ts 0 o then M * (ts.length + 1) else 1

theorem delimCost_no {o} (h : tokenIs ts 0 o = false) : delimCost M o ts none = 1 := by
  unfold delimCost
  rw [if_neg (by simp [h])]
theorem delimCost_yes {o} (h : tokenIs ts 0 o = true) : delimCost M o ts none = M * (ts.length + 1) := by
  unfold delimCost
  rw [if_pos h]

theorem delimited_cost {o c n} (hf : Fit M (pre ++ ts) eof) :
    (Steps.delimited o c n (st src pre ts eof ops)).cost ≤ delimCost M o ts (delimB o c n eof ts) := by
  unfold Steps.delimited
  rw [cost_tick]
  cases ts with
  | nil => rw [st_eat_nil, delimB]; simp [tokenIs, delimCost]
  | cons t r =>
    rw [delimB]
    cases ho : o t with
    | false => rw [st_eat_no _ ho]; simp [tokenIs, ho, delimCost]
    | true =>
      rw [st_eat_yes _ ho]
      simp only [if_true]
      have hw : weight (pre ++ t :: r) + 8 ≤ M := hf.tokens
      have hsc := eatUntil_cost (M := M) (src := src) (ops := ops) (m := c) (pre := pre ++ [t]) (ts := r) hf.stops
      cases hu : untilB eof c r with
      | none =>
        rw [hu] at hsc
        have hv := eatUntil_val' (src := src) (pre := pre ++ [t]) (ts := r) (eof := eof) (ops := ops) (m := c)
        rw [hu] at hv
        rw [cost_ok hv]
        simp only [Option.map_none, scanned, delimCost, tokenIs, List.getElem?_cons_zero, ho, if_true, List.length_cons,
          cost_pure, Nat.mul_add, Nat.mul_one] at hsc ⊢
        omega
      | some x =>
        obtain ⟨b, d, r'⟩ := x
        rw [hu] at hsc
        have hv := eatUntil_val' (src := src) (pre := pre ++ [t]) (ts := r) (eof := eof) (ops := ops) (m := c)
        rw [hu] at hv
        rw [cost_ok hv]
        have hl := untilB_length hu
        have h3 := cost_le (f := fun q => (pure (true, q) : Counted (Bool × P)))
          (pushTriple_cost (M := M) (p := st src (pre ++ [t] ++ (b ++ [d])) r' eof ops)
          (by simpa [st, hl] using hw) n (pre.length, pre.length + 1)
          ((pre ++ [t]).length, (pre ++ [t]).length + b.length)
          ((pre ++ [t]).length + b.length, (pre ++ [t]).length + b.length + 1)) (B := 0) (fun _ _ => Nat.le_refl _)
        simp only [Option.map_some, scanned, delimCost, delim_toks_length, Nat.mul_add, Nat.mul_one] at hsc ⊢
        refine Nat.le_trans (Nat.add_le_add_left (Nat.add_le_add hsc h3) 1) ?_
        omega

theorem delimited_cost' {o c n} (hf : Fit M (pre ++ ts) eof) :
    (Steps.delimited o c n (st src pre ts eof ops)).cost ≤ M * (ts.length + 3) := by
  refine Nat.le_trans (delimited_cost hf) ?_
  have := hf.len
  unfold delimCost
  split
  · rename_i d r h
    have := delimB_toks h
    rw [this]
    simp only [List.length_append, Nat.mul_add]; omega
  · split
    · simp only [Nat.mul_add]; omega
    · simp only [Nat.mul_add]; omega

theorem destLoop_cost (he : eofCost eof + 2 ≤ M) : ∀ {ts pre n} {i : Int} {e}, ts.length < n →
    (Steps.destLoop n (st src pre ts eof ops) i e).cost ≤ M * (ts.length + 1) := by
  intro ts
  induction ts with
  | nil =>
    intro pre n i e hn
    cases n with
    | zero => omega
    | succ n =>
      rw [Steps.destLoop, cost_tick, st_peek]
      show 1 + 0 ≤ M * (0 + 1)
      omega
  | cons t r ih =>
    intro pre n i e hn
    cases n with
    | zero => omega
    | succ n =>
      have e1 : ({ st src pre (t :: r) eof ops with pos := (st src pre (t :: r) eof ops).pos + 1 } : P)
              = st src (pre ++ [t]) r eof ops := by simp [st]
      have h := fun i e => ih (pre := pre ++ [t]) (n := n) (i := i) (e := e) (by simp at hn; omega)
      rw [Steps.destLoop, cost_tick, st_peek]
      simp only [List.getElem?_cons_zero, atEof_bind, cost_ite, cost_pure, e1,
        List.length_cons]
      have e2 : M * (r.length + 1 + 1) = M * (r.length + 1) + M := by rw [Nat.mul_add M (r.length + 1), Nat.mul_one]
      rw [e2]
      have h1 := h (i + 1) e
      have h2 := h (i - 1) (st src pre (t :: r) eof ops).pos
      have h3 := h i e
      repeat' split
      all_goals omega

theorem destination_cost (hf : Fit M (pre ++ ts) eof) :
    (Steps.destination (st src pre ts eof ops)).cost ≤ M * (ts.length + 5) := by
  unfold Steps.destination
  rw [cost_tick]
  have hlen := hf.len
  cases ts with
  | nil => rw [st_eat_nil]; simp only [cost_pure, List.length_nil, Nat.mul_add]; omega
  | cons t r =>
    cases ho : isLeftParen t with
    | false => rw [st_eat_no _ ho]; simp only [cost_pure, List.length_cons, Nat.mul_add]; omega
    | true =>
      rw [st_eat_yes _ ho]
      have hw : weight (pre ++ [t] ++ r) + 8 ≤ M := by simpa using hf.tokens
      have h1 := destLoop_cost (M := M) (src := src) (ops := ops) hf.stops (ts := r) (pre := pre ++ [t])
        (n := (pre ++ [t] ++ r).length + 1) (i := 1) (e := pre.length) (by simp; omega)
      refine Nat.le_trans (Nat.add_le_add_left (cost_le (B := M + (M + (M + 0))) h1 ?_) 1) ?_
      · intro a _
        simp only [cost_ite, cost_pure]
        split
        · omega
        · exact cost_le (span_cost hw _ _) (fun _ _ => cost_le (span_cost hw _ _) (fun _ _ =>
            cost_le (span_cost hw _ _) (fun _ _ => Nat.le_refl _)))
      · simp only [List.length_cons, Nat.mul_add]; omega

/-- The value of a step-counting function on a state. -/
theorem val_of {f : P → Counted (Bool × P)} {f' : P → R (Bool × P)} {g : List Stop → List Token → Option (α × List Token)}
    {toks op} (hv : ∀ p, (f p).val = f' p) (hr : Refines src f' g toks op) (hg : Good src ts) :
    (f (st src pre ts eof ops)).val = match g eof ts with
    | none => .ok (false, st src pre ts eof ops)
    | some (x, r) => .ok (true, st src (pre ++ toks x) r eof (ops ++ op x)) := by
  rw [hv]; exact hr pre ts eof ops hg

theorem anchor_cost (hf : Fit M (pre ++ ts) eof) (hg : Good src ts) :
    (Steps.anchor (st src pre ts eof ops)).cost ≤ M * (2 * ts.length + 9) := by
  unfold Steps.anchor
  have hlen := hf.len
  rw [cost_tick]
  simp only [st_push]
  refine Nat.le_trans (Nat.add_le_add_left (cost_le (x := Steps.title _) (A := M * (ts.length + 3))
    (B := M * (ts.length + 5)) (delimited_cost' hf) ?_) 1) ?_
  · intro a ha
    rw [val_of Steps.title_val title_refines hg] at ha
    cases ht : titleB eof ts with
    | none =>
      rw [ht] at ha
      simp only [Except.ok.injEq] at ha
      subst ha
      simp
    | some x =>
      obtain ⟨d, r⟩ := x
      rw [ht] at ha
      simp only [Except.ok.injEq] at ha
      subst ha
      have hts := delimB_toks ht
      have hd := destination_cost (M := M) (src := src) (pre := pre ++ d.toks) (ts := r) (eof := eof)
        (ops := ops ++ [.start .Anchor emptyContent] ++ d.ops src) (hf.eq (by rw [hts]; simp))
      refine Nat.le_trans (cost_le (B := 0) hd ?_) ?_
      · intro a _
        rcases a with ⟨_ | _, q⟩ <;> exact Nat.le_refl _
      · rw [hts]; simp only [List.length_append, Nat.mul_add]; omega
  · have : M * (2 * ts.length) = 2 * (M * ts.length) := Nat.mul_left_comm ..
    simp only [Nat.mul_add, this]; omega

theorem orElse_cost {f1 f2 : P → Counted (Bool × P)} {p : P} {A B : Nat} (h1 : (f1 p).cost ≤ A)
    (h2 : ∀ q, (f1 p).val = .ok (false, q) → (f2 q).cost ≤ B) : (Steps.orElse f1 f2 p).cost ≤ A + B := by
  unfold Steps.orElse
  refine cost_le h1 ?_
  rintro ⟨_ | _, q⟩ hq
  · exact h2 q hq
  · exact Nat.zero_le _

/-- A failing alternative leaves the state as it was. -/
theorem orElse_cost_st {f1 f2 : P → Counted (Bool × P)} {f1' : P → R (Bool × P)}
    {g : List Stop → List Token → Option (α × List Token)} {toks op} {A B : Nat}
    (hv : ∀ p, (f1 p).val = f1' p) (hr : Refines src f1' g toks op) (hg : Good src ts)
    (h1 : (f1 (st src pre ts eof ops)).cost ≤ A) (h2 : (f2 (st src pre ts eof ops)).cost ≤ B) :
    (Steps.orElse f1 f2 (st src pre ts eof ops)).cost ≤ A + B := by
  refine orElse_cost h1 ?_
  intro q hq
  rw [val_of hv hr hg] at hq
  split at hq
  · simp only [Except.ok.injEq, Prod.mk.injEq, true_and] at hq
    subst hq
    exact h2
  · simp at hq

/-! ### Bold -/

theorem insertText_cost {acc a n : List _} {x y : Nat} (hw : weight (pre ++ acc ++ a ++ r) + 8 ≤ M)
    (hy : y = ops.length) :
    (Steps.insertText (st src (pre ++ acc ++ a) r eof (ops ++ n)) (tstart pre acc) x y).cost
      ≤ M + (1 + n.length) := by
  subst hy
  unfold Steps.insertText tstart
  by_cases hacc : acc = []
  · simp [hacc]
  · simp only [hacc, if_false]
    refine cost_le (span_cost hw _ _) (fun c _ => ?_)
    simp [Steps.insertOp, st]

theorem pushText_cost {acc a : List _} {x : Nat} (hw : weight (pre ++ acc ++ a ++ r) + 8 ≤ M) :
    (Steps.pushText (st src (pre ++ acc ++ a) r eof ops) (tstart pre acc) x).cost ≤ M := by
  unfold Steps.pushText tstart
  by_cases hacc : acc = []
  · simp [hacc]
  · simp only [hacc, if_false]
    exact cost_le (B := 0) (span_cost hw _ _) (fun c _ => Nat.le_refl _)

theorem untilB_none_cons {m} (hs : stopAt eof (t :: r) = false) (h : untilB eof m (t :: r) = none) :
    m t = false ∧ untilB eof m r = none := by
  rw [untilB, if_neg (by simp [hs])] at h
  split at h
  · simp at h
  · rename_i hm
    exact ⟨by simpa using hm, by simpa using h⟩

theorem untilB_none_past {m c} : ∀ {ts b d r}, untilB eof c ts = some (b, d, r) → untilB eof m ts = none →
    untilB eof m r = none := by
  intro ts
  induction ts with
  | nil => intro b d r h; simp [untilB] at h
  | cons t ts ih =>
    intro b d r h hm
    rw [untilB] at h
    split at h
    · simp at h
    · rename_i hs
      obtain ⟨-, h2⟩ := untilB_none_cons (by simpa using hs) hm
      split at h
      · simp only [Option.some.injEq, Prod.mk.injEq] at h
        obtain ⟨-, -, rfl⟩ := h
        exact h2
      · simp only [Option.map_eq_some_iff] at h
        obtain ⟨⟨b', c', r'⟩, h1, h3⟩ := h
        simp only [Prod.mk.injEq] at h3
        obtain ⟨-, rfl, rfl⟩ := h3
        exact ih h1 h2

theorem delimB_none_past {m o c n} {d : Delim} (hs : stopAt eof ts = false)
    (h : delimB o c n eof ts = some (d, r)) (hm : untilB eof m ts = none) : untilB eof m r = none := by
  cases ts with
  | nil => simp [delimB] at h
  | cons t ts =>
    rw [delimB] at h
    split at h
    · simp only [Option.map_eq_some_iff] at h
      obtain ⟨⟨b', c', r'⟩, h1, h3⟩ := h
      simp only [Prod.mk.injEq] at h3
      obtain ⟨-, rfl⟩ := h3
      exact untilB_none_past h1 (untilB_none_cons hs hm).2
    · simp at h

/-- What a failing scan may still cost, unless one has failed already. -/
def pot (M : Nat) (failed : Bool) (ts : List Token) : Nat := if failed then 0 else M * (ts.length + 1)

theorem pot_mono {f : Bool} (h : r.length ≤ ts.length) : pot M f r ≤ pot M f ts := by
  unfold pot
  split
  · exact Nat.le_refl _
  · exact Nat.mul_le_mul_left M (by omega)

/-- A failing scan is paid by the potential; after it the closing token is known to be missing. -/
theorem delim_fail {o n} {f : Bool} (hs : stopAt eof (t :: r) = false)
    (h : delimB o o n eof (t :: r) = none) (hf : f = true → untilB eof o (t :: r) = none) :
    ∃ f' : Bool, delimCost M o (t :: r) (delimB o o n eof (t :: r)) + pot M f' r ≤ 1 + pot M f (t :: r)
      ∧ (f' = true → untilB eof o r = none) := by
  rw [h]
  by_cases ho : ¬ o t = true
  · refine ⟨f, ?_, fun hh => (untilB_none_cons hs (hf hh)).2⟩
    have := pot_mono (M := M) (f := f) (r := r) (ts := t :: r) (by simp)
    rw [delimCost_no (by simpa [tokenIs] using ho)]
    omega
  · have ho : o t = true := by simpa using ho
    refine ⟨true, ?_, fun _ => ?_⟩
    · rw [delimCost_yes (by simpa [tokenIs] using ho)]
      cases f with
      | true =>
        have := (untilB_none_cons hs (hf rfl)).1
        rw [ho] at this
        cases this
      | false => simp [pot]
    · rw [delimB, if_pos ho] at h
      simpa using h

theorem boldLoop_cost : ∀ {n ts pre acc ops} (fs fi : Bool), ts.length < n → Good src acc → Good src ts →
    Fit M (pre ++ acc ++ ts) eof →
    (fs = true → untilB eof isTilde2 ts = none) → (fi = true → untilB eof isUnderscore ts = none) →
    (Steps.boldLoop n (st src (pre ++ acc) ts eof ops) (tstart pre acc)).cost
      ≤ M * (8 * (ts.length + 1)) + pot M fs ts + pot M fi ts := by
  intro n
  induction n with
  | zero => intro ts pre acc ops fs fi hn; omega
  | succ n ih =>
    intro ts pre acc ops fs fi hn hacc hts hfit hfs hfi
    have hM := hfit.len
    have hst := hfit.stops
    rw [Steps.boldLoop, cost_tick, st_peek]
    cases ts with
    | nil =>
      simp only [List.getElem?_nil, cost_pure, List.length_nil]
      have e : M * (8 * (0 + 1)) = 8 * M := by omega
      rw [e]
      omega
    | cons t r =>
      have e8 : M * (8 * ((t :: r).length + 1)) = M * (8 * (r.length + 1)) + 8 * M := by
        simp only [List.length_cons, Nat.mul_add, Nat.mul_left_comm M 8]; omega
      simp only [List.getElem?_cons_zero, atEof_bind]
      cases hs : stopAt eof (t :: r) with
      | true =>
        simp only [if_true, cost_pure]
        omega
      | false =>
        simp only [Bool.false_eq_true, if_false, st_pos, st_ops]
        cases hstar : isStar2 t with
        | true =>
          simp only [st_eat_yes _ hstar]
          have h1 := pushText_cost (M := M) (src := src) (pre := pre) (acc := acc) (a := [t]) (r := r) (eof := eof)
            (ops := ops) (x := (pre ++ acc).length) (by simpa using hfit.tokens)
          have hv := pushText_eq (src := src) (pre := pre) (acc := acc) (a := [t]) (r := r) (eof := eof)
            (ops := ops) (x := (pre ++ acc).length) rfl hacc
          rw [← Steps.pushText_val] at hv
          rw [cost_ok hv]
          have h2 := span_cost (M := M) (p := st src (pre ++ acc ++ [t]) r eof (ops ++ accOps src acc))
            (by simpa using hfit.tokens) (pre ++ acc).length ((pre ++ acc).length + 1)
          have h3 := cost_le (B := 0) (f := fun c => (pure (true,
            (st src (pre ++ acc ++ [t]) r eof (ops ++ accOps src acc)).push (.close .Bold c)) : Counted (Bool × P)))
            h2 (fun _ _ => Nat.le_refl _)
          omega
        | false =>
          simp only [st_eat_no _ hstar]
          have hv := val_of (f := Steps.orElse Steps.strikethrough Steps.italic) (pre := pre ++ acc) (eof := eof)
            (ops := ops) (Steps.orElse_val _ _ _ _ Steps.strikethrough_val Steps.italic_val) boldChild_refines hts
          have hc1 : (Steps.strikethrough (st src (pre ++ acc) (t :: r) eof ops)).cost
              ≤ delimCost M isTilde2 (t :: r) (strikeB eof (t :: r)) := delimited_cost hfit
          have hc2 : (Steps.italic (st src (pre ++ acc) (t :: r) eof ops)).cost
              ≤ delimCost M isUnderscore (t :: r) (italicB eof (t :: r)) := delimited_cost hfit
          cases hc : boldChildB eof (t :: r) with
          | none =>
            have hsn : strikeB eof (t :: r) = none := by
              unfold boldChildB at hc; split at hc <;> simp_all
            have hin : italicB eof (t :: r) = none := by
              unfold boldChildB at hc; split at hc <;> simp_all
            have hcost := orElse_cost_st (f2 := Steps.italic) Steps.strikethrough_val strike_refines hts hc1 hc2
            obtain ⟨fs', p1, q1⟩ := delim_fail (M := M) (n := .Strikethrough) hs hsn hfs
            obtain ⟨fi', p2, q2⟩ := delim_fail (M := M) (n := .Italic) hs hin hfi
            rw [hc] at hv
            rw [cost_ok hv]
            simp only
            rw [st_next_cons, tstart_snoc pre acc t]
            have := ih (ts := r) (pre := pre) (acc := acc ++ [t]) (ops := ops) fs' fi' (by simp at hn; omega)
              (hacc.append hts.single) hts.tail (hfit.eq (by simp)) q1 q2
            simp only [← List.append_assoc] at this
            unfold strikeB at hcost
            unfold italicB at hcost
            omega
          | some x =>
            obtain ⟨d, r'⟩ := x
            have hl := boldChildB_length hc
            have htk := boldChildB_toks hc
            have hg : Good src (d.toks ++ r') := by rw [← htk]; exact hts
            have hlen : (t :: r).length = d.toks.length + r'.length := by rw [htk]; simp
            have hd2 : 2 ≤ d.toks.length := by rw [delim_toks_length]; omega
            have hcost : (Steps.orElse Steps.strikethrough Steps.italic (st src (pre ++ acc) (t :: r) eof ops)).cost
                ≤ M * (d.toks.length + 3) + 1 ∧ (∀ m, untilB eof m (t :: r) = none → untilB eof m r' = none) := by
              unfold boldChildB at hc
              cases hsb : strikeB eof (t :: r) with
              | some y =>
                rw [hsb] at hc
                simp only [Option.some.injEq] at hc
                subst hc
                refine ⟨?_, fun m hm => delimB_none_past hs hsb hm⟩
                rw [hsb] at hc1
                refine Nat.le_trans (orElse_cost (B := 0) hc1 ?_) (by simp [delimCost])
                intro q hq
                rw [val_of Steps.strikethrough_val strike_refines hts, hsb] at hq
                simp at hq
              | none =>
                rw [hsb] at hc
                simp only at hc
                refine ⟨?_, fun m hm => delimB_none_past hs hc hm⟩
                have hu : isUnderscore t = true := by
                  unfold italicB at hc
                  rw [delimB] at hc
                  split at hc
                  · assumption
                  · cases hc
                have ht2 : isTilde2 t = false := by
                  simp only [isUnderscore, Bool.and_eq_true, decide_eq_true_eq] at hu
                  simp [isTilde2, hu.1]
                rw [hsb] at hc1
                rw [hc] at hc2
                simp only [delimCost, tokenIs, List.getElem?_cons_zero, ht2, Bool.false_eq_true, if_false] at hc1 hc2
                have := orElse_cost_st (f2 := Steps.italic) Steps.strikethrough_val strike_refines hts hc1 hc2
                omega
            rw [hc] at hv
            rw [cost_ok hv]
            simp only
            have hi := insertText_cost (M := M) (src := src) (pre := pre) (acc := acc) (a := d.toks) (r := r')
              (eof := eof) (ops := ops) (n := d.ops src) (x := (pre ++ acc).length) (y := ops.length)
              (by have := hfit.tokens; rw [htk] at this; simpa using this) rfl
            have hiv := insertText_eq (src := src) (pre := pre) (acc := acc) (a := d.toks) (r := r')
              (eof := eof) (ops := ops) (n := d.ops src) (x := (pre ++ acc).length) (y := ops.length) rfl rfl hacc
            rw [← Steps.insertText_val] at hiv
            rw [cost_ok hiv]
            have := ih (ts := r') (pre := pre ++ acc ++ d.toks) (acc := []) (ops := ops ++ (accOps src acc ++ d.ops src))
              fs fi (by simp at hn hl ⊢; omega) Good.nil hg.append_right (hfit.eq (by rw [htk]; simp))
              (fun h => hcost.2 _ (hfs h)) (fun h => hcost.2 _ (hfi h))
            simp only [List.append_nil, tstart, if_true] at this
            have h3 : (d.ops src).length = 3 := rfl
            rw [h3] at hi
            have hp1 := pot_mono (M := M) (f := fs) (r := r') (ts := t :: r) (by omega)
            have hp2 := pot_mono (M := M) (f := fi) (r := r') (ts := t :: r) (by omega)
            have e1 : M * (8 * ((t :: r).length + 1)) = M * (8 * (r'.length + 1)) + 7 * (M * d.toks.length)
                + M * d.toks.length := by
              rw [hlen]
              simp only [Nat.mul_add, Nat.mul_left_comm M 8]; omega
            have e2 : M * 2 ≤ M * d.toks.length := Nat.mul_le_mul_left M hd2
            have e3 : M * (d.toks.length + 3) = M * d.toks.length + 3 * M := by
              simp only [Nat.mul_add]; omega
            have hc0 := hcost.1
            omega

theorem bold_cost (hf : Fit M (pre ++ ts) eof) (hg : Good src ts) :
    (Steps.bold (st src pre ts eof ops)).cost ≤ M * (10 * ts.length + 2) := by
  unfold Steps.bold
  have hlen := hf.len
  rw [cost_tick]
  cases ts with
  | nil => rw [st_eat_nil]; simp only [cost_pure, List.length_nil]; omega
  | cons t r =>
    cases ho : isStar2 t with
    | false => rw [st_eat_no _ ho]; simp only [cost_pure, List.length_cons, Nat.mul_add]; omega
    | true =>
      rw [st_eat_yes _ ho]
      have hw : weight (pre ++ [t] ++ r) + 8 ≤ M := by simpa using hf.tokens
      have hB : ∀ o', (Steps.boldLoop ((st src (pre ++ [t]) r eof ops).tokens.length + 1)
          (st src (pre ++ [t]) r eof o') none).cost ≤ M * (8 * (r.length + 1)) + M * (r.length + 1) + M * (r.length + 1) := by
        intro o'
        have := boldLoop_cost (M := M) (src := src) (eof := eof) (n := (st src (pre ++ [t]) r eof ops).tokens.length + 1)
          (ts := r) (pre := pre ++ [t]) (acc := []) (ops := o') false false (by simp [st]; omega) Good.nil hg.tail
          (hf.eq (by simp)) (by simp) (by simp)
        simpa [tstart, pot] using this
      refine Nat.le_trans (Nat.add_le_add_left (cost_le (A := M) (B := M * (8 * (r.length + 1)) + M * (r.length + 1)
        + M * (r.length + 1) + 0) (span_cost hw _ _) ?_) 1) ?_
      · intro c _
        refine cost_le (hB _) ?_
        rintro ⟨_ | _, q⟩ _ <;> exact Nat.le_refl _
      · simp only [List.length_cons, Nat.mul_add, Nat.mul_left_comm M 8, Nat.mul_left_comm M 10]
        omega

theorem inline_cost (hf : Fit M (pre ++ ts) eof) (hg : Good src ts) :
    (Steps.inline (st src pre ts eof ops)).cost ≤ 16 * (M * M) := by
  have hlen := hf.len
  have h1 := orElse_cost_st (src := src) (ops := ops) Steps.codeSpan_val codeSpan_refines hg
    (show (Steps.codeSpan (st src pre ts eof ops)).cost ≤ M * (ts.length + 3) from delimited_cost' hf)
    (show (Steps.emphasis (st src pre ts eof ops)).cost ≤ M * (ts.length + 3) from delimited_cost' hf)
  have h2 := orElse_cost_st Steps.anchor_val anchor_refines hg (anchor_cost hf hg) h1
  have h3 := orElse_cost_st Steps.bold_val bold_refines hg (bold_cost hf hg) h2
  have h4 := orElse_cost_st Steps.italic_val italic_refines hg
    (show (Steps.italic (st src pre ts eof ops)).cost ≤ M * (ts.length + 3) from delimited_cost' hf) h3
  have h5 := orElse_cost_st Steps.strikethrough_val strike_refines hg
    (show (Steps.strikethrough (st src pre ts eof ops)).cost ≤ M * (ts.length + 3) from delimited_cost' hf) h4
  refine Nat.le_trans h5 ?_
  have hn : ts.length + 8 ≤ M := by simp only [List.length_append] at hlen; omega
  have e : M * (ts.length + 3) + (M * (ts.length + 3) + (M * (10 * ts.length + 2) + (M * (2 * ts.length + 9) +
      (M * (ts.length + 3) + M * (ts.length + 3))))) = M * (16 * ts.length + 23) := by
    simp only [Nat.mul_add, Nat.mul_left_comm M 10, Nat.mul_left_comm M 2, Nat.mul_left_comm M 16]; omega
  rw [e, Nat.mul_left_comm]
  exact Nat.mul_le_mul_left M (by omega)

/-! ### Paragraphs and headings -/

theorem square_ge (h : 8 ≤ M) : 8 * M ≤ M * M := Nat.mul_le_mul_right M h

theorem paragraphLoop_cost : ∀ {n ts pre acc ops}, ts.length < n → Good src acc → Good src ts →
    Fit M (pre ++ acc ++ ts) eof →
    (Steps.paragraphLoop n (st src (pre ++ acc) ts eof ops) (tstart pre acc)).cost
      ≤ 17 * (M * M) * (ts.length - (paraB eof acc ts).2.length + 1) := by
  intro n
  induction n with
  | zero => intro ts pre acc ops hn; omega
  | succ n ih =>
    intro ts pre acc ops hn hacc hts hfit
    have hM := hfit.len
    have hst := hfit.stops
    have hQ := square_ge (M := M) (by omega)
    rw [Steps.paragraphLoop, cost_tick, atEof_bind]
    cases hs : stopAt eof ts with
    | true =>
      simp only [if_true, cost_pure]
      rw [paraB_stop hs, Nat.sub_self]
      omega
    | false =>
      simp only [if_false, Bool.false_eq_true, st_pos, st_ops]
      have hc1 := inline_cost (ops := ops) hfit hts
      have hv := val_of (pre := pre ++ acc) (eof := eof) (ops := ops) Steps.inline_val inline_refines hts
      cases hc : inlineB eof ts with
      | none =>
        rw [hc] at hv
        rw [cost_ok hv]
        simp only
        cases ts with
        | nil => simp [stopAt] at hs
        | cons t r =>
          rw [paraB_none hs hc]
          rw [st_next_cons, st_pos, tstart_snoc pre acc t]
          have := ih (ts := r) (pre := pre) (acc := acc ++ [t]) (ops := ops) (by simp at hn; omega)
            (hacc.append hts.single) hts.tail (hfit.eq (by simp))
          have hle := paraB_le (stops := eof) (acc := acc ++ [t]) _ (Nat.le_refl r.length)
          simp only [← List.append_assoc] at this
          have e : (t :: r).length - (paraB eof (acc ++ [t]) r).2.length + 1
              = (r.length - (paraB eof (acc ++ [t]) r).2.length + 1) + 1 := by simp only [List.length_cons]; omega
          rw [e, Nat.mul_add _ _ 1]
          omega
      | some x =>
        obtain ⟨d, r'⟩ := x
        rw [hc] at hv
        rw [cost_ok hv]
        simp only
        have hl := inlineB_length hc
        have htk := inlineB_toks hc
        have hg : Good src (d.toks ++ r') := by rw [← htk]; exact hts
        rw [paraB_some hs hc]
        have hi := insertText_cost (M := M) (src := src) (pre := pre) (acc := acc) (a := d.toks) (r := r')
          (eof := eof) (ops := ops) (n := d.ops src) (x := (pre ++ acc).length) (y := ops.length)
          (by have := hfit.tokens; rw [htk] at this; simpa using this) rfl
        have hiv := insertText_eq (src := src) (pre := pre) (acc := acc) (a := d.toks) (r := r')
          (eof := eof) (ops := ops) (n := d.ops src) (x := (pre ++ acc).length) (y := ops.length) rfl rfl hacc
        rw [← Steps.insertText_val] at hiv
        rw [cost_ok hiv]
        have := ih (ts := r') (pre := pre ++ acc ++ d.toks) (acc := [])
          (ops := ops ++ (accOps src acc ++ d.ops src)) (by omega) Good.nil hg.append_right
          (hfit.eq (by rw [htk]; simp))
        simp only [List.append_nil, tstart, if_true] at this
        have hcount := inl_count (src := src) (inlineB_ok hc).1
        have hdl : d.toks.length + 8 ≤ M := by
          rw [htk] at hM; simp only [List.length_append] at hM; omega
        have hle := paraB_length eof r'
        have e : ts.length - (paraB eof [] r').2.length + 1
            = (r'.length - (paraB eof [] r').2.length + 1) + 1 + (ts.length - r'.length - 1) := by omega
        rw [e, Nat.mul_add _ _ (ts.length - r'.length - 1), Nat.mul_add _ _ 1]
        have := Nat.zero_le (17 * (M * M) * (ts.length - r'.length - 1))
        omega

theorem paragraph_cost (hf : Fit M (pre ++ ts) eof) (hg : Good src ts) :
    (Steps.paragraph (st src pre ts eof ops)).cost
      ≤ 18 * (M * M) * (ts.length - (paraB eof [] ts).2.length + 1) := by
  unfold Steps.paragraph
  have hM := hf.len
  have hQ := square_ge (M := M) (by omega)
  rw [cost_tick, st_push]
  have h := paragraphLoop_cost (M := M) (src := src) (eof := eof)
    (n := (st src pre ts eof ops).tokens.length + 1) (ts := ts) (pre := pre) (acc := [])
    (ops := ops ++ [.start .Paragraph emptyContent]) (by simp [st]; omega) Good.nil hg (hf.eq (by simp))
  obtain ⟨p', a', o', h1, h2, h3, h4⟩ := paragraphLoop_eq (src := src) (eof := eof)
    (n := (st src pre ts eof ops).tokens.length + 1) (ts := ts) (pre := pre) (acc := [])
    (ops := ops ++ [.start .Paragraph emptyContent]) (by simp [st]; omega) Good.nil hg
  have htoks := paraB_toks (stops := eof) (acc := []) _ (Nat.le_refl ts.length)
  rw [← Steps.paragraphLoop_val] at h1
  simp only [List.append_nil] at h h1
  rw [show (none : Option Nat) = tstart pre [] from rfl, cost_ok h1]
  have hp := pushText_cost (M := M) (src := src) (pre := p') (acc := a') (a := []) (eof := eof) (ops := o')
    (r := (paraB eof [] ts).2) (x := (p' ++ a').length)
    (by have := hf.tokens; rw [List.append_nil, h2, List.append_assoc, ← htoks]; simpa using this)
  simp only [List.append_nil] at hp
  have h5 := cost_le (B := 0) (f := fun q => (pure ((), q.push (.close .Paragraph emptyContent)) : Counted (Unit × P)))
    hp (fun _ _ => Nat.le_refl _)
  simp only [st_pos] at h5 ⊢
  have e : 18 * (M * M) * (ts.length - (paraB eof [] ts).2.length + 1)
      = 17 * (M * M) * (ts.length - (paraB eof [] ts).2.length + 1)
        + M * M * (ts.length - (paraB eof [] ts).2.length + 1) := by
    rw [← Nat.add_mul]; congr 1; omega
  have e2 : M * M * (ts.length - (paraB eof [] ts).2.length + 1)
      = M * M * (ts.length - (paraB eof [] ts).2.length) + M * M := by rw [Nat.mul_add, Nat.mul_one]
  rw [e, e2]
  omega

theorem headB_length (ts : List Token) : (headB eof [] ts).2.length ≤ ts.length := by
  have := headB_toks (stops := eof) (acc := []) _ (Nat.le_refl ts.length)
  simp only [List.nil_append] at this
  conv => rhs; rw [this]
  simp

theorem headB_le : ∀ (acc ts : List Token), (headB eof acc ts).2.length ≤ ts.length := by
  intro acc ts
  have := congrArg List.length (headB_toks (stops := eof) (acc := acc) _ (Nat.le_refl ts.length))
  induction hn : ts.length using Nat.strongRecOn generalizing acc ts with
  | _ n ih =>
    subst hn
    cases ts with
    | nil => rw [headB_stop rfl]; simp
    | cons t r =>
      cases hs : stopAt eof (t :: r) with
      | true => rw [headB_stop hs]; simp
      | false =>
        cases hc : linkB eof (t :: r) with
        | none =>
          rw [headB_none hs hc]
          have := ih r.length (by simp) (acc ++ [t]) r
            (congrArg List.length (headB_toks (stops := eof) (acc := acc ++ [t]) _ (Nat.le_refl r.length))) rfl
          simp; omega
        | some x =>
          rw [headB_some hs hc]
          have hl := linkB_length hc
          have := ih x.2.length hl [] x.2
            (congrArg List.length (headB_toks (stops := eof) (acc := []) _ (Nat.le_refl x.2.length))) rfl
          simp only
          omega

theorem headingLoop_cost : ∀ {n ts pre acc ops}, ts.length < n → Good src acc → Good src ts →
    Fit M (pre ++ acc ++ ts) eof →
    (Steps.headingLoop n (st src (pre ++ acc) ts eof ops) (tstart pre acc)).cost
      ≤ 3 * (M * M) * (ts.length - (headB eof acc ts).2.length + 1) := by
  intro n
  induction n with
  | zero => intro ts pre acc ops hn; omega
  | succ n ih =>
    intro ts pre acc ops hn hacc hts hfit
    have hM := hfit.len
    have hst := hfit.stops
    have hQ := square_ge (M := M) (by omega)
    rw [Steps.headingLoop, cost_tick, st_peek]
    cases ts with
    | nil =>
      simp only [List.getElem?_nil, cost_pure, List.length_nil]
      rw [headB_stop rfl]
      simp only [List.length_nil, Nat.sub_self, Nat.zero_add, Nat.mul_one]
      omega
    | cons t r =>
    simp only [List.getElem?_cons_zero, atEof_bind]
    cases hs : stopAt eof (t :: r) with
    | true =>
      simp only [if_true, cost_pure]
      rw [headB_stop hs, Nat.sub_self]
      omega
    | false =>
      simp only [if_false, Bool.false_eq_true, st_pos, st_ops]
      have hc0 := anchor_cost (ops := ops) hfit hts
      have hc1 : (Steps.anchor (st src (pre ++ acc) (t :: r) eof ops)).cost ≤ 2 * (M * M) := by
        refine Nat.le_trans hc0 ?_
        rw [Nat.mul_left_comm]
        refine Nat.mul_le_mul_left M ?_
        simp only [List.length_append] at hM
        omega
      have hv := val_of (pre := pre ++ acc) (eof := eof) (ops := ops) Steps.anchor_val anchor_refines hts
      cases hc : linkB eof (t :: r) with
      | none =>
        rw [hc] at hv
        rw [cost_ok hv]
        simp only
        rw [headB_none hs hc]
        rw [st_next_cons, tstart_snoc pre acc t]
        have := ih (ts := r) (pre := pre) (acc := acc ++ [t]) (ops := ops) (by simp at hn; omega)
          (hacc.append hts.single) hts.tail (hfit.eq (by simp))
        have hle := headB_le (eof := eof) (acc ++ [t]) r
        simp only [← List.append_assoc] at this
        have e : (t :: r).length - (headB eof (acc ++ [t]) r).2.length + 1
            = (r.length - (headB eof (acc ++ [t]) r).2.length + 1) + 1 := by simp only [List.length_cons]; omega
        rw [e, Nat.mul_add _ _ 1]
        omega
      | some x =>
        obtain ⟨d, r'⟩ := x
        rw [hc] at hv
        rw [cost_ok hv]
        simp only
        have hl := linkB_length hc
        have htk := linkB_toks hc
        have hg : Good src (d.toks ++ r') := by rw [← htk]; exact hts
        rw [headB_some hs hc]
        have hi := insertText_cost (M := M) (src := src) (pre := pre) (acc := acc) (a := d.toks) (r := r')
          (eof := eof) (ops := ops) (n := anchorOps src d) (x := (pre ++ acc).length) (y := ops.length)
          (by have := hfit.tokens; rw [htk] at this; simpa using this) rfl
        have hiv := insertText_eq (src := src) (pre := pre) (acc := acc) (a := d.toks) (r := r')
          (eof := eof) (ops := ops) (n := anchorOps src d) (x := (pre ++ acc).length) (y := ops.length) rfl rfl hacc
        rw [← Steps.insertText_val] at hiv
        rw [cost_ok hiv]
        have := ih (ts := r') (pre := pre ++ acc ++ d.toks) (acc := [])
          (ops := ops ++ (accOps src acc ++ anchorOps src d)) (by omega) Good.nil hg.append_right
          (hfit.eq (by rw [htk]; simp))
        simp only [List.append_nil, tstart, if_true] at this
        have h8 : (anchorOps src d).length = 8 := rfl
        rw [h8] at hi
        have hle := headB_length (eof := eof) r'
        have e : (t :: r).length - (headB eof [] r').2.length + 1
            = (r'.length - (headB eof [] r').2.length + 1) + 1 + ((t :: r).length - r'.length - 1) := by omega
        rw [e, Nat.mul_add _ _ ((t :: r).length - r'.length - 1), Nat.mul_add _ _ 1]
        have := Nat.zero_le (3 * (M * M) * ((t :: r).length - r'.length - 1))
        omega

/-- The cost of `heading`; one step when there is none. -/
theorem heading_cost (hf : Fit M (pre ++ ts) eof) (hg : Good src ts) :
    (Steps.heading (st src pre ts eof ops)).cost
      ≤ 4 * (M * M) * (ts.length - (headB eof [] (ts.drop 2)).2.length + 1) := by
  unfold Steps.heading
  have hM := hf.len
  have hQ := square_ge (M := M) (by omega)
  rw [cost_tick]
  cases h : (tokenIs ts 0 isHash && tokenIs ts 1 isSpace1) with
  | false =>
    rw [eatSeq2_no h]
    simp only [cost_pure, Nat.mul_add]
    omega
  | true =>
    simp only [Bool.and_eq_true] at h
    rw [eatSeq2_yes h.1 h.2]
    have hpre : pre ++ ts.take 2 ++ ts.drop 2 = pre ++ ts := by simp
    have hw : weight (pre ++ ts.take 2 ++ ts.drop 2) + 8 ≤ M := by rw [hpre]; exact hf.tokens
    have hsp := span_cost (M := M) (p := st src (pre ++ ts.take 2) (ts.drop 2) eof ops) hw pre.length (pre.length + 2)
    have hlen : (ts.drop 2).length ≤ ts.length := by simp
    have hB : ∀ o' : List Op, (do
        let (textStart, q) ← Steps.headingLoop ((st src (pre ++ ts.take 2) (ts.drop 2) eof ops).tokens.length + 1)
          (st src (pre ++ ts.take 2) (ts.drop 2) eof o') none
        let q ← Steps.pushText q textStart q.pos
        pure (true, q.push (.close .Heading emptyContent)) : Counted (Bool × P)).cost
          ≤ 3 * (M * M) * ((ts.drop 2).length - (headB eof [] (ts.drop 2)).2.length + 1) + M := by
      intro o'
      have hh := headingLoop_cost (M := M) (src := src) (eof := eof)
        (n := (st src (pre ++ ts.take 2) (ts.drop 2) eof ops).tokens.length + 1) (ts := ts.drop 2)
        (pre := pre ++ ts.take 2) (acc := []) (ops := o') (by simp [st]; omega) Good.nil (hg.drop 2) (hf.eq (by simp))
      obtain ⟨p', a', o'', h1, h2, h3, h4⟩ := headingLoop_eq (src := src) (eof := eof)
        (n := (st src (pre ++ ts.take 2) (ts.drop 2) eof ops).tokens.length + 1) (ts := ts.drop 2)
        (pre := pre ++ ts.take 2) (acc := []) (ops := o') (by simp [st]; omega) Good.nil (hg.drop 2)
      have htoks := headB_toks (stops := eof) (acc := []) _ (Nat.le_refl (ts.drop 2).length)
      rw [← Steps.headingLoop_val] at h1
      simp only [List.append_nil] at hh h1
      rw [show (none : Option Nat) = tstart (pre ++ ts.take 2) [] from rfl, cost_ok h1]
      have hp := pushText_cost (M := M) (src := src) (pre := p') (acc := a') (a := []) (eof := eof) (ops := o'')
        (r := (headB eof [] (ts.drop 2)).2) (x := (p' ++ a').length)
        (by
          have := hf.tokens
          rw [List.append_nil, h2, List.append_assoc, ← htoks]
          simpa using this)
      simp only [List.append_nil] at hp
      have h5 := cost_le (B := 0) (f := fun q => (pure (true, q.push (.close .Heading emptyContent)) : Counted (Bool × P)))
        hp (fun _ _ => Nat.le_refl _)
      simp only [st_pos] at h5 ⊢
      omega
    refine Nat.le_trans (Nat.add_le_add_left (cost_le hsp (fun c _ => hB _)) 1) ?_
    have e : 4 * (M * M) * (ts.length - (headB eof [] (ts.drop 2)).2.length + 1)
        = 3 * (M * M) * (ts.length - (headB eof [] (ts.drop 2)).2.length + 1)
          + (M * M * (ts.length - (headB eof [] (ts.drop 2)).2.length) + M * M) := by
      rw [← Nat.mul_succ, ← Nat.add_mul]; congr 1; omega
    have e2 := Nat.mul_le_mul_left (3 * (M * M)) (show (ts.drop 2).length - (headB eof [] (ts.drop 2)).2.length + 1
      ≤ ts.length - (headB eof [] (ts.drop 2)).2.length + 1 by omega)
    rw [e]
    omega

end Yamd.Ref
