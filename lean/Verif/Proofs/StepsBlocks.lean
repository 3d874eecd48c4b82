import Verif.Proofs.StepsInline
import Verif.Proofs.RefineList

/-!
# Bounds on the number of steps: the blocks
-/

namespace Yamd.Ref

open Yamd Counted

variable {α β : Type} {src : Str} {pre ts r : List Token} {eof : List Stop} {ops : List Op} {t : Token} {M : Nat}


theorem eatUntil_cost' {m} (he : eofCost eof + 2 ≤ M) :
    (Steps.eatUntil (st src pre ts eof ops) m).cost ≤ M * (ts.length + 1) := by
  refine Nat.le_trans (eatUntil_cost he) (Nat.mul_le_mul_left M ?_)
  cases h : untilB eof m ts with
  | none => exact Nat.le_refl _
  | some x =>
    obtain ⟨b, c, r⟩ := x
    have := congrArg List.length (untilB_length h)
    simp only [scanned, List.length_append, List.length_cons] at *
    omega

theorem modifier_cost (hf : Fit M (pre ++ ts) eof) :
    (Steps.modifier (st src pre ts eof ops)).cost ≤ M * (ts.length + 4) := by
  unfold Steps.modifier
  have hM := hf.len
  have hw := hf.tokens
  rw [cost_tick, st_atTok]
  cases h : tokenIs ts 0 col0 with
  | true => simp only [if_true, cost_pure, Nat.mul_add]; omega
  | false =>
    simp only [Bool.false_eq_true, if_false]
    have h1 := eatUntil_cost' (M := M) (src := src) (pre := pre) (ts := ts) (eof := eof) (ops := ops)
      (m := isEolOrTerminator) hf.stops
    refine Nat.le_trans (Nat.add_le_add_left (cost_le (B := M + (M + 0)) h1 ?_) 1) ?_
    · intro a ha
      rw [eatUntil_val'] at ha
      cases hu : untilB eof isEolOrTerminator ts with
      | none => rw [hu] at ha; cases ha; exact Nat.zero_le _
      | some x =>
        obtain ⟨b, c, r⟩ := x
        rw [hu] at ha; cases ha
        have hw' : weight (st src (pre ++ (b ++ [c])) r eof ops).tokens + 8 ≤ M := by
          show weight (pre ++ (b ++ [c]) ++ r) + 8 ≤ M
          rw [untilB_length hu] at hw; simpa using hw
        exact cost_le (span_cost hw' _ _) (fun _ _ => cost_le (span_cost hw' _ _) (fun _ _ => Nat.le_refl _))
    · simp only [Nat.mul_add]; omega

theorem mod_val (hts : Good src ts) : ∃ b, (Steps.modifier (st src pre ts eof ops)).val
    = .ok (b, st src (pre ++ modToks (optModB eof ts).1) (optModB eof ts).2 eof
        (ops ++ modOps src (optModB eof ts).1)) := by
  rw [Steps.modifier_val]; exact optMod_eq hts

theorem closeLine_cost {k e} (hf : eofCost eof + 2 ≤ M) :
    (Steps.closeLine (st src pre ts eof ops) k e).cost ≤ M := by
  unfold Steps.closeLine
  cases h : tokenIs ts 0 isEol with
  | true =>
    cases ts with
    | nil => simp [tokenIs] at h
    | cons t r =>
      rw [st_eat_yes _ (by simpa [tokenIs] using h)]
      exact Nat.zero_le _
  | false =>
    rw [st_eat_none _ h]
    simp only
    refine Nat.le_trans (cost_le (A := 1 + eofCost eof) (B := 0) (Nat.le_refl _) ?_) (by omega)
    intro a _
    cases a <;> exact Nat.le_refl _

theorem codeTail_cost {start snap scan} (hf : Fit M (pre ++ ts) eof) :
    (Steps.codeTail start snap scan (st src pre ts eof ops)).cost ≤ 3 * M := by
  unfold Steps.codeTail
  cases scan with
  | none => exact Nat.zero_le _
  | some x =>
    obtain ⟨b, k, e⟩ := x
    refine Nat.le_trans (cost_le (B := M + (M + 0)) (closeLine_cost hf.stops) ?_) (by omega)
    intro a ha
    obtain ⟨c, q⟩ := a
    cases c with
    | none => exact Nat.zero_le _
    | some y =>
      have hq : weight q.tokens + 8 ≤ M := by
        rw [Steps.closeLine_val] at ha
        have : q.tokens = (st src pre ts eof ops).tokens := by
          unfold closeLine at ha
          cases h : tokenIs ts 0 isEol with
          | true =>
            cases ts with
            | nil => simp [tokenIs] at h
            | cons t r =>
              rw [st_eat_yes _ (by simpa [tokenIs] using h)] at ha
              cases ha; simp
          | false =>
            rw [st_eat_none _ h] at ha
            simp only at ha
            split at ha <;> cases ha <;> rfl
        rw [this]; exact hf.tokens
      exact cost_le (span_cost hq _ _) (fun _ _ => cost_le (span_cost hq _ _) (fun _ _ => Nat.le_refl _))

theorem withNoStops_cost {f : P → Counted (α × P)} {g : α × P → Counted β} {p : P} {A B : Nat}
    (h1 : (f { p with eof := [] }).cost ≤ A)
    (h2 : ∀ a q, (f { p with eof := [] }).val = .ok (a, q) → (g (a, { q with eof := p.eof })).cost ≤ B) :
    (Steps.withNoStops p f >>= g).cost ≤ A + B := by
  refine cost_le (Nat.le_trans (cost_le (B := 0) h1 (fun _ _ => Nat.le_refl _)) (Nat.le_refl _)) ?_
  intro a ha
  unfold Steps.withNoStops at ha
  rw [val_bind] at ha
  cases hv : (f { p with eof := [] }).val with
  | error e => rw [hv] at ha; cases ha
  | ok x =>
    obtain ⟨x, q⟩ := x
    rw [hv] at ha
    cases ha
    exact h2 x q hv

theorem withEof_cost {f : P → Counted (α × P)} {g : α × P → Counted β} {p : P} {c : Stop} {A B : Nat}
    (h1 : (f { p with eof := c :: p.eof }).cost ≤ A)
    (h2 : ∀ a q, (f { p with eof := c :: p.eof }).val = .ok (a, q) → (g (a, { q with eof := q.eof.tail })).cost ≤ B) :
    (Steps.withEof p c f >>= g).cost ≤ A + B := by
  refine cost_le (Nat.le_trans (cost_le (B := 0) h1 (fun _ _ => Nat.le_refl _)) (Nat.le_refl _)) ?_
  intro a ha
  unfold Steps.withEof at ha
  rw [val_bind] at ha
  cases hv : (f { p with eof := c :: p.eof }).val with
  | error e => rw [hv] at ha; cases ha
  | ok x =>
    obtain ⟨x, q⟩ := x
    rw [hv] at ha
    cases ha
    exact h2 x q hv

theorem withEofs2_cost {f : P → Counted (α × P)} {g : α × P → Counted β} {p : P} {c d : Stop} {A B : Nat}
    (h1 : (f { p with eof := d :: c :: p.eof }).cost ≤ A)
    (h2 : ∀ a q, (f { p with eof := d :: c :: p.eof }).val = .ok (a, q) →
      (g (a, { q with eof := q.eof.tail.tail })).cost ≤ B) :
    (Steps.withEofs2 p c d f >>= g).cost ≤ A + B := by
  refine cost_le (Nat.le_trans (cost_le (B := 0) h1 (fun _ _ => Nat.le_refl _)) (Nat.le_refl _)) ?_
  intro a ha
  unfold Steps.withEofs2 at ha
  rw [val_bind] at ha
  cases hv : (f { p with eof := d :: c :: p.eof }).val with
  | error e => rw [hv] at ha; cases ha
  | ok x =>
    obtain ⟨x, q⟩ := x
    rw [hv] at ha
    cases ha
    exact h2 x q hv

theorem noStops (hM : 8 ≤ M) : eofCost [] + 2 ≤ M := by simp [eofCost]; omega

theorem eat_cost {m} (hf : Fit M (pre ++ ts) eof) {g : Option (Nat × Nat × Nat) × P → Counted β} {B : Nat}
    (h : ∀ s pre' r', pre' ++ r' = pre ++ ts → (g (s, st src pre' r' eof ops)).cost ≤ B) :
    (Steps.eatUntil (st src pre ts eof ops) m >>= g).cost ≤ M * M + B := by
  have hM := hf.len
  rw [List.length_append] at hM
  refine cost_le (Nat.le_trans (eatUntil_cost' hf.stops) (Nat.mul_le_mul_left M (by omega))) ?_
  intro a ha
  rw [eatUntil_val'] at ha
  cases hu : untilB eof m ts with
  | none => rw [hu] at ha; cases ha; exact h _ _ _ rfl
  | some x =>
    obtain ⟨b, c, r⟩ := x
    rw [hu] at ha; cases ha
    exact h _ _ _ (by rw [untilB_length hu]; simp)

theorem codeScan_cost {w} (hw : weight (pre ++ ts) + 8 ≤ M) (hg : Good src ts) :
    (Steps.codeScan w (st src pre ts [] ops)).cost ≤ M * (2 * ts.length + 5) := by
  have hf : Fit M (pre ++ ts) [] := ⟨hw, noStops (by omega)⟩
  unfold Steps.codeScan
  cases w with
  | false =>
    simp only [Bool.false_eq_true, if_false]
    refine Nat.le_trans (Nat.le_of_eq (cost_ok (a := st src pre ts [] ops) rfl)) ?_
    simp only [cost_pure, Nat.zero_add]
    refine Nat.le_trans (eatUntil_cost' hf.stops) (Nat.mul_le_mul_left M (by omega))
  | true =>
    obtain ⟨b, hb⟩ := mod_val (src := src) (pre := pre) (eof := []) (ops := ops) hg
    have htk := congrArg List.length (optModB_toks [] ts)
    rw [List.length_append] at htk
    have h1 := modifier_cost (src := src) (ops := ops) hf
    have h2 := eatUntil_cost' (M := M) (src := src) (pre := pre ++ modToks (optModB [] ts).1)
      (ts := (optModB [] ts).2) (eof := []) (ops := ops ++ modOps src (optModB [] ts).1) (m := isBacktick3) hf.stops
    have e : (Steps.modifier (st src pre ts [] ops) >>= fun x =>
        (pure x.2 : Counted P)).val = .ok (st src (pre ++ modToks (optModB [] ts).1) (optModB [] ts).2 []
        (ops ++ modOps src (optModB [] ts).1)) := by
      rw [val_bind, hb]; rfl
    have ec : (Steps.modifier (st src pre ts [] ops) >>= fun x =>
        (pure x.2 : Counted P)).cost = (Steps.modifier (st src pre ts [] ops)).cost := by
      rw [cost_ok hb]; rfl
    simp only [if_true]
    rw [cost_ok e, ec]
    refine Nat.le_trans (Nat.add_le_add h1 h2) ?_
    rw [← Nat.mul_add]
    exact Nat.mul_le_mul_left M (by omega)

theorem codeScan_state {w} {s q} (h : (Steps.codeScan w (st src pre ts [] ops)).val = .ok (s, q)) (hg : Good src ts) :
    ∃ pre' r' o', q = st src pre' r' [] o' ∧ pre' ++ r' = pre ++ ts := by
  rw [Steps.codeScan_val] at h
  unfold codeScan at h
  have key : ∀ {pre' r' o'}, pre' ++ r' = pre ++ ts → (st src pre' r' [] o').eatUntil isBacktick3 = .ok (s, q) →
      ∃ pre' r' o', q = st src pre' r' [] o' ∧ pre' ++ r' = pre ++ ts := by
    intro pre' r' o' he hq
    rw [eatUntil_eq] at hq
    cases hu : untilB [] isBacktick3 r' with
    | none => rw [hu] at hq; cases hq; exact ⟨_, _, _, rfl, he⟩
    | some x =>
      obtain ⟨b, c, r''⟩ := x
      rw [hu] at hq; cases hq
      exact ⟨_, _, _, rfl, by rw [← he, untilB_length hu]; simp⟩
  cases w with
  | false => exact key rfl h
  | true =>
    obtain ⟨b, hb⟩ := optMod_eq (src := src) (pre := pre) (eof := []) (ops := ops) hg
    simp only [if_true, hb, bind, Except.bind, pure, Except.pure] at h
    exact key (by rw [List.append_assoc, ← optModB_toks]) h

theorem code_cost (hf : Fit M (pre ++ ts) eof) (hg : Good src ts) :
    (Steps.code (st src pre ts eof ops)).cost ≤ 3 * (M * M) := by
  have hM := hf.len
  have hQ := square_ge (M := M) (by omega)
  have body : ∀ (a e : Nat) {pre' r' : List Token}, pre' ++ r' = pre ++ ts → Good src r' →
      (do
        let c ← Steps.span (st src pre' r' eof ops) a e
        let (scan, q) ← Steps.withNoStops ((st src pre' r' eof ops).push (.start .Code c))
          (Steps.codeScan (!(tokenIs (st src pre' r' eof ops).tokens (e - 1) isEol)))
        Steps.codeTail pre.length ops.length scan q).cost ≤ 2 * (M * M) + 2 * M := by
    intro a e pre' r' he hg'
    have hw : weight (pre' ++ r') + 8 ≤ M := by rw [he]; exact hf.tokens
    refine Nat.le_trans (cost_le (span_cost (M := M) (p := st src pre' r' eof ops) hw a e)
      (B := M * (2 * r'.length + 5) + 3 * M) ?_) ?_
    · intro c _
      refine withNoStops_cost (codeScan_cost hw hg') ?_
      intro s q hq
      obtain ⟨p2, r2, o2, rfl, h2⟩ := codeScan_state hq hg'
      exact codeTail_cost (pre := p2) (ts := r2) (ops := o2) ((hf.eq he).eq h2)
    · have hl := congrArg List.length he
      simp only [List.length_append] at hl hM
      have := Nat.mul_le_mul_left M (show 2 * r'.length + 5 + 10 ≤ 2 * M by omega)
      rw [Nat.mul_add M _ 10, Nat.mul_left_comm M 2 M] at this
      omega
  unfold Steps.code
  rw [cost_tick]
  cases ts with
  | nil =>
    rw [eatSeq2_no (by simp [tokenIs])]
    simp only
    rw [st_eat_nil]; simp only [cost_pure]; omega
  | cons t r =>
    cases h : isBacktick3 t with
    | false =>
      rw [eatSeq2_no (by simp [tokenIs, h])]
      simp only
      rw [st_eat_no _ h]; simp only [cost_pure]; omega
    | true =>
      have h0 : tokenIs (t :: r) 0 isBacktick3 = true := by simp [tokenIs, h]
      cases h1 : tokenIs (t :: r) 1 isEol with
      | true =>
        rw [eatSeq2_yes h0 h1]
        have := body pre.length (pre.length + 2) (pre' := pre ++ (t :: r).take 2) (r' := (t :: r).drop 2)
          (by rw [List.append_assoc, List.take_append_drop]) (hg.drop 2)
        simp only [st_pos, st_ops] at this ⊢
        omega
      | false =>
        rw [eatSeq2_no (by simp [h1])]
        simp only
        rw [st_eat_yes _ h]
        have := body pre.length (pre.length + 1) (pre' := pre ++ [t]) (r' := r) (by simp) hg.tail
        simp only [st_pos, st_ops] at this ⊢
        omega

theorem closeLine_state {k e s q} (h : (Steps.closeLine (st src pre ts eof ops) k e).val = .ok (s, q)) :
    ∃ pre' r', q = st src pre' r' eof ops ∧ pre' ++ r' = pre ++ ts := by
  rw [Steps.closeLine_val] at h
  unfold closeLine at h
  cases ht : tokenIs ts 0 isEol with
  | true =>
    cases ts with
    | nil => simp [tokenIs] at ht
    | cons t r =>
      rw [st_eat_yes _ (by simpa [tokenIs] using ht)] at h
      cases h
      exact ⟨_, _, rfl, by simp⟩
  | false =>
    rw [st_eat_none _ ht] at h
    simp only at h
    split at h <;> cases h <;> exact ⟨_, _, rfl, rfl⟩

theorem embed_cost (hf : Fit M (pre ++ ts) eof) :
    (Steps.embed (st src pre ts eof ops)).cost ≤ 3 * (M * M) := by
  have hM := hf.len
  have hQ := square_ge (M := M) (by omega)
  unfold Steps.embed
  rw [cost_tick]
  cases ts with
  | nil => rw [st_eat_nil]; simp only [cost_pure]; omega
  | cons t r =>
    cases h : isLeftCurly2 t with
    | false => rw [st_eat_no _ h]; simp only [cost_pure]; omega
    | true =>
      rw [st_eat_yes _ h]
      simp only
      have f1 : Fit M (pre ++ [t] ++ r) eof := hf.eq (by simp)
      refine Nat.le_trans (Nat.add_le_add_left (eat_cost f1 (B := M * M + (M + (M + (M + (M + (M + (M + 0))))))) ?_) 1)
        (by omega)
      intro s p1 r1 e1
      rcases s with _ | ⟨la, lk, le⟩
      · exact Nat.zero_le _
      simp only
      refine eat_cost (f1.eq e1) ?_
      intro s p2 r2 e2
      rcases s with _ | ⟨ra, rk, re⟩
      · exact Nat.zero_le _
      simp only
      refine cost_le (closeLine_cost f1.stops) ?_
      intro a ha
      obtain ⟨s, q⟩ := a
      obtain ⟨p3, r3, rfl, e3⟩ := closeLine_state ha
      rcases s with _ | ⟨k, e⟩
      · exact Nat.zero_le _
      simp only
      have hw : weight (st src p3 r3 eof ops).tokens + 8 ≤ M := ((f1.eq e1).eq e2).eq e3 |>.tokens
      refine cost_le (span_cost hw _ _) (fun _ _ => cost_le (span_cost hw _ _) (fun _ _ =>
        cost_le (span_cost hw _ _) (fun _ _ => cost_le (span_cost hw _ _) (fun _ _ =>
        cost_le (span_cost hw _ _) (fun _ _ => Nat.le_refl _)))))

theorem image_cost (hf : Fit M (pre ++ ts) eof) (hg : Good src ts) :
    (Steps.image (st src pre ts eof ops)).cost ≤ 2 * (M * M) := by
  have hM := hf.len
  have hQ := square_ge (M := M) (by omega)
  have hst := hf.stops
  unfold Steps.image
  rw [cost_tick]
  cases ts with
  | nil => rw [st_eat_nil]; simp only [cost_pure]; omega
  | cons t r =>
    cases h : isBang1 t with
    | false => rw [st_eat_no _ h]; simp only [cost_pure]; omega
    | true =>
      rw [st_eat_yes _ h]
      simp only
      have f1 : Fit M (pre ++ [t] ++ r) eof := hf.eq (by simp)
      have hr : r.length + 9 ≤ M := by simp only [List.length_append, List.length_cons] at hM; omega
      refine Nat.le_trans (Nat.add_le_add_left (cost_le (span_cost (p := st src (pre ++ [t]) r eof ops) f1.tokens _ _)
        (B := M * (r.length + 3) + (M * (r.length + 5) + 2 * M)) ?_) 1) ?_
      · intro c _
        rw [st_push]
        refine cost_le (delimited_cost' f1) ?_
        intro a ha
        have hv := val_of (pre := pre ++ [t]) (eof := eof) (ops := ops ++ [.start .Image c]) Steps.title_val title_refines hg.tail
        rw [hv] at ha
        cases ht : titleB eof r with
        | none => rw [ht] at ha; cases ha; exact Nat.zero_le _
        | some x =>
          obtain ⟨d, r1⟩ := x
          rw [ht] at ha; cases ha
          have tk := delimB_toks ht
          have hg1 : Good src (d.toks ++ r1) := by rw [← tk]; exact hg.tail
          have hl : r1.length ≤ r.length := by rw [tk, List.length_append]; omega
          have f2 : Fit M (pre ++ [t] ++ d.toks ++ r1) eof := f1.eq (by rw [tk]; simp)
          simp only
          refine cost_le (Nat.le_trans (destination_cost f2) (Nat.mul_le_mul_left M (by omega))) ?_
          intro a ha
          have hv := val_of (pre := pre ++ [t] ++ d.toks) (eof := eof)
            (ops := ops ++ [.start .Image c] ++ d.ops src) Steps.destination_val destination_refines hg1.append_right
          rw [hv] at ha
          cases hd : destB eof r1 with
          | none => rw [hd] at ha; cases ha; exact Nat.zero_le _
          | some x =>
            obtain ⟨d', r2⟩ := x
            rw [hd] at ha; cases ha
            have tk2 := destB_toks hd
            have f3 : Fit M (pre ++ [t] ++ d.toks ++ d'.toks ++ r2) eof := f2.eq (by rw [tk2]; simp)
            simp only
            cases he : tokenIs r2 0 isEol with
            | true =>
              cases r2 with
              | nil => simp [tokenIs] at he
              | cons u r2 =>
                rw [st_eat_yes _ (by simpa [tokenIs] using he)]
                simp only
                refine Nat.le_trans (cost_le (B := 0) (span_cost (M := M) ?_ _ _) (fun _ _ => Nat.le_refl _)) (by omega)
                show weight (pre ++ [t] ++ d.toks ++ d'.toks ++ [u] ++ r2) + 8 ≤ M
                have := f3.tokens
                simpa using this
            | false =>
              rw [st_eat_none _ he]
              simp only [atEof_bind]
              cases stopAt eof r2 <;> simp only [if_true, Bool.false_eq_true, if_false, cost_pure] <;> omega
      · have := Nat.mul_le_mul_left M (show r.length + 3 + (r.length + 5) + 4 ≤ 2 * M by omega)
        rw [Nat.mul_add M _ 4, Nat.mul_add M (r.length + 3), Nat.mul_left_comm M 2 M] at this
        omega

theorem imagesLoop_cost {start snap : Nat} : ∀ {n ts pre count ops}, ts.length < n → Good src ts →
    Fit M (pre ++ ts) eof →
    (Steps.imagesLoop start snap n (st src pre ts eof ops) count).cost ≤ 3 * (M * M) * (ts.length + 1) := by
  intro n
  induction n with
  | zero => intro ts pre count ops hn; omega
  | succ n ih =>
    intro ts pre count ops hn hts hf
    have hM := hf.len
    have hQ := square_ge (M := M) (by omega)
    have hst := hf.stops
    rw [Steps.imagesLoop, cost_tick, st_peek]
    cases ts with
    | nil => simp only [List.getElem?_nil, cost_pure, List.length_nil]; omega
    | cons t r =>
      simp only [List.getElem?_cons_zero]
      have hc := image_cost (ops := ops) hf hts
      have hv := val_of (pre := pre) (eof := eof) (ops := ops) Steps.image_val image_refines hts
      cases hi : imageB eof (t :: r) with
      | none =>
        rw [hi] at hv
        rw [cost_ok hv]
        simp only [atEof_bind]
        have h1 : 3 * (M * M) * 1 ≤ 3 * (M * M) * ((t :: r).length + 1) := Nat.mul_le_mul_left _ (by omega)
        cases stopAt eof (t :: r) <;> simp only [if_true, Bool.false_eq_true, if_false, cost_pure] <;> omega
      | some x =>
        obtain ⟨i, r1⟩ := x
        rw [hi] at hv
        rw [cost_ok hv]
        simp only
        have hl := imageB_length hi
        have tk := imageB_toks hi
        have hg : Good src (i.toks ++ r1) := by rw [← tk]; exact hts
        have := ih (ts := r1) (pre := pre ++ i.toks) (count := count + 1) (ops := ops ++ i.ops src) (by omega) hg.append_right
          (hf.eq (by rw [tk]; simp))
        have h1 : 3 * (M * M) * (r1.length + 1 + 1) ≤ 3 * (M * M) * ((t :: r).length + 1) :=
          Nat.mul_le_mul_left _ (by omega)
        rw [Nat.mul_add _ (r1.length + 1) 1] at h1
        omega

theorem Fit.up {all c} (h : Fit M all (c :: eof)) : Fit M all eof :=
  ⟨h.tokens, by have := h.stops; simp only [eofCost, List.map_cons, List.sum_cons] at *; omega⟩

theorem images_cost (hf : Fit M (pre ++ ts) eof) (hg : Good src ts) :
    (Steps.images (st src pre ts eof ops)).cost ≤ 4 * (M * M * M) := by
  have hM := hf.len
  have hQ := square_ge (M := M) (by omega)
  have hT : 8 * (M * M) ≤ M * M * M := by rw [Nat.mul_comm 8]; exact Nat.mul_le_mul_left _ (by omega)
  rw [List.length_append] at hM
  have h1 := imagesLoop_cost (M := M) (src := src) (eof := eof) (start := pre.length) (snap := ops.length)
    (n := (pre ++ ts).length + 1) (ts := ts) (pre := pre) (count := 0) (ops := ops) (by simp; omega) hg hf
  have h2 := imagesLoop_eq (src := src) (eof := eof) (start := pre.length) (snap := ops.length)
    (n := (pre ++ ts).length + 1) (ts := ts) (pre := pre) (count := 0) (ops := ops) (by simp; omega) hg
    ⟨pre, ts, ops, [], rfl, rfl, rfl, by simp⟩
  rw [← Steps.imagesLoop_val] at h2
  have h3 : 3 * (M * M) * (ts.length + 1) ≤ 3 * (M * M * M) := by
    rw [Nat.mul_assoc]; exact Nat.mul_le_mul_left 3 (Nat.mul_le_mul_left _ (by omega))
  unfold Steps.images
  rw [cost_tick]
  simp only [st_pos, st_ops, st_tokens]
  refine Nat.le_trans (Nat.add_le_add_left (cost_le (B := 2 * M) (Nat.le_trans h1 h3) ?_) 1) (by omega)
  intro a ha
  rw [h2] at ha
  cases hi : imagesB eof ts with
  | none => rw [hi] at ha; cases ha; exact Nat.zero_le _
  | some x =>
    obtain ⟨l, r⟩ := x
    rw [hi] at ha; cases ha
    simp only
    split
    · refine Nat.le_trans (cost_le (B := 0) (A := 2 * M) ?_ (fun _ _ => Nat.le_refl _)) (by omega)
      show 1 + ((ops ++ l.flatMap (Img.ops src)).length - ops.length) ≤ _
      have hc := flatMap_count (l := l) (f := Img.ops src) (g := Img.toks) (k := 2)
        (fun x _ => by have := img_count (src := src) x; omega)
      have hl := congrArg List.length (imagesB_toks _ (Nat.le_refl _) hi)
      simp only [List.length_append] at hl ⊢
      omega
    · exact Nat.zero_le _

theorem thematic_cost (hf : Fit M (pre ++ ts) eof) :
    (Steps.thematicBreak (st src pre ts eof ops)).cost ≤ M * M := by
  have hM := hf.len
  have hQ := square_ge (M := M) (by omega)
  unfold Steps.thematicBreak
  rw [cost_tick]
  cases ts with
  | nil => rw [st_eat_nil]; simp only [cost_pure]; omega
  | cons t r =>
    cases h : isDash5 t with
    | false => rw [st_eat_no _ h]; simp only [cost_pure]; omega
    | true =>
      rw [st_eat_yes _ h]
      simp only
      refine Nat.le_trans (Nat.add_le_add_left (cost_le (B := 0) (span_cost (M := M) ?_ _ _) (fun _ _ => Nat.le_refl _)) 1)
        (by omega)
      show weight (pre ++ [t] ++ r) + 8 ≤ M
      have := hf.tokens
      simpa using this

theorem icon_cost (hf : Fit M (pre ++ ts) eof) :
    (Steps.icon (st src pre ts eof ops)).cost ≤ 2 * (M * M) := by
  have hM := hf.len
  have hQ := square_ge (M := M) (by omega)
  unfold Steps.icon
  rw [cost_tick]
  cases h : (tokenIs ts 0 isOneBang && tokenIs ts 1 isSpace1) with
  | false => rw [eatSeq2_no h]; simp only [cost_pure]; omega
  | true =>
    simp only [Bool.and_eq_true] at h
    rw [eatSeq2_yes h.1 h.2]
    simp only
    have e : pre ++ ts.take 2 ++ ts.drop 2 = pre ++ ts := by rw [List.append_assoc, List.take_append_drop]
    refine Nat.le_trans (Nat.add_le_add_left (eat_cost (hf.eq e) (B := 3 * M + 0) ?_) 1) (by omega)
    intro s p1 r1 e1
    rcases s with _ | ⟨la, lk, le⟩
    · exact Nat.zero_le _
    · exact cost_le (pushTriple_cost ((hf.eq e).eq e1).tokens _ _ _ _) (fun _ _ => Nat.le_refl _)

theorem eatTerminator_cost (hf : Fit M (pre ++ ts) eof) :
    (Steps.eatTerminator (st src pre ts eof ops)).cost ≤ M := by
  unfold Steps.eatTerminator
  cases h : tokenIs ts 0 isTerminator with
  | false => rw [st_eat_none _ h]; exact Nat.zero_le _
  | true =>
    cases ts with
    | nil => simp [tokenIs] at h
    | cons t r =>
      rw [st_eat_yes _ (by simpa [tokenIs] using h)]
      refine Nat.le_trans (cost_le (B := 0) (span_cost (M := M) ?_ _ _) (fun _ _ => Nat.le_refl _)) (by omega)
      show weight (pre ++ [t] ++ r) + 8 ≤ M
      have := hf.tokens
      simpa using this

theorem eatTerminator_val' (hts : Good src ts) : (Steps.eatTerminator (st src pre ts eof ops)).val
    = .ok (st src (pre ++ (termB ts).1) (termB ts).2 eof (ops ++ termOps src (termB ts).1)) := by
  rw [Steps.eatTerminator_val]
  unfold termB eatTerminator
  cases ht : tokenIs ts 0 isTerminator with
  | false => rw [st_eat_none _ ht]; simp [pure, Except.pure, termOps]
  | true =>
    cases ts with
    | nil => simp [tokenIs] at ht
    | cons t r =>
      have ht' : isTerminator t = true := by simpa [tokenIs] using ht
      rw [st_eat_yes _ ht']
      simp only [bind, Except.bind]
      rw [st_spanAt (a := pre) (b := [t]) (c := r) (by simp) rfl (by simp) hts.single]
      simp [pure, Except.pure, st_push, termOps]

theorem highlightLoop_cost : ∀ {n ts pre ops}, ts.length < n → Good src ts →
    Fit M (pre ++ ts) (.Terminator :: .HighlightEnd :: eof) →
    (Steps.highlightLoop n (st src pre ts eof ops)).cost ≤ 38 * (M * M) * (ts.length + 1) := by
  intro n
  induction n with
  | zero => intro ts pre ops hn; omega
  | succ n ih =>
    intro ts pre ops hn hts hf
    have hM := hf.len
    have hQ := square_ge (M := M) (by omega)
    have hf0 := hf.up.up
    have hst := hf0.stops
    have hone : 38 * (M * M) ≤ 38 * (M * M) * (ts.length + 1) := Nat.le_mul_of_pos_right _ (by omega)
    rw [Steps.highlightLoop, cost_tick, atEof_bind]
    cases hs : stopAt eof ts with
    | true => simp only [if_true, cost_pure]; omega
    | false =>
      simp only [Bool.false_eq_true, if_false]
      cases hb : tokenIs ts 0 isTwoBangs with
      | true =>
        cases ts with
        | nil => simp [stopAt] at hs
        | cons t r =>
          rw [st_eat_yes _ (by simpa [tokenIs] using hb)]
          simp only
          have hs : ∀ (p1 r1 : List Token) (a e : Nat), p1 ++ r1 = pre ++ t :: r → (do
              let c ← Steps.span (st src p1 r1 eof ops) a e
              pure (true, (st src p1 r1 eof ops).push (.close .Highlight c)) : Counted (Bool × P)).cost ≤ M + 0 := by
            intro p1 r1 a e h
            exact cost_le (span_cost (hf.eq h).tokens _ _) (fun _ _ => Nat.le_refl _)
          cases he : tokenIs r 0 isEol with
          | false =>
            rw [st_eat_none _ he]
            simp only
            have := hs (pre ++ [t]) r pre.length (pre.length + 1) (by simp)
            omega
          | true =>
            cases r with
            | nil => simp [tokenIs] at he
            | cons u r =>
              rw [st_eat_yes _ (by simpa [tokenIs] using he)]
              simp only
              have := hs (pre ++ [t] ++ [u]) r pre.length ((pre ++ [t]).length + 1) (by simp)
              omega
      | false =>
        rw [st_eat_none _ hb]
        simp only
        have hlt := hl_progress hs hb
        have tk1 := termB_toks ts
        have tk2 := paraB_toks (stops := .Terminator :: .HighlightEnd :: eof) (acc := [])
            _ (Nat.le_refl (termB ts).2.length)
        simp only [List.nil_append] at tk2
        have hg : Good src ((termB ts).1 ++ (termB ts).2) := by rw [← tk1]; exact hts
        have hg2 : Good src (paraB (.Terminator :: .HighlightEnd :: eof) [] (termB ts).2).2 := by
          have := hg.append_right; rw [tk2] at this; exact this.append_right
        have hf1 : Fit M (pre ++ (termB ts).1 ++ (termB ts).2) (.Terminator :: .HighlightEnd :: eof) :=
          hf.eq (by rw [List.append_assoc, ← tk1])
        rw [cost_ok (eatTerminator_val' hts)]
        have hpc := paragraph_cost (ops := ops ++ termOps src (termB ts).1) hf1 hg.append_right
        have htc := eatTerminator_cost (src := src) (ops := ops) hf0
        have hle : (termB ts).2.length ≤ ts.length := by
          have := congrArg List.length tk1
          rw [List.length_append] at this; omega
        have hle2 := paraB_length (.Terminator :: .HighlightEnd :: eof) (termB ts).2
        generalize hR : (paraB (.Terminator :: .HighlightEnd :: eof) [] (termB ts).2).2 = R at *
        refine Nat.le_trans (Nat.add_le_add_left (Nat.add_le_add_left (Nat.add_le_add htc (withEofs2_cost hpc
          (B := 38 * (M * M) * (R.length + 1)) ?_)) _) 1) ?_
        · intro a q hq
          rw [Steps.paragraph_val] at hq
          have := paragraph_eq (src := src) (pre := pre ++ (termB ts).1) (eof := .Terminator :: .HighlightEnd :: eof)
            (ops := ops ++ termOps src (termB ts).1) hg.append_right
          rw [show ({ st src (pre ++ (termB ts).1) (termB ts).2 eof (ops ++ termOps src (termB ts).1) with
            eof := .Terminator :: .HighlightEnd :: (st src (pre ++ (termB ts).1) (termB ts).2 eof (ops ++ termOps src (termB ts).1)).eof } : P)
            = st src (pre ++ (termB ts).1) (termB ts).2 (.Terminator :: .HighlightEnd :: eof) (ops ++ termOps src (termB ts).1) from rfl,
            this] at hq
          cases hq
          rw [hR]
          simp only
          split
          · exact ih (by omega) hg2 (hf.eq (by rw [List.append_assoc, ← tk2, List.append_assoc, ← tk1]))
          · exact Nat.zero_le _
        · have e : ts.length + 1 = (R.length + 1) + (ts.length - R.length) := by omega
          rw [e, Nat.mul_add _ (R.length + 1)]
          have h1 : 18 * (M * M) * ((termB ts).2.length - R.length + 1) ≤ 18 * (M * M) * (2 * (ts.length - R.length)) :=
            Nat.mul_le_mul_left _ (by omega)
          have h2 : 2 * (M * M) * 1 ≤ 2 * (M * M) * (ts.length - R.length) := Nat.mul_le_mul_left _ (by omega)
          have e2 : 38 * (M * M) * (ts.length - R.length) = 18 * (M * M) * (2 * (ts.length - R.length))
              + 2 * (M * M) * (ts.length - R.length) := by
            generalize M * M = q
            generalize ts.length - R.length = d
            rw [Nat.mul_assoc, Nat.mul_assoc, Nat.mul_assoc, Nat.mul_left_comm q 2 d]; omega
          omega

theorem hlTail_cost (hf : Fit M (pre ++ ts) (.Terminator :: .HighlightEnd :: eof)) (hg : Good src ts)
    {start snap : Nat} :
    (do
      let (_, q) ← Steps.withEof (st src pre ts eof ops) .Terminator Steps.icon
      if !(q.atTok col0) then pure (false, q.restore start snap)
      else
        match ← Steps.highlightLoop (q.tokens.length + 1) q with
        | (true, q) => pure (true, q)
        | (false, q) => pure (false, q.restore start snap) : Counted (Bool × P)).cost
      ≤ 2 * (M * M) + 38 * (M * M * M) := by
  have hM := hf.len
  rw [List.length_append] at hM
  have hfi : Fit M (pre ++ ts) (.Terminator :: eof) :=
    ⟨hf.tokens, by have := hf.stops; simp only [eofCost, List.map_cons, List.sum_cons] at *; omega⟩
  refine withEof_cost (icon_cost hfi) ?_
  intro a q hq
  rw [Steps.icon_val] at hq
  obtain ⟨b, hb⟩ := optIcon_eq (src := src) (pre := pre) (ts := ts) (eof := .Terminator :: eof) (ops := ops) hg
  have tk := optIconB_toks (.Terminator :: eof) ts
  rw [show ({ st src pre ts eof ops with eof := .Terminator :: (st src pre ts eof ops).eof } : P)
    = st src pre ts (.Terminator :: eof) ops from rfl, hb] at hq
  cases hq
  have hg2 : Good src (optIconB (.Terminator :: eof) ts).2 := by
    have := hg; rw [tk] at this; exact this.append_right
  have hl := congrArg List.length tk
  rw [List.length_append] at hl
  simp only
  split
  · exact Nat.zero_le _
  · have := highlightLoop_cost (M := M) (src := src) (eof := eof)
      (n := (pre ++ iconToks (optIconB (.Terminator :: eof) ts).1 ++ (optIconB (.Terminator :: eof) ts).2).length + 1)
      (ts := (optIconB (.Terminator :: eof) ts).2) (pre := pre ++ iconToks (optIconB (.Terminator :: eof) ts).1)
      (ops := ops ++ iconOps src (optIconB (.Terminator :: eof) ts).1) (by simp; omega) hg2
      (hf.eq (by rw [List.append_assoc, ← tk]))
    have h3 : 38 * (M * M) * ((optIconB (.Terminator :: eof) ts).2.length + 1) ≤ 38 * (M * M * M) := by
      rw [Nat.mul_assoc]; exact Nat.mul_le_mul_left 38 (Nat.mul_le_mul_left _ (by omega))
    refine Nat.le_trans (cost_le (B := 0) (Nat.le_trans this h3) ?_) (by omega)
    intro a _
    rcases a with ⟨_ | _, q⟩ <;> exact Nat.le_refl _

theorem highlight_cost (hf : Fit M (pre ++ ts) (.Terminator :: .HighlightEnd :: eof)) (hg : Good src ts) :
    (Steps.highlight (st src pre ts eof ops)).cost ≤ 39 * (M * M * M) := by
  have hM := hf.len
  have hQ := square_ge (M := M) (by omega)
  have hT : 8 * (M * M) ≤ M * M * M := by rw [Nat.mul_comm 8]; exact Nat.mul_le_mul_left _ (by omega)
  rw [List.length_append] at hM
  unfold Steps.highlight
  rw [cost_tick]
  cases h : (tokenIs ts 0 isTwoBangs && tokenIs ts 1 (fun t => isSpace1 t || isEol t)) with
  | false => rw [eatSeq2_no h]; simp only [cost_pure]; omega
  | true =>
    simp only [Bool.and_eq_true] at h
    rw [eatSeq2_yes h.1 h.2]
    simp only
    have e : pre ++ ts.take 2 ++ ts.drop 2 = pre ++ ts := by rw [List.append_assoc, List.take_append_drop]
    have hf1 := hf.eq e
    refine Nat.le_trans (Nat.add_le_add_left (cost_le (span_cost (p := st src (pre ++ ts.take 2) (ts.drop 2) eof ops) hf1.tokens _ _)
      (B := M * M + (2 * (M * M) + 38 * (M * M * M))) ?_) 1) (by omega)
    intro c _
    simp only [st_push]
    split
    · refine Nat.le_trans (Nat.le_of_eq (cost_ok (a := st src (pre ++ ts.take 2) (ts.drop 2) eof (ops ++ [.start .Highlight c])) rfl)) ?_
      simp only [cost_pure, Nat.zero_add]
      exact Nat.le_trans (hlTail_cost hf1 (hg.drop 2)) (by omega)
    · obtain ⟨b, hb⟩ := mod_val (src := src) (pre := pre ++ ts.take 2) (eof := eof) (ops := ops ++ [.start .Highlight c]) (hg.drop 2)
      have tk := optModB_toks eof (ts.drop 2)
      have hg2 : Good src (optModB eof (ts.drop 2)).2 := by
        have := hg.drop 2; rw [tk] at this; exact this.append_right
      have h1 := modifier_cost (src := src) (ops := ops ++ [.start .Highlight c]) hf1.up.up
      have h2 : M * ((ts.drop 2).length + 4) ≤ M * M := Nat.mul_le_mul_left _ (by simp; omega)
      rw [cost_ok (a := st src (pre ++ ts.take 2 ++ modToks (optModB eof (ts.drop 2)).1) (optModB eof (ts.drop 2)).2 eof
        (ops ++ [.start .Highlight c] ++ modOps src (optModB eof (ts.drop 2)).1)) (by rw [val_bind, hb]; rfl), cost_ok hb]
      simp only [cost_pure, Nat.add_zero]
      refine Nat.add_le_add (Nat.le_trans h1 h2) (hlTail_cost (hf1.eq ?_) hg2)
      rw [List.append_assoc, ← tk]

/-- What follows the marker of an item. -/
def itemTail (fuel level : Nat) (k : ListKind) (q : P) : Counted (Option ListKind × P) := do
  let (_, q) ← Steps.withEof q (.ListBoundary level k) Steps.paragraph
  let q ← if ← Steps.atEof q then pure q
    else (do let (_, q) ← Steps.listInner fuel (level + 1) q; pure q)
  pure (some k, q.push (.close .ListItem emptyContent))

theorem listItem_cost_head {fuel level want B} (hf : Fit M (pre ++ ts) eof)
    (h : ∀ k m r c, markerB level want ts = some (k, m, r) →
      (itemTail fuel level k (st src (pre ++ m) r eof (ops ++ [.start .ListItem c]))).cost ≤ B) :
    (Steps.listItem (fuel + 1) level want (st src pre ts eof ops)).cost
      ≤ match markerB level want ts with
        | none => 1
        | some _ => 1 + (M + B) := by
  rw [Steps.listItem, cost_tick, st_atTok]
  revert h
  unfold markerB
  cases hc : tokenIs ts 0 col0 with
  | false => simp
  | true =>
    simp only [Bool.not_true, Bool.false_eq_true, if_false, if_true]
    by_cases hl : level = 0
    · subst hl
      simp only [if_true, P.get, st_pos]
      rw [show pre.length + 0 = pre.length + 0 from rfl, st_get 0]
      cases ht : ts[0]? with
      | none => simp [tokenIs, ht] at hc
      | some t =>
        simp only
        cases hk : ListKind.tryFrom t with
        | none =>
          have : (tokenIs ts 0 (isListMarker want) && tokenIs ts 1 isSpace1) = false := by
            simp [tokenIs, ht, isListMarker_none hk]
          simp [this]
        | some k =>
          simp only
          cases hs : (tokenIs ts 0 (isListMarker want) && tokenIs ts 1 isSpace1) with
          | false => rw [eatSeq2_no hs]; simp
          | true =>
            have hs' := hs
            simp only [Bool.and_eq_true] at hs'
            rw [eatSeq2_yes hs'.1 hs'.2]
            simp only [if_true, Option.bind_some, hk, Option.map_some]
            intro h
            refine Nat.add_le_add_left (cost_le (span_cost (M := M) ?_ _ _) ?_) 1
            · show weight (pre ++ ts.take 2 ++ ts.drop 2) + 8 ≤ M
              rw [List.append_assoc, List.take_append_drop]; exact hf.tokens
            · intro c _
              simp only [st_push]
              exact h k _ _ c rfl
    · simp only [hl, if_false, P.get, st_pos]
      rw [st_get 1]
      cases ht : ts[1]? with
      | none => simp [tokenIs, ht]
      | some t =>
        simp only
        cases hk : ListKind.tryFrom t with
        | none =>
          have : tokenIs ts 1 (isListMarker want) = false := by
            simp [tokenIs, ht, isListMarker_none hk]
          simp [this]
        | some k =>
          simp only
          cases hs : (tokenIs ts 0 (fun t => t.kind = .Space && t.len = level) && tokenIs ts 1 (isListMarker want) && tokenIs ts 2 isSpace1) with
          | false => rw [eatSeq3_no hs]; simp
          | true =>
            have hs' := hs
            simp only [Bool.and_eq_true] at hs'
            rw [eatSeq3_yes hs'.1.1 hs'.1.2 hs'.2]
            simp only [if_true, Option.bind_some, hk, Option.map_some]
            intro h
            refine Nat.add_le_add_left (cost_le (span_cost (M := M) ?_ _ _) ?_) 1
            · show weight (pre ++ ts.take 3 ++ ts.drop 3) + 8 ≤ M
              rw [List.append_assoc, List.take_append_drop]; exact hf.tokens
            · intro c _
              simp only [st_push]
              exact h k _ _ c rfl

end Yamd.Ref
