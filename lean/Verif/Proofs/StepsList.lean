import Verif.Proofs.StepsBlocks
import Verif.Proofs.TreeOk

/-!
# Bounds on the number of steps: lists and leaf blocks
-/

namespace Yamd.Ref

open Yamd Counted

variable {α β : Type} {src : Str} {pre ts r : List Token} {eof : List Stop} {ops : List Op} {t : Token} {M : Nat}

/-- Room for the stop conditions of the list levels that may still be opened. -/
def Room (M : Nat) (eof : List Stop) (level : Nat) (ts : List Token) : Prop := eofCost eof + level + ts.length + 6 ≤ M

theorem Room.fit {all level k} (h : Fit M all eof) (hr : Room M eof level ts) : Fit M all (.ListBoundary level k :: eof) :=
  ⟨h.tokens, by
    unfold Room at hr
    simp only [eofCost, List.map_cons, List.sum_cons, Stop.cost] at *
    omega⟩

theorem item_facts {level want k m} (hm : markerB level want ts = some (k, m, r)) :
    (itemPara eof level k r).2.length + 2 ≤ ts.length ∧
    (itemNested eof level (itemPara eof level k r).2).2.length ≤ (itemPara eof level k r).2.length ∧
    r.length + 2 ≤ ts.length ∧ (itemPara eof level k r).2.length ≤ r.length ∧
    ts = m ++ (paraToks (itemPara eof level k r).1 ++ (itemPara eof level k r).2) := by
  have h1 := markerB_toks hm
  have h2 : (itemPara eof level k r).2.length ≤ r.length := paraB_length (.ListBoundary level k :: eof) r
  have h3 : ts.length = m.length + r.length := by
    conv => lhs; rw [h1.1]
    simp
  have h4 := itemNested_le eof level (itemPara eof level k r).2
  have e1 : r = paraToks (itemPara eof level k r).1 ++ (itemPara eof level k r).2 :=
    paraB_toks (stops := .ListBoundary level k :: eof) (acc := []) _ (Nat.le_refl _)
  refine ⟨by omega, by omega, by omega, h2, ?_⟩
  rw [← e1]; exact h1.1

theorem nested_toks {level : Nat} (x : List Token) : x = (itemNested eof level x).1.toks ++ (itemNested eof level x).2 := by
  unfold itemNested
  split
  · simp [Items.toks]
  · exact itemsB_toks _ (Nat.le_refl _)

theorem nested_good {level want k m} (hm : markerB level want ts = some (k, m, r)) (hts : Good src ts) :
    Good src (itemNested eof level (itemPara eof level k r).2).2 := by
  have h2 := hts
  rw [(item_facts (eof := eof) hm).2.2.2.2] at h2
  have h3 := h2.append_right.append_right
  rw [nested_toks (eof := eof) (level := level) (itemPara eof level k r).2] at h3
  exact h3.append_right

theorem itemOps_count (hT : .Terminator ∈ eof) {level want k m} (hm : markerB level want ts = some (k, m, r)) (c d : Op) :
    (c :: (paraOps src (itemPara eof level k r).1 ++
      ((itemNested eof level (itemPara eof level k r).2).1.listOps src ++ [d]))).length ≤ 2 * ts.length + 6 := by
  have h1 := para_count (src := src) (paraB_ok (stops := .ListBoundary level k :: eof) (List.mem_cons_of_mem _ hT) [] r
    (fun _ h => by cases h)).1
  have h2 : ((itemNested eof level (itemPara eof level k r).2).1.listOps src).length
      ≤ 2 * (itemNested eof level (itemPara eof level k r).2).1.toks.length + 2 := by
    unfold itemNested
    split
    · simp [Items.listOps, wrapList, Items.kind]
    · exact list_count (itemsB_ok hT (level + 1) none _)
  have h3 := congrArg List.length (item_facts (eof := eof) hm).2.2.2.2
  have h4 := congrArg List.length (nested_toks (eof := eof) (level := level) (itemPara eof level k r).2)
  simp only [List.length_append, List.length_cons, List.length_nil] at h3 h4 ⊢
  change (paraOps src (itemPara eof level k r).1).length ≤ 2 * (paraToks (itemPara eof level k r).1).length + 2 at h1
  omega

theorem list_costs (hT : .Terminator ∈ eof) : ∀ (n : Nat),
    (∀ {ts pre ops fuel level want}, ts.length ≤ n → 2 * ts.length + 1 ≤ fuel → Good src ts →
      Fit M (pre ++ ts) eof → Room M eof level ts →
      (markerB level want ts = none → (Steps.listItem fuel level want (st src pre ts eof ops)).cost ≤ 1) ∧
      (∀ k m r, markerB level want ts = some (k, m, r) →
        (Steps.listItem fuel level want (st src pre ts eof ops)).cost
          + 22 * (M * M) * (itemNested eof level (itemPara eof level k r).2).2.length + 20 * (M * M)
          ≤ 22 * (M * M) * ts.length)) ∧
    (∀ {ts pre ops fuel level want}, ts.length ≤ n → 2 * ts.length + 2 ≤ fuel → Good src ts →
      Fit M (pre ++ ts) eof → Room M eof level ts →
      (Steps.listLoop fuel level want (st src pre ts eof ops)).cost
          + 22 * (M * M) * (itemsB eof level (some want) ts).2.length
        ≤ 22 * (M * M) * ts.length + M * M) ∧
    (∀ {ts pre ops fuel level}, ts.length ≤ n → 2 * ts.length + 2 ≤ fuel → Good src ts →
      Fit M (pre ++ ts) eof → Room M eof level ts →
      (Steps.listInner fuel level (st src pre ts eof ops)).cost
          + 22 * (M * M) * (itemsB eof level none ts).2.length
        ≤ 22 * (M * M) * ts.length + M * M) := by
  intro n
  induction n with
  | zero =>
    have hm : ∀ level want, markerB level want ([] : List Token) = none := by
      intro level want; unfold markerB; simp [tokenIs]
    have item : ∀ {pre ops fuel level want}, 1 ≤ fuel → Fit M (pre ++ []) eof →
        (Steps.listItem fuel level want (st src pre [] eof ops)).cost ≤ 1 := by
      intro pre ops fuel level want hf hfit
      obtain ⟨f, rfl⟩ : ∃ f, fuel = f + 1 := ⟨fuel - 1, by omega⟩
      have := listItem_cost_head (src := src) (fuel := f) (level := level) (want := want) (ops := ops) (B := 0) hfit
        (fun k m r c h => by rw [hm] at h; cases h)
      rwa [hm] at this
    have itemv : ∀ {pre ops fuel level want}, 1 ≤ fuel →
        (Steps.listItem fuel level want (st src pre [] eof ops)).val = .ok (none, st src pre [] eof ops) := by
      intro pre ops fuel level want hf
      obtain ⟨f, rfl⟩ : ∃ f, fuel = f + 1 := ⟨fuel - 1, by omega⟩
      rw [(Steps.listItem_val _).1, listItem_head Good.nil, hm]
    refine ⟨?_, ?_, ?_⟩
    · intro ts pre ops fuel level want hn hf hts hfit hr
      have : ts = [] := by simpa using hn
      subst this
      exact ⟨fun _ => item (by omega) hfit, fun k m r h => by rw [hm] at h; cases h⟩
    · intro ts pre ops fuel level want hn hf hts hfit hr
      have : ts = [] := by simpa using hn
      subst this
      have hM := hfit.len
      have hQ := square_ge (M := M) (by omega)
      obtain ⟨f, rfl⟩ : ∃ f, fuel = f + 1 := ⟨fuel - 1, by omega⟩
      rw [Steps.listLoop, cost_tick, cost_ok (itemv (by simp at hf; omega)), itemsB_none (hm _ _)]
      have := item (pre := pre) (ops := ops) (fuel := f) (level := level) (want := some want) (by simp at hf; omega) hfit
      simp only [cost_pure]
      omega
    · intro ts pre ops fuel level hn hf hts hfit hr
      have : ts = [] := by simpa using hn
      subst this
      have hM := hfit.len
      have hQ := square_ge (M := M) (by omega)
      obtain ⟨f, rfl⟩ : ∃ f, fuel = f + 1 := ⟨fuel - 1, by omega⟩
      rw [Steps.listInner, cost_tick, cost_ok (itemv (by simp at hf; omega)), itemsB_none (hm _ _)]
      have := item (pre := pre) (ops := ops) (fuel := f) (level := level) (want := none) (by simp at hf; omega) hfit
      simp only [cost_pure]
      omega
  | succ n ih =>
    obtain ⟨ih1, ih2, ih3⟩ := ih
    have item : ∀ {ts pre ops fuel level want}, ts.length ≤ n + 1 → 2 * ts.length + 1 ≤ fuel → Good src ts →
        Fit M (pre ++ ts) eof → Room M eof level ts →
        (markerB level want ts = none → (Steps.listItem fuel level want (st src pre ts eof ops)).cost ≤ 1) ∧
        (∀ k m r, markerB level want ts = some (k, m, r) →
          (Steps.listItem fuel level want (st src pre ts eof ops)).cost
            + 22 * (M * M) * (itemNested eof level (itemPara eof level k r).2).2.length + 20 * (M * M)
            ≤ 22 * (M * M) * ts.length) := by
      intro ts pre ops fuel level want hn hf hts hfit hr
      obtain ⟨f, rfl⟩ : ∃ f, fuel = f + 1 := ⟨fuel - 1, by omega⟩
      have hM := hfit.len
      have hQ := square_ge (M := M) (by omega)
      have hst := hfit.stops
      refine ⟨?_, ?_⟩
      · intro hm
        have := listItem_cost_head (src := src) (fuel := f) (level := level) (want := want) (ops := ops) (B := 0) hfit
          (fun k m r c h => by rw [hm] at h; cases h)
        rwa [hm] at this
      · intro k m r hm
        obtain ⟨f1, f2, f3, f4, f5⟩ := item_facts (eof := eof) hm
        have h1 := markerB_toks hm
        have hg : Good src (m ++ (paraToks (itemPara eof level k r).1 ++ (itemPara eof level k r).2)) := by
          rw [← f5]; exact hts
        have hgr : Good src r := by have := hts; rw [h1.1] at this; exact this.append_right
        have hfr : Fit M (pre ++ m ++ r) eof := hfit.eq (by conv => rhs; rw [h1.1]
                                                            simp)
        have tail : ∀ c, (itemTail f level k (st src (pre ++ m) r eof (ops ++ [.start .ListItem c]))).cost
            + 22 * (M * M) * (itemNested eof level (itemPara eof level k r).2).2.length
            ≤ 18 * (M * M) * (r.length - (itemPara eof level k r).2.length + 1)
              + (M + (22 * (M * M) * (itemPara eof level k r).2.length + M * M)) := by
          intro c
          have hp := paragraph_cost (M := M) (src := src) (pre := pre ++ m) (ts := r)
            (eof := .ListBoundary level k :: eof) (ops := ops ++ [.start .ListItem c]) (Room.fit hfr hr) hgr
          have hle : 22 * (M * M) * (itemNested eof level (itemPara eof level k r).2).2.length
              ≤ 22 * (M * M) * (itemPara eof level k r).2.length := Nat.mul_le_mul_left _ f2
          have key : (itemTail f level k (st src (pre ++ m) r eof (ops ++ [.start .ListItem c]))).cost
              ≤ 18 * (M * M) * (r.length - (itemPara eof level k r).2.length + 1)
                + (M + (22 * (M * M) * (itemPara eof level k r).2.length + M * M)
                    - 22 * (M * M) * (itemNested eof level (itemPara eof level k r).2).2.length) := by
            unfold itemTail
            refine withEof_cost hp ?_
            intro a q hq
            rw [Steps.paragraph_val, show ({ st src (pre ++ m) r eof (ops ++ [.start .ListItem c]) with
              eof := .ListBoundary level k :: (st src (pre ++ m) r eof (ops ++ [.start .ListItem c])).eof } : P)
              = st src (pre ++ m) r (.ListBoundary level k :: eof) (ops ++ [.start .ListItem c]) from rfl,
              paragraph_eq hgr] at hq
            cases hq
            show (Steps.atEof (st src (pre ++ m ++ paraToks (itemPara eof level k r).1) (itemPara eof level k r).2 eof
                (ops ++ [.start .ListItem c] ++ paraOps src (itemPara eof level k r).1)) >>= fun b => _).cost ≤ _
            rw [atEof_bind]
            cases hs : stopAt eof (itemPara eof level k r).2 with
            | true =>
              show eofCost eof + 0 ≤ _
              omega
            | false =>
              simp only [Bool.false_eq_true, if_false]
              have hli := ih3 (ts := (itemPara eof level k r).2) (fuel := f) (level := level + 1)
                (pre := pre ++ m ++ paraToks (itemPara eof level k r).1)
                (ops := ops ++ [.start .ListItem c] ++ paraOps src (itemPara eof level k r).1)
                (by omega) (by omega) hg.append_right.append_right
                (hfit.eq (by conv => rhs; rw [f5]
                             simp)) (by unfold Room at hr ⊢; omega)
              have e : itemNested eof level (itemPara eof level k r).2
                = itemsB eof (level + 1) none (itemPara eof level k r).2 := by
                unfold itemNested; rw [if_neg (by simp [hs])]
              rw [e]
              refine Nat.le_trans (Nat.add_le_add_left (cost_le (B := 0) (cost_le (B := 0) (Nat.le_refl _)
                (fun _ _ => Nat.le_refl _)) (fun _ _ => Nat.le_refl _)) _) ?_
              show eofCost eof + ((Steps.listInner f (level + 1) (st src (pre ++ m ++ paraToks (itemPara eof level k r).1) (itemPara eof level k r).2 eof
                  (ops ++ [.start .ListItem c] ++ paraOps src (itemPara eof level k r).1))).cost + 0 + 0) ≤ _
              omega
          omega
        have hc := listItem_cost_head (src := src) (fuel := f) (level := level) (want := want) (ops := ops)
          (B := 18 * (M * M) * (r.length - (itemPara eof level k r).2.length + 1)
                + (M + (22 * (M * M) * (itemPara eof level k r).2.length + M * M))
                    - 22 * (M * M) * (itemNested eof level (itemPara eof level k r).2).2.length) hfit
          (fun k' m' r' c h => by
            rw [hm] at h
            cases h
            have := tail c
            omega)
        rw [hm] at hc
        simp only at hc
        have hle : 22 * (M * M) * (itemNested eof level (itemPara eof level k r).2).2.length
              ≤ 22 * (M * M) * (itemPara eof level k r).2.length := Nat.mul_le_mul_left _ f2
        have a1 : 22 * (M * M) * (2 + (r.length - (itemPara eof level k r).2.length) + (itemPara eof level k r).2.length)
            ≤ 22 * (M * M) * ts.length := Nat.mul_le_mul_left _ (by omega)
        have a2 : 18 * (M * M) * (r.length - (itemPara eof level k r).2.length)
            ≤ 22 * (M * M) * (r.length - (itemPara eof level k r).2.length) := Nat.mul_le_mul_right _ (by omega)
        rw [Nat.mul_add, Nat.mul_add] at a1
        rw [Nat.mul_add] at hc
        omega
    have itemv : ∀ {ts pre ops fuel level want}, ts.length ≤ n + 1 → 2 * ts.length + 1 ≤ fuel → Good src ts →
        _ := fun {ts pre ops fuel level want} h1 h2 h3 =>
      (list_eqs (src := src) (eof := eof) (n + 1)).1 (ts := ts) (pre := pre) (ops := ops) (fuel := fuel) (level := level) (want := want) h1 h2 h3
    have loop : ∀ {ts pre ops fuel level want}, ts.length ≤ n + 1 → 2 * ts.length + 2 ≤ fuel → Good src ts →
        Fit M (pre ++ ts) eof → Room M eof level ts →
        (Steps.listLoop fuel level want (st src pre ts eof ops)).cost
            + 22 * (M * M) * (itemsB eof level (some want) ts).2.length
          ≤ 22 * (M * M) * ts.length + M * M := by
      intro ts pre ops fuel level want hn hf hts hfit hr
      have hM := hfit.len
      have hQ := square_ge (M := M) (by omega)
      obtain ⟨f, rfl⟩ : ∃ f, fuel = f + 1 := ⟨fuel - 1, by omega⟩
      obtain ⟨c1, c2⟩ := item (pre := pre) (ops := ops) (fuel := f) (level := level) (want := some want) hn (by omega) hts hfit hr
      have hv := itemv (pre := pre) (ops := ops) (fuel := f) (level := level) (want := some want) hn (by omega) hts
      rw [← (Steps.listItem_val _).1] at hv
      rw [Steps.listLoop, cost_tick]
      cases hm : markerB level (some want) ts with
      | none =>
        rw [hm] at hv
        have := c1 hm
        rw [cost_ok hv, itemsB_none hm]
        simp only [cost_pure]
        omega
      | some x =>
        obtain ⟨k, m, r⟩ := x
        have hk : k = want := by
          have := (itemsB_ok hT level (some want) ts)
          rw [itemsB_some hm] at this
          exact this.1 want rfl
        subst hk
        rw [hm] at hv
        have := c2 _ _ _ hm
        obtain ⟨f1, f2, f3, f4, f5⟩ := item_facts (eof := eof) hm
        rw [cost_ok hv, itemsB_some hm]
        simp only
        have hx := ih2 (ts := (itemNested eof level (itemPara eof level k r).2).2)
          (pre := pre ++ (m ++ (paraToks (itemPara eof level k r).1 ++ (itemNested eof level (itemPara eof level k r).2).1.toks)))
          (ops := (ops ++ (.start .ListItem (content src m) ::
                (paraOps src (itemPara eof level k r).1 ++
                  ((itemNested eof level (itemPara eof level k r).2).1.listOps src ++
                    [.close .ListItem emptyContent]))))) (fuel := f) (level := level) (want := k)
          (by omega) (by omega) (nested_good hm hts)
          (hfit.eq (by
            conv => rhs; rw [f5, nested_toks (eof := eof) (level := level) (itemPara eof level k r).2]
            simp)) (by unfold Room at hr ⊢; omega)
        omega
    refine ⟨item, loop, ?_⟩
    intro ts pre ops fuel level hn hf hts hfit hr
    have hM := hfit.len
    have hQ := square_ge (M := M) (by omega)
    obtain ⟨f, rfl⟩ : ∃ f, fuel = f + 1 := ⟨fuel - 1, by omega⟩
    obtain ⟨c1, c2⟩ := item (pre := pre) (ops := ops) (fuel := f) (level := level) (want := none) hn (by omega) hts hfit hr
    have hv := itemv (pre := pre) (ops := ops) (fuel := f) (level := level) (want := none) hn (by omega) hts
    rw [← (Steps.listItem_val _).1] at hv
    rw [Steps.listInner, cost_tick]
    cases hm : markerB level none ts with
    | none =>
      rw [hm] at hv
      have := c1 hm
      rw [cost_ok hv, itemsB_none hm]
      simp only [cost_pure]
      omega
    | some x =>
      obtain ⟨k, m, r⟩ := x
      rw [hm] at hv
      have := c2 _ _ _ hm
      obtain ⟨f1, f2, f3, f4, f5⟩ := item_facts (eof := eof) hm
      rw [cost_ok hv, itemsB_some hm]
      simp only [st_ops]
      have hcount := itemOps_count (src := src) hT hm (.start .ListItem (content src m)) (.close .ListItem emptyContent)
      have hins := st_insert (src := src) (pre := pre ++ (m ++ (paraToks (itemPara eof level k r).1 ++ (itemNested eof level (itemPara eof level k r).2).1.toks)))
        (ts := (itemNested eof level (itemPara eof level k r).2).2) (eof := eof) (ops := ops)
        (.start .ListItem (content src m) ::
                (paraOps src (itemPara eof level k r).1 ++
                  ((itemNested eof level (itemPara eof level k r).2).1.listOps src ++
                    [.close .ListItem emptyContent]))) (.start k.node emptyContent)
      rw [← Steps.insertOp_val] at hins
      rw [cost_ok hins]
      have hinc : (Steps.insertOp (st src (pre ++ (m ++ (paraToks (itemPara eof level k r).1 ++ (itemNested eof level (itemPara eof level k r).2).1.toks)))
        (itemNested eof level (itemPara eof level k r).2).2 eof (ops ++ (.start .ListItem (content src m) ::
                (paraOps src (itemPara eof level k r).1 ++
                  ((itemNested eof level (itemPara eof level k r).2).1.listOps src ++
                    [.close .ListItem emptyContent]))))) ops.length (.start k.node emptyContent)).cost ≤ 2 * ts.length + 7 := by
        show 1 + (_ - _) ≤ _
        rw [st_ops, List.length_append]
        omega
      have hx := ih2 (ts := (itemNested eof level (itemPara eof level k r).2).2)
          (pre := pre ++ (m ++ (paraToks (itemPara eof level k r).1 ++ (itemNested eof level (itemPara eof level k r).2).1.toks)))
          (ops := ops ++ .start k.node emptyContent :: (.start .ListItem (content src m) ::
                (paraOps src (itemPara eof level k r).1 ++
                  ((itemNested eof level (itemPara eof level k r).2).1.listOps src ++
                    [.close .ListItem emptyContent])))) (fuel := f) (level := level) (want := k)
          (by omega) (by omega) (nested_good hm hts)
          (hfit.eq (by
            conv => rhs; rw [f5, nested_toks (eof := eof) (level := level) (itemPara eof level k r).2]
            simp)) (by unfold Room at hr ⊢; omega)
      rw [List.length_append] at hM
      have hl := cost_le (B := 0) (Nat.le_refl _) (fun _ _ => Nat.le_refl 0) (x := Steps.listLoop f level k (st src (pre ++ (m ++ (paraToks (itemPara eof level k r).1 ++ (itemNested eof level (itemPara eof level k r).2).1.toks)))
        (itemNested eof level (itemPara eof level k r).2).2 eof (ops ++ .start k.node emptyContent :: (.start .ListItem (content src m) ::
                (paraOps src (itemPara eof level k r).1 ++
                  ((itemNested eof level (itemPara eof level k r).2).1.listOps src ++
                    [.close .ListItem emptyContent])))))) (f := fun q => pure (some k, q.push (.close k.node emptyContent)))
      omega

end Yamd.Ref
