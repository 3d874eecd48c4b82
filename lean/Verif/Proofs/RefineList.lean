import Verif.Proofs.RefineBlocks

/-!
# The modelled parser refines the reference parser: lists
-/

namespace Yamd.Ref

open Yamd

variable {src : Str} {pre ts r : List Token} {eof : List Stop} {ops : List Op} {t : Token}

theorem itemsB_none {stops level want ts} (h : markerB level want ts = none) :
    itemsB stops level want ts = (.nil, ts) := by
  rw [itemsB.eq_def]
  split
  · rfl
  · rename_i h1; rw [h] at h1; simp at h1

/-- The text of the item after the marker. -/
def itemPara (stops : List Stop) (level : Nat) (k : ListKind) (r : List Token) : List Inl × List Token :=
  paraB (.ListBoundary level k :: stops) [] r

/-- The nested list of an item. -/
def itemNested (stops : List Stop) (level : Nat) (r : List Token) : Items × List Token :=
  if stopAt stops r then (.nil, r) else itemsB stops (level + 1) none r

theorem itemsB_le {stops} : ∀ (n : Nat) {level want ts}, ts.length ≤ n →
    (itemsB stops level want ts).2.length ≤ ts.length := by
  intro n
  induction n with
  | zero =>
    intro level want ts hn
    have : ts = [] := by simpa using hn
    subst this
    rw [itemsB_none (by unfold markerB; simp [tokenIs])]; simp
  | succ n ih =>
    intro level want ts hn
    rw [itemsB.eq_def]
    split
    · simp
    · rename_i k m r hm
      have h1 := markerB_toks hm
      have h2 := paraB_length (.ListBoundary level k :: stops) r
      have h3 : ts.length = m.length + r.length := by
        conv => lhs; rw [h1.1]
        simp
      simp only
      have h4 : (if stopAt stops (paraB (.ListBoundary level k :: stops) [] r).2 = true then (.nil, (paraB (.ListBoundary level k :: stops) [] r).2)
        else itemsB stops (level + 1) none (paraB (.ListBoundary level k :: stops) [] r).2).2.length
          ≤ (paraB (.ListBoundary level k :: stops) [] r).2.length := by
        split
        · simp
        · exact ih (by omega)
      generalize (if stopAt stops (paraB (.ListBoundary level k :: stops) [] r).2 = true then (Items.nil, (paraB (.ListBoundary level k :: stops) [] r).2)
        else itemsB stops (level + 1) none (paraB (.ListBoundary level k :: stops) [] r).2) = N at h4 ⊢
      split
      · rename_i hlt
        have h5 := ih (level := level) (want := some k) (ts := N.2) (by omega)
        simp only
        omega
      · simp only; omega

theorem itemNested_le (stops level) (r : List Token) : (itemNested stops level r).2.length ≤ r.length := by
  unfold itemNested
  split
  · simp
  · exact itemsB_le _ (Nat.le_refl _)

theorem itemsB_some {stops level want ts k m r} (h : markerB level want ts = some (k, m, r)) :
    itemsB stops level want ts =
      (.cons k m (itemPara stops level k r).1 (itemNested stops level (itemPara stops level k r).2).1
        (itemsB stops level (some k) (itemNested stops level (itemPara stops level k r).2).2).1,
       (itemsB stops level (some k) (itemNested stops level (itemPara stops level k r).2).2).2) := by
  have h1 := markerB_toks h
  have h2 := paraB_length (.ListBoundary level k :: stops) r
  have h3 : ts.length = m.length + r.length := by
    conv => lhs; rw [h1.1]
    simp
  have h4 := itemNested_le stops level (itemPara stops level k r).2
  rw [itemsB.eq_def]
  split
  · rename_i h1; rw [h] at h1; simp at h1
  · rename_i h1
    rw [h] at h1; simp only [Option.some.injEq, Prod.mk.injEq] at h1
    obtain ⟨rfl, rfl, rfl⟩ := h1
    simp only
    rw [dif_pos]
    · rfl
    · show (itemNested stops level (itemPara stops level k r).2).2.length < ts.length
      unfold itemPara at h4 ⊢
      omega

theorem itemsB_toks {stops} : ∀ (n : Nat) {level want ts}, ts.length ≤ n →
    ts = (itemsB stops level want ts).1.toks ++ (itemsB stops level want ts).2 := by
  intro n
  induction n with
  | zero =>
    intro level want ts hn
    have : ts = [] := by simpa using hn
    subst this
    rw [itemsB_none (by unfold markerB; simp [tokenIs])]; simp [Items.toks]
  | succ n ih =>
    intro level want ts hn
    cases hm : markerB level want ts with
    | none => rw [itemsB_none hm]; simp [Items.toks]
    | some x =>
      obtain ⟨k, m, r⟩ := x
      rw [itemsB_some hm]
      have h1 := markerB_toks hm
      have h2 := paraB_length (.ListBoundary level k :: stops) r
      have h3 : ts.length = m.length + r.length := by
        conv => lhs; rw [h1.1]
        simp
      have h4 := itemNested_le stops level (itemPara stops level k r).2
      have e1 : r = paraToks (itemPara stops level k r).1 ++ (itemPara stops level k r).2 :=
        paraB_toks (stops := .ListBoundary level k :: stops) (acc := []) _ (Nat.le_refl _)
      have hl : (itemPara stops level k r).2.length ≤ r.length := h2
      have e2 : (itemPara stops level k r).2 = (itemNested stops level (itemPara stops level k r).2).1.toks
          ++ (itemNested stops level (itemPara stops level k r).2).2 := by
        unfold itemNested
        split
        · simp [Items.toks]
        · exact ih (by omega)
      have e3 := ih (level := level) (want := some k)
        (ts := (itemNested stops level (itemPara stops level k r).2).2) (by omega)
      simp only [Items.toks, List.append_assoc]
      rw [← e3, ← e2, ← e1]
      exact h1.1

theorem isListMarker_tryFrom {want t} (h : isListMarker want t = true) : ∃ k, ListKind.tryFrom t = some k := by
  unfold isListMarker at h
  split at h
  · simp at h
  · rename_i k hk; exact ⟨k, hk⟩

theorem isListMarker_none {want t} (h : ListKind.tryFrom t = none) : isListMarker want t = false := by
  unfold isListMarker; rw [h]

theorem eatSeq3_yes {f g h} (h1 : tokenIs ts 0 f = true) (h2 : tokenIs ts 1 g = true)
    (h3 : tokenIs ts 2 h = true) :
    (st src pre ts eof ops).eatSeq3 f g h = (some (pre.length, pre.length + 3),
      st src (pre ++ ts.take 3) (ts.drop 3) eof ops) := by
  match ts with
  | [] => simp [tokenIs] at h1
  | [t] => simp [tokenIs] at h2
  | [t, u] => simp [tokenIs] at h3
  | t :: u :: v :: r =>
    simp only [tokenIs, List.getElem?_cons_zero, List.getElem?_cons_succ] at h1 h2 h3
    unfold P.eatSeq3
    rw [st_eat_yes _ h1]
    simp only
    rw [st_eat_yes _ h2]
    simp only
    rw [st_eat_yes _ h3]
    simp

theorem eatSeq3_no {f g h} (hh : (tokenIs ts 0 f && tokenIs ts 1 g && tokenIs ts 2 h) = false) :
    (st src pre ts eof ops).eatSeq3 f g h = (none, st src pre ts eof ops) := by
  unfold P.eatSeq3
  cases h1 : tokenIs ts 0 f with
  | false => rw [st_eat_none _ h1]
  | true =>
    match ts with
    | [] => simp [tokenIs] at h1
    | t :: r =>
      simp only [h1, Bool.true_and] at hh
      simp only [tokenIs, List.getElem?_cons_zero] at h1
      rw [st_eat_yes _ h1]
      simp only
      cases h2 : tokenIs r 0 g with
      | false => rw [st_eat_none _ h2]; simp [st]
      | true =>
        match r with
        | [] => simp [tokenIs] at h2
        | u :: r =>
          have h2' : tokenIs (t :: u :: r) 1 g = true := by simpa [tokenIs] using h2
          simp only [h2', Bool.true_and] at hh
          have hh' : tokenIs r 0 h = false := by simpa [tokenIs] using hh
          simp only [tokenIs, List.getElem?_cons_zero] at h2
          rw [st_eat_yes _ h2]
          simp only
          rw [st_eat_none _ hh']
          simp [st]

/-- The marker part of `list_item`. -/
theorem listItem_head {fuel level want} (hts : Good src ts) :
    listItem (fuel + 1) level want (st src pre ts eof ops) =
      match markerB level want ts with
      | none => .ok (none, st src pre ts eof ops)
      | some (k, m, r) => (do
        let q := st src (pre ++ m) r eof (ops ++ [.start .ListItem (content src m)])
        let (_, q) ← q.withEof (.ListBoundary level k) paragraph
        let q ← if q.atEof then pure q
              else (do let (_, q) ← listInner fuel (level + 1) q; pure q)
        pure (some k, q.push (.close .ListItem emptyContent))) := by
  rw [listItem, st_atTok]
  unfold markerB
  cases hc : tokenIs ts 0 col0 with
  | false => simp
  | true =>
    simp only [Bool.not_true, Bool.false_eq_true, if_false, if_true]
    by_cases hl : level = 0
    · subst hl
      simp only [if_true, P.get, st_pos]
      rw [show pre.length + 0 = pre.length + 0 from rfl, st_get 0]
      cases ht : ts[0]? with
      | none => simp [tokenIs, ht] at hc
      | some t =>
        simp only
        cases hk : ListKind.tryFrom t with
        | none =>
          have : (tokenIs ts 0 (isListMarker want) && tokenIs ts 1 isSpace1) = false := by
            simp [tokenIs, ht, isListMarker_none hk]
          simp [this]
        | some k =>
          simp only
          cases hs : (tokenIs ts 0 (isListMarker want) && tokenIs ts 1 isSpace1) with
          | false => rw [eatSeq2_no hs]; simp
          | true =>
            have hs' := hs
            simp only [Bool.and_eq_true] at hs'
            rw [eatSeq2_yes hs'.1 hs'.2]
            simp only [if_true]
            rw [st_spanAt (a := pre) (b := ts.take 2) (c := ts.drop 2) (by simp) rfl
              (by rw [take2_length hs'.2]) (hts.take 2)]
            simp [hk, bind, Except.bind, st_push]
    · simp only [hl, if_false, P.get, st_pos]
      rw [st_get 1]
      cases ht : ts[1]? with
      | none => simp [tokenIs, ht]
      | some t =>
        simp only
        cases hk : ListKind.tryFrom t with
        | none =>
          have : tokenIs ts 1 (isListMarker want) = false := by
            simp [tokenIs, ht, isListMarker_none hk]
          simp [this]
        | some k =>
          simp only
          cases hs : (tokenIs ts 0 (fun t => t.kind = .Space && t.len = level) && tokenIs ts 1 (isListMarker want) && tokenIs ts 2 isSpace1) with
          | false => rw [eatSeq3_no hs]; simp
          | true =>
            have hs' := hs
            simp only [Bool.and_eq_true] at hs'
            rw [eatSeq3_yes hs'.1.1 hs'.1.2 hs'.2]
            simp only [if_true]
            have := tokenIs_length hs'.2
            rw [st_spanAt (a := pre) (b := ts.take 3) (c := ts.drop 3) (by simp) rfl
              (by simp; omega) (hts.take 3)]
            simp [hk, bind, Except.bind, st_push]

theorem list_eqs : ∀ (n : Nat),
    (∀ {ts pre ops fuel level want}, ts.length ≤ n → 2 * ts.length + 1 ≤ fuel → Good src ts →
      listItem fuel level want (st src pre ts eof ops) =
        match markerB level want ts with
        | none => .ok (none, st src pre ts eof ops)
        | some (k, m, r) => .ok (some k,
            st src (pre ++ (m ++ (paraToks (itemPara eof level k r).1 ++ (itemNested eof level (itemPara eof level k r).2).1.toks)))
              (itemNested eof level (itemPara eof level k r).2).2 eof
              (ops ++ (.start .ListItem (content src m) ::
                (paraOps src (itemPara eof level k r).1 ++
                  ((itemNested eof level (itemPara eof level k r).2).1.listOps src ++
                    [.close .ListItem emptyContent])))))) ∧
    (∀ {ts pre ops fuel level want}, ts.length ≤ n → 2 * ts.length + 2 ≤ fuel → Good src ts →
      listLoop fuel level want (st src pre ts eof ops) =
        .ok (st src (pre ++ (itemsB eof level (some want) ts).1.toks) (itemsB eof level (some want) ts).2 eof
          (ops ++ (itemsB eof level (some want) ts).1.ops src))) ∧
    (∀ {ts pre ops fuel level}, ts.length ≤ n → 2 * ts.length + 2 ≤ fuel → Good src ts →
      listInner fuel level (st src pre ts eof ops) =
        .ok ((itemsB eof level none ts).1.kind,
          st src (pre ++ (itemsB eof level none ts).1.toks) (itemsB eof level none ts).2 eof
          (ops ++ (itemsB eof level none ts).1.listOps src))) := by
  intro n
  induction n with
  | zero =>
    have hm : ∀ level want, markerB level want ([] : List Token) = none := by
      intro level want; unfold markerB; simp [tokenIs]
    have item : ∀ {pre ops fuel level want}, 1 ≤ fuel →
        listItem fuel level want (st src pre [] eof ops) = .ok (none, st src pre [] eof ops) := by
      intro pre ops fuel level want hf
      obtain ⟨f, rfl⟩ : ∃ f, fuel = f + 1 := ⟨fuel - 1, by omega⟩
      rw [listItem_head Good.nil, hm]
    refine ⟨?_, ?_, ?_⟩
    · intro ts pre ops fuel level want hn hf hts
      have : ts = [] := by simpa using hn
      subst this
      rw [item (by omega), hm]
    · intro ts pre ops fuel level want hn hf hts
      have : ts = [] := by simpa using hn
      subst this
      obtain ⟨f, rfl⟩ : ∃ f, fuel = f + 1 := ⟨fuel - 1, by omega⟩
      rw [listLoop, item (by simp at hf; omega), itemsB_none (hm _ _)]
      simp [bind, Except.bind, pure, Except.pure, Items.toks, Items.ops]
    · intro ts pre ops fuel level hn hf hts
      have : ts = [] := by simpa using hn
      subst this
      obtain ⟨f, rfl⟩ : ∃ f, fuel = f + 1 := ⟨fuel - 1, by omega⟩
      rw [listInner, item (by simp at hf; omega), itemsB_none (hm _ _)]
      simp [bind, Except.bind, pure, Except.pure, Items.toks, Items.listOps, wrapList, Items.kind]
  | succ n ih =>
    obtain ⟨ih1, ih2, ih3⟩ := ih
    have facts : ∀ {ts level want k m r}, markerB level want ts = some (k, m, r) →
        (itemPara eof level k r).2.length + 2 ≤ ts.length ∧
        (itemNested eof level (itemPara eof level k r).2).2.length + 2 ≤ ts.length ∧
        ts = m ++ (paraToks (itemPara eof level k r).1 ++ (itemPara eof level k r).2) := by
      intro ts level want k m r hm
      have h1 := markerB_toks hm
      have h2 : (itemPara eof level k r).2.length ≤ r.length := paraB_length (.ListBoundary level k :: eof) r
      have h3 : ts.length = m.length + r.length := by
        conv => lhs; rw [h1.1]
        simp
      have h4 := itemNested_le eof level (itemPara eof level k r).2
      have e1 : r = paraToks (itemPara eof level k r).1 ++ (itemPara eof level k r).2 :=
        paraB_toks (stops := .ListBoundary level k :: eof) (acc := []) _ (Nat.le_refl _)
      refine ⟨by omega, by omega, ?_⟩
      rw [← e1]; exact h1.1
    have item : ∀ {ts pre ops fuel level want}, ts.length ≤ n + 1 → 2 * ts.length + 1 ≤ fuel → Good src ts →
      listItem fuel level want (st src pre ts eof ops) =
        match markerB level want ts with
        | none => .ok (none, st src pre ts eof ops)
        | some (k, m, r) => .ok (some k,
            st src (pre ++ (m ++ (paraToks (itemPara eof level k r).1 ++ (itemNested eof level (itemPara eof level k r).2).1.toks)))
              (itemNested eof level (itemPara eof level k r).2).2 eof
              (ops ++ (.start .ListItem (content src m) ::
                (paraOps src (itemPara eof level k r).1 ++
                  ((itemNested eof level (itemPara eof level k r).2).1.listOps src ++
                    [.close .ListItem emptyContent]))))) := by
      intro ts pre ops fuel level want hn hf hts
      obtain ⟨f, rfl⟩ : ∃ f, fuel = f + 1 := ⟨fuel - 1, by omega⟩
      rw [listItem_head hts]
      cases hm : markerB level want ts with
      | none => rfl
      | some x =>
        obtain ⟨k, m, r⟩ := x
        obtain ⟨f1, f2, f3⟩ := facts hm
        have h1 := markerB_toks hm
        have hg : Good src (m ++ (paraToks (itemPara eof level k r).1 ++ (itemPara eof level k r).2)) := by
          rw [← f3]; exact hts
        have hgr : Good src r := by have := hts; rw [h1.1] at this; exact this.append_right
        simp only [bind, Except.bind]
        rw [st_withEof (paragraph_eq hgr)]
        simp only [st_atEof]
        cases hs : stopAt eof (itemPara eof level k r).2 with
        | true =>
          have hs' : stopAt eof (paraB (.ListBoundary level k :: eof) [] r).2 = true := hs
          rw [hs']
          simp only [if_true, pure, Except.pure, st_push]
          have e : itemNested eof level (itemPara eof level k r).2 = (.nil, (itemPara eof level k r).2) := by
            unfold itemNested; rw [if_pos hs]
          rw [e]
          simp [Items.toks, Items.listOps, Items.kind, wrapList, itemPara]
        | false =>
          have hs' : stopAt eof (paraB (.ListBoundary level k :: eof) [] r).2 = false := hs
          rw [hs']
          simp only [Bool.false_eq_true, if_false]
          have e : itemNested eof level (itemPara eof level k r).2
              = itemsB eof (level + 1) none (itemPara eof level k r).2 := by
            unfold itemNested; rw [if_neg (by simp [hs])]
          have := ih3 (ts := (itemPara eof level k r).2) (fuel := f) (level := level + 1)
            (pre := pre ++ m ++ paraToks (itemPara eof level k r).1)
            (ops := ops ++ [.start .ListItem (content src m)] ++ paraOps src (itemPara eof level k r).1)
            (by omega) (by omega) hg.append_right.append_right
          unfold itemPara at this e ⊢
          rw [this, e]
          simp [pure, Except.pure, st_push]
    have loop : ∀ {ts pre ops fuel level want}, ts.length ≤ n + 1 → 2 * ts.length + 2 ≤ fuel → Good src ts →
      listLoop fuel level want (st src pre ts eof ops) =
        .ok (st src (pre ++ (itemsB eof level (some want) ts).1.toks) (itemsB eof level (some want) ts).2 eof
          (ops ++ (itemsB eof level (some want) ts).1.ops src)) := by
      intro ts pre ops fuel level want hn hf hts
      obtain ⟨f, rfl⟩ : ∃ f, fuel = f + 1 := ⟨fuel - 1, by omega⟩
      rw [listLoop, item hn (by omega) hts]
      cases hm : markerB level (some want) ts with
      | none =>
        rw [itemsB_none hm]
        simp [bind, Except.bind, pure, Except.pure, Items.toks, Items.ops]
      | some x =>
        obtain ⟨k, m, r⟩ := x
        obtain ⟨f1, f2, f3⟩ := facts hm
        have hk : k = want := by
          unfold markerB at hm
          split at hm
          · split at hm
            · split at hm
              · rename_i h1
                simp only [Bool.and_eq_true] at h1
                obtain ⟨t, ht, h2⟩ := tokenIs_cons h1.1
                rw [ht] at hm
                simp only [Option.bind_some, Option.map_eq_some_iff, Prod.mk.injEq] at hm
                obtain ⟨k', hk', rfl, _⟩ := hm
                unfold isListMarker at h2
                rw [hk'] at h2
                simpa using h2
              · simp at hm
            · split at hm
              · rename_i h1
                simp only [Bool.and_eq_true] at h1
                obtain ⟨t, ht, h2⟩ := tokenIs_cons h1.1.2
                rw [ht] at hm
                simp only [Option.bind_some, Option.map_eq_some_iff, Prod.mk.injEq] at hm
                obtain ⟨k', hk', rfl, _⟩ := hm
                unfold isListMarker at h2
                rw [hk'] at h2
                simpa using h2
              · simp at hm
          · simp at hm
        subst hk
        have tkn := itemsB_toks (stops := eof) (level := level) (want := some k) (ts := ts) _ (Nat.le_refl _)
        rw [itemsB_some hm] at tkn ⊢
        simp only [bind, Except.bind]
        have hg : Good src (itemNested eof level (itemPara eof level k r).2).2 := by
          have h2 := hts
          rw [f3] at h2
          have h3 := h2.append_right.append_right
          have h4 : (itemPara eof level k r).2 = (itemNested eof level (itemPara eof level k r).2).1.toks
            ++ (itemNested eof level (itemPara eof level k r).2).2 := by
            unfold itemNested
            split
            · simp [Items.toks]
            · exact itemsB_toks _ (Nat.le_refl _)
          rw [h4] at h3
          exact h3.append_right
        rw [ih2 (by omega) (by omega) hg]
        simp [Items.toks, Items.ops, Items.listOps]
    refine ⟨item, loop, ?_⟩
    intro ts pre ops fuel level hn hf hts
    obtain ⟨f, rfl⟩ : ∃ f, fuel = f + 1 := ⟨fuel - 1, by omega⟩
    rw [listInner, item hn (by omega) hts]
    cases hm : markerB level none ts with
    | none =>
      rw [itemsB_none hm]
      simp [bind, Except.bind, pure, Except.pure, Items.toks, Items.kind, Items.listOps, wrapList]
    | some x =>
      obtain ⟨k, m, r⟩ := x
      obtain ⟨f1, f2, f3⟩ := facts hm
      rw [itemsB_some hm]
      simp only [bind, Except.bind]
      have hg : Good src (itemNested eof level (itemPara eof level k r).2).2 := by
        have h2 := hts
        rw [f3] at h2
        have h3 := h2.append_right.append_right
        have h4 : (itemPara eof level k r).2 = (itemNested eof level (itemPara eof level k r).2).1.toks
          ++ (itemNested eof level (itemPara eof level k r).2).2 := by
          unfold itemNested
          split
          · simp [Items.toks]
          · exact itemsB_toks _ (Nat.le_refl _)
        rw [h4] at h3
        exact h3.append_right
      rw [st_ops, st_insert]
      simp only
      rw [ih2 (by omega) (by omega) hg]
      simp [Items.toks, Items.ops, Items.listOps, Items.kind, wrapList, pure, Except.pure, st_push]

theorem list_refines : Refines src (fun p => list p 0)
    (fun s t => match itemsB s 0 none t with
      | (.cons k m p n r, rest) => some (.list (.cons k m p n r), rest)
      | (.nil, _) => none) Block.toks (Block.ops src) := by
  intro pre ts eof o hts
  unfold list
  simp only [bind, Except.bind]
  rw [(list_eqs (src := src) (eof := eof) ts.length).2.2 (Nat.le_refl _) (by simp) hts]
  have tk := itemsB_toks (stops := eof) (level := 0) (want := none) (ts := ts) _ (Nat.le_refl _)
  cases hi : itemsB eof 0 none ts with
  | mk i rest =>
    rw [hi] at tk
    cases i with
    | nil =>
      simp only [Items.toks, List.nil_append] at tk
      subst tk
      simp [pure, Except.pure, Items.kind, Items.toks, Items.listOps, wrapList]
    | cons k m p n r => simp [pure, Except.pure, Items.kind, Block.toks, Block.ops]

end Yamd.Ref
