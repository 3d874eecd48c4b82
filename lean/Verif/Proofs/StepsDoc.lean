import Verif.Proofs.StepsList
import Verif.Proofs.Refine

/-!
# Bounds on the number of steps: documents
-/

namespace Yamd.Ref

open Yamd Counted

variable {α β : Type} {src : Str} {pre ts r : List Token} {eof : List Stop} {ops : List Op} {t : Token} {M : Nat}

theorem cube_ge (h : 8 ≤ M) : 8 * (M * M) ≤ M * M * M := by rw [Nat.mul_comm 8]; exact Nat.mul_le_mul_left _ h

theorem flat {c a : Nat} (h : a ≤ M) : c * (M * M) * a ≤ c * (M * M * M) := by
  rw [Nat.mul_assoc]; exact Nat.mul_le_mul_left c (Nat.mul_le_mul_left _ h)

theorem list_cost (hT : .Terminator ∈ eof) (hf : Fit M (pre ++ ts) eof) (hr : Room M eof 0 ts) (hg : Good src ts) :
    (Steps.list (st src pre ts eof ops) 0).cost ≤ 23 * (M * M * M) := by
  have hM := hf.len
  have hQ := square_ge (M := M) (by omega)
  have hT8 := cube_ge (M := M) (by omega)
  rw [List.length_append] at hM
  unfold Steps.list
  rw [cost_tick]
  have h1 := (list_costs (M := M) (src := src) hT ts.length).2.2 (ts := ts) (pre := pre) (ops := ops)
    (fuel := 2 * ((st src pre ts eof ops).tokens.length - (st src pre ts eof ops).pos) + 2) (level := 0)
    (Nat.le_refl _) (by simp) hg hf hr
  refine Nat.le_trans (Nat.add_le_add_left (cost_le (B := 0) (Nat.le_refl _) (fun _ _ => Nat.le_refl _)) 1) ?_
  have h2 := flat (M := M) (c := 22) (a := ts.length) (by omega)
  omega

theorem leafBlock_cost (hT : .Terminator ∈ eof) (hf : Fit M (pre ++ ts) eof) (hr : Room M eof 0 ts) (hg : Good src ts) :
    (Steps.leafBlock (st src pre ts eof ops)).cost ≤ 51 * (M * M * M) := by
  have hM := hf.len
  have hQ := square_ge (M := M) (by omega)
  have hT8 := cube_ge (M := M) (by omega)
  rw [List.length_append] at hM
  have hp := paragraph_cost (ops := ops) hf hg
  have hp2 := flat (M := M) (c := 18) (a := ts.length - (paraB eof [] ts).2.length + 1) (by omega)
  have hh := heading_cost (ops := ops) hf hg
  have hh2 := flat (M := M) (c := 4) (a := ts.length - (headB eof [] (ts.drop 2)).2.length + 1) (by omega)
  have ho := orElse_cost_st Steps.thematicBreak_val thematic_refines hg (thematic_cost (ops := ops) hf) (Nat.le_trans hh hh2)
  have ho2 := orElse_cost_st Steps.images_val images_refines hg (images_cost (ops := ops) hf hg) ho
  have ho3 := orElse_cost_st (f1 := fun p => Steps.list p 0) (fun p => Steps.list_val p 0) list_refines hg
    (list_cost (ops := ops) hT hf hr hg) ho2
  have hv : ∀ p, (Steps.orElse (fun p => Steps.list p 0) (Steps.orElse Steps.images (Steps.orElse Steps.thematicBreak Steps.heading)) p).val
      = orElse (fun p => list p 0) (orElse images (orElse thematicBreak heading)) p := by
    intro p
    simp only [Steps.orElse_val _ _ _ _ (fun p => Steps.list_val p 0) (fun p => Steps.orElse_val _ _ _ _ Steps.images_val
      (fun p => Steps.orElse_val _ _ _ _ Steps.thematicBreak_val Steps.heading_val p) p) p]
  unfold Steps.leafBlock
  refine Nat.le_trans (cost_le ho3 (B := 18 * (M * M * M)) ?_) (by omega)
  rintro ⟨_ | _, q⟩ hq
  · rw [hv, refines_or list_refines (refines_or images_refines (refines_or thematic_refines heading_refines)) pre ts eof ops hg] at hq
    split at hq
    · cases hq; exact Nat.le_trans hp hp2
    · cases hq
  · exact Nat.zero_le _

theorem Flips.weight {a b} (h : Flips a b) : weight b = weight a := by
  induction h with
  | nil => rfl
  | cons h _ ih =>
    rw [weight_cons, weight_cons, ih]
    rcases h with rfl | ⟨_, rfl⟩ <;> rfl

theorem Fit.flips {a b c} (h : Fit M (a ++ b) eof) (hf : Flips b c) : Fit M (a ++ c) eof :=
  ⟨by have := h.tokens; rw [weight_append] at *; rw [hf.weight]; exact this, h.stops⟩

theorem collapsible_cost {fuel D : Nat} (hts : Good src ts) (hf : Fit M (pre ++ ts) eof)
    (hdoc : ∀ {r1 : List Token} {pre : List Token} {ops : List Op}, r1.length + 2 ≤ ts.length → Good src r1 →
      document fuel (st src pre r1 (.CollapsibleEnd :: eof) ops) =
        .ok ((), st src (pre ++ (docB (.CollapsibleEnd :: eof) r1).1.toks) (docB (.CollapsibleEnd :: eof) r1).2
          (.CollapsibleEnd :: eof) (ops ++ (.start .Document emptyContent ::
            ((docB (.CollapsibleEnd :: eof) r1).1.ops src ++ [.close .Document emptyContent])))))
    (hD : ∀ {o m r1 pre' ops'}, collOpenB eof ts = some (o, m, r1) → pre' ++ r1 = pre ++ ts →
      (Steps.document fuel (st src pre' r1 (.CollapsibleEnd :: eof) ops')).cost ≤ D) :
    (Steps.collapsible (fuel + 1) (st src pre ts eof ops)).cost ≤ 2 * (M * M) + D := by
  have hM := hf.len
  have hQ := square_ge (M := M) (by omega)
  rw [List.length_append] at hM
  rw [Steps.collapsible, cost_tick]
  cases hopen : (tokenIs ts 0 isCollapsibleStart && tokenIs ts 1 isSpaceOrEol) with
  | false => rw [eatSeq2_no hopen]; simp only [cost_pure]; omega
  | true =>
    have hh := hopen
    simp only [Bool.and_eq_true] at hh
    rw [eatSeq2_yes hh.1 hh.2]
    simp only
    have e : pre ++ ts.take 2 ++ ts.drop 2 = pre ++ ts := by rw [List.append_assoc, List.take_append_drop]
    have hf1 := hf.eq e
    refine Nat.le_trans (Nat.add_le_add_left (cost_le (span_cost (p := st src (pre ++ ts.take 2) (ts.drop 2) eof ops) hf1.tokens _ _)
      (B := M * M + (D + (M + 0))) ?_) 1) (by omega)
    intro c _
    simp only [st_push]
    have h1 := modifier_cost (src := src) (ops := ops ++ [.start .Collapsible c]) hf1
    have h2 : M * ((ts.drop 2).length + 4) ≤ M * M := Nat.mul_le_mul_left _ (by simp; omega)
    refine cost_le (Nat.le_trans h1 h2) ?_
    intro a ha
    obtain ⟨b, hb⟩ := mod_val (src := src) (pre := pre ++ ts.take 2) (eof := eof) (ops := ops ++ [.start .Collapsible c]) (hts.drop 2)
    rw [hb] at ha
    cases ha
    have tk := optModB_toks eof (ts.drop 2)
    have hs2 : ts.take 2 ++ modToks (optModB eof (ts.drop 2)).1 ++ (optModB eof (ts.drop 2)).2 = ts := by
      rw [List.append_assoc, ← tk, List.take_append_drop]
    simp only [st_atTok]
    cases hc : tokenIs (optModB eof (ts.drop 2)).2 0 col0 with
    | false => exact Nat.zero_le _
    | true =>
      have h1 : collOpenB eof ts = some (ts.take 2, (optModB eof (ts.drop 2)).1, (optModB eof (ts.drop 2)).2) := by
        unfold collOpenB; rw [if_pos hopen, if_pos hc]
      simp only [Bool.not_true, Bool.false_eq_true, if_false]
      have hl : (optModB eof (ts.drop 2)).2.length + 2 ≤ ts.length := by
        have := congrArg List.length hs2
        simp only [List.length_append, take2_length hh.2] at this
        omega
      have hgr : Good src (optModB eof (ts.drop 2)).2 := by
        have := hts; rw [← hs2] at this; exact this.append_right
      have e1 : pre ++ ts.take 2 ++ modToks (optModB eof (ts.drop 2)).1 ++ (optModB eof (ts.drop 2)).2 = pre ++ ts := by
        rw [List.append_assoc, List.append_assoc, ← List.append_assoc (ts.take 2), hs2]
      refine withEof_cost (hD h1 e1) ?_
      intro a q hq
      rw [(Steps.document_val fuel).2.1] at hq
      have hdv := hdoc (pre := pre ++ ts.take 2 ++ modToks (optModB eof (ts.drop 2)).1)
        (ops := ops ++ [.start .Collapsible c] ++ modOps src (optModB eof (ts.drop 2)).1) hl hgr
      rw [show ({ st src (pre ++ ts.take 2 ++ modToks (optModB eof (ts.drop 2)).1) (optModB eof (ts.drop 2)).2 eof
          (ops ++ [.start .Collapsible c] ++ modOps src (optModB eof (ts.drop 2)).1) with
          eof := .CollapsibleEnd :: (st src (pre ++ ts.take 2 ++ modToks (optModB eof (ts.drop 2)).1) (optModB eof (ts.drop 2)).2 eof
          (ops ++ [.start .Collapsible c] ++ modOps src (optModB eof (ts.drop 2)).1)).eof } : P)
        = st src (pre ++ ts.take 2 ++ modToks (optModB eof (ts.drop 2)).1) (optModB eof (ts.drop 2)).2 (.CollapsibleEnd :: eof)
          (ops ++ [.start .Collapsible c] ++ modOps src (optModB eof (ts.drop 2)).1) from rfl, hdv] at hq
      cases hq
      have fl := docB_flips (.CollapsibleEnd :: eof) (optModB eof (ts.drop 2)).2
      have hfl := (hf.eq e1).flips fl
      generalize docB (.CollapsibleEnd :: eof) (optModB eof (ts.drop 2)).2 = I at *
      obtain ⟨inner, r2⟩ := I
      simp only at *
      have tk2 := skipEolB_toks r2
      have e9 : ∀ o, ({ st src (pre ++ ts.take 2 ++ modToks (optModB eof (ts.drop 2)).1 ++ inner.toks) r2 (.CollapsibleEnd :: eof) o with
        eof := (st src (pre ++ ts.take 2 ++ modToks (optModB eof (ts.drop 2)).1 ++ inner.toks) r2 (.CollapsibleEnd :: eof) o).eof.tail } : P)
        = st src (pre ++ ts.take 2 ++ modToks (optModB eof (ts.drop 2)).1 ++ inner.toks) r2 eof o := fun _ => rfl
      rw [e9, skipEol_eq, collClose_eq]
      cases hcl : collCloseB (skipEolB r2).2 with
      | none => exact Nat.zero_le _
      | some x =>
        obtain ⟨c', r4⟩ := x
        have tk3 := collCloseB_toks hcl
        simp only
        refine cost_le (span_cost (M := M) ?_ _ _) (fun _ _ => Nat.le_refl _)
        show weight (pre ++ ts.take 2 ++ modToks (optModB eof (ts.drop 2)).1 ++ inner.toks ++ (skipEolB r2).1 ++ c' ++ r4) + 8 ≤ M
        have := hfl.tokens
        rw [tk2, tk3] at this
        simpa using this

/-- One block that is not a blank line. -/
def blockStep (f : Nat) (p : P) : R P := do
  match ← orElse code (orElse (collapsible f) (orElse embed highlight)) p with
  | (true, q) => pure q
  | (false, q) => do
    let (_, q) ← q.withEof .Terminator leafBlock
    pure q

theorem collFlip_flips (eof : List Stop) (ts : List Token) : Flips ts (collFlip eof ts) := by
  unfold collFlip
  cases ho : collOpenB eof ts with
  | none => exact flips_flipOpen ts
  | some x =>
    obtain ⟨o, m, r1⟩ := x
    obtain ⟨tk, ol, hst⟩ := collOpenB_toks ho
    simp only
    match o, ol, tk with
    | [a, b], _, tk =>
    have ha : a.kind = .CollapsibleStart := by
      rw [tk] at hst
      simp only [tokenIs, isCollapsibleStart, List.cons_append, List.getElem?_cons_zero,
        Bool.and_eq_true, decide_eq_true_eq] at hst
      exact hst.1
    refine Flips.trans ?_ (flips_flipHead ha)
    conv => lhs; rw [tk]
    exact (Flips.refl [a, b]).append ((Flips.refl _).append (docB_flips _ _))

/-- The document inside a collapsible, as the hypothesis of an induction. -/
def InnerEq (src : Str) (eof : List Stop) (fuel n : Nat) : Prop :=
  ∀ {r1 : List Token} {pre : List Token} {ops : List Op}, r1.length + 2 ≤ n → Good src r1 →
      document fuel (st src pre r1 (.CollapsibleEnd :: eof) ops) =
        .ok ((), st src (pre ++ (docB (.CollapsibleEnd :: eof) r1).1.toks) (docB (.CollapsibleEnd :: eof) r1).2
          (.CollapsibleEnd :: eof) (ops ++ (.start .Document emptyContent ::
            ((docB (.CollapsibleEnd :: eof) r1).1.ops src ++ [.close .Document emptyContent]))))

theorem innerEq {fuel n : Nat} (h : 3 * n ≤ fuel + 2) : InnerEq src eof fuel n := by
  intro r1 pre ops hl hg
  obtain ⟨g, rfl⟩ : ∃ g, fuel = g + 1 := ⟨fuel - 1, by omega⟩
  rw [document]
  simp only [bind, Except.bind, st_push]
  rw [documentLoop_eq _ (Nat.le_refl _) (by omega) hg]
  simp [pure, Except.pure, st_push]

theorem step_cost {f D B : Nat} {κ : P → Counted P} (hts : Good src ts)
    (hf : Fit M (pre ++ ts) (.Terminator :: .HighlightEnd :: eof)) (hr : Room M (.Terminator :: eof) 0 ts)
    (hdoc : InnerEq src eof f ts.length)
    (hD : ∀ {o m r1 pre' ops'}, collOpenB eof ts = some (o, m, r1) → pre' ++ r1 = pre ++ ts →
      (Steps.document f (st src pre' r1 (.CollapsibleEnd :: eof) ops')).cost ≤ D)
    (hB : ∀ q, blockStep (f + 1) (st src pre ts eof ops) = .ok q → (κ q).cost ≤ B) :
    (do
      match ← Steps.orElse Steps.code (Steps.orElse (Steps.collapsible (f + 1)) (Steps.orElse Steps.embed Steps.highlight))
          (st src pre ts eof ops) with
      | (true, q) => do let q ← pure q; κ q
      | (false, q) => do
        let __x ← Steps.withEof q .Terminator Steps.leafBlock
        let q ← pure __x.snd
        κ q).cost ≤ D + 91 * (M * M * M) + B := by
  have hM := hf.len
  have hQ := square_ge (M := M) (by omega)
  have hT8 := cube_ge (M := M) (by omega)
  have fl := collFlip_flips eof ts
  have hg2 := fl.good hts
  have hv : ∀ p, (Steps.orElse Steps.code (Steps.orElse (Steps.collapsible (f + 1)) (Steps.orElse Steps.embed Steps.highlight)) p).val
      = orElse code (orElse (collapsible (f + 1)) (orElse embed highlight)) p := fun p =>
    Steps.orElse_val _ _ _ _ Steps.code_val (fun p => Steps.orElse_val _ _ _ _ (Steps.document_val _).1
      (fun p => Steps.orElse_val _ _ _ _ Steps.embed_val Steps.highlight_val p) p) p
  have hce := collapsible_eq (src := src) (pre := pre) (ts := ts) (ops := ops) (eof := eof) (fuel := f) hts hdoc
  have h3 := orElse_cost_st Steps.embed_val embed_refines hg2 (embed_cost (ops := ops) (hf.up.up.flips fl))
    (highlight_cost (ops := ops) (hf.flips fl) hg2)
  have h2 : (Steps.orElse (Steps.collapsible (f + 1)) (Steps.orElse Steps.embed Steps.highlight) (st src pre ts eof ops)).cost
      ≤ 2 * (M * M) + D + (3 * (M * M) + 39 * (M * M * M)) := by
    refine orElse_cost (collapsible_cost hts hf.up.up hdoc hD) ?_
    intro q hq
    rw [(Steps.document_val _).1, hce] at hq
    split at hq
    · cases hq
    · cases hq; exact h3
  have h1 := orElse_cost_st Steps.code_val code_refines hts (code_cost (ops := ops) hf.up.up hts) h2
  refine Nat.le_trans (cost_le h1 (B := 51 * (M * M * M) + B) ?_) (by omega)
  intro a ha
  obtain ⟨b, q⟩ := a
  rw [hv] at ha
  cases b with
  | true =>
    refine Nat.le_trans (m := (κ q).cost) ?_ (Nat.le_trans (hB q ?_) (by omega))
    · exact Nat.le_of_eq ((cost_ok (a := q) rfl).trans (Nat.zero_add _))
    · unfold blockStep; rw [ha]; rfl
  | false =>
    have hq : q = st src pre (collFlip eof ts) eof ops := by
      have e1 := code_refines (src := src) pre ts eof ops hts
      cases hc : codeB eof ts with
      | some x => rw [hc] at e1; rw [orElse_true e1] at ha; cases ha
      | none =>
        rw [hc] at e1
        rw [orElse_false e1] at ha
        cases hcol : collB eof ts with
        | some x => rw [hcol] at hce; rw [orElse_true hce] at ha; cases ha
        | none =>
          rw [hcol] at hce
          rw [orElse_false hce, refines_or embed_refines highlight_refines pre _ eof ops hg2] at ha
          split at ha
          · cases ha; rfl
          · cases ha
    subst hq
    have hfT : Fit M (pre ++ collFlip eof ts) (.Terminator :: eof) := by
      refine ⟨(hf.flips fl).tokens, ?_⟩
      have := hf.stops
      simp only [eofCost, List.map_cons, List.sum_cons] at *
      omega
    have hrT : Room M (.Terminator :: eof) 0 (collFlip eof ts) := by
      unfold Room at *; rw [fl.length]; exact hr
    refine withEof_cost (leafBlock_cost (List.mem_cons_self ..) hfT hrT hg2) ?_
    intro a q hq
    refine Nat.le_trans (m := (κ { q with eof := q.eof.tail }).cost) ?_ (hB _ ?_)
    · exact Nat.le_of_eq ((cost_ok (a := ({ q with eof := q.eof.tail } : P)) rfl).trans (Nat.zero_add _))
    · unfold blockStep
      rw [ha]
      rw [Steps.leafBlock_val] at hq
      show (P.withEof _ _ _ >>= _) = _
      unfold P.withEof
      rw [hq]
      rfl

theorem blockStep_code {f b rest} (hts : Good src ts) (hc : codeB eof ts = some (b, rest)) :
    blockStep (f + 1) (st src pre ts eof ops) = .ok (st src (pre ++ b.toks) rest eof (ops ++ b.ops src)) := by
  have e1 := code_refines (src := src) pre ts eof ops hts
  rw [hc] at e1
  unfold blockStep
  rw [orElse_true e1]
  rfl

theorem blockStep_coll {f x} (hts : Good src ts) (hdoc : InnerEq src eof f ts.length) (hc : codeB eof ts = none)
    (hcol : collB eof ts = some x) : blockStep (f + 1) (st src pre ts eof ops)
      = .ok (st src (pre ++ collToks x) x.2.2.2.2.2 eof (ops ++ collOps src x)) := by
  have e1 := code_refines (src := src) pre ts eof ops hts
  rw [hc] at e1
  have e2 := collapsible_eq (src := src) (pre := pre) (ts := ts) (ops := ops) (eof := eof) (fuel := f) hts hdoc
  rw [hcol] at e2
  unfold blockStep
  rw [orElse_false e1, orElse_true e2]
  rfl

theorem blockStep_other {f} (hts : Good src ts) (hdoc : InnerEq src eof f ts.length) (hc : codeB eof ts = none)
    (hcol : collB eof ts = none) : blockStep (f + 1) (st src pre ts eof ops)
      = .ok (st src (pre ++ (otherB eof (collFlip eof ts)).1.toks) (otherB eof (collFlip eof ts)).2 eof
          (ops ++ (otherB eof (collFlip eof ts)).1.ops src)) := by
  have e1 := code_refines (src := src) pre ts eof ops hts
  rw [hc] at e1
  have e2 := collapsible_eq (src := src) (pre := pre) (ts := ts) (ops := ops) (eof := eof) (fuel := f) hts hdoc
  rw [hcol] at e2
  unfold blockStep
  rw [orElse_false e1, orElse_false e2]
  rcases other_eq (src := src) (pre := pre) (eof := eof) (ops := ops) ((collFlip_flips eof ts).good hts) with h | ⟨q, h1, h2⟩
  · rw [h]; rfl
  · rw [h1]
    show (q.withEof .Terminator leafBlock >>= _) = _
    rw [h2]; rfl

/-- The number of `{%` that may still be tried as the start of a collapsible. -/
def collOpens (ts : List Token) : Nat := ts.countP fun t => decide (t.kind = .CollapsibleStart)

theorem collOpens_append (a b : List Token) : collOpens (a ++ b) = collOpens a + collOpens b := List.countP_append

theorem collOpens_cons (t : Token) (b : List Token) :
    collOpens (t :: b) = collOpens b + if t.kind = .CollapsibleStart then 1 else 0 := by
  simp [collOpens, List.countP_cons]

theorem Flips.collOpens {a b} (h : Flips a b) : collOpens b ≤ collOpens a := by
  induction h with
  | nil => exact Nat.le_refl _
  | cons h _ ih =>
    rw [collOpens_cons, collOpens_cons]
    rcases h with rfl | ⟨h1, rfl⟩
    · omega
    · simp [h1]; omega

theorem collOpens_le (a : List Token) : Yamd.Ref.collOpens a ≤ a.length := List.countP_le_length

theorem collOpens_flipHead {t r} (h : t.kind = .CollapsibleStart) :
    Yamd.Ref.collOpens (flipHead (t :: r)) + 1 = Yamd.Ref.collOpens (t :: r) := by
  rw [flipHead, collOpens_cons, collOpens_cons, if_pos h]
  simp

/-- The cost of a document. -/
theorem documentLoop_cost {L K : Nat} (hL : 92 * (M * M * M) ≤ L) (hK : L * M ≤ K) : ∀ (n : Nat) {ts pre ops fuel eof}, ts.length ≤ n → 3 * ts.length + 3 ≤ fuel →
    Good src ts → weight (pre ++ ts) + 8 ≤ M → eofCost eof + ts.length + 8 ≤ M →
    (Steps.documentLoop fuel (st src pre ts eof ops)).cost
      + L * (docB eof ts).2.length
      + K * Yamd.Ref.collOpens ((docB eof ts).1.toks ++ (docB eof ts).2)
      ≤ L * (ts.length + 1) + K * Yamd.Ref.collOpens ts := by
  intro n
  induction n with
  | zero =>
    intro ts pre ops fuel eof hn hf hts hw hr
    have : ts = [] := by simpa using hn
    subst this
    obtain ⟨f, rfl⟩ : ∃ f, fuel = f + 1 := ⟨fuel - 1, by omega⟩
    have hQ := square_ge (M := M) (by omega)
    have hT8 := cube_ge (M := M) (by omega)
    rw [Steps.documentLoop, cost_tick, atEof_bind, docB_stop rfl]
    simp only [stopAt, if_true, cost_pure, Doc.toks, List.nil_append, Nat.mul_add, Nat.mul_one]
    omega
  | succ n ih =>
    intro ts pre ops fuel eof hn hf hts hw hr
    obtain ⟨f, rfl⟩ : ∃ f, fuel = f + 1 := ⟨fuel - 1, by omega⟩
    have hQ := square_ge (M := M) (by omega)
    have hT8 := cube_ge (M := M) (by omega)
    rw [Steps.documentLoop, cost_tick, atEof_bind]
    cases hs : stopAt eof ts with
    | true =>
      rw [docB_stop hs]
      simp only [if_true, cost_pure, Doc.toks, List.nil_append, Nat.mul_add, Nat.mul_one]
      omega
    | false =>
      simp only [Bool.false_eq_true, if_false]
      have hne : 1 ≤ ts.length := by
        cases ts with
        | nil => simp [stopAt] at hs
        | cons t r => simp
      obtain ⟨f', rfl⟩ : ∃ g, f = g + 1 := ⟨f - 1, by omega⟩
      have hdoc : InnerEq src eof f' ts.length := innerEq (by omega)
      have hfit : Fit M (pre ++ ts) (.Terminator :: .HighlightEnd :: eof) := by
        refine ⟨hw, ?_⟩
        simp only [eofCost, List.map_cons, List.sum_cons, Stop.cost] at *
        omega
      have hroom : Room M (.Terminator :: eof) 0 ts := by
        unfold Room
        simp only [eofCost, List.map_cons, List.sum_cons, Stop.cost] at *
        omega
      have hinner : ∀ {r1 pre' ops'}, r1.length + 2 ≤ ts.length → Good src r1 → pre' ++ r1 = pre ++ ts →
          (Steps.document f' (st src pre' r1 (.CollapsibleEnd :: eof) ops')).cost
            + L * (docB (.CollapsibleEnd :: eof) r1).2.length
            + K * Yamd.Ref.collOpens ((docB (.CollapsibleEnd :: eof) r1).1.toks ++ (docB (.CollapsibleEnd :: eof) r1).2)
            ≤ 1 + (L * (r1.length + 1) + K * Yamd.Ref.collOpens r1) := by
        intro r1 pre' ops' hl hg he
        obtain ⟨g, rfl⟩ : ∃ g, f' = g + 1 := ⟨f' - 1, by omega⟩
        rw [Steps.document, cost_tick, st_push]
        have := ih (ts := r1) (pre := pre') (ops := ops' ++ [.start .Document emptyContent]) (fuel := g)
          (eof := .CollapsibleEnd :: eof) (by omega) (by omega) hg (by rw [he]; exact hw)
          (by simp only [eofCost, List.map_cons, List.sum_cons, Stop.cost] at *; omega)
        have h0 := cost_le (B := 0) (Nat.le_refl _) (fun _ _ => Nat.le_refl 0)
          (x := Steps.documentLoop g (st src pre' r1 (.CollapsibleEnd :: eof) (ops' ++ [.start .Document emptyContent])))
          (f := fun q => pure ((), q.push (.close .Document emptyContent)))
        omega
      have κ : ∀ {D X : Nat}, (∀ q, blockStep (f' + 1) (st src pre ts eof ops) = .ok q →
            (if q.pos > (st src pre ts eof ops).pos then Steps.documentLoop (f' + 1) q
              else paid 0 (.error .panic)).cost ≤ X) →
          (∀ {o m r1 pre' ops'}, collOpenB eof ts = some (o, m, r1) → pre' ++ r1 = pre ++ ts →
            (Steps.document f' (st src pre' r1 (.CollapsibleEnd :: eof) ops')).cost ≤ D) → _ :=
        fun {D X} hB hD => step_cost (M := M) (src := src) (ops := ops) (f := f') (D := D) (B := X)
          (κ := fun q => if q.pos > (st src pre ts eof ops).pos then Steps.documentLoop (f' + 1) q
              else paid 0 (.error .panic)) hts hfit hroom hdoc hD hB
      have step := docB_step hs
      cases step with
      | term t r h ht e =>
        subst h
        rw [st_eat_yes _ ht]
        simp only
        have hx : ∀ o, (Steps.documentLoop (f' + 1) (st src (pre ++ [t]) r eof o)).cost
            ≤ L * (r.length + 1) + K * Yamd.Ref.collOpens r - L * (docB eof r).2.length
              - K * Yamd.Ref.collOpens ((docB eof r).1.toks ++ (docB eof r).2) := by
          intro o
          have := ih (ts := r) (pre := pre ++ [t]) (ops := o) (fuel := f' + 1) (eof := eof) (by simp at hn; omega)
            (by simp at hf; omega) hts.tail (by simpa using hw) (by simp at hr; omega)
          omega
        have hy := ih (ts := r) (pre := pre ++ [t]) (ops := ops) (fuel := f' + 1) (eof := eof) (by simp at hn; omega)
            (by simp at hf; omega) hts.tail (by simpa using hw) (by simp at hr; omega)
        have hc := cost_le (span_cost (M := M) (p := st src (pre ++ [t]) r eof ops) (by simpa using hw) pre.length (pre.length + 1))
          (f := fun c => (do
            let q ← pure ((st src (pre ++ [t]) r eof ops).push (.value c))
            if q.pos > (st src pre (t :: r) eof ops).pos then Steps.documentLoop (f' + 1) q
              else paid 0 (.error .panic) : Counted P))
          (B := L * (r.length + 1) + K * Yamd.Ref.collOpens r - L * (docB eof r).2.length
              - K * Yamd.Ref.collOpens ((docB eof r).1.toks ++ (docB eof r).2)) (by
            intro c _
            refine Nat.le_trans (Nat.le_of_eq (cost_ok (a := st src (pre ++ [t]) r eof (ops ++ [.value c])) rfl)) ?_
            rw [cost_pure, Nat.zero_add]
            split
            · exact hx _
            · exact Nat.zero_le _)
        rw [e]
        simp only [Doc.toks, List.cons_append, collOpens_cons, List.length_cons, Nat.mul_add, Nat.mul_one] at *
        omega
      | code t r h ht b rest hc e =>
        have hl := codeB_lt hc
        have tk := codeB_toks hc
        have hg : Good src (b.toks ++ rest) := by rw [← tk]; exact hts
        rw [st_eat_none _ (by rw [h]; simpa [tokenIs] using ht)]
        simp only
        have hno : collOpenB eof ts = none := by
          rw [h] at hc ⊢
          unfold collOpenB
          rw [if_neg]
          intro hh
          simp only [Bool.and_eq_true, tokenIs, List.getElem?_cons_zero] at hh
          rw [codeB] at hc
          split at hc
          · rename_i h3
            have h4 := hh.1
            simp only [isCollapsibleStart, isBacktick3, Bool.and_eq_true, decide_eq_true_eq] at h3 h4
            rw [h4.1] at h3
            simp at h3
          · simp at hc
        have hx := ih (ts := rest) (pre := pre ++ b.toks) (ops := ops ++ b.ops src) (fuel := f' + 1) (eof := eof) (by omega)
            (by omega) hg.append_right (by rw [List.append_assoc, ← tk]; exact hw) (by omega)
        have hc2 := κ (D := 0) (X := (Steps.documentLoop (f' + 1) (st src (pre ++ b.toks) rest eof (ops ++ b.ops src))).cost)
          (by
            intro q hq
            rw [blockStep_code hts hc] at hq
            cases hq
            split
            · exact Nat.le_refl _
            · exact Nat.zero_le _)
          (fun h _ => by rw [hno] at h; cases h)
        refine Nat.le_trans (Nat.add_le_add_right (Nat.add_le_add_right (Nat.add_le_add_left (Nat.add_le_add_left hc2 _) _) _) _) ?_
        have ho : Yamd.Ref.collOpens ts = Yamd.Ref.collOpens b.toks + Yamd.Ref.collOpens rest := by
          conv => lhs; rw [tk]
          exact collOpens_append _ _
        have hm : L * (rest.length + 1 + 1) ≤ L * (ts.length + 1) := Nat.mul_le_mul_left _ (by omega)
        rw [e, ho]
        simp only [Doc.toks, List.append_assoc, collOpens_append, Nat.mul_add, Nat.mul_one] at *
        omega
      | coll t r h ht o m r1 c r4 hc ho hcl e =>
        rw [st_eat_none _ (by rw [h]; simpa [tokenIs] using ht)]
        simp only
        obtain ⟨tk, ol, hst⟩ := collOpenB_toks ho
        have hcol : collB eof ts = some (o, m, (docB (.CollapsibleEnd :: eof) r1).1,
            (skipEolB (docB (.CollapsibleEnd :: eof) r1).2).1, c, r4) := by
          unfold collB; rw [ho]; simp only [hcl]
        have fl := docB_flips (.CollapsibleEnd :: eof) r1
        have k2 := skipEolB_toks (docB (.CollapsibleEnd :: eof) r1).2
        have k3 := collCloseB_toks hcl
        have l1 := fl.length
        have l2 := congrArg List.length k2
        have l3 := congrArg List.length k3
        have l4 := congrArg List.length tk
        simp only [List.length_append] at l1 l2 l3 l4
        have hgr : Good src r1 := by
          have h1 := hts
          rw [tk] at h1
          exact h1.append_right.append_right
        have hg4 : Good src r4 := by
          have h2 := (fl.good hgr).append_right
          rw [k2] at h2
          have h3 := h2.append_right
          rw [k3] at h3
          exact h3.append_right
        have hw4 : weight (pre ++ collToks (o, m, (docB (.CollapsibleEnd :: eof) r1).1,
            (skipEolB (docB (.CollapsibleEnd :: eof) r1).2).1, c, r4) ++ r4) + 8 ≤ M := by
          have w1 := fl.weight
          rw [k2, k3] at w1
          rw [tk] at hw
          simp only [weight_append, collToks] at *
          omega
        have hD : ∀ {o' m' r1' pre' ops'}, collOpenB eof ts = some (o', m', r1') → pre' ++ r1' = pre ++ ts →
            (Steps.document f' (st src pre' r1' (.CollapsibleEnd :: eof) ops')).cost
              ≤ 1 + (L * (r1.length + 1) + K * Yamd.Ref.collOpens r1)
                - L * (docB (.CollapsibleEnd :: eof) r1).2.length
                - K * Yamd.Ref.collOpens ((docB (.CollapsibleEnd :: eof) r1).1.toks ++ (docB (.CollapsibleEnd :: eof) r1).2) := by
          intro o' m' r1' pre' ops' ho' he
          rw [ho] at ho'
          cases ho'
          have := hinner (r1 := r1) (ops' := ops') (by omega) hgr he
          omega
        have hin := hinner (r1 := r1) (ops' := ops) (pre' := pre ++ o ++ modToks m) (by omega) hgr
          (by conv => rhs; rw [tk]
              simp)
        have hx := ih (ts := r4) (pre := pre ++ collToks (o, m, (docB (.CollapsibleEnd :: eof) r1).1,
            (skipEolB (docB (.CollapsibleEnd :: eof) r1).2).1, c, r4)) (ops := ops ++ collOps src (o, m, (docB (.CollapsibleEnd :: eof) r1).1,
            (skipEolB (docB (.CollapsibleEnd :: eof) r1).2).1, c, r4)) (fuel := f' + 1) (eof := eof) (by omega)
            (by omega) hg4 hw4 (by omega)
        have hc2 := κ (X := (Steps.documentLoop (f' + 1) (st src (pre ++ collToks (o, m, (docB (.CollapsibleEnd :: eof) r1).1,
            (skipEolB (docB (.CollapsibleEnd :: eof) r1).2).1, c, r4)) r4 eof (ops ++ collOps src (o, m, (docB (.CollapsibleEnd :: eof) r1).1,
            (skipEolB (docB (.CollapsibleEnd :: eof) r1).2).1, c, r4)))).cost)
          (by
            intro q hq
            rw [blockStep_coll hts hdoc hc hcol] at hq
            cases hq
            split
            · exact Nat.le_refl _
            · exact Nat.zero_le _) hD
        refine Nat.le_trans (Nat.add_le_add_right (Nat.add_le_add_right (Nat.add_le_add_left (Nat.add_le_add_left hc2 _) _) _) _) ?_
        have ho1 : Yamd.Ref.collOpens ts = Yamd.Ref.collOpens o + (Yamd.Ref.collOpens (modToks m) + Yamd.Ref.collOpens r1) := by
          conv => lhs; rw [tk]
          rw [collOpens_append, collOpens_append]
        have ho2 : Yamd.Ref.collOpens (docB (.CollapsibleEnd :: eof) r1).2
            = Yamd.Ref.collOpens (skipEolB (docB (.CollapsibleEnd :: eof) r1).2).1 + (Yamd.Ref.collOpens c + Yamd.Ref.collOpens r4) := by
          conv => lhs; rw [k2, k3]
          rw [collOpens_append, collOpens_append]
        have hcl1 : 1 ≤ c.length := by
          unfold collCloseB at hcl
          split at hcl
          · rename_i h5
            have := tokenIs_length h5
            split at hcl <;> cases hcl <;> simp <;> omega
          · simp at hcl
        have hm : L * (r1.length + 1 + (r4.length + 1) + 1) ≤ L * (ts.length + 1 + (docB (.CollapsibleEnd :: eof) r1).2.length) :=
          Nat.mul_le_mul_left _ (by omega)
        rw [collOpens_append, ho2] at hin hc2 ⊢
        rw [e, ho1]
        simp only [Doc.toks, List.append_assoc, collOpens_append, Nat.mul_add, Nat.mul_one] at *
        omega
      | fallback t r h ht o m r1 hc ho hcl e =>
        rw [st_eat_none _ (by rw [h]; simpa [tokenIs] using ht)]
        simp only
        obtain ⟨tk, ol, hst⟩ := collOpenB_toks ho
        have hcol : collB eof ts = none := by unfold collB; rw [ho]; simp only [hcl]
        have hcf : collFlip eof ts = flipHead (o ++ (modToks m ++ ((docB (.CollapsibleEnd :: eof) r1).1.toks ++
            (docB (.CollapsibleEnd :: eof) r1).2))) := by
          unfold collFlip; rw [ho]
        rw [← hcf] at e
        have flc := collFlip_flips eof ts
        have tk2 := otherB_toks eof (collFlip eof ts)
        have hlc := flc.length
        have hgo : Good src (otherB eof (collFlip eof ts)).2 := by
          have := flc.good hts; rw [tk2] at this; exact this.append_right
        have l1 := congrArg List.length tk
        simp only [List.length_append] at l1
        have hgr : Good src r1 := by
          have h1 := hts
          rw [tk] at h1
          exact h1.append_right.append_right
        have hopn : Yamd.Ref.collOpens (collFlip eof ts) + 1 = Yamd.Ref.collOpens o + (Yamd.Ref.collOpens (modToks m) +
            Yamd.Ref.collOpens ((docB (.CollapsibleEnd :: eof) r1).1.toks ++ (docB (.CollapsibleEnd :: eof) r1).2)) := by
          rw [hcf]
          match o, ol, tk with
          | [a, b], _, tk =>
          have ha : a.kind = .CollapsibleStart := by
            rw [tk] at hst
            simp only [tokenIs, isCollapsibleStart, List.cons_append, List.getElem?_cons_zero,
              Bool.and_eq_true, decide_eq_true_eq] at hst
            exact hst.1
          rw [List.cons_append, collOpens_flipHead ha, ← List.cons_append, collOpens_append, collOpens_append]
        have hlt : (otherB eof (collFlip eof ts)).2.length < ts.length := by
          match o, ol, tk, hcf with
          | [a, b], _, tk, hcf =>
          have := otherB_lt (stops := eof) (ts := flipHead ([a, b] ++ (modToks m ++ ((docB (.CollapsibleEnd :: eof) r1).1.toks ++
            (docB (.CollapsibleEnd :: eof) r1).2)))) (stop_literal rfl)
          rw [← hcf] at this
          omega
        have hD : ∀ {o' m' r1' pre' ops'}, collOpenB eof ts = some (o', m', r1') → pre' ++ r1' = pre ++ ts →
            (Steps.document f' (st src pre' r1' (.CollapsibleEnd :: eof) ops')).cost
              ≤ 1 + (L * (r1.length + 1) + K * Yamd.Ref.collOpens r1)
                - L * (docB (.CollapsibleEnd :: eof) r1).2.length
                - K * Yamd.Ref.collOpens ((docB (.CollapsibleEnd :: eof) r1).1.toks ++ (docB (.CollapsibleEnd :: eof) r1).2) := by
          intro o' m' r1' pre' ops' ho' he
          rw [ho] at ho'
          cases ho'
          have := hinner (r1 := r1) (ops' := ops') (by omega) hgr he
          omega
        have hin := hinner (r1 := r1) (ops' := ops) (pre' := pre ++ o ++ modToks m) (by omega) hgr
          (by conv => rhs; rw [tk]
              simp)
        have hx := ih (ts := (otherB eof (collFlip eof ts)).2) (pre := pre ++ (otherB eof (collFlip eof ts)).1.toks)
            (ops := ops ++ (otherB eof (collFlip eof ts)).1.ops src) (fuel := f' + 1) (eof := eof) (by omega)
            (by omega) hgo (by
              rw [List.append_assoc, ← tk2, weight_append, flc.weight, ← weight_append]; exact hw) (by omega)
        have hc2 := κ (X := (Steps.documentLoop (f' + 1) (st src (pre ++ (otherB eof (collFlip eof ts)).1.toks)
            (otherB eof (collFlip eof ts)).2 eof (ops ++ (otherB eof (collFlip eof ts)).1.ops src))).cost)
          (by
            intro q hq
            rw [blockStep_other hts hdoc hc hcol] at hq
            cases hq
            split
            · exact Nat.le_refl _
            · exact Nat.zero_le _) hD
        refine Nat.le_trans (Nat.add_le_add_right (Nat.add_le_add_right (Nat.add_le_add_left (Nat.add_le_add_left hc2 _) _) _) _) ?_
        have ho1 : Yamd.Ref.collOpens ts = Yamd.Ref.collOpens o + (Yamd.Ref.collOpens (modToks m) + Yamd.Ref.collOpens r1) := by
          conv => lhs; rw [tk]
          rw [collOpens_append, collOpens_append]
        have ho2 := congrArg Yamd.Ref.collOpens tk2
        rw [collOpens_append] at ho2
        have hm : L * ((otherB eof (collFlip eof ts)).2.length + 1) ≤ L * ts.length := Nat.mul_le_mul_left _ (by omega)
        have hm2 : L * (r1.length + 2) ≤ K := Nat.le_trans (Nat.mul_le_mul_left _ (by omega)) hK
        have ho3 : K * (Yamd.Ref.collOpens (collFlip eof ts) + 1) = K * (Yamd.Ref.collOpens o + (Yamd.Ref.collOpens (modToks m) +
            Yamd.Ref.collOpens ((docB (.CollapsibleEnd :: eof) r1).1.toks ++ (docB (.CollapsibleEnd :: eof) r1).2))) := by
          rw [hopn]
        rw [ho2] at ho3
        rw [e, ho1]
        simp only [Doc.toks, List.append_assoc, collOpens_append, Nat.mul_add, Nat.mul_one] at *
        omega
      | other t r h ht hc ho e =>
        rw [st_eat_none _ (by rw [h]; simpa [tokenIs] using ht)]
        simp only
        have hcol : collB eof ts = none := by unfold collB; rw [ho]
        have hcf : collFlip eof ts = flipOpen ts := by
          unfold collFlip; rw [ho]
        rw [← hcf] at e
        have flc := collFlip_flips eof ts
        have tk2 := otherB_toks eof (collFlip eof ts)
        have hlc := flc.length
        have hgo : Good src (otherB eof (collFlip eof ts)).2 := by
          have := flc.good hts; rw [tk2] at this; exact this.append_right
        have hlt : (otherB eof (collFlip eof ts)).2.length < (collFlip eof ts).length := by
          apply otherB_lt
          rw [hcf, h]
          exact flipOpen_stop (h ▸ hs) ht
        have hx := ih (ts := (otherB eof (collFlip eof ts)).2) (pre := pre ++ (otherB eof (collFlip eof ts)).1.toks)
            (ops := ops ++ (otherB eof (collFlip eof ts)).1.ops src) (fuel := f' + 1) (eof := eof) (by omega)
            (by omega) hgo (by
              rw [List.append_assoc, ← tk2, weight_append, flc.weight, ← weight_append]; exact hw) (by omega)
        have hc2 := κ (D := 0) (X := (Steps.documentLoop (f' + 1) (st src (pre ++ (otherB eof (collFlip eof ts)).1.toks)
            (otherB eof (collFlip eof ts)).2 eof (ops ++ (otherB eof (collFlip eof ts)).1.ops src))).cost)
          (by
            intro q hq
            rw [blockStep_other hts hdoc hc hcol] at hq
            cases hq
            split
            · exact Nat.le_refl _
            · exact Nat.zero_le _) (fun h _ => by rw [ho] at h; cases h)
        refine Nat.le_trans (Nat.add_le_add_right (Nat.add_le_add_right (Nat.add_le_add_left (Nat.add_le_add_left hc2 _) _) _) _) ?_
        have ho1 : K * Yamd.Ref.collOpens (collFlip eof ts) ≤ K * Yamd.Ref.collOpens ts := Nat.mul_le_mul_left _ flc.collOpens
        have ho2 := congrArg Yamd.Ref.collOpens tk2
        rw [collOpens_append] at ho2
        have hm : L * ((otherB eof (collFlip eof ts)).2.length + 1) ≤ L * ts.length := Nat.mul_le_mul_left _ (by omega)
        rw [ho2] at ho1
        rw [e]
        simp only [Doc.toks, List.append_assoc, collOpens_append, Nat.mul_add, Nat.mul_one] at *
        omega

end Yamd.Ref
