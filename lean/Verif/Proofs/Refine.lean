import Verif.Proofs.RefToks
import Verif.Proofs.LexProps

/-!
# The modelled parser refines the reference parser: documents and `parse`
-/

namespace Yamd.Ref

open Yamd

variable {src : Str} {pre ts r : List Token} {eof : List Stop} {ops : List Op} {t : Token}

theorem leafBlock_eq (hts : Good src ts) : leafBlock (st src pre ts eof ops)
    = .ok ((), st src (pre ++ (leafB eof ts).1.toks) (leafB eof ts).2 eof
        (ops ++ (leafB eof ts).1.ops src)) := by
  unfold leafBlock
  simp only [bind, Except.bind]
  rw [refines_or list_refines (refines_or images_refines (refines_or thematic_refines heading_refines))
    pre ts eof ops hts]
  unfold orB leafB
  dsimp only
  cases hi : itemsB eof 0 none ts with
  | mk i rest =>
    cases i with
    | cons k m p n r => rfl
    | nil =>
      simp only
      cases h2 : imagesB eof ts with
      | some x =>
        obtain ⟨l, r⟩ := x
        cases l with
        | cons i l => rfl
        | nil =>
          simp only
          cases h3 : thematicB ts with
          | some x => rfl
          | none =>
            simp only
            cases h4 : headingB eof ts with
            | some x => rfl
            | none => exact paragraph_eq hts
      | none =>
        simp only
        cases h3 : thematicB ts with
        | some x => rfl
        | none =>
          simp only
          cases h4 : headingB eof ts with
          | some x => rfl
          | none => exact paragraph_eq hts

/-- The alternatives after `collapsible`. -/
theorem other_eq (hts : Good src ts) :
    let T := st src (pre ++ (otherB eof ts).1.toks) (otherB eof ts).2 eof (ops ++ (otherB eof ts).1.ops src)
    orElse embed highlight (st src pre ts eof ops) = .ok (true, T) ∨
    (∃ q, orElse embed highlight (st src pre ts eof ops) = .ok (false, q) ∧
      q.withEof .Terminator leafBlock = .ok ((), T)) := by
  intro T
  rw [refines_or embed_refines highlight_refines pre ts eof ops hts]
  simp only [T]
  unfold orB otherB
  cases h1 : embedB eof ts with
  | some x => exact .inl rfl
  | none =>
    simp only
    cases h2 : highlightB eof ts with
    | some x => exact .inl rfl
    | none => exact .inr ⟨_, rfl, st_withEof (leafBlock_eq hts)⟩

theorem modify_at (f : Token → Token) : ∀ (pre : List Token) (t : Token) (r : List Token),
    (pre ++ t :: r).modify pre.length f = pre ++ f t :: r
  | [], _, _ => rfl
  | a :: pre, t, r => by
    have := modify_at f pre t r
    simp only [List.cons_append, List.length_cons, List.modify_succ_cons, this]

theorem orElse_false {f g : P → R (Bool × P)} {p q : P} (h : f p = .ok (false, q)) :
    orElse f g p = g q := by
  unfold orElse
  simp only [bind, Except.bind, h]

theorem orElse_true {f g : P → R (Bool × P)} {p q : P} (h : f p = .ok (true, q)) :
    orElse f g p = .ok (true, q) := by
  unfold orElse
  simp only [bind, Except.bind, h]
  rfl

theorem flip_st : (st src pre ts eof ops).flipToLiteral pre.length = st src pre (flipHead ts) eof ops := by
  cases ts with
  | nil => simp [P.flipToLiteral, st, flipHead, List.modify_eq_self]
  | cons t r =>
    simp only [P.flipToLiteral, st, flipHead]
    congr 1
    exact modify_at _ pre t r

theorem skipEol_eq : ((st src pre ts eof ops).eat isEol).2
    = st src (pre ++ (skipEolB ts).1) (skipEolB ts).2 eof ops := by
  unfold skipEolB
  cases h : tokenIs ts 0 isEol with
  | false => rw [st_eat_none _ h]; simp
  | true =>
    cases ts with
    | nil => simp [tokenIs] at h
    | cons t r =>
      rw [st_eat_yes _ (by simpa [tokenIs] using h)]
      simp

theorem collClose_eq : collClose (st src pre ts eof ops)
    = match collCloseB ts with
      | none => (none, st src pre ts eof ops)
      | some (c, r) => (some (pre.length, pre.length + c.length), st src (pre ++ c) r eof ops) := by
  unfold collCloseB collClose
  cases h : tokenIs ts 0 isCollapsibleEnd with
  | false =>
    rw [eatSeq2_no (by simp [h])]
    simp only
    rw [st_eat_none _ h]
    simp
  | true =>
    simp only [if_true]
    cases h2 : tokenIs ts 1 isEol with
    | true =>
      rw [eatSeq2_yes h h2]
      simp only [if_true, take2_length h2]
    | false =>
      rw [eatSeq2_no (by simp [h2])]
      simp only [Bool.false_eq_true, if_false]
      cases ts with
      | nil => simp [tokenIs] at h
      | cons t r =>
        rw [st_eat_yes _ (by simpa [tokenIs] using h)]
        simp

/-- What `collapsible` does to the tokens from its start on, when it fails. -/
def collFlip (stops : List Stop) (ts : List Token) : List Token :=
  match collOpenB stops ts with
  | none => flipOpen ts
  | some (o, m, r1) =>
    flipHead (o ++ (modToks m ++ ((docB (.CollapsibleEnd :: stops) r1).1.toks ++
      (docB (.CollapsibleEnd :: stops) r1).2)))

/-- The whole of a collapsible, when it succeeds. -/
def collB (stops : List Stop) (ts : List Token) :
    Option (List Token × Option Mod × Doc × List Token × List Token × List Token) :=
  match collOpenB stops ts with
  | none => none
  | some (o, m, r1) =>
    match collCloseB (skipEolB (docB (.CollapsibleEnd :: stops) r1).2).2 with
    | none => none
    | some (c, r4) => some (o, m, (docB (.CollapsibleEnd :: stops) r1).1,
        (skipEolB (docB (.CollapsibleEnd :: stops) r1).2).1, c, r4)

def collToks (x : List Token × Option Mod × Doc × List Token × List Token × List Token) : List Token :=
  x.1 ++ (modToks x.2.1 ++ (x.2.2.1.toks ++ (x.2.2.2.1 ++ x.2.2.2.2.1)))

def collOps (src : Str) (x : List Token × Option Mod × Doc × List Token × List Token × List Token) :
    List Op :=
  .start .Collapsible (content src x.1) ::
      (modOps src x.2.1 ++ (.start .Document emptyContent ::
        (x.2.2.1.ops src ++ [.close .Document emptyContent,
          .close .Collapsible (content src x.2.2.2.2.1)])))

theorem collapsible_eq {fuel : Nat} (hts : Good src ts)
    (hdoc : ∀ {r1 : List Token} {pre : List Token} {ops : List Op}, r1.length + 2 ≤ ts.length → Good src r1 →
      document fuel (st src pre r1 (.CollapsibleEnd :: eof) ops) =
        .ok ((), st src (pre ++ (docB (.CollapsibleEnd :: eof) r1).1.toks) (docB (.CollapsibleEnd :: eof) r1).2
          (.CollapsibleEnd :: eof) (ops ++ (.start .Document emptyContent ::
            ((docB (.CollapsibleEnd :: eof) r1).1.ops src ++ [.close .Document emptyContent]))))) :
    collapsible (fuel + 1) (st src pre ts eof ops) =
      match collB eof ts with
      | some x => .ok (true, st src (pre ++ collToks x) x.2.2.2.2.2 eof (ops ++ collOps src x))
      | none => .ok (false, st src pre (collFlip eof ts) eof ops) := by
  rw [collapsible]
  unfold collB collFlip
  cases hopen : (tokenIs ts 0 isCollapsibleStart && tokenIs ts 1 isSpaceOrEol) with
  | false =>
    rw [eatSeq2_no hopen]
    have h1 : collOpenB eof ts = none := by unfold collOpenB; rw [if_neg (by simp [hopen])]
    have h2 : flipOpen ts = ts := by unfold flipOpen; rw [if_neg (by simp [hopen])]
    rw [h1]
    simp [h2]
  | true =>
    have hh := hopen
    simp only [Bool.and_eq_true] at hh
    rw [eatSeq2_yes hh.1 hh.2]
    simp only [bind, Except.bind]
    rw [st_spanAt (a := pre) (b := ts.take 2) (c := ts.drop 2) (by simp) rfl
      (by rw [take2_length hh.2]) (hts.take 2)]
    simp only [st_push, st_pos, st_ops]
    obtain ⟨b, hb⟩ := optMod_eq (src := src) (pre := pre ++ ts.take 2) (ts := ts.drop 2) (eof := eof)
            (ops := ops ++ [.start .Collapsible (content src (ts.take 2))]) (hts.drop 2)
    rw [hb]
    have tk := optModB_toks eof (ts.drop 2)
    have hs2 : ts.take 2 ++ modToks (optModB eof (ts.drop 2)).1 ++ (optModB eof (ts.drop 2)).2 = ts := by
      rw [List.append_assoc, ← tk, List.take_append_drop]
    simp only [st_atTok]
    cases hc : tokenIs (optModB eof (ts.drop 2)).2 0 col0 with
    | false =>
      have h1 : collOpenB eof ts = none := by
        unfold collOpenB; rw [if_pos hopen, if_neg (by simp [hc])]
      have h2 : flipOpen ts = flipHead ts := by unfold flipOpen; rw [if_pos hopen]
      simp only [Bool.not_false, if_true, pure, Except.pure]
      rw [h1]
      simp only [h2]
      rw [List.append_assoc, List.append_assoc, restore_st, hs2, flip_st]
    | true =>
      have h1 : collOpenB eof ts = some (ts.take 2, (optModB eof (ts.drop 2)).1, (optModB eof (ts.drop 2)).2) := by
        unfold collOpenB; rw [if_pos hopen, if_pos hc]
      rw [h1]
      simp only [Bool.not_true, Bool.false_eq_true, if_false]
      generalize hM : optModB eof (ts.drop 2) = M at *
      obtain ⟨m, r1⟩ := M
      simp only at *
      have hl : r1.length + 2 ≤ ts.length := by
        have := congrArg List.length hs2
        simp only [List.length_append, take2_length hh.2] at this
        omega
      have hgr : Good src r1 := by
        have := hts; rw [← hs2] at this; exact this.append_right
      have hg2 : Good src (ts.take 2 ++ modToks m) := by
        have := hts; rw [← hs2] at this; exact this.append_left
      rw [st_withEof (hdoc hl hgr)]
      have fl := docB_flips (.CollapsibleEnd :: eof) r1
      have hgi : Good src ((docB (.CollapsibleEnd :: eof) r1).1.toks ++ (docB (.CollapsibleEnd :: eof) r1).2) :=
        fl.good hgr
      generalize docB (.CollapsibleEnd :: eof) r1 = I at *
      obtain ⟨inner, r2⟩ := I
      simp only at *
      rw [skipEol_eq, collClose_eq]
      have tk2 := skipEolB_toks r2
      cases hcl : collCloseB (skipEolB r2).2 with
      | none =>
        simp only [pure, Except.pure]
        have e : pre ++ ts.take 2 ++ modToks m ++ inner.toks ++ (skipEolB r2).1
            = pre ++ (ts.take 2 ++ (modToks m ++ (inner.toks ++ (skipEolB r2).1))) := by simp
        rw [e, List.append_assoc, List.append_assoc, restore_st, flip_st]
        have e2 : ts.take 2 ++ (modToks m ++ (inner.toks ++ (skipEolB r2).1)) ++ (skipEolB r2).2
            = ts.take 2 ++ (modToks m ++ (inner.toks ++ r2)) := by
          conv => rhs; rw [tk2]
          simp
        rw [e2]
      | some x =>
        obtain ⟨c, r4⟩ := x
        have tk3 := collCloseB_toks hcl
        simp only
        have hgc : Good src c := by
          have := hgi.append_right
          rw [tk2] at this
          have := this.append_right
          rw [tk3] at this
          exact this.append_left
        rw [st_spanAt (a := pre ++ ts.take 2 ++ modToks m ++ inner.toks ++ (skipEolB r2).1) (b := c) (c := r4)
          (by simp) rfl rfl hgc]
        simp [pure, Except.pure, st_push, collToks, collOps]

theorem docB_le (stops ts) : (docB stops ts).2.length ≤ ts.length := by
  have := (docB_flips stops ts).length
  simp only [List.length_append] at this
  omega

theorem pos_lt {p q : P} {a b : Nat} (h1 : p.pos = a) (h2 : q.pos = b) (h : a < b) : q.pos > p.pos := by
  omega

theorem documentLoop_eq : ∀ (n : Nat) {ts pre ops fuel eof}, ts.length ≤ n → 3 * ts.length + 3 ≤ fuel →
    Good src ts → documentLoop fuel (st src pre ts eof ops) =
      .ok (st src (pre ++ (docB eof ts).1.toks) (docB eof ts).2 eof (ops ++ (docB eof ts).1.ops src)) := by
  intro n
  induction n with
  | zero =>
    intro ts pre ops fuel eof hn hf hts
    have : ts = [] := by simpa using hn
    subst this
    obtain ⟨f, rfl⟩ : ∃ f, fuel = f + 1 := ⟨fuel - 1, by omega⟩
    rw [documentLoop, st_atEof, docB_stop rfl]
    simp [stopAt, Doc.toks, Doc.ops]
  | succ n ih =>
    intro ts pre ops fuel eof hn hf hts
    obtain ⟨f, rfl⟩ : ∃ f, fuel = f + 1 := ⟨fuel - 1, by omega⟩
    rw [documentLoop, st_atEof]
    cases hs : stopAt eof ts with
    | true => rw [docB_stop hs]; simp [Doc.toks, Doc.ops]
    | false =>
      simp only [Bool.false_eq_true, if_false]
      have hdoc : 3 * ts.length ≤ f → ∀ f' , f = f' + 1 → ∀ {r1 : List Token} {pre : List Token} {ops : List Op}, r1.length + 2 ≤ ts.length → Good src r1 →
        document f' (st src pre r1 (.CollapsibleEnd :: eof) ops) =
          .ok ((), st src (pre ++ (docB (.CollapsibleEnd :: eof) r1).1.toks) (docB (.CollapsibleEnd :: eof) r1).2
            (.CollapsibleEnd :: eof) (ops ++ (.start .Document emptyContent ::
              ((docB (.CollapsibleEnd :: eof) r1).1.ops src ++ [.close .Document emptyContent])))) := by
        intro hf0 f' hf' r1 pre ops hl hg
        obtain ⟨g, rfl⟩ : ∃ g, f' = g + 1 := ⟨f' - 1, by omega⟩
        rw [document]
        simp only [bind, Except.bind, st_push]
        rw [ih (by omega) (by omega) hg]
        simp [pure, Except.pure, st_push]
      have step := docB_step hs
      have hfl0 : Good src (collFlip eof ts) := by
        unfold collFlip
        cases ho : collOpenB eof ts with
        | none => exact (flips_flipOpen ts).good hts
        | some x =>
          obtain ⟨o, m, r1⟩ := x
          obtain ⟨tk, ol, hst⟩ := collOpenB_toks ho
          simp only
          match o, ol, tk with
          | [a, b], _, tk =>
          have ha : a.kind = .CollapsibleStart := by
            rw [tk] at hst
            simp only [tokenIs, isCollapsibleStart, List.cons_append, List.getElem?_cons_zero,
              Bool.and_eq_true, decide_eq_true_eq] at hst
            exact hst.1
          refine Flips.good (flips_flipHead ha) ?_
          refine Flips.good (a := ts) ?_ hts
          conv => lhs; rw [tk]
          exact (Flips.refl [a, b]).append ((Flips.refl _).append (docB_flips _ _))
      have hfl' : isTerminator (ts.headD ⟨.Eol, 0, 0, ⟨0, 0, 0⟩, false⟩) = false →
          Good src (otherB eof (collFlip eof ts)).2 := by
        intro _
        have h1 := hfl0
        rw [otherB_toks eof (collFlip eof ts)] at h1
        exact h1.append_right
      have others : isTerminator (ts.headD ⟨.Eol, 0, 0, ⟨0, 0, 0⟩, false⟩) = false → codeB eof ts = none → collB eof ts = none →
          orElse code (orElse (collapsible f) (orElse embed highlight)) (st src pre ts eof ops)
            = .ok (true, st src (pre ++ (otherB eof (collFlip eof ts)).1.toks) (otherB eof (collFlip eof ts)).2 eof
            (ops ++ (otherB eof (collFlip eof ts)).1.ops src)) ∨
          (∃ q, orElse code (orElse (collapsible f) (orElse embed highlight)) (st src pre ts eof ops) = .ok (false, q) ∧
            q.withEof .Terminator leafBlock = .ok ((), st src (pre ++ (otherB eof (collFlip eof ts)).1.toks) (otherB eof (collFlip eof ts)).2 eof
            (ops ++ (otherB eof (collFlip eof ts)).1.ops src))) := by
        intro _ hc hcol
        obtain ⟨f', rfl⟩ : ∃ g, f = g + 1 := ⟨f - 1, by omega⟩
        have hfl := hfl0
        have h1 : orElse code (orElse (collapsible (f' + 1)) (orElse embed highlight)) (st src pre ts eof ops)
            = orElse embed highlight (st src pre (collFlip eof ts) eof ops) := by
          have e1 : code (st src pre ts eof ops) = .ok (false, st src pre ts eof ops) := by
            rw [code_refines _ _ _ _ hts, hc]
          have e2 : collapsible (f' + 1) (st src pre ts eof ops) = .ok (false, st src pre (collFlip eof ts) eof ops) := by
            rw [collapsible_eq hts (hdoc (by omega) f' rfl), hcol]
          rw [orElse_false e1, orElse_false e2]
        rw [h1]
        exact other_eq hfl
      cases step with
      | term t r h ht e =>
        subst h
        rw [st_eat_yes _ ht]
        simp only [bind, Except.bind]
        rw [st_spanAt (a := pre) (b := [t]) (c := r) (by simp) rfl (by simp) hts.single]
        simp only [pure, Except.pure, st_push]
        rw [if_pos (by simp), ih (by simp at hn; omega) (by simp at hf; omega) hts.tail, e]
        simp [Doc.toks, Doc.ops]
      | code t r h ht b rest hc e =>
        have hl := codeB_lt hc
        have tk := codeB_toks hc
        have hg : Good src (b.toks ++ rest) := by rw [← tk]; exact hts
        rw [st_eat_none _ (by rw [h]; simpa [tokenIs] using ht)]
        simp only [bind, Except.bind]
        have : orElse code (orElse (collapsible f) (orElse embed highlight)) (st src pre ts eof ops)
          = .ok (true, st src (pre ++ b.toks) rest eof (ops ++ b.ops src)) := by
          have e1 : code (st src pre ts eof ops) = .ok (true, st src (pre ++ b.toks) rest eof (ops ++ b.ops src)) := by
            rw [code_refines _ _ _ _ hts, hc]
          rw [orElse_true e1]
        rw [this]
        simp only [pure, Except.pure]
        have hlen := congrArg List.length tk
        rw [List.length_append] at hlen
        rw [if_pos (by simp; omega), ih (by omega) (by omega) hg.append_right, e]
        simp [Doc.toks, Doc.ops]
      | coll t r h ht o m r1 c r4 hc ho hcl e =>
        obtain ⟨f', rfl⟩ : ∃ g, f = g + 1 := ⟨f - 1, by omega⟩
        rw [st_eat_none _ (by rw [h]; simpa [tokenIs] using ht)]
        simp only [bind, Except.bind]
        obtain ⟨tk, ol, hst⟩ := collOpenB_toks ho
        have hcol : collB eof ts = some (o, m, (docB (.CollapsibleEnd :: eof) r1).1,
            (skipEolB (docB (.CollapsibleEnd :: eof) r1).2).1, c, r4) := by
          unfold collB; rw [ho]; simp only [hcl]
        have : orElse code (orElse (collapsible (f' + 1)) (orElse embed highlight)) (st src pre ts eof ops)
          = .ok (true, st src (pre ++ collToks (o, m, (docB (.CollapsibleEnd :: eof) r1).1,
            (skipEolB (docB (.CollapsibleEnd :: eof) r1).2).1, c, r4)) r4 eof (ops ++ collOps src (o, m, (docB (.CollapsibleEnd :: eof) r1).1,
            (skipEolB (docB (.CollapsibleEnd :: eof) r1).2).1, c, r4))) := by
          have e1 : code (st src pre ts eof ops) = .ok (false, st src pre ts eof ops) := by
            rw [code_refines _ _ _ _ hts, hc]
          have e2 := collapsible_eq (src := src) (pre := pre) (ts := ts) (ops := ops) hts (hdoc (by omega) f' rfl)
          rw [hcol] at e2
          rw [orElse_false e1, orElse_true e2]
        rw [this]
        simp only [pure, Except.pure]
        have fl := docB_flips (.CollapsibleEnd :: eof) r1
        have k2 := skipEolB_toks (docB (.CollapsibleEnd :: eof) r1).2
        have k3 := collCloseB_toks hcl
        have l1 := fl.length
        have l2 := congrArg List.length k2
        have l3 := congrArg List.length k3
        have l4 := congrArg List.length tk
        simp only [List.length_append] at l1 l2 l3 l4
        have hg4 : Good src r4 := by
          have h1 := hts
          rw [tk] at h1
          have h2 := (fl.good h1.append_right.append_right).append_right
          rw [k2] at h2
          have h3 := h2.append_right
          rw [k3] at h3
          exact h3.append_right
        rw [if_pos (by simp [collToks]; omega), ih (by omega) (by omega) hg4, e]
        simp [Doc.toks, Doc.ops, collToks, collOps]
      | fallback t r h ht o m r1 hc ho hcl e =>
        rw [st_eat_none _ (by rw [h]; simpa [tokenIs] using ht)]
        simp only [bind, Except.bind]
        have hcol : collB eof ts = none := by unfold collB; rw [ho]; simp only [hcl]
        have hcf : collFlip eof ts = flipHead (o ++ (modToks m ++ ((docB (.CollapsibleEnd :: eof) r1).1.toks ++
            (docB (.CollapsibleEnd :: eof) r1).2))) := by
          unfold collFlip; rw [ho]
        have := others (by rw [h]; exact ht) hc hcol
        rw [← hcf] at e
        have hlt : (otherB eof (collFlip eof ts)).2.length < ts.length := by
          obtain ⟨tk, ol, hst⟩ := collOpenB_toks ho
          match o, ol, tk, hcf with
          | [a, b], _, tk, hcf =>
          have := otherB_lt (stops := eof) (ts := flipHead ([a, b] ++ (modToks m ++ ((docB (.CollapsibleEnd :: eof) r1).1.toks ++
            (docB (.CollapsibleEnd :: eof) r1).2)))) (stop_literal rfl)
          rw [flipHead_length, ← hcf] at this
          have l1 := (docB_flips (.CollapsibleEnd :: eof) r1).length
          have l2 := congrArg List.length tk
          simp only [List.length_append] at l1 l2 this
          omega
        have tk2 := otherB_toks eof (collFlip eof ts)
        have hgo := hfl' (by rw [h]; exact ht)
        have hlen : (collFlip eof ts).length = ts.length := by
          rw [hcf, flipHead_length]
          obtain ⟨tk, ol, hst⟩ := collOpenB_toks ho
          have l1 := (docB_flips (.CollapsibleEnd :: eof) r1).length
          have l2 := congrArg List.length tk
          simp only [List.length_append] at l1 l2 ⊢
          omega
        have l3 := congrArg List.length tk2
        rw [List.length_append] at l3
        have hpos : (pre ++ (otherB eof (collFlip eof ts)).1.toks).length > pre.length := by
          simp only [List.length_append]; omega
        rcases this with h1 | ⟨q, h1, h2⟩
        · rw [h1]
          simp only [pure, Except.pure]
          rw [if_pos (by simpa only [st_pos] using hpos), ih (by omega) (by omega) hgo, e]
          simp [Doc.toks, Doc.ops]
        · rw [h1]
          simp only [h2, pure, Except.pure]
          rw [if_pos (by simpa only [st_pos] using hpos), ih (by omega) (by omega) hgo, e]
          simp [Doc.toks, Doc.ops]
      | other t r h ht hc ho e =>
        rw [st_eat_none _ (by rw [h]; simpa [tokenIs] using ht)]
        simp only [bind, Except.bind]
        have hcol : collB eof ts = none := by unfold collB; rw [ho]
        have hcf : collFlip eof ts = flipOpen ts := by
          unfold collFlip; rw [ho]
        have := others (by rw [h]; exact ht) hc hcol
        rw [← hcf] at e
        have tk2 := otherB_toks eof (collFlip eof ts)
        have hgo := hfl' (by rw [h]; exact ht)
        have hlen : (collFlip eof ts).length = ts.length := by
          rw [hcf, flipOpen_length]
        have hlt : (otherB eof (collFlip eof ts)).2.length < (collFlip eof ts).length := by
          apply otherB_lt
          rw [hcf, h]
          exact flipOpen_stop (h ▸ hs) ht
        have l3 := congrArg List.length tk2
        rw [List.length_append] at l3
        have hpos : (pre ++ (otherB eof (collFlip eof ts)).1.toks).length > pre.length := by
          simp only [List.length_append]; omega
        rcases this with h1 | ⟨q, h1, h2⟩
        · rw [h1]
          simp only [pure, Except.pure]
          rw [if_pos (by simpa only [st_pos] using hpos), ih (by omega) (by omega) hgo, e]
          simp [Doc.toks, Doc.ops]
        · rw [h1]
          simp only [h2, pure, Except.pure]
          rw [if_pos (by simpa only [st_pos] using hpos), ih (by omega) (by omega) hgo, e]
          simp [Doc.toks, Doc.ops]

end Yamd.Ref
