import Verif.Proofs.Refine

/-!
# The modelled parser is the reference parser

`parse_eq`: for every input `parse` succeeds and emits exactly the ops of the tree the reference
parser builds from the tokens.
-/

namespace Yamd.Ref

open Yamd Yamd.Spec

/-- Induction along a document. -/
theorem docB_ind {P : List Stop → List Token → Prop}
    (stop : ∀ s ts, stopAt s ts = true → docB s ts = (.nil, ts) → P s ts)
    (term : ∀ s t r, stopAt s (t :: r) = false → isTerminator t = true →
      docB s (t :: r) = (.term t (docB s r).1, (docB s r).2) → P s r → P s (t :: r))
    (code : ∀ s t r b rest, stopAt s (t :: r) = false → isTerminator t = false →
      codeB s (t :: r) = some (b, rest) →
      docB s (t :: r) = (.block b (docB s rest).1, (docB s rest).2) → P s rest → P s (t :: r))
    (coll : ∀ s t r o m r1 c r4, stopAt s (t :: r) = false → isTerminator t = false →
      codeB s (t :: r) = none → collOpenB s (t :: r) = some (o, m, r1) →
      collCloseB (skipEolB (docB (.CollapsibleEnd :: s) r1).2).2 = some (c, r4) →
      docB s (t :: r) = (.coll o m (docB (.CollapsibleEnd :: s) r1).1
        (skipEolB (docB (.CollapsibleEnd :: s) r1).2).1 c (docB s r4).1, (docB s r4).2) →
      P (.CollapsibleEnd :: s) r1 → P s r4 → P s (t :: r))
    (fallback : ∀ s t r o m r1 x, stopAt s (t :: r) = false → isTerminator t = false →
      codeB s (t :: r) = none → collOpenB s (t :: r) = some (o, m, r1) →
      collCloseB (skipEolB (docB (.CollapsibleEnd :: s) r1).2).2 = none →
      x = flipHead (o ++ (modToks m ++ ((docB (.CollapsibleEnd :: s) r1).1.toks ++
            (docB (.CollapsibleEnd :: s) r1).2))) →
      x.length = (t :: r).length → stopAt (.Terminator :: s) x = false →
      docB s (t :: r) = (.block (otherB s x).1 (docB s (otherB s x).2).1, (docB s (otherB s x).2).2) →
      P (.CollapsibleEnd :: s) r1 → P s (otherB s x).2 → P s (t :: r))
    (other : ∀ s t r, stopAt s (t :: r) = false → isTerminator t = false →
      codeB s (t :: r) = none → collOpenB s (t :: r) = none →
      stopAt (.Terminator :: s) (flipOpen (t :: r)) = false →
      docB s (t :: r) = (.block (otherB s (flipOpen (t :: r))).1
        (docB s (otherB s (flipOpen (t :: r))).2).1, (docB s (otherB s (flipOpen (t :: r))).2).2) →
      P s (otherB s (flipOpen (t :: r))).2 → P s (t :: r))
    (s : List Stop) (ts : List Token) : P s ts := by
  have main : ∀ n s (ts : List Token), ts.length ≤ n → P s ts := by
    intro n
    induction n with
    | zero =>
      intro s ts hn
      have : ts = [] := by simpa using hn
      subst this
      exact stop _ _ rfl (docB_stop rfl)
    | succ n ih =>
      intro s ts hn
      cases hs : stopAt s ts with
      | true => exact stop _ _ hs (docB_stop hs)
      | false =>
        cases docB_step hs with
        | term t r h ht e =>
          subst h
          exact term _ _ _ hs ht e (ih _ _ (by simp at hn; omega))
        | code t r h ht b rest hc e =>
          subst h
          have := codeB_lt hc
          exact code _ _ _ _ _ hs ht hc e (ih _ _ (by omega))
        | coll t r h ht o m r1 c r4 hc ho hcl e =>
          subst h
          obtain ⟨tk, ol, -⟩ := collOpenB_toks ho
          have l1 := (docB_flips (.CollapsibleEnd :: s) r1).length
          have l2 := congrArg List.length (skipEolB_toks (docB (.CollapsibleEnd :: s) r1).2)
          have l3 := congrArg List.length (collCloseB_toks hcl)
          have l4 := congrArg List.length tk
          simp only [List.length_append] at l1 l2 l3 l4
          exact coll _ _ _ _ _ _ _ _ hs ht hc ho hcl e (ih _ _ (by omega)) (ih _ _ (by omega))
        | fallback t r h ht o m r1 hc ho hcl e =>
          subst h
          obtain ⟨tk, ol, -⟩ := collOpenB_toks ho
          have l1 := (docB_flips (.CollapsibleEnd :: s) r1).length
          have l4 := congrArg List.length tk
          generalize hx : flipHead (o ++ (modToks m ++ ((docB (.CollapsibleEnd :: s) r1).1.toks ++
            (docB (.CollapsibleEnd :: s) r1).2))) = x at e
          have l5 : x.length = (t :: r).length := by
            rw [← hx, flipHead_length]
            simp only [List.length_append] at l1 l4 ⊢
            omega
          have hst : stopAt (.Terminator :: s) x = false := by
            rw [← hx]
            match o, ol with
            | [a, b], _ => exact stop_literal rfl
          have l6 := otherB_lt hst
          simp only [List.length_append] at l1 l4
          exact fallback _ _ _ _ _ _ x hs ht hc ho hcl hx.symm l5 hst e (ih _ _ (by omega))
            (ih _ _ (by omega))
        | other t r h ht hc ho e =>
          subst h
          have hst := flipOpen_stop hs ht
          have l6 := otherB_lt hst
          rw [flipOpen_length] at l6
          exact other _ _ _ hs ht hc ho hst e (ih _ _ (by omega))
  exact main _ s ts (Nat.le_refl _)

/-- A document is read up to a stop. -/
theorem docB_rest (s ts) : stopAt s (docB s ts).2 = true := by
  induction s, ts using docB_ind with
  | stop s ts h e => rw [e]; exact h
  | term s t r hs ht e ih => rw [e]; exact ih
  | code s t r b rest hs ht hc e ih => rw [e]; exact ih
  | coll s t r o m r1 c r4 hs ht hc ho hcl e _ ih => rw [e]; exact ih
  | fallback s t r o m r1 x hs ht hc ho hcl hx hl hst e _ ih => rw [e]; exact ih
  | other s t r hs ht hc ho hst e ih => rw [e]; exact ih

theorem docB_nil (ts) : (docB [] ts).2 = [] := by
  have := docB_rest [] ts
  cases h : (docB [] ts).2 with
  | nil => rfl
  | cons t r => rw [h] at this; simp [stopAt] at this

theorem document_eq {src pre ts ops fuel eof} (hf : 3 * ts.length + 4 ≤ fuel) (hts : Good src ts) :
    document fuel (st src pre ts eof ops) = .ok ((),
      st src (pre ++ (docB eof ts).1.toks) (docB eof ts).2 eof
        (ops ++ (.start .Document emptyContent ::
          ((docB eof ts).1.ops src ++ [.close .Document emptyContent])))) := by
  obtain ⟨g, rfl⟩ : ∃ g, fuel = g + 1 := ⟨fuel - 1, by omega⟩
  rw [document]
  simp only [bind, Except.bind, st_push]
  rw [documentLoop_eq _ (Nat.le_refl _) (by omega) hts]
  simp [pure, Except.pure, st_push]

theorem good_tokens (input : Str) : Good input (tokens input) := by
  intro t ht
  obtain ⟨a, p, c, h1, h2, h3, -⟩ := Props.tokens_facts ht
  refine ⟨p.text, ?_⟩
  rw [h3, ← h2, h1]
  exact slice_append _ _ _ _ rfl

/-- The parser emits the ops of the reference tree. -/
theorem parse_eq (input : Str) : parse input = .ok ((topB (tokens input)).ops input) := by
  unfold parse P.ofStr
  rw [Lexer.lex_eq]
  simp only [bind, Except.bind, pure, Except.pure]
  have hg := good_tokens input
  have e : (⟨input, tokens input, 0, [], []⟩ : P) = st input [] (tokens input) [] [] := rfl
  rw [e, show metadata = delimited isThreeDashes isThreeDashes .Metadata from rfl,
    delimited_refines _ _ _ _ _ _ _ hg]
  unfold topB
  cases hd : delimB isThreeDashes isThreeDashes .Metadata [] (tokens input) with
  | none =>
    simp only
    rw [document_eq (by simp) hg]
    simp [Top.ops]
  | some x =>
    obtain ⟨d, r⟩ := x
    simp only
    have tk := delimB_toks hd
    rw [tk] at hg
    rw [document_eq (by simp; omega) hg.append_right]
    simp [Top.ops]

end Yamd.Ref
