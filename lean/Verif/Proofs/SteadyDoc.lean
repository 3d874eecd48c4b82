import Verif.Proofs.SteadyBlocks
import Verif.Proofs.ParseEq
import Verif.Proofs.Round.Good

/-!
# What is read can be written: documents
-/

namespace Yamd.Ref

open Yamd Yamd.Spec Yamd.ToYamd

section
variable {src : Str}

theorem last_nl {b} (h : Tidy src b) (hT : NoTerm b) (hl : (textOfToks src b).getLast? = some '\n') :
    ∃ b' t, b = b' ++ [t] ∧ t.kind = .Eol := by
  rcases List.eq_nil_or_concat b with rfl | ⟨b', t, rfl⟩
  · simp [textOfToks] at hl
  · rw [List.concat_eq_append] at *
    refine ⟨b', t, rfl, ?_⟩
    have ht : TokOk src t := h.mem (by simp)
    have hm : '\n' ∈ sliceD src t := by
      rw [text_append, text_one, List.getLast?_append] at hl
      cases hs : (sliceD src t).getLast? with
      | none => rw [List.getLast?_eq_none_iff] at hs; exact absurd hs ht.ne
      | some c =>
        rw [hs] at hl
        simp only [Option.some_or, Option.some.injEq] at hl
        subst hl
        exact List.mem_of_getLast? hs
    by_contra hk
    exact ht.nl hk (hT t (by simp)) hm

/-- The stop conditions of a document: only the end of a collapsible. -/
def OnlyEnd (s : List Stop) : Prop := ∀ x ∈ s, x = .CollapsibleEnd

/-- Inline content that does not reach the end of the input does not end with a line break. -/
theorem stop_after_eol {s b e t r} (hs : OnlyEnd s) (ht : Tidy src (b ++ e :: t :: r)) (he : e.kind = .Eol)
    (hu : Unstopped (.Terminator :: s) (b ++ [e]) (t :: r)) (hst : stopAt (.Terminator :: s) (t :: r) = true) : False := by
  have hadj := ht.pair
  have hue := hu.right.1
  simp only [List.nil_append] at hue
  simp only [stopAt, List.any_eq_true] at hst
  obtain ⟨x, hx, hst⟩ := hst
  rcases List.mem_cons.1 hx with rfl | hx
  · simp only [stopHere, decide_eq_true_eq] at hst
    exact (hadj.eol he).2 hst
  · have hxs := hs x hx
    subst hxs
    simp only [stopAt, List.any_eq_false] at hue
    have h2 := hue _ (List.mem_cons_of_mem _ hx)
    simp only [stopHere, Bool.or_eq_true, Bool.and_eq_true, decide_eq_true_eq] at hst
    rcases hst with ⟨h3, h4⟩ | ⟨h3, -⟩
    · apply h2
      simp [stopHere, he, tokenIs, h3, h4]
    · exact (hadj.eol he).1 h3

theorem ends_clean {s toks ts rest} (hs : OnlyEnd s) (e : toks ++ ts ++ rest = toks ++ (ts ++ rest)) (ht : Tidy src (toks ++ (ts ++ rest)))
    (hT : NoTerm (toks ++ ts)) (hu : Unstopped (.Terminator :: s) (toks ++ ts) rest)
    (hst : stopAt (.Terminator :: s) rest = true) (hne : rest ≠ []) : endsLine (textOfToks src ts) = false := by
  have htt : Tidy src ts := ht.right.left
  refine endsLine_cr (no_cr htt) (fun hl => ?_)
  obtain ⟨b', t, rfl, hk⟩ := last_nl htt hT.right hl
  cases rest with
  | nil => exact hne rfl
  | cons u r =>
    refine stop_after_eol (src := src) (b := toks ++ b') (e := t) (t := u) (r := r) hs ?_ hk ?_ hst
    · simpa using ht
    · simpa using hu

theorem para_ends {s ts} (hs : OnlyEnd s) (ht : Tidy src ts) (hne : (paraB (.Terminator :: s) [] ts).2 ≠ []) :
    endsLine (trailingText (paraDenote src (paraB (.Terminator :: s) [] ts).1)) = false := by
  have hok := paraB_ok (stops := .Terminator :: s) (by simp) [] ts .nil
  have hu := paraB_un (stops := .Terminator :: s) [] ts trivial
  have hr := paraB_rest (stops := .Terminator :: s) [] ts
  have e := paraB_toks (stops := .Terminator :: s) (acc := []) _ (Nat.le_refl ts.length)
  rw [List.nil_append] at e
  rw [e] at ht
  generalize paraB (.Terminator :: s) [] ts = x at *
  obtain ⟨l, rest⟩ := x
  simp only at *
  rcases List.eq_nil_or_concat l with rfl | ⟨l', y, rfl⟩
  · rfl
  · rw [List.concat_eq_append] at *
    cases y with
    | text b =>
      have e2 : paraToks (l' ++ [.text b]) = paraToks l' ++ b := by simp [paraToks, Inl.toks]
      rw [e2] at ht hu
      have e3 : trailingText (paraDenote src (l' ++ [.text b])) = textOfToks src b := by
        simp [trailingText, paraDenote, Inl.denote]
      rw [e3]
      exact ends_clean hs (by simp) (by simpa using ht) (by rw [← e2]; exact hok.2.2) hu hr hne
    | delim d =>
      have e3 : trailingText (paraDenote src (l' ++ [.delim d])) = [] := by
        simp only [trailingText, paraDenote, List.map_append, List.map_cons, List.map_nil, List.getLast?_append, List.getLast?_singleton, Option.some_or, Inl.denote]
        split <;> rename_i h
        · split at h <;> cases h
        · rfl
      rw [e3]; rfl
    | bold o i c =>
      have e3 : trailingText (paraDenote src (l' ++ [.bold o i c])) = [] := by
        simp [trailingText, paraDenote, Inl.denote]
      rw [e3]; rfl
    | anchor d =>
      have e3 : trailingText (paraDenote src (l' ++ [.anchor d])) = [] := by
        simp [trailingText, paraDenote, Inl.denote]
      rw [e3]; rfl

theorem head_ends {s ts} (hs : OnlyEnd s) (ht : Tidy src ts) (hne : (headB (.Terminator :: s) [] ts).2 ≠ []) :
    endsLine (trailingHeadingText ((headB (.Terminator :: s) [] ts).1.map (HeadItem.denote src))) = false := by
  have hok := headB_ok (stops := .Terminator :: s) (by simp) [] ts .nil
  have hu := headB_un (stops := .Terminator :: s) [] ts trivial
  have hr := headB_rest (stops := .Terminator :: s) [] ts
  have e := headB_toks (stops := .Terminator :: s) (acc := []) _ (Nat.le_refl ts.length)
  rw [List.nil_append] at e
  rw [e] at ht
  generalize headB (.Terminator :: s) [] ts = x at *
  obtain ⟨l, rest⟩ := x
  simp only at *
  rcases List.eq_nil_or_concat l with rfl | ⟨l', y, rfl⟩
  · rfl
  · rw [List.concat_eq_append] at *
    cases y with
    | text b =>
      have e2 : (l' ++ [HeadItem.text b]).flatMap HeadItem.toks = l'.flatMap HeadItem.toks ++ b := by simp [HeadItem.toks]
      rw [e2] at ht hu
      have e3 : trailingHeadingText ((l' ++ [HeadItem.text b]).map (HeadItem.denote src)) = textOfToks src b := by
        simp [trailingHeadingText, HeadItem.denote]
      rw [e3]
      exact ends_clean hs (by simp) (by simpa using ht) (by rw [← e2]; exact hok.2.2) hu hr hne
    | anchor d =>
      have e3 : trailingHeadingText ((l' ++ [HeadItem.anchor d]).map (HeadItem.denote src)) = [] := by
        simp [trailingHeadingText, HeadItem.denote]
      rw [e3]; rfl

theorem embedB_shape {stops ts b r} (h : embedB stops ts = some (b, r)) : ∃ o l p a c, b = .embed o l p a c := by
  cases ts with
  | nil => simp [embedB] at h
  | cons t ts =>
    unfold embedB at h
    simp only at h
    split at h
    · split at h
      · simp at h
      · split at h
        · simp at h
        · simp only [Option.map_eq_some_iff] at h
          obtain ⟨_, h4, h2⟩ := h
          simp only [Prod.mk.injEq] at h2
          obtain ⟨rfl, rfl⟩ := h2
          exact ⟨_, _, _, _, _, rfl⟩
    · simp at h

theorem codeB_shape {stops ts b r} (h : codeB stops ts = some (b, r)) : ∃ o m x y, b = .code o m x y := by
  have key : ∀ {o m r' b r}, codeRestB stops o m r' = some (b, r) → ∃ o m x y, b = .code o m x y := by
    intro o m r' b r h
    unfold codeRestB at h
    split at h
    · simp at h
    · simp only [Option.map_eq_some_iff] at h
      obtain ⟨_, h4, h2⟩ := h
      simp only [Prod.mk.injEq] at h2
      obtain ⟨rfl, rfl⟩ := h2
      exact ⟨_, _, _, _, rfl⟩
  unfold codeB at h
  split at h
  · simp at h
  · split at h
    · split at h
      · exact key h
      · exact key h
    · simp at h

theorem other_facts {s ts} (hs : OnlyEnd s) (ht : Tidy src ts) (hlt : (otherB s ts).2.length < ts.length) :
    OpenOk (otherB s ts).1 ∧ ((otherB s ts).2 ≠ [] → endsClean ((otherB s ts).1.denote src) = true) := by
  rcases otherB_cases s ts with h | h | h
  · generalize otherB s ts = x at *
    obtain ⟨b, r⟩ := x
    obtain ⟨o, l, p, a, c, rfl⟩ := embedB_shape h
    exact ⟨trivial, fun _ => rfl⟩
  · generalize otherB s ts = x at *
    obtain ⟨b, r⟩ := x
    obtain ⟨o, m, i, body, c, rfl, h1⟩ := highlightB_open h
    exact ⟨⟨h1, fun x hx => highlightB_icon h o m x body c (by rw [hx])⟩, fun _ => rfl⟩
  · rw [h] at hlt ⊢
    rcases leafB_cases (.Terminator :: s) ts with ⟨k, m, p, n, r, rest, h1, h2⟩ | ⟨i, l, r, h1, h2⟩ | h3 | h4 | h5
    · rw [h2]
      have := itemsB_ext (.Terminator :: s) 0 none ts
      rw [h1] at this
      exact ⟨⟨_, _, this⟩, fun _ => rfl⟩
    · rw [h2]
      refine ⟨trivial, fun _ => ?_⟩
      cases l <;> rfl
    · generalize leafB (.Terminator :: s) ts = x at *
      cases ts with
      | nil => simp [thematicB] at h3
      | cons t r =>
        rw [thematicB] at h3
        split at h3
        · simp only [Option.some.injEq] at h3
          subst h3
          exact ⟨trivial, fun _ => rfl⟩
        · simp at h3
    · generalize leafB (.Terminator :: s) ts = x at *
      unfold headingB at h4
      split at h4
      · simp only [Option.some.injEq] at h4
        subst h4
        refine ⟨headB_plain [] _ trivial (by intro a t r e; simp at e), fun hne => ?_⟩
        have := head_ends hs (ht.drop 2) hne
        simp only [Block.denote, endsClean, this]; rfl
      · simp at h4
    · rw [h5] at hlt ⊢
      constructor
      · intro e
        have e1 := paraB_toks (stops := .Terminator :: s) (acc := []) _ (Nat.le_refl ts.length)
        simp only at e hlt
        rw [e] at e1
        simp only [paraToks, List.flatMap_nil, List.nil_append] at e1
        rw [← e1] at hlt
        exact absurd hlt (Nat.lt_irrefl _)
      · intro hne
        have := para_ends hs ht hne
        simp only [Block.denote, endsClean, Round.endsLine_shown this]; rfl

/-! ### The whole document -/

theorem steady_leaf (b : Block) : steadyBlock (b.denote src) = steadyLeaf (b.denote src) := by
  cases b with
  | images l => cases l with
    | nil => rfl
    | cons i l => cases l <;> rfl
  | _ => rfl

theorem safe_leaf (c : Bool) (b : Block) : safeBlock c (b.denote src) = safeLeaf (at' c) (b.denote src) := by
  cases b with
  | images l => cases l with
    | nil => rfl
    | cons i l => cases l <;> rfl
  | _ => rfl

theorem steady_coll (t : Str) (b : List YamdNode) : steadyBlock (.collapsible t b) =
    (steadyBlocks b && (match b with | [] => true | n :: _ => startsClean n)) := by
  cases b <;> simp [steadyBlock]

theorem safe_coll (c : Bool) (t : Str) (b : List YamdNode) : safeBlock c (.collapsible t b) =
    (safeLine t && safeBlocks true b && b.all endsClean && (match b with | [] => true | n :: _ => startsClean n)) := by
  cases b <;> simp [safeBlock]

/-- The title of a collapsible stands on the line of its `{%`. -/
theorem coll_title {s ts o m r1} (h : collOpenB s ts = some (o, m, r1)) (ht : Tidy src ts) :
    safeLine ((modDenote src m).getD []) = true := by
  have e := (collOpenB_toks h).1
  unfold collOpenB at h
  split at h
  · rename_i hh
    split at h
    · simp only [Option.some.injEq, Prod.mk.injEq] at h
      obtain ⟨rfl, rfl, rfl⟩ := h
      have hok := optModB_ok s (ts.drop 2)
      simp only [Bool.and_eq_true] at hh
      match ts, hh.1, hh.2 with
      | a :: b :: ts, h1, h2 =>
        simp only [List.drop_succ_cons, List.drop_zero, List.take_succ_cons, List.take_zero] at e hok ⊢
        have hm : ∀ m, (optModB s ts).1 = some m → tokenIs ts 0 col0 = false := by
          intro m hm
          unfold optModB at hm
          split at hm
          · rename_i h
            unfold modifierB at h
            split at h
            · simp at h
            · rename_i _ h2; exact Bool.eq_false_iff.2 h2
          · simp at hm
        cases hx : (optModB s ts).1 with
        | none => rfl
        | some m =>
          have hc := hm m hx
          rw [hx] at hok e
          rw [e] at ht
          have hbk : b.kind = .Space := by
            have h2 : isSpaceOrEol b = true := h2
            simp only [isSpaceOrEol, Bool.or_eq_true] at h2
            rcases h2 with h2 | h2
            · simpa [isSpace1] using h2
            · exfalso
              have hbe : b.kind = .Eol := by simpa [isEol] using h2
              have e' : ts = modToks (some m) ++ (optModB s ts).2 := by simpa using e
              cases hts : ts with
              | nil => rw [hts] at e'; simp [modToks] at e'
              | cons u ts' =>
                rw [← e] at ht
                rw [hts] at ht hc
                have := (ht.tail.2.1.col).2 (.inl hbe)
                simp [tokenIs, this] at hc
          refine mod_safe (s := b) hok ?_ hbk
          have ht2 : Tidy src ([a] ++ ((b :: (m.body ++ [m.eol])) ++ (optModB s ts).2)) := by
            simpa [modToks] using ht
          exact ht2.right.left
    · simp at h
  · simp at h

/-- What is proved about a document read under stop conditions. -/
def Settled (src : Str) (s : List Stop) (ts : List Token) : Prop :=
  ∀ c, (c = true → .CollapsibleEnd ∈ s) → OnlyEnd s → Tidy src ts →
    steadyBlocks ((docB s ts).1.denote src) = true →
    safeBlocks c ((docB s ts).1.denote src) = true ∧
      ((docB s ts).1.denote src).dropLast.all endsClean = true ∧
      ((docB s ts).2 ≠ [] → ((docB s ts).1.denote src).all endsClean = true)

theorem settled_cons {s : List Stop} {ts r : List Token} {n : YamdNode}
    (e1 : (docB s ts).1.denote src = n :: (docB s r).1.denote src) (e2 : (docB s ts).2 = (docB s r).2)
    (hn : ∀ c, (c = true → .CollapsibleEnd ∈ s) → OnlyEnd s → Tidy src ts → steadyBlock n = true →
      safeBlock c n = true ∧ (r ≠ [] → endsClean n = true) ∧ Tidy src r)
    (ih : Settled src s r) : Settled src s ts := by
  intro c hc hs ht hst
  rw [e1, steadyBlocks, Bool.and_eq_true] at hst
  obtain ⟨h1, h2, h3⟩ := hn c hc hs ht hst.1
  obtain ⟨i1, i2, i3⟩ := ih c hc hs h3 hst.2
  have hnil : r = [] → (docB s r).1.denote src = [] ∧ (docB s r).2 = [] := by
    rintro rfl; rw [docB_stop rfl]; exact ⟨rfl, rfl⟩
  rw [e1, e2, safeBlocks, h1, i1]
  refine ⟨rfl, ?_, ?_⟩
  · cases hd : (docB s r).1.denote src with
    | nil => rfl
    | cons x l =>
      rw [List.dropLast_cons_of_ne_nil (by simp), List.all_cons, Bool.and_eq_true, ← hd]
      exact ⟨h2 (fun e => by simp [(hnil e).1] at hd), i2⟩
  · intro hne
    rw [List.all_cons, Bool.and_eq_true]
    exact ⟨h2 (fun e => hne (hnil e).2), i3 hne⟩

theorem settled_other {s : List Stop} {ts x : List Token} (hf : Flips ts x)
    (hst : stopAt (.Terminator :: s) x = false)
    (e : docB s ts = (.block (otherB s x).1 (docB s (otherB s x).2).1, (docB s (otherB s x).2).2))
    (ih : Settled src s (otherB s x).2) : Settled src s ts := by
  refine settled_cons (n := (otherB s x).1.denote src) (r := (otherB s x).2) (by rw [e]; rfl) (by rw [e]) ?_ ih
  intro c hc hs ht hn
  have hx : Tidy src x := ht.flips hf
  have hfa := other_facts hs hx (otherB_lt hst)
  have htk := otherB_toks s x
  have hx' := hx
  rw [htk] at hx'
  rw [steady_leaf] at hn
  rw [safe_leaf]
  exact ⟨block_safe (otherB_ok s x) hfa.1 hx'.left (fun _ e => otherB_noEnd (hc e) x) hn, hfa.2, hx'.right⟩

theorem settled (s : List Stop) (ts : List Token) : Settled src s ts := by
  induction s, ts using docB_ind with
  | stop s ts h e =>
    intro c hc hs ht hst
    rw [e]
    exact ⟨rfl, rfl, fun _ => rfl⟩
  | term s t r hs ht e ih =>
    intro c hc hs ht hst
    rw [e] at hst ⊢
    exact ih c hc hs ht.tail hst
  | code s t r b rest hs ht hc e ih =>
    refine settled_cons (n := b.denote src) (r := rest) (by rw [e]; rfl) (by rw [e]) ?_ ih
    intro c hc' hs ht hn
    rw [codeB_toks hc] at ht
    obtain ⟨o, m, y, z, rfl⟩ := codeB_shape hc
    rw [steady_leaf] at hn
    rw [safe_leaf]
    exact ⟨block_safe (codeB_ok hc) trivial ht.left (fun h => absurd rfl (h _ _ _ _)) hn, fun _ => rfl, ht.right⟩
  | coll s t r o m r1 c r4 hs ht hc ho hcl e ih1 ih2 =>
    refine settled_cons (r := r4) (by rw [e]; rfl) (by rw [e]) ?_ ih2
    intro c' hc' hs ht hn
    have htitle := coll_title ho ht
    have eo := (collOpenB_toks ho).1
    have ht1 : Tidy src r1 := by
      rw [eo] at ht; exact ht.right.right
    have ht4 : Tidy src r4 := by
      have h1 := ht1.flips (docB_flips (.CollapsibleEnd :: s) r1)
      have h2 := h1.right
      rw [skipEolB_toks (docB (.CollapsibleEnd :: s) r1).2] at h2
      have h3 := h2.right
      rw [collCloseB_toks hcl] at h3
      exact h3.right
    rw [steady_coll, Bool.and_eq_true] at hn
    obtain ⟨j1, j2, j3⟩ := ih1 true (by simp) (fun x hx => by
      rcases List.mem_cons.1 hx with rfl | hx
      · rfl
      · exact hs x hx) ht1 hn.1
    have hne : (docB (.CollapsibleEnd :: s) r1).2 ≠ [] := by
      intro h; rw [h] at hcl; simp [skipEolB, tokenIs, collCloseB] at hcl
    refine ⟨?_, fun _ => rfl, ht4⟩
    rw [safe_coll, htitle, j1, j3 hne, Bool.true_and, Bool.true_and]
    exact hn.2
  | fallback s t r o m r1 x hs ht hc ho hcl hx hl hst e ih1 ih2 =>
    refine settled_other (x := x) ?_ hst e ih2
    obtain ⟨eo, -, hk1⟩ := collOpenB_toks ho
    have hk : isCollapsibleStart t = true := hk1
    clear hk1
    have hk : t.kind = .CollapsibleStart := by simp [isCollapsibleStart] at hk; exact hk.1
    obtain ⟨a, o', rfl⟩ : ∃ a o', o = a :: o' := by
      cases o with
      | nil => have := (collOpenB_toks ho).2.1; simp at this
      | cons a o' => exact ⟨a, o', rfl⟩
    simp only [List.cons_append, List.cons.injEq] at eo
    obtain ⟨rfl, rfl⟩ := eo
    rw [hx]
    simp only [List.cons_append, flipHead]
    exact .cons (.inr ⟨hk, rfl⟩) ((Flips.refl o').append ((Flips.refl _).append (docB_flips _ r1)))
  | other s t r hs ht hc ho hst e ih =>
    exact settled_other (flips_flipOpen _) hst e ih

end

end Yamd.Ref
