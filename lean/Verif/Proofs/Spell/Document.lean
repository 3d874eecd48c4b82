import Verif.Proofs.Spell.Coll
import Verif.Proofs.Round.Document

/-!
# Documents whose content is escaped throughout
-/

namespace Yamd.Round.SpellC

open Yamd Yamd.Spec Yamd.Lexer Yamd.Ref

theorem spell_front {n : YamdNode} (h : exprBlock n = true) (hp : cs! "---" <+: spellBlock n) : n = .thematicBreak := by
  rw [spellBlock.eq_def] at hp
  cases n with
  | thematicBreak => rfl
  | paragraph p =>
    exfalso
    simp only [exprBlock, Bool.and_eq_true] at h
    cases p with
    | nil => simp at h
    | cons n p =>
      simp only [exprPara, List.all_cons, Bool.and_eq_true] at h
      have hn := h.2.1.1
      simp only [spellPara, List.flatMap_cons] at hp
      cases n with
      | text s =>
        cases s with
        | nil => simp [exprNode] at hn
        | cons c s => simp [spellP, hide] at hp
      | _ => simp [spellP, spellAnchor] at hp
  | heading l b =>
    exfalso
    simp only [exprBlock, Bool.and_eq_true, decide_eq_true_eq] at h
    obtain ⟨k, rfl⟩ : ∃ k, l = k + 1 := ⟨l - 1, by omega⟩
    simp [List.replicate_succ] at hp
  | image i => exfalso; simp [spellImage] at hp
  | images l =>
    exfalso
    simp only [exprBlock, decide_eq_true_eq] at h
    match l, h with
    | a :: l, _ =>
      simp only [List.map_cons] at hp
      obtain ⟨X, e⟩ := joinWith_front (cs! "\n") (spellImage a) (l.map spellImage)
      rw [e] at hp
      simp [spellImage] at hp
  | code l b => exfalso; simp at hp
  | highlight t i b => exfalso; simp at hp
  | embed k a => exfalso; simp at hp
  | collapsible t b => exfalso; simp at hp
  | list l =>
    exfalso
    obtain ⟨ty, level, items⟩ := l
    simp only [exprBlock, levelsOk, Bool.and_eq_true, beq_iff_eq] at h
    obtain ⟨⟨rfl, hi, -⟩, -⟩ := h
    cases items with
    | nil => simp at hi
    | cons i items =>
      obtain ⟨p, n⟩ := i
      cases n <;> simp [spellList, spellItems, spellItem] at hp

/-- The tokens of a body do not start with three dashes. -/
theorem body_front {src l vs ts} (hx : (blocksOf l).all exprBlock = true) (hd : vs.map render = spellBlocks l) (h : GVs [] l vs)
    (hs : SpV src true ts (joinV vs)) : tokenIs ts 0 isThreeDashes = false := by
  have hv := joinV_valid h.blocks
  cases h with
  | nil => rw [spv_nil hs]; rfl
  | @cons n v l w g hr =>
    have hb := g.block
    have hen : exprBlock n = true := by
      rw [blocksOf, List.all_append, Bool.and_eq_true] at hx
      refine List.all_eq_true.1 hx.1 n ?_
      cases n <;> simp [blocksIn]
    have hd1 : spellBlock n = render v := by
      rw [spellBlocks, List.map_cons] at hd
      exact (List.cons.inj hd).1.symm
    have hX : ∃ X, joinV (v :: w) = v ++ X ∧ (X = [] ∨ ∃ Y, X = free ['\n', '\n'] ++ Y) := by
      cases w with
      | nil => exact ⟨[], by simp [joinV], .inl rfl⟩
      | cons u w => exact ⟨_, rfl, .inr ⟨_, rfl⟩⟩
    obtain ⟨X, eX, hX⟩ := hX
    rw [eX] at hs hv
    by_cases hn : n = .thematicBreak
    · subst hn
      have ev : v = free (cs! "-----") := by
        refine render_inj hb.valid (valid_free (by decide)) ?_
        rw [← hd1, render_free_all, spellBlock.eq_def]
      subst ev
      have hj : Join (free (cs! "-----")) X := by
        rcases hX with rfl | ⟨Y, rfl⟩
        · exact join_nil_right _
        · exact join_blank hb.valid (by simp [CleanEnd, free])
      obtain ⟨t1, t2, rfl, s1, -⟩ := spv_split hb.valid hj hs
      obtain ⟨t, rfl, st⟩ := spv_one (p := ⟨false, .Minus, cs! "-----"⟩) rfl s1
      have : t.len = 5 := by rw [st.len]; rfl
      simp [tokenIs, isThreeDashes, this]
    · cases ts with
      | nil => rfl
      | cons t ts =>
        rw [tokenIs_zero]
        cases ht : isThreeDashes t with
        | false => rfl
        | true =>
          exfalso
          simp only [isThreeDashes, Bool.and_eq_true, decide_eq_true_eq] at ht
          have hk : t.kind = .Minus := by tauto
          have hl : t.len = 3 := by tauto
          obtain ⟨hp, -, -⟩ := spv_run1 (c := '-') hv hs (by rw [hk]; rfl)
          rw [hl] at hp
          apply hn
          refine spell_front hen ?_
          rw [hd1]
          refine (render_prefix (by decide)).2 ?_
          rcases hX with rfl | ⟨Y, rfl⟩
          · simpa using hp
          · have h3 : ∀ v : V, free (List.replicate 3 '-') <+: v ++ (free ['\n', '\n'] ++ Y) → free (cs! "---") <+: v := by
              intro v hp
              match v with
              | [] => simp [free, List.replicate_succ] at hp
              | [x] => simp [free, List.replicate_succ] at hp
              | [x, y] => simp [free, List.replicate_succ] at hp
              | x :: y :: z :: v => simpa [free, List.replicate_succ] using hp
            exact h3 v hp

theorem body_reads {src l vs ts} (h : GVs [] l vs) (hs : SpV src true ts (joinV vs)) : (docB [] ts).1.denote src = l := by
  by_cases hl : l = []
  · subst hl
    cases h
    rw [spv_nil hs, docB_stop (show stopAt [] [] = true from rfl)]; rfl
  · obtain ⟨f, r, e, hf, hor⟩ := reads_blocks Inside.top.1 hl h.blocks (fun v hv => h.ends v (List.dropLast_subset _ hv)) hs [] .nil
    rw [List.append_nil] at e
    rw [e]
    simp only
    have : r = [] := by
      rcases hor with h | ⟨e, h, -⟩
      · exact h
      · simp at h
    subst this
    rw [hf, docB_stop (show stopAt [] [] = true from rfl)]
    simp [Doc.denote]

/-! ### Front matter -/

def metaV (m : Str) : V := free ['\n'] ++ (hid m ++ free ['\n'])

theorem metaV_valid (m : Str) : Valid (metaV m) := (valid_free (by decide)).append ((hid_valid m).append (valid_free (by decide)))

theorem front_reads {src m w ts} (ht : trimNl m = m)
    (hs : SpV src true ts (free (cs! "---") ++ (metaV m ++ (free (cs! "---") ++ (free (cs! "\n\n") ++ w))))) :
    ∃ d t r, delimB isThreeDashes isThreeDashes .Metadata [] ts = some (d, t :: r) ∧ trimNl (textOfToks src d.body) = m ∧
      t.kind = .Terminator ∧ SpV src true r w := by
  have v3 : Valid (free (cs! "---")) := valid_free (by decide)
  have vm : Valid (metaV m) := metaV_valid m
  obtain ⟨t1, r1, rfl, s1, hs1⟩ := spv_split v3 (join_stop v3 (c := '\n') rfl (by decide) (by decide) (by decide) (by decide)) hs
  obtain ⟨o, rfl, so⟩ := spv_one (p := ⟨false, .Minus, cs! "---"⟩) rfl s1
  have hf : flag true (free (cs! "---")) = false := rfl
  rw [hf] at hs1
  have hlast : (metaV m).getLast? = some (false, '\n') := by
    rw [metaV, last_append (by simp [free]), last_append (by simp [free])]; rfl
  obtain ⟨bd, r2, rfl, s2, hs2⟩ := spv_split vm (join_stop vm (c := '-') rfl (by decide) (by rw [hlast]; decide) (by simp) (by simp)) hs1
  have hf2 : flag false (metaV m) = true := by
    simp only [flag, hlast]; rfl
  rw [hf2] at hs2
  obtain ⟨t3, r3, rfl, s3, hs3⟩ := spv_split v3 (join_stop v3 (c := '\n') rfl (by decide) (by decide) (by decide) (by decide)) hs2
  obtain ⟨c, rfl, sc⟩ := spv_one (p := ⟨false, .Minus, cs! "---"⟩) rfl s3
  obtain ⟨t4, r4, rfl, s4, hs4⟩ := spv_split (valid_free (by decide)) (join_after_blank w) hs3
  obtain ⟨t, rfl, st⟩ := spv_one (p := ⟨false, .Terminator, ['\n', '\n']⟩) rfl s4
  have is3 : ∀ x, SpT src true x ⟨false, .Minus, cs! "---"⟩ → isThreeDashes x = true := by
    intro x hx
    have hl : x.len = 3 := by rw [hx.len]; rfl
    have hc : col0 x = true := hx.col
    simp [isThreeDashes, hx.kind, hl, hc]
  have hbody : ∀ x ∈ bd, isThreeDashes x = false := by
    intro x hx
    cases h3 : isThreeDashes x with
    | false => rfl
    | true =>
      exfalso
      simp only [isThreeDashes, Bool.and_eq_true, decide_eq_true_eq] at h3
      have hk : x.kind = .Minus := by tauto
      have hl : x.len = 3 := by tauto
      obtain ⟨v1, v2, e, -, -⟩ := spv_mem_run (c := '-') vm s2 hx (by rw [hk]; rfl)
      rw [hl] at e
      have hmem : (false, '-') ∈ metaV m := by rw [e]; simp [free, List.replicate_succ]
      simp [metaV, free, hid] at hmem
  refine ⟨⟨.Metadata, o, bd, c⟩, t, r4, ?_, ?_, st.kind, ?_⟩
  · have := delimB_exec (stops := []) (o := isThreeDashes) (c := isThreeDashes) (n := .Metadata) (d := ⟨.Metadata, o, bd, c⟩)
      (rest := t :: r4) ⟨rfl, is3 o so, is3 c sc, rfl, rfl, fun x hx => ⟨rfl, hbody x hx⟩⟩ (by intro h; simp at h)
    rw [← this]
    simp [Delim.toks]
  · simp only
    rw [spv_text vm s2]
    have ec : (metaV m).map Prod.snd = '\n' :: (m ++ ['\n']) := by
      simp [metaV, free, hid_chars]
    rw [ec, trimNl_wrap, ht]
  · exact hs4

/-! ### Documents -/

/-- An expressible document is read from its spelling. -/
theorem spell_reads {y : Yamd} (h : expressible y = true) : deserialize (spell y) = .ok y := by
  obtain ⟨m, body⟩ := y
  simp only [expressible, Bool.and_eq_true] at h
  obtain ⟨hm, hb⟩ := h
  obtain ⟨vs, hd, hvs⟩ := hid_blocks Inside.top hb
  have ebody : joinWith (cs! "\n\n") (spellBlocks body) = render (joinV vs) := by
    rw [← hd, joinV_eq]
  rw [deserialize_eq]
  congr 1
  cases m with
  | none =>
    have ed : spell ⟨none, body⟩ = render (joinV vs) := by simp only [spell, ebody]
    have hs : SpV (render (joinV vs)) true (tokens (render (joinV vs))) (joinV vs) := sp_tokens _
    rw [ed]
    have hfront := body_front hb hd hvs hs
    have hd : delimB isThreeDashes isThreeDashes .Metadata [] (tokens (render (joinV vs))) = none := by
      cases hts : tokens (render (joinV vs)) with
      | nil => rfl
      | cons t r => rw [hts] at hfront; exact delimB_no hfront
    unfold topB
    rw [hd]
    simp only [Top.denote, body_reads hvs hs]
    rfl
  | some m =>
    have htrim : trimNl m = m := by simpa using hm
    have ed : spell ⟨some m, body⟩ =
        render (free (cs! "---") ++ (metaV m ++ (free (cs! "---") ++ (free (cs! "\n\n") ++ joinV vs)))) := by
      simp only [spell, ebody, metaV, render_append, render_free_all, render_hid]
      simp
    rw [ed]
    generalize hS : render (free (cs! "---") ++ (metaV m ++ (free (cs! "---") ++ (free (cs! "\n\n") ++ joinV vs)))) = S
    have hs : SpV S true (tokens S) (free (cs! "---") ++ (metaV m ++ (free (cs! "---") ++ (free (cs! "\n\n") ++ joinV vs)))) := by
      unfold SpV; rw [hS]; exact sp_tokens S
    obtain ⟨d, t, r, e1, e2, hk, hs2⟩ := front_reads htrim hs
    unfold topB
    rw [e1]
    simp only [Top.denote, Option.map_some, e2]
    rw [docB_term (stop_term Inside.top.1 hk) (by simp [isTerminator, hk])]
    simp only [Doc.denote, body_reads hvs hs2, Yamd.new, Option.map_some, htrim]

end Yamd.Round.SpellC
