import Verif.Proofs.Exact.DocHead
import Verif.Proofs.Exact.DocImgs
import Verif.Proofs.Exact.DocCode
import Verif.Proofs.Exact.DocHl
import Verif.Proofs.Exact.DocColl

/-!
# A document of plain blocks that is read back is safe
-/

namespace Yamd.Round

open Yamd Yamd.Spec Yamd.Lexer Yamd.Ref

theorem plainBlocks_all : ∀ l : List YamdNode, plainBlocks l = l.all isPlain
  | [] => rfl
  | n :: l => by rw [plainBlocks, List.all_cons, plainBlocks_all l]

theorem embedV_valid (k a : Str) : Valid (embedV k a) :=
  (embed_reads (c := false) (stops := []) (kind := k) (args := a) Inside.top (by simp [noCloseLine])).valid

theorem embedV_chars (k a : Str) : ((embedV k a).map Prod.snd).length = k.length + a.length + 5 := by
  simp [embedV, markSet, free]
  omega

/-- The first embed of a document or body that is read back. -/
theorem first_embed {c S} {d k a : Str} {b t1 t2 v X} (h : First c S d (.embed k a) b t1 t2 v X) : safeLeaf ⟨c⟩ (.embed k a) = true := by
  have den := h.den
  obtain ⟨o, l, p, r, q, rfl, hk, ha⟩ : ∃ o l p r q, b = .embed o l p r q ∧ textOfToks d l = k ∧ textOfToks d r = a := by
    cases b with
    | embed o l p r q =>
      simp only [Block.denote, YamdNode.embed.injEq] at den
      exact ⟨o, l, p, r, q, rfl, den.1, den.2⟩
    | images l =>
      match l with
      | [] => simp [Block.denote] at den
      | [i] => simp [Block.denote] at den
      | i :: j :: l => simp [Block.denote] at den
    | _ => simp [Block.denote, YamdNode.newCode] at den
  have ev : v = embedV k a := render_inj h.valid.left (embedV_valid k a) (by rw [← h.shown, ← embedV_eq]; rfl)
  subst ev
  refine embed_close (a := a) (fun hc hcl => ?_)
  obtain ⟨v1, v2, e, k1, -, -⟩ := spv_cut h.valid h.spells
  have hv1 : Valid v1 := by have := h.valid; rw [e] at this; exact this.left
  refine spv_close hv1 k1 (h.noEnd rfl hc) (hcl.infix (List.IsPrefix.isInfix ?_))
  refine List.prefix_of_prefix_length_le (l₃ := v1 ++ v2) ⟨X, e⟩ ⟨v2, rfl⟩ ?_
  have h1 := congrArg List.length (spv_text hv1 k1)
  rw [← h.own.text (src := d), List.length_map] at h1
  have h2 := embedV_chars k a
  rw [List.length_map] at h2
  rw [h2, ← h1]
  obtain ⟨ok1, -, ok2, -, ok3⟩ := h.ok
  have hl := h.live
  have o1 : sliceD d o = ['{', '{'] := by
    refine run_slice (ts := (Block.embed o l p r q).toks) hl (by simp [Block.toks]) (k := .LeftCurlyBrace) (n := 2) (c := '{') ?_ rfl
    simp only [isLeftCurly2, Bool.and_eq_true, decide_eq_true_eq] at ok1
    simp [ok1.1.1, ok1.2]
  have o2 : 1 ≤ (sliceD d p).length := List.length_pos_iff.2 (hl.text p (by simp [Block.toks]))
  have o3 : 2 ≤ (textOfToks d q).length := by
    have key : ∀ t ∈ q, isRightCurly2 t = true → sliceD d t = ['}', '}'] := by
      intro t ht hr
      refine run_slice (ts := (Block.embed o l p r q).toks) hl (by simp [Block.toks, ht]) (k := .RightCurlyBrace) (n := 2) (c := '}') ?_ rfl
      simpa [isRightCurly2] using hr
    rcases ok3 with ⟨t, rfl, ht⟩ | ⟨t, e, rfl, ht, -⟩
    · rw [text_one, key t (by simp) ht]; simp
    · rw [text_cons, key t (by simp) ht]; simp
  rw [Block.toks, text_cons, text_append, text_cons, text_append, hk, ha, o1]
  simp only [List.length_append, List.length_cons, List.length_nil]
  omega

/-- The first block is safe, and if something follows its end is clean. -/
theorem first_block {c S} {d : Str} {n : YamdNode} {b t1 t2 v X} (hn : isPlain n = true) (h : First c S d n b t1 t2 v X) :
    safeBlock c n = true ∧ (X ≠ [] → endsClean n = true) := by
  cases n with
  | paragraph p => exact first_para h
  | heading level b => exact first_head h
  | image i => exact ⟨first_image h, fun _ => rfl⟩
  | images l => exact ⟨first_gallery h, fun _ => rfl⟩
  | code lang code => exact ⟨first_code h, fun _ => rfl⟩
  | embed k a => exact ⟨first_embed h, fun _ => rfl⟩
  | thematicBreak => exact ⟨rfl, fun _ => rfl⟩
  | list l => exact ⟨first_list hn h, fun _ => rfl⟩
  | highlight t i ps => exact ⟨first_highlight hn h, fun _ => rfl⟩
  | collapsible t b' =>
    exfalso
    have den := h.den
    cases b with
    | images l =>
      match l with
      | [] => simp [Block.denote] at den
      | [i] => simp [Block.denote] at den
      | i :: j :: l => simp [Block.denote] at den
    | _ => simp [Block.denote, YamdNode.newCode] at den

theorem lead_add (a b : Str) : lead (a ++ b) ≤ lead a + lead b := by
  cases h : a.all brk with
  | false => rw [lead_some h]; omega
  | true =>
    have := lead_all h []
    rw [List.append_nil] at this
    rw [lead_all h, this]
    simp [lead]

theorem collV_valid {t : Str} {vs : List V} (h : Valid (joinV vs)) : Valid (collV t vs) :=
  (valid_free (by decide)).append ((valid_free (by decide)).append ((ctitle_valid t).append ((valid_free (by decide)).append
    (h.append ((valid_free (by decide)).append (valid_free (by decide)))))))

theorem joinV_ok : ∀ {vs : List V}, (∀ v ∈ vs, Valid v) → Valid (joinV vs)
  | [], _ => by simp [joinV, Valid]
  | [v], h => h v (by simp)
  | v :: w :: r, h => by
    rw [joinV]
    exact (h v (by simp)).append ((valid_free (by decide)).append (joinV_ok (fun u hu => h u (by simp [List.mem_cons.1 hu]))))

/-- The views of the blocks of a document that was read. -/
theorem doc_shown {src : Str} : ∀ {D : Doc}, D.Ok → Live src D.toks → (D.denote src).all isPlain = true → ∃ vs, Shown (D.denote src) vs
  | .nil, _, _, _ => ⟨[], rfl, by simp⟩
  | .term t D, ok, live, hs => doc_shown (D := D) ok.2 (live.infix ⟨[t], [], by simp [Doc.toks]⟩) hs
  | .block b D, ok, live, hs => by
    simp only [Doc.denote, List.all_cons, Bool.and_eq_true] at hs
    obtain ⟨v, hv1, hv2, -⟩ := block_shown ok.1 (live.infix ⟨[], D.toks, by simp [Doc.toks]⟩ : Live src b.toks) hs.1
    obtain ⟨vs, h1, h2⟩ := doc_shown (D := D) ok.2 (live.infix ⟨b.toks, [], by simp [Doc.toks]⟩) hs.2
    refine ⟨v :: vs, by simp [Doc.denote, h1, hv1], fun w hw => ?_⟩
    rcases List.mem_cons.1 hw with rfl | hw
    · exact hv2
    · exact h2 w hw
  | .coll o m i s c D, ok, live, hs => by
    simp only [Doc.denote, List.all_cons, Bool.and_eq_true, isPlain, plainBlocks_all] at hs
    obtain ⟨vi, g1, g2⟩ := doc_shown (D := i) ok.2.2.1 (live.infix ⟨o ++ modToks m, s ++ (c ++ D.toks), by simp [Doc.toks]⟩) hs.1
    obtain ⟨vs, h1, h2⟩ := doc_shown (D := D) ok.2.2.2.2.2 (live.infix ⟨o ++ (modToks m ++ (i.toks ++ (s ++ c))), [], by simp [Doc.toks]⟩) hs.2
    refine ⟨collV ((modDenote src m).getD []) vi :: vs, ?_, fun w hw => ?_⟩
    · simp only [Doc.denote, List.map_cons, h1]
      rw [show dispB (.collapsible ((modDenote src m).getD []) (i.denote src)) = _ from coll_eq g1]
    · rcases List.mem_cons.1 hw with rfl | hw
      · exact collV_valid (joinV_ok g2)
      · exact h2 w hw

/-- What follows the blocks: nothing, or the closing line of the collapsible. -/
def Tail (c : Bool) (X : V) : Prop := X = [] ∨ c = true ∧ ∃ Y, X = free ['\n', '%', '}'] ++ Y

theorem Tail.lead {c X} (h : Tail c X) : lead (X.map Prod.snd) ≤ 1 := by
  rcases h with rfl | ⟨-, Y, rfl⟩
  · simp [Round.lead]
  · rw [List.map_append, free_chars]
    simp [Round.lead, brk]

theorem blocks_exact {d : Str} {c : Bool} {S : List Stop} {l : List YamdNode} {vs : List V} {X : V} {pre ts : List Token} (hA : At c S)
    (hX : Tail c X) (htok : tokens d = pre ++ ts) (hs : SpV d true ts (joinV vs ++ X)) (hval : Valid (joinV vs ++ X)) (hsh : Shown l vs)
    (hsim : l.all isPlain = true) (hden : (docB S ts).1.denote d = l) :
    safeBlocks c l = true ∧ l.dropLast.all endsClean = true ∧ (X ≠ [] → l.all endsClean = true) := by
  match l, hsh, hsim, hden with
  | [], _, _, _ => exact ⟨rfl, rfl, fun _ => rfl⟩
  | n :: l, hsh, hsim, hden =>
    obtain ⟨v, vs, rfl⟩ : ∃ v vs', vs = v :: vs' := by
      cases vs with
      | nil => have := hsh.1; simp at this
      | cons v vs => exact ⟨v, vs, rfl⟩
    have hflip := docB_flips S ts
    have hlive : Live d ((docB S ts).1.toks ++ (docB S ts).2) := by
      have := live_flips (input := d) (l := pre ++ ((docB S ts).1.toks ++ (docB S ts).2)) (by rw [htok]; exact (Flips.refl pre).append hflip)
      exact this.right
    have hok := docB_ok S ts
    have hlay := docB_lay S ts (by have := cols_tokens d; rw [htok] at this; exact this.right)
    have htext := spv_text hval hs
    have hlead := lead_doc hok hlay hlive.left (by rw [hden]; exact hsim) (by rw [hden]; exact hsh)
    have hlead2 := lead_le (textOfToks d (docB S ts).1.toks) (textOfToks d (docB S ts).2)
    rw [← text_append, hflip.text (src := d), htext, List.map_append] at hlead2
    have hlead3 := lead_add ((joinV (v :: vs)).map Prod.snd) (X.map Prod.snd)
    have hlead4 := hX.lead
    have hnt : isTerm (docB S ts).1 = false := by
      cases ht : isTerm (docB S ts).1 with
      | false => rfl
      | true => rw [ht, if_pos rfl] at hlead; omega
    clear hlead hlead2 hlead3 hlead4
    have hden0 := hden
    have hsim0 := hsim
    simp only [List.all_cons, Bool.and_eq_true] at hsim
    have hsh1 : dispB n = render v := by have := hsh.1; simp only [List.map_cons, List.cons.injEq] at this; exact this.1
    have hsh2 : Shown l vs := ⟨by have := hsh.1; simp only [List.map_cons, List.cons.injEq] at this; exact this.2,
      fun w hw => hsh.2 w (by simp [hw])⟩
    generalize hX' : (if vs = [] then X else free ['\n', '\n'] ++ (joinV vs ++ X)) = X'
    have ev : joinV (v :: vs) ++ X = v ++ X' := by
      rw [joinV_cons, ← hX']
      by_cases h : vs = []
      · rw [if_pos h, if_pos h]; simp
      · rw [if_neg h, if_neg h]; simp
    have hval0 := hval
    rw [ev] at hval hs
    have hafter : AfterV c X' := by
      rw [← hX']
      by_cases h : vs = []
      · rw [if_pos h]
        rcases hX with h | ⟨h1, h2⟩
        · exact .inl h
        · exact .inr (.inr ⟨h1, h2⟩)
      · rw [if_neg h]; exact .inr (.inl ⟨_, rfl⟩)
    obtain ⟨g1, g2⟩ : safeBlock c n = true ∧ (X' ≠ [] → endsClean n = true) := by
      cases hq : (docB S ts).1 with
      | nil => rw [hq] at hden; simp [Doc.denote] at hden
      | term t D => rw [hq] at hnt; simp [isTerm] at hnt
      | block b D =>
        rw [hq] at hflip hlive hok hden
        simp only [Doc.denote, List.cons.injEq] at hden
        obtain ⟨t1, t2, ets, f1, f2⟩ := Flips.split (b := b.toks) (by simpa [Doc.toks] using hflip)
        refine first_block hsim.1 (b := b) (t1 := t1) (t2 := t2) (v := v) (X := X') (S := S) (d := d)
          { place := hA
            spells := by rw [← ets]; exact hs
            valid := hval
            after := hafter
            shown := hsh1
            read := ⟨D, by rw [← ets]; exact hq⟩
            own := f1
            ok := hok.1
            all := by
              rw [← ets]
              have := live_flips (input := d) (Flips.refl (tokens d))
              rw [htok] at this
              exact this.right
            live := hlive.infix ⟨[], D.toks ++ (docB S ts).2, by simp [Doc.toks]⟩
            den := hden.1 }
      | coll o m i s k D =>
        rw [hq] at hlive hok hden
        simp only [Doc.denote, List.cons.injEq] at hden
        obtain ⟨hn, -⟩ := hden
        obtain ⟨t, htt⟩ : ∃ t, (modDenote d m).getD [] = t := ⟨_, rfl⟩
        obtain ⟨B, hB⟩ : ∃ B, i.denote d = B := ⟨_, rfl⟩
        rw [htt, hB] at hn
        have hlt : sizeOf B < sizeOf n := by rw [← hn]; simp; omega
        have hpl := hsim.1
        rw [← hn] at hpl hsh1 ⊢
        refine ⟨?_, fun _ => rfl⟩
        simp only [isPlain, plainBlocks_all] at hpl
        obtain ⟨vi, hvi⟩ := doc_shown hok.2.2.1 (hlive.infix ⟨o ++ modToks m, s ++ (k ++ (D.toks ++ (docB S ts).2)), by simp [Doc.toks]⟩ : Live d i.toks)
          (by rw [hB]; exact hpl)
        rw [hB] at hvi
        have vj := joinV_ok hvi.2
        have ecv : v = collV t vi := render_inj hval.left (collV_valid vj) (by rw [← hsh1]; exact coll_eq hvi.1)
        rw [ecv] at hs
        obtain ⟨k1, k2⟩ := coll_first htok hq htt hB hvi hpl hval.right vj hs
        simp only [safeBlock, k1, Bool.true_and, Bool.and_eq_true]
        rcases k2 with hB0 | ⟨pre', r1, m1, m2, m3, m4⟩
        · rw [hB0]; simp [safeBlocks]
        · have ih := blocks_exact (l := B) (X := free ['\n', '%', '}'] ++ X') hA.coll (.inr ⟨rfl, _, rfl⟩) m1 m3
            (vj.append ((valid_free (by decide)).append hval.right)) hvi hpl m2
          refine ⟨⟨ih.1, ih.2.2 (by simp [free])⟩, ?_⟩
          cases B with
          | nil => rfl
          | cons x B => exact m4 x (by simp)
    by_cases hvs : vs = []
    · have hl : l = [] := by
        have := hsh2.1
        rw [hvs] at this
        simpa using this
      subst hl
      rw [if_pos hvs] at hX'
      subst hX'
      exact ⟨by simp [safeBlocks, g1], rfl, fun h => by simp [g2 h]⟩
    · rw [if_neg hvs] at hX'
      subst hX'
      have hend := g2 (by simp [free])
      obtain ⟨v', e, hb, hc, -⟩ := good_block hA.inside g1
      have ev : v' = v := render_inj hb.valid hval.left (by rw [← e, hsh1])
      subst ev
      obtain ⟨t1, t2, rfl, s1, s2⟩ := spv_split hb.valid (join_blank hb.valid (hc hend)) hs
      obtain ⟨t3, t4, rfl, s3, s4⟩ := spv_split (valid_free (by decide)) (join_after_blank _) s2
      obtain ⟨t, rfl, st⟩ := spv_one (p := ⟨false, .Terminator, ['\n', '\n']⟩) rfl s3
      have hfl : flag (flag true v') (free ['\n', '\n']) = true := rfl
      rw [hfl] at s4
      obtain ⟨f1, r1, e1, hf1, hor1⟩ := hb.reads d t1 s1 (t :: t4) (.term t _ st.kind)
      have hr1 : r1 = t :: t4 := by
        rcases hor1 with h | ⟨e, h, he⟩
        · exact h
        · simp only [List.cons.injEq] at h
          rw [← h.1, st.kind] at he; simp at he
      subst hr1
      rw [docB_term (stop_term hA.inside.1 st.kind) (by simp [isTerminator, st.kind])] at e1
      have hrest : (docB S t4).1.denote d = l := by
        have h5 : (docB S (t1 ++ t :: t4)).1.denote d = n :: l := hden0
        rw [e1, hf1] at h5
        simpa [Doc.denote] using h5
      obtain ⟨i1, i2, i3⟩ := blocks_exact (l := l) (pre := pre ++ (t1 ++ [t])) hA hX (by rw [htok]; simp) s4 hval.right.right hsh2 hsim.2 hrest
      refine ⟨by simp [safeBlocks, g1, i1], ?_, fun h => by simp [hend, i3 h]⟩
      have hl : l ≠ [] := by
        rintro rfl
        have := hsh2.1
        simp at this
        exact hvs this
      rw [List.dropLast_cons_of_ne_nil hl, List.all_cons, hend, i2]
      rfl
termination_by sizeOf l
decreasing_by
  · simp only [List.cons.sizeOf_spec]; omega
  · simp only [List.cons.sizeOf_spec]; omega

/-- A document without front matter, of plain blocks, that is read back is safe. -/
theorem document_exact {l : List YamdNode} (hs : l.all isPlain = true)
    (h : deserialize (Yamd.display ⟨none, l⟩) = .ok ⟨none, l⟩) : safeBlocks false l = true ∧ l.dropLast.all endsClean = true := by
  have hd : Yamd.display ⟨none, l⟩ = joinWith (cs! "\n\n") (l.map dispB) := by
    simp only [Yamd.display, displayBlocks_map]
  generalize Yamd.display ⟨none, l⟩ = d at h hd
  rw [deserialize_eq] at h
  have h1 : (topB (tokens d)).denote d = ⟨none, l⟩ := Except.ok.inj h
  unfold Top.denote Yamd.new at h1
  simp only [Yamd.mk.injEq, Option.map_eq_none_iff] at h1
  obtain ⟨e1, e2⟩ := topB_none h1.1
  have hden := h1.2
  rw [e1] at hden
  have hlive : Live d (docB [] (tokens d)).1.toks := by
    rw [← e1, ← e2]; exact live_top d
  obtain ⟨vs, hvs⟩ := doc_shown (docB_ok [] (tokens d)) hlive (by rw [hden]; exact hs)
  rw [hden] at hvs
  have key := blocks_exact (d := d) (X := []) (pre := []) (vs := vs) At.top (.inl rfl) rfl ?_ (by rw [List.append_nil]; exact joinV_ok hvs.2) hvs hs hden
  · exact ⟨key.1, key.2.1⟩
  unfold SpV
  rw [List.append_nil, joinV_eq, ← hvs.1, ← hd]
  exact sp_tokens d

end Yamd.Round
