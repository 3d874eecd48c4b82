import Verif.Proofs.Exact.CollLines
import Verif.Proofs.Exact.DocPara
import Verif.Proofs.Exact.DocBlank

/-!
# The first block of a document that is read back, when it is a collapsible
-/

namespace Yamd.Round

open Yamd Yamd.Spec Yamd.Lexer Yamd.Ref

/-- After `{%` and one space. -/
theorem coll_space {src : Str} {b : Bool} {o sp : Token} {R : List Token} {w : V} (hsp : isSpaceOrEol sp = true)
    (hl : Live src (o :: sp :: R)) (hw : Valid w) (hs : SpV src b (o :: sp :: R) (free ['{', '%'] ++ (free [' '] ++ w))) :
    sp.kind = .Space ∧ SpV src false (sp :: R) (free [' '] ++ w) := by
  have j1 : Join (free ['{', '%']) (free [' '] ++ w) := by
    refine join_known (l := []) (p := ⟨false, .CollapsibleStart, ['{', '%']⟩) (valid_free (by decide)) (pieces_one rfl) ?_
    rfl
  have hv2 : Valid (free [' '] ++ w) := (valid_free (by decide)).append hw
  obtain ⟨t1, r1, e1, s1, s2⟩ := spv_split (valid_free (by decide)) j1 hs
  obtain ⟨o', rfl, so⟩ := spv_one (p := ⟨false, .CollapsibleStart, ['{', '%']⟩) rfl s1
  simp only [List.cons_append, List.nil_append, List.cons.injEq] at e1
  obtain ⟨rfl, rfl⟩ := e1
  refine ⟨?_, s2⟩
  have l2 : Live src (sp :: R) := hl.infix ⟨[o], [], by simp⟩
  simp only [isSpaceOrEol, Bool.or_eq_true, decide_eq_true_eq] at hsp
  rcases hsp with hk | hk
  · exact hk
  · exfalso
    obtain ⟨v1, v2, e3, h, -, -⟩ := spv_cut (t1 := [sp]) (t2 := R) hv2 s2
    have h3 := (spv_text (by rw [e3] at hv2; exact hv2.left) h).symm
    obtain ⟨q, g1, g2, -⟩ := l2.lexed sp (by simp) (by rw [hk]; decide)
    rw [text_one, g1] at h3
    rw [hk] at g2
    cases v1 with
    | nil => simp at h3; exact form_ne_nil g2 h3
    | cons x v1 =>
      simp only [free, List.map_cons, List.map_nil, List.cons_append, List.cons.injEq] at e3
      rw [← e3.1] at h3
      rcases g2 with rfl | rfl <;> simp at h3

/-- The body of a collapsible that is read back, and its title. -/
theorem coll_first {S : List Stop} {d : Str} {pre ts : List Token} {o : List Token} {m : Option Mod} {i : Doc} {s c : List Token} {D : Doc}
    {t : Str} {B : List YamdNode} {vs : List V} {X : V} (htok : tokens d = pre ++ ts)
    (h : (docB S ts).1 = .coll o m i s c D) (ht : (modDenote d m).getD [] = t) (hB : i.denote d = B) (hsh : Shown B vs)
    (hp : B.all isPlain = true) (hX : Valid X) (hvj : Valid (joinV vs))
    (hs : SpV d true ts (collV t vs ++ X)) :
    safeLine t = true ∧ (B = [] ∨ ∃ pre' r1, tokens d = pre' ++ r1 ∧ (docB (.CollapsibleEnd :: S) r1).1.denote d = B ∧
      SpV d true r1 (joinV vs ++ (free ['\n', '%', '}'] ++ X)) ∧ ∀ n ∈ B.head?, startsClean n = true) := by
  have hl : Live d ts := by
    have := live_flips (input := d) (Flips.refl (tokens d))
    rw [htok] at this
    exact this.right
  have hcols : Cols ts := by have := cols_tokens d; rw [htok] at this; exact this.right
  -- the opening line
  obtain ⟨r1, ho, hi⟩ : ∃ r1, collOpenB S ts = some (o, m, r1) ∧ (docB (.CollapsibleEnd :: S) r1).1 = i := by
    cases hst : stopAt S ts with
    | true => rw [docB_stop hst] at h; simp at h
    | false =>
      cases docB_step hst with
      | term t r _ ht e => rw [e] at h; simp at h
      | code t r _ ht b' rest hc' e => rw [e] at h; simp at h
      | coll t r _ ht o' m' r1 c r4 _ ho _ e =>
        rw [e] at h
        simp only [Doc.coll.injEq] at h
        obtain ⟨rfl, rfl, h3, -⟩ := h
        exact ⟨r1, ho, h3⟩
      | fallback t r _ ht o m r1 _ ho _ e => rw [e] at h; simp at h
      | other t r _ ht _ _ e => rw [e] at h; simp at h
  unfold collOpenB at ho
  split at ho
  next hh =>
    split at ho
    next hcol =>
      simp only [Option.some.injEq, Prod.mk.injEq] at ho
      match ts, hl, hcols, hs, htok, hh, hcol, ho with
      | [], _, _, _, _, hh, _, _ => simp [tokenIs] at hh
      | [_], _, _, _, _, hh, _, _ => simp [tokenIs] at hh
      | a :: sp :: q, hl, hcols, hs, htok, hh, hcol, ho =>
      simp only [Bool.and_eq_true] at hh
      have hsp : isSpaceOrEol sp = true := hh.2
      obtain ⟨-, e2, e3⟩ := ho
      simp only [List.drop_succ_cons, List.drop_zero] at e2 e3 hcol
      have hw : Valid (free ['\n', '%', '}'] ++ X) := (valid_free (by decide)).append hX
      have hw2 : Valid (joinV vs ++ (free ['\n', '%', '}'] ++ X)) := hvj.append hw
      have ev : collV t vs ++ X = free ['{', '%'] ++ (free [' '] ++ (ctitleV t ++ (free ['\n'] ++ (joinV vs ++ (free ['\n', '%', '}'] ++ X))))) := by
        simp [collV, free]
      rw [ev] at hs
      have hw3 : Valid (ctitleV t ++ (free ['\n'] ++ (joinV vs ++ (free ['\n', '%', '}'] ++ X)))) :=
        (ctitle_valid t).append ((valid_free (by decide)).append hw2)
      obtain ⟨hk, s2⟩ := coll_space hsp hl hw3 hs
      have l2 : Live d (sp :: q) := hl.infix ⟨[a], [], by simp⟩
      have htq := optModB_toks S q
      cases m with
      | none =>
        exfalso
        rw [(optModB_none e2).1] at hcol
        cases q with
        | nil => simp [tokenIs] at hcol
        | cons x q =>
          have hv4 := (valid_free (s := [' ']) (by decide)).append hw3
          obtain ⟨v1, v2, e, k1, k2, -⟩ := spv_cut (t1 := [sp]) (t2 := x :: q) hv4 s2
          rw [e] at hv4
          have h3 := spv_text hv4.left k1
          rw [text_one, run_slice l2 (t := sp) (by simp) (k := .Space) (n := sp.len) (by simp [hk]) (c := ' ') rfl] at h3
          obtain ⟨p, v3, -, st, -⟩ := spv_head hv4.right k2
          have h4 : col0 x = flag false v1 := st.col
          have h5 : flag false v1 = false := by
            unfold flag
            cases hg : v1.getLast? with
            | none => rfl
            | some y =>
              have hm : y.2 ∈ v1.map Prod.snd := List.mem_map.2 ⟨y, List.mem_of_getLast? hg, rfl⟩
              rw [← h3] at hm
              have := List.eq_of_mem_replicate hm
              simp only [beq_eq_false_iff_ne, ne_eq]
              rintro rfl
              simp at this
          simp only [tokenIs, List.getElem?_cons_zero] at hcol
          rw [h4, h5] at hcol
          simp at hcol
      | some m =>
        have hmo : m.Ok := by
          have := optModB_ok S q
          rw [e2] at this
          exact this
        rw [e2, e3] at htq
        simp only [modToks] at htq
        have htq2 : q = m.body ++ m.eol :: r1 := by rw [htq]; simp
        clear htq
        subst htq2
        have hb : textOfToks d m.body = t := by rw [← ht]; simp [modDenote]
        obtain ⟨g1, b', g2⟩ := ctitle_exact hsp hl hb hmo.2 hw2 hs
        refine ⟨g1, ?_⟩
        cases B with
        | nil => exact .inl rfl
        | cons n B =>
          right
          obtain ⟨v, vs, rfl⟩ : ∃ v vs', vs = v :: vs' := by
            cases vs with
            | nil => have := hsh.1; simp at this
            | cons v vs => exact ⟨v, vs, rfl⟩
          have hsh1 : dispB n = render v := by have := hsh.1; simp only [List.map_cons, List.cons.injEq] at this; exact this.1
          have hv : Valid v := hsh.2 v (by simp)
          have htok2 : tokens d = (pre ++ (a :: sp :: (m.body ++ [m.eol]))) ++ r1 := by rw [htok]; simp
          have hflip : Flips r1 (i.toks ++ (docB (.CollapsibleEnd :: S) r1).2) := by
            rw [← hi]; exact docB_flips _ _
          have hlive : Live d (i.toks ++ (docB (.CollapsibleEnd :: S) r1).2) := by
            have := live_flips (input := d) (l := (pre ++ (a :: sp :: (m.body ++ [m.eol]))) ++ (i.toks ++ (docB (.CollapsibleEnd :: S) r1).2))
              (by rw [htok2]; exact (Flips.refl _).append hflip)
            exact this.right
          have hok : i.Ok := by rw [← hi]; exact docB_ok _ _
          have hlay : i.Lay (docB (.CollapsibleEnd :: S) r1).2 := by
            rw [← hi]
            exact docB_lay _ _ (by have := cols_tokens d; rw [htok2] at this; exact this.right)
          have hhead := doc_head hv hsh1 hok hlive.left (by rw [hB]; exact hp) hB
          obtain ⟨e', tail, w', e1, -, -, st, hor⟩ := break_first (B := ['\n']) (.inl rfl) g2
          obtain ⟨rfl, rfl⟩ := List.cons.inj e1
          rcases hor with ⟨rfl, hcs⟩ | ⟨B', hB', ew⟩
          · refine ⟨_, r1, htok2, by rw [hi]; exact hB, st, ?_⟩
            intro n' hn'
            simp only [List.head?_cons, Option.mem_some_iff] at hn'
            subst hn'
            rcases hhead with ⟨p, rfl, hps⟩ | ⟨hnp, c, r, rfl, hc⟩
            · rw [joinV_cons, List.append_assoc] at hcs
              exact para_start hps hv hsh1 hcs
            · cases n with
              | paragraph p => exact absurd rfl (hnp p)
              | _ => rfl
          · exfalso
            have hp' : (i.denote d).all isPlain = true := by rw [hB]; exact hp
            have hsh' : Shown (i.denote d) (v :: vs) := by rw [hB]; exact hsh
            cases hbrk : ((joinV (v :: vs)).map Prod.snd).all brk with
            | true =>
              refine no_blank_body (S := S) (r1 := r1) (vs := v :: vs) (X := X) (by rw [hi]; exact hok) (by rw [hi]; exact hlay)
                (by rw [hi]; exact hlive.left) (by rw [hi]; exact hp') (by rw [hi]; exact hsh') (by simp) hbrk hX hB' ?_ ?_ st
              · exact ew
              · rw [ew] at hw2; exact hw2.right
            | false =>
              have h1 := lead_doc hok hlay hlive.left (by rw [hB]; exact hp) (by rw [hB]; exact hsh)
              have h2 := lead_le (textOfToks d i.toks) (textOfToks d (docB (.CollapsibleEnd :: S) r1).2)
              rw [← text_append, hflip.text (src := d), spv_text (by rw [ew] at hw2; exact hw2.right) st] at h2
              have h3 : lead ((joinV (v :: vs)).map Prod.snd) = lead ((joinV (v :: vs) ++ (free ['\n', '%', '}'] ++ X)).map Prod.snd) := by
                rw [List.map_append, lead_some hbrk]
              rw [ew, List.map_append, free_chars, lead_all (by rcases hB' with rfl | rfl <;> rfl)] at h3
              have : 0 < B'.length := by rcases hB' with rfl | rfl <;> simp
              omega
    · simp at ho
  · simp at ho

end Yamd.Round
