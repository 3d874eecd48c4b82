import Verif.Proofs.RefineBase

/-!
# The modelled parser refines the reference parser: text runs, bold, paragraphs, headings
-/

namespace Yamd.Ref

open Yamd

variable {src : Str} {pre ts r : List Token} {eof : List Stop} {ops : List Op} {t : Token}

/-- `text_start` when `acc` is the text read so far. -/
def tstart (pre acc : List Token) : Option Nat := if acc = [] then none else some pre.length

/-- The op of the text read so far. -/
def accOps (src : Str) (acc : List Token) : List Op :=
  if acc = [] then [] else [.value (content src acc)]

theorem tstart_snoc (pre acc : List Token) (t : Token) :
    some ((tstart pre acc).getD (pre ++ acc).length) = tstart pre (acc ++ [t]) := by
  unfold tstart
  by_cases h : acc = []
  · subst h; simp
  · simp [h]

theorem insertText_eq {acc a n : List _} {x y : Nat} (hx : x = (pre ++ acc).length)
    (hy : y = ops.length) (h : Good src acc) :
    insertText (st src (pre ++ acc ++ a) r eof (ops ++ n)) (tstart pre acc) x y
      = .ok (st src (pre ++ acc ++ a) r eof (ops ++ (accOps src acc ++ n))) := by
  subst hx hy
  unfold insertText tstart accOps
  by_cases hacc : acc = []
  · subst hacc; simp
  · simp only [hacc, if_false]
    rw [st_spanAt (a := pre) (b := acc) (c := a ++ r) (by simp) rfl (by simp) h]
    simp only [bind, Except.bind]
    rw [st_insert]
    simp

theorem pushText_eq {acc a : List _} {x : Nat} (hx : x = (pre ++ acc).length) (h : Good src acc) :
    pushText (st src (pre ++ acc ++ a) r eof ops) (tstart pre acc) x
      = .ok (st src (pre ++ acc ++ a) r eof (ops ++ accOps src acc)) := by
  subst hx
  unfold pushText tstart accOps
  by_cases hacc : acc = []
  · subst hacc; simp
  · simp only [hacc, if_false]
    rw [st_spanAt (a := pre) (b := acc) (c := a ++ r) (by simp) rfl (by simp) h]
    simp [bind, Except.bind, pure, Except.pure, st_push]

theorem boldItems_acc_ops (acc : List Token) :
    (if acc = [] then [] else [BoldItem.text acc]).flatMap (BoldItem.ops src) = accOps src acc := by
  unfold accOps; split <;> simp [BoldItem.ops]
theorem boldItems_acc_toks (acc : List Token) :
    (if acc = [] then [] else [BoldItem.text acc]).flatMap BoldItem.toks = acc := by
  split <;> simp_all [BoldItem.toks]

theorem boldChild_refines :
    Refines src (orElse strikethrough italic) boldChildB Delim.toks (Delim.ops src) :=
  refines_orElse strike_refines italic_refines (fun s t => by unfold boldChildB; split <;> simp_all)

theorem boldLoop_eq : ∀ {n ts pre acc ops}, ts.length < n → Good src acc → Good src ts →
    match boldItemsB eof acc ts with
    | some (l, c, r) => boldLoop n (st src (pre ++ acc) ts eof ops) (tstart pre acc)
        = .ok (true, st src (pre ++ (l.flatMap BoldItem.toks ++ [c])) r eof
            (ops ++ (l.flatMap (BoldItem.ops src) ++ [.close .Bold (content src [c])])))
    | none => ∃ pre' r' o', boldLoop n (st src (pre ++ acc) ts eof ops) (tstart pre acc)
        = .ok (false, st src pre' r' eof (ops ++ o')) ∧ pre' ++ r' = pre ++ (acc ++ ts) := by
  intro n
  induction n with
  | zero => intro ts pre acc ops hn; omega
  | succ n ih =>
    intro ts pre acc ops hn hacc hts
    cases ts with
    | nil =>
      rw [boldItemsB]
      refine ⟨pre ++ acc, [], [], ?_, by simp⟩
      rw [boldLoop, st_peek]
      simp
    | cons t r =>
      rw [boldLoop, st_peek, st_atEof]
      simp only [List.getElem?_cons_zero]
      cases hs : stopAt eof (t :: r) with
      | true =>
        rw [boldItemsB_stop hs]
        simp only [if_true]
        exact ⟨pre ++ acc, t :: r, [], by simp, by simp⟩
      | false =>
        simp only [Bool.false_eq_true, if_false, st_pos, st_ops]
        cases hstar : isStar2 t with
        | true =>
          rw [boldItemsB_close hs hstar]
          simp only [st_eat_yes _ hstar, bind, Except.bind]
          rw [pushText_eq (a := [t]) rfl hacc]
          simp only
          rw [st_spanAt (a := pre ++ acc) (b := [t]) (c := r) (by simp) rfl (by simp) hts.single]
          simp only [pure, Except.pure, st_push]
          rw [boldItems_acc_ops, boldItems_acc_toks]
          simp
        | false =>
          simp only [st_eat_no _ hstar, bind, Except.bind]
          rw [boldChild_refines _ _ _ _ hts]
          cases hc : boldChildB eof (t :: r) with
          | none =>
            rw [boldItemsB_none hs hstar hc]
            simp only
            rw [st_next_cons, tstart_snoc pre acc t]
            have := ih (ts := r) (pre := pre) (acc := acc ++ [t]) (ops := ops) (by simp at hn; omega)
              (hacc.append hts.single) hts.tail
            simp only [List.append_assoc, List.singleton_append, List.cons_append, List.nil_append] at this ⊢
            exact this
          | some x =>
            obtain ⟨d, r'⟩ := x
            have hl := boldChildB_length hc
            have htk := boldChildB_toks hc
            have hg : Good src (d.toks ++ r') := by rw [← htk]; exact hts
            rw [boldItemsB_some hs hstar hc]
            simp only
            rw [insertText_eq rfl rfl hacc]
            simp only
            have := ih (ts := r') (pre := pre ++ acc ++ d.toks) (acc := []) (ops := ops ++ (accOps src acc ++ d.ops src))
              (by simp at hn hl ⊢; omega) Good.nil hg.append_right
            cases hb : boldItemsB eof [] r' with
            | none =>
              rw [hb] at this
              obtain ⟨p', q', o', h1, h2⟩ := this
              refine ⟨p', q', accOps src acc ++ d.ops src ++ o', ?_, ?_⟩
              · simp only [List.append_nil, tstart, if_true] at h1
                rw [h1]
                simp
              · rw [h2, htk]; simp
            | some x =>
              obtain ⟨l, c, r''⟩ := x
              rw [hb] at this
              simp only [List.append_nil, tstart, if_true] at this
              simp only [Option.map_some]
              rw [this, List.flatMap_append, List.flatMap_append, boldItems_acc_ops, boldItems_acc_toks]
              simp [BoldItem.ops, BoldItem.toks]

theorem bold_refines : Refines src bold boldB Inl.toks (Inl.ops src) := by
  intro pre ts eof o hgood
  unfold bold
  cases ts with
  | nil => rw [st_eat_nil, boldB]; rfl
  | cons t r =>
    rw [boldB]
    cases ho : isStar2 t with
    | false => rw [st_eat_no _ ho]; rfl
    | true =>
      rw [st_eat_yes _ ho]
      simp only [if_true, bind, Except.bind]
      rw [st_span [t] rfl (by simp) hgood.single]
      simp only [st_push]
      have := boldLoop_eq (src := src) (eof := eof) (n := (st src (pre ++ [t]) r eof o).tokens.length + 1)
        (ts := r) (pre := pre ++ [t]) (acc := []) (ops := o ++ [.start .Bold (content src [t])])
        (by simp [st]; omega) Good.nil hgood.tail
      cases hb : boldItemsB eof [] r with
      | none =>
        rw [hb] at this
        obtain ⟨p', q', o', h1, h2⟩ := this
        simp only [List.append_nil, tstart, if_true] at h1
        rw [h1]
        simp only [Option.map_none, pure, Except.pure, st_pos, st_ops]
        rw [st_restore (src := src) (pre := pre) (ts := t :: r) (eof := eof) (ops := o)
          (o := [.start .Bold (content src [t])] ++ o') rfl
          (by rw [st_tokens, h2]; simp) rfl (by simp)]
      | some x =>
        obtain ⟨l, c, r''⟩ := x
        rw [hb] at this
        simp only [List.append_nil, tstart, if_true] at this
        simp only [Option.map_some]
        rw [this]
        simp [pure, Except.pure, Inl.toks, Inl.ops]

/-- The first alternative that matches. -/
def orB {α : Type} (g1 g2 : List Stop → List Token → Option (α × List Token)) (s : List Stop)
    (t : List Token) : Option (α × List Token) :=
  match g1 s t with
  | some x => some x
  | none => g2 s t

theorem refines_or {α : Type} {f1 f2} {g1 g2 : List Stop → List Token → Option (α × List Token)}
    {toks ops} (h1 : Refines src f1 g1 toks ops) (h2 : Refines src f2 g2 toks ops) :
    Refines src (orElse f1 f2) (orB g1 g2) toks ops :=
  refines_orElse h1 h2 (fun _ _ => rfl)

theorem inline_refines : Refines src inline inlineB Inl.toks (Inl.ops src) := by
  have hd : ∀ {f : P → R (Bool × P)} {g}, Refines src f g Delim.toks (Delim.ops src) →
      Refines src f (fun s t => (g s t).map (fun x => (Inl.delim x.1, x.2))) Inl.toks (Inl.ops src) :=
    fun h => refines_map h _ (fun _ => rfl) (fun _ => rfl)
  have ha := refines_map (toks' := Inl.toks) (ops' := Inl.ops src) (anchor_refines (src := src))
    Inl.anchor (fun _ => rfl) (fun _ => rfl)
  have h := refines_or (hd strike_refines) (refines_or (hd italic_refines) (refines_or bold_refines
    (refines_or ha (refines_or (hd codeSpan_refines) (hd emphasis_refines)))))
  intro pre ts eof o hgood
  refine (h pre ts eof o hgood).trans ?_
  have e : inlineB eof ts = orB (fun s t => (strikeB s t).map (fun x => (Inl.delim x.1, x.2)))
      (orB (fun s t => (italicB s t).map (fun x => (Inl.delim x.1, x.2))) (orB boldB
        (orB (fun s t => (linkB s t).map (fun x => (Inl.anchor x.1, x.2)))
          (orB (fun s t => (codeSpanB s t).map (fun x => (Inl.delim x.1, x.2)))
            (fun s t => (emphasisB s t).map (fun x => (Inl.delim x.1, x.2))))))) eof ts := by
    unfold inlineB orB
    dsimp only
    cases strikeB eof ts with
    | some x => rfl
    | none =>
    cases italicB eof ts with
    | some x => rfl
    | none =>
    cases boldB eof ts with
    | some x => rfl
    | none =>
    cases linkB eof ts with
    | some x => rfl
    | none =>
    cases codeSpanB eof ts with
    | some x => rfl
    | none =>
    cases emphasisB eof ts with
    | some x => rfl
    | none => rfl
  rw [e]

theorem inl_acc_ops (acc : List Token) :
    (if acc = [] then [] else [Inl.text acc]).flatMap (Inl.ops src) = accOps src acc := by
  unfold accOps; split <;> simp [Inl.ops]
theorem inl_acc_toks (acc : List Token) :
    (if acc = [] then [] else [Inl.text acc]).flatMap Inl.toks = acc := by
  split <;> simp_all [Inl.toks]

theorem paragraphLoop_eq : ∀ {n ts pre acc ops}, ts.length < n → Good src acc → Good src ts →
    ∃ pre' acc' ops', paragraphLoop n (st src (pre ++ acc) ts eof ops) (tstart pre acc)
        = .ok (tstart pre' acc', st src (pre' ++ acc') (paraB eof acc ts).2 eof ops') ∧
      pre' ++ acc' = pre ++ paraToks (paraB eof acc ts).1 ∧
      ops' ++ accOps src acc' = ops ++ (paraB eof acc ts).1.flatMap (Inl.ops src) ∧ Good src acc' := by
  intro n
  induction n with
  | zero => intro ts pre acc ops hn; omega
  | succ n ih =>
    intro ts pre acc ops hn hacc hts
    rw [paragraphLoop, st_atEof]
    cases hs : stopAt eof ts with
    | true =>
      simp only [if_true]
      rw [paraB_stop hs]
      exact ⟨pre, acc, ops, rfl, by rw [paraToks, inl_acc_toks], by rw [inl_acc_ops], hacc⟩
    | false =>
      simp only [if_false, Bool.false_eq_true, bind, Except.bind]
      rw [inline_refines _ _ _ _ hts]
      cases hc : inlineB eof ts with
      | none =>
        simp only
        cases ts with
        | nil => simp [stopAt] at hs
        | cons t r =>
          rw [paraB_none hs hc]
          rw [st_next_cons, st_pos, tstart_snoc pre acc t, List.append_assoc]
          exact ih (by simp at hn; omega) (hacc.append hts.single) hts.tail
      | some x =>
        obtain ⟨d, r'⟩ := x
        have hl := inlineB_length hc
        have htk := inlineB_toks hc
        have hg : Good src (d.toks ++ r') := by rw [← htk]; exact hts
        rw [paraB_some hs hc]
        simp only [st_pos, st_ops]
        rw [insertText_eq rfl rfl hacc]
        simp only
        obtain ⟨p', a', o', h1, h2, h3, h4⟩ := ih (ts := r') (pre := pre ++ acc ++ d.toks) (acc := [])
          (ops := ops ++ (accOps src acc ++ d.ops src)) (by omega) Good.nil hg.append_right
        refine ⟨p', a', o', ?_, ?_, ?_, h4⟩
        · simp only [List.append_nil] at h1 ⊢
          exact h1
        · rw [h2]
          simp only [paraToks, List.flatMap_append, inl_acc_toks, List.flatMap_cons, List.append_assoc]
        · rw [h3]
          simp only [List.flatMap_append, inl_acc_ops, List.flatMap_cons, List.append_assoc]

theorem paragraph_eq (hts : Good src ts) : paragraph (st src pre ts eof ops)
    = .ok ((), st src (pre ++ paraToks (paraB eof [] ts).1) (paraB eof [] ts).2 eof
        (ops ++ paraOps src (paraB eof [] ts).1)) := by
  unfold paragraph
  rw [st_push]
  obtain ⟨p', a', o', h1, h2, h3, h4⟩ := paragraphLoop_eq (src := src) (eof := eof)
    (n := (st src pre ts eof ops).tokens.length + 1) (ts := ts) (pre := pre) (acc := [])
    (ops := ops ++ [.start .Paragraph emptyContent]) (by simp [st]; omega) Good.nil hts
  simp only [List.append_nil] at h1
  rw [show (none : Option Nat) = tstart pre [] from rfl, h1]
  simp only [bind, Except.bind]
  have := pushText_eq (src := src) (pre := p') (acc := a') (a := []) (eof := eof) (ops := o')
    (r := (paraB eof [] ts).2) (x := (st src (p' ++ a') (paraB eof [] ts).2 eof o').pos) rfl h4
  simp only [List.append_nil] at this
  rw [this]
  simp only [pure, Except.pure, st_push]
  rw [h2, h3]
  simp [paraOps]

theorem head_acc_ops (acc : List Token) :
    (if acc = [] then [] else [HeadItem.text acc]).flatMap (HeadItem.ops src) = accOps src acc := by
  unfold accOps; split <;> simp [HeadItem.ops]
theorem head_acc_toks (acc : List Token) :
    (if acc = [] then [] else [HeadItem.text acc]).flatMap HeadItem.toks = acc := by
  split <;> simp_all [HeadItem.toks]

theorem headingLoop_eq : ∀ {n ts pre acc ops}, ts.length < n → Good src acc → Good src ts →
    ∃ pre' acc' ops', headingLoop n (st src (pre ++ acc) ts eof ops) (tstart pre acc)
        = .ok (tstart pre' acc', st src (pre' ++ acc') (headB eof acc ts).2 eof ops') ∧
      pre' ++ acc' = pre ++ (headB eof acc ts).1.flatMap HeadItem.toks ∧
      ops' ++ accOps src acc' = ops ++ (headB eof acc ts).1.flatMap (HeadItem.ops src) ∧
      Good src acc' := by
  intro n
  induction n with
  | zero => intro ts pre acc ops hn; omega
  | succ n ih =>
    intro ts pre acc ops hn hacc hts
    rw [headingLoop, st_atEof, st_peek]
    cases ts with
    | nil =>
      rw [headB_stop rfl]
      exact ⟨pre, acc, ops, rfl, by rw [head_acc_toks], by rw [head_acc_ops], hacc⟩
    | cons t r =>
    simp only [List.getElem?_cons_zero]
    cases hs : stopAt eof (t :: r) with
    | true =>
      rw [headB_stop hs]
      exact ⟨pre, acc, ops, rfl, by rw [head_acc_toks], by rw [head_acc_ops], hacc⟩
    | false =>
      simp only [if_false, Bool.false_eq_true, bind, Except.bind]
      rw [anchor_refines _ _ _ _ hts]
      cases hc : linkB eof (t :: r) with
      | none =>
        rw [headB_none hs hc]
        simp only
        rw [st_next_cons, st_pos, tstart_snoc pre acc t, List.append_assoc]
        exact ih (by simp at hn; omega) (hacc.append hts.single) hts.tail
      | some x =>
        obtain ⟨d, r'⟩ := x
        have hl := linkB_length hc
        have htk := linkB_toks hc
        have hg : Good src (d.toks ++ r') := by rw [← htk]; exact hts
        rw [headB_some hs hc]
        simp only [st_pos, st_ops]
        rw [insertText_eq rfl rfl hacc]
        simp only
        obtain ⟨p', a', o', h1, h2, h3, h4⟩ := ih (ts := r') (pre := pre ++ acc ++ d.toks) (acc := [])
          (ops := ops ++ (accOps src acc ++ anchorOps src d)) (by simp at hn hl ⊢; omega) Good.nil hg.append_right
        refine ⟨p', a', o', ?_, ?_, ?_, h4⟩
        · simp only [List.append_nil] at h1 ⊢
          exact h1
        · rw [h2]
          simp only [List.flatMap_append, head_acc_toks, List.flatMap_cons, List.append_assoc,
            HeadItem.toks]
        · rw [h3]
          simp only [List.flatMap_append, head_acc_ops, List.flatMap_cons, List.append_assoc,
            HeadItem.ops]

theorem eatSeq2_yes {f g} (h1 : tokenIs ts 0 f = true) (h2 : tokenIs ts 1 g = true) :
    (st src pre ts eof ops).eatSeq2 f g = (some (pre.length, pre.length + 2),
      st src (pre ++ ts.take 2) (ts.drop 2) eof ops) := by
  match ts with
  | [] => simp [tokenIs] at h1
  | [t] => simp [tokenIs] at h2
  | t :: u :: r =>
    simp only [tokenIs, List.getElem?_cons_zero, List.getElem?_cons_succ] at h1 h2
    unfold P.eatSeq2
    rw [st_eat_yes _ h1]
    simp only
    rw [st_eat_yes _ h2]
    simp

theorem eatSeq2_no {f g} (h : (tokenIs ts 0 f && tokenIs ts 1 g) = false) :
    (st src pre ts eof ops).eatSeq2 f g = (none, st src pre ts eof ops) := by
  unfold P.eatSeq2
  cases h1 : tokenIs ts 0 f with
  | false => rw [st_eat_none _ h1]
  | true =>
    match ts with
    | [] => simp [tokenIs] at h1
    | t :: r =>
      simp only [h1, Bool.true_and] at h
      simp only [tokenIs, List.getElem?_cons_zero] at h1
      rw [st_eat_yes _ h1]
      simp only
      have : tokenIs r 0 g = false := by simpa [tokenIs] using h
      rw [st_eat_none _ this]
      simp [st]

theorem take2_length {f} (h2 : tokenIs ts 1 f = true) : (ts.take 2).length = 2 := by
  have := tokenIs_length h2
  simp; omega

theorem heading_refines : Refines src heading headingB Block.toks (Block.ops src) := by
  intro pre ts eof o hts
  unfold heading headingB
  cases h : (tokenIs ts 0 isHash && tokenIs ts 1 isSpace1) with
  | false => rw [eatSeq2_no h]; rfl
  | true =>
    simp only [Bool.and_eq_true] at h
    rw [eatSeq2_yes h.1 h.2]
    simp only [if_true, bind, Except.bind]
    rw [st_spanAt (a := pre) (b := ts.take 2) (c := ts.drop 2) (by simp) rfl
      (by rw [take2_length h.2]) (hts.take 2)]
    simp only [st_push]
    obtain ⟨p', a', o', h1, h2, h3, h4⟩ := headingLoop_eq (src := src) (eof := eof)
      (n := (st src (pre ++ ts.take 2) (ts.drop 2) eof o).tokens.length + 1) (ts := ts.drop 2)
      (pre := pre ++ ts.take 2) (acc := [])
      (ops := o ++ [.start .Heading (content src (ts.take 2))]) (by simp; omega) Good.nil (hts.drop 2)
    simp only [List.append_nil] at h1
    rw [show (none : Option Nat) = tstart (pre ++ ts.take 2) [] from rfl, h1]
    simp only
    have := pushText_eq (src := src) (pre := p') (acc := a') (a := []) (eof := eof) (ops := o')
      (r := (headB eof [] (ts.drop 2)).2) (x := (p' ++ a').length) rfl h4
    simp only [List.append_nil] at this
    rw [st_pos, this]
    simp only [pure, Except.pure, st_push]
    rw [h2, h3]
    simp [Block.toks, Block.ops]

end Yamd.Ref
