import Verif.Proofs.Insert

/-!
# The reference parser on cut text runs
-/

namespace Yamd.Ref

open Yamd Yamd.Round

section parse
variable {e : Token → List Token} (h : Ins e)
include h

theorem boundary_ins (ts : List Token) (c : Nat) (k : ListKind) (l : Nat) :
    boundaryHere (ins e ts) c k l = boundaryHere ts c k l := by
  simp only [boundaryHere]
  split
  · rw [Bool.and_assoc, Bool.and_assoc, two_ins h ts (nl_marker _), tokenIs_head]
  · have a := three_ins h ts (nl_indent l) (nl_marker (if l = c then some k else none)) isSpace1
    simp only [Bool.and_assoc] at a ⊢
    rw [a, tokenIs_head]

theorem stopAt_ins (stops : List Stop) (ts : List Token) : stopAt stops (ins e ts) = stopAt stops ts := by
  cases ts with
  | nil => rfl
  | cons t r =>
    by_cases ht : t.kind = .Literal
    · rw [ins_cons, stop_literal ht, stop_literal ht]
    · rw [ins_non h ht]
      have : stopHere t (ins e r) = stopHere t r := by
        funext s
        cases s with
        | Terminator => rfl
        | CollapsibleEnd => simp only [stopHere, tokenIs_head]
        | HighlightEnd => rfl
        | ListBoundary l k =>
          have e0 : boundaryHere (t :: ins e r) l k = boundaryHere (t :: r) l k := by
            funext n
            rw [← ins_non h ht]
            exact boundary_ins h (t :: r) l k n
          simp only [stopHere, e0]
      simp only [stopAt, this]

/-! ### Inline constructs -/

omit h in
theorem untilB_lits {m : Token → Bool} (hm : NL m) (stops : List Stop) {l : List Token}
    (hl : ∀ u ∈ l, u.kind = .Literal) (r : List Token) :
    untilB stops m (l ++ r) = (untilB stops m r).map (fun x => (l ++ x.1, x.2)) := by
  induction l with
  | nil => rw [List.nil_append]; cases untilB stops m r <;> simp
  | cons u l ih =>
    have hu := hl u (by simp)
    rw [List.cons_append, untilB, stop_literal hu, hm.lit hu, ih (fun v hv => hl v (by simp [hv]))]
    cases untilB stops m r <;> rfl

theorem untilB_ins {m : Token → Bool} (hm : NL m) (stops : List Stop) (ts : List Token) :
    untilB stops m (ins e ts) = (untilB stops m ts).map (insS e) := by
  induction ts with
  | nil => rfl
  | cons t r ih =>
    by_cases ht : t.kind = .Literal
    · rw [ins_cons, untilB, untilB, stop_literal ht, stop_literal ht, hm.lit ht, untilB_lits hm stops (h.lit t), ih]
      cases untilB stops m r with
      | none => rfl
      | some x => simp [insS, ins_cons]
    · have hs := stopAt_ins h stops (t :: r)
      rw [ins_non h ht] at hs ⊢
      rw [untilB, untilB, hs, ih]
      split
      · rfl
      · split
        · rfl
        · cases untilB stops m r with
          | none => rfl
          | some x => simp [insS, ins_non h ht]

theorem delimB_ins {o c : Token → Bool} (ho : NL o) (hc : NL c) (n : Node) (stops : List Stop)
    (ts : List Token) :
    delimB o c n stops (ins e ts) = (delimB o c n stops ts).map (insR e (Delim.mapX e)) := by
  cases ts with
  | nil => rfl
  | cons t r =>
    cases hot : o t with
    | false => rw [ins_cons, delimB, delimB, hot]; rfl
    | true =>
      rw [ins_non h (ho t hot), delimB, delimB, hot, untilB_ins h hc]
      cases untilB stops c r <;> rfl

omit h in
theorem destScan_lits (stops : List Stop) {l : List Token} (hl : ∀ u ∈ l, u.kind = .Literal) (r : List Token) (d : Nat) :
    destScan stops d (l ++ r) = (destScan stops d r).map (fun x => (l ++ x.1, x.2)) := by
  induction l with
  | nil => rw [List.nil_append]; cases destScan stops d r <;> simp
  | cons u l ih =>
    have hu := hl u (by simp)
    rw [List.cons_append, destScan, stop_literal hu, hu, ih (fun v hv => hl v (by simp [hv]))]
    cases destScan stops d r <;> rfl

theorem destScan_ins (stops : List Stop) (ts : List Token) : ∀ d,
    destScan stops d (ins e ts) = (destScan stops d ts).map (insS e) := by
  induction ts with
  | nil => intro d; rfl
  | cons t r ih =>
    intro d
    by_cases ht : t.kind = .Literal
    · rw [ins_cons, destScan, destScan, stop_literal ht, stop_literal ht, ht, destScan_lits stops (h.lit t) _ d, ih]
      simp only [reduceCtorEq, if_false, Bool.false_eq_true]
      cases destScan stops d r with
      | none => rfl
      | some x => simp [insS, ins_cons]
    · have hs := stopAt_ins h stops (t :: r)
      rw [ins_non h ht] at hs ⊢
      rw [destScan, destScan, hs, ih, ih, ih]
      split
      · rfl
      · split
        · cases destScan stops (d + 1) r with
          | none => rfl
          | some x => simp [insS, ins_non h ht]
        · split
          · split
            · rfl
            · cases destScan stops (d - 1) r with
              | none => rfl
              | some x => simp [insS, ins_non h ht]
          · cases destScan stops d r with
            | none => rfl
            | some x => simp [insS, ins_non h ht]

theorem destB_ins (stops : List Stop) (ts : List Token) :
    destB stops (ins e ts) = (destB stops ts).map (insR e (Delim.mapX e)) := by
  cases ts with
  | nil => rfl
  | cons t r =>
    cases hot : isLeftParen t with
    | false => rw [ins_cons, destB, destB, hot]; rfl
    | true =>
      rw [ins_non h (nl_leftParen t hot), destB, destB, hot, destScan_ins h]
      cases destScan stops 1 r <;> rfl

theorem titleB_ins (stops : List Stop) (ts : List Token) :
    titleB stops (ins e ts) = (titleB stops ts).map (insR e (Delim.mapX e)) :=
  delimB_ins h nl_leftBracket nl_rightBracket _ _ _

theorem strikeB_ins (stops : List Stop) (ts : List Token) :
    strikeB stops (ins e ts) = (strikeB stops ts).map (insR e (Delim.mapX e)) :=
  delimB_ins h nl_tilde2 nl_tilde2 _ _ _

theorem italicB_ins (stops : List Stop) (ts : List Token) :
    italicB stops (ins e ts) = (italicB stops ts).map (insR e (Delim.mapX e)) :=
  delimB_ins h nl_underscore nl_underscore _ _ _

theorem codeSpanB_ins (stops : List Stop) (ts : List Token) :
    codeSpanB stops (ins e ts) = (codeSpanB stops ts).map (insR e (Delim.mapX e)) :=
  delimB_ins h nl_backtick1 nl_backtick1 _ _ _

theorem emphasisB_ins (stops : List Stop) (ts : List Token) :
    emphasisB stops (ins e ts) = (emphasisB stops ts).map (insR e (Delim.mapX e)) :=
  delimB_ins h nl_star1 nl_star1 _ _ _

theorem linkB_ins (stops : List Stop) (ts : List Token) :
    linkB stops (ins e ts) = (linkB stops ts).map (insR e (Link.mapX e)) := by
  unfold linkB
  rw [titleB_ins h]
  cases titleB stops ts with
  | none => rfl
  | some x =>
    obtain ⟨t, r⟩ := x
    simp only [Option.map_some, insR]
    rw [destB_ins h]
    cases destB stops r <;> rfl

theorem boldChildB_ins (stops : List Stop) (ts : List Token) :
    boldChildB stops (ins e ts) = (boldChildB stops ts).map (insR e (Delim.mapX e)) := by
  unfold boldChildB
  rw [strikeB_ins h, italicB_ins h]
  cases strikeB stops ts <;> rfl

omit h in
theorem accBold_ins (acc : List Token) :
    (if ins e acc = [] then ([] : List BoldItem) else [.text (ins e acc)])
      = (if acc = [] then [] else [.text acc]).map (BoldItem.mapX e) := by
  simp only [ins_eq_nil]
  split <;> rfl

omit h in
theorem accInl_ins (acc : List Token) :
    (if ins e acc = [] then ([] : List Inl) else [.text (ins e acc)])
      = (if acc = [] then [] else [.text acc]).map (Inl.mapX e) := by
  simp only [ins_eq_nil]
  split <;> rfl

omit h in
theorem accHead_ins (acc : List Token) :
    (if ins e acc = [] then ([] : List HeadItem) else [.text (ins e acc)])
      = (if acc = [] then [] else [.text acc]).map (HeadItem.mapX e) := by
  simp only [ins_eq_nil]
  split <;> rfl

omit h in
theorem delimB_lit {o : Token → Bool} (ho : NL o) {c n stops} {t : Token} (ht : t.kind = .Literal) (r : List Token) :
    delimB o c n stops (t :: r) = none := by
  rw [delimB, ho.lit ht]; rfl

omit h in
theorem boldChildB_lit {stops} {t : Token} (ht : t.kind = .Literal) (r : List Token) :
    boldChildB stops (t :: r) = none := by
  unfold boldChildB strikeB italicB
  rw [delimB_lit nl_tilde2 ht, delimB_lit nl_underscore ht]

omit h in
theorem linkB_lit {stops} {t : Token} (ht : t.kind = .Literal) (r : List Token) :
    linkB stops (t :: r) = none := by
  unfold linkB titleB
  rw [delimB_lit nl_leftBracket ht]

omit h in
theorem inlineB_lit {stops} {t : Token} (ht : t.kind = .Literal) (r : List Token) :
    inlineB stops (t :: r) = none := by
  unfold inlineB strikeB italicB codeSpanB emphasisB
  rw [delimB_lit nl_tilde2 ht, delimB_lit nl_underscore ht, linkB_lit ht, delimB_lit nl_backtick1 ht,
    delimB_lit nl_star1 ht, boldB, nl_star2.lit ht]
  rfl

omit h in
theorem boldItemsB_lits (stops : List Stop) {l : List Token} (hl : ∀ u ∈ l, u.kind = .Literal) (r : List Token) :
    ∀ acc, boldItemsB stops acc (l ++ r) = boldItemsB stops (acc ++ l) r := by
  induction l with
  | nil => intro acc; simp
  | cons u l ih =>
    intro acc
    have hu := hl u (by simp)
    rw [List.cons_append, boldItemsB_none (stop_literal hu) (nl_star2.lit hu) (boldChildB_lit hu _),
      ih (fun v hv => hl v (by simp [hv]))]
    simp

omit h in
theorem paraB_lits (stops : List Stop) {l : List Token} (hl : ∀ u ∈ l, u.kind = .Literal) (r : List Token) :
    ∀ acc, paraB stops acc (l ++ r) = paraB stops (acc ++ l) r := by
  induction l with
  | nil => intro acc; simp
  | cons u l ih =>
    intro acc
    have hu := hl u (by simp)
    rw [List.cons_append, paraB_none (stop_literal hu) (inlineB_lit hu _), ih (fun v hv => hl v (by simp [hv]))]
    simp

omit h in
theorem headB_lits (stops : List Stop) {l : List Token} (hl : ∀ u ∈ l, u.kind = .Literal) (r : List Token) :
    ∀ acc, headB stops acc (l ++ r) = headB stops (acc ++ l) r := by
  induction l with
  | nil => intro acc; simp
  | cons u l ih =>
    intro acc
    have hu := hl u (by simp)
    rw [List.cons_append, headB_none (stop_literal hu) (linkB_lit hu _), ih (fun v hv => hl v (by simp [hv]))]
    simp

omit h in
theorem ins_snoc (acc : List Token) (t : Token) : ins e acc ++ [t] ++ e t = ins e (acc ++ [t]) := by
  rw [ins_append, ins_cons, ins_nil]; simp

theorem boldItemsB_ins (stops : List Stop) (acc ts : List Token) :
    boldItemsB stops (ins e acc) (ins e ts) = (boldItemsB stops acc ts).map
      (fun x => (x.1.map (BoldItem.mapX e), x.2.1, ins e x.2.2)) := by
  induction acc, ts using boldItemsB_ind stops with
  | stop acc ts hs =>
    rw [boldItemsB_stop hs, boldItemsB_stop (by rw [stopAt_ins h]; exact hs)]; rfl
  | close acc t r hs h2 =>
    have hs' := stopAt_ins h stops (t :: r)
    rw [ins_non h (nl_star2 t h2), hs] at hs'
    rw [boldItemsB_close hs h2, ins_non h (nl_star2 t h2), boldItemsB_close hs' h2, accBold_ins]
    rfl
  | some acc t r d r' hs h2 hx ih =>
    have hs' := stopAt_ins h stops (t :: r)
    have hx' := boldChildB_ins h stops (t :: r)
    rw [ins_cons, hs] at hs'
    rw [ins_cons, hx] at hx'
    rw [boldItemsB_some hs h2 hx, ins_cons, boldItemsB_some hs' h2 hx', accBold_ins]
    simp only [ins_nil] at ih
    rw [ih]
    cases boldItemsB stops [] r' with
    | none => rfl
    | some x => simp [BoldItem.mapX]
  | none acc t r hs h2 hx ih =>
    have hs' := stopAt_ins h stops (t :: r)
    have hx' := boldChildB_ins h stops (t :: r)
    rw [ins_cons, hs] at hs'
    rw [ins_cons, hx] at hx'
    rw [boldItemsB_none hs h2 hx, ins_cons, boldItemsB_none hs' h2 hx', boldItemsB_lits stops (h.lit t), ins_snoc, ih]

theorem boldB_ins (stops : List Stop) (ts : List Token) :
    boldB stops (ins e ts) = (boldB stops ts).map (insR e (Inl.mapX e)) := by
  cases ts with
  | nil => rfl
  | cons t r =>
    cases ht : isStar2 t with
    | false => rw [ins_cons, boldB, boldB, ht]; rfl
    | true =>
      have := boldItemsB_ins h stops [] r
      rw [ins_nil] at this
      rw [ins_non h (nl_star2 t ht), boldB, boldB, ht, this]
      cases boldItemsB stops [] r <;> rfl

theorem inlineB_ins (stops : List Stop) (ts : List Token) :
    inlineB stops (ins e ts) = (inlineB stops ts).map (insR e (Inl.mapX e)) := by
  unfold inlineB
  rw [strikeB_ins h, italicB_ins h, boldB_ins h, linkB_ins h, codeSpanB_ins h, emphasisB_ins h]
  cases strikeB stops ts with
  | some => rfl
  | none =>
  cases italicB stops ts with
  | some => rfl
  | none =>
  cases boldB stops ts with
  | some => rfl
  | none =>
  cases linkB stops ts with
  | some => rfl
  | none =>
  cases codeSpanB stops ts with
  | some => rfl
  | none =>
  cases emphasisB stops ts <;> rfl

theorem paraB_ins (stops : List Stop) (acc ts : List Token) :
    paraB stops (ins e acc) (ins e ts) =
      ((paraB stops acc ts).1.map (Inl.mapX e), ins e (paraB stops acc ts).2) := by
  induction acc, ts using paraB_ind stops with
  | stop acc ts hs =>
    rw [paraB_stop hs, paraB_stop (by rw [stopAt_ins h]; exact hs), accInl_ins]
  | some acc t r x r' hs hx ih =>
    have hs' := stopAt_ins h stops (t :: r)
    have hx' := inlineB_ins h stops (t :: r)
    rw [hs] at hs'
    rw [hx] at hx'
    rw [paraB_some hs hx, paraB_some hs' hx', accInl_ins]
    rw [ins_nil] at ih
    simp only [ih, List.map_append, List.map_cons]
  | none acc t r hs hx ih =>
    have hs' := stopAt_ins h stops (t :: r)
    have hx' := inlineB_ins h stops (t :: r)
    rw [ins_cons, hs] at hs'
    rw [ins_cons, hx] at hx'
    rw [paraB_none hs hx, ins_cons, paraB_none hs' hx', paraB_lits stops (h.lit t), ins_snoc, ih]

theorem headB_ins (stops : List Stop) (acc ts : List Token) :
    headB stops (ins e acc) (ins e ts) =
      ((headB stops acc ts).1.map (HeadItem.mapX e), ins e (headB stops acc ts).2) := by
  induction acc, ts using headB_ind stops with
  | stop acc ts hs =>
    rw [headB_stop hs, headB_stop (by rw [stopAt_ins h]; exact hs), accHead_ins]
  | some acc t r x r' hs hx ih =>
    have hs' := stopAt_ins h stops (t :: r)
    have hx' := linkB_ins h stops (t :: r)
    rw [hs] at hs'
    rw [hx] at hx'
    rw [headB_some hs hx, headB_some hs' hx', accHead_ins]
    rw [ins_nil] at ih
    simp only [ih, List.map_append, List.map_cons]
    rfl
  | none acc t r hs hx ih =>
    have hs' := stopAt_ins h stops (t :: r)
    have hx' := linkB_ins h stops (t :: r)
    rw [ins_cons, hs] at hs'
    rw [ins_cons, hx] at hx'
    rw [headB_none hs hx, ins_cons, headB_none hs' hx', headB_lits stops (h.lit t), ins_snoc, ih]

/-! ### Blocks -/

theorem modifierB_ins (stops : List Stop) (ts : List Token) :
    modifierB stops (ins e ts) = (modifierB stops ts).map (insR e (Mod.mapX e)) := by
  unfold modifierB
  rw [tokenIs_head, untilB_ins h nl_eolOrTerminator]
  split
  · rfl
  · cases untilB stops isEolOrTerminator ts <;> rfl

theorem optModB_ins (stops : List Stop) (ts : List Token) :
    optModB stops (ins e ts) = insR e (Option.map (Mod.mapX e)) (optModB stops ts) := by
  unfold optModB
  rw [modifierB_ins h]
  cases modifierB stops ts <;> rfl

theorem closeLineB_ins (stops : List Stop) {c : Token} (hc : c.kind ≠ .Literal) (r : List Token) :
    closeLineB stops c (ins e r) = (closeLineB stops c r).map (insR e (ins e)) := by
  cases r with
  | nil =>
    simp only [ins_nil, closeLineB, Option.map_some, insR, ins_one h hc]
  | cons t r =>
    have hs := stopAt_ins h stops (t :: r)
    cases ht : isEol t with
    | true =>
      rw [ins_non h (nl_eol t ht)]
      simp only [closeLineB, ht, if_true, Option.map_some, insR]
      rw [ins_non h hc, ins_one h (nl_eol t ht)]
    | false =>
      rw [ins_cons] at hs ⊢
      simp only [closeLineB, hs, ht, Bool.false_eq_true, if_false]
      split
      · simp only [Option.map_some, insR, ins_one h hc, ins_cons]
      · rfl

theorem codeRestB_ins (stops : List Stop) (o : List Token) (m : Option Mod) (r : List Token) :
    codeRestB stops (ins e o) (m.map (Mod.mapX e)) (ins e r)
      = (codeRestB stops o m r).map (insR e (Block.mapX e)) := by
  unfold codeRestB
  rw [untilB_ins h nl_backtick3]
  cases hu : untilB [] isBacktick3 r with
  | none => rfl
  | some x =>
    obtain ⟨b, c, r⟩ := x
    simp only [Option.map_some, insS]
    rw [closeLineB_ins h stops (nl_backtick3 _ (untilB_ok hu).1)]
    cases closeLineB stops c r <;> rfl

theorem codeB_ins (stops : List Stop) (ts : List Token) :
    codeB stops (ins e ts) = (codeB stops ts).map (insR e (Block.mapX e)) := by
  cases ts with
  | nil => rfl
  | cons t r =>
    cases ht : isBacktick3 t with
    | false => rw [ins_cons, codeB, codeB, ht]; rfl
    | true =>
      have b := codeRestB_ins h stops [t] (optModB [] r).1 (optModB [] r).2
      rw [ins_one h (nl_backtick3 t ht)] at b
      rw [ins_non h (nl_backtick3 t ht), codeB, codeB, ht, tokenIs_head, optModB_ins h]
      simp only [if_true]
      split
      · rename_i h0
        have a := codeRestB_ins h stops (t :: r.take 1) none (r.drop 1)
        obtain ⟨e1, e2⟩ := take1_ins h nl_eol h0
        rw [ins_non h (nl_backtick3 t ht), ← e1, ← e2] at a
        exact a
      · exact b

theorem embedB_ins (stops : List Stop) (ts : List Token) :
    embedB stops (ins e ts) = (embedB stops ts).map (insR e (Block.mapX e)) := by
  cases ts with
  | nil => rfl
  | cons t r =>
    cases ht : isLeftCurly2 t with
    | false => rw [ins_cons, embedB, embedB, ht]; rfl
    | true =>
      rw [ins_non h (nl_leftCurly2 t ht), embedB, embedB, ht, untilB_ins h nl_pipe]
      cases untilB stops isPipe r with
      | none => rfl
      | some x =>
        obtain ⟨l, p, r⟩ := x
        simp only [if_true, Option.map_some, insS]
        rw [untilB_ins h nl_rightCurly2]
        cases hu : untilB stops isRightCurly2 r with
        | none => rfl
        | some x =>
          obtain ⟨a, c, r⟩ := x
          simp only [Option.map_some, insS]
          rw [closeLineB_ins h stops (nl_rightCurly2 _ (untilB_ok hu).1)]
          cases closeLineB stops c r <;> rfl

theorem imageB_ins (stops : List Stop) (ts : List Token) :
    imageB stops (ins e ts) = (imageB stops ts).map (insR e (Img.mapX e)) := by
  cases ts with
  | nil => rfl
  | cons t r =>
    cases ht : isBang1 t with
    | false => rw [ins_cons, imageB, imageB, ht]; rfl
    | true =>
      rw [ins_non h (nl_bang1 t ht), imageB, imageB, ht, linkB_ins h]
      cases linkB stops r with
      | none => rfl
      | some x =>
        obtain ⟨l, r⟩ := x
        simp only [if_true, Option.map_some, insR]
        rw [tokenIs_head, stopAt_ins h]
        split
        · rename_i h0
          obtain ⟨e1, e2⟩ := take1_ins h nl_eol h0
          simp only [Option.map_some, Img.mapX, insR, e1, e2]
        · split <;> rfl

theorem imagesB_ins (stops : List Stop) (ts : List Token) :
    imagesB stops (ins e ts) = (imagesB stops ts).map (insR e (List.map (Img.mapX e))) := by
  induction ts using imagesB_ind stops with
  | none ts hn =>
    have hn' := imageB_ins h stops ts
    rw [hn] at hn'
    rw [imagesB_none hn, imagesB_none hn', stopAt_ins h]
    split <;> rfl
  | some ts i r hi ih =>
    have hi' := imageB_ins h stops ts
    rw [hi] at hi'
    rw [imagesB_some hi, imagesB_some hi', ih]
    cases imagesB stops r <;> rfl

theorem iconB_ins (stops : List Stop) (ts : List Token) :
    iconB stops (ins e ts) = (iconB stops ts).map (insR e (IconLine.mapX e)) := by
  unfold iconB
  rw [two_ins h ts nl_oneBang]
  split
  · rename_i hh
    simp only [Bool.and_eq_true] at hh
    obtain ⟨e1, e2⟩ := take2_ins h nl_oneBang nl_space1 hh.1 hh.2
    rw [e1, e2, untilB_ins h nl_eol]
    cases untilB stops isEol (ts.drop 2) <;> rfl
  · rfl

theorem optIconB_ins (stops : List Stop) (ts : List Token) :
    optIconB stops (ins e ts) = insR e (Option.map (IconLine.mapX e)) (optIconB stops ts) := by
  unfold optIconB
  rw [iconB_ins h]
  cases iconB stops ts <;> rfl

theorem termB_ins (ts : List Token) : termB (ins e ts) = insR e (ins e) (termB ts) := by
  unfold termB
  rw [tokenIs_head]
  split
  · rename_i h0
    obtain ⟨e1, e2⟩ := take1_ins h nl_terminator h0
    simp only [insR, e1, e2]
  · rfl

omit h in
theorem ins_lt {ts a r : List Token} (hs : ts = a ++ r) : ((ins e r).length < (ins e ts).length) ↔ r.length < ts.length := by
  subst hs
  rw [ins_append, List.length_append, List.length_append]
  cases a with
  | nil => simp [ins_nil]
  | cons t a => simp [ins_cons]

omit h in
theorem hl_suffix (stops : List Stop) (ts : List Token) :
    ts = (termB ts).1 ++ paraToks (paraB stops [] (termB ts).2).1 ++ (paraB stops [] (termB ts).2).2 := by
  have a : ts = (termB ts).1 ++ (termB ts).2 := by
    unfold termB; split
    · exact (List.take_append_drop 1 ts).symm
    · rfl
  have b := paraB_toks (stops := stops) (acc := []) _ (Nat.le_refl (termB ts).2.length)
  rw [List.nil_append] at b
  rw [List.append_assoc, ← b, ← a]

theorem hlParasB_ins (stops : List Stop) (ts : List Token) :
    hlParasB stops (ins e ts) = (hlParasB stops ts).map
      (fun x => (x.1.map (HPara.mapX e), ins e x.2.1, ins e x.2.2)) := by
  have main : ∀ n (ts : List Token), ts.length ≤ n → hlParasB stops (ins e ts) = (hlParasB stops ts).map
      (fun x => (x.1.map (HPara.mapX e), ins e x.2.1, ins e x.2.2)) := by
    intro n
    induction n with
    | zero =>
      intro ts hn
      have : ts = [] := by simpa using hn
      subst this
      rw [ins_nil, hlParasB.eq_def]; simp [stopAt]
    | succ n ih =>
      intro ts hn
      have hp := paraB_ins h (.Terminator :: .HighlightEnd :: stops) [] (termB ts).2
      rw [ins_nil] at hp
      have hlt := ins_lt (e := e) (hl_suffix (.Terminator :: .HighlightEnd :: stops) ts)
      rw [hlParasB.eq_def, hlParasB.eq_def stops ts]
      rw [stopAt_ins h, tokenIs_head, termB_ins h]
      simp only [insR, hp, hlt]
      split
      · rfl
      · split
        · rename_i h0
          rw [tokenIs1 h nl_twoBangs h0]
          split
          · rename_i h1
            obtain ⟨e1, e2⟩ := take2_ins h nl_twoBangs nl_eol h0 h1
            rw [e1, e2]; rfl
          · obtain ⟨e1, e2⟩ := take1_ins h nl_twoBangs h0
            rw [e1, e2]; rfl
        · split
          · rename_i hl
            rw [ih _ (by omega)]
            cases hlParasB stops (paraB (.Terminator :: .HighlightEnd :: stops) [] (termB ts).2).2 <;> rfl
          · rfl
  exact main _ ts (Nat.le_refl _)

theorem hlRestB_ins (stops : List Stop) (o : List Token) (m : Option Mod) (r : List Token) :
    hlRestB stops (ins e o) (m.map (Mod.mapX e)) (ins e r)
      = (hlRestB stops o m r).map (insR e (Block.mapX e)) := by
  unfold hlRestB
  rw [optIconB_ins h]
  have e1 : ∀ x : Option IconLine × List Token, tokenIs (insR e (Option.map (IconLine.mapX e)) x).2 0 col0
      = tokenIs x.2 0 col0 := fun x => tokenIs_head x.2 _
  have e2 : ∀ x : Option IconLine × List Token, hlParasB stops (insR e (Option.map (IconLine.mapX e)) x).2
      = _ := fun x => hlParasB_ins h stops x.2
  simp only [e1, e2]
  split
  · cases hlParasB stops (optIconB (.Terminator :: stops) r).2 <;> rfl
  · rfl

theorem highlightB_ins (stops : List Stop) (ts : List Token) :
    highlightB stops (ins e ts) = (highlightB stops ts).map (insR e (Block.mapX e)) := by
  unfold highlightB
  rw [two_ins h ts nl_twoBangs]
  split
  · rename_i hh
    simp only [Bool.and_eq_true] at hh
    obtain ⟨e1, e2⟩ := take2_ins h nl_twoBangs nl_spaceEol hh.1 hh.2
    have a := hlRestB_ins h stops (ts.take 2) none (ts.drop 2)
    have b := hlRestB_ins h stops (ts.take 2) (optModB stops (ts.drop 2)).1 (optModB stops (ts.drop 2)).2
    rw [tokenIs1 h nl_twoBangs hh.1, e1, e2, optModB_ins h]
    split
    · exact a
    · exact b
  · rfl

theorem markerB_ins (level : Nat) (want : Option ListKind) (ts : List Token) :
    markerB level want (ins e ts) = (markerB level want ts).map (fun x => (x.1, ins e x.2.1, ins e x.2.2)) := by
  unfold markerB
  rw [tokenIs_head]
  split
  · split
    · rw [two_ins h ts (nl_marker _)]
      split
      · rename_i hh
        simp only [Bool.and_eq_true] at hh
        obtain ⟨e1, e2⟩ := take2_ins h (nl_marker _) nl_space1 hh.1 hh.2
        have e3 : (ins e ts)[0]? = ts[0]? := by cases ts <;> rfl
        rw [e1, e2, e3]
        cases ts[0]?.bind ListKind.tryFrom <;> simp
      · rfl
    · rw [three_ins h ts (nl_indent level) (nl_marker _)]
      split
      · rename_i hh
        simp only [Bool.and_eq_true] at hh
        obtain ⟨e1, e2⟩ := take3_ins h (nl_indent level) (nl_marker _) nl_space1 hh.1.1 hh.1.2 hh.2
        obtain ⟨t, r, rfl, ht, e4⟩ := front_ins h (nl_indent level) hh.1.1
        have e3 : (ins e (t :: r))[1]? = (t :: r)[1]? := by
          rw [e4]; cases r <;> rfl
        rw [e1, e2, e3]
        cases (t :: r)[1]?.bind ListKind.tryFrom <;> simp
      · rfl
  · rfl

theorem itemsB_ins (stops : List Stop) (level : Nat) (want : Option ListKind) (ts : List Token) :
    itemsB stops level want (ins e ts) = insR e (Items.mapX e) (itemsB stops level want ts) := by
  induction level, want, ts using itemsB_ind stops with
  | none level want ts hm =>
    have hm' := markerB_ins h level want ts
    rw [hm] at hm'
    rw [itemsB_none hm, itemsB_none hm']; rfl
  | some level want ts k m r hm ih1 ih2 =>
    have hm' := markerB_ins h level want ts
    rw [hm] at hm'
    have hp : itemPara stops level k (ins e r) = insR e (List.map (Inl.mapX e)) (itemPara stops level k r) :=
      paraB_ins h (.ListBoundary level k :: stops) [] r
    have hn : itemNested stops level (ins e (itemPara stops level k r).2)
        = insR e (Items.mapX e) (itemNested stops level (itemPara stops level k r).2) := by
      unfold itemNested
      rw [stopAt_ins h, ih1]
      split <;> rfl
    rw [itemsB_some hm, itemsB_some hm', hp]
    simp only [insR]
    rw [hn]
    simp only [insR]
    rw [ih2]
    rfl

theorem headingB_ins (stops : List Stop) (ts : List Token) :
    headingB stops (ins e ts) = (headingB stops ts).map (insR e (Block.mapX e)) := by
  have := headB_ins h stops [] (ts.drop 2)
  rw [ins_nil] at this
  unfold headingB
  rw [two_ins h ts nl_hash]
  split
  · rename_i hh
    simp only [Bool.and_eq_true] at hh
    obtain ⟨e1, e2⟩ := take2_ins h nl_hash nl_space1 hh.1 hh.2
    rw [e1, e2, this]; rfl
  · rfl

theorem thematicB_ins (ts : List Token) :
    thematicB (ins e ts) = (thematicB ts).map (insR e (Block.mapX e)) := by
  cases ts with
  | nil => rfl
  | cons t r =>
    cases ht : isDash5 t with
    | false => rw [ins_cons, thematicB, thematicB, ht]; rfl
    | true => rw [ins_non h (nl_dash5 t ht), thematicB, thematicB, ht]; rfl

theorem leafB_ins (stops : List Stop) (ts : List Token) :
    leafB stops (ins e ts) = insR e (Block.mapX e) (leafB stops ts) := by
  have hp := paraB_ins h stops [] ts
  rw [ins_nil] at hp
  unfold leafB
  rw [itemsB_ins h, imagesB_ins h, thematicB_ins h, headingB_ins h, hp]
  rcases itemsB stops 0 none ts with ⟨i, r⟩
  cases i with
  | cons => rfl
  | nil =>
    rcases imagesB stops ts with _ | ⟨_ | ⟨i, l⟩, r⟩
    · simp only [insR, Items.mapX, Option.map_none]
      cases thematicB ts with
      | some => rfl
      | none => cases headingB stops ts <;> rfl
    · simp only [insR, Items.mapX, Option.map_some, List.map_nil]
      cases thematicB ts with
      | some => rfl
      | none => cases headingB stops ts <;> rfl
    · rfl

theorem otherB_ins (stops : List Stop) (ts : List Token) :
    otherB stops (ins e ts) = insR e (Block.mapX e) (otherB stops ts) := by
  unfold otherB
  rw [embedB_ins h, highlightB_ins h, leafB_ins h]
  cases embedB stops ts with
  | some => rfl
  | none => cases highlightB stops ts <;> rfl

theorem skipEolB_ins (ts : List Token) : skipEolB (ins e ts) = insR e (ins e) (skipEolB ts) := by
  unfold skipEolB
  rw [tokenIs_head]
  split
  · rename_i h0
    obtain ⟨e1, e2⟩ := take1_ins h nl_eol h0
    simp only [insR, e1, e2]
  · rfl

theorem collCloseB_ins (ts : List Token) :
    collCloseB (ins e ts) = (collCloseB ts).map (insR e (ins e)) := by
  unfold collCloseB
  rw [tokenIs_head]
  split
  · rename_i h0
    rw [tokenIs1 h nl_collapsibleEnd h0]
    split
    · rename_i h1
      obtain ⟨e1, e2⟩ := take2_ins h nl_collapsibleEnd nl_eol h0 h1
      rw [e1, e2]; rfl
    · obtain ⟨e1, e2⟩ := take1_ins h nl_collapsibleEnd h0
      rw [e1, e2]; rfl
  · rfl

theorem collOpenB_ins (stops : List Stop) (ts : List Token) :
    collOpenB stops (ins e ts) = (collOpenB stops ts).map
      (fun x => (ins e x.1, x.2.1.map (Mod.mapX e), ins e x.2.2)) := by
  unfold collOpenB
  rw [two_ins h ts nl_collapsibleStart]
  split
  · rename_i hh
    simp only [Bool.and_eq_true] at hh
    obtain ⟨e1, e2⟩ := take2_ins h nl_collapsibleStart nl_spaceOrEol hh.1 hh.2
    rw [e1, e2, optModB_ins h]
    have e3 : ∀ x : Option Mod × List Token, tokenIs (insR e (Option.map (Mod.mapX e)) x).2 0 col0
      = tokenIs x.2 0 col0 := fun x => tokenIs_head x.2 _
    simp only [e3]
    split <;> rfl
  · rfl

/-! ### Documents -/

omit h in
/-- Nothing is put in behind the `{%` of the list once they have become literals. -/
def Closed (e : Token → List Token) (ts : List Token) : Prop :=
  ∀ t ∈ ts, t.kind = .CollapsibleStart → e { t with kind := .Literal } = []

omit h in
theorem Closed.right {a b : List Token} (hc : Closed e (a ++ b)) : Closed e b :=
  fun t ht => hc t (List.mem_append_right a ht)

omit h in
theorem Closed.flips {a b : List Token} (hf : Flips a b) : Closed e a → Closed e b := by
  induction hf with
  | nil => exact id
  | cons hr _ ih =>
    rename_i a b r r' hrr
    intro hc t ht
    rcases List.mem_cons.1 ht with rfl | ht
    · rcases hr with rfl | ⟨_, rfl⟩
      · exact hc _ (by simp)
      · intro hk; simp at hk
    · exact ih (fun t ht => hc t (by simp [ht])) t ht

theorem flipHead_ins {ts : List Token} (hc : Closed e ts) (hk : tokenIs ts 0 isCollapsibleStart = true) :
    flipHead (ins e ts) = ins e (flipHead ts) := by
  obtain ⟨t, r, rfl, ht, e1⟩ := front_ins h nl_collapsibleStart hk
  have hk : t.kind = .CollapsibleStart := by
    simp only [isCollapsibleStart, Bool.and_eq_true, decide_eq_true_eq] at ht; exact ht.1
  rw [e1]
  show _ = ins e ({ t with kind := .Literal } :: r)
  rw [ins_cons, hc t (by simp) hk]; rfl

theorem flipOpen_ins {ts : List Token} (hc : Closed e ts) : flipOpen (ins e ts) = ins e (flipOpen ts) := by
  unfold flipOpen
  rw [two_ins h ts nl_collapsibleStart]
  split
  · rename_i hh
    simp only [Bool.and_eq_true] at hh
    exact flipHead_ins h hc hh.1
  · rfl

theorem docB_ins (stops : List Stop) (ts : List Token) : Closed e ts →
    docB stops (ins e ts) = insR e (Doc.mapX e) (docB stops ts) := by
  induction stops, ts using docB_ind with
  | stop s ts hs eq => intro hc; rw [eq, docB_stop (by rw [stopAt_ins h]; exact hs)]; rfl
  | term s t r hs ht eq ih =>
    intro hc
    have hs' := stopAt_ins h s (t :: r)
    rw [hs, ins_non h (nl_terminator t ht)] at hs'
    rw [eq, ins_non h (nl_terminator t ht), docB_term hs' ht, ih (Closed.right (a := [t]) hc)]
    rfl
  | code s t r b rest hs ht hc eq ih =>
    intro hcl
    have hs' := stopAt_ins h s (t :: r)
    have hc' := codeB_ins h s (t :: r)
    rw [hs] at hs'
    rw [hc] at hc'
    have hk : Closed e rest := by rw [codeB_toks hc] at hcl; exact hcl.right
    rw [eq, docB_code hs' (by rw [tokenIs_head]; exact ht) hc', ih hk]
    rfl
  | coll s t r o m r1 c r4 hs ht hc ho hcl eq ih1 ih2 =>
    intro hk
    have hs' := stopAt_ins h s (t :: r)
    have hc' := codeB_ins h s (t :: r)
    have ho' := collOpenB_ins h s (t :: r)
    rw [hs] at hs'
    rw [hc] at hc'
    rw [ho] at ho'
    obtain ⟨tk, -⟩ := collOpenB_toks ho
    have k1 : Closed e r1 := by rw [tk] at hk; exact hk.right.right
    have k2 : Closed e r4 := by
      have := (Closed.flips (docB_flips (.CollapsibleEnd :: s) r1) k1).right
      rw [skipEolB_toks (docB (.CollapsibleEnd :: s) r1).2, collCloseB_toks hcl] at this
      exact this.right.right
    have ih1 := ih1 k1
    have ih2 := ih2 k2
    have hsk := skipEolB_ins h (docB (.CollapsibleEnd :: s) r1).2
    have hcl' := collCloseB_ins h (skipEolB (docB (.CollapsibleEnd :: s) r1).2).2
    rw [hcl] at hcl'
    rw [eq, docB_coll hs' (by rw [tokenIs_head]; exact ht) hc' ho' (c := ins e c) (r4 := ins e r4)
      (by simp only [ih1, insR, hsk, hcl']; rfl)]
    simp only [ih1, insR, hsk, ih2]
    rfl
  | fallback s t r o m r1 x hs ht hc ho hcl hx hl hst eq ih1 ih2 =>
    intro hk
    have hs' := stopAt_ins h s (t :: r)
    have hc' := codeB_ins h s (t :: r)
    have ho' := collOpenB_ins h s (t :: r)
    rw [hs] at hs'
    rw [hc] at hc'
    rw [ho] at ho'
    obtain ⟨tk, ol, -⟩ := collOpenB_toks ho
    have k1 : Closed e r1 := by rw [tk] at hk; exact hk.right.right
    have ih1 := ih1 k1
    have hsk := skipEolB_ins h (docB (.CollapsibleEnd :: s) r1).2
    have hcl' := collCloseB_ins h (skipEolB (docB (.CollapsibleEnd :: s) r1).2).2
    rw [hcl] at hcl'
    have hmo : ModOk m := by
      have : m = (optModB s ((t :: r).drop 2)).1 := by
        unfold collOpenB at ho
        split at ho
        · split at ho
          · simp only [Option.some.injEq, Prod.mk.injEq] at ho; exact ho.2.1.symm
          · simp at ho
        · simp at ho
      rw [this]
      exact optModB_ok _ _
    have hfl : Flips (t :: r) (o ++ (modToks m ++ ((docB (.CollapsibleEnd :: s) r1).1.toks ++
        (docB (.CollapsibleEnd :: s) r1).2))) := by
      rw [tk]
      exact (Flips.refl _).append ((Flips.refl _).append (docB_flips _ _))
    have hhd : tokenIs (o ++ (modToks m ++ ((docB (.CollapsibleEnd :: s) r1).1.toks ++
        (docB (.CollapsibleEnd :: s) r1).2))) 0 isCollapsibleStart = true := by
      unfold collOpenB at ho
      split at ho
      · rename_i hh
        simp only [Bool.and_eq_true] at hh
        have h1 := hh.1
        rw [tk] at h1
        match o, ol with
        | [a, b], _ => exact h1
      · simp at ho
    have kx : Closed e x := by
      have k0 := Closed.flips hfl hk
      rw [hx]
      generalize o ++ (modToks m ++ ((docB (.CollapsibleEnd :: s) r1).1.toks ++
        (docB (.CollapsibleEnd :: s) r1).2)) = q at k0 hhd
      cases q with
      | nil => exact k0
      | cons a q =>
        refine Closed.flips (flips_flipHead ?_) k0
        simp [tokenIs, isCollapsibleStart] at hhd; exact hhd.1
    have k2 : Closed e (otherB s x).2 := by
      rw [otherB_toks s x] at kx; exact kx.right
    have hx' : ins e x = flipHead (ins e o ++ (modToks (m.map (Mod.mapX e)) ++
        ((docB (.CollapsibleEnd :: s) (ins e r1)).1.toks ++ (docB (.CollapsibleEnd :: s) (ins e r1)).2))) := by
      rw [ih1]
      simp only [insR, Doc.ins_toks h (docB_ok _ _), mod_ins_toks h hmo, ← ins_append]
      rw [hx, flipHead_ins h (Closed.flips hfl hk) hhd]
    rw [eq, docB_fallback hs' (by rw [tokenIs_head]; exact ht) hc' ho'
      (by simp only [ih1, insR, hsk, hcl']; rfl) hx', otherB_ins h]
    simp only [insR]
    rw [ih2 k2]
    rfl
  | other s t r hs ht hc ho hst eq ih =>
    intro hk
    have hs' := stopAt_ins h s (t :: r)
    have hc' := codeB_ins h s (t :: r)
    have ho' := collOpenB_ins h s (t :: r)
    rw [hs] at hs'
    rw [hc] at hc'
    rw [ho] at ho'
    have k2 : Closed e (otherB s (flipOpen (t :: r))).2 := by
      have := Closed.flips (flips_flipOpen (t :: r)) hk
      rw [otherB_toks s (flipOpen (t :: r))] at this
      exact this.right
    rw [eq, docB_plain hs' (by rw [tokenIs_head]; exact ht) hc' ho', flipOpen_ins h hk, otherB_ins h]
    simp only [insR]
    rw [ih k2]
    rfl

/-- The tree of the cut runs is the tree with the runs cut. -/
theorem topB_ins {ts : List Token} (hc : Closed e ts) : topB (ins e ts) = (topB ts).mapX e := by
  unfold topB
  rw [delimB_ins h nl_threeDashes nl_threeDashes]
  cases hd : delimB isThreeDashes isThreeDashes .Metadata [] ts with
  | none => simp only [Option.map_none, docB_ins h [] ts hc]; rfl
  | some x =>
    have : Closed e x.2 := by rw [delimB_toks (d := x.1) (r := x.2) hd] at hc; exact hc.right
    simp only [Option.map_some, insR, docB_ins h [] x.2 this]; rfl

end parse

end Yamd.Ref
