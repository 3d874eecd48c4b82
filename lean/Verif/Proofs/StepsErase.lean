import Verif.Model.Steps
import Verif.Model.ToYamd

/-!
# Forgetting the step counter gives back the parser
-/

namespace Yamd

variable {α β : Type}

@[simp] theorem Counted.val_bind (x : Counted α) (f : α → Counted β) :
    (x >>= f).val = x.val >>= fun a => (f a).val := rfl
@[simp] theorem Counted.val_pure (a : α) : (pure a : Counted α).val = pure a := rfl
@[simp] theorem Counted.val_tick (n : Nat) : (tick n).val = pure () := rfl
@[simp] theorem Counted.val_paid (n : Nat) (x : R α) : (paid n x).val = x := rfl
@[simp] theorem Counted.val_ite (c : Prop) [Decidable c] (x y : Counted α) :
    (if c then x else y).val = if c then x.val else y.val := by split <;> rfl

namespace Steps

theorem atEof_val (p : P) : (atEof p).val = pure p.atEof := rfl
theorem atBlockBoundary_val (p : P) : (atBlockBoundary p).val = pure p.atBlockBoundary := rfl
theorem span_val (p : P) (a b : Nat) : (span p a b).val = p.span a b := rfl
theorem insertOp_val (p : P) (i : Nat) (op : Op) : (insertOp p i op).val = p.insertOp i op := rfl

theorem withEof_val (p : P) (c : Stop) (f : P → Counted (α × P)) (g : P → R (α × P))
    (h : ∀ p, (f p).val = g p) : (withEof p c f).val = p.withEof c g := by
  simp only [withEof, P.withEof, Counted.val_bind, h]
  rfl
theorem withEofs2_val (p : P) (c d : Stop) (f : P → Counted (α × P)) (g : P → R (α × P))
    (h : ∀ p, (f p).val = g p) : (withEofs2 p c d f).val = p.withEofs2 c d g := by
  simp only [withEofs2, P.withEofs2, Counted.val_bind, h]
  rfl
theorem withNoStops_val (p : P) (f : P → Counted (α × P)) (g : P → R (α × P))
    (h : ∀ p, (f p).val = g p) : (withNoStops p f).val = p.withNoStops g := by
  simp only [withNoStops, P.withNoStops, Counted.val_bind, h]
  rfl

theorem eatUntilLoop_val (m : Token → Bool) (n : Nat) : ∀ p,
    (eatUntilLoop m n p).val = p.eatUntilLoop m n := by
  induction n with
  | zero => intro p; rfl
  | succ n ih =>
    intro p
    rw [eatUntilLoop, P.eatUntilLoop]
    simp only [Counted.val_bind, Counted.val_tick, pure_bind]
    cases p.tokens[p.pos]? with
    | none => rfl
    | some t =>
      simp only [Counted.val_bind, atEof_val, pure_bind, Counted.val_ite, ih]
      rfl

theorem eatUntil_val (p : P) (m : Token → Bool) : (eatUntil p m).val = p.eatUntil m := by
  simp only [eatUntil, P.eatUntil, Counted.val_bind, eatUntilLoop_val]
  congr 1
  funext a
  cases a <;> rfl

theorem pushTriple_val (p : P) (n : Node) (a b c : Nat × Nat) :
    (pushTriple p n a b c).val = Yamd.pushTriple p n a b c := rfl

theorem delimited_val (o c : Token → Bool) (n : Node) (p : P) :
    (delimited o c n p).val = Yamd.delimited o c n p := by
  rw [delimited, Yamd.delimited]
  simp only [Counted.val_bind, Counted.val_tick, pure_bind]
  rcases p.eat o with ⟨_ | sr, q⟩
  · rfl
  · simp only [Counted.val_bind, eatUntil_val]
    congr 1
    funext a
    rcases a with ⟨_ | ⟨a, k, e⟩, q⟩ <;> rfl

theorem destLoop_val (n : Nat) : ∀ p i e, (destLoop n p i e).val = Yamd.destLoop n p i e := by
  induction n with
  | zero => intro p i e; rfl
  | succ n ih =>
    intro p i e
    rw [destLoop, Yamd.destLoop]
    simp only [Counted.val_bind, Counted.val_tick, pure_bind]
    cases p.peek with
    | none => rfl
    | some t =>
      simp only [Counted.val_bind, atEof_val, pure_bind, Counted.val_ite, ih]
      rfl

theorem destination_val (p : P) : (destination p).val = Yamd.destination p := by
  rw [destination, Yamd.destination]
  simp only [Counted.val_bind, Counted.val_tick, pure_bind]
  rcases p.eat isLeftParen with ⟨_ | sr, q⟩
  · rfl
  · simp only [Counted.val_bind, destLoop_val, Counted.val_ite, span_val]
    rfl

theorem strikethrough_val (p : P) : (strikethrough p).val = Yamd.strikethrough p := delimited_val ..
theorem italic_val (p : P) : (italic p).val = Yamd.italic p := delimited_val ..
theorem emphasis_val (p : P) : (emphasis p).val = Yamd.emphasis p := delimited_val ..
theorem codeSpan_val (p : P) : (codeSpan p).val = Yamd.codeSpan p := delimited_val ..
theorem title_val (p : P) : (title p).val = Yamd.title p := delimited_val ..
theorem metadata_val (p : P) : (metadata p).val = _root_.Yamd.metadata p := delimited_val ..

theorem anchor_val (p : P) : (anchor p).val = Yamd.anchor p := by
  rw [anchor, Yamd.anchor]
  simp only [Counted.val_bind, Counted.val_tick, pure_bind, title_val]
  congr 1
  funext a
  rcases a with ⟨_ | _, q⟩
  · rfl
  · simp only [Counted.val_bind, destination_val]
    congr 1
    funext a
    rcases a with ⟨_ | _, q⟩ <;> rfl

theorem insertText_val (p : P) (s a b) : (insertText p s a b).val = Yamd.insertText p s a b := by
  cases s <;> rfl
theorem pushText_val (p : P) (s a) : (pushText p s a).val = Yamd.pushText p s a := by
  cases s <;> rfl

theorem orElse_val (f g : P → Counted (Bool × P)) (f' g' : P → R (Bool × P))
    (hf : ∀ p, (f p).val = f' p) (hg : ∀ p, (g p).val = g' p) (p : P) :
    (orElse f g p).val = Yamd.orElse f' g' p := by
  rw [orElse, Yamd.orElse]
  simp only [Counted.val_bind, hf]
  congr 1
  funext a
  rcases a with ⟨_ | _, q⟩
  · exact hg q
  · rfl

theorem boldLoop_val (n : Nat) : ∀ p s, (boldLoop n p s).val = Yamd.boldLoop n p s := by
  induction n with
  | zero => intro p s; rfl
  | succ n ih =>
    intro p s
    rw [boldLoop, Yamd.boldLoop]
    simp only [Counted.val_bind, Counted.val_tick, pure_bind]
    cases p.peek with
    | none => rfl
    | some t =>
      simp only [Counted.val_bind, atEof_val, pure_bind, Counted.val_ite]
      split
      · rfl
      · rcases p.eat isStar2 with ⟨_ | ⟨a, e⟩, q⟩
        · simp only [Counted.val_bind, orElse_val _ _ _ _ strikethrough_val italic_val]
          congr 1
          funext a
          rcases a with ⟨_ | _, q⟩
          · exact ih ..
          · simp only [Counted.val_bind, insertText_val, ih]
        · simp only [Counted.val_bind, pushText_val, span_val]
          rfl

theorem bold_val (p : P) : (bold p).val = Yamd.bold p := by
  rw [bold, Yamd.bold]
  simp only [Counted.val_bind, Counted.val_tick, pure_bind]
  rcases p.eat isStar2 with ⟨_ | ⟨a, e⟩, q⟩
  · rfl
  · simp only [Counted.val_bind, boldLoop_val, span_val]
    congr 1
    funext c
    congr 1
    funext a
    rcases a with ⟨_ | _, q⟩ <;> rfl

theorem inline_val (p : P) : (inline p).val = Yamd.inline p :=
  orElse_val _ _ _ _ strikethrough_val (orElse_val _ _ _ _ italic_val (orElse_val _ _ _ _ bold_val
    (orElse_val _ _ _ _ anchor_val (orElse_val _ _ _ _ codeSpan_val emphasis_val)))) p

theorem paragraphLoop_val (n : Nat) : ∀ p s,
    (paragraphLoop n p s).val = Yamd.paragraphLoop n p s := by
  induction n with
  | zero => intro p s; rfl
  | succ n ih =>
    intro p s
    rw [paragraphLoop, Yamd.paragraphLoop]
    simp only [Counted.val_bind, Counted.val_tick, pure_bind, atEof_val, Counted.val_ite]
    split
    · rfl
    · simp only [inline_val]
      congr 1
      funext a
      rcases a with ⟨_ | _, q⟩
      · exact ih ..
      · simp only [Counted.val_bind, insertText_val, ih]

theorem paragraph_val (p : P) : (paragraph p).val = Yamd.paragraph p := by
  rw [paragraph, Yamd.paragraph]
  simp only [Counted.val_bind, Counted.val_tick, pure_bind, paragraphLoop_val, pushText_val]
  rfl

theorem headingLoop_val (n : Nat) : ∀ p s,
    (headingLoop n p s).val = Yamd.headingLoop n p s := by
  induction n with
  | zero => intro p s; rfl
  | succ n ih =>
    intro p s
    rw [headingLoop, Yamd.headingLoop]
    simp only [Counted.val_bind, Counted.val_tick, pure_bind]
    cases p.peek with
    | none => rfl
    | some t =>
      simp only [Counted.val_bind, atEof_val, pure_bind, Counted.val_ite]
      split
      · rfl
      · simp only [anchor_val]
        congr 1
        funext a
        rcases a with ⟨_ | _, q⟩
        · exact ih ..
        · simp only [Counted.val_bind, insertText_val, ih]

theorem heading_val (p : P) : (heading p).val = Yamd.heading p := by
  rw [heading, Yamd.heading]
  simp only [Counted.val_bind, Counted.val_tick, pure_bind]
  rcases p.eatSeq2 isHash isSpace1 with ⟨_ | ⟨a, e⟩, q⟩
  · rfl
  · simp only [Counted.val_bind, headingLoop_val, span_val, pushText_val]
    rfl

theorem modifier_val (p : P) : (modifier p).val = Yamd.modifier p := by
  rw [modifier, Yamd.modifier]
  simp only [Counted.val_bind, Counted.val_tick, pure_bind, Counted.val_ite, eatUntil_val]
  split
  · rfl
  · congr 1
    funext a
    rcases a with ⟨_ | ⟨a, k, e⟩, q⟩ <;> rfl

theorem closeLine_val (p : P) (k e) : (closeLine p k e).val = pure (Yamd.closeLine p k e) := by
  rw [closeLine, Yamd.closeLine]
  rcases p.eat isEol with ⟨_ | ⟨a, k⟩, q⟩
  · simp only [Counted.val_bind, atBlockBoundary_val, pure_bind, Counted.val_ite, Counted.val_pure]
    split <;> rfl
  · rfl

theorem codeTail_val (start snap scan q) :
    (codeTail start snap scan q).val = Yamd.codeTail start snap scan q := by
  rw [codeTail.eq_def, Yamd.codeTail.eq_def]
  rcases scan with _ | ⟨b, k, e⟩
  · rfl
  · simp only [Counted.val_bind, closeLine_val, pure_bind]
    rcases Yamd.closeLine q k e with ⟨_ | ⟨a, k⟩, q⟩ <;> rfl

theorem codeScan_val (w p) : (codeScan w p).val = Yamd.codeScan w p := by
  rw [codeScan, Yamd.codeScan]
  simp only [Counted.val_bind, Counted.val_ite, modifier_val, eatUntil_val, Counted.val_pure]

theorem code_val (p : P) : (code p).val = Yamd.code p := by
  rw [code, Yamd.code]
  simp only [Counted.val_bind, Counted.val_tick, pure_bind]
  have tail : ∀ (q : P) (a e : Nat),
      (do let c ← span q a e
          let (scan, q) ← withNoStops (q.push (.start .Code c)) (codeScan !(tokenIs q.tokens (e - 1) isEol))
          codeTail p.pos p.ops.length scan q : Counted (Bool × P)).val
        = (do let c ← q.span a e
              let (scan, q) ← (q.push (.start .Code c)).withNoStops
                (Yamd.codeScan !(tokenIs q.tokens (e - 1) isEol))
              Yamd.codeTail p.pos p.ops.length scan q) := by
    intro q a e
    simp only [Counted.val_bind, span_val]
    congr 1
    funext c
    rw [withNoStops_val _ _ _ (codeScan_val _)]
    congr 1
    funext a
    rcases a with ⟨s, q⟩
    exact codeTail_val ..
  rcases p.eatSeq2 isBacktick3 isEol with ⟨_ | ⟨a, e⟩, q⟩
  · simp only []
    rcases q.eat isBacktick3 with ⟨_ | ⟨a, e⟩, q⟩
    · rfl
    · exact tail ..
  · exact tail ..

theorem embed_val (p : P) : (embed p).val = Yamd.embed p := by
  rw [embed, Yamd.embed]
  simp only [Counted.val_bind, Counted.val_tick, pure_bind]
  rcases p.eat isLeftCurly2 with ⟨_ | sr, q⟩
  · rfl
  · simp only [Counted.val_bind, eatUntil_val]
    congr 1
    funext a
    rcases a with ⟨_ | ⟨a, k, e⟩, q⟩
    · rfl
    · simp only [Counted.val_bind, eatUntil_val]
      congr 1
      funext a
      rcases a with ⟨_ | ⟨a, k, e⟩, q⟩
      · rfl
      · simp only [Counted.val_bind, closeLine_val, pure_bind]
        rcases Yamd.closeLine q k e with ⟨_ | ⟨a, k⟩, q⟩ <;> rfl

theorem image_val (p : P) : (image p).val = Yamd.image p := by
  rw [image, Yamd.image]
  simp only [Counted.val_bind, Counted.val_tick, pure_bind]
  rcases p.eat isBang1 with ⟨_ | ⟨a, e⟩, q⟩
  · rfl
  · simp only [Counted.val_bind, title_val, span_val]
    congr 1
    funext c
    congr 1
    funext a
    rcases a with ⟨_ | _, q⟩
    · rfl
    · simp only [Counted.val_bind, destination_val]
      congr 1
      funext a
      rcases a with ⟨_ | _, q⟩
      · rfl
      · simp only []
        rcases q.eat isEol with ⟨_ | ⟨a, e⟩, q⟩
        · simp only [Counted.val_bind, atEof_val, pure_bind, Counted.val_ite]
          rfl
        · rfl

theorem imagesLoop_val (a b : Nat) (n : Nat) : ∀ p s,
    (imagesLoop a b n p s).val = Yamd.imagesLoop a b n p s := by
  induction n with
  | zero => intro p s; rfl
  | succ n ih =>
    intro p s
    rw [imagesLoop, Yamd.imagesLoop]
    simp only [Counted.val_bind, Counted.val_tick, pure_bind]
    cases p.peek with
    | none => rfl
    | some t =>
      simp only [Counted.val_bind, image_val]
      congr 1
      funext a
      rcases a with ⟨_ | _, q⟩
      · simp only [Counted.val_bind, atEof_val, pure_bind, Counted.val_ite]
        rfl
      · exact ih ..

theorem images_val (p : P) : (images p).val = Yamd.images p := by
  rw [images, Yamd.images]
  simp only [Counted.val_bind, Counted.val_tick, pure_bind, imagesLoop_val]
  congr 1
  funext a
  rcases a with ⟨_ | c, q⟩
  · rfl
  · simp only [Counted.val_bind, Counted.val_ite, insertOp_val]
    rfl

theorem thematicBreak_val (p : P) : (thematicBreak p).val = Yamd.thematicBreak p := by
  rw [thematicBreak, Yamd.thematicBreak]
  simp only [Counted.val_bind, Counted.val_tick, pure_bind]
  rcases p.eat isDash5 with ⟨_ | ⟨a, e⟩, q⟩ <;> rfl

theorem icon_val (p : P) : (icon p).val = Yamd.icon p := by
  rw [icon, Yamd.icon]
  simp only [Counted.val_bind, Counted.val_tick, pure_bind]
  rcases p.eatSeq2 isOneBang isSpace1 with ⟨_ | ⟨a, e⟩, q⟩
  · rfl
  · simp only [Counted.val_bind, eatUntil_val]
    congr 1
    funext a
    rcases a with ⟨_ | ⟨a, k, e⟩, q⟩ <;> rfl

theorem eatTerminator_val (p : P) : (eatTerminator p).val = Yamd.eatTerminator p := by
  rw [eatTerminator, Yamd.eatTerminator]
  rcases p.eat isTerminator with ⟨_ | ⟨a, e⟩, q⟩ <;> rfl

theorem highlightLoop_val (n : Nat) : ∀ p,
    (highlightLoop n p).val = Yamd.highlightLoop n p := by
  induction n with
  | zero => intro p; rfl
  | succ n ih =>
    intro p
    rw [highlightLoop, Yamd.highlightLoop]
    simp only [Counted.val_bind, Counted.val_tick, pure_bind, atEof_val, Counted.val_ite]
    split
    · rfl
    · rcases p.eat isTwoBangs with ⟨_ | ⟨a, e⟩, q⟩
      · simp only [Counted.val_bind, eatTerminator_val]
        congr 1
        funext q
        rw [withEofs2_val _ _ _ _ _ paragraph_val]
        congr 1
        funext a
        rcases a with ⟨_, q⟩
        simp only [Counted.val_ite, ih, Counted.val_paid]
      · rfl

theorem highlight_val (p : P) : (highlight p).val = Yamd.highlight p := by
  rw [highlight, Yamd.highlight]
  simp only [Counted.val_bind, Counted.val_tick, pure_bind]
  rcases p.eatSeq2 isTwoBangs (fun t => isSpace1 t || isEol t) with ⟨_ | ⟨a, e⟩, q⟩
  · rfl
  · simp only [Counted.val_bind, Counted.val_ite, span_val, Counted.val_pure]
    congr 1
    funext c
    have rest : ∀ q : P, (do
        let a ← (withEof q .Terminator icon).val
        if (!a.2.atTok col0) = true then pure (false, a.2.restore p.pos p.ops.length)
        else do
          let b ← (highlightLoop (a.2.tokens.length + 1) a.2).val
          (match b with
            | (true, q) => (pure (true, q) : Counted (Bool × P))
            | (false, q) => pure (false, q.restore p.pos p.ops.length)).val)
      = (do
        let a ← q.withEof .Terminator Yamd.icon
        if (!a.2.atTok col0) = true then pure (false, a.2.restore p.pos p.ops.length)
        else do
          let b ← Yamd.highlightLoop (a.2.tokens.length + 1) a.2
          match b with
          | (true, q) => pure (true, q)
          | (false, q) => pure (false, q.restore p.pos p.ops.length)) := by
      intro q
      rw [withEof_val _ _ _ _ icon_val]
      congr 1
      funext a
      rcases a with ⟨_, q⟩
      simp only [highlightLoop_val]
      split
      · rfl
      · congr 1
        funext a
        rcases a with ⟨_ | _, q⟩ <;> rfl
    split
    · rw [pure_bind]
      exact rest _
    · simp only [modifier_val]
      congr 1
      funext a
      exact rest a

theorem listItem_val (fuel : Nat) :
    (∀ level kind p, (listItem fuel level kind p).val = Yamd.listItem fuel level kind p)
    ∧ (∀ level p, (listInner fuel level p).val = Yamd.listInner fuel level p)
    ∧ (∀ level kind p, (listLoop fuel level kind p).val = Yamd.listLoop fuel level kind p) := by
  induction fuel with
  | zero =>
    refine ⟨fun _ _ _ => ?_, fun _ _ => ?_, fun _ _ _ => ?_⟩
    · rw [listItem, Yamd.listItem, Counted.val_paid]
    · rw [listInner, Yamd.listInner, Counted.val_paid]
    · rw [listLoop, Yamd.listLoop, Counted.val_paid]
  | succ n ih =>
    obtain ⟨ih1, ih2, ih3⟩ := ih
    refine ⟨fun level kind p => ?_, fun level p => ?_, fun level kind p => ?_⟩
    · rw [listItem, Yamd.listItem]
      simp only [Counted.val_bind, Counted.val_tick, pure_bind, Counted.val_ite]
      split
      · rfl
      · rcases p.get (p.pos + if level = 0 then 0 else 1) with _ | t
        · rfl
        · simp only []
          rcases ListKind.tryFrom t with _ | mk
          · rfl
          · simp only []
            generalize (if level = 0 then p.eatSeq2 (isListMarker kind) isSpace1
              else p.eatSeq3 (fun t => t.kind = .Space && t.len = level) (isListMarker kind) isSpace1) = seq
            rcases seq with ⟨_ | ⟨a, e⟩, q⟩
            · rfl
            · simp only [Counted.val_bind, span_val]
              congr 1
              funext c
              rw [withEof_val _ _ _ _ paragraph_val]
              congr 1
              funext a
              rcases a with ⟨_, q⟩
              simp only [Counted.val_bind, atEof_val, pure_bind, Counted.val_ite, ih2, Counted.val_pure]
    · rw [listInner, Yamd.listInner]
      simp only [Counted.val_bind, Counted.val_tick, pure_bind, ih1]
      congr 1
      funext a
      rcases a with ⟨_ | k, q⟩
      · rfl
      · simp only [Counted.val_bind, insertOp_val, ih3, Counted.val_pure]
    · rw [listLoop, Yamd.listLoop]
      simp only [Counted.val_bind, Counted.val_tick, pure_bind, ih1]
      congr 1
      funext a
      rcases a with ⟨_ | k, q⟩
      · rfl
      · simp only [ih3]

theorem list_val (p : P) (l : Nat) : (list p l).val = Yamd.list p l := by
  rw [list, Yamd.list]
  simp only [Counted.val_bind, Counted.val_tick, pure_bind, (listItem_val _).2.1]
  rfl

theorem leafBlock_val (p : P) : (leafBlock p).val = Yamd.leafBlock p := by
  rw [leafBlock, Yamd.leafBlock]
  simp only [Counted.val_bind]
  rw [orElse_val _ _ _ _ (fun p => list_val p 0) (orElse_val _ _ _ _ images_val
    (orElse_val _ _ _ _ thematicBreak_val heading_val))]
  congr 1
  funext a
  rcases a with ⟨_ | _, q⟩
  · exact paragraph_val q
  · rfl

theorem document_val (fuel : Nat) :
    (∀ p, (collapsible fuel p).val = Yamd.collapsible fuel p)
    ∧ (∀ p, (document fuel p).val = Yamd.document fuel p)
    ∧ (∀ p, (documentLoop fuel p).val = Yamd.documentLoop fuel p) := by
  induction fuel with
  | zero =>
    refine ⟨fun _ => ?_, fun _ => ?_, fun _ => ?_⟩
    · rw [collapsible, Yamd.collapsible, Counted.val_paid]
    · rw [document, Yamd.document, Counted.val_paid]
    · rw [documentLoop, Yamd.documentLoop, Counted.val_paid]
  | succ n ih =>
    obtain ⟨ih1, ih2, ih3⟩ := ih
    refine ⟨fun p => ?_, fun p => ?_, fun p => ?_⟩
    · rw [collapsible, Yamd.collapsible]
      simp only [Counted.val_bind, Counted.val_tick, pure_bind]
      rcases p.eatSeq2 isCollapsibleStart isSpaceOrEol with ⟨_ | ⟨a, e⟩, q⟩
      · rfl
      · simp only [Counted.val_bind, span_val, modifier_val]
        congr 1
        funext c
        congr 1
        funext a
        rcases a with ⟨_, q⟩
        simp only [Counted.val_bind, Counted.val_ite, withEof_val _ _ _ _ ih2]
        split
        · rfl
        · congr 1
          funext a
          rcases a with ⟨_, q⟩
          simp only []
          rcases collClose (q.eat isEol).2 with ⟨_ | ⟨a, e⟩, q⟩ <;> rfl
    · rw [document, Yamd.document]
      simp only [Counted.val_bind, Counted.val_tick, pure_bind, ih3, Counted.val_pure]
    · rw [documentLoop, Yamd.documentLoop]
      simp only [Counted.val_bind, Counted.val_tick, pure_bind, atEof_val, Counted.val_ite]
      split
      · rfl
      · rcases p.eat isTerminator with ⟨_ | ⟨a, e⟩, q⟩
        · simp only [Counted.val_bind]
          rw [orElse_val _ _ _ _ code_val (orElse_val _ _ _ _ ih1
            (orElse_val _ _ _ _ embed_val highlight_val))]
          congr 1
          funext a
          rcases a with ⟨_ | _, q⟩
          · simp only [Counted.val_bind, withEof_val _ _ _ _ leafBlock_val]
            congr 1
            funext a
            simp only [Counted.val_bind, Counted.val_ite, ih3, Counted.val_paid, Counted.val_pure, pure_bind]
          · simp only [Counted.val_bind, Counted.val_ite, ih3, Counted.val_paid, Counted.val_pure, pure_bind]
        · simp only [Counted.val_bind, Counted.val_ite, ih3, Counted.val_paid, Counted.val_pure, pure_bind, span_val]

/-- Forgetting the step counter gives back `parse`. -/
theorem parse_val (input : Str) : (parse input).val = Yamd.parse input := by
  rw [parse, Yamd.parse]
  simp only [Counted.val_bind, Counted.val_paid, metadata_val, (document_val _).2.1]
  rfl

end Steps
end Yamd
