import Verif.Proofs.RefineInline

/-!
# The modelled parser refines the reference parser: blocks
-/

namespace Yamd.Ref

open Yamd

variable {src : Str} {pre ts r : List Token} {eof : List Stop} {ops : List Op} {t : Token}

theorem modifierB_toks {stops} {ts : List Token} {m r} (h : modifierB stops ts = some (m, r)) :
    ts = modToks (some m) ++ r := by
  unfold modifierB at h
  split at h
  · simp at h
  · simp only [Option.map_eq_some_iff] at h
    obtain ⟨⟨b, c, r'⟩, h1, h2⟩ := h
    simp only [Prod.mk.injEq] at h2
    obtain ⟨rfl, rfl⟩ := h2
    rw [untilB_length h1]; simp [modToks]

theorem optModB_toks (stops) (ts : List Token) :
    ts = modToks (optModB stops ts).1 ++ (optModB stops ts).2 := by
  unfold optModB
  split
  · rename_i h; exact modifierB_toks h
  · simp [modToks]

theorem modifier_refines : Refines src modifier modifierB (fun m => modToks (some m))
    (fun m => modOps src (some m)) := by
  intro pre ts eof o hts
  unfold modifier modifierB
  rw [st_atTok]
  cases h : tokenIs ts 0 col0 with
  | true => rfl
  | false =>
    simp only [Bool.false_eq_true, if_false, bind, Except.bind]
    rw [eatUntil_eq]
    cases hu : untilB eof isEolOrTerminator ts with
    | none => rfl
    | some x =>
      obtain ⟨b, c, r⟩ := x
      have hg : Good src (b ++ c :: r) := by rw [← untilB_length hu]; exact hts
      simp only
      rw [st_spanAt (a := pre) (b := b) (c := c :: r) (by simp) rfl rfl hg.append_left]
      simp only
      rw [st_spanAt (a := pre ++ b) (b := [c]) (c := r) (by simp) (by simp) (by simp)
        hg.append_right.single]
      simp [pure, Except.pure, st_push, modToks, modOps]

theorem optMod_eq (hts : Good src ts) : ∃ b, modifier (st src pre ts eof ops)
    = .ok (b, st src (pre ++ modToks (optModB eof ts).1) (optModB eof ts).2 eof
        (ops ++ modOps src (optModB eof ts).1)) := by
  rw [modifier_refines _ _ _ _ hts]
  unfold optModB
  cases modifierB eof ts with
  | none => exact ⟨false, by simp [modToks, modOps]⟩
  | some x => exact ⟨true, rfl⟩

theorem closeLineB_toks {stops c} {r : List Token} {x y} (h : closeLineB stops c r = some (x, y)) :
    c :: r = x ++ y := by
  unfold closeLineB at h
  split at h
  · simp only [Option.some.injEq, Prod.mk.injEq] at h
    obtain ⟨rfl, rfl⟩ := h; rfl
  · split at h
    · simp only [Option.some.injEq, Prod.mk.injEq] at h
      obtain ⟨rfl, rfl⟩ := h; rfl
    · split at h
      · simp only [Option.some.injEq, Prod.mk.injEq] at h
        obtain ⟨rfl, rfl⟩ := h; rfl
      · simp at h

theorem closeLine_eq {c k e} (he : e = k + 1) (hk : k = pre.length) :
    closeLine (st src (pre ++ [c]) r eof ops) k e
      = match closeLineB eof c r with
        | none => (none, st src (pre ++ [c]) r eof ops)
        | some (x, y) => (some (pre.length, pre.length + x.length), st src (pre ++ x) y eof ops) := by
  subst he hk
  unfold closeLine closeLineB
  cases r with
  | nil =>
    rw [st_eat_nil]
    simp only
    rw [st_atBlockBoundary]
    simp [stopAt]
  | cons t r =>
    cases h : isEol t with
    | true =>
      rw [st_eat_yes _ h]
      simp [h]
    | false =>
      rw [st_eat_no _ h]
      simp only [st_atBlockBoundary, tokenIs, List.getElem?_cons_zero, h]
      cases (stopAt eof (t :: r) || decide (t.kind = .Terminator)) <;> simp

theorem codeTail_eq {opening m} (a : List Token) (hg : Good src (a ++ r))
    (ha : a = opening ++ modToks m) {o : List Op}
    (ho : o = ops ++ (.start .Code (content src opening) :: modOps src m)) :
    ((st src (pre ++ a) r [] o).eatUntil isBacktick3 >>= fun x =>
      codeTail pre.length ops.length x.1 { x.2 with eof := eof })
    = match codeRestB eof opening m r with
      | none => .ok (false, st src pre (a ++ r) eof ops)
      | some (x, r') => .ok (true, st src (pre ++ x.toks) r' eof (ops ++ x.ops src)) := by
  simp only [bind, Except.bind]
  rw [eatUntil_eq, codeRestB]
  cases hu : untilB [] isBacktick3 r with
  | none =>
    simp only [codeTail]
    rw [show ({ st src (pre ++ a) r [] o with eof := eof } : P) = st src (pre ++ a) r eof o from rfl,
      ho, restore_st]
    rfl
  | some x =>
    obtain ⟨b', c, r'⟩ := x
    have htk := untilB_length hu
    simp only [codeTail]
    have e2 : ({ st src (pre ++ a ++ (b' ++ [c])) r' [] o
      with eof := eof } : P) = st src (pre ++ a ++ b' ++ [c]) r' eof o := by
        simp [st]
    rw [e2, closeLine_eq rfl (by simp; omega)]
    cases hc : closeLineB eof c r' with
    | none =>
      simp only [Option.map_none]
      rw [List.append_assoc, List.append_assoc, ho, restore_st, htk]
      simp
      rfl
    | some x =>
      obtain ⟨x, y⟩ := x
      have htk2 := closeLineB_toks hc
      have hg' : Good src (b' ++ (x ++ y)) := by
        rw [← htk2, ← htk]; exact hg.append_right
      simp only [Option.map_some]
      rw [st_spanAt (a := pre ++ a) (b := b') (c := x ++ y) (by simp) (by simp) (by simp; omega) hg'.append_left]
      simp only [bind, Except.bind]
      rw [st_spanAt (a := pre ++ a ++ b') (b := x) (c := y) (by simp) rfl rfl
        hg'.append_right.append_left]
      simp [st_push, Block.toks, Block.ops, ha, ho, pure, Except.pure]

theorem withNoStops_eq {β : Type} (f : P → R (β × P)) (p : P) (g : β × P → R (Bool × P)) :
    (p.withNoStops f >>= g) = (f { p with eof := [] } >>= fun x => g (x.1, { x.2 with eof := p.eof })) := by
  unfold P.withNoStops
  cases f { p with eof := [] } <;> rfl

theorem code_refines : Refines src code codeB Block.toks (Block.ops src) := by
  intro pre ts eof o hts
  unfold code codeB
  cases ts with
  | nil =>
    rw [eatSeq2_no (by simp [tokenIs])]
    simp only
    rw [st_eat_nil]; rfl
  | cons t r =>
    cases h : isBacktick3 t with
    | false =>
      rw [eatSeq2_no (by simp [tokenIs, h])]
      simp only
      rw [st_eat_no _ h]
      simp only [h]
      rfl
    | true =>
      have h0 : tokenIs (t :: r) 0 isBacktick3 = true := by simp [tokenIs, h]
      cases h1 : tokenIs r 0 isEol with
      | true =>
        cases r with
        | nil => simp [tokenIs] at h1
        | cons u r =>
        have h1' : isEol u = true := by simpa [tokenIs] using h1
        rw [eatSeq2_yes h0 (by simpa [tokenIs] using h1)]
        simp only [h, h1, if_true, List.take_succ_cons, List.take_zero, List.drop_succ_cons, List.drop_zero]
        have hw : tokenIs (st src (pre ++ [t, u]) r eof o).tokens (pre.length + 2 - 1) isEol = true := by
          simp [tokenIs, h1']
        rw [hw, st_spanAt (a := pre) (b := [t, u]) (c := r) (by simp) rfl (by simp) (hts.take 2)]
        simp only [st_push, st_pos, st_ops, Bool.not_true]
        have := (codeTail_eq (src := src) (pre := pre) (r := r) (eof := eof) (ops := o)
          (opening := [t, u]) (m := none) [t, u] hts (by simp [modToks])
          (o := o ++ [.start .Code (content src [t, u])]) (by simp [modOps]))
        refine Eq.trans ?_ (this.trans ?_)
        · exact withNoStops_eq _ _ _
        · cases codeRestB eof [t, u] none r <;> rfl
      | false =>
        rw [eatSeq2_no (by simpa [tokenIs] using fun _ => h1)]
        simp only
        rw [st_eat_yes _ h]
        simp only [h, h1, if_true]
        have hw : tokenIs (st src (pre ++ [t]) r eof o).tokens (pre.length + 1 - 1) isEol = false := by
          have : t.kind ≠ .Eol := by
            intro hk; unfold isBacktick3 at h; rw [hk] at h; simp at h
          simp [tokenIs, isEol, this]
        rw [hw, st_spanAt (a := pre) (b := [t]) (c := r) (by simp) rfl (by simp) hts.single]
        simp only [st_push, st_pos, st_ops, Bool.not_false]
        have htk := optModB_toks [] r
        have := (codeTail_eq (src := src) (pre := pre) (r := (optModB [] r).2) (eof := eof) (ops := o)
          (opening := [t]) (m := (optModB [] r).1) ([t] ++ modToks (optModB [] r).1)
          (by rw [List.append_assoc, ← htk]; exact hts) rfl
          (o := o ++ .start .Code (content src [t]) :: modOps src (optModB [] r).1) rfl)
        refine Eq.trans ?_ (this.trans ?_)
        · refine (withNoStops_eq _ _ _).trans ?_
          simp only [bind, Except.bind, codeScan, if_true, st_eofs]
          obtain ⟨b, hb⟩ := optMod_eq (src := src) (pre := pre ++ [t]) (ts := r) (eof := [])
            (ops := o ++ [.start .Code (content src [t])]) hts.tail
          rw [show ({ st src (pre ++ [t]) r eof (o ++ [.start .Code (content src [t])]) with eof := [] } : P)
            = st src (pre ++ [t]) r [] (o ++ [.start .Code (content src [t])]) from rfl, hb]
          simp [pure, Except.pure]
        · rw [List.append_assoc, ← htk]
          cases codeRestB eof [t] (optModB [] r).1 (optModB [] r).2 <;> rfl

theorem embed_refines : Refines src embed embedB Block.toks (Block.ops src) := by
  intro pre ts eof o hts
  unfold embed embedB
  cases ts with
  | nil => rw [st_eat_nil]; rfl
  | cons t r =>
    cases h : isLeftCurly2 t with
    | false => rw [st_eat_no _ h]; simp only [h]; rfl
    | true =>
      rw [st_eat_yes _ h]
      simp only [h, if_true, eatUntil_eq]
      cases hu : untilB eof isPipe r with
      | none => simp [bind, Except.bind, pure, Except.pure, st]
      | some x =>
        obtain ⟨l, p, r1⟩ := x
        have tk1 := untilB_length hu
        simp only [bind, Except.bind, eatUntil_eq]
        cases hu2 : untilB eof isRightCurly2 r1 with
        | none => simp [pure, Except.pure, st, tk1]
        | some x =>
          obtain ⟨a, c, r2⟩ := x
          have tk2 := untilB_length hu2
          simp only
          have e2 : st src (pre ++ [t] ++ (l ++ [p]) ++ (a ++ [c])) r2 eof o
            = st src (pre ++ [t] ++ l ++ [p] ++ a ++ [c]) r2 eof o := by simp [st]
          rw [e2, closeLine_eq rfl (by simp; omega)]
          cases hc : closeLineB eof c r2 with
          | none => simp [pure, Except.pure, st, tk1, tk2]
          | some x =>
            obtain ⟨x, y⟩ := x
            have htk2 := closeLineB_toks hc
            have hg : Good src (l ++ (p :: (a ++ (x ++ y)))) := by
              rw [← htk2, ← tk2, ← tk1]; exact hts.tail
            have hg2 : Good src (a ++ (x ++ y)) := hg.append_right.tail
            simp only [Option.map_some]
            rw [st_spanAt (a := pre) (b := [t]) (c := l ++ (p :: (a ++ (x ++ y)))) (by simp) rfl
              (by simp) hts.single]
            simp only
            rw [st_spanAt (a := pre ++ [t]) (b := l) (c := (p :: (a ++ (x ++ y)))) (by simp) rfl
              rfl hg.append_left]
            simp only
            rw [st_spanAt (a := pre ++ [t] ++ l) (b := [p]) (c := (a ++ (x ++ y))) (by simp)
              (by simp; omega) (by simp; omega) hg.append_right.single]
            simp only
            rw [st_spanAt (a := pre ++ [t] ++ l ++ [p]) (b := a) (c := (x ++ y)) (by simp)
              (by simp) (by simp; try omega) hg2.append_left]
            simp only
            rw [st_spanAt (a := pre ++ [t] ++ l ++ [p] ++ a) (b := x) (c := y) (by simp)
              rfl rfl hg2.append_right.append_left]
            simp [pure, Except.pure, st_push, Block.toks, Block.ops]

theorem image_refines : Refines src image imageB Img.toks (Img.ops src) := by
  intro pre ts eof o hts
  unfold image imageB
  cases ts with
  | nil => rw [st_eat_nil]; rfl
  | cons t r =>
    cases h : isBang1 t with
    | false => rw [st_eat_no _ h]; simp only [h]; rfl
    | true =>
      rw [st_eat_yes _ h]
      simp only [h, if_true, bind, Except.bind]
      rw [st_spanAt (a := pre) (b := [t]) (c := r) (by simp) rfl (by simp) hts.single]
      simp only [st_push, linkB]
      rw [title_refines _ _ _ _ hts.tail]
      cases ht : titleB eof r with
      | none =>
        simp only [pure, Except.pure, st_pos, st_ops]
        rw [restore_st]; rfl
      | some x =>
        obtain ⟨d, r1⟩ := x
        have tk1 := delimB_toks ht
        have hg : Good src (d.toks ++ r1) := by rw [← tk1]; exact hts.tail
        simp only
        rw [destination_refines _ _ _ _ hg.append_right]
        cases hd : destB eof r1 with
        | none =>
          simp only [pure, Except.pure, st_pos, st_ops]
          rw [List.append_assoc, List.append_assoc, restore_st]
          simp [tk1]
        | some y =>
          obtain ⟨d', r2⟩ := y
          have tk2 := destB_toks hd
          have hg2 : Good src (d'.toks ++ r2) := by rw [← tk2]; exact hg.append_right
          simp only
          cases he : tokenIs r2 0 isEol with
          | true =>
            cases r2 with
            | nil => simp [tokenIs] at he
            | cons u r2 =>
              have he' : isEol u = true := by simpa [tokenIs] using he
              rw [st_eat_yes _ he']
              simp only
              rw [st_spanAt (a := pre ++ [t] ++ d.toks ++ d'.toks) (b := [u]) (c := r2) (by simp) rfl
                (by simp) hg2.append_right.single]
              simp [pure, Except.pure, st_push, Img.toks, Img.ops, Link.toks, Link.ops]
          | false =>
            rw [st_eat_none _ he]
            simp only [st_atEof, Bool.false_eq_true, if_false]
            cases hs : stopAt eof r2 with
            | true =>
              simp [pure, Except.pure, st_push, Img.toks, Img.ops, Link.toks, Link.ops, content,
                emptyContent]
            | false =>
              simp only [pure, Except.pure, st_pos, st_ops, Bool.false_eq_true, if_false]
              rw [List.append_assoc, List.append_assoc, List.append_assoc, List.append_assoc, restore_st]
              simp [tk1, tk2]

theorem imagesB_some {stops ts i r} (h : imageB stops ts = some (i, r)) :
    imagesB stops ts = (imagesB stops r).map (fun x => (i :: x.1, x.2)) := by
  rw [imagesB.eq_def]
  split
  · rename_i h1; rw [h] at h1; simp only [Option.some.injEq, Prod.mk.injEq] at h1
    obtain ⟨rfl, rfl⟩ := h1; rfl
  · rename_i h1; rw [h] at h1; simp at h1

theorem imagesB_none {stops ts} (h : imageB stops ts = none) :
    imagesB stops ts = if stopAt stops ts then some ([], ts) else none := by
  rw [imagesB.eq_def]
  split
  · rename_i h1; rw [h] at h1; simp at h1
  · rfl

theorem imagesB_toks {stops} : ∀ (n : Nat) {ts l r}, ts.length ≤ n → imagesB stops ts = some (l, r) →
    ts = l.flatMap Img.toks ++ r := by
  intro n
  induction n with
  | zero =>
    intro ts l r hn h
    have : ts = [] := by simpa using hn
    subst this
    rw [imagesB_none rfl] at h
    simp only [stopAt, if_true, Option.some.injEq, Prod.mk.injEq] at h
    obtain ⟨rfl, rfl⟩ := h; rfl
  | succ n ih =>
    intro ts l r hn h
    cases hi : imageB stops ts with
    | none =>
      rw [imagesB_none hi] at h
      split at h
      · simp only [Option.some.injEq, Prod.mk.injEq] at h
        obtain ⟨rfl, rfl⟩ := h; rfl
      · simp at h
    | some x =>
      obtain ⟨i, r1⟩ := x
      rw [imagesB_some hi] at h
      simp only [Option.map_eq_some_iff] at h
      obtain ⟨⟨l', r'⟩, h1, h2⟩ := h
      simp only [Prod.mk.injEq] at h2
      obtain ⟨rfl, rfl⟩ := h2
      have hl := imageB_length hi
      rw [imageB_toks hi, ih (by omega) h1]
      simp

theorem imagesLoop_eq {start snap : Nat} : ∀ {n ts pre count ops}, ts.length < n → Good src ts →
    (∃ p0 t0 o0 o1, start = p0.length ∧ snap = o0.length ∧ p0 ++ t0 = pre ++ ts ∧ ops = o0 ++ o1) →
    imagesLoop start snap n (st src pre ts eof ops) count =
      match imagesB eof ts with
      | none => .ok (none, ({ st src pre ts eof ops with pos := start, ops := ops.take snap } : P))
      | some (l, r) => .ok (some (count + l.length),
          st src (pre ++ l.flatMap Img.toks) r eof (ops ++ l.flatMap (Img.ops src))) := by
  intro n
  induction n with
  | zero => intro ts pre count ops hn; omega
  | succ n ih =>
    intro ts pre count ops hn hts hstart
    rw [imagesLoop, st_peek]
    cases ts with
    | nil =>
      rw [imagesB_none rfl]
      simp [stopAt]
    | cons t r =>
      simp only [List.getElem?_cons_zero, bind, Except.bind]
      rw [image_refines _ _ _ _ hts]
      cases hi : imageB eof (t :: r) with
      | none =>
        rw [imagesB_none hi]
        simp only [st_atEof]
        split
        · simp [pure, Except.pure]
        · rfl
      | some x =>
        obtain ⟨i, r1⟩ := x
        have hl := imageB_length hi
        have tk := imageB_toks hi
        have hg : Good src (i.toks ++ r1) := by rw [← tk]; exact hts
        obtain ⟨p0, t0, o0, o1, h1, h2, h3, h4⟩ := hstart
        simp only
        rw [imagesB_some hi, ih (by simp at hn hl; omega) hg.append_right
          ⟨p0, t0, o0, o1 ++ Img.ops src i, h1, h2, by rw [h3, tk]; simp, by rw [h4]; simp⟩]
        cases imagesB eof r1 with
        | none =>
          simp only [Option.map_none]
          simp [st, tk, h2, h4]
        | some y =>
          simp
          omega

theorem images_refines : Refines src images
    (fun s t => match imagesB s t with
      | some (i :: l, r) => some (.images (i :: l), r)
      | _ => none) Block.toks (Block.ops src) := by
  intro pre ts eof o hts
  unfold images
  simp only [bind, Except.bind, st_pos, st_ops]
  rw [imagesLoop_eq (by simp; omega) hts ⟨pre, ts, o, [], rfl, rfl, rfl, by simp⟩]
  cases hi : imagesB eof ts with
  | none => simp [pure, Except.pure, st]
  | some x =>
    obtain ⟨l, r⟩ := x
    have tk := imagesB_toks _ (Nat.le_refl _) hi
    match l with
    | [] => simp at tk; subst tk; simp [pure, Except.pure]
    | [i] => simp [pure, Except.pure, Block.toks, Block.ops]
    | i :: j :: l =>
      simp only [Nat.zero_add, List.length_cons]
      rw [if_pos (by omega), st_insert]
      simp [pure, Except.pure, Block.toks, Block.ops, st_push]

theorem thematic_refines : Refines src thematicBreak (fun _ => thematicB) Block.toks (Block.ops src) := by
  intro pre ts eof o hts
  unfold thematicBreak thematicB
  cases ts with
  | nil => rw [st_eat_nil]; rfl
  | cons t r =>
    cases h : isDash5 t with
    | false => rw [st_eat_no _ h]; simp only [h]; rfl
    | true =>
      rw [st_eat_yes _ h]
      simp only [h, if_true, bind, Except.bind]
      rw [st_spanAt (a := pre) (b := [t]) (c := r) (by simp) rfl (by simp) hts.single]
      simp [pure, Except.pure, Block.toks, Block.ops, st_push]

theorem st_withEof {β : Type} {f : P → R (β × P)} {c : Stop} {x : β} {pre' r'} {o' : List Op}
    (h : f (st src pre ts (c :: eof) ops) = .ok (x, st src pre' r' (c :: eof) o')) :
    (st src pre ts eof ops).withEof c f = .ok (x, st src pre' r' eof o') := by
  unfold P.withEof
  rw [show ({ st src pre ts eof ops with eof := c :: (st src pre ts eof ops).eof } : P)
    = st src pre ts (c :: eof) ops from rfl, h]
  rfl

theorem st_withEofs2 {β : Type} {f : P → R (β × P)} {c c' : Stop} {x : β} {pre' r'} {o' : List Op}
    (h : f (st src pre ts (c' :: c :: eof) ops) = .ok (x, st src pre' r' (c' :: c :: eof) o')) :
    (st src pre ts eof ops).withEofs2 c c' f = .ok (x, st src pre' r' eof o') := by
  unfold P.withEofs2
  rw [show ({ st src pre ts eof ops with eof := c' :: c :: (st src pre ts eof ops).eof } : P)
    = st src pre ts (c' :: c :: eof) ops from rfl, h]
  rfl

theorem icon_refines : Refines src icon iconB (fun m => iconToks (some m))
    (fun m => iconOps src (some m)) := by
  intro pre ts eof o hts
  unfold icon iconB
  cases h : (tokenIs ts 0 isOneBang && tokenIs ts 1 isSpace1) with
  | false => rw [eatSeq2_no h]; rfl
  | true =>
    simp only [Bool.and_eq_true] at h
    rw [eatSeq2_yes h.1 h.2]
    simp only [if_true, bind, Except.bind]
    rw [eatUntil_eq]
    cases hu : untilB eof isEol (ts.drop 2) with
    | none =>
      simp only [pure, Except.pure, st_pos, st_ops, Option.map_none]
      have := restore_st (src := src) (pre := pre) (r := ts.drop 2) (eof := eof) (ops := o) (o := []) (ts.take 2)
      simp only [List.append_nil, List.take_append_drop] at this
      rw [this]
    | some x =>
      obtain ⟨b, c, r⟩ := x
      have htk := untilB_length hu
      have hg : Good src (b ++ c :: r) := by rw [← htk]; exact hts.drop 2
      simp only [Option.map_some, pushTriple, bind, Except.bind]
      rw [st_spanAt (a := pre) (b := ts.take 2) (c := b ++ c :: r) (by simp) rfl
        (by rw [take2_length h.2]) (hts.take 2)]
      simp only
      rw [st_spanAt (a := pre ++ ts.take 2) (b := b) (c := c :: r) (by simp) rfl rfl hg.append_left]
      simp only
      rw [st_spanAt (a := pre ++ ts.take 2 ++ b) (b := [c]) (c := r) (by simp) (by simp; omega) (by simp; omega)
        hg.append_right.single]
      simp [pure, Except.pure, st_push, iconToks, iconOps]

theorem iconB_toks {stops} {ts : List Token} {m r} (h : iconB stops ts = some (m, r)) :
    ts = iconToks (some m) ++ r := by
  unfold iconB at h
  split at h
  · simp only [Option.map_eq_some_iff] at h
    obtain ⟨⟨b, c, r'⟩, h1, h2⟩ := h
    simp only [Prod.mk.injEq] at h2
    obtain ⟨rfl, rfl⟩ := h2
    have := untilB_length h1
    conv => lhs; rw [← List.take_append_drop 2 ts, this]
    simp [iconToks]
  · simp at h

theorem optIconB_toks (stops) (ts : List Token) :
    ts = iconToks (optIconB stops ts).1 ++ (optIconB stops ts).2 := by
  unfold optIconB
  split
  · rename_i h; exact iconB_toks h
  · simp [iconToks]

theorem optIcon_eq (hts : Good src ts) : ∃ b, icon (st src pre ts eof ops)
    = .ok (b, st src (pre ++ iconToks (optIconB eof ts).1) (optIconB eof ts).2 eof
        (ops ++ iconOps src (optIconB eof ts).1)) := by
  rw [icon_refines _ _ _ _ hts]
  unfold optIconB
  cases iconB eof ts with
  | none => exact ⟨false, by simp [iconToks, iconOps]⟩
  | some x => exact ⟨true, rfl⟩

theorem termB_toks (ts : List Token) : ts = (termB ts).1 ++ (termB ts).2 := by
  unfold termB; split
  · exact (List.take_append_drop 1 ts).symm
  · rfl

theorem paraB_le {stops} : ∀ (n : Nat) {ts acc}, ts.length ≤ n →
    (paraB stops acc ts).2.length ≤ ts.length := by
  intro n
  induction n with
  | zero =>
    intro ts acc hn
    have : ts = [] := by simpa using hn
    subst this; rw [paraB_stop rfl]; simp
  | succ n ih =>
    intro ts acc hn
    cases hs : stopAt stops ts with
    | true => rw [paraB_stop hs]; simp
    | false =>
      cases hi : inlineB stops ts with
      | some x =>
        obtain ⟨x, r⟩ := x
        rw [paraB_some hs hi]
        have h1 := inlineB_length hi
        have h2 := ih (ts := r) (acc := []) (by omega)
        simp only; omega
      | none =>
        cases ts with
        | nil => simp [stopAt] at hs
        | cons t r =>
          rw [paraB_none hs hi]
          have h2 := ih (ts := r) (acc := acc ++ [t]) (by simp at hn; omega)
          simp only [List.length_cons]; omega

/-- A paragraph that does not start at a stop reads at least one token. -/
theorem paraB_lt {stops ts acc} (hs : stopAt stops ts = false) :
    (paraB stops acc ts).2.length < ts.length := by
  cases hi : inlineB stops ts with
  | some x =>
    obtain ⟨x, r⟩ := x
    rw [paraB_some hs hi]
    have h1 := inlineB_length hi
    have h2 := paraB_le (stops := stops) (ts := r) (acc := []) _ (Nat.le_refl _)
    simp only; omega
  | none =>
    cases ts with
    | nil => simp [stopAt] at hs
    | cons t r =>
      rw [paraB_none hs hi]
      have h2 := paraB_le (stops := stops) (ts := r) (acc := acc ++ [t]) _ (Nat.le_refl _)
      simp only [List.length_cons]; omega

theorem hl_progress {stops} {ts : List Token} (hs : stopAt stops ts = false)
    (hb : tokenIs ts 0 isTwoBangs = false) :
    (paraB (.Terminator :: .HighlightEnd :: stops) [] (termB ts).2).2.length < ts.length := by
  unfold termB
  split
  · rename_i h
    have := paraB_le (stops := .Terminator :: .HighlightEnd :: stops) (ts := ts.drop 1) (acc := []) _ (Nat.le_refl _)
    have h2 := tokenIs_length h
    simp only [List.length_drop] at this ⊢
    omega
  · rename_i h
    apply paraB_lt
    cases ts with
    | nil => simp [stopAt] at hs
    | cons t r =>
      simp only [tokenIs, List.getElem?_cons_zero, isTerminator] at h hb
      simp only [stopAt, List.any_cons, Bool.or_eq_false_iff] at hs ⊢
      refine ⟨by simpa [stopHere] using h, ?_, hs⟩
      simpa [stopHere, isTwoBangs] using hb

theorem hlParasB_toks {stops} : ∀ (n : Nat) {ts l c r}, ts.length ≤ n →
    hlParasB stops ts = some (l, c, r) → ts = l.flatMap HPara.toks ++ (c ++ r) := by
  intro n
  induction n with
  | zero =>
    intro ts l c r hn h
    have : ts = [] := by simpa using hn
    subst this; rw [hlParasB.eq_def] at h; simp [stopAt] at h
  | succ n ih =>
    intro ts l c r hn h
    rw [hlParasB.eq_def] at h
    split at h
    · simp at h
    · split at h
      · split at h
        · simp only [Option.some.injEq, Prod.mk.injEq] at h
          obtain ⟨rfl, rfl, rfl⟩ := h; simp
        · simp only [Option.some.injEq, Prod.mk.injEq] at h
          obtain ⟨rfl, rfl, rfl⟩ := h; exact (List.take_append_drop 1 ts).symm
      · simp only at h
        split at h
        · rename_i hlt
          simp only [Option.map_eq_some_iff] at h
          obtain ⟨⟨l', c', r'⟩, h1, h2⟩ := h
          simp only [Prod.mk.injEq] at h2
          obtain ⟨rfl, rfl, rfl⟩ := h2
          have h3 := ih (by omega) h1
          have h4 := paraB_toks (stops := .Terminator :: .HighlightEnd :: stops) (acc := [])
            _ (Nat.le_refl (termB ts).2.length)
          simp only [List.nil_append] at h4
          conv => lhs; rw [termB_toks ts, h4, h3]
          simp [HPara.toks]
        · simp at h

theorem highlightLoop_eq : ∀ {n ts pre ops}, ts.length < n → Good src ts →
    match hlParasB eof ts with
    | some (l, c, r) => highlightLoop n (st src pre ts eof ops)
        = .ok (true, st src (pre ++ (l.flatMap HPara.toks ++ c)) r eof
            (ops ++ (l.flatMap (HPara.ops src) ++ [.close .Highlight (content src c)])))
    | none => ∃ pre' r' o', highlightLoop n (st src pre ts eof ops)
        = .ok (false, st src pre' r' eof (ops ++ o')) ∧ pre' ++ r' = pre ++ ts := by
  intro n
  induction n with
  | zero => intro ts pre ops hn; omega
  | succ n ih =>
    intro ts pre ops hn hts
    rw [highlightLoop, st_atEof, hlParasB.eq_def]
    cases hs : stopAt eof ts with
    | true =>
      simp only [if_true]
      exact ⟨pre, ts, [], by simp, rfl⟩
    | false =>
      simp only [Bool.false_eq_true, if_false]
      cases hb : tokenIs ts 0 isTwoBangs with
      | true =>
        simp only [if_true]
        cases ts with
        | nil => simp [stopAt] at hs
        | cons t r =>
          have hb' : isTwoBangs t = true := by simpa [tokenIs] using hb
          rw [st_eat_yes _ hb']
          simp only [bind, Except.bind]
          cases he : tokenIs (t :: r) 1 isEol with
          | false =>
            have he' : tokenIs r 0 isEol = false := by simpa [tokenIs] using he
            rw [st_eat_none _ he']
            simp only [Bool.false_eq_true, if_false]
            rw [st_spanAt (a := pre) (b := [t]) (c := r) (by simp) rfl (by simp) hts.single]
            simp [pure, Except.pure, st_push]
          | true =>
            cases r with
            | nil => simp [tokenIs] at he
            | cons u r =>
              have he' : isEol u = true := by simpa [tokenIs] using he
              rw [st_eat_yes _ he']
              simp only [if_true]
              rw [st_spanAt (a := pre) (b := [t, u]) (c := r) (by simp) rfl (by simp) (hts.take 2)]
              simp [pure, Except.pure, st_push]
      | false =>
        rw [st_eat_none _ hb]
        have hlt := hl_progress hs hb
        have tk1 := termB_toks ts
        have tk2 := paraB_toks (stops := .Terminator :: .HighlightEnd :: eof) (acc := [])
            _ (Nat.le_refl (termB ts).2.length)
        simp only [List.nil_append] at tk2
        have hg : Good src ((termB ts).1 ++ (termB ts).2) := by rw [← tk1]; exact hts
        have hg2 : Good src (paraB (.Terminator :: .HighlightEnd :: eof) [] (termB ts).2).2 := by
          have := hg.append_right; rw [tk2] at this; exact this.append_right
        have hterm : eatTerminator (st src pre ts eof ops) = .ok (st src (pre ++ (termB ts).1) (termB ts).2 eof (ops ++ termOps src (termB ts).1)) := by
          unfold termB eatTerminator
          cases ht : tokenIs ts 0 isTerminator with
          | false => rw [st_eat_none _ ht]; simp [pure, Except.pure, termOps]
          | true =>
            cases ts with
            | nil => simp [tokenIs] at ht
            | cons t r =>
              have ht' : isTerminator t = true := by simpa [tokenIs] using ht
              rw [st_eat_yes _ ht']
              simp only [bind, Except.bind]
              rw [st_spanAt (a := pre) (b := [t]) (c := r) (by simp) rfl (by simp) hts.single]
              simp [pure, Except.pure, st_push, termOps]
        simp only [Bool.false_eq_true, if_false]
        rw [hterm]
        simp only [bind, Except.bind]
        rw [st_withEofs2 (paragraph_eq hg.append_right)]
        simp only [dif_pos hlt]
        rw [if_pos (by
          have e := congrArg List.length tk1
          rw [tk2] at e
          simp at e ⊢
          omega)]
        have := ih (ts := (paraB (.Terminator :: .HighlightEnd :: eof) [] (termB ts).2).2)
          (pre := pre ++ (termB ts).1 ++ paraToks (paraB (.Terminator :: .HighlightEnd :: eof) [] (termB ts).2).1)
          (ops := ops ++ termOps src (termB ts).1 ++ paraOps src (paraB (.Terminator :: .HighlightEnd :: eof) [] (termB ts).2).1)
          (by omega) hg2
        cases hh : hlParasB eof (paraB (.Terminator :: .HighlightEnd :: eof) [] (termB ts).2).2 with
        | none =>
          rw [hh] at this
          obtain ⟨p', r', o', h1, h2⟩ := this
          refine ⟨p', r', termOps src (termB ts).1 ++ paraOps src (paraB (.Terminator :: .HighlightEnd :: eof) [] (termB ts).2).1 ++ o', ?_, ?_⟩
          · rw [h1]; simp
          · rw [h2, List.append_assoc, List.append_assoc, ← tk2, ← tk1]
        | some x =>
          obtain ⟨l, c, r⟩ := x
          rw [hh] at this
          simp only [Option.map_some]
          rw [this]
          simp [HPara.toks, HPara.ops]

theorem hlRest_eq {opening m} (a : List Token) (hg : Good src (a ++ r))
    (ha : a = opening ++ modToks m) {o : List Op}
    (ho : o = ops ++ (.start .Highlight (content src opening) :: modOps src m)) :
    ((st src (pre ++ a) r eof o).withEof .Terminator icon >>= fun x =>
      if !(x.2.atTok col0) then pure (false, x.2.restore pre.length ops.length)
      else
        highlightLoop (x.2.tokens.length + 1) x.2 >>= fun y =>
          match y with
          | (true, q) => pure (true, q)
          | (false, q) => pure (false, q.restore pre.length ops.length))
    = match hlRestB eof opening m r with
      | none => .ok (false, st src pre (a ++ r) eof ops)
      | some (x, r') => .ok (true, st src (pre ++ x.toks) r' eof (ops ++ x.ops src)) := by
  obtain ⟨b, hb⟩ := optIcon_eq (src := src) (pre := pre ++ a) (ts := r) (eof := .Terminator :: eof)
    (ops := o) hg.append_right
  have tk := optIconB_toks (.Terminator :: eof) r
  have hg2 : Good src (optIconB (.Terminator :: eof) r).2 := by
    have := hg.append_right; rw [tk] at this; exact this.append_right
  rw [st_withEof hb, hlRestB]
  simp only [bind, Except.bind, st_atTok]
  cases hc : tokenIs (optIconB (.Terminator :: eof) r).2 0 col0 with
  | false =>
    simp only [Bool.not_false, if_true, pure, Except.pure, Bool.false_eq_true, if_false]
    rw [List.append_assoc, ho, List.append_assoc, restore_st, List.append_assoc, ← tk]
  | true =>
    simp only [Bool.not_true, Bool.false_eq_true, if_false, if_true]
    have := highlightLoop_eq (src := src) (eof := eof) (n := (pre ++ a ++ iconToks (optIconB (.Terminator :: eof) r).1 ++ (optIconB (.Terminator :: eof) r).2).length + 1)
      (ts := (optIconB (.Terminator :: eof) r).2) (pre := pre ++ a ++ iconToks (optIconB (.Terminator :: eof) r).1)
      (ops := o ++ iconOps src (optIconB (.Terminator :: eof) r).1) (by simp; omega) hg2
    rw [st_tokens]
    cases hh : hlParasB eof (optIconB (.Terminator :: eof) r).2 with
    | none =>
      rw [hh] at this
      obtain ⟨p', r', o', h1, h2⟩ := this
      rw [h1]
      simp only [Option.map_none, pure, Except.pure]
      rw [st_restore (src := src) (pre := pre) (ts := a ++ r) (eof := eof) (ops := ops)
        (o := (.start .Highlight (content src opening) :: modOps src m) ++ iconOps src (optIconB (.Terminator :: eof) r).1 ++ o') rfl
        (by rw [st_tokens, h2, List.append_assoc, List.append_assoc, ← tk]) rfl (by simp [ho])]
    | some x =>
      obtain ⟨l, c, r'⟩ := x
      rw [hh] at this
      simp only at this
      rw [this]
      simp [pure, Except.pure, Block.toks, Block.ops, ha, ho]

theorem highlight_refines : Refines src highlight highlightB Block.toks (Block.ops src) := by
  intro pre ts eof o hts
  unfold highlight highlightB
  cases h : (tokenIs ts 0 isTwoBangs && tokenIs ts 1 (fun t => isSpace1 t || isEol t)) with
  | false => rw [eatSeq2_no h]; rfl
  | true =>
    simp only [Bool.and_eq_true] at h
    rw [eatSeq2_yes h.1 h.2]
    simp only [if_true]
    have hw : tokenIs (st src (pre ++ ts.take 2) (ts.drop 2) eof o).tokens (pre.length + 2 - 1) isEol
        = tokenIs ts 1 isEol := by
      rw [st_tokens, List.append_assoc, List.take_append_drop]
      exact st_tokenIs (src := src) (eof := eof) (ops := o) 1 isEol
    rw [hw, st_spanAt (a := pre) (b := ts.take 2) (c := ts.drop 2) (by simp) rfl
      (by rw [take2_length h.2]) (hts.take 2)]
    have hsplit : ts.take 2 ++ ts.drop 2 = ts := List.take_append_drop 2 ts
    simp only [bind, Except.bind, st_push, st_pos, st_ops]
    cases he : tokenIs ts 1 isEol with
    | true =>
      simp only [if_true, pure, Except.pure]
      have := hlRest_eq (src := src) (pre := pre) (r := ts.drop 2) (eof := eof) (ops := o)
        (opening := ts.take 2) (m := none) (ts.take 2) (by rw [hsplit]; exact hts) (by simp [modToks])
        (o := o ++ [.start .Highlight (content src (ts.take 2))]) (by simp [modOps])
      rw [hsplit] at this
      refine Eq.trans ?_ (this.trans ?_)
      · rfl
      · cases hlRestB eof (ts.take 2) none (ts.drop 2) <;> rfl
    | false =>
      simp only [Bool.false_eq_true, if_false, pure, Except.pure]
      obtain ⟨b, hb⟩ := optMod_eq (src := src) (pre := pre ++ ts.take 2) (ts := ts.drop 2) (eof := eof)
            (ops := o ++ [.start .Highlight (content src (ts.take 2))]) (hts.drop 2)
      rw [hb]
      have tk := optModB_toks eof (ts.drop 2)
      have hs2 : ts.take 2 ++ modToks (optModB eof (ts.drop 2)).1 ++ (optModB eof (ts.drop 2)).2 = ts := by
        rw [List.append_assoc, ← tk, hsplit]
      have := hlRest_eq (src := src) (pre := pre) (r := (optModB eof (ts.drop 2)).2) (eof := eof) (ops := o)
        (opening := ts.take 2) (m := (optModB eof (ts.drop 2)).1) (ts.take 2 ++ modToks (optModB eof (ts.drop 2)).1)
        (by rw [hs2]; exact hts) rfl
        (o := o ++ .start .Highlight (content src (ts.take 2)) :: modOps src (optModB eof (ts.drop 2)).1) rfl
      rw [hs2] at this
      simp only [List.append_assoc, List.cons_append, List.nil_append] at this ⊢
      refine Eq.trans ?_ (this.trans ?_)
      · rfl
      · cases hlRestB eof (ts.take 2) (optModB eof (ts.drop 2)).1 (optModB eof (ts.drop 2)).2 <;> rfl

end Yamd.Ref
