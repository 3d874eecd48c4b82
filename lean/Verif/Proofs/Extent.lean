import Verif.Proofs.LinesOps
import Verif.Spec.Extent

/-!
# Text is exactly as long as it has to be
-/

namespace Yamd.Ref

open Yamd Yamd.Spec

/-! ### Stops do not see unfinished collapsibles -/

theorem FlipRel.kind_test {a b : Token} (h : FlipRel a b) {k : TokenKind} (h1 : k ≠ .Literal) (h2 : k ≠ .CollapsibleStart) :
    (decide (b.kind = k)) = decide (a.kind = k) := by
  rcases h with rfl | ⟨h, rfl⟩
  · rfl
  · simp [h, h1.symm, h2.symm]

theorem FlipRel.marker {a b : Token} (h : FlipRel a b) (k : Option ListKind) : isListMarker k b = isListMarker k a := by
  rcases h with rfl | ⟨h, rfl⟩
  · rfl
  · simp [isListMarker, ListKind.tryFrom, h]

theorem Flips.tokenIs {f : Token → Bool} (hf : ∀ {a b}, FlipRel a b → f b = f a) : ∀ {a b : List Token}, Flips a b → ∀ i,
    tokenIs b i f = tokenIs a i f
  | _, _, .nil, _ => rfl
  | _, _, .cons h hr, 0 => hf h
  | _, _, .cons h hr, i + 1 => by
    have := Flips.tokenIs hf hr i
    unfold Yamd.tokenIs at this ⊢
    simpa using this

theorem Flips.stopAt {stops : List Stop} {a b} (h : Flips a b) : stopAt stops b = stopAt stops a := by
  cases h with
  | nil => rfl
  | cons h hr =>
    rename_i x y r r'
    simp only [Ref.stopAt]
    congr 1
    funext s
    have hc : Yamd.col0 y = Yamd.col0 x := h.col0_eq
    have hlen : y.len = x.len := by rcases h with rfl | ⟨_, rfl⟩ <;> rfl
    cases s with
    | Terminator => exact h.kind_test (by decide) (by decide)
    | CollapsibleEnd =>
      have e : ∀ {a b}, FlipRel a b → (decide (b.kind = .CollapsibleEnd) && Yamd.col0 b) = (decide (a.kind = .CollapsibleEnd) && Yamd.col0 a) := by
        intro a b h
        rw [h.kind_test (by decide) (by decide), h.col0_eq]
      have e2 := hr.tokenIs (f := fun t => decide (t.kind = .CollapsibleEnd) && Yamd.col0 t) e 0
      simp only [stopHere]
      rw [e2, e h, h.kind_test (by decide) (by decide)]
    | HighlightEnd =>
      simp only [stopHere]
      rw [h.kind_test (by decide) (by decide), hc, hlen]
    | ListBoundary level kind =>
      simp only [stopHere]
      rw [hc]
      congr 2
      funext n
      have hcons : Flips (x :: r) (y :: r') := .cons h hr
      have m := fun k i => hcons.tokenIs (f := isListMarker k) (fun h => h.marker k) i
      have c := hcons.tokenIs (f := Yamd.col0) (fun h => h.col0_eq) 0
      have sp := fun i => hcons.tokenIs (f := isSpace1) (fun {a b} h => by
        have hl : b.len = a.len := by rcases h with rfl | ⟨_, rfl⟩ <;> rfl
        unfold isSpace1
        rw [h.kind_test (by decide) (by decide), hl]) i
      have ind := hcons.tokenIs (f := fun t => decide (t.kind = .Space) && decide (t.len = n)) (fun {a b} h => by
        have hl : b.len = a.len := by rcases h with rfl | ⟨_, rfl⟩ <;> rfl
        rw [h.kind_test (by decide) (by decide), hl]) 0
      unfold boundaryHere
      simp only [m, c, sp, ind]

theorem Flips.unstopped {stops : List Stop} : ∀ {x y a b}, Flips x y → Flips a b → Unstopped stops x a → Unstopped stops y b
  | _, _, _, _, .nil, _, _ => trivial
  | _, _, _, _, .cons h hr, h2, hu =>
    ⟨by rw [← hu.1]; exact Flips.stopAt (.cons h (hr.append h2)), Flips.unstopped hr h2 hu.2⟩

theorem Flips.symm_unstopped {stops : List Stop} : ∀ {x y a b}, Flips x y → Flips a b → Unstopped stops y b → Unstopped stops x a
  | _, _, _, _, .nil, _, _ => trivial
  | _, _, _, _, .cons h hr, h2, hu =>
    ⟨by rw [← hu.1]; exact (Flips.stopAt (.cons h (hr.append h2))).symm, Flips.symm_unstopped hr h2 hu.2⟩

/-! ### Trees -/

/-- A text between two stops. -/
def Extent (stops : List Stop) (own rest : List Token) : Prop := stopAt stops rest = true ∧ Unstopped stops own rest

theorem Extent.flips {stops own a b} (h : Flips a b) (he : Extent stops own a) : Extent stops own b :=
  ⟨by rw [h.stopAt]; exact he.1, (Flips.refl own).unstopped h he.2⟩

theorem paraB_extent (stops ts) : Extent stops (paraToks (paraB stops [] ts).1) (paraB stops [] ts).2 :=
  ⟨paraB_rest _ _, paraB_un _ _ trivial⟩

theorem headB_un {stops} (acc ts : List Token) : Unstopped stops acc ts →
    Unstopped stops ((headB stops acc ts).1.flatMap HeadItem.toks) (headB stops acc ts).2 := by
  refine headB_ind stops (P := fun acc ts => Unstopped stops acc ts →
    Unstopped stops ((headB stops acc ts).1.flatMap HeadItem.toks) (headB stops acc ts).2) ?_ ?_ ?_ acc ts
  · intro acc ts hs ha
    rw [headB_stop hs]; simp only [accHead_toks]; exact ha
  · intro acc t r x r' hs hx ih ha
    have e := headB_toks (stops := stops) (acc := []) _ (Nat.le_refl r'.length)
    simp only [List.nil_append] at e
    rw [headB_some hs hx]
    simp only [List.flatMap_append, accHead_toks, List.flatMap_cons]
    refine Unstopped.append ?_ (Unstopped.append ?_ (ih trivial))
    · rw [linkB_toks hx, e] at ha; simpa [HeadItem.toks] using ha
    · have := linkB_un hx hs
      rw [e] at this; exact this
  · intro acc t r hs hx ih ha
    rw [headB_none hs hx]
    exact ih (Unstopped.append ha ⟨hs, trivial⟩)

theorem headB_extent (stops ts) : Extent stops ((headB stops [] ts).1.flatMap HeadItem.toks) (headB stops [] ts).2 :=
  ⟨headB_rest _ _, headB_un _ _ trivial⟩

def Items.Ext (stops : List Stop) : Nat → Items → List Token → Prop
  | _, .nil, _ => True
  | level, .cons k _ p n q, rest =>
    Extent (.ListBoundary level k :: stops) (paraToks p) (n.toks ++ (q.toks ++ rest)) ∧
      n.Ext stops (level + 1) (q.toks ++ rest) ∧ q.Ext stops level rest

def hlExt (stops : List Stop) : List HPara → List Token → Prop
  | [], _ => True
  | x :: l, rest => Extent (.Terminator :: .HighlightEnd :: stops) (paraToks x.para) (l.flatMap HPara.toks ++ rest) ∧
      hlExt stops l rest

def Block.Ext (stops : List Stop) : Block → List Token → Prop
  | .para l, rest => Extent (.Terminator :: stops) (paraToks l) rest
  | .heading _ b, rest => Extent (.Terminator :: stops) (b.flatMap HeadItem.toks) rest
  | .highlight _ _ _ b c, rest => hlExt stops b (c ++ rest)
  | .list i, rest => i.Ext (.Terminator :: stops) 0 rest
  | _, _ => True

def Doc.Ext (stops : List Stop) : Doc → List Token → Prop
  | .nil, _ => True
  | .term _ d, rest => d.Ext stops rest
  | .block b d, rest => b.Ext stops (d.toks ++ rest) ∧ d.Ext stops rest
  | .coll _ _ i s c d, rest => i.Ext (.CollapsibleEnd :: stops) (s ++ (c ++ (d.toks ++ rest))) ∧ d.Ext stops rest

theorem Items.Ext.flips {stops} : ∀ {i : Items} {level a b}, Flips a b → i.Ext stops level a → i.Ext stops level b
  | .nil, _, _, _, _, _ => trivial
  | .cons _ _ _ n q, _, _, _, h, he =>
    ⟨he.1.flips ((Flips.refl _).append ((Flips.refl _).append h)),
      Items.Ext.flips (i := n) ((Flips.refl _).append h) he.2.1, Items.Ext.flips (i := q) h he.2.2⟩

theorem hlExt_flips {stops} : ∀ {l : List HPara} {a b}, Flips a b → hlExt stops l a → hlExt stops l b
  | [], _, _, _, _ => trivial
  | _ :: l, _, _, h, he => ⟨he.1.flips ((Flips.refl _).append h), hlExt_flips (l := l) h he.2⟩

theorem Block.Ext.flips {stops a b} (h : Flips a b) : ∀ {x : Block}, x.Ext stops a → x.Ext stops b
  | .para _, he => Extent.flips h he
  | .heading _ _, he => Extent.flips h he
  | .highlight .., he => hlExt_flips ((Flips.refl _).append h) he
  | .list _, he => Items.Ext.flips h he
  | .code .., _ => trivial
  | .embed .., _ => trivial
  | .images _, _ => trivial
  | .thematic _, _ => trivial

theorem Doc.Ext.flips : ∀ {d : Doc} {stops a b}, Flips a b → d.Ext stops a → d.Ext stops b
  | .nil, _, _, _, _, _ => trivial
  | .term _ d, _, _, _, h, he => Doc.Ext.flips (d := d) h he
  | .block _ d, _, _, _, h, he => ⟨he.1.flips ((Flips.refl _).append h), Doc.Ext.flips (d := d) h he.2⟩
  | .coll _ _ i _ _ d, _, _, _, h, he =>
    ⟨Doc.Ext.flips (d := i) ((Flips.refl _).append ((Flips.refl _).append ((Flips.refl _).append h))) he.1,
      Doc.Ext.flips (d := d) h he.2⟩

theorem itemsB_ext (stops : List Stop) (level want ts) :
    (itemsB stops level want ts).1.Ext stops level (itemsB stops level want ts).2 := by
  induction level, want, ts using itemsB_ind stops with
  | none level want ts h => rw [itemsB_none h]; trivial
  | some level want ts k m r h ih1 ih2 =>
    rw [itemsB_some h]
    have e2 := itemsB_toks (stops := stops) (level := level) (want := some k) _
      (Nat.le_refl (itemNested stops level (itemPara stops level k r).2).2.length)
    have hn : (itemPara stops level k r).2 = (itemNested stops level (itemPara stops level k r).2).1.toks ++
        (itemNested stops level (itemPara stops level k r).2).2 := by
      unfold itemNested
      split
      · rfl
      · exact itemsB_toks _ (Nat.le_refl _)
    refine ⟨?_, ?_, ih2⟩
    · rw [← e2, ← hn]; exact paraB_extent _ _
    · rw [← e2]
      unfold itemNested
      split
      · trivial
      · exact ih1

theorem hlParasB_ext {stops ts l c r} (h : hlParasB stops ts = some (l, c, r)) : hlExt stops l (c ++ r) := by
  refine hlParasB_ind stops (P := fun ts l c r => ts = l.flatMap HPara.toks ++ (c ++ r) → hlExt stops l (c ++ r))
    ?_ ?_ ?_ ts l c r h (hlParasB_toks _ (Nat.le_refl _) h)
  · intro ts _ _ _ _; trivial
  · intro ts _ _ _ _; trivial
  · intro ts l c r h1 h2 h3 ih e
    have hp := paraB_toks (stops := .Terminator :: .HighlightEnd :: stops) (acc := []) _ (Nat.le_refl (termB ts).2.length)
    have ht : ts = (termB ts).1 ++ (termB ts).2 := by
      unfold termB
      split
      · exact (List.take_append_drop 1 ts).symm
      · rfl
    have e' : (paraB (.Terminator :: .HighlightEnd :: stops) [] (termB ts).2).2 = l.flatMap HPara.toks ++ (c ++ r) := by
      rw [List.nil_append] at hp
      simp only [List.flatMap_cons, HPara.toks, List.append_assoc] at e
      have e3 := e.symm.trans ht
      have e4 := (List.append_cancel_left e3).trans hp
      exact (List.append_cancel_left e4).symm
    refine ⟨?_, ih e'⟩
    rw [← e']
    exact paraB_extent _ _

theorem leafB_ext (stops : List Stop) (ts : List Token) :
    (leafB (.Terminator :: stops) ts).1.Ext stops (leafB (.Terminator :: stops) ts).2 := by
  rcases leafB_cases (.Terminator :: stops) ts with ⟨k, m, p, n, r, rest, h1, h2⟩ | ⟨i, l, r, h1, h2⟩ | h | h | h
  · rw [h2]
    have := itemsB_ext (.Terminator :: stops) 0 none ts
    rw [h1] at this
    exact this
  · rw [h2]; trivial
  · cases ts with
    | nil => simp [thematicB] at h
    | cons t ts =>
      rw [thematicB] at h
      split at h
      · simp only [Option.some.injEq] at h
        rw [← h]; trivial
      · cases h
  · unfold headingB at h
    split at h
    · simp only [Option.some.injEq] at h
      rw [← h]; exact headB_extent _ _
    · cases h
  · rw [h]; exact paraB_extent _ _

theorem hlRestB_ext {stops o m r b rest} (h : hlRestB stops o m r = some (b, rest)) : b.Ext stops rest := by
  unfold hlRestB at h
  simp only at h
  split at h
  · simp only [Option.map_eq_some_iff] at h
    obtain ⟨y, hy, h2⟩ := h
    simp only [Prod.mk.injEq] at h2
    obtain ⟨rfl, rfl⟩ := h2
    exact hlParasB_ext hy
  · cases h

theorem highlightB_ext {stops ts b rest} (h : highlightB stops ts = some (b, rest)) : b.Ext stops rest := by
  unfold highlightB at h
  split at h
  · split at h <;> exact hlRestB_ext h
  · cases h

theorem embedB_ext {stops ts b rest} (h : embedB stops ts = some (b, rest)) : b.Ext stops rest := by
  unfold embedB at h
  split at h
  · cases h
  · split at h
    · split at h
      · cases h
      · split at h
        · cases h
        · simp only [Option.map_eq_some_iff] at h
          obtain ⟨⟨x, y⟩, h1, h2⟩ := h
          simp only [Prod.mk.injEq] at h2
          rw [← h2.1]; trivial
    · cases h

theorem codeB_ext {stops ts b rest} (h : codeB stops ts = some (b, rest)) (s a) : b.Ext s a := by
  have key : ∀ {o m r}, codeRestB stops o m r = some (b, rest) → b.Ext s a := by
    intro o m r hx
    unfold codeRestB at hx
    split at hx
    · cases hx
    · simp only [Option.map_eq_some_iff] at hx
      obtain ⟨y, -, h2⟩ := hx
      simp only [Prod.mk.injEq] at h2
      rw [← h2.1]; trivial
  unfold codeB at h
  split at h
  · cases h
  · split at h
    · split at h <;> exact key h
    · cases h

theorem otherB_ext (stops : List Stop) (ts : List Token) : (otherB stops ts).1.Ext stops (otherB stops ts).2 := by
  rcases otherB_cases stops ts with h | h | h
  · exact embedB_ext h
  · exact highlightB_ext h
  · rw [h]; exact leafB_ext _ _

theorem docB_ext (s : List Stop) (ts : List Token) : (docB s ts).1.Ext s (docB s ts).2 := by
  induction s, ts using docB_ind with
  | stop s ts h e => rw [e]; trivial
  | term s t r hs ht e ih => rw [e]; exact ih
  | code s t r b rest hs ht hcode e ih =>
    rw [e]
    exact ⟨codeB_ext hcode _ _, ih⟩
  | coll s t r o m r1 c r4 hs ht hcode ho hcl e ih1 ih2 =>
    rw [e]
    refine ⟨?_, ih2⟩
    have h1 := skipEolB_toks (docB (.CollapsibleEnd :: s) r1).2
    have h2 := collCloseB_toks hcl
    refine ih1.flips ?_
    conv => lhs; rw [h1, h2]
    exact (Flips.refl _).append ((Flips.refl _).append (docB_flips s r4))
  | fallback s t r o m r1 x hs ht hcode ho hcl hx hl hst e ih1 ih2 =>
    rw [e]
    exact ⟨(otherB_ext s x).flips (docB_flips s _), ih2⟩
  | other s t r hs ht hcode ho hst e ih =>
    rw [e]
    exact ⟨(otherB_ext s _).flips (docB_flips s _), ih⟩

/-! ### What stops say -/

theorem atColumn0_iff {t : Token} : col0 t = true ↔ atColumn0 t := by simp [col0, atColumn0]

theorem isA_iff {k : TokenKind} {n : Nat} {t : Token} : (decide (t.kind = k) && decide (t.len = n)) = true ↔ tokenIsA k n t := by
  unfold tokenIsA Token.len
  rw [Bool.and_eq_true, decide_eq_true_eq, decide_eq_true_eq]

theorem collapsible_stop {t : Token} {r} : stopHere t r .CollapsibleEnd = true ↔
    (closerLine (t :: r) ∨ ∃ t' r', t :: r = t' :: r' ∧ t'.kind = .Eol ∧ closerLine r') := by
  have e : ∀ ts, tokenIs ts 0 (fun t => decide (t.kind = .CollapsibleEnd) && col0 t) = true ↔ closerLine ts := by
    intro ts
    cases ts with
    | nil => simp [tokenIs, closerLine]
    | cons u r =>
      show (decide (u.kind = .CollapsibleEnd) && col0 u) = true ↔ _
      rw [Bool.and_eq_true, decide_eq_true_eq, atColumn0_iff]
      constructor
      · intro h; exact ⟨u, r, rfl, h⟩
      · rintro ⟨c, r', h, h1⟩; cases h; exact h1
  simp only [stopHere, Bool.or_eq_true]
  have e1 := e (t :: r)
  rw [tokenIs_zero] at e1
  rw [e1]
  refine or_congr Iff.rfl ?_
  simp only [Bool.and_eq_true, decide_eq_true_eq]
  rw [e r]
  constructor
  · intro h; exact ⟨t, r, rfl, h⟩
  · rintro ⟨t', r', h, h1⟩; cases h; exact h1

theorem highlight_stop {t : Token} {r} : stopHere t r .HighlightEnd = true ↔ atColumn0 t ∧ tokenIsA .Bang 2 t := by
  simp only [stopHere]
  rw [← atColumn0_iff, ← isA_iff]
  simp only [Bool.and_eq_true]
  tauto

theorem marker_bullet {k : Option ListKind} {t : Token} : isListMarker k t = true ↔
    ∃ other, bulletOf other t ∧ ∀ w, k = some w → other = w.node := by
  unfold isListMarker ListKind.tryFrom
  constructor
  · intro h
    by_cases h1 : t.kind = .Minus ∧ t.len = 1
    · refine ⟨.UnorderedList, .inl ⟨rfl, h1⟩, ?_⟩
      intro w hw
      rw [if_pos h1, hw] at h
      simp only [decide_eq_true_eq] at h
      rw [← h]; rfl
    · by_cases h2 : t.kind = .Plus ∧ t.len = 1
      · refine ⟨.OrderedList, .inr ⟨rfl, h2⟩, ?_⟩
        intro w hw
        rw [if_neg h1, if_pos h2, hw] at h
        simp only [decide_eq_true_eq] at h
        rw [← h]; rfl
      · rw [if_neg h1, if_neg h2] at h; cases h
  · rintro ⟨other, h | h, hw⟩
    · have h1 : t.kind = .Minus ∧ t.len = 1 := h.2
      rw [if_pos h1]
      cases k with
      | none => rfl
      | some w =>
        have := hw w rfl
        rw [h.1] at this
        cases w with
        | Unordered => rfl
        | Ordered => cases this
    · have h2 : t.kind = .Plus ∧ t.len = 1 := h.2
      have h1 : ¬ (t.kind = .Minus ∧ t.len = 1) := by rw [h2.1]; simp
      rw [if_neg h1, if_pos h2]
      cases k with
      | none => rfl
      | some w =>
        have := hw w rfl
        rw [h.1] at this
        cases w with
        | Ordered => rfl
        | Unordered => cases this

theorem tokenIs_one {t u : Token} {r f} : tokenIs (t :: u :: r) 1 f = f u := rfl
theorem tokenIs_two {t u v : Token} {r f} : tokenIs (t :: u :: v :: r) 2 f = f v := rfl

theorem boundary_iff {ts : List Token} {level : Nat} {k : ListKind} {n : Nat} :
    boundaryHere ts level k n = true ↔ ∃ other, (n = level → other = k.node) ∧ markerLine n other ts := by
  have hk : ∀ (t : Token), isListMarker (if n = level then some k else none) t = true ↔
      ∃ other, bulletOf other t ∧ (n = level → other = k.node) := by
    intro t
    rw [marker_bullet]
    by_cases h : n = level
    · simp [h]
    · simp [h]
  have hs : ∀ t, isSpace1 t = true ↔ tokenIsA .Space 1 t := fun t => by rw [← isA_iff]; rfl
  unfold boundaryHere markerLine
  by_cases h0 : n = 0
  · simp only [h0, if_true, ne_eq, not_true_eq_false, false_and, or_false, true_and]
    rw [h0] at hk
    match ts with
    | [] => simp [tokenIs]
    | [a] => simp [tokenIs]
    | a :: b :: r =>
      rw [tokenIs_zero, tokenIs_zero, tokenIs_one]
      simp only [Bool.and_eq_true]
      rw [hk, hs, atColumn0_iff]
      constructor
      · rintro ⟨⟨h1, other, h2, h3⟩, h4⟩
        exact ⟨other, h3, a, b, r, rfl, h1, h2, h4⟩
      · rintro ⟨other, h3, a', b', r', e, h1, h2, h4⟩
        cases e
        exact ⟨⟨h1, other, h2, h3⟩, h4⟩
  · simp only [h0, if_false, ne_eq, not_false_eq_true, true_and, false_and, false_or]
    match ts with
    | [] => simp [tokenIs]
    | [a] => simp [tokenIs]
    | [a, b] => simp [tokenIs]
    | i :: a :: b :: r =>
      rw [tokenIs_zero, tokenIs_zero, tokenIs_one, tokenIs_two]
      simp only [Bool.and_eq_true]
      rw [hk, hs, atColumn0_iff]
      have := isA_iff (k := .Space) (n := n) (t := i)
      simp only [Bool.and_eq_true] at this
      rw [this]
      constructor
      · rintro ⟨⟨⟨h1, h5⟩, other, h2, h3⟩, h4⟩
        exact ⟨other, h3, i, a, b, r, rfl, h1, h5, h2, h4⟩
      · rintro ⟨other, h3, i', a', b', r', e, h1, h5, h2, h4⟩
        cases e
        exact ⟨⟨⟨h1, h5⟩, other, h2, h3⟩, h4⟩

theorem list_stop {t : Token} {r} {level : Nat} {k : ListKind} : stopHere t r (.ListBoundary level k) = true ↔
    ∃ n other, n ≤ level + 1 ∧ (n = level → other = k.node) ∧ markerLine n other (t :: r) := by
  simp only [stopHere, Bool.and_eq_true, List.any_eq_true, List.mem_range]
  constructor
  · rintro ⟨-, n, h1, h2⟩
    obtain ⟨other, h3, h4⟩ := boundary_iff.1 h2
    exact ⟨n, other, by omega, h3, h4⟩
  · rintro ⟨n, other, h1, h2, h3⟩
    refine ⟨?_, n, by omega, boundary_iff.2 ⟨other, h2, h3⟩⟩
    rcases h3 with ⟨-, b, s, r', e, h4, -⟩ | ⟨-, i, b, s, r', e, h4, -⟩
    all_goals cases e; exact atColumn0_iff.2 h4

/-- The stops of a document under the open nodes. -/
def StopsFor (o : List Node) (stops : List Stop) : Prop :=
  (∀ s ∈ stops, s = .CollapsibleEnd) ∧ (.CollapsibleEnd ∈ stops ↔ .Collapsible ∈ o)

theorem coll_stops {o stops} (h : StopsFor o stops) {t : Token} {r} : stops.any (stopHere t r) = true ↔
    (.Collapsible ∈ o ∧ (closerLine (t :: r) ∨ ∃ t' r', t :: r = t' :: r' ∧ t'.kind = .Eol ∧ closerLine r')) := by
  rw [List.any_eq_true, ← collapsible_stop, ← h.2]
  constructor
  · rintro ⟨s, hs, h1⟩
    have e := h.1 s hs
    subst e
    exact ⟨hs, h1⟩
  · rintro ⟨h1, h2⟩
    exact ⟨_, h1, h2⟩

theorem term_iff {t : Token} {r} : (∃ t' r', t :: r = t' :: r' ∧ t'.kind = .Terminator) ↔ stopHere t r .Terminator = true := by
  simp only [stopHere, decide_eq_true_eq]
  constructor
  · rintro ⟨_, _, h, h1⟩; cases h; exact h1
  · intro h; exact ⟨t, r, rfl, h⟩

/-- In a document. -/
theorem ends_doc {o stops} (h : StopsFor o stops) (ts : List Token) :
    TextEnds (.Document :: o) ts ↔ stopAt (.Terminator :: stops) ts = true := by
  cases ts with
  | nil => simp [TextEnds, stopAt]
  | cons t r =>
    have h' : StopsFor (.Document :: o) stops := ⟨h.1, by rw [h.2]; simp⟩
    simp only [TextEnds, stopAt, List.any_cons, Bool.or_eq_true]
    rw [term_iff, coll_stops h']
    simp

/-- In a highlight. -/
theorem ends_highlight {o stops} (h : StopsFor o stops) (ts : List Token) :
    TextEnds (.Highlight :: .Document :: o) ts ↔ stopAt (.Terminator :: .HighlightEnd :: stops) ts = true := by
  cases ts with
  | nil => simp [TextEnds, stopAt]
  | cons t r =>
    have h' : StopsFor (.Highlight :: .Document :: o) stops := ⟨h.1, by rw [h.2]; simp⟩
    simp only [TextEnds, stopAt, List.any_cons, Bool.or_eq_true]
    rw [term_iff, coll_stops h', highlight_stop]
    have e1 : (∃ t_1 r_1, t :: r = t_1 :: r_1 ∧ atColumn0 t_1 ∧ tokenIsA .Bang 2 t_1) ↔ (atColumn0 t ∧ tokenIsA .Bang 2 t) := by
      constructor
      · rintro ⟨_, _, e, h⟩; cases e; exact h
      · intro h; exact ⟨t, r, rfl, h⟩
    have e2 : ¬ (∃ list outer, (Node.Highlight :: Node.Document :: o) = .ListItem :: list :: outer ∧ ∃ n other,
        n ≤ outer.count .ListItem + 1 ∧ (n = outer.count .ListItem → other = list) ∧ markerLine n other (t :: r)) := by
      rintro ⟨_, _, e, -⟩; cases e
    rw [e1]
    constructor
    · rintro (h | h | h | h | h)
      · cases h
      · exact .inl h
      · exact .inr (.inr h)
      · exact .inr (.inl h.2)
      · exact absurd h e2
    · rintro (h | h | h)
      · exact .inr (.inl h)
      · exact .inr (.inr (.inr (.inl ⟨rfl, h⟩)))
      · exact .inr (.inr (.inl h))

/-- In a list item. -/
theorem ends_item {o list stops} {k : ListKind} (h : StopsFor o stops) (hk : list = k.node) (ts : List Token) :
    TextEnds (.ListItem :: list :: o) ts ↔
      stopAt (.ListBoundary (o.count .ListItem) k :: .Terminator :: stops) ts = true := by
  subst hk
  cases ts with
  | nil => simp [TextEnds, stopAt]
  | cons t r =>
    have h' : StopsFor (.ListItem :: k.node :: o) stops := ⟨h.1, by rw [h.2]; cases k <;> simp [ListKind.node]⟩
    simp only [TextEnds, stopAt, List.any_cons, Bool.or_eq_true]
    rw [term_iff, coll_stops h', list_stop]
    have e : (∃ list outer, (Node.ListItem :: k.node :: o) = .ListItem :: list :: outer ∧ ∃ n other, n ≤ outer.count .ListItem + 1 ∧
      (n = outer.count .ListItem → other = list) ∧ markerLine n other (t :: r)) ↔
      ∃ n other, n ≤ o.count .ListItem + 1 ∧ (n = o.count .ListItem → other = k.node) ∧ markerLine n other (t :: r) := by
      constructor
      · rintro ⟨list, outer, e, h⟩; cases e; exact h
      · intro h; exact ⟨_, _, rfl, h⟩
    rw [e]
    constructor
    · rintro (h | h | h | h | h)
      · cases h
      · exact .inr (.inl h)
      · exact .inr (.inr h)
      · cases h.1
      · exact .inl h
    · rintro (h | h | h)
      · exact .inr (.inr (.inr (.inr h)))
      · exact .inr (.inl h)
      · exact .inr (.inr (.inl h))

theorem exact_of {o stops own rest} (h : ∀ ts, TextEnds o ts ↔ stopAt stops ts = true) (he : Extent stops own rest) :
    ExactText o own rest := by
  refine ⟨(h _).2 he.1, ?_⟩
  rintro l1 t l2 rfl hc
  have := (he.2.right (a := l1)).1
  rw [(h _).1 hc] at this
  cases this

end Yamd.Ref
