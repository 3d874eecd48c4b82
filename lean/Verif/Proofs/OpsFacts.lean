import Verif.Proofs.Segmentation

/-!
# Consequences of the segmentation
-/

namespace Yamd.Ref

open Yamd Yamd.Spec

/-! ### Depth -/

def Flat (ks : List Seg) : Prop := ∀ d r, depthAfter d (ks.map Seg.kind ++ r) = depthAfter d r

theorem Flat.nil : Flat [] := fun _ _ => rfl
theorem Flat.append {a b} (h1 : Flat a) (h2 : Flat b) : Flat (a ++ b) := by
  intro d r; rw [List.map_append, List.append_assoc, h1, h2]
theorem flat_value (ts) : Flat [segValue ts] := fun d r => by cases d <;> rfl
theorem flat_node {n m ts us ks} (skip) (h : Flat ks) :
    Flat (segStart n ts :: (ks ++ [⟨.End m, skip, us⟩])) := by
  intro d r
  simp only [List.map_cons, List.map_append, List.append_assoc, List.cons_append, List.map_nil, List.nil_append]
  rw [show (segStart n ts).kind = .Start n from rfl, depthAfter, h]
  rfl
theorem Flat.cons {s r} (h1 : Flat [s]) (h2 : Flat r) : Flat (s :: r) := h1.append h2
theorem flat_flatMap {α : Type} {f : α → List Seg} (l : List α) (h : ∀ x, Flat (f x)) : Flat (l.flatMap f) := by
  induction l with
  | nil => exact .nil
  | cons x l ih => exact (h x).append ih
theorem Delim.flat (d : Delim) : Flat d.segs := flat_node [] (flat_value _)
theorem flat_anchor (l : Link) : Flat (anchorSegs l) := flat_node [] (l.title.flat.append l.dest.flat)
theorem BoldItem.flat : ∀ x : BoldItem, Flat x.segs
  | .text _ => flat_value _
  | .delim d => d.flat
theorem Inl.flat : ∀ x : Inl, Flat x.segs
  | .text _ => flat_value _
  | .delim d => d.flat
  | .bold _ items _ => flat_node [] (flat_flatMap items BoldItem.flat)
  | .anchor l => flat_anchor l
theorem flat_para (l : List Inl) : Flat (paraSegs l) := flat_node [] (flat_flatMap l Inl.flat)
theorem HeadItem.flat : ∀ x : HeadItem, Flat x.segs
  | .text _ => flat_value _
  | .anchor l => flat_anchor l
theorem Img.flat (i : Img) : Flat i.segs := flat_node [] (i.link.title.flat.append i.link.dest.flat)
theorem flat_wrap (k) {s} (h : Flat s) : Flat (wrapSegs k s) := by
  cases k with
  | none => exact .nil
  | some k => exact flat_node [] h
theorem Items.flat : ∀ i : Items, Flat i.segs
  | .nil => .nil
  | .cons _ m p n r => by
    have : Flat (segStart .ListItem m :: ((paraSegs p ++ wrapSegs n.kind n.segs) ++ [segEnd .ListItem []])) :=
      flat_node [] ((flat_para p).append (flat_wrap _ (Items.flat n)))
    have := this.append (Items.flat r)
    simpa [Items.segs] using this
theorem flat_mod : ∀ m, Flat (modSegs m)
  | none => .nil
  | some _ => flat_node [] (flat_value _)
theorem flat_icon : ∀ m, Flat (iconSegs m)
  | none => .nil
  | some _ => flat_node [] (flat_value _)
theorem HPara.flat (h : HPara) : Flat h.segs := by
  unfold HPara.segs
  refine Flat.append ?_ (flat_para _)
  cases h.term with
  | nil => exact .nil
  | cons => exact flat_value _
theorem Block.flat : ∀ b : Block, Flat b.segs
  | .code o m b c => by
    have := flat_node (n := .Code) (m := .Code) (ts := o) (us := c) [] ((flat_mod m).append (flat_value b))
    simpa [Block.segs, segEnd] using this
  | .embed o l p r c => by
    have := flat_node (n := .Embed) (m := .Embed) (ts := [o]) (us := c) []
      ((flat_value l).append ((flat_value [p]).append (flat_value r)))
    simpa [Block.segs, segEnd] using this
  | .highlight o m i b c => by
    have := flat_node (n := .Highlight) (m := .Highlight) (ts := o) (us := c) []
      ((flat_mod m).append ((flat_icon i).append (flat_flatMap b HPara.flat)))
    simpa [Block.segs, segEnd] using this
  | .list i => flat_wrap _ i.flat
  | .images l => by
    simp only [Block.segs]
    split
    · exact flat_node [] (flat_flatMap l Img.flat)
    · exact flat_flatMap l Img.flat
  | .thematic t => flat_node [] (flat_value _)
  | .heading m b => flat_node [] (flat_flatMap b HeadItem.flat)
  | .para l => flat_para l
theorem Doc.flat : ∀ d : Doc, Flat d.segs
  | .nil => .nil
  | .term t r => (flat_value [t]).append r.flat
  | .block b r => b.flat.append r.flat
  | .coll o m i s c r => by
    have h1 := flat_node (n := .Document) (m := .Document) (ts := []) (us := []) [] i.flat
    have := (flat_node (n := .Collapsible) (m := .Collapsible) (ts := o) (us := c) s ((flat_mod m).append h1)).append r.flat
    simpa [Doc.segs, segEnd, segStart] using this

/-! ### Spans in order -/

theorem reads_span {input : Str} {a b : Nat} {own : List Token} (h : Reads input (.Span a b) own) (hab : a < b) :
    ∃ t u, t ∈ own ∧ u ∈ own ∧ a = t.start ∧ b = u.stop := by
  obtain ⟨-, -, h⟩ := h
  cases own with
  | nil => simp only at h; omega
  | cons t r =>
    simp only at h
    obtain ⟨h1, h2⟩ := h
    cases hl : (t :: r).getLast? with
    | none => simp at hl
    | some u =>
      rw [hl] at h2
      simp only [Option.map_some, Option.some.injEq] at h2
      exact ⟨t, u, by simp, List.mem_of_getLast? hl, h1, h2⟩

theorem spans_ordered {input : Str} : ∀ {ops : List Op} {segs : List (List Token × List Token)},
    (∀ x ∈ ops.zip segs, Reads input x.1.content x.2.2) → segs.length = ops.length →
    (segs.flatMap (fun s => s.1 ++ s.2)).Pairwise (fun a b => a.stop ≤ b.start) →
    (spansOf ops).Pairwise (fun a b => a.2 ≤ b.1) ∧
      ∀ s ∈ spansOf ops, ∃ t u, t ∈ segs.flatMap (fun s => s.1 ++ s.2) ∧
        u ∈ segs.flatMap (fun s => s.1 ++ s.2) ∧ s.1 = t.start ∧ s.2 = u.stop
  | [], segs, _, _, _ => ⟨.nil, by simp [spansOf]⟩
  | op :: ops, [], _, hl, _ => by simp at hl
  | op :: ops, s :: segs, hr, hl, hp => by
    rw [List.flatMap_cons, List.pairwise_append] at hp
    obtain ⟨p1, p2, p3⟩ := hp
    obtain ⟨i1, i2⟩ := spans_ordered (ops := ops) (segs := segs)
      (fun x hx => hr x (by simp [hx])) (by simpa using hl) p2
    have h0 := hr (op, s) (by simp)
    have lift : ∀ q ∈ spansOf ops, ∃ t u, t ∈ (s :: segs).flatMap (fun s => s.1 ++ s.2) ∧
        u ∈ (s :: segs).flatMap (fun s => s.1 ++ s.2) ∧ q.1 = t.start ∧ q.2 = u.stop := by
      intro q hq
      obtain ⟨t, u, ht, hu, h1, h2⟩ := i2 q hq
      exact ⟨t, u, by rw [List.flatMap_cons]; exact List.mem_append_right _ ht,
        by rw [List.flatMap_cons]; exact List.mem_append_right _ hu, h1, h2⟩
    cases hc : op.content with
    | Materialized m =>
      have : spansOf (op :: ops) = spansOf ops := by simp [spansOf, hc]
      rw [this]; exact ⟨i1, lift⟩
    | Span a b =>
      by_cases hab : a < b
      · have : spansOf (op :: ops) = (a, b) :: spansOf ops := by simp [spansOf, hc, hab]
        rw [this]
        rw [hc] at h0
        obtain ⟨t, u, ht, hu, h1, h2⟩ := reads_span h0 hab
        constructor
        · refine List.Pairwise.cons ?_ i1
          intro q hq
          obtain ⟨t', u', ht', hu', h1', h2'⟩ := i2 q hq
          have := p3 u (List.mem_append_right _ hu) t' ht'
          simp only; omega
        · intro q hq
          rcases List.mem_cons.1 hq with rfl | hq
          · exact ⟨t, u, by simp [ht], by simp [hu], h1, h2⟩
          · exact lift q hq
      · have : spansOf (op :: ops) = spansOf ops := by simp [spansOf, hc, hab]
        rw [this]; exact ⟨i1, lift⟩

/-! ### Text -/

theorem reads_text {input : Str} {op : Op} {own : List Token} (h : Reads input op.content own) :
    opText input op = textOfTokens input own := by
  unfold opText; rw [h.1]

theorem texts_cover {input : Str} : ∀ {ops : List Op} {segs : List (List Token × List Token)},
    (∀ x ∈ ops.zip segs, Reads input x.1.content x.2.2) → segs.length = ops.length →
    (ops.zip (segs.map (fun s => textOfTokens input s.1))).flatMap (fun x => x.2 ++ opText input x.1)
      = textOfTokens input (segs.flatMap (fun s => s.1 ++ s.2))
  | [], [], _, _ => rfl
  | [], _ :: _, _, hl => by simp at hl
  | op :: ops, [], _, hl => by simp at hl
  | op :: ops, s :: segs, hr, hl => by
    have ih := texts_cover (ops := ops) (segs := segs) (fun x hx => hr x (by simp [hx])) (by simpa using hl)
    have h0 := reads_text (hr (op, s) (by simp))
    simp only [List.map_cons, List.zip_cons_cons, List.flatMap_cons, ih, h0]
    simp [textOfTokens]

theorem nested_mono {c1 c2 : Option Node → Node → Bool} {t1 t2 : Node → Bool}
    (hc : ∀ p n, c1 p n = true → c2 p n = true) (ht : ∀ n, t1 n = true → t2 n = true) :
    ∀ {ks st}, nested c1 t1 st ks = true → nested c2 t2 st ks = true
  | [], _, h => by simpa [nested] using h
  | .Start n :: r, st, h => by
    simp only [nested, Bool.and_eq_true] at h ⊢
    exact ⟨hc _ _ h.1, nested_mono hc ht h.2⟩
  | .Value :: r, [], h => by simp [nested] at h
  | .Value :: r, p :: st, h => by
    simp only [nested, Bool.and_eq_true] at h ⊢
    exact ⟨ht _ h.1, nested_mono hc ht h.2⟩
  | .End n :: r, [], h => by simp [nested] at h
  | .End n :: r, p :: st, h => by
    simp only [nested, Bool.and_eq_true] at h ⊢
    exact ⟨h.1, nested_mono hc ht h.2⟩

end Yamd.Ref
