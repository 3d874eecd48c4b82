import Verif.Proofs.Round.Inline
import Verif.Spec.RoundTrip

/-!
# Sequences of inline nodes
-/

namespace Yamd.Round

open Yamd Yamd.Spec Yamd.Lexer Yamd.Ref

/-! ### Generic sequences -/

/-- How a node looks at its ends: a text, or a construct between two characters. -/
inductive Shape where
  | text
  | delim (o c : Char)

def singles : List Char := ['_', '[', ']', '(', ')', '|']

/-- Nodes that can stand next to each other. -/
def compat : Shape → Shape → Bool
  | .text, .text => false
  | .delim _ c, .delim o _ => singles.contains c || c != o
  | _, _ => true

structure HasShape (S : List Char) (sh : Shape) (v : V) : Prop where
  valid : Valid v
  ne : v ≠ []
  ends : match sh with
    | .text => ∀ c ∈ S, (false, c) ∉ v
    | .delim o c => v.head? = some (false, o) ∧ v.getLast? = some (false, c)

/-- The characters at the ends of constructs are escaped in texts. -/
def ShapeOk (S : List Char) : Shape → Prop
  | .text => True
  | .delim o c => (o ∈ S ∨ (o ∈ singles ∧ o ∈ closers)) ∧ o ∈ stopChars ∧ o ≠ '\n' ∧ o ≠ '}' ∧ c ∈ closers ∧ c ≠ ' ' ∧ c ≠ '{' ∧ (c ∈ singles ∨ c ∈ S)

theorem shape_join {S : List Char} {sh1 sh2 : Shape} {v1 v2 w : V} (h1 : HasShape S sh1 v1) (h2 : HasShape S sh2 v2)
    (o1 : ShapeOk S sh1) (o2 : ShapeOk S sh2) (hc : compat sh1 sh2 = true) : Join v1 (v2 ++ w) := by
  have hhead : (v2 ++ w).head? = v2.head? := by
    cases v2 with
    | nil => exact absurd rfl h2.ne
    | cons x v2 => rfl
  cases sh1 with
  | text =>
    cases sh2 with
    | text => simp [compat] at hc
    | delim o c =>
      obtain ⟨a1, a2, a3, a4, -⟩ := o2
      have hh := h2.ends.1
      by_cases hlast : v1.getLast? = some (false, o)
      · rcases a1 with a1 | a1
        · exact absurd (List.mem_of_getLast? hlast) (h1.ends o a1)
        · exact join_after h1.valid hlast a1.2 (by rintro rfl; have := a1.1; simp [singles] at this)
            (by rintro rfl; have := a1.1; simp [singles] at this) (.inl a1.1)
      refine join_stop h1.valid (c := o) ?_ a2 hlast (fun h => absurd h a3)
        (fun h => absurd h a4)
      rw [← hhead] at hh
      cases hv : v2 ++ w with
      | nil => rw [hv] at hh; simp at hh
      | cons x r =>
        rw [hv] at hh
        simp only [List.head?_cons, Option.some.injEq] at hh
        subst hh; rfl
  | delim o c =>
    obtain ⟨-, -, -, -, a5, a6, a7, a8⟩ := o1
    refine join_after h1.valid h1.ends.2 a5 a6 (fun h => absurd h a7) ?_
    rw [hhead]
    rcases a8 with a8 | a8
    · exact .inl a8
    · cases sh2 with
      | text =>
        right
        intro e
        exact h2.ends c a8 (List.mem_of_head? e)
      | delim o' c' =>
        simp only [compat, Bool.or_eq_true, List.contains_iff_mem, bne_iff_ne] at hc
        rcases hc with hc | hc
        · exact .inl hc
        · right
          rw [h2.ends.1]
          intro e
          simp only [Option.some.injEq, Prod.mk.injEq, true_and] at e
          exact hc e.symm

/-- A view is cut into the views of the nodes; only the first node may start a line. -/
def SeqV {α : Type} (NV : Bool → α → V → Prop) : Bool → List α → V → Prop
  | _, [], v => v = []
  | b, n :: r, v => ∃ v1 v2, v = v1 ++ v2 ∧ NV b n v1 ∧ SeqV NV false r v2

/-- Neighbours are compatible. -/
def Chain {α : Type} (shape : α → Shape) : List α → Prop
  | [] => True
  | [_] => True
  | x :: y :: r => compat (shape x) (shape y) = true ∧ Chain shape (y :: r)

theorem Chain.tail {α : Type} {shape : α → Shape} {x} {l : List α} (h : Chain shape (x :: l)) : Chain shape l := by
  cases l with
  | nil => trivial
  | cons y r => exact h.2

section
variable {α β : Type} {NV : Bool → α → V → Prop} {shape : α → Shape} {S : List Char}

theorem seq_join (hshape : ∀ b n v, NV b n v → HasShape S (shape n) v ∧ ShapeOk S (shape n)) {b : Bool} {n : α} {r : List α}
    {v1 v2 : V} (h1 : NV b n v1) (h2 : SeqV NV false r v2) (hc : Chain shape (n :: r)) : Join v1 v2 := by
  cases r with
  | nil =>
    have : v2 = [] := h2
    rw [this]; exact join_nil_right v1
  | cons m r =>
    obtain ⟨u1, u2, rfl, g1, -⟩ := h2
    exact shape_join (hshape _ _ _ h1).1 (hshape _ _ _ g1).1 (hshape _ _ _ h1).2 (hshape _ _ _ g1).2 hc.1

theorem seq_valid (hshape : ∀ b n v, NV b n v → HasShape S (shape n) v ∧ ShapeOk S (shape n)) :
    ∀ {l : List α} {b : Bool} {v : V}, SeqV NV b l v → Valid v
  | [], _, v, h => by
    have : v = [] := h
    rw [this]; simp [Valid]
  | n :: r, b, v, h => by
    obtain ⟨v1, v2, rfl, h1, h2⟩ := h
    exact (hshape _ _ _ h1).1.valid.append (seq_valid hshape h2)

/-- The tokens of a sequence are the tokens of trees of its nodes. -/
theorem seq_tree {src : Str} {toks : β → List Token} {Ok : β → Prop} {den : β → α}
    (hshape : ∀ b n v, NV b n v → HasShape S (shape n) v ∧ ShapeOk S (shape n))
    (htree : ∀ b n v bs ts, NV b n v → (shape n = .text → bs = b) → SpV src bs ts v →
      ∃ x : β, toks x = ts ∧ Ok x ∧ den x = n) :
    ∀ {l : List α} {b bs : Bool} {v : V} {ts : List Token}, SeqV NV b l v → Chain shape l →
      (∀ n ∈ l.head?, shape n = .text → bs = b) → SpV src bs ts v →
      ∃ t : List β, t.flatMap toks = ts ∧ (∀ x ∈ t, Ok x) ∧ t.map den = l
  | [], b, bs, v, ts, h, _, _, hs => by
    have : v = [] := h
    rw [this] at hs
    exact ⟨[], by rw [spv_nil hs]; rfl, by simp, rfl⟩
  | n :: r, b, bs, v, ts, h, hc, hb, hs => by
    obtain ⟨v1, v2, rfl, h1, h2⟩ := h
    have sh1 := (hshape _ _ _ h1).1
    obtain ⟨t1, t2, rfl, s1, s2⟩ := spv_split sh1.valid (seq_join hshape h1 h2 hc) hs
    obtain ⟨x, rfl, ox, dx⟩ := htree _ _ _ _ _ h1 (hb n (by simp)) s1
    obtain ⟨t, e, ot, dt⟩ := seq_tree hshape htree h2 hc.tail (bs := flag bs v1) (by
      cases r with
      | nil => simp
      | cons m r =>
        intro y hy hyt
        simp only [List.head?_cons, Option.mem_some_iff] at hy
        subst hy
        have hcm := hc.1
        rw [hyt] at hcm
        have so := (hshape _ _ _ h1).2
        cases hn : shape n with
        | text => rw [hn] at hcm; simp [compat] at hcm
        | delim o c =>
          rw [hn] at sh1 so
          unfold flag
          rw [sh1.ends.2]
          simp only [beq_eq_false_iff_ne, ne_eq, Prod.mk.injEq, true_and]
          rintro rfl
          have := so.2.2.2.2.1
          revert this; decide) s2
    exact ⟨x :: t, by rw [List.flatMap_cons, e], by
      intro y hy
      rcases List.mem_cons.1 hy with rfl | hy
      · exact ox
      · exact ot y hy, by rw [List.map_cons, dx, dt]⟩

end

theorem noPair_of_chain {α β : Type} {shape : α → Shape} {den : β → α} {f : β → Bool}
    (hf : ∀ x, f x = true → shape (den x) = .text) : ∀ {t : List β}, Chain shape (t.map den) → NoPair f t
  | [], _ => trivial
  | [_], _ => trivial
  | x :: y :: r, h => by
    refine ⟨fun hxy => ?_, noPair_of_chain hf h.2⟩
    have := h.1
    rw [hf x hxy.1, hf y hxy.2] at this
    simp [compat] at this

/-! ### Bold -/

def BoldItemV (stops : List Stop) (b : Bool) : BoldNode → V → Prop
  | .text s, v => s ≠ [] ∧ Body stops b ['~', '_', '*'] s v
  | .italic s, v => ∃ w, v = free ['_'] ++ (w ++ free ['_']) ∧ Body stops false ['_'] s w
  | .strikethrough s, v => s ≠ [] ∧ ∃ w, v = free ['~', '~'] ++ (w ++ free ['~', '~']) ∧ Body stops false ['~'] s w

def boldShape : BoldNode → Shape
  | .text _ => .text
  | .italic _ => .delim '_' '_'
  | .strikethrough _ => .delim '~' '~'

theorem free_ne {v w : V} {d : Str} (h : d ≠ []) : free d ++ (w ++ v) ≠ [] := by
  cases d with
  | nil => exact absurd rfl h
  | cons c d => simp [free]

theorem valid_delim {d : Str} {w : V} (hd : '\\' ∉ d) (hw : Valid w) : Valid (free d ++ (w ++ free d)) :=
  (valid_free hd).append (hw.append (valid_free hd))

theorem delim_ends {d : Str} {w : V} {c : Char} (h1 : d.head? = some c) (h2 : d.getLast? = some c) :
    (free d ++ (w ++ free d)).head? = some (false, c) ∧ (free d ++ (w ++ free d)).getLast? = some (false, c) := by
  refine ⟨?_, ?_⟩
  · cases d with
    | nil => simp at h1
    | cons x d => simp at h1; simp [free, h1]
  · rw [← List.append_assoc]; exact getLast_free h2 _

theorem shapeOk_bold (n : BoldNode) : ShapeOk ['~', '_', '*'] (boldShape n) := by
  cases n <;> simp only [boldShape, ShapeOk] <;> decide

theorem bold_shape {stops} (b : Bool) (n : BoldNode) (v : V) (h : BoldItemV stops b n v) :
    HasShape ['~', '_', '*'] (boldShape n) v ∧ ShapeOk ['~', '_', '*'] (boldShape n) := by
  cases n with
  | text s => exact ⟨⟨h.2.valid, h.2.ne h.1, h.2.notFree⟩, trivial⟩
  | italic s =>
    obtain ⟨w, rfl, hw⟩ := h
    exact ⟨⟨valid_delim (by decide) hw.valid, free_ne (by simp), delim_ends rfl rfl⟩, shapeOk_bold _⟩
  | strikethrough s =>
    obtain ⟨-, w, rfl, hw⟩ := h
    exact ⟨⟨valid_delim (by decide) hw.valid, free_ne (by simp), delim_ends rfl rfl⟩, shapeOk_bold _⟩

theorem bold_item_tree {stops} {src : Str} (b : Bool) (n : BoldNode) (v : V) (bs : Bool) (ts : List Token)
    (h : BoldItemV stops b n v) (hb : boldShape n = .text → bs = b) (hs : SpV src bs ts v) :
    ∃ x : BoldItem, x.toks = ts ∧ BoldItemOk stops x ∧ x.denote src = n := by
  cases n with
  | text s =>
    obtain ⟨h1, h2⟩ := h
    rw [hb rfl] at hs
    refine ⟨.text ts, rfl, ⟨spv_ne h2.valid hs (h2.ne h1), fun t ht => ⟨spv_quiet h2.valid hs h2.vq t ht, ?_, ?_, ?_⟩⟩, ?_⟩
    · exact body_kind h2.valid (h2.notFree '~' (by simp)) (.inl rfl) hs t ht
    · exact body_kind h2.valid (h2.notFree '_' (by simp)) (.inr rfl) hs t ht
    · exact body_kind h2.valid (h2.notFree '*' (by simp)) (.inl rfl) hs t ht
    · simp only [BoldItem.denote]; rw [spv_text h2.valid hs, h2.chars]
  | italic s =>
    obtain ⟨w, rfl, hw⟩ := h
    obtain ⟨x, e, ox, tx⟩ := italic_tree hw hs
    refine ⟨.delim x, e, .inr ox, ?_⟩
    simp only [BoldItem.denote, ox.node, tx]
  | strikethrough s =>
    obtain ⟨hs1, w, rfl, hw⟩ := h
    obtain ⟨x, e, ox, tx⟩ := strike_tree hw hs1 hs
    refine ⟨.delim x, e, .inl ox, ?_⟩
    simp only [BoldItem.denote, ox.node, tx]

def BoldV (stops : List Stop) : List BoldNode → V → Prop := SeqV (BoldItemV stops) false

theorem boldV_head {stops l v} (h : BoldV stops l v) (hl : l ≠ []) : v ≠ [] ∧ v.head? ≠ some (false, '*') ∧
    Join v (free ['*', '*']) := by
  have hne : ∀ {l : List BoldNode} {b v}, SeqV (BoldItemV stops) b l v → l ≠ [] → v ≠ [] := by
    intro l b v h hl
    cases l with
    | nil => exact absurd rfl hl
    | cons n r =>
      obtain ⟨v1, v2, rfl, h1, -⟩ := h
      have := (bold_shape _ _ _ h1).1.ne
      simp [this]
  refine ⟨hne h hl, ?_, ?_⟩
  · cases l with
    | nil => exact absurd rfl hl
    | cons n r =>
      obtain ⟨v1, v2, rfl, h1, -⟩ := h
      have sh := (bold_shape _ _ _ h1).1
      have : (v1 ++ v2).head? = v1.head? := by
        cases v1 with
        | nil => exact absurd rfl sh.ne
        | cons x v2 => rfl
      rw [this]
      cases n with
      | text s => exact fun e => sh.ends '*' (by simp) (List.mem_of_head? e)
      | italic s => rw [sh.ends.1]; simp
      | strikethrough s => rw [sh.ends.1]; simp
  · have hlast : ∀ {l : List BoldNode} {b v}, SeqV (BoldItemV stops) b l v → l ≠ [] → v.getLast? ≠ some (false, '*') := by
      intro l
      induction l with
      | nil => intro b v _ h; exact absurd rfl h
      | cons n r ih =>
        intro b v h _
        obtain ⟨v1, v2, rfl, h1, h2⟩ := h
        have sh := (bold_shape _ _ _ h1).1
        cases r with
        | nil =>
          have : v2 = [] := h2
          rw [this, List.append_nil]
          cases n with
          | text s => exact fun e => sh.ends '*' (by simp) (List.mem_of_getLast? e)
          | italic s => rw [sh.ends.2]; simp
          | strikethrough s => rw [sh.ends.2]; simp
        | cons m r =>
          have h3 := ih h2 (by simp)
          have h4 := hne h2 (by simp)
          rw [List.getLast?_append]
          cases hg : v2.getLast? with
          | none => exact absurd (List.getLast?_eq_none_iff.1 hg) h4
          | some x => rw [hg] at h3; simpa using h3
    exact join_stop (seq_valid bold_shape h) (c := '*') rfl (by decide) (hlast h hl) (by simp) (by simp)

/-! ### Paragraphs -/

def textSet : List Char := ['[', '`', '~', '_', '*']

def NodeV (stops : List Stop) (b : Bool) : ParagraphNode → V → Prop
  | .text s, v => s ≠ [] ∧ Body stops b textSet s v
  | .italic s, v => ∃ w, v = free ['_'] ++ (w ++ free ['_']) ∧ Body stops false ['_'] s w
  | .strikethrough s, v => s ≠ [] ∧ ∃ w, v = free ['~', '~'] ++ (w ++ free ['~', '~']) ∧ Body stops false ['~'] s w
  | .emphasis s, v => s ≠ [] ∧ ∃ w, v = free ['*'] ++ (w ++ free ['*']) ∧ Body stops false ['*'] s w
  | .codeSpan s, v => s ≠ [] ∧ ∃ w, v = free ['`'] ++ (w ++ free ['`']) ∧ Body stops false ['`'] s w
  | .anchor a, v => ∃ w1 w2, v = linkV w1 w2 ∧ Body stops false [']'] a.text w1 ∧ Body stops false ['(', ')'] a.url w2
  | .bold l, v => l ≠ [] ∧ Chain boldShape l ∧ ∃ w, v = free ['*', '*'] ++ (w ++ free ['*', '*']) ∧ BoldV stops l w

def nodeShape : ParagraphNode → Shape
  | .text _ => .text
  | .italic _ => .delim '_' '_'
  | .strikethrough _ => .delim '~' '~'
  | .emphasis _ => .delim '*' '*'
  | .codeSpan _ => .delim '`' '`'
  | .anchor _ => .delim '[' ')'
  | .bold _ => .delim '*' '*'

theorem link_shape {w1 w2 : V} (h1 : Valid w1) (h2 : Valid w2) : Valid (linkV w1 w2) ∧ linkV w1 w2 ≠ [] ∧
    (linkV w1 w2).head? = some (false, '[') ∧ (linkV w1 w2).getLast? = some (false, ')') := by
  refine ⟨?_, by simp [linkV, free], rfl, ?_⟩
  · exact (valid_one (by decide)).append (h1.append ((valid_one (by decide)).append ((valid_one (by decide)).append
      (h2.append (valid_one (by decide))))))
  · have : linkV w1 w2 = (free ['['] ++ (w1 ++ (free [']'] ++ (free ['('] ++ w2)))) ++ free [')'] := by simp [linkV]
    rw [this]; exact getLast_free rfl _

theorem shapeOk_node (n : ParagraphNode) : ShapeOk textSet (nodeShape n) := by
  cases n <;> simp only [nodeShape, ShapeOk] <;> decide

theorem node_shape {stops} (b : Bool) (n : ParagraphNode) (v : V) (h : NodeV stops b n v) :
    HasShape textSet (nodeShape n) v ∧ ShapeOk textSet (nodeShape n) := by
  cases n with
  | text s => exact ⟨⟨h.2.valid, h.2.ne h.1, h.2.notFree⟩, trivial⟩
  | italic s =>
    obtain ⟨w, rfl, hw⟩ := h
    exact ⟨⟨valid_delim (by decide) hw.valid, free_ne (by simp), delim_ends rfl rfl⟩, shapeOk_node _⟩
  | strikethrough s =>
    obtain ⟨-, w, rfl, hw⟩ := h
    exact ⟨⟨valid_delim (by decide) hw.valid, free_ne (by simp), delim_ends rfl rfl⟩, shapeOk_node _⟩
  | emphasis s =>
    obtain ⟨-, w, rfl, hw⟩ := h
    exact ⟨⟨valid_delim (by decide) hw.valid, free_ne (by simp), delim_ends rfl rfl⟩, shapeOk_node _⟩
  | codeSpan s =>
    obtain ⟨-, w, rfl, hw⟩ := h
    exact ⟨⟨valid_delim (by decide) hw.valid, free_ne (by simp), delim_ends rfl rfl⟩, shapeOk_node _⟩
  | anchor a =>
    obtain ⟨w1, w2, rfl, h1, h2⟩ := h
    obtain ⟨a1, a2, a3, a4⟩ := link_shape h1.valid h2.valid
    exact ⟨⟨a1, a2, a3, a4⟩, shapeOk_node _⟩
  | bold l =>
    obtain ⟨-, -, w, rfl, hw⟩ := h
    exact ⟨⟨valid_delim (by decide) (seq_valid bold_shape hw), free_ne (by simp), delim_ends rfl rfl⟩,
      shapeOk_node _⟩

theorem node_tree {stops} {src : Str} (b : Bool) (n : ParagraphNode) (v : V) (bs : Bool) (ts : List Token)
    (h : NodeV stops b n v) (hb : nodeShape n = .text → bs = b) (hs : SpV src bs ts v) :
    ∃ x : Inl, x.toks = ts ∧ InlOk stops x ∧ x.denote src = n := by
  cases n with
  | text s =>
    obtain ⟨h1, h2⟩ := h
    rw [hb rfl] at hs
    refine ⟨.text ts, rfl, ⟨spv_ne h2.valid hs (h2.ne h1), fun t ht => ⟨spv_quiet h2.valid hs h2.vq t ht, ?_⟩⟩, ?_⟩
    · simp only [inlineOpen, List.mem_cons, List.not_mem_nil, or_false, not_or]
      refine ⟨?_, ?_, ?_, ?_, ?_⟩
      · exact body_kind h2.valid (h2.notFree '~' (by decide)) (.inl rfl) hs t ht
      · exact body_kind h2.valid (h2.notFree '_' (by decide)) (.inr rfl) hs t ht
      · exact body_kind h2.valid (h2.notFree '*' (by decide)) (.inl rfl) hs t ht
      · exact body_kind h2.valid (h2.notFree '[' (by decide)) (.inr rfl) hs t ht
      · exact body_kind h2.valid (h2.notFree '`' (by decide)) (.inl rfl) hs t ht
    · simp only [Inl.denote]; rw [spv_text h2.valid hs, h2.chars]
  | italic s =>
    obtain ⟨w, rfl, hw⟩ := h
    obtain ⟨x, e, ox, tx⟩ := italic_tree hw hs
    refine ⟨.delim x, e, .inr (.inl ox), ?_⟩
    simp only [Inl.denote, ox.node, tx]
  | strikethrough s =>
    obtain ⟨hs1, w, rfl, hw⟩ := h
    obtain ⟨x, e, ox, tx⟩ := strike_tree hw hs1 hs
    refine ⟨.delim x, e, .inl ox, ?_⟩
    simp only [Inl.denote, ox.node, tx]
  | codeSpan s =>
    obtain ⟨hs1, w, rfl, hw⟩ := h
    obtain ⟨x, e, ox, tx⟩ := codeSpan_tree hw hs1 hs
    refine ⟨.delim x, e, .inr (.inr (.inl ox)), ?_⟩
    simp only [Inl.denote, ox.node, tx]
  | emphasis s =>
    obtain ⟨hs1, w, rfl, hw⟩ := h
    obtain ⟨x, e, ox, tx⟩ := emphasis_tree hw hs1 hs
    refine ⟨.delim x, e, .inr (.inr (.inr ox)), ?_⟩
    simp only [Inl.denote, ox.node, tx]
  | anchor a =>
    obtain ⟨w1, w2, rfl, h1, h2⟩ := h
    obtain ⟨x, e, ox, tx⟩ := link_tree h1 h2 hs
    exact ⟨.anchor x, e, ox, by simp only [Inl.denote, tx]⟩
  | bold l =>
    obtain ⟨hl, hch, w, rfl, hw⟩ := h
    obtain ⟨b1, b2, b3⟩ := boldV_head hw hl
    have hvd : Valid (free ['*', '*']) := valid_free (by decide)
    have hvw := seq_valid bold_shape hw
    have j1 : Join (free ['*', '*']) (w ++ free ['*', '*']) := by
      refine join_after hvd (c := '*') rfl (by decide) (by decide) (by simp) (.inr ?_)
      cases w with
      | nil => exact absurd rfl b1
      | cons x w => exact b2
    obtain ⟨t1, t23, rfl, s1, s23⟩ := spv_split hvd j1 hs
    obtain ⟨t2, t3, rfl, s2, s3⟩ := spv_split hvw b3 s23
    obtain ⟨o, rfl, so⟩ := spv_one (p := ⟨false, .Star, ['*', '*']⟩) rfl s1
    obtain ⟨c, rfl, sc⟩ := spv_one (p := ⟨false, .Star, ['*', '*']⟩) rfl s3
    obtain ⟨t, rfl, ot, dt⟩ := seq_tree (src := src) bold_shape (bold_item_tree (src := src)) hw hch (fun _ _ _ => rfl) s2
    refine ⟨.bold o t c, by simp [Inl.toks], ⟨?_, ?_, ot, ?_⟩, by simp only [Inl.denote, dt]⟩
    · simp only [isStar2, Bool.and_eq_true, decide_eq_true_eq]; exact ⟨so.kind, so.len⟩
    · simp only [isStar2, Bool.and_eq_true, decide_eq_true_eq]; exact ⟨sc.kind, sc.len⟩
    · rw [← dt] at hch
      refine noPair_of_chain (den := BoldItem.denote src) (f := isTextB) ?_ hch
      intro x hx
      cases x with
      | text ts => rfl
      | delim d => simp [isTextB] at hx

def ParaV (stops : List Stop) : Bool → Paragraph → V → Prop := SeqV (NodeV stops)

theorem para_valid {stops b p v} (h : ParaV stops b p v) : Valid v := seq_valid node_shape h

/-- The tokens of a paragraph view parse to a tree of the paragraph. -/
theorem para_tree {src stops b p v ts} (h : ParaV stops b p v) (hc : Chain nodeShape p) (hs : SpV src b ts v) :
    ∃ l : List Inl, paraToks l = ts ∧ (∀ x ∈ l, InlOk stops x) ∧ NoPair isTextI l ∧ paraDenote src l = p := by
  obtain ⟨t, e, ot, dt⟩ := seq_tree (src := src) node_shape (node_tree (src := src)) h hc (fun _ _ _ => rfl) hs
  refine ⟨t, e, ot, ?_, dt⟩
  rw [← dt] at hc
  refine noPair_of_chain (den := Inl.denote src) (f := isTextI) ?_ hc
  intro x hx
  cases x with
  | text ts => rfl
  | _ => simp [isTextI] at hx

/-! ### Headings -/

def HeadV (stops : List Stop) (b : Bool) : HeadingNode → V → Prop
  | .text s, v => s ≠ [] ∧ Body stops b [] s v ∧ ∀ c ∈ ['[', ']', '(', ')'], (true, c) ∉ v
  | .anchor a, v => ∃ w1 w2, v = linkV w1 w2 ∧ Body stops false [']'] a.text w1 ∧ Body stops false ['(', ')'] a.url w2

def headShape : HeadingNode → Shape
  | .text _ => .text
  | .anchor _ => .delim '[' ')'

theorem shapeOk_head (n : HeadingNode) : ShapeOk [] (headShape n) := by
  cases n <;> simp only [headShape, ShapeOk] <;> decide

theorem head_shape {stops} (b : Bool) (n : HeadingNode) (v : V) (h : HeadV stops b n v) :
    HasShape [] (headShape n) v ∧ ShapeOk [] (headShape n) := by
  cases n with
  | text s => exact ⟨⟨h.2.1.valid, h.2.1.ne h.1, h.2.1.notFree⟩, trivial⟩
  | anchor a =>
    obtain ⟨w1, w2, rfl, h1, h2⟩ := h
    obtain ⟨a1, a2, a3, a4⟩ := link_shape h1.valid h2.valid
    exact ⟨⟨a1, a2, a3, a4⟩, shapeOk_head _⟩

/-! #### Brackets of a text are bracket tokens -/

/-- A bracket or parenthesis that is not escaped is a token of its own. -/
theorem piece_single {p : Piece} {c : Char} {k : TokenKind} (hf : KindText p.kind p.esc p.text)
    (hk : fixedText k = some [c]) (hc : c ∈ ['[', ']', '(', ')']) (he : (true, c) ∉ pview p) (hm : c ∈ p.text) :
    p.kind = k ∧ p.text = [c] := by
  have hspec : c ∈ specials := by
    simp only [List.mem_cons, List.not_mem_nil, or_false] at hc
    rcases hc with rfl | rfl | rfl | rfl <;> decide
  have hnl : c ≠ '\n' ∧ c ≠ '\r' := by
    simp only [List.mem_cons, List.not_mem_nil, or_false] at hc
    rcases hc with rfl | rfl | rfl | rfl <;> decide
  cases hpk : p.kind with
  | Literal =>
    rw [hpk] at hf
    obtain ⟨d, r, e, h2, h3⟩ := hf
    rw [e] at hm
    rcases List.mem_cons.1 hm with rfl | hm
    · cases hesc : p.esc with
      | false => exact absurd hspec (h3 hesc).1
      | true => exact absurd (by simp [pview, e, hesc]) he
    · exact absurd hspec (h2 c hm)
  | Eol =>
    rw [hpk] at hf
    rcases hf with e | e <;> rw [e] at hm <;> simp [hnl] at hm
  | Terminator =>
    rw [hpk] at hf
    obtain ⟨a, b, ha, hb, e⟩ := hf
    rw [e] at hm
    rcases ha with rfl | rfl <;> rcases hb with rfl | rfl <;> simp [hnl] at hm
  | _ =>
    rw [hpk] at hf
    simp only [KindText, runCharOf, fixedText, Option.some.injEq] at hf
    first
      | (obtain ⟨-, h3⟩ := hf
         have := h3 c hm
         subst this
         exact absurd hc (by decide))
      | (rw [← hf] at hm
         simp only [List.mem_cons, List.not_mem_nil, or_false] at hm hc
         rcases hc with rfl | rfl | rfl | rfl <;> revert hk <;> cases k <;> simp_all [fixedText] <;> (rw [← hf]; decide))

theorem single_iff {src : Str} {b : Bool} {t : Token} {p : Piece} {c : Char} {k : TokenKind} (hs : SpT src b t p)
    (hf : KindText p.kind p.esc p.text) (hk : fixedText k = some [c]) (hc : c ∈ ['[', ']', '(', ')']) (he : (true, c) ∉ pview p) :
    (t.kind = k ∧ t.len = 1 ∧ p.text = [c]) ∨ (t.kind ≠ k ∧ c ∉ p.text) := by
  by_cases hm : c ∈ p.text
  · obtain ⟨h1, h2⟩ := piece_single hf hk hc he hm
    refine .inl ⟨by rw [hs.kind, h1], ?_, h2⟩
    rw [hs.len, h2]
    simp only [List.mem_cons, List.not_mem_nil, or_false] at hc
    rcases hc with rfl | rfl | rfl | rfl <;> rfl
  · refine .inr ⟨fun e => hm ?_, hm⟩
    rw [hs.kind] at e
    rw [e] at hf
    rw [(kindText_fixed hk _ _).1 hf]; simp

/-- The pieces are well formed and escape no bracket. -/
def Plain (ps : List Piece) : Prop := ∀ p ∈ ps, KindText p.kind p.esc p.text ∧ ∀ c ∈ ['[', ']', '(', ')'], (true, c) ∉ pview p

theorem any_paren {src : Str} : ∀ {b : Bool} {r : List Token} {ps : List Piece}, Sp src b r ps → Plain ps →
    r.any (fun t => decide (t.kind = .RightParenthesis)) = (ps.flatMap Piece.text).contains ')'
  | _, [], [], _, _ => rfl
  | _, [], _ :: _, h, _ => by simp [Sp] at h
  | _, _ :: _, [], h, _ => by simp [Sp] at h
  | b, t :: r, p :: ps, h, hp => by
    have ih := any_paren h.2 (fun q hq => hp q (by simp [hq]))
    have h1 := hp p (by simp)
    rw [List.any_cons, ih, List.flatMap_cons]
    rcases single_iff (k := .RightParenthesis) (c := ')') h.1 h1.1 rfl (by simp) (h1.2 ')' (by simp)) with ⟨a1, -, a2⟩ | ⟨a1, a2⟩
    · simp [a1, a2]
    · simp [a1, a2]

theorem reads_link {src : Str} {more : Bool} : ∀ {b : Bool} {r : List Token} {ps : List Piece}, Sp src b r ps → Plain ps →
    readsLink more r = closesAnchor more (ps.flatMap Piece.text)
  | _, [], [], _, _ => rfl
  | _, [], _ :: _, h, _ => by simp [Sp] at h
  | _, _ :: _, [], h, _ => by simp [Sp] at h
  | b, t :: r, p :: ps, h, hp => by
    have hp' : Plain ps := fun q hq => hp q (by simp [hq])
    have h1 := hp p (by simp)
    rw [List.flatMap_cons]
    rcases single_iff (k := .RightSquareBracket) (c := ']') h.1 h1.1 rfl (by simp) (h1.2 ']' (by simp)) with ⟨a1, a2, a3⟩ | ⟨a1, a2⟩
    · have hb : isRightBracket t = true := by simp [isRightBracket, a1, a2]
      unfold readsLink closesAnchor
      rw [a3, List.dropWhile_cons_of_neg (by simp [hb]), List.cons_append, List.dropWhile_cons_of_neg (by simp), List.nil_append]
      simp only
      cases r with
      | nil =>
        cases ps with
        | nil => rfl
        | cons q ps => simp [Sp] at h
      | cons x r =>
        cases ps with
        | nil => simp [Sp] at h
        | cons q ps =>
          have h2 := hp q (by simp)
          have hx := h.2.1
          have ha := any_paren h.2.2 (fun z hz => hp z (by simp [hz]))
          rw [List.flatMap_cons]
          simp only
          rcases single_iff (k := .LeftParenthesis) (c := '(') hx h2.1 rfl (by simp) (h2.2 '(' (by simp)) with ⟨b1, b2, b3⟩ | ⟨b1, b2⟩
          · rw [b3, List.cons_append, List.nil_append]
            simp only
            rw [ha]
            simp [isLeftParen, b1, b2]
          · have hl : isLeftParen x = false := by simp [isLeftParen, b1]
            rw [hl]
            cases hq : q.text with
            | nil => exact absurd hq (form_ne_nil h2.1)
            | cons c z =>
              have : c ≠ '(' := by rintro rfl; rw [hq] at b2; simp at b2
              simp [this]
    · have hb : isRightBracket t = false := by simp [isRightBracket, a1]
      have ih := reads_link (more := more) h.2 hp'
      have e1 : readsLink more (t :: r) = readsLink more r := by
        unfold readsLink
        rw [List.dropWhile_cons_of_pos (by simp [hb])]
      have e2 : closesAnchor more (p.text ++ ps.flatMap Piece.text) = closesAnchor more (ps.flatMap Piece.text) := by
        unfold closesAnchor
        rw [List.dropWhile_append_of_pos (fun c hc => by simp only [bne_iff_ne, ne_eq]; rintro rfl; exact a2 hc)]
      rw [e1, e2, ih]

theorem readsAnchor_suffix {more : Bool} {x y : Str} (h : readsAnchor more (x ++ '[' :: y) = false) : closesAnchor more y = false := by
  induction x with
  | nil =>
    simp only [List.nil_append, readsAnchor, beq_self_eq_true, Bool.true_and, Bool.or_eq_false_iff] at h
    exact h.1
  | cons c x ih =>
    simp only [List.cons_append, readsAnchor, Bool.or_eq_false_iff] at h
    exact ih h.2

theorem sp_text_at {src : Str} : ∀ {a : List Token} {t : Token} {r : List Token} {b : Bool} {ps : List Piece},
    Sp src b (a ++ t :: r) ps → ∃ p1 p p2 b1 b2, ps = p1 ++ p :: p2 ∧ SpT src b1 t p ∧ Sp src b2 r p2
  | [], t, r, b, [], h => by simp [Sp] at h
  | [], t, r, b, p :: ps, h => ⟨[], p, ps, b, isNl p, rfl, h.1, h.2⟩
  | u :: a, t, r, b, [], h => by simp [Sp] at h
  | u :: a, t, r, b, p :: ps, h => by
    obtain ⟨p1, q, p2, b1, b2, e, h1, h2⟩ := sp_text_at h.2
    exact ⟨p :: p1, q, p2, b1, b2, by rw [e]; rfl, h1, h2⟩

/-- No link is read in the tokens of a text in which no anchor would be read. -/
theorem text_plain {src b ts more s} {v : V} (hv : Valid v) (hc : v.map Prod.snd = s) (he : ∀ c ∈ ['[', ']', '(', ')'], (true, c) ∉ v)
    (hs : SpV src b ts v) (h : readsAnchor more s = false) :
    ∀ a t r, ts = a ++ t :: r → isLeftBracket t = true → readsLink more r = false := by
  rintro a t r rfl ht
  have hform := pieces_form (render v)
  have hview := pieces_view hv
  have hp : Plain (pieces (render v)) := by
    intro p hp
    refine ⟨(hform p hp).1, fun c hc hm => he c hc ?_⟩
    rw [← hview]
    exact List.mem_flatMap.2 ⟨p, hp, hm⟩
  have htext : (pieces (render v)).flatMap Piece.text = s := by rw [pieces_text, unescape_render hv, hc]
  obtain ⟨p1, p, p2, b1, b2, e, h1, h2⟩ := sp_text_at hs
  rw [e] at hp htext
  rw [reads_link h2 (fun q hq => hp q (by simp [hq]))]
  have hpp := hp p (by simp)
  have hk := leftBracket_kind ht
  rcases single_iff (k := .LeftSquareBracket) (c := '[') h1 hpp.1 rfl (by simp) (hpp.2 '[' (by simp)) with ⟨-, -, a2⟩ | ⟨a1, -⟩
  · rw [List.flatMap_append, List.flatMap_cons, a2] at htext
    rw [← htext] at h
    exact readsAnchor_suffix h
  · exact absurd hk a1

theorem head_node_tree {stops} {src : Str} (b : Bool) (n : HeadingNode) (v : V) (bs : Bool) (ts : List Token)
    (h : HeadV stops b n v) (hb : headShape n = .text → bs = b) (hs : SpV src bs ts v) :
    ∃ x : HeadItem, x.toks = ts ∧ (HeadItemOk stops x ∧ ∀ t, x = .text t → ∀ more s, n = .text s → readsAnchor more s = false →
      ∀ a u r, t = a ++ u :: r → isLeftBracket u = true → readsLink more r = false) ∧ x.denote src = n := by
  cases n with
  | text s =>
    obtain ⟨h1, h2, h3⟩ := h
    rw [hb rfl] at hs
    refine ⟨.text ts, rfl, ⟨⟨spv_ne h2.valid hs (h2.ne h1), fun t ht => spv_quiet h2.valid hs h2.vq t ht⟩, ?_⟩, ?_⟩
    · rintro t e more s' e' hr
      cases e; cases e'
      exact text_plain h2.valid h2.chars h3 hs hr
    · simp only [HeadItem.denote]; rw [spv_text h2.valid hs, h2.chars]
  | anchor a =>
    obtain ⟨w1, w2, rfl, h1, h2⟩ := h
    obtain ⟨x, e, ox, tx⟩ := link_tree h1 h2 hs
    exact ⟨.anchor x, e, ⟨ox, by simp⟩, by simp only [HeadItem.denote, tx]⟩

theorem heads_plain {src : Str} : ∀ {l : List HeadItem}, (∀ x ∈ l, ∀ t, x = .text t → ∀ more s, x.denote src = .text s →
    readsAnchor more s = false → ∀ a u r, t = a ++ u :: r → isLeftBracket u = true → readsLink more r = false) →
    plainHeading (l.map (HeadItem.denote src)) = true → HeadsPlain l
  | [], _, _ => trivial
  | .anchor k :: l, h, hp => by
    have h' := heads_plain (l := l) (tailAll h) hp
    exact h'
  | .text ts :: l, h, hp => by
    simp only [List.map_cons, HeadItem.denote, plainHeading, Bool.and_eq_true, Bool.not_eq_true'] at hp
    refine ⟨?_, heads_plain (tailAll h) hp.2⟩
    refine h (.text ts) (by simp) ts rfl _ _ rfl ?_
    have : (l.map (HeadItem.denote src)).isEmpty = l.isEmpty := by cases l <;> rfl
    rw [← this]; exact hp.1

theorem heading_tree {src stops b p v ts} (h : SeqV (HeadV stops) b p v) (hc : Chain headShape p) (hpl : plainHeading p = true)
    (hs : SpV src b ts v) :
    ∃ l : List HeadItem, l.flatMap HeadItem.toks = ts ∧ (∀ x ∈ l, HeadItemOk stops x) ∧ HeadsPlain l ∧ NoPair isTextH l ∧
      l.map (HeadItem.denote src) = p := by
  obtain ⟨t, e, ot, dt⟩ := seq_tree (src := src) (den := HeadItem.denote src) (Ok := fun x => HeadItemOk stops x ∧ ∀ t, x = .text t →
      ∀ more s, x.denote src = .text s → readsAnchor more s = false →
      ∀ a u r, t = a ++ u :: r → isLeftBracket u = true → readsLink more r = false) head_shape
    (fun b n v bs ts h1 h2 h3 => by
      obtain ⟨x, e, ox, dx⟩ := head_node_tree (src := src) b n v bs ts h1 h2 h3
      refine ⟨x, e, ⟨ox.1, ?_⟩, dx⟩
      rw [dx]; exact ox.2) h hc (fun _ _ _ => rfl) hs
  refine ⟨t, e, fun x hx => (ot x hx).1, heads_plain (fun x hx => (ot x hx).2) (by rw [dt]; exact hpl), ?_, dt⟩
  rw [← dt] at hc
  refine noPair_of_chain (den := HeadItem.denote src) (f := isTextH) ?_ hc
  intro x hx
  cases x with
  | text ts => rfl
  | anchor l => simp [isTextH] at hx

end Yamd.Round
