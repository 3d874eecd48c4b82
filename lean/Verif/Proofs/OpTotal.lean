import Verif.Proofs.OpCount
import Verif.Proofs.DocFacts
import Verif.Proofs.Segmentation
import Verif.Proofs.StepsTop
import Verif.Spec.Size

/-!
# The number of ops and nodes is linear in the number of tokens
-/

namespace Yamd.Ref

open Yamd Yamd.Spec Yamd.Props Lexer

variable {src : Str}

/-- No paragraph of the block is without tokens. -/
def Block.Dense : Block → Prop
  | .highlight _ _ _ b _ => ∀ x ∈ b, x.toks ≠ []
  | .para l => paraToks l ≠ []
  | _ => True

def Doc.Dense : Doc → Prop
  | .nil => True
  | .term _ r => r.Dense
  | .block b r => b.Dense ∧ r.Dense
  | .coll _ _ i _ _ r => i.Dense ∧ r.Dense

theorem hlParasB_dense {stops ts l c r} (h : hlParasB stops ts = some (l, c, r)) : ∀ x ∈ l, x.toks ≠ [] := by
  refine hlParasB_ind stops (P := fun _ l _ _ => ∀ x ∈ l, x.toks ≠ []) ?_ ?_ ?_ ts l c r h
  · intro ts _ _ _ x hx; cases hx
  · intro ts _ _ _ x hx; cases hx
  · intro ts l c r hs hb hlt ih x hx
    rcases List.mem_cons.1 hx with rfl | hx
    · intro e
      have h1 := congrArg List.length (termB_toks ts)
      have h2 := congrArg List.length (paraB_toks _ (stops := .Terminator :: .HighlightEnd :: stops) (acc := []) (Nat.le_refl (termB ts).2.length))
      have e := congrArg List.length e
      simp only [HPara.toks, List.length_append, List.length_nil, List.nil_append] at e h1 h2
      omega
    · exact ih x hx

theorem highlightB_dense {stops ts b r} (h : highlightB stops ts = some (b, r)) : b.Dense := by
  have key : ∀ {opening m r b rest}, hlRestB stops opening m r = some (b, rest) → b.Dense := by
    intro opening m r b rest h
    unfold hlRestB at h
    simp only at h
    split at h
    · simp only [Option.map_eq_some_iff] at h
      obtain ⟨⟨l, c, r'⟩, h1, h2⟩ := h
      simp only [Prod.mk.injEq] at h2
      obtain ⟨rfl, rfl⟩ := h2
      exact hlParasB_dense h1
    · simp at h
  unfold highlightB at h
  split at h
  · split at h
    · exact key h
    · exact key h
  · simp at h

theorem embedB_dense {stops ts b r} (h : embedB stops ts = some (b, r)) : b.Dense := by
  unfold embedB at h
  split at h
  · cases h
  · split at h
    · split at h
      · cases h
      · split at h
        · cases h
        · simp only [Option.map_eq_some_iff] at h
          obtain ⟨⟨x, y⟩, h1, h2⟩ := h
          simp only [Prod.mk.injEq] at h2
          rw [← h2.1]; trivial
    · cases h

theorem otherB_dense {stops ts} (hs : stopAt (.Terminator :: stops) ts = false) : (otherB stops ts).1.Dense := by
  have hlt := otherB_lt hs
  have ht := congrArg List.length (otherB_toks stops ts)
  rw [List.length_append] at ht
  have hne : (otherB stops ts).1.toks ≠ [] := by
    intro e; rw [e] at ht; simp at ht; omega
  cases hb : (otherB stops ts).1 with
  | highlight o m i l c =>
    rcases otherB_cases stops ts with h | h | h
    · rw [← hb]; exact embedB_dense (r := (otherB stops ts).2) h
    · rw [← hb]
      exact highlightB_dense (r := (otherB stops ts).2) h
    · exfalso
      rw [h] at hb
      rcases leafB_cases (.Terminator :: stops) ts with ⟨k, m, p, n, r, rest, h1, h2⟩ | ⟨i, l, r, h1, h2⟩ | h | h | h
      · rw [h2] at hb; cases hb
      · rw [h2] at hb; cases hb
      · generalize leafB (.Terminator :: stops) ts = x at h hb
        cases ts with
        | nil => simp [thematicB] at h
        | cons t r =>
          rw [thematicB] at h
          split at h
          · simp only [Option.some.injEq] at h; subst h; cases hb
          · simp at h
      · generalize leafB (.Terminator :: stops) ts = x at h hb
        unfold headingB at h
        split at h
        · simp only [Option.some.injEq] at h; subst h; cases hb
        · simp at h
      · rw [h] at hb; cases hb
  | para l => rw [hb] at hne; exact hne
  | _ => trivial

theorem codeB_dense {stops ts b r} (h : codeB stops ts = some (b, r)) : b.Dense := by
  have key : ∀ {o m x}, codeRestB stops o m x = some (b, r) → b.Dense := by
    intro o m x hx
    unfold codeRestB at hx
    split at hx
    · cases hx
    · simp only [Option.map_eq_some_iff] at hx
      obtain ⟨y, -, h2⟩ := hx
      simp only [Prod.mk.injEq] at h2
      rw [← h2.1]; trivial
  unfold codeB at h
  split at h
  · cases h
  · split at h
    · split at h <;> exact key h
    · cases h

theorem docB_dense (s ts) : (docB s ts).1.Dense := by
  induction s, ts using docB_ind with
  | stop s ts h e => rw [e]; trivial
  | term s t r hs ht e ih => rw [e]; exact ih
  | code s t r b rest hs ht hc e ih => rw [e]; exact ⟨codeB_dense hc, ih⟩
  | coll s t r o m r1 c r4 hs ht hc ho hcl e ih1 ih2 => rw [e]; exact ⟨ih1, ih2⟩
  | fallback s t r o m r1 x hs ht hc ho hcl hx hl hst e ih1 ih2 => rw [e]; exact ⟨otherB_dense hst, ih2⟩
  | other s t r hs ht hc ho hst e ih => rw [e]; exact ⟨otherB_dense hst, ih⟩

/-! ### Ops -/

theorem inl_count3 {x : Inl} (h : x.Ok) : (x.ops src).length + 2 ≤ 3 * x.toks.length := by
  cases x with
  | text ts => have := pos_of_ne h; show 1 + 2 ≤ 3 * ts.length; omega
  | delim d =>
    show 3 + 2 ≤ 3 * d.toks.length
    rw [delim_toks_length]; omega
  | bold o items c =>
    obtain ⟨-, -, h3, -⟩ := h
    have := flatMap_count (f := BoldItem.ops src) (g := BoldItem.toks) (k := 2) (fun x hx => boldItem_count (h3 x hx))
    simp only [Inl.ops, Inl.toks, List.length_cons, List.length_append, List.length_nil]
    omega
  | anchor l =>
    have h2 : 4 ≤ l.toks.length := by simp only [Link.toks, List.length_append, delim_toks_length]; omega
    show 8 + 2 ≤ 3 * l.toks.length
    omega

theorem para_count3 {l : List Inl} (h : ∀ x ∈ l, x.Ok) (hne : paraToks l ≠ []) :
    (paraOps src l).length ≤ 3 * (paraToks l).length := by
  cases l with
  | nil => exact absurd rfl hne
  | cons x l =>
    have h1 := inl_count3 (src := src) (h x (by simp))
    have h2 := flatMap_count (l := l) (f := Inl.ops src) (g := Inl.toks) (k := 2)
      (fun x hx => inl_count (h x (by simp [hx])))
    simp only [paraOps, paraToks, List.flatMap_cons, List.length_cons, List.length_append, List.length_nil]
    omega

theorem mod_count (m : Option Mod) : (modOps src m).length ≤ 3 * (modToks m).length := by
  cases m with
  | none => simp [modOps]
  | some m => simp only [modOps, modToks, List.length_cons, List.length_append, List.length_nil]; omega

theorem icon_count (i : Option IconLine) : (iconOps src i).length ≤ 3 * (iconToks i).length := by
  cases i with
  | none => simp [iconOps]
  | some m => simp only [iconOps, iconToks, List.length_cons, List.length_append, List.length_nil]; omega

theorem hpara_count {x : HPara} (h : x.Ok) (hne : x.toks ≠ []) : (x.ops src).length ≤ 3 * x.toks.length := by
  obtain ⟨t, p⟩ := x
  obtain ⟨h1, h2⟩ := h
  simp only [HPara.toks, HPara.ops, List.length_append] at hne ⊢
  rcases h1 with h1 | ⟨t', h1, -⟩
  · simp only at h1; subst h1
    have := para_count3 (src := src) h2.1 hne
    simp only [termOps, List.length_nil]; simp only at this; omega
  · simp only at h1; subst h1
    have := para_count (src := src) h2.1
    simp only [termOps, List.length_cons, List.length_nil]; simp only at this; omega

theorem LineOf.pos {f g ts} (h : LineOf f g ts) : 1 ≤ ts.length := by
  rcases h with ⟨t, rfl, -⟩ | ⟨t, e, rfl, -⟩ <;> simp

theorem PairOf.two {f g ts} (h : PairOf f g ts) : 2 ≤ ts.length := by
  obtain ⟨t, e, rfl, -⟩ := h; simp

theorem items_pos {i : Items} {level want} (h : i.Ok level want) (hne : i ≠ .nil) : 2 ≤ i.toks.length := by
  cases i with
  | nil => exact absurd rfl hne
  | cons k m p n r =>
    have := markerOk_length h.2.1
    simp only [Items.toks, List.length_append]
    split at this <;> omega

theorem block_count {b : Block} (h : b.Ok) (hd : b.Dense) : (b.ops src).length ≤ 3 * b.toks.length := by
  cases b with
  | code o m b c =>
    obtain ⟨h1, -, -, h2⟩ := h
    have := h1.pos; have := h2.pos; have := mod_count (src := src) m
    simp only [Block.ops, Block.toks, List.length_cons, List.length_append, List.length_nil]; omega
  | embed o l p r c =>
    obtain ⟨-, -, -, -, h2⟩ := h
    have := h2.pos
    simp only [Block.ops, Block.toks, List.length_cons, List.length_append, List.length_nil]; omega
  | highlight o m i b c =>
    obtain ⟨h1, -, -, h3, h2⟩ := h
    have := h1.two; have := h2.pos; have := mod_count (src := src) m; have := icon_count (src := src) i
    have := flatMap_count (f := HPara.ops src) (g := HPara.toks) (k := 3) (fun x hx => hpara_count (h3 x hx) (hd x hx))
    simp only [Block.ops, Block.toks, List.length_cons, List.length_append, List.length_nil]; omega
  | list i =>
    have := list_count (src := src) h.1
    have := items_pos h.1 h.2
    simp only [Block.ops, Block.toks]; omega
  | images l =>
    have : 2 * l.length + (l.flatMap (Img.ops src)).length ≤ 2 * (l.flatMap Img.toks).length := by
      clear h hd
      induction l with
      | nil => simp
      | cons x l ih =>
        have := img_count (src := src) x
        simp only [List.flatMap_cons, List.length_append, List.length_cons]; omega
    simp only [Block.ops, Block.toks]
    split
    · simp only [List.length_cons, List.length_append, List.length_nil]; omega
    · omega
  | thematic t => simp [Block.ops, Block.toks]
  | heading m b =>
    obtain ⟨⟨a, s, rfl, -⟩, h2⟩ := h
    have := flatMap_count (f := HeadItem.ops src) (g := HeadItem.toks) (k := 2) (fun x hx => headItem_count (h2.1 x hx))
    simp only [Block.ops, Block.toks, List.length_cons, List.length_append, List.length_nil]; omega
  | para l => exact para_count3 h.1 hd

theorem doc_count : ∀ {d : Doc}, d.Ok → d.Dense → (d.ops src).length ≤ 3 * d.toks.length
  | .nil, _, _ => by simp [Doc.ops]
  | .term t r, h, hd => by
    have := doc_count h.2 hd
    simp only [Doc.ops, Doc.toks, List.length_cons]; omega
  | .block b r, h, hd => by
    have := block_count (src := src) h.1 hd.1
    have := doc_count h.2 hd.2
    simp only [Doc.ops, Doc.toks, List.length_append]; omega
  | .coll o m i s c r, h, hd => by
    obtain ⟨h1, -, h3, -, h5, h6⟩ := h
    have := h1.two; have := h5.pos; have := mod_count (src := src) m
    have := doc_count h3 hd.1
    have := doc_count h6 hd.2
    simp only [Doc.ops, Doc.toks, List.length_cons, List.length_append]; omega

theorem topB_dense (ts : List Token) : (topB ts).doc.Dense := by
  unfold topB
  split <;> exact docB_dense _ _

theorem top_count (ts : List Token) : ((topB ts).ops src).length ≤ 3 * ts.length + 2 := by
  have h := doc_count (src := src) (topB_doc_ok ts) (topB_dense ts)
  have hl := (top_flips ts).length
  rw [← hl]
  unfold Top.ops Top.toks
  cases (topB ts).meta? with
  | none => simp only [List.length_cons, List.length_append, List.length_nil]; omega
  | some d =>
    have := delim_count (src := src) d
    simp only [List.length_cons, List.length_append, List.length_nil]; omega

theorem place_length (s : Str) : ∀ (pos col row : Nat), (place pos col row (pieces s)).length ≤ s.length := by
  induction s using pieces_induction with
  | h0 s h => intros; rw [pieces_none h]; simp [place]
  | h1 s p r h ih =>
    intro pos col row
    rw [pieces_some h]
    have hsrc := tok1_src h
    have hpos := pos_of_ne (form_ne_nil (tok1_form h).1)
    have hb := congrArg List.length hsrc
    simp only [Piece.src, List.length_append] at hb
    simp only [place, List.length_cons]
    have := ih (pos + (if p.esc = true then 1 else 0) + blen p.text)
    refine Nat.le_trans (Nat.add_le_add_right (ih _ _ _) _) ?_
    omega

theorem tokens_length (input : Str) : (tokens input).length ≤ input.length := place_length _ _ _ _

/-! ### Nodes -/

theorem boldItems_nodes {l : List BoldItem} (h : ∀ x ∈ l, x.Ok) : l.length ≤ (l.flatMap BoldItem.toks).length := by
  induction l with
  | nil => simp
  | cons x l ih =>
    have := ih (fun y hy => h y (by simp [hy]))
    have hx : 1 ≤ x.toks.length := by
      have := h x (by simp)
      cases x with
      | text ts => exact pos_of_ne this
      | delim d => show 1 ≤ d.toks.length; rw [delim_toks_length]; omega
    simp only [List.flatMap_cons, List.length_append, List.length_cons]; omega

theorem inl_nodes {x : Inl} (h : x.Ok) : nodesP (x.denote src) ≤ x.toks.length := by
  cases x with
  | text ts => exact pos_of_ne h
  | delim d =>
    have : 1 ≤ d.toks.length := by rw [delim_toks_length]; omega
    simp only [Inl.denote, Inl.toks]
    split <;> exact this
  | bold o items c =>
    have := boldItems_nodes h.2.2.1
    simp only [Inl.denote, nodesP, Inl.toks, List.length_map, List.length_cons, List.length_append, List.length_nil]
    omega
  | anchor l =>
    show 1 ≤ l.toks.length
    simp only [Link.toks, List.length_append, delim_toks_length]; omega

theorem para_nodes {l : List Inl} (h : ∀ x ∈ l, x.Ok) : nodesPara (paraDenote src l) ≤ (paraToks l).length + 1 := by
  have : ((paraDenote src l).map nodesP).sum ≤ (paraToks l).length := by
    induction l with
    | nil => simp [paraDenote]
    | cons x l ih =>
      have h1 := ih (fun y hy => h y (by simp [hy]))
      have h2 := inl_nodes (src := src) (h x (by simp))
      simp only [paraDenote, paraToks] at h1
      simp only [paraDenote, paraToks, List.map_cons, List.sum_cons, List.flatMap_cons, List.length_append]; omega
  unfold nodesPara; omega

theorem trim_nodes (p : Paragraph) : nodesPara (ToYamd.trimTrailingNewline p) ≤ nodesPara p := by
  unfold ToYamd.trimTrailingNewline
  split
  · rename_i t h
    have e : p = p.dropLast ++ [.text t] := by
      obtain ⟨l, rfl⟩ := List.getLast?_eq_some_iff.1 h
      simp
    simp only
    split
    · conv => rhs; rw [e]
      simp [nodesPara, nodesP]
    · conv => rhs; rw [e]
      simp [nodesPara, nodesP]
  · exact Nat.le_refl _

theorem nodesNs_append (a b : List YamdNode) : nodesNs (a ++ b) = nodesNs a + nodesNs b := by
  induction a with
  | nil => simp [nodesNs]
  | cons x a ih => simp only [List.cons_append, nodesNs, ih]; omega

theorem items_nodes : ∀ {i : Items} {level want} (lv : Nat), i.Ok level want →
    nodesIs (i.denote src lv) + (if level = 0 ∨ i = .nil then 0 else 1) ≤ i.toks.length
  | .nil, _, _, _, _ => by simp [Items.denote, nodesIs]
  | .cons k m p n r, level, want, lv, h => by
    obtain ⟨-, hm, hp, hn, hr⟩ := h
    have h1 := markerOk_length hm
    have h2 := para_nodes (src := src) hp.1
    have h2' := trim_nodes (paraDenote src p)
    have h3 := items_nodes (lv + 1) hn
    have h4 := items_nodes lv hr
    simp only [Items.denote, nodesIs, Items.toks, List.length_append]
    cases n with
    | nil =>
      simp only [wrapDenote, Items.kind, Option.map_none, nodesI, Items.toks, List.length_nil]
      split <;> split at h1 <;> simp_all <;> omega
    | cons k' m' p' n' r' =>
      rw [if_neg (by simp)] at h3
      simp only [wrapDenote, Items.kind, Option.map_some, nodesI, nodesL]
      split <;> split at h1 <;> simp_all <;> omega

theorem block_nodes {b : Block} (h : b.Ok) (hd : b.Dense) : nodesN (b.denote src) ≤ 2 * b.toks.length := by
  cases b with
  | code o m b c =>
    have := h.1.pos
    simp only [Block.denote, YamdNode.newCode, nodesN, Block.toks, List.length_append]; omega
  | embed o l p r c => simp only [Block.denote, nodesN, Block.toks, List.length_cons]; omega
  | highlight o m i b c =>
    obtain ⟨h1, -, -, h3, h2⟩ := h
    have := h1.two
    have hb : (((b.map fun h => ToYamd.trimTrailingNewline (paraDenote src h.para)).map nodesPara).sum) ≤
        2 * (b.flatMap HPara.toks).length := by
      have hd : ∀ x ∈ b, x.toks ≠ [] := hd
      clear h1 h2
      induction b with
      | nil => simp
      | cons x b ih =>
        have e1 := ih (fun y hy => hd y (by simp [hy])) (fun y hy => h3 y (by simp [hy])) (fun y hy => hd y (by simp [hy]))
        have e2 := pos_of_ne (hd x (by simp))
        have e3 := para_nodes (src := src) (h3 x (by simp)).2.1
        have e4 := trim_nodes (paraDenote src x.para)
        simp only [HPara.toks, List.length_append] at e2
        simp only [List.map_cons, List.sum_cons, List.flatMap_cons, List.length_append, HPara.toks]
        omega
    simp only [Block.denote, nodesN, Block.toks, List.length_append]; omega
  | list i =>
    have h1 := items_nodes (src := src) 0 h.1
    have := items_pos h.1 h.2
    simp only [Block.denote, nodesN, nodesL, Block.toks]; omega
  | images l =>
    have hl : l.length ≤ (l.flatMap Img.toks).length := by
      clear h hd
      induction l with
      | nil => simp
      | cons x l ih => simp only [List.flatMap_cons, List.length_append, List.length_cons, Img.toks]; omega
    have hp := pos_of_ne h.1
    have : nodesN (Block.denote src (.images l)) ≤ 1 + l.length := by
      match l with
      | [] => simp [Block.denote, nodesN]
      | [i] => simp [Block.denote, nodesN]
      | i :: j :: l => simp [Block.denote, nodesN]
    simp only [Block.toks]; omega
  | thematic t => simp [Block.denote, nodesN, Block.toks]
  | heading m b =>
    obtain ⟨⟨a, s, rfl, -⟩, h2⟩ := h
    have : b.length ≤ (b.flatMap HeadItem.toks).length := by
      obtain ⟨h2, -, -⟩ := h2
      clear hd
      induction b with
      | nil => simp
      | cons x b ih =>
        have e := ih (fun y hy => h2 y (by simp [hy]))
        have hx : 1 ≤ x.toks.length := by
          have := h2 x (by simp)
          cases x with
          | text ts => exact pos_of_ne this
          | anchor l => show 1 ≤ l.toks.length; simp only [Link.toks, List.length_append, delim_toks_length]; omega
        simp only [List.flatMap_cons, List.length_append, List.length_cons]; omega
    simp only [Block.denote, nodesN, Block.toks, List.length_map, List.length_append, List.length_cons, List.length_nil]; omega
  | para l =>
    have := para_nodes (src := src) h.1
    have := pos_of_ne hd
    simp only [Block.denote, nodesN, Block.toks]; omega

theorem doc_nodes : ∀ {d : Doc}, d.Ok → d.Dense →
    nodesNs (d.denote src) ≤ 2 * d.toks.length ∧ 3 * depthNs (d.denote src) ≤ d.toks.length
  | .nil, _, _ => by simp [Doc.denote, nodesNs, depthNs]
  | .term t r, h, hd => by
    have := doc_nodes h.2 hd
    simp only [Doc.denote, Doc.toks, List.length_cons]; omega
  | .block b r, h, hd => by
    have h1 := block_nodes (src := src) h.1 hd.1
    have h2 := doc_nodes h.2 hd.2
    have h3 : depthN (b.denote src) = 0 := by
      cases b with
      | images l =>
        match l with
        | [] => rfl
        | [i] => rfl
        | i :: j :: l => rfl
      | _ => rfl
    simp only [Doc.denote, Doc.toks, List.length_append, nodesNs, depthNs, h3]; omega
  | .coll o m i s c r, h, hd => by
    obtain ⟨h1, -, h3, -, h5, h6⟩ := h
    have := h1.two; have := h5.pos
    have := doc_nodes h3 hd.1
    have := doc_nodes h6 hd.2
    simp only [Doc.denote, Doc.toks, List.length_append, nodesNs, depthNs, nodesN, depthN]; omega

theorem top_nodes (ts : List Token) : nodeCount ((topB ts).denote src) ≤ 2 * ts.length ∧
    3 * collapsibleDepth ((topB ts).denote src) ≤ ts.length := by
  have h := doc_nodes (src := src) (topB_doc_ok ts) (topB_dense ts)
  have hl := (top_flips ts).length
  rw [← hl]
  unfold nodeCount collapsibleDepth
  have e : ((topB ts).denote src).body = (topB ts).doc.denote src := rfl
  rw [e]
  unfold Top.toks
  rw [List.length_append]
  omega

end Yamd.Ref
