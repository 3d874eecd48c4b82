import Verif.Proofs.Serde

/-!
# Reading what was written without keys (C67)
-/

namespace Yamd.Serde.Keyless

open Yamd.Spec Yamd.Serde

theorem seq_map {α : Type} (g : α → Value) : ∀ l : List α, keylessSeq (l.map g) = l.map (fun x => keyless (g x))
  | [] => rfl
  | x :: r => by simp [keylessSeq, seq_map g r]

theorem variant_tagged (name : Str) (v : Value) : variant (keyless (tagged name v)) = some (name, some (keyless v)) := by
  simp [variant, tagged, keyless, keylessMap]

theorem anchor_back (a : Anchor) : toAnchor (keyless (ofAnchor a)) = some a := by
  simp [toAnchor, ofAnchor, keyless, keylessMap, fields, need, toStr]

theorem bold_back (b : BoldNode) : toBoldNode (keyless (ofBoldNode b)) = some b := by
  cases b <;> simp [toBoldNode, ofBoldNode, variant_tagged, need, keyless, toStr]

theorem body_back {α : Type} (f : Value → Option α) (g : α → Value) (l : List α)
    (h : ∀ x ∈ l, f (keyless (g x)) = some x) : toBody f (keyless (.map [(cs! "body", .seq (l.map g))])) = some l := by
  simp [toBody, keyless, keylessMap, seq_map, fields, need, toVec, mapM_map f (fun x => keyless (g x)) l h]

theorem pnode_back (n : ParagraphNode) : toParagraphNode (keyless (ofParagraphNode n)) = some n := by
  cases n with
  | anchor a => simp [toParagraphNode, ofParagraphNode, variant_tagged, need, anchor_back]
  | bold b =>
    simp [toParagraphNode, ofParagraphNode, variant_tagged, need,
      body_back toBoldNode ofBoldNode _ (fun x _ => bold_back x)]
  | _ => simp [toParagraphNode, ofParagraphNode, variant_tagged, need, keyless, toStr]

theorem para_back (p : Paragraph) : toParagraph (keyless (ofParagraph p)) = some p :=
  body_back _ _ p (fun x _ => pnode_back x)

theorem hnode_back (n : HeadingNode) : toHeadingNode (keyless (ofHeadingNode n)) = some n := by
  cases n with
  | anchor a => simp [toHeadingNode, ofHeadingNode, variant_tagged, need, anchor_back]
  | _ => simp [toHeadingNode, ofHeadingNode, variant_tagged, need, keyless, toStr]

theorem image_back (i : Image) : toImage (keyless (ofImage i)) = some i := by
  simp [toImage, ofImage, keyless, keylessMap, fields, need, toStr]

theorem types_back (t : ListTypes) : toListTypes (keyless (ofListTypes t)) = some t := by
  cases t <;> simp [toListTypes, ofListTypes, keyless, unitVariant]

theorem option_back (o : Option Str) : optional toStr (some (keyless (ofOption o))) = some o := by
  cases o <;> simp [optional, ofOption, keyless, toStr]

mutual
/-- Leaving out the keys keeps the depth. -/
theorem depth_keyless : ∀ v : Value, (keyless v).depth = v.depth
  | .null | .other | .num _ | .str _ => by simp [keyless]
  | .seq vs => by simp only [keyless, Value.depth, depths_keyless vs]
  | .map es => by simp only [keyless, Value.depth, entries_keyless es]
theorem depths_keyless : ∀ vs : List Value, depths (keylessSeq vs) = depths vs
  | [] => rfl
  | v :: r => by simp only [keylessSeq, depths, depth_keyless v, depths_keyless r]
theorem entries_keyless : ∀ es : List (Str × Value), depths (keylessMap es) = entryDepths es
  | [] => rfl
  | (_, v) :: r => by simp only [keylessMap, depths, entryDepths, depth_keyless v, entries_keyless r]
end

mutual
theorem list_back : ∀ (l : YList) (fuel : Nat), fitsList l → (ofList l).depth ≤ fuel →
    toList fuel (keyless (ofList l)) = some l
  | .mk t level body, fuel, hf, hd => by
    obtain ⟨h1, h2⟩ := by simpa [fitsList] using hf
    simp only [ofList, Value.depth, entryDepths] at hd
    obtain ⟨f, rfl⟩ : ∃ f, fuel = f + 1 := ⟨fuel - 1, by omega⟩
    have hi := items_back body f h2 (by omega)
    have hl : keyless (.num level) = .num level := by simp [keyless]
    simp only [ofList, keyless, keylessMap]
    rw [toList]
    simp [fields, need, types_back, toUsize, h1, toVec, hi]
theorem item_back : ∀ (i : YItem) (fuel : Nat), fitsItem i → (ofItem i).depth ≤ fuel →
    toItem fuel (keyless (ofItem i)) = some i
  | .mk text none, fuel, _, hd => by
    have := depth_pos (ofItem (.mk text none))
    obtain ⟨f, rfl⟩ : ∃ f, fuel = f + 1 := ⟨fuel - 1, by omega⟩
    simp only [ofItem, keyless, keylessMap]
    rw [toItem]
    simp [fields, need, toVec, optional, seq_map,
      mapM_map toParagraphNode (fun x => keyless (ofParagraphNode x)) text (fun x _ => pnode_back x)]
  | .mk text (some l), fuel, hf, hd => by
    have hf' : fitsList l := by simpa [fitsItem] using hf
    simp only [ofItem, Value.depth, entryDepths] at hd
    obtain ⟨f, rfl⟩ : ∃ f, fuel = f + 1 := ⟨fuel - 1, by omega⟩
    have hi := list_back l f hf' (by omega)
    have ho : optional (toList f) (some (keyless (ofList l))) = some (some l) := by
      cases l with
      | mk t level body => simp only [ofList, keyless] at hi ⊢; simp [optional, hi]
    simp only [ofItem, keyless, keylessMap]
    rw [toItem]
    simp [fields, need, toVec, ho, seq_map,
      mapM_map toParagraphNode (fun x => keyless (ofParagraphNode x)) text (fun x _ => pnode_back x)]
theorem items_back : ∀ (is : List YItem) (fuel : Nat), fitsItems is → depths (ofItems is) ≤ fuel →
    (keylessSeq (ofItems is)).mapM (toItem fuel) = some is
  | [], _, _, _ => rfl
  | i :: r, fuel, hf, hd => by
    obtain ⟨h1, h2⟩ := by simpa [fitsItems] using hf
    simp only [ofItems, depths] at hd
    simp only [ofItems, keylessSeq, List.mapM_cons, item_back i fuel h1 (by omega), items_back r fuel h2 (by omega)]
    rfl
end

mutual
theorem node_back : ∀ (n : YamdNode) (fuel : Nat), fitsNode n → (ofNode n).depth ≤ fuel →
    toNode fuel (keyless (ofNode n)) = some n
  | n, 0, _, hd => by have := depth_pos (ofNode n); omega
  | .paragraph p, f + 1, _, _ => by simp [toNode, ofNode, variant_tagged, need, para_back]
  | .heading level body, f + 1, hf, _ => by
    have h1 : level < 2 ^ 8 := by simpa [fitsNode] using hf
    simp [toNode, ofNode, variant_tagged, need, toHeading, fields, keyless, keylessMap, toU8, h1, toVec, seq_map,
      mapM_map toHeadingNode (fun x => keyless (ofHeadingNode x)) body (fun x _ => hnode_back x)]
  | .image i, f + 1, _, _ => by simp [toNode, ofNode, variant_tagged, need, image_back]
  | .images body, f + 1, _, _ => by
    simp [toNode, ofNode, variant_tagged, need, body_back toImage ofImage body (fun x _ => image_back x)]
  | .code lang code, f + 1, _, _ => by
    simp [toNode, ofNode, variant_tagged, need, toCode, fields, keyless, keylessMap, toStr]
  | .list l, f + 1, hf, hd => by
    have h1 : fitsList l := by simpa [fitsNode] using hf
    simp only [ofNode, tagged, Value.depth, entryDepths] at hd
    simp [toNode, ofNode, variant_tagged, need, list_back l f h1 (by omega)]
  | .highlight title icon body, f + 1, _, _ => by
    simp [toNode, ofNode, variant_tagged, need, toHighlight, fields, keyless, keylessMap, toVec, option_back, seq_map,
      mapM_map toParagraph (fun x => keyless (ofParagraph x)) body (fun x _ => para_back x)]
  | .thematicBreak, f + 1, _, _ => by
    simp [toNode, ofNode, variant_tagged, need, toThematicBreak, fields, keyless, keylessMap]
  | .embed kind args, f + 1, _, _ => by
    simp [toNode, ofNode, variant_tagged, need, toEmbed, fields, keyless, keylessMap, toStr]
  | .collapsible title body, f + 1, hf, hd => by
    have h1 : fitsNodes body := by simpa [fitsNode] using hf
    simp only [ofNode, tagged, Value.depth, entryDepths] at hd
    obtain ⟨g, rfl⟩ : ∃ g, f = g + 1 := ⟨f - 1, by omega⟩
    simp [toNode, ofNode, variant_tagged, need, toCollapsible, fields, keyless, keylessMap, toStr, toVec,
      nodes_back body g h1 (by omega)]
theorem nodes_back : ∀ (ns : List YamdNode) (fuel : Nat), fitsNodes ns → depths (ofNodes ns) ≤ fuel →
    (keylessSeq (ofNodes ns)).mapM (toNode fuel) = some ns
  | [], _, _, _ => rfl
  | n :: r, fuel, hf, hd => by
    obtain ⟨h1, h2⟩ := by simpa [fitsNodes] using hf
    simp only [ofNodes, depths] at hd
    simp only [ofNodes, keylessSeq, List.mapM_cons, node_back n fuel h1 (by omega), nodes_back r fuel h2 (by omega)]
    rfl
end

theorem yamd_back (y : Yamd) (h : fitsNodes y.body) : toYamd (keyless (ofYamd y)) = some y := by
  have hd : depths (ofNodes y.body) ≤ (keyless (ofYamd y)).depth := by
    rw [depth_keyless]
    simp only [ofYamd, Value.depth, entryDepths]; omega
  simp only [toYamd]
  generalize (keyless (ofYamd y)).depth = d at hd ⊢
  simp [ofYamd, fields, keyless, keylessMap, need, toVec, option_back, nodes_back y.body d h hd]

end Yamd.Serde.Keyless
