import Verif.Spec.Serde

/-!
# Reading what was written (C67)
-/

namespace Yamd.Serde

open Yamd.Spec

theorem mapM_map {α β : Type} (f : β → Option α) (g : α → β) :
    ∀ l : List α, (∀ x ∈ l, f (g x) = some x) → (l.map g).mapM f = some l
  | [], _ => rfl
  | x :: r, h => by
    simp only [List.map_cons, List.mapM_cons, h x (by simp), mapM_map f g r (fun y hy => h y (by simp [hy]))]
    rfl

theorem variant_tagged (name : Str) (v : Value) : variant (tagged name v) = some (name, some v) := by
  simp [variant, tagged, field, need, toStr]

theorem anchor_back (a : Anchor) : toAnchor (ofAnchor a) = some a := by
  simp [toAnchor, ofAnchor, fields, field, need, toStr]

theorem bold_back (b : BoldNode) : toBoldNode (ofBoldNode b) = some b := by
  cases b <;> simp [toBoldNode, ofBoldNode, variant_tagged, need, toStr]

theorem body_back {α : Type} (f : Value → Option α) (g : α → Value) (l : List α)
    (h : ∀ x ∈ l, f (g x) = some x) : toBody f (.map [(cs! "body", .seq (l.map g))]) = some l := by
  simp [toBody, fields, field, need, toVec, mapM_map f g l h]

theorem pnode_back (n : ParagraphNode) : toParagraphNode (ofParagraphNode n) = some n := by
  cases n <;>
    simp [toParagraphNode, ofParagraphNode, variant_tagged, need, toStr, anchor_back,
      body_back toBoldNode ofBoldNode _ (fun x _ => bold_back x)]

theorem para_back (p : Paragraph) : toParagraph (ofParagraph p) = some p :=
  body_back _ _ p (fun x _ => pnode_back x)

theorem hnode_back (n : HeadingNode) : toHeadingNode (ofHeadingNode n) = some n := by
  cases n <;> simp [toHeadingNode, ofHeadingNode, variant_tagged, need, toStr, anchor_back]

theorem image_back (i : Image) : toImage (ofImage i) = some i := by
  simp [toImage, ofImage, fields, field, need, toStr]

theorem types_back (t : ListTypes) : toListTypes (ofListTypes t) = some t := by
  cases t <;> simp [toListTypes, ofListTypes, unitVariant]

theorem option_back (o : Option Str) : optional toStr (some (ofOption o)) = some o := by
  cases o <;> simp [optional, ofOption, toStr]

theorem depth_pos (v : Value) : 0 < v.depth := by cases v <;> simp [Value.depth]

mutual
theorem list_back : ∀ (l : YList) (fuel : Nat), fitsList l → (ofList l).depth ≤ fuel → toList fuel (ofList l) = some l
  | .mk t level body, fuel, hf, hd => by
    obtain ⟨h1, h2⟩ := by simpa [fitsList] using hf
    simp only [ofList, Value.depth, entryDepths] at hd
    obtain ⟨f, rfl⟩ : ∃ f, fuel = f + 1 := ⟨fuel - 1, by omega⟩
    have hi := items_back body f h2 (by omega)
    simp [toList, ofList, fields, field, need, types_back, toUsize, h1, toVec, hi]
theorem item_back : ∀ (i : YItem) (fuel : Nat), fitsItem i → (ofItem i).depth ≤ fuel → toItem fuel (ofItem i) = some i
  | .mk text none, fuel, _, hd => by
    have := depth_pos (ofItem (.mk text none))
    obtain ⟨f, rfl⟩ : ∃ f, fuel = f + 1 := ⟨fuel - 1, by omega⟩
    simp [toItem, ofItem, fields, field, need, toVec, optional,
      mapM_map toParagraphNode ofParagraphNode text (fun x _ => pnode_back x)]
  | .mk text (some l), fuel, hf, hd => by
    have hf' : fitsList l := by simpa [fitsItem] using hf
    simp only [ofItem, Value.depth, entryDepths] at hd
    obtain ⟨f, rfl⟩ : ∃ f, fuel = f + 1 := ⟨fuel - 1, by omega⟩
    have hi := list_back l f hf' (by omega)
    have ho : optional (toList f) (some (ofList l)) = some (some l) := by
      cases l with
      | mk t level body => simp only [ofList] at hi ⊢; simp [optional, hi]
    simp [toItem, ofItem, fields, field, need, toVec, ho,
      mapM_map toParagraphNode ofParagraphNode text (fun x _ => pnode_back x)]
theorem items_back : ∀ (is : List YItem) (fuel : Nat), fitsItems is → depths (ofItems is) ≤ fuel →
    (ofItems is).mapM (toItem fuel) = some is
  | [], _, _, _ => rfl
  | i :: r, fuel, hf, hd => by
    obtain ⟨h1, h2⟩ := by simpa [fitsItems] using hf
    simp only [ofItems, depths] at hd
    simp only [ofItems, List.mapM_cons, item_back i fuel h1 (by omega), items_back r fuel h2 (by omega)]
    rfl
end

mutual
theorem node_back : ∀ (n : YamdNode) (fuel : Nat), fitsNode n → (ofNode n).depth ≤ fuel →
    toNode fuel (ofNode n) = some n
  | n, 0, _, hd => by have := depth_pos (ofNode n); omega
  | .paragraph p, f + 1, _, _ => by simp [toNode, ofNode, variant_tagged, need, para_back]
  | .heading level body, f + 1, hf, _ => by
    have h1 : level < 2 ^ 8 := by simpa [fitsNode] using hf
    simp [toNode, ofNode, variant_tagged, need, toHeading, fields, field, toU8, h1, toVec,
      mapM_map toHeadingNode ofHeadingNode body (fun x _ => hnode_back x)]
  | .image i, f + 1, _, _ => by simp [toNode, ofNode, variant_tagged, need, image_back]
  | .images body, f + 1, _, _ => by
    simp [toNode, ofNode, variant_tagged, need, body_back toImage ofImage body (fun x _ => image_back x)]
  | .code lang code, f + 1, _, _ => by
    simp [toNode, ofNode, variant_tagged, need, toCode, fields, field, toStr]
  | .list l, f + 1, hf, hd => by
    have h1 : fitsList l := by simpa [fitsNode] using hf
    simp only [ofNode, tagged, Value.depth, entryDepths] at hd
    simp [toNode, ofNode, variant_tagged, need, list_back l f h1 (by omega)]
  | .highlight title icon body, f + 1, _, _ => by
    simp [toNode, ofNode, variant_tagged, need, toHighlight, fields, field, toVec, option_back,
      mapM_map toParagraph ofParagraph body (fun x _ => para_back x)]
  | .thematicBreak, f + 1, _, _ => by
    simp [toNode, ofNode, variant_tagged, need, toThematicBreak, fields]
  | .embed kind args, f + 1, _, _ => by
    simp [toNode, ofNode, variant_tagged, need, toEmbed, fields, field, toStr]
  | .collapsible title body, f + 1, hf, hd => by
    have h1 : fitsNodes body := by simpa [fitsNode] using hf
    simp only [ofNode, tagged, Value.depth, entryDepths] at hd
    obtain ⟨g, rfl⟩ : ∃ g, f = g + 1 := ⟨f - 1, by omega⟩
    simp [toNode, ofNode, variant_tagged, need, toCollapsible, fields, field, toStr, toVec,
      nodes_back body g h1 (by omega)]
theorem nodes_back : ∀ (ns : List YamdNode) (fuel : Nat), fitsNodes ns → depths (ofNodes ns) ≤ fuel →
    (ofNodes ns).mapM (toNode fuel) = some ns
  | [], _, _, _ => rfl
  | n :: r, fuel, hf, hd => by
    obtain ⟨h1, h2⟩ := by simpa [fitsNodes] using hf
    simp only [ofNodes, depths] at hd
    simp only [ofNodes, List.mapM_cons, node_back n fuel h1 (by omega), nodes_back r fuel h2 (by omega)]
    rfl
end

theorem yamd_back (y : Yamd) (h : fitsNodes y.body) : toYamd (ofYamd y) = some y := by
  have hd : depths (ofNodes y.body) ≤ (ofYamd y).depth := by
    simp only [ofYamd, Value.depth, entryDepths]; omega
  simp only [toYamd]
  generalize (ofYamd y).depth = d at hd ⊢
  simp [ofYamd, fields, field, need, toVec, option_back, nodes_back y.body d h hd]

theorem nodeName_back (n : Node) : toNodeName (.str (nodeName n)) = some n := by
  cases n <;> decide +kernel

theorem content_back (c : Content) (h : fitsContent c) : toContent (ofContent c) = some c := by
  cases c with
  | Span a b =>
    obtain ⟨h1, h2⟩ := h
    simp [toContent, ofContent, variant_tagged, need, toRange, fields, field, toUsize, h1, h2]
  | Materialized s => simp [toContent, ofContent, variant_tagged, need, toStr]

theorem opKind_back (k : OpKind) : toOpKind (ofOpKind k) = some k := by
  cases k with
  | Start n => simp [toOpKind, ofOpKind, variant_tagged, need, nodeName_back]
  | End n => simp [toOpKind, ofOpKind, variant_tagged, need, nodeName_back]
  | Value => simp [toOpKind, ofOpKind, variant, field, need, toStr, toUnit]

theorem op_back (o : Op) (h : fitsContent o.content) : toOp (ofOp o) = some o := by
  simp [toOp, ofOp, fields, field, need, opKind_back, content_back _ h]

theorem ops_back (ops : List Op) (h : ∀ o ∈ ops, fitsContent o.content) : toOps (ofOps ops) = some ops :=
  mapM_map toOp ofOp ops (fun o ho => op_back o (h o ho))

end Yamd.Serde
