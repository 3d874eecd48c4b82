import Verif.Spec.Serde

/-!
# Reading does not depend on the order of the entries of a map (C67)
-/

namespace Yamd.Serde

open Yamd.Spec

/-- Both missing, or both there and the same up to order. -/
def OptR : Option Value → Option Value → Prop
  | none, none => True
  | some v, some w => Reordered v w
  | _, _ => False

/-- Field by field. -/
inductive FieldsR : List (Option Value) → List (Option Value) → Prop
  | nil : FieldsR [] []
  | cons {a b : Option Value} {as bs : List (Option Value)} : OptR a b → FieldsR as bs → FieldsR (a :: as) (b :: bs)

/-- A reader that does not see the order. -/
def Blind {α : Type} (f : Value → Option α) : Prop := ∀ v w, Reordered v w → f v = f w

theorem filter_map (k : Str) : ∀ {es fs : List (Str × Value)}, ReorderedMap es fs →
    ReorderedMap (es.filter (fun e => e.1 = k)) (fs.filter (fun e => e.1 = k))
  | _, _, .nil => .nil
  | _, _, .cons (k := k') hv hr => by
    by_cases h : k' = k
    · simp [h]; exact .cons hv (by simpa using filter_map k hr)
    · simp [h]; simpa using filter_map k hr

theorem field_map (k : Str) {es fs : List (Str × Value)} (h : ReorderedMap es fs) :
    (field k es = none ∧ field k fs = none) ∨ ∃ a b, field k es = some a ∧ field k fs = some b ∧ OptR a b := by
  have hf := filter_map k h
  unfold field
  generalize es.filter (fun e => e.1 = k) = xs at hf
  generalize fs.filter (fun e => e.1 = k) = ys at hf
  cases hf with
  | nil => exact .inr ⟨none, none, rfl, rfl, trivial⟩
  | cons hv hr =>
    cases hr with
    | nil => exact .inr ⟨_, _, rfl, rfl, hv⟩
    | cons _ _ => exact .inl ⟨rfl, rfl⟩

theorem field_perm (k : Str) {es fs : List (Str × Value)} (h : es.Perm fs) : field k es = field k fs := by
  have hf := h.filter (fun e => e.1 = k)
  unfold field
  generalize es.filter (fun e => decide (e.1 = k)) = xs at hf
  generalize fs.filter (fun e => decide (e.1 = k)) = ys at hf
  match xs, ys, hf, hf.length_eq with
  | [], [], _, _ => rfl
  | [a], [b], hf, _ =>
    have : a = b := by simpa using hf
    rw [this]
  | _ :: _ :: _, _ :: _ :: _, _, _ => rfl
  | [], _ :: _, _, hl => simp at hl
  | _ :: _, [], _, hl => simp at hl
  | [_], _ :: _ :: _, _, hl => simp at hl
  | _ :: _ :: _, [_], _, hl => simp at hl

theorem fields_map {es fs : List (Str × Value)} (h : ReorderedMap es fs) : ∀ ks : List Str,
    (ks.mapM (fun k => field k es) = none ∧ ks.mapM (fun k => field k fs) = none) ∨
      ∃ a b, ks.mapM (fun k => field k es) = some a ∧ ks.mapM (fun k => field k fs) = some b ∧ FieldsR a b
  | [] => .inr ⟨[], [], rfl, rfl, .nil⟩
  | k :: ks => by
    simp only [List.mapM_cons]
    rcases field_map k h with ⟨h1, h2⟩ | ⟨a, b, h1, h2, h3⟩
    · exact .inl ⟨by rw [h1]; rfl, by rw [h2]; rfl⟩
    · rcases fields_map h ks with ⟨g1, g2⟩ | ⟨as, bs, g1, g2, g3⟩
      · exact .inl ⟨by rw [h1, g1]; rfl, by rw [h2, g2]; rfl⟩
      · exact .inr ⟨a :: as, b :: bs, by rw [h1, g1]; rfl, by rw [h2, g2]; rfl, .cons h3 g3⟩

theorem seq_length : ∀ {vs ws : List Value}, ReorderedSeq vs ws → vs.length = ws.length
  | _, _, .nil => rfl
  | _, _, .cons _ h => by simp [seq_length h]

theorem seq_fields : ∀ {vs ws : List Value}, ReorderedSeq vs ws → FieldsR (vs.map some) (ws.map some)
  | _, _, .nil => .nil
  | _, _, .cons hv h => .cons hv (seq_fields h)

theorem fields_rel (ks : List Str) {v w : Value} (h : Reordered v w) :
    (fields ks v = none ∧ fields ks w = none) ∨
      ∃ a b, fields ks v = some a ∧ fields ks w = some b ∧ FieldsR a b := by
  cases h with
  | null => exact .inl ⟨rfl, rfl⟩
  | other => exact .inl ⟨rfl, rfl⟩
  | num n => exact .inl ⟨rfl, rfl⟩
  | str s => exact .inl ⟨rfl, rfl⟩
  | seq hs =>
    simp only [fields, seq_length hs]
    split
    · exact .inr ⟨_, _, rfl, rfl, seq_fields hs⟩
    · exact .inl ⟨rfl, rfl⟩
  | map hp hm =>
    have := fields_map hm ks
    simp only [fields, funext (fun k => field_perm k hp)]
    exact this

/-- A function of the fields that respects the relation gives a blind reader. -/
theorem blind_fields {α : Type} (ks : List Str) (f : List (Option Value) → Option α)
    (hf : ∀ a b, FieldsR a b → f a = f b) : Blind (fun v => fields ks v >>= f) := by
  intro v w h
  rcases fields_rel ks h with ⟨h1, h2⟩ | ⟨a, b, h1, h2, h3⟩
  · simp [h1, h2]
  · simp [h1, h2, hf a b h3]

theorem need_rel {α : Type} {f : Value → Option α} (hf : Blind f) {a b : Option Value} (h : OptR a b) :
    need f a = need f b := by
  match a, b, h with
  | none, none, _ => rfl
  | some v, some w, h => exact hf v w h

theorem optional_rel {α : Type} {f : Value → Option α} (hf : Blind f) {a b : Option Value} (h : OptR a b) :
    optional f a = optional f b := by
  match a, b, h with
  | none, none, _ => rfl
  | some v, some w, h =>
    have := hf v w h
    cases h with
    | null => rfl
    | other => rfl
    | num n => rfl
    | str s => rfl
    | seq _ => simp only [optional, this]
    | map _ _ => simp only [optional, this]

theorem mapM_rel {α : Type} {f : Value → Option α} (hf : Blind f) : ∀ {vs ws : List Value}, ReorderedSeq vs ws →
    vs.mapM f = ws.mapM f
  | _, _, .nil => rfl
  | _, _, .cons hv h => by simp only [List.mapM_cons, hf _ _ hv, mapM_rel hf h]

theorem blind_vec {α : Type} {f : Value → Option α} (hf : Blind f) : Blind (toVec f) := by
  intro v w h
  cases h with
  | null => rfl
  | other => rfl
  | num n => rfl
  | str s => rfl
  | seq hs => exact mapM_rel hf hs
  | map _ _ => rfl

theorem blind_str : Blind toStr := by intro v w h; cases h <;> rfl
theorem blind_u8 : Blind toU8 := by intro v w h; cases h <;> rfl
theorem blind_usize : Blind toUsize := by intro v w h; cases h <;> rfl

theorem blind_unit : Blind unitVariant := by
  intro v w h
  cases h with
  | null => rfl
  | other => rfl
  | num n => rfl
  | str s => rfl
  | seq _ => rfl
  | map hp hm =>
    rename_i es fs gs
    match fs, gs, hm with
    | [], _, .nil => rw [List.perm_nil.1 hp]
    | [(k, v)], _, .cons hv .nil =>
      rw [List.perm_singleton.1 hp]
      cases hv <;> rfl
    | _ :: _ :: _, _, .cons _ (.cons _ _) =>
      match es, hp.length_eq with
      | _ :: _ :: _, _ => simp [unitVariant]
      | [], hl => simp at hl
      | [_], hl => simp at hl

theorem variant_rel {v w : Value} (h : Reordered v w) :
    (variant v = none ∧ variant w = none) ∨
      ∃ n a b, variant v = some (n, a) ∧ variant w = some (n, b) ∧ OptR a b := by
  cases h with
  | null => exact .inl ⟨rfl, rfl⟩
  | other => exact .inl ⟨rfl, rfl⟩
  | num n => exact .inl ⟨rfl, rfl⟩
  | str s => exact .inl ⟨rfl, rfl⟩
  | seq hs =>
    match hs with
    | .nil => exact .inl ⟨rfl, rfl⟩
    | .cons hv .nil => cases hv <;> exact .inl ⟨rfl, rfl⟩
    | .cons hv (.cons hw .nil) =>
      cases hv with
      | str s => exact .inr ⟨s, _, _, rfl, rfl, hw⟩
      | null => exact .inl ⟨rfl, rfl⟩
      | other => exact .inl ⟨rfl, rfl⟩
      | num n => exact .inl ⟨rfl, rfl⟩
      | seq _ => exact .inl ⟨rfl, rfl⟩
      | map _ _ => exact .inl ⟨rfl, rfl⟩
    | .cons hv (.cons hw (.cons _ _)) => cases hv <;> exact .inl ⟨rfl, rfl⟩
  | map hp hm =>
    simp only [variant, field_perm _ hp]
    rcases field_map (cs! "type") hm with ⟨h1, h2⟩ | ⟨a, b, h1, h2, h3⟩
    · exact .inl ⟨by rw [h1]; rfl, by rw [h2]; rfl⟩
    · rcases field_map (cs! "value") hm with ⟨g1, g2⟩ | ⟨c, d, g1, g2, g3⟩
      · exact .inl ⟨by rw [h1, g1]; rfl, by rw [h2, g2]; rfl⟩
      · have hn := need_rel blind_str h3
        rw [h1, g1, h2, g2]
        cases hx : need toStr b with
        | none => exact .inl ⟨by simp [hn, hx], by simp [hx]⟩
        | some s => exact .inr ⟨s, c, d, by simp [hn, hx], by simp [hx], g3⟩

/-- A function of the variant and its value that respects the relation gives a blind reader. -/
theorem blind_variant {α : Type} (f : Str × Option Value → Option α)
    (hf : ∀ n a b, OptR a b → f (n, a) = f (n, b)) : Blind (fun v => variant v >>= f) := by
  intro v w h
  rcases variant_rel h with ⟨h1, h2⟩ | ⟨n, a, b, h1, h2, h3⟩
  · simp [h1, h2]
  · simp [h1, h2, hf n a b h3]

theorem blind_anchor : Blind toAnchor :=
  blind_fields _ _ (fun _ _ h => by
    rcases h with _ | ⟨h1, _ | ⟨h2, _ | ⟨_, _⟩⟩⟩ <;> first | rfl | (dsimp only; rw [need_rel blind_str h1, need_rel blind_str h2]))

theorem blind_image : Blind toImage :=
  blind_fields _ _ (fun _ _ h => by
    rcases h with _ | ⟨h1, _ | ⟨h2, _ | ⟨_, _⟩⟩⟩ <;> first | rfl | (dsimp only; rw [need_rel blind_str h1, need_rel blind_str h2]))

theorem blind_bold : Blind toBoldNode :=
  blind_variant _ (fun n a b h => by simp only [need_rel blind_str h])

theorem blind_body {α : Type} {f : Value → Option α} (hf : Blind f) : Blind (toBody f) :=
  blind_fields _ _ (fun _ _ h => by
    rcases h with _ | ⟨h1, _ | ⟨_, _⟩⟩ <;> first | rfl | (exact need_rel (blind_vec hf) h1))

theorem blind_pnode : Blind toParagraphNode :=
  blind_variant _ (fun n a b h => by
    simp only [need_rel blind_str h, need_rel blind_anchor h, need_rel (blind_body blind_bold) h])

theorem blind_para : Blind toParagraph := blind_body blind_pnode

theorem blind_hnode : Blind toHeadingNode :=
  blind_variant _ (fun n a b h => by simp only [need_rel blind_str h, need_rel blind_anchor h])

theorem blind_types : Blind toListTypes := by
  intro v w h
  simp only [toListTypes, blind_unit v w h]

theorem blind_list : ∀ fuel, Blind (toList fuel) ∧ Blind (toItem fuel)
  | 0 => ⟨fun _ _ _ => by simp [toList], fun _ _ _ => by simp [toItem]⟩
  | fuel + 1 => by
    obtain ⟨hl, hi⟩ := blind_list fuel
    refine ⟨?_, ?_⟩
    · have : toList (fuel + 1) = fun v => fields [cs! "list_type", cs! "level", cs! "body"] v >>= fun as =>
          match as with
          | [t, l, b] => do pure (.mk (← need toListTypes t) (← need toUsize l) (← need (toVec (toItem fuel)) b))
          | _ => none := by
        funext v; rw [toList]; rfl
      rw [this]
      exact blind_fields _ _ (fun _ _ h => by
    rcases h with _ | ⟨h1, _ | ⟨h2, _ | ⟨h3, _ | ⟨_, _⟩⟩⟩⟩ <;> first | rfl | (dsimp only; rw [need_rel blind_types h1, need_rel blind_usize h2, need_rel (blind_vec hi) h3]))
    · have : toItem (fuel + 1) = fun v => fields [cs! "text", cs! "nested_list"] v >>= fun as =>
          match as with
          | [t, n] => do pure (.mk (← need (toVec toParagraphNode) t) (← optional (toList fuel) n))
          | _ => none := by
        funext v; rw [toItem]; rfl
      rw [this]
      exact blind_fields _ _ (fun _ _ h => by
    rcases h with _ | ⟨h1, _ | ⟨h2, _ | ⟨_, _⟩⟩⟩ <;> first | rfl | (dsimp only; rw [need_rel (blind_vec blind_pnode) h1, optional_rel hl h2]))

theorem blind_heading : Blind toHeading :=
  blind_fields _ _ (fun _ _ h => by
    rcases h with _ | ⟨h1, _ | ⟨h2, _ | ⟨_, _⟩⟩⟩ <;> first | rfl | (dsimp only; rw [need_rel blind_u8 h1, need_rel (blind_vec blind_hnode) h2]))

theorem blind_code : Blind toCode :=
  blind_fields _ _ (fun _ _ h => by
    rcases h with _ | ⟨h1, _ | ⟨h2, _ | ⟨_, _⟩⟩⟩ <;> first | rfl | (dsimp only; rw [need_rel blind_str h1, need_rel blind_str h2]))

theorem blind_embed : Blind toEmbed :=
  blind_fields _ _ (fun _ _ h => by
    rcases h with _ | ⟨h1, _ | ⟨h2, _ | ⟨_, _⟩⟩⟩ <;> first | rfl | (dsimp only; rw [need_rel blind_str h1, need_rel blind_str h2]))

theorem blind_highlight : Blind toHighlight :=
  blind_fields _ _ (fun _ _ h => by
    rcases h with _ | ⟨h1, _ | ⟨h2, _ | ⟨h3, _ | ⟨_, _⟩⟩⟩⟩ <;> first | rfl | (dsimp only; rw [optional_rel blind_str h1, optional_rel blind_str h2, need_rel (blind_vec blind_para) h3]))

theorem blind_break : Blind toThematicBreak :=
  blind_fields _ _ (fun _ _ h => by cases h <;> rfl)

theorem blind_node : ∀ fuel, Blind (toNode fuel) ∧ Blind (toCollapsible fuel)
  | 0 => ⟨fun _ _ _ => by simp [toNode], fun _ _ _ => by simp [toCollapsible]⟩
  | fuel + 1 => by
    obtain ⟨hn, hc⟩ := blind_node fuel
    have hl := (blind_list fuel).1
    refine ⟨?_, ?_⟩
    · intro v w h
      rw [toNode, toNode]
      exact blind_variant _ (fun n a b h => by
        simp only [need_rel blind_para h, need_rel blind_heading h, need_rel blind_image h,
          need_rel (blind_body blind_image) h, need_rel blind_code h, need_rel hl h, need_rel blind_highlight h,
          need_rel blind_break h, need_rel blind_embed h, need_rel hc h]) v w h
    · intro v w h
      rw [toCollapsible, toCollapsible]
      exact blind_fields _ _ (fun _ _ h => by
    rcases h with _ | ⟨h1, _ | ⟨h2, _ | ⟨_, _⟩⟩⟩ <;> first | rfl | (dsimp only; rw [need_rel blind_str h1, need_rel (blind_vec hn) h2])) v w h

theorem entryDepths_perm {es fs : List (Str × Value)} (h : es.Perm fs) : entryDepths es = entryDepths fs := by
  induction h with
  | nil => rfl
  | cons x _ ih => obtain ⟨k, v⟩ := x; simp only [entryDepths, ih]
  | swap x y l => obtain ⟨k, v⟩ := x; obtain ⟨k', v'⟩ := y; simp only [entryDepths]; omega
  | trans _ _ ih1 ih2 => rw [ih1, ih2]

mutual
theorem depth_rel : ∀ {v w : Value}, Reordered v w → v.depth = w.depth
  | _, _, .null => rfl
  | _, _, .other => rfl
  | _, _, .num _ => by simp [Value.depth]
  | _, _, .str _ => by simp [Value.depth]
  | _, _, .seq h => by simp only [Value.depth, depths_rel h]
  | _, _, .map hp hm => by simp only [Value.depth, entryDepths_perm hp, entryDepths_rel hm]
theorem depths_rel : ∀ {v w : List Value}, ReorderedSeq v w → depths v = depths w
  | _, _, .nil => rfl
  | _, _, .cons h hr => by simp only [depths, depth_rel h, depths_rel hr]
theorem entryDepths_rel : ∀ {v w : List (Str × Value)}, ReorderedMap v w → entryDepths v = entryDepths w
  | _, _, .nil => rfl
  | _, _, .cons h hr => by simp only [entryDepths, depth_rel h, entryDepths_rel hr]
end

theorem blind_yamd : Blind toYamd := by
  intro v w h
  unfold toYamd
  rw [depth_rel h]
  exact blind_fields _ _ (fun _ _ h => by
    rcases h with _ | ⟨h1, _ | ⟨h2, _ | ⟨_, _⟩⟩⟩ <;> first | rfl | (dsimp only; rw [optional_rel blind_str h1, need_rel (blind_vec (blind_node w.depth).1) h2])) v w h

theorem blind_nodeName : Blind toNodeName := by
  intro v w h
  simp only [toNodeName, blind_unit v w h]

theorem blind_range : Blind toRange :=
  blind_fields _ _ (fun _ _ h => by
    rcases h with _ | ⟨h1, _ | ⟨h2, _ | ⟨_, _⟩⟩⟩ <;> first | rfl | (dsimp only; rw [need_rel blind_usize h1, need_rel blind_usize h2]))

theorem blind_content : Blind toContent :=
  blind_variant _ (fun n a b h => by simp only [need_rel blind_str h, need_rel blind_range h])

theorem unit_rel {a b : Option Value} (h : OptR a b) : toUnit a = toUnit b := by
  match a, b, h with
  | none, none, _ => rfl
  | some v, some w, h => cases h <;> rfl

theorem blind_opKind : Blind toOpKind :=
  blind_variant _ (fun n a b h => by simp only [need_rel blind_nodeName h, unit_rel h])

theorem blind_op : Blind toOp :=
  blind_fields _ _ (fun _ _ h => by
    rcases h with _ | ⟨h1, _ | ⟨h2, _ | ⟨_, _⟩⟩⟩ <;> first | rfl | (dsimp only; rw [need_rel blind_opKind h1, need_rel blind_content h2]))

theorem blind_ops : Blind toOps := blind_vec blind_op

end Yamd.Serde
