import Verif.Proofs.SerdeMore

/-!
# Reading does not tell null entries from absent ones (C67)
-/

namespace Yamd.Serde.Nulls

open Yamd.Spec

/-- Both missing or null, or both there and the same up to null entries. -/
def OptR : Option Value → Option Value → Prop
  | none, none => True
  | none, some .null => True
  | some v, some w => Filled v w
  | _, _ => False

/-- Field by field. -/
inductive FieldsR : List (Option Value) → List (Option Value) → Prop
  | nil : FieldsR [] []
  | cons {a b : Option Value} {as bs : List (Option Value)} : OptR a b → FieldsR as bs → FieldsR (a :: as) (b :: bs)

/-- A reader that refuses null and does not see null entries. -/
def Blind {α : Type} (f : Value → Option α) : Prop := f .null = none ∧ ∀ v w, Filled v w → f v = f w

theorem optR_refl : ∀ a, OptR a a
  | none => trivial
  | some v => .same v

theorem fieldsR_refl : ∀ as, FieldsR as as
  | [] => .nil
  | a :: as => .cons (optR_refl a) (fieldsR_refl as)

/-- Entry by entry, the same keys. -/
inductive Entries : List (Str × Value) → List (Str × Value) → Prop
  | nil : Entries [] []
  | cons {k : Str} {v w : Value} {es fs : List (Str × Value)} :
      Filled v w → Entries es fs → Entries ((k, v) :: es) ((k, w) :: fs)

theorem filter_map (k : Str) : ∀ {es fs : List (Str × Value)}, FilledMap es fs →
    Entries (es.filter (fun e => e.1 = k)) (fs.filter (fun e => e.1 = k))
  | _, _, .nil => .nil
  | _, _, .cons (k := k') hv hr => by
    by_cases h : k' = k
    · simp [h]; exact .cons hv (by simpa using filter_map k hr)
    · simp [h]; simpa using filter_map k hr

/-- The entries `es` with some of them filled in and null entries behind, under new keys. -/
def MapR (es fs : List (Str × Value)) : Prop :=
  ∃ (gs : List (Str × Value)) (ks : List Str), fs = gs ++ ks.map (fun k => (k, .null)) ∧ ks.Nodup ∧
    (∀ k ∈ ks, ∀ e ∈ es, e.1 ≠ k) ∧ FilledMap es gs

theorem filter_nulls {k : Str} : ∀ {ks : List Str}, ks.Nodup →
    (k ∈ ks → (ks.map (fun k => (k, Value.null))).filter (fun e => e.1 = k) = [(k, .null)]) ∧
    (k ∉ ks → (ks.map (fun k => (k, Value.null))).filter (fun e => e.1 = k) = [])
  | [], _ => ⟨fun h => by simp at h, fun _ => rfl⟩
  | k' :: ks, hd => by
    obtain ⟨h1, h2⟩ := filter_nulls (k := k) (List.nodup_cons.1 hd).2
    have hn := (List.nodup_cons.1 hd).1
    refine ⟨fun h => ?_, fun h => ?_⟩
    · by_cases he : k' = k
      · subst he
        rw [List.map_cons, List.filter_cons_of_pos (by simp), h2 hn]
      · rw [List.map_cons, List.filter_cons_of_neg (by simpa using he)]
        exact h1 ((List.mem_cons.1 h).resolve_left (fun h => he h.symm))
    · rw [List.map_cons, List.filter_cons_of_neg (by simp; exact fun he => h (by simp [he]))]
      exact h2 (fun h' => h (by simp [h']))

theorem field_map {k : Str} {es fs : List (Str × Value)} (h : MapR es fs) :
    (field k es = none ∧ field k fs = none) ∨ ∃ a b, field k es = some a ∧ field k fs = some b ∧ OptR a b := by
  obtain ⟨gs, ks, rfl, hd, hn, hm⟩ := h
  have hf := filter_map k hm
  have hk := filter_nulls (k := k) hd
  unfold field
  rw [List.filter_append]
  by_cases hin : k ∈ ks
  · rw [hk.1 hin]
    have h0 : es.filter (fun e => e.1 = k) = [] := by
      rw [List.filter_eq_nil_iff]
      intro e he
      simpa using hn k hin e he
    rw [h0] at hf ⊢
    generalize gs.filter (fun e => e.1 = k) = ys at hf ⊢
    cases hf
    exact .inr ⟨none, some .null, rfl, rfl, trivial⟩
  · rw [hk.2 hin, List.append_nil]
    generalize es.filter (fun e => e.1 = k) = xs at hf
    generalize gs.filter (fun e => e.1 = k) = ys at hf
    cases hf with
    | nil => exact .inr ⟨none, none, rfl, rfl, trivial⟩
    | cons hv hr =>
      cases hr with
      | nil => exact .inr ⟨_, _, rfl, rfl, hv⟩
      | cons _ _ => exact .inl ⟨rfl, rfl⟩

theorem fields_map {es fs : List (Str × Value)} (h : MapR es fs) : ∀ ks : List Str, (∀ k ∈ ks, k ∈ fieldNames) →
    (ks.mapM (fun k => field k es) = none ∧ ks.mapM (fun k => field k fs) = none) ∨
      ∃ a b, ks.mapM (fun k => field k es) = some a ∧ ks.mapM (fun k => field k fs) = some b ∧ FieldsR a b
  | [], _ => .inr ⟨[], [], rfl, rfl, .nil⟩
  | k :: ks, hk => by
    simp only [List.mapM_cons]
    rcases field_map (k := k) h with ⟨h1, h2⟩ | ⟨a, b, h1, h2, h3⟩
    · exact .inl ⟨by rw [h1]; rfl, by rw [h2]; rfl⟩
    · rcases fields_map h ks (fun k' hk' => hk k' (by simp [hk'])) with ⟨g1, g2⟩ | ⟨as, bs, g1, g2, g3⟩
      · exact .inl ⟨by rw [h1, g1]; rfl, by rw [h2, g2]; rfl⟩
      · exact .inr ⟨a :: as, b :: bs, by rw [h1, g1]; rfl, by rw [h2, g2]; rfl, .cons h3 g3⟩

theorem seq_length : ∀ {vs ws : List Value}, FilledSeq vs ws → vs.length = ws.length
  | _, _, .nil => rfl
  | _, _, .cons _ h => by simp [seq_length h]

theorem seq_fields : ∀ {vs ws : List Value}, FilledSeq vs ws → FieldsR (vs.map some) (ws.map some)
  | _, _, .nil => .nil
  | _, _, .cons hv h => .cons hv (seq_fields h)

theorem fields_rel {ks : List Str} (hk : ∀ k ∈ ks, k ∈ fieldNames) {v w : Value} (h : Filled v w) :
    (fields ks v = none ∧ fields ks w = none) ∨
      ∃ a b, fields ks v = some a ∧ fields ks w = some b ∧ FieldsR a b := by
  cases h with
  | same v =>
    cases hx : fields ks v with
    | none => exact .inl ⟨rfl, rfl⟩
    | some as => exact .inr ⟨as, as, rfl, rfl, fieldsR_refl as⟩
  | seq hs =>
    simp only [fields, seq_length hs]
    split
    · exact .inr ⟨_, _, rfl, rfl, seq_fields hs⟩
    · exact .inl ⟨rfl, rfl⟩
  | map _ hd hn hm => exact fields_map ⟨_, _, rfl, hd, fun k hk => (hn k hk).2, hm⟩ ks hk

/-- A function of the fields that respects the relation gives a blind reader. -/
theorem blind_fields {α : Type} (ks : List Str) (hk : ∀ k ∈ ks, k ∈ fieldNames) (f : List (Option Value) → Option α)
    (hf : ∀ a b, FieldsR a b → f a = f b) : Blind (fun v => fields ks v >>= f) := by
  refine ⟨rfl, ?_⟩
  intro v w h
  rcases fields_rel hk h with ⟨h1, h2⟩ | ⟨a, b, h1, h2, h3⟩
  · simp [h1, h2]
  · simp [h1, h2, hf a b h3]

theorem need_rel {α : Type} {f : Value → Option α} (hf : Blind f) {a b : Option Value} (h : OptR a b) :
    need f a = need f b := by
  match a, b, h with
  | none, none, _ => rfl
  | none, some .null, _ => exact hf.1.symm
  | some v, some w, h => exact hf.2 v w h

theorem optional_rel {α : Type} {f : Value → Option α} (hf : Blind f) {a b : Option Value} (h : OptR a b) :
    optional f a = optional f b := by
  match a, b, h with
  | none, none, _ => rfl
  | none, some .null, _ => rfl
  | some v, some w, h =>
    have := hf.2 v w h
    cases h with
    | same v => rfl
    | seq _ => simp only [optional, this]
    | map _ _ => simp only [optional, this]

theorem mapM_rel {α : Type} {f : Value → Option α} (hf : Blind f) : ∀ {vs ws : List Value}, FilledSeq vs ws →
    vs.mapM f = ws.mapM f
  | _, _, .nil => rfl
  | _, _, .cons hv h => by simp only [List.mapM_cons, hf.2 _ _ hv, mapM_rel hf h]

theorem blind_vec {α : Type} {f : Value → Option α} (hf : Blind f) : Blind (toVec f) := by
  refine ⟨rfl, ?_⟩
  intro v w h
  cases h with
  | same v => rfl
  | seq hs => exact mapM_rel hf hs
  | map _ _ => rfl

theorem blind_str : Blind toStr := ⟨rfl, by intro v w h; cases h <;> rfl⟩
theorem blind_u8 : Blind toU8 := ⟨rfl, by intro v w h; cases h <;> rfl⟩
theorem blind_usize : Blind toUsize := ⟨rfl, by intro v w h; cases h <;> rfl⟩

theorem unit_names {v w : Value} (h : Filled v w) : unitVariant v = unitVariant w ∨
    ((∀ s, unitVariant v = some s → s ∉ unitNames) ∧ (∀ s, unitVariant w = some s → s ∉ unitNames)) := by
  have key : ∀ es : List (Str × Value), (∀ e ∈ es, e.1 ∉ unitNames) →
      ∀ s, unitVariant (.map es) = some s → s ∉ unitNames := by
    intro es he s hs
    unfold unitVariant at hs
    split at hs
    · rename_i heq; exact absurd heq (by simp)
    · rename_i s' heq
      injection heq with heq
      subst heq
      injection hs with hs
      subst hs
      exact he (s', .null) (by simp)
    · exact absurd hs (by simp)
  have all : ∀ {es fs : List (Str × Value)}, FilledMap es fs → (∀ e ∈ es, e.1 ∉ unitNames) →
      ∀ e ∈ fs, e.1 ∉ unitNames := by
    intro es fs hm
    induction fs generalizing es with
    | nil => intro _ e he; simp at he
    | cons f fs ih =>
      intro hes e he
      cases hm with
      | cons hv hr =>
        rcases List.mem_cons.1 he with rfl | he
        · rename_i k x _ _; exact hes (k, x) (by simp)
        · exact ih hr (fun e' h' => hes e' (by simp [h'])) e he
  cases h with
  | same v => exact .inl rfl
  | seq _ => exact .inl rfl
  | map he hd hn hm =>
    refine .inr ⟨key _ he, key _ (fun e h => ?_)⟩
    rcases List.mem_append.1 h with h | h
    · exact all hm he e h
    · obtain ⟨k, hk, rfl⟩ := List.mem_map.1 h
      exact (hn k hk).1

/-- A reader of the name of a unit variant that knows the `unitNames` only is blind. -/
theorem blind_unit {α : Type} (f : Str → Option α) (hf : ∀ s, s ∉ unitNames → f s = none) :
    Blind (fun v => unitVariant v >>= f) := by
  refine ⟨rfl, ?_⟩
  intro v w h
  rcases unit_names h with h | ⟨h1, h2⟩
  · simp only [h]
  · have : ∀ u, (∀ s, unitVariant u = some s → s ∉ unitNames) → (unitVariant u >>= f) = none := by
      intro u hu
      cases hx : unitVariant u with
      | none => rfl
      | some s => exact hf s (hu s hx)
    simp only [this v h1, this w h2]

theorem variant_rel {v w : Value} (h : Filled v w) :
    (variant v = none ∧ variant w = none) ∨
      ∃ n a b, variant v = some (n, a) ∧ variant w = some (n, b) ∧ OptR a b := by
  cases h with
  | same v =>
    cases hx : variant v with
    | none => exact .inl ⟨rfl, rfl⟩
    | some p => exact .inr ⟨p.1, p.2, p.2, rfl, rfl, optR_refl _⟩
  | seq hs =>
    match hs with
    | .nil => exact .inl ⟨rfl, rfl⟩
    | .cons hv .nil =>
      have key : ∀ x : Value, variant (.seq [x]) = none := by intro x; cases x <;> rfl
      exact .inl ⟨key _, key _⟩
    | .cons hv (.cons hw .nil) =>
      rename_i a b c d
      have key : ∀ x y : Value, (∃ n, x = .str n ∧ variant (.seq [x, y]) = some (n, some y)) ∨
          ((∀ n, x ≠ .str n) ∧ variant (.seq [x, y]) = none) := by
        intro x y; cases x <;> first | exact .inr ⟨by simp, rfl⟩ | exact .inl ⟨_, rfl, rfl⟩
      rcases key a c with ⟨n, h1, h2⟩ | ⟨h1, h2⟩
      · subst h1
        cases hv
        exact .inr ⟨n, _, _, h2, rfl, hw⟩
      · rcases key b d with ⟨n, g1, _⟩ | ⟨_, g2⟩
        · subst g1
          cases hv
          exact absurd rfl (h1 n)
        · exact .inl ⟨h2, g2⟩
    | .cons hv (.cons hw (.cons _ _)) =>
      have key : ∀ (x y z : Value) (r : List Value), variant (.seq (x :: y :: z :: r)) = none := by
        intro x y z r; cases x <;> rfl
      exact .inl ⟨key _ _ _ _, key _ _ _ _⟩
  | map _ hd hn hm' =>
    have hm : MapR _ _ := ⟨_, _, rfl, hd, fun k hk => (hn k hk).2, hm'⟩
    simp only [variant]
    rcases field_map (k := cs! "type") hm with ⟨h1, h2⟩ | ⟨a, b, h1, h2, h3⟩
    · exact .inl ⟨by rw [h1]; rfl, by rw [h2]; rfl⟩
    · rcases field_map (k := cs! "value") hm with ⟨g1, g2⟩ | ⟨c, d, g1, g2, g3⟩
      · exact .inl ⟨by rw [h1, g1]; rfl, by rw [h2, g2]; rfl⟩
      · have hn := need_rel blind_str h3
        rw [h1, g1, h2, g2]
        cases hx : need toStr b with
        | none => exact .inl ⟨by simp [hn, hx], by simp [hx]⟩
        | some s => exact .inr ⟨s, c, d, by simp [hn, hx], by simp [hx], g3⟩

/-- A function of the variant and its value that respects the relation gives a blind reader. -/
theorem blind_variant {α : Type} (f : Str × Option Value → Option α)
    (hf : ∀ n a b, OptR a b → f (n, a) = f (n, b)) : Blind (fun v => variant v >>= f) := by
  refine ⟨rfl, ?_⟩
  intro v w h
  rcases variant_rel h with ⟨h1, h2⟩ | ⟨n, a, b, h1, h2, h3⟩
  · simp [h1, h2]
  · simp [h1, h2, hf n a b h3]

theorem blind_anchor : Blind toAnchor :=
  blind_fields _ (by decide) _ (fun _ _ h => by
    rcases h with _ | ⟨h1, _ | ⟨h2, _ | ⟨_, _⟩⟩⟩ <;> first | rfl | (dsimp only; rw [need_rel blind_str h1, need_rel blind_str h2]))

theorem blind_image : Blind toImage :=
  blind_fields _ (by decide) _ (fun _ _ h => by
    rcases h with _ | ⟨h1, _ | ⟨h2, _ | ⟨_, _⟩⟩⟩ <;> first | rfl | (dsimp only; rw [need_rel blind_str h1, need_rel blind_str h2]))

theorem blind_bold : Blind toBoldNode :=
  blind_variant _ (fun n a b h => by simp only [need_rel blind_str h])

theorem blind_body {α : Type} {f : Value → Option α} (hf : Blind f) : Blind (toBody f) :=
  blind_fields _ (by decide) _ (fun _ _ h => by
    rcases h with _ | ⟨h1, _ | ⟨_, _⟩⟩ <;> first | rfl | (exact need_rel (blind_vec hf) h1))

theorem blind_pnode : Blind toParagraphNode :=
  blind_variant _ (fun n a b h => by
    simp only [need_rel blind_str h, need_rel blind_anchor h, need_rel (blind_body blind_bold) h])

theorem blind_para : Blind toParagraph := blind_body blind_pnode

theorem blind_hnode : Blind toHeadingNode :=
  blind_variant _ (fun n a b h => by simp only [need_rel blind_str h, need_rel blind_anchor h])

theorem blind_types : Blind toListTypes := by
  refine blind_unit _ (fun s hs => ?_)
  have h1 : s ≠ cs! "Unordered" := fun h => hs (h ▸ by decide)
  have h2 : s ≠ cs! "Ordered" := fun h => hs (h ▸ by decide)
  simp only [h1, h2, if_false]

theorem blind_list : ∀ fuel, Blind (toList fuel) ∧ Blind (toItem fuel)
  | 0 => ⟨⟨by simp [toList], fun _ _ _ => by simp [toList]⟩, by simp [toItem], fun _ _ _ => by simp [toItem]⟩
  | fuel + 1 => by
    obtain ⟨hl, hi⟩ := blind_list fuel
    refine ⟨?_, ?_⟩
    · have : toList (fuel + 1) = fun v => fields [cs! "list_type", cs! "level", cs! "body"] v >>= fun as =>
          match as with
          | [t, l, b] => do pure (.mk (← need toListTypes t) (← need toUsize l) (← need (toVec (toItem fuel)) b))
          | _ => none := by
        funext v; rw [toList]; rfl
      rw [this]
      exact blind_fields _ (by decide) _ (fun _ _ h => by
    rcases h with _ | ⟨h1, _ | ⟨h2, _ | ⟨h3, _ | ⟨_, _⟩⟩⟩⟩ <;> first | rfl | (dsimp only; rw [need_rel blind_types h1, need_rel blind_usize h2, need_rel (blind_vec hi) h3]))
    · have : toItem (fuel + 1) = fun v => fields [cs! "text", cs! "nested_list"] v >>= fun as =>
          match as with
          | [t, n] => do pure (.mk (← need (toVec toParagraphNode) t) (← optional (toList fuel) n))
          | _ => none := by
        funext v; rw [toItem]; rfl
      rw [this]
      exact blind_fields _ (by decide) _ (fun _ _ h => by
    rcases h with _ | ⟨h1, _ | ⟨h2, _ | ⟨_, _⟩⟩⟩ <;> first | rfl | (dsimp only; rw [need_rel (blind_vec blind_pnode) h1, optional_rel hl h2]))

theorem blind_heading : Blind toHeading :=
  blind_fields _ (by decide) _ (fun _ _ h => by
    rcases h with _ | ⟨h1, _ | ⟨h2, _ | ⟨_, _⟩⟩⟩ <;> first | rfl | (dsimp only; rw [need_rel blind_u8 h1, need_rel (blind_vec blind_hnode) h2]))

theorem blind_code : Blind toCode :=
  blind_fields _ (by decide) _ (fun _ _ h => by
    rcases h with _ | ⟨h1, _ | ⟨h2, _ | ⟨_, _⟩⟩⟩ <;> first | rfl | (dsimp only; rw [need_rel blind_str h1, need_rel blind_str h2]))

theorem blind_embed : Blind toEmbed :=
  blind_fields _ (by decide) _ (fun _ _ h => by
    rcases h with _ | ⟨h1, _ | ⟨h2, _ | ⟨_, _⟩⟩⟩ <;> first | rfl | (dsimp only; rw [need_rel blind_str h1, need_rel blind_str h2]))

theorem blind_highlight : Blind toHighlight :=
  blind_fields _ (by decide) _ (fun _ _ h => by
    rcases h with _ | ⟨h1, _ | ⟨h2, _ | ⟨h3, _ | ⟨_, _⟩⟩⟩⟩ <;> first | rfl | (dsimp only; rw [optional_rel blind_str h1, optional_rel blind_str h2, need_rel (blind_vec blind_para) h3]))

theorem blind_break : Blind toThematicBreak :=
  blind_fields _ (by decide) _ (fun _ _ h => by cases h <;> rfl)

theorem blind_node : ∀ fuel, Blind (toNode fuel) ∧ Blind (toCollapsible fuel)
  | 0 => ⟨⟨by simp [toNode], fun _ _ _ => by simp [toNode]⟩, by simp [toCollapsible], fun _ _ _ => by simp [toCollapsible]⟩
  | fuel + 1 => by
    obtain ⟨hn, hc⟩ := blind_node fuel
    have hl := (blind_list fuel).1
    refine ⟨?_, ?_⟩
    · refine ⟨by rw [toNode]; rfl, ?_⟩
      intro v w h
      rw [toNode, toNode]
      exact (blind_variant _ (fun n a b h => by
        simp only [need_rel blind_para h, need_rel blind_heading h, need_rel blind_image h,
          need_rel (blind_body blind_image) h, need_rel blind_code h, need_rel hl h, need_rel blind_highlight h,
          need_rel blind_break h, need_rel blind_embed h, need_rel hc h])).2 v w h
    · refine ⟨by rw [toCollapsible]; rfl, ?_⟩
      intro v w h
      rw [toCollapsible, toCollapsible]
      exact (blind_fields _ (by decide) _ (fun _ _ h => by
    rcases h with _ | ⟨h1, _ | ⟨h2, _ | ⟨_, _⟩⟩⟩ <;> first | rfl | (dsimp only; rw [need_rel blind_str h1, need_rel (blind_vec hn) h2]))).2 v w h

theorem blind_yamd : Blind toYamd := by
  refine ⟨rfl, ?_⟩
  intro v w h
  rw [More.yamd_fuel (max v.depth w.depth) v (by omega), More.yamd_fuel (max v.depth w.depth) w (by omega)]
  unfold More.toYamdF
  exact (blind_fields _ (by decide) _ (fun _ _ h => by
    rcases h with _ | ⟨h1, _ | ⟨h2, _ | ⟨_, _⟩⟩⟩ <;> first | rfl | (dsimp only; rw [optional_rel blind_str h1, need_rel (blind_vec (blind_node _).1) h2]))).2 v w h

theorem blind_nodeName : Blind toNodeName := by
  refine blind_unit _ (fun s hs => ?_)
  rw [List.find?_eq_none]
  intro n _ hn
  have : nodeName n = s := by simpa using hn
  exact hs (this ▸ by cases n <;> decide)

theorem blind_range : Blind toRange :=
  blind_fields _ (by decide) _ (fun _ _ h => by
    rcases h with _ | ⟨h1, _ | ⟨h2, _ | ⟨_, _⟩⟩⟩ <;> first | rfl | (dsimp only; rw [need_rel blind_usize h1, need_rel blind_usize h2]))

theorem blind_content : Blind toContent :=
  blind_variant _ (fun n a b h => by simp only [need_rel blind_str h, need_rel blind_range h])

theorem unit_rel {a b : Option Value} (h : OptR a b) : toUnit a = toUnit b := by
  match a, b, h with
  | none, none, _ => rfl
  | none, some .null, _ => rfl
  | some v, some w, h => cases h <;> rfl

theorem blind_opKind : Blind toOpKind :=
  blind_variant _ (fun n a b h => by simp only [need_rel blind_nodeName h, unit_rel h])

theorem blind_op : Blind toOp :=
  blind_fields _ (by decide) _ (fun _ _ h => by
    rcases h with _ | ⟨h1, _ | ⟨h2, _ | ⟨_, _⟩⟩⟩ <;> first | rfl | (dsimp only; rw [need_rel blind_opKind h1, need_rel blind_content h2]))

theorem blind_ops : Blind toOps := blind_vec blind_op

end Yamd.Serde.Nulls
