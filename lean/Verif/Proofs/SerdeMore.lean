import Verif.Spec.Serde

/-!
# Reading ignores entries under unknown keys (C67)
-/

namespace Yamd.Serde.More

open Yamd.Spec

/-- Both missing, or both there and the same up to unknown keys. -/
def OptR : Option Value → Option Value → Prop
  | none, none => True
  | some v, some w => Extended v w
  | _, _ => False

/-- Field by field. -/
inductive FieldsR : List (Option Value) → List (Option Value) → Prop
  | nil : FieldsR [] []
  | cons {a b : Option Value} {as bs : List (Option Value)} : OptR a b → FieldsR as bs → FieldsR (a :: as) (b :: bs)

/-- A reader that does not see unknown keys. -/
def Blind {α : Type} (f : Value → Option α) : Prop := ∀ v w, Extended v w → f v = f w

theorem optR_refl : ∀ a, OptR a a
  | none => trivial
  | some v => .same v

theorem fieldsR_refl : ∀ as, FieldsR as as
  | [] => .nil
  | a :: as => .cons (optR_refl a) (fieldsR_refl as)

/-- Entry by entry, the same keys. -/
inductive Entries : List (Str × Value) → List (Str × Value) → Prop
  | nil : Entries [] []
  | cons {k : Str} {v w : Value} {es fs : List (Str × Value)} :
      Extended v w → Entries es fs → Entries ((k, v) :: es) ((k, w) :: fs)

theorem filter_map {k : Str} (hk : k ∈ fieldNames) : ∀ {es fs : List (Str × Value)}, ExtendedMap es fs →
    Entries (es.filter (fun e => e.1 = k)) (fs.filter (fun e => e.1 = k))
  | _, _, .nil => .nil
  | _, _, .cons (k := k') hv hr => by
    by_cases h : k' = k
    · simp [h]; exact .cons hv (by simpa using filter_map hk hr)
    · simp [h]; simpa using filter_map hk hr
  | _, _, .more (k := k') hu hr => by
    have h : k' ≠ k := fun h => hu.1 (h ▸ hk)
    simpa [h] using filter_map hk hr

theorem field_map {k : Str} (hk : k ∈ fieldNames) {es fs : List (Str × Value)} (h : ExtendedMap es fs) :
    (field k es = none ∧ field k fs = none) ∨ ∃ a b, field k es = some a ∧ field k fs = some b ∧ OptR a b := by
  have hf := filter_map hk h
  unfold field
  generalize es.filter (fun e => e.1 = k) = xs at hf
  generalize fs.filter (fun e => e.1 = k) = ys at hf
  cases hf with
  | nil => exact .inr ⟨none, none, rfl, rfl, trivial⟩
  | cons hv hr =>
    cases hr with
    | nil => exact .inr ⟨_, _, rfl, rfl, hv⟩
    | cons _ _ => exact .inl ⟨rfl, rfl⟩

theorem fields_map {es fs : List (Str × Value)} (h : ExtendedMap es fs) : ∀ ks : List Str, (∀ k ∈ ks, k ∈ fieldNames) →
    (ks.mapM (fun k => field k es) = none ∧ ks.mapM (fun k => field k fs) = none) ∨
      ∃ a b, ks.mapM (fun k => field k es) = some a ∧ ks.mapM (fun k => field k fs) = some b ∧ FieldsR a b
  | [], _ => .inr ⟨[], [], rfl, rfl, .nil⟩
  | k :: ks, hk => by
    simp only [List.mapM_cons]
    rcases field_map (hk k (by simp)) h with ⟨h1, h2⟩ | ⟨a, b, h1, h2, h3⟩
    · exact .inl ⟨by rw [h1]; rfl, by rw [h2]; rfl⟩
    · rcases fields_map h ks (fun k' hk' => hk k' (by simp [hk'])) with ⟨g1, g2⟩ | ⟨as, bs, g1, g2, g3⟩
      · exact .inl ⟨by rw [h1, g1]; rfl, by rw [h2, g2]; rfl⟩
      · exact .inr ⟨a :: as, b :: bs, by rw [h1, g1]; rfl, by rw [h2, g2]; rfl, .cons h3 g3⟩

theorem seq_length : ∀ {vs ws : List Value}, ExtendedSeq vs ws → vs.length = ws.length
  | _, _, .nil => rfl
  | _, _, .cons _ h => by simp [seq_length h]

theorem seq_fields : ∀ {vs ws : List Value}, ExtendedSeq vs ws → FieldsR (vs.map some) (ws.map some)
  | _, _, .nil => .nil
  | _, _, .cons hv h => .cons hv (seq_fields h)

theorem fields_rel {ks : List Str} (hk : ∀ k ∈ ks, k ∈ fieldNames) {v w : Value} (h : Extended v w) :
    (fields ks v = none ∧ fields ks w = none) ∨
      ∃ a b, fields ks v = some a ∧ fields ks w = some b ∧ FieldsR a b := by
  cases h with
  | same v =>
    cases hx : fields ks v with
    | none => exact .inl ⟨rfl, rfl⟩
    | some as => exact .inr ⟨as, as, rfl, rfl, fieldsR_refl as⟩
  | seq hs =>
    simp only [fields, seq_length hs]
    split
    · exact .inr ⟨_, _, rfl, rfl, seq_fields hs⟩
    · exact .inl ⟨rfl, rfl⟩
  | map _ hm => exact fields_map hm ks hk

/-- A function of the fields that respects the relation gives a blind reader. -/
theorem blind_fields {α : Type} (ks : List Str) (hk : ∀ k ∈ ks, k ∈ fieldNames) (f : List (Option Value) → Option α)
    (hf : ∀ a b, FieldsR a b → f a = f b) : Blind (fun v => fields ks v >>= f) := by
  intro v w h
  rcases fields_rel hk h with ⟨h1, h2⟩ | ⟨a, b, h1, h2, h3⟩
  · simp [h1, h2]
  · simp [h1, h2, hf a b h3]

theorem need_rel {α : Type} {f : Value → Option α} (hf : Blind f) {a b : Option Value} (h : OptR a b) :
    need f a = need f b := by
  match a, b, h with
  | none, none, _ => rfl
  | some v, some w, h => exact hf v w h

theorem optional_rel {α : Type} {f : Value → Option α} (hf : Blind f) {a b : Option Value} (h : OptR a b) :
    optional f a = optional f b := by
  match a, b, h with
  | none, none, _ => rfl
  | some v, some w, h =>
    have := hf v w h
    cases h with
    | same v => rfl
    | seq _ => simp only [optional, this]
    | map _ _ => simp only [optional, this]

theorem mapM_rel {α : Type} {f : Value → Option α} (hf : Blind f) : ∀ {vs ws : List Value}, ExtendedSeq vs ws →
    vs.mapM f = ws.mapM f
  | _, _, .nil => rfl
  | _, _, .cons hv h => by simp only [List.mapM_cons, hf _ _ hv, mapM_rel hf h]

theorem blind_vec {α : Type} {f : Value → Option α} (hf : Blind f) : Blind (toVec f) := by
  intro v w h
  cases h with
  | same v => rfl
  | seq hs => exact mapM_rel hf hs
  | map _ _ => rfl

theorem blind_str : Blind toStr := by intro v w h; cases h <;> rfl
theorem blind_u8 : Blind toU8 := by intro v w h; cases h <;> rfl
theorem blind_usize : Blind toUsize := by intro v w h; cases h <;> rfl

theorem unit_names {v w : Value} (h : Extended v w) : unitVariant v = unitVariant w ∨
    ((∀ s, unitVariant v = some s → s ∉ unitNames) ∧ (∀ s, unitVariant w = some s → s ∉ unitNames)) := by
  have key : ∀ es : List (Str × Value), (∀ e ∈ es, e.1 ∉ unitNames) →
      ∀ s, unitVariant (.map es) = some s → s ∉ unitNames := by
    intro es he s hs
    unfold unitVariant at hs
    split at hs
    · rename_i heq; exact absurd heq (by simp)
    · rename_i s' heq
      injection heq with heq
      subst heq
      injection hs with hs
      subst hs
      exact he (s', .null) (by simp)
    · exact absurd hs (by simp)
  have all : ∀ {es fs : List (Str × Value)}, ExtendedMap es fs → (∀ e ∈ es, e.1 ∉ unitNames) →
      ∀ e ∈ fs, e.1 ∉ unitNames := by
    intro es fs hm
    induction fs generalizing es with
    | nil => intro _ e he; simp at he
    | cons f fs ih =>
      intro hes e he
      cases hm with
      | cons hv hr =>
        rcases List.mem_cons.1 he with rfl | he
        · rename_i k x _ _; exact hes (k, x) (by simp)
        · exact ih hr (fun e' h' => hes e' (by simp [h'])) e he
      | more hu hr =>
        rcases List.mem_cons.1 he with rfl | he
        · exact hu.2
        · exact ih hr hes e he
  cases h with
  | same v => exact .inl rfl
  | seq _ => exact .inl rfl
  | map he hm => exact .inr ⟨key _ he, key _ (all hm he)⟩

/-- A reader of the name of a unit variant that knows the `unitNames` only is blind. -/
theorem blind_unit {α : Type} (f : Str → Option α) (hf : ∀ s, s ∉ unitNames → f s = none) :
    Blind (fun v => unitVariant v >>= f) := by
  intro v w h
  rcases unit_names h with h | ⟨h1, h2⟩
  · simp only [h]
  · have : ∀ u, (∀ s, unitVariant u = some s → s ∉ unitNames) → (unitVariant u >>= f) = none := by
      intro u hu
      cases hx : unitVariant u with
      | none => rfl
      | some s => exact hf s (hu s hx)
    simp only [this v h1, this w h2]

theorem variant_rel {v w : Value} (h : Extended v w) :
    (variant v = none ∧ variant w = none) ∨
      ∃ n a b, variant v = some (n, a) ∧ variant w = some (n, b) ∧ OptR a b := by
  cases h with
  | same v =>
    cases hx : variant v with
    | none => exact .inl ⟨rfl, rfl⟩
    | some p => exact .inr ⟨p.1, p.2, p.2, rfl, rfl, optR_refl _⟩
  | seq hs =>
    match hs with
    | .nil => exact .inl ⟨rfl, rfl⟩
    | .cons hv .nil =>
      have key : ∀ x : Value, variant (.seq [x]) = none := by intro x; cases x <;> rfl
      exact .inl ⟨key _, key _⟩
    | .cons hv (.cons hw .nil) =>
      rename_i a b c d
      have key : ∀ x y : Value, (∃ n, x = .str n ∧ variant (.seq [x, y]) = some (n, some y)) ∨
          ((∀ n, x ≠ .str n) ∧ variant (.seq [x, y]) = none) := by
        intro x y; cases x <;> first | exact .inr ⟨by simp, rfl⟩ | exact .inl ⟨_, rfl, rfl⟩
      rcases key a c with ⟨n, h1, h2⟩ | ⟨h1, h2⟩
      · subst h1
        cases hv
        exact .inr ⟨n, _, _, h2, rfl, hw⟩
      · rcases key b d with ⟨n, g1, _⟩ | ⟨_, g2⟩
        · subst g1
          cases hv
          exact absurd rfl (h1 n)
        · exact .inl ⟨h2, g2⟩
    | .cons hv (.cons hw (.cons _ _)) =>
      have key : ∀ (x y z : Value) (r : List Value), variant (.seq (x :: y :: z :: r)) = none := by
        intro x y z r; cases x <;> rfl
      exact .inl ⟨key _ _ _ _, key _ _ _ _⟩
  | map _ hm =>
    simp only [variant]
    rcases field_map (k := cs! "type") (by decide) hm with ⟨h1, h2⟩ | ⟨a, b, h1, h2, h3⟩
    · exact .inl ⟨by rw [h1]; rfl, by rw [h2]; rfl⟩
    · rcases field_map (k := cs! "value") (by decide) hm with ⟨g1, g2⟩ | ⟨c, d, g1, g2, g3⟩
      · exact .inl ⟨by rw [h1, g1]; rfl, by rw [h2, g2]; rfl⟩
      · have hn := need_rel blind_str h3
        rw [h1, g1, h2, g2]
        cases hx : need toStr b with
        | none => exact .inl ⟨by simp [hn, hx], by simp [hx]⟩
        | some s => exact .inr ⟨s, c, d, by simp [hn, hx], by simp [hx], g3⟩

/-- A function of the variant and its value that respects the relation gives a blind reader. -/
theorem blind_variant {α : Type} (f : Str × Option Value → Option α)
    (hf : ∀ n a b, OptR a b → f (n, a) = f (n, b)) : Blind (fun v => variant v >>= f) := by
  intro v w h
  rcases variant_rel h with ⟨h1, h2⟩ | ⟨n, a, b, h1, h2, h3⟩
  · simp [h1, h2]
  · simp [h1, h2, hf n a b h3]

theorem blind_anchor : Blind toAnchor :=
  blind_fields _ (by decide) _ (fun _ _ h => by
    rcases h with _ | ⟨h1, _ | ⟨h2, _ | ⟨_, _⟩⟩⟩ <;> first | rfl | (dsimp only; rw [need_rel blind_str h1, need_rel blind_str h2]))

theorem blind_image : Blind toImage :=
  blind_fields _ (by decide) _ (fun _ _ h => by
    rcases h with _ | ⟨h1, _ | ⟨h2, _ | ⟨_, _⟩⟩⟩ <;> first | rfl | (dsimp only; rw [need_rel blind_str h1, need_rel blind_str h2]))

theorem blind_bold : Blind toBoldNode :=
  blind_variant _ (fun n a b h => by simp only [need_rel blind_str h])

theorem blind_body {α : Type} {f : Value → Option α} (hf : Blind f) : Blind (toBody f) :=
  blind_fields _ (by decide) _ (fun _ _ h => by
    rcases h with _ | ⟨h1, _ | ⟨_, _⟩⟩ <;> first | rfl | (exact need_rel (blind_vec hf) h1))

theorem blind_pnode : Blind toParagraphNode :=
  blind_variant _ (fun n a b h => by
    simp only [need_rel blind_str h, need_rel blind_anchor h, need_rel (blind_body blind_bold) h])

theorem blind_para : Blind toParagraph := blind_body blind_pnode

theorem blind_hnode : Blind toHeadingNode :=
  blind_variant _ (fun n a b h => by simp only [need_rel blind_str h, need_rel blind_anchor h])

theorem blind_types : Blind toListTypes := by
  refine blind_unit _ (fun s hs => ?_)
  have h1 : s ≠ cs! "Unordered" := fun h => hs (h ▸ by decide)
  have h2 : s ≠ cs! "Ordered" := fun h => hs (h ▸ by decide)
  simp only [h1, h2, if_false]

theorem blind_list : ∀ fuel, Blind (toList fuel) ∧ Blind (toItem fuel)
  | 0 => ⟨fun _ _ _ => by simp [toList], fun _ _ _ => by simp [toItem]⟩
  | fuel + 1 => by
    obtain ⟨hl, hi⟩ := blind_list fuel
    refine ⟨?_, ?_⟩
    · have : toList (fuel + 1) = fun v => fields [cs! "list_type", cs! "level", cs! "body"] v >>= fun as =>
          match as with
          | [t, l, b] => do pure (.mk (← need toListTypes t) (← need toUsize l) (← need (toVec (toItem fuel)) b))
          | _ => none := by
        funext v; rw [toList]; rfl
      rw [this]
      exact blind_fields _ (by decide) _ (fun _ _ h => by
    rcases h with _ | ⟨h1, _ | ⟨h2, _ | ⟨h3, _ | ⟨_, _⟩⟩⟩⟩ <;> first | rfl | (dsimp only; rw [need_rel blind_types h1, need_rel blind_usize h2, need_rel (blind_vec hi) h3]))
    · have : toItem (fuel + 1) = fun v => fields [cs! "text", cs! "nested_list"] v >>= fun as =>
          match as with
          | [t, n] => do pure (.mk (← need (toVec toParagraphNode) t) (← optional (toList fuel) n))
          | _ => none := by
        funext v; rw [toItem]; rfl
      rw [this]
      exact blind_fields _ (by decide) _ (fun _ _ h => by
    rcases h with _ | ⟨h1, _ | ⟨h2, _ | ⟨_, _⟩⟩⟩ <;> first | rfl | (dsimp only; rw [need_rel (blind_vec blind_pnode) h1, optional_rel hl h2]))

theorem blind_heading : Blind toHeading :=
  blind_fields _ (by decide) _ (fun _ _ h => by
    rcases h with _ | ⟨h1, _ | ⟨h2, _ | ⟨_, _⟩⟩⟩ <;> first | rfl | (dsimp only; rw [need_rel blind_u8 h1, need_rel (blind_vec blind_hnode) h2]))

theorem blind_code : Blind toCode :=
  blind_fields _ (by decide) _ (fun _ _ h => by
    rcases h with _ | ⟨h1, _ | ⟨h2, _ | ⟨_, _⟩⟩⟩ <;> first | rfl | (dsimp only; rw [need_rel blind_str h1, need_rel blind_str h2]))

theorem blind_embed : Blind toEmbed :=
  blind_fields _ (by decide) _ (fun _ _ h => by
    rcases h with _ | ⟨h1, _ | ⟨h2, _ | ⟨_, _⟩⟩⟩ <;> first | rfl | (dsimp only; rw [need_rel blind_str h1, need_rel blind_str h2]))

theorem blind_highlight : Blind toHighlight :=
  blind_fields _ (by decide) _ (fun _ _ h => by
    rcases h with _ | ⟨h1, _ | ⟨h2, _ | ⟨h3, _ | ⟨_, _⟩⟩⟩⟩ <;> first | rfl | (dsimp only; rw [optional_rel blind_str h1, optional_rel blind_str h2, need_rel (blind_vec blind_para) h3]))

theorem blind_break : Blind toThematicBreak :=
  blind_fields _ (by decide) _ (fun _ _ h => by cases h <;> rfl)

theorem blind_node : ∀ fuel, Blind (toNode fuel) ∧ Blind (toCollapsible fuel)
  | 0 => ⟨fun _ _ _ => by simp [toNode], fun _ _ _ => by simp [toCollapsible]⟩
  | fuel + 1 => by
    obtain ⟨hn, hc⟩ := blind_node fuel
    have hl := (blind_list fuel).1
    refine ⟨?_, ?_⟩
    · intro v w h
      rw [toNode, toNode]
      exact blind_variant _ (fun n a b h => by
        simp only [need_rel blind_para h, need_rel blind_heading h, need_rel blind_image h,
          need_rel (blind_body blind_image) h, need_rel blind_code h, need_rel hl h, need_rel blind_highlight h,
          need_rel blind_break h, need_rel blind_embed h, need_rel hc h]) v w h
    · intro v w h
      rw [toCollapsible, toCollapsible]
      exact blind_fields _ (by decide) _ (fun _ _ h => by
    rcases h with _ | ⟨h1, _ | ⟨h2, _ | ⟨_, _⟩⟩⟩ <;> first | rfl | (dsimp only; rw [need_rel blind_str h1, need_rel (blind_vec hn) h2])) v w h

/-! ### The fuel is enough -/

theorem depths_mem : ∀ {vs : List Value} {v : Value}, v ∈ vs → v.depth ≤ depths vs
  | w :: r, v, h => by
    rcases List.mem_cons.1 h with rfl | h
    · simp only [depths]; omega
    · have := depths_mem h; simp only [depths]; omega

theorem entryDepths_mem : ∀ {es : List (Str × Value)} {e : Str × Value}, e ∈ es → e.2.depth ≤ entryDepths es
  | (k, w) :: r, e, h => by
    rcases List.mem_cons.1 h with rfl | h
    · simp only [entryDepths]; omega
    · have := entryDepths_mem h; simp only [entryDepths]; omega

theorem field_depth {k : Str} {es : List (Str × Value)} {v : Value} (h : field k es = some (some v)) :
    v.depth ≤ entryDepths es := by
  unfold field at h
  split at h
  · exact absurd h (by simp)
  · rename_i e he
    have : e ∈ es := (List.mem_filter.1 (show e ∈ es.filter (fun e => decide (e.1 = k)) by rw [he]; simp)).1
    injection h with h
    injection h with h
    exact h ▸ entryDepths_mem this
  · exact absurd h (by simp)

theorem mapM_depth {es : List (Str × Value)} : ∀ {ks : List Str} {as : List (Option Value)},
    ks.mapM (fun k => field k es) = some as → ∀ v, some v ∈ as → v.depth ≤ entryDepths es
  | [], as, h, v, hv => by simp at h; subst h; simp at hv
  | k :: ks, as, h, v, hv => by
    simp only [List.mapM_cons] at h
    cases h1 : field k es with
    | none => rw [h1] at h; exact absurd h (by simp)
    | some a =>
      cases h2 : ks.mapM (fun k => field k es) with
      | none => rw [h1, h2] at h; exact absurd h (by simp)
      | some bs =>
        rw [h1, h2] at h
        have : a :: bs = as := by simpa using h
        subst this
        rcases List.mem_cons.1 hv with hv | hv
        · exact field_depth (hv ▸ h1)
        · exact mapM_depth h2 v hv

theorem fields_depth {ks : List Str} {v : Value} {as : List (Option Value)} (h : fields ks v = some as) :
    ∀ w, some w ∈ as → w.depth < v.depth := by
  intro w hw
  unfold fields at h
  split at h
  · have := mapM_depth h w hw
    simp only [Value.depth]; omega
  · split at h
    · injection h with h
      subst h
      have := depths_mem (List.mem_map.1 hw |>.elim (fun x hx => (Option.some.inj hx.2) ▸ hx.1))
      simp only [Value.depth]; omega
    · exact absurd h (by simp)
  · exact absurd h (by simp)

theorem variant_depth {v : Value} {n : Str} {w : Value} (h : variant v = some (n, some w)) : w.depth < v.depth := by
  unfold variant at h
  split at h
  · rename_i es
    cases h1 : field (cs! "type") es with
    | none => rw [h1] at h; exact absurd h (by simp)
    | some t =>
      cases h2 : field (cs! "value") es with
      | none => rw [h1, h2] at h; exact absurd h (by simp)
      | some x =>
        rw [h1, h2] at h
        cases h3 : need toStr t with
        | none => simp [h3] at h
        | some s =>
          simp [h3] at h
          have := field_depth (h.2 ▸ h2)
          simp only [Value.depth]; omega
  · injection h with h
    injection h with _ h
    injection h with h
    subst h
    simp only [Value.depth, depths]; omega
  · exact absurd h (by simp)

theorem need_congr {α : Type} {f g : Value → Option α} {a : Option Value} (h : ∀ v, a = some v → f v = g v) :
    need f a = need g a := by
  cases a with
  | none => rfl
  | some v => exact h v rfl

theorem optional_congr {α : Type} {f g : Value → Option α} {a : Option Value} (h : ∀ v, a = some v → f v = g v) :
    optional f a = optional g a := by
  match a with
  | none => rfl
  | some .null => rfl
  | some .other => simp only [optional, h _ rfl]
  | some (.num _) => simp only [optional, h _ rfl]
  | some (.str _) => simp only [optional, h _ rfl]
  | some (.seq _) => simp only [optional, h _ rfl]
  | some (.map _) => simp only [optional, h _ rfl]

theorem mapM_congr {α : Type} {f g : Value → Option α} : ∀ {vs : List Value}, (∀ v ∈ vs, f v = g v) →
    vs.mapM f = vs.mapM g
  | [], _ => rfl
  | v :: r, h => by
    have hr : r.mapM f = r.mapM g := mapM_congr (fun w hw => h w (List.mem_cons_of_mem _ hw))
    simp only [List.mapM_cons, h v (by simp), hr]

theorem vec_congr {α : Type} {f g : Value → Option α} {v : Value} (h : ∀ w : Value, w.depth < v.depth → f w = g w) :
    toVec f v = toVec g v := by
  cases v with
  | seq vs => exact mapM_congr (fun w hw => h w (by have := depths_mem hw; simp only [Value.depth]; omega))
  | _ => rfl

theorem fields_congr {α : Type} {ks : List Str} {v : Value} {f g : List (Option Value) → Option α}
    (h : ∀ as, (∀ w, some w ∈ as → w.depth < v.depth) → f as = g as) : (fields ks v >>= f) = (fields ks v >>= g) := by
  cases hx : fields ks v with
  | none => rfl
  | some as => exact h as (fields_depth hx)

theorem list_fuel : ∀ (a b : Nat) (v : Value), v.depth ≤ a → v.depth ≤ b →
    toList a v = toList b v ∧ toItem a v = toItem b v
  | 0, _, v, ha, _ => by cases v <;> simp [Value.depth] at ha
  | _ + 1, 0, v, _, hb => by cases v <;> simp [Value.depth] at hb
  | a + 1, b + 1, v, ha, hb => by
    refine ⟨?_, ?_⟩
    · rw [toList, toList]
      refine fields_congr (fun as has => ?_)
      match as with
      | [t, l, c] =>
        have : need (toVec (toItem a)) c = need (toVec (toItem b)) c := need_congr (fun w hw => by
          subst hw
          have hd := has w (by simp)
          exact vec_congr (fun x hx => (list_fuel a b x (by omega) (by omega)).2))
        simp only [this]
      | [] => rfl
      | [_] => rfl
      | [_, _] => rfl
      | _ :: _ :: _ :: _ :: _ => rfl
    · rw [toItem, toItem]
      refine fields_congr (fun as has => ?_)
      match as with
      | [t, n] =>
        have : optional (toList a) n = optional (toList b) n := optional_congr (fun w hw => by
          subst hw
          have hd := has w (by simp)
          exact (list_fuel a b w (by omega) (by omega)).1)
        simp only [this]
      | [] => rfl
      | [_] => rfl
      | _ :: _ :: _ :: _ => rfl

theorem node_fuel : ∀ (a b : Nat) (v : Value), v.depth ≤ a → v.depth ≤ b →
    toNode a v = toNode b v ∧ toCollapsible a v = toCollapsible b v
  | 0, _, v, ha, _ => by cases v <;> simp [Value.depth] at ha
  | _ + 1, 0, v, _, hb => by cases v <;> simp [Value.depth] at hb
  | a + 1, b + 1, v, ha, hb => by
    refine ⟨?_, ?_⟩
    · rw [toNode, toNode]
      cases hx : variant v with
      | none => rfl
      | some p =>
        obtain ⟨n, w⟩ := p
        have h1 : need (toList a) w = need (toList b) w := need_congr (fun x hw => by
          subst hw
          have hd := variant_depth hx
          exact (list_fuel a b x (by omega) (by omega)).1)
        have h2 : need (toCollapsible a) w = need (toCollapsible b) w := need_congr (fun x hw => by
          subst hw
          have hd := variant_depth hx
          exact (node_fuel a b x (by omega) (by omega)).2)
        simp only [Option.bind_eq_bind, Option.bind_some, h1, h2]
    · rw [toCollapsible, toCollapsible]
      refine fields_congr (fun as has => ?_)
      match as with
      | [t, c] =>
        have : need (toVec (toNode a)) c = need (toVec (toNode b)) c := need_congr (fun w hw => by
          subst hw
          have hd := has w (by simp)
          exact vec_congr (fun x hx => (node_fuel a b x (by omega) (by omega)).1))
        simp only [this]
      | [] => rfl
      | [_] => rfl
      | _ :: _ :: _ :: _ => rfl

/-- Reading a document with any fuel. -/
def toYamdF (fuel : Nat) (v : Value) : Option Yamd := do
  match ← fields [cs! "metadata", cs! "body"] v with
  | [m, b] => pure ⟨← optional toStr m, ← need (toVec (toNode fuel)) b⟩
  | _ => none

theorem yamd_fuel (a : Nat) (v : Value) (h : v.depth ≤ a) : toYamd v = toYamdF a v := by
  unfold toYamd toYamdF
  refine fields_congr (fun as has => ?_)
  match as with
  | [m, b] =>
    have : need (toVec (toNode v.depth)) b = need (toVec (toNode a)) b := need_congr (fun w hw => by
      subst hw
      have hd := has w (by simp)
      exact vec_congr (fun x hx => (node_fuel v.depth a x (by omega) (by omega)).1))
    simp only [this]
  | [] => rfl
  | [_] => rfl
  | _ :: _ :: _ :: _ => rfl

theorem blind_yamd : Blind toYamd := by
  intro v w h
  rw [yamd_fuel (max v.depth w.depth) v (by omega), yamd_fuel (max v.depth w.depth) w (by omega)]
  unfold toYamdF
  exact blind_fields _ (by decide) _ (fun _ _ h => by
    rcases h with _ | ⟨h1, _ | ⟨h2, _ | ⟨_, _⟩⟩⟩ <;> first | rfl | (dsimp only; rw [optional_rel blind_str h1, need_rel (blind_vec (blind_node _).1) h2])) v w h

theorem blind_nodeName : Blind toNodeName := by
  refine blind_unit _ (fun s hs => ?_)
  rw [List.find?_eq_none]
  intro n _ hn
  have : nodeName n = s := by simpa using hn
  exact hs (this ▸ by cases n <;> decide)

theorem blind_range : Blind toRange :=
  blind_fields _ (by decide) _ (fun _ _ h => by
    rcases h with _ | ⟨h1, _ | ⟨h2, _ | ⟨_, _⟩⟩⟩ <;> first | rfl | (dsimp only; rw [need_rel blind_usize h1, need_rel blind_usize h2]))

theorem blind_content : Blind toContent :=
  blind_variant _ (fun n a b h => by simp only [need_rel blind_str h, need_rel blind_range h])

theorem unit_rel {a b : Option Value} (h : OptR a b) : toUnit a = toUnit b := by
  match a, b, h with
  | none, none, _ => rfl
  | some v, some w, h => cases h <;> rfl

theorem blind_opKind : Blind toOpKind :=
  blind_variant _ (fun n a b h => by simp only [need_rel blind_nodeName h, unit_rel h])

theorem blind_op : Blind toOp :=
  blind_fields _ (by decide) _ (fun _ _ h => by
    rcases h with _ | ⟨h1, _ | ⟨h2, _ | ⟨_, _⟩⟩⟩ <;> first | rfl | (dsimp only; rw [need_rel blind_opKind h1, need_rel blind_content h2]))

theorem blind_ops : Blind toOps := blind_vec blind_op

end Yamd.Serde.More
