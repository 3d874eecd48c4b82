import Verif.Proofs.SerdeFits
import Verif.Proofs.SerdeOrder
import Verif.Proofs.SerdeMore
import Verif.Proofs.SerdeNulls
import Verif.Proofs.SerdeKeyless
import Verif.Props.Size

/-!
# C67: the serde feature

`Serde.ofYamd`, `Serde.ofOps` write (derived `Serialize`), `Serde.toYamd`, `Serde.toOps` read (derived `Deserialize`).
-/

namespace Yamd.Props

open Yamd Yamd.Spec Yamd.Ref Yamd.Serde

/-- **C67.** Every document Rust can hold is read back from what serde writes for it. -/
theorem C67_documents_survive_serde (y : Yamd) (h : fitsNodes y.body) : Serde.toYamd (ofYamd y) = some y :=
  yamd_back y h

/-- Two documents that serde writes alike are equal. -/
theorem C67_written_form_is_unique (y z : Yamd) (hy : fitsNodes y.body) (hz : fitsNodes z.body)
    (h : ofYamd y = ofYamd z) : y = z := by
  have h1 := yamd_back y hy
  rw [h, yamd_back z hz] at h1
  exact (Option.some.inj h1).symm

/-- Every document that comes from a text (of a length the machine can address) is read back. -/
theorem C67_deserialized_documents_survive_serde (input : Str) (hl : 2 * input.length ≤ 2 ^ 64) :
    ∃ y, deserialize input = .ok y ∧ Serde.toYamd (ofYamd y) = some y := by
  obtain ⟨y, h0, h1⟩ := C18_heading_levels input
  obtain ⟨y', h2, h3⟩ := C19_list_levels input
  obtain ⟨y'', h4, h5, -⟩ := C63_document_is_linear input
  rw [h0] at h2 h4
  cases h2
  cases h4
  exact ⟨y, h0, yamd_back y (nodes_fit y.body (fun l b h => (h1 l b h).2) h3 (Nat.le_trans h5 hl))⟩

/-- The ops of a text (of a length the machine can address) are read back. -/
theorem C67_ops_survive_serde (input : Str) (hl : blen input < 2 ^ 64) :
    ∃ ops, parse input = .ok ops ∧ toOps (ofOps ops) = some ops := by
  obtain ⟨ops, segs, h1, hs, -⟩ := parse_segmentation input
  obtain ⟨ts, e, h2, -⟩ := C02_token_ranges_valid_and_ordered input
  rw [Lexer.lex_eq] at e
  cases e
  refine ⟨ops, h1, ops_back ops (fun o ho => ?_)⟩
  obtain ⟨x, hx, hz⟩ := zip_mem hs.length.symm o ho
  have hr := (hs.reads _ hz).2
  cases hc : o.content with
  | Materialized s => trivial
  | Span a b =>
    simp only [hc] at hr
    have hm : ∀ t ∈ x.2, t.start < 2 ^ 64 ∧ t.stop < 2 ^ 64 := fun t ht => by
      have := h2 t (seg_mem hs.covers hx ht)
      omega
    revert hr hm
    cases x.2 with
    | nil => rintro ⟨-, rfl, rfl⟩ -; exact ⟨by omega, by omega⟩
    | cons t r =>
      rintro ⟨-, rfl, e⟩ hm
      refine ⟨(hm t (by simp)).1, ?_⟩
      obtain ⟨u, hu, rfl⟩ := Option.map_eq_some_iff.1 e.symm
      exact (hm u (List.mem_of_getLast? hu)).2

/-- So a document can be built from ops that went through serde: the same one. -/
theorem C67_document_from_transmitted_ops (input : Str) (hl : blen input < 2 ^ 64) :
    ∃ ops ops' y, parse input = .ok ops ∧ toOps (ofOps ops) = some ops' ∧ Yamd.toYamd ops' input = .ok y ∧
      deserialize input = .ok y := by
  obtain ⟨ops, h1, h2⟩ := C67_ops_survive_serde input hl
  have h3 := deserialize_eq input
  refine ⟨ops, ops, _, h1, h2, ?_, h3⟩
  rw [← h3]
  simp only [deserialize, h1]
  rfl

/-- What serde reads, written and read again, is the same. -/
theorem C67_reading_is_idempotent (v : Value) (y : Yamd) (h : Serde.toYamd v = some y) :
    Serde.toYamd (ofYamd y) = some y :=
  yamd_back y (yamd_fits v y h)

/-- The order of the entries in the maps, at any depth, does not matter. -/
theorem C67_order_does_not_matter (v w : Value) (h : Reordered v w) :
    Serde.toYamd v = Serde.toYamd w ∧ toOps v = toOps w :=
  ⟨blind_yamd v w h, blind_ops v w h⟩

/-- Entries under unknown keys, in any map at any depth, do not matter: what could be read is read the same, what could
not be read still cannot. -/
theorem C67_unknown_keys_are_ignored (v w : Value) (h : Extended v w) :
    Serde.toYamd v = Serde.toYamd w ∧ toOps v = toOps w :=
  ⟨More.blind_yamd v w h, More.blind_ops v w h⟩

/-- What serde writes for a document, with entries added under unknown keys and then in any
order, is read back. -/
theorem C67_survives_additions_and_reordering (y : Yamd) (h : fitsNodes y.body) (v w : Value) (hv : Extended (ofYamd y) v)
    (hw : Reordered v w) : Serde.toYamd w = some y := by
  rw [← (C67_order_does_not_matter v w hw).1, ← (C67_unknown_keys_are_ignored _ v hv).1, C67_documents_survive_serde y h]

/-- A null entry is the same as none, under any key the map does not have, in any map at any depth: what could be read
without it is read the same, what could not be read still cannot. -/
theorem C67_null_is_absent (v w : Value) (h : Filled v w) :
    Serde.toYamd v = Serde.toYamd w ∧ toOps v = toOps w :=
  ⟨Nulls.blind_yamd.2 v w h, Nulls.blind_ops.2 v w h⟩

/-- So a writer may leave out what is null (metadata, titles and icons of highlights, nested lists). -/
theorem C67_survives_without_nulls (y : Yamd) (h : fitsNodes y.body) (v : Value) (hv : Filled v (ofYamd y)) :
    Serde.toYamd v = some y := by
  rw [(C67_null_is_absent v _ hv).1, C67_documents_survive_serde y h]

/-- A document is read back from a format that writes no keys, every structure as the sequence of its fields. -/
theorem C67_documents_survive_without_keys (y : Yamd) (h : fitsNodes y.body) :
    Serde.toYamd (keyless (ofYamd y)) = some y :=
  Keyless.yamd_back y h

/-- The ops of a text are not: the kind of an op of kind `Value` has a tag and no content, as a sequence it has one
element, and the reader of an adjacently tagged enum insists on two. -/
theorem C67_ops_need_keys :
    (∃ ops, parse (cs! "a") = .ok ops ∧ toOps (ofOps ops) = some ops ∧ toOps (keyless (ofOps ops)) = none) ∧
    toOpKind (ofOpKind .Value) = some .Value ∧ toOpKind (keyless (ofOpKind .Value)) = none := by
  refine ⟨⟨_, rfl, ?_⟩, ?_⟩ <;> decide +kernel

/-- The kind of an op of kind `Value` has no content, or null, and nothing else. -/
theorem C67_no_content_for_value (v : Value) :
    toOpKind (.map [(cs! "type", .str (cs! "Value")), (cs! "value", v)]) = some .Value ↔ v = .null := by
  have key : toOpKind (.map [(cs! "type", .str (cs! "Value")), (cs! "value", v)]) =
      (toUnit (some v)).map (fun _ => .Value) := by
    simp [toOpKind, variant, field, need, toStr]
  rw [key]
  cases v <;> simp [toUnit]

/-! ### Examples -/

/-- A document with front matter, a heading, a nested list, a highlight and a collapsible; it satisfies the
hypothesis of `C67_documents_survive_serde`. -/
def serdeSample : Yamd :=
  ⟨some (cs! "a: b"), [.heading 2 [.text (cs! "T"), .anchor ⟨cs! "x", cs! "y"⟩],
    .list (.mk .Ordered 0 [.mk [.text (cs! "a"), .bold [.italic (cs! "b")]]
      (some (.mk .Unordered 1 [.mk [.codeSpan (cs! "c")] none]))]),
    .highlight none (some (cs! "i")) [[.emphasis (cs! "e")]], .collapsible (cs! "t") [.thematicBreak, .code [] (cs! "z")]]⟩

example : fitsNodes serdeSample.body := by simp [serdeSample, fitsNodes, fitsNode, fitsList, fitsItems, fitsItem]

example : Serde.toYamd (ofYamd serdeSample) = some serdeSample := by decide +kernel

mutual
/-- A value as JSON (strings that need no escaping), to show what is written. -/
def showJson : Value → Str
  | .null => cs! "null"
  | .other => cs! "?"
  | .num n => (Nat.repr n).toList
  | .str s => cs! "'" ++ s ++ cs! "'"
  | .seq vs => cs! "[" ++ showSeq vs ++ cs! "]"
  | .map es => cs! "{" ++ showMap es ++ cs! "}"
/-- The elements. -/
def showSeq : List Value → Str
  | [] => []
  | [v] => showJson v
  | v :: r => showJson v ++ cs! "," ++ showSeq r
/-- The entries. -/
def showMap : List (Str × Value) → Str
  | [] => []
  | [(k, v)] => cs! "'" ++ k ++ cs! "':" ++ showJson v
  | (k, v) :: r => cs! "'" ++ k ++ cs! "':" ++ showJson v ++ cs! "," ++ showMap r
end

/-- What is written for the sample, every key of it. -/
example : showJson (ofYamd serdeSample) = 
    cs! "{'metadata':'a: b','body':[{'type':'Heading','value':{'level':2,'body':[{'type':'Text','value':'T'},\
      {'type':'Anchor','value':{'text':'x','url':'y'}}]}},{'type':'List','value':{'list_type':'Ordered',\
      'level':0,'body':[{'text':[{'type':'Text','value':'a'},{'type':'Bold','value':{'body':[{'type':'Italic',\
      'value':'b'}]}}],'nested_list':{'list_type':'Unordered','level':1,'body':[{'text':[{'type':'CodeSpan',\
      'value':'c'}],'nested_list':null}]}}]}},{'type':'Highlight','value':{'title':null,'icon':'i',\
      'body':[{'body':[{'type':'Emphasis','value':'e'}]}]}},{'type':'Collapsible','value':{'title':'t',\
      'body':[{'type':'ThematicBreak','value':{}},{'type':'Code','value':{'lang':'','code':'z'}}]}}]}" := by decide +kernel

/-- The blocks and inline nodes that are not in the sample. -/
example : showJson (ofYamd ⟨none, [.paragraph [.strikethrough (cs! "s"), .bold [.text (cs! "t"), .strikethrough (cs! "u")]],
      .image ⟨cs! "a", cs! "b"⟩, .images [⟨cs! "c", cs! "d"⟩, ⟨cs! "e", cs! "f"⟩], .embed (cs! "k") (cs! "g"),
      .highlight (some (cs! "h")) none []]⟩) = 
    cs! "{'metadata':null,'body':[{'type':'Paragraph','value':{'body':[{'type':'Strikethrough','value':'s'},\
      {'type':'Bold','value':{'body':[{'type':'Text','value':'t'},{'type':'Strikethrough','value':'u'}]}}]}},\
      {'type':'Image','value':{'alt':'a','src':'b'}},{'type':'Images','value':{'body':[{'alt':'c','src':'d'},\
      {'alt':'e','src':'f'}]}},{'type':'Embed','value':{'kind':'k','args':'g'}},{'type':'Highlight',\
      'value':{'title':'h','icon':null,'body':[]}}]}" := by decide +kernel

/-- The ops of a small text, as written. -/
example : (parse (cs! "**\\a**")).toOption.map (fun ops => showJson (ofOps ops)) = some (cs! "[{'kind':{'type':'Start','value':'Document'},'content':{'type':'Span','value':{'start':0,'end':0}}},\
      {'kind':{'type':'Start','value':'Paragraph'},'content':{'type':'Span','value':{'start':0,'end':0}}},\
      {'kind':{'type':'Start','value':'Bold'},'content':{'type':'Span','value':{'start':0,'end':2}}},\
      {'kind':{'type':'Value'},'content':{'type':'Span','value':{'start':3,'end':4}}},{'kind':{'type':'End',\
      'value':'Bold'},'content':{'type':'Span','value':{'start':4,'end':6}}},{'kind':{'type':'End',\
      'value':'Paragraph'},'content':{'type':'Span','value':{'start':0,'end':0}}},{'kind':{'type':'End',\
      'value':'Document'},'content':{'type':'Span','value':{'start':0,'end':0}}}]") := by decide +kernel

/-- What a text gives, through serde. -/
example : (deserialize (cs! "- a\n - b\n\n!! t\n! i\nc\n!!")).toOption.bind (fun y => Serde.toYamd (ofYamd y)) =
    some ⟨none, [.list (.mk .Unordered 0 [.mk [.text (cs! "a")] (some (.mk .Unordered 1 [.mk [.text (cs! "b")] none]))]),
      .highlight (some (cs! "t")) (some (cs! "i")) [[.text (cs! "c")]]]⟩ := by decide +kernel

/-- The same paragraph with its keys in two orders; reading gives one document. -/
example : Reordered
      (.map [(cs! "metadata", .null), (cs! "body", .seq [.map [(cs! "type", .str (cs! "ThematicBreak")), (cs! "value", .map [])]])])
      (.map [(cs! "body", .seq [.map [(cs! "value", .map []), (cs! "type", .str (cs! "ThematicBreak"))]]), (cs! "metadata", .null)]) := by
  refine .map (.swap _ _ _) (.cons (.seq (.cons (.map (.swap _ _ _) ?_) .nil)) (.cons .null .nil))
  exact .cons (.map (.refl _) .nil) (.cons (.str _) .nil)

example : Serde.toYamd
      (.map [(cs! "body", .seq [.map [(cs! "value", .map []), (cs! "type", .str (cs! "ThematicBreak"))]]), (cs! "metadata", .null)])
    = some ⟨none, [.thematicBreak]⟩ := by decide +kernel

/-- A document written by a later version that added a key to the document and one to the block. -/
example : Extended (ofYamd ⟨none, [.thematicBreak]⟩)
      (.map [(cs! "version", .num 2), (cs! "metadata", .null), (cs! "body", .seq
        [.map [(cs! "type", .str (cs! "ThematicBreak")), (cs! "value", .map [(cs! "width", .null)])]])]) := by
  refine .map (by decide) (.more (by unfold unknownKey; decide) (.cons (.same _) (.cons (.seq (.cons ?_ .nil)) .nil)))
  exact .map (by decide) (.cons (.same _) (.cons (.map (by decide) (.more (by unfold unknownKey; decide) .nil)) .nil))

example : Serde.toYamd (.map [(cs! "version", .num 2), (cs! "metadata", .null), (cs! "body", .seq
        [.map [(cs! "type", .str (cs! "ThematicBreak")), (cs! "value", .map [(cs! "width", .null)])]])])
    = some ⟨none, [.thematicBreak]⟩ := by decide +kernel

/-- What a writer that leaves out null metadata, titles, icons and nested lists writes. -/
example : Filled (.map [(cs! "body", .seq [tagged (cs! "Highlight") (.map [(cs! "body", .seq [])])])])
      (.map [(cs! "body", .seq [tagged (cs! "Highlight")
        (.map [(cs! "body", .seq []), (cs! "title", .null), (cs! "icon", .null)])]), (cs! "metadata", .null)]) := by
  refine .map (ks := [cs! "metadata"]) (by decide) (by decide) (by decide) (.cons (.seq (.cons ?_ .nil)) .nil)
  refine .map (ks := []) (by decide) (by decide) (by decide) (.cons (.same _) (.cons ?_ .nil))
  exact .map (ks := [cs! "title", cs! "icon"]) (by decide) (by decide) (by decide) (.cons (.same _) .nil)

example : Serde.toYamd (.map [(cs! "body", .seq [tagged (cs! "Highlight") (.map [(cs! "body", .seq [])])])])
    = some ⟨none, [.highlight none none []]⟩ := by decide +kernel

/-- Why the key of a null entry must be new, and why no map may become a unit variant. -/
example : Serde.toYamd (.map [(cs! "body", .seq []), (cs! "metadata", .str []), (cs! "metadata", .null)]) = none ∧
    toListTypes (.map []) = none ∧ toListTypes (.map [(cs! "Ordered", .null)]) = some .Ordered := by decide +kernel

example : keyless (ofYamd ⟨none, [.heading 1 [.text (cs! "a")]]⟩) =
    .seq [.null, .seq [.seq [.str (cs! "Heading"), .seq [.num 1, .seq [.seq [.str (cs! "Text"), .str (cs! "a")]]]]]] := rfl

/-- Why maps that stand for a unit variant are left alone in `Extended`: with a second entry they are refused. -/
theorem C67_no_additions_to_unit_variants :
    toListTypes (.map [(cs! "Ordered", .null)]) = some .Ordered ∧
    toListTypes (.map [(cs! "Ordered", .null), (cs! "x", .null)]) = none := by decide +kernel

/-- Optional fields may be left out, unknown ones are ignored, a structure may be given as a sequence; a repeated or
missing field, an unknown variant or a level above 255 is an error. -/
theorem C67_reading_examples :
    Serde.toYamd (.map [(cs! "body", .seq []), (cs! "x", .other)]) = some ⟨none, []⟩ ∧
    Serde.toYamd (.seq [.str (cs! "m"), .seq []]) = some ⟨some (cs! "m"), []⟩ ∧
    Serde.toYamd (.map [(cs! "body", .seq []), (cs! "body", .seq [])]) = none ∧
    Serde.toYamd (.map [(cs! "metadata", .null)]) = none ∧
    Serde.toYamd (.map [(cs! "body", .seq [tagged (cs! "Quote") (.map [])])]) = none ∧
    Serde.toYamd (.map [(cs! "body", .seq [tagged (cs! "Heading") (.map [(cs! "level", .num 256), (cs! "body", .seq [])])])])
      = none := by decide +kernel

/-- Reading does not check what the parser guarantees: a heading of level 0, an image group of one image, front matter
and code ending in line breaks (which `Yamd::new` and `Code::new` would trim) are accepted. -/
theorem C67_reading_does_not_validate :
    Serde.toYamd (ofYamd ⟨some (cs! "\n"), [.heading 0 [], .images [⟨[], []⟩], .code [] (cs! "\n")]⟩) =
      some ⟨some (cs! "\n"), [.heading 0 [], .images [⟨[], []⟩], .code [] (cs! "\n")]⟩ := by decide +kernel

end Yamd.Props
