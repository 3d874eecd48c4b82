import Verif.Model.Serde

/-!
# Vocabulary of C67 (the serde feature)
-/

namespace Yamd.Spec

open Yamd.Serde

/-! ### The values Rust can hold: heading levels are `u8`, list levels `usize` -/

mutual
/-- All levels of a list fit a `usize` of 64 bits. -/
def fitsList : YList → Prop
  | .mk _ level body => level < 2 ^ 64 ∧ fitsItems body
/-- All levels of a list item fit. -/
def fitsItem : YItem → Prop
  | .mk _ none => True
  | .mk _ (some l) => fitsList l
/-- All levels of the items fit. -/
def fitsItems : List YItem → Prop
  | [] => True
  | i :: r => fitsItem i ∧ fitsItems r
end

mutual
/-- All levels in a node fit the Rust types. -/
def fitsNode : YamdNode → Prop
  | .heading level _ => level < 2 ^ 8
  | .list l => fitsList l
  | .collapsible _ body => fitsNodes body
  | _ => True
/-- All levels in the nodes fit the Rust types. -/
def fitsNodes : List YamdNode → Prop
  | [] => True
  | n :: r => fitsNode n ∧ fitsNodes r
end

/-- The bounds of a content fit a `usize`. -/
def fitsContent : Content → Prop
  | .Span a b => a < 2 ^ 64 ∧ b < 2 ^ 64
  | .Materialized _ => True

mutual
/-- The same value, the entries of the maps inside possibly in another order. -/
inductive Reordered : Value → Value → Prop
  | null : Reordered .null .null
  | other : Reordered .other .other
  | num (n : Nat) : Reordered (.num n) (.num n)
  | str (s : Str) : Reordered (.str s) (.str s)
  | seq {vs ws : List Value} : ReorderedSeq vs ws → Reordered (.seq vs) (.seq ws)
  | map {es fs gs : List (Str × Value)} : es.Perm fs → ReorderedMap fs gs → Reordered (.map es) (.map gs)
/-- Element by element. -/
inductive ReorderedSeq : List Value → List Value → Prop
  | nil : ReorderedSeq [] []
  | cons {v w : Value} {vs ws : List Value} : Reordered v w → ReorderedSeq vs ws → ReorderedSeq (v :: vs) (w :: ws)
/-- Entry by entry, the same keys. -/
inductive ReorderedMap : List (Str × Value) → List (Str × Value) → Prop
  | nil : ReorderedMap [] []
  | cons {k : Str} {v w : Value} {es fs : List (Str × Value)} :
      Reordered v w → ReorderedMap es fs → ReorderedMap ((k, v) :: es) ((k, w) :: fs)
end

/-! ### Unknown keys -/

/-- The names of the fields of the structures, and of the tag and the content of the enums. -/
def fieldNames : List Str :=
  [cs! "type", cs! "value", cs! "text", cs! "url", cs! "body", cs! "alt", cs! "src", cs! "list_type", cs! "level",
   cs! "nested_list", cs! "lang", cs! "code", cs! "title", cs! "icon", cs! "kind", cs! "args", cs! "metadata",
   cs! "start", cs! "end", cs! "content"]

/-- The names that stand for a value by themselves: the kinds of lists and the nodes of ops. -/
def unitNames : List Str :=
  [cs! "Unordered", cs! "Ordered", cs! "Anchor", cs! "Bold", cs! "Code", cs! "CodeSpan", cs! "Collapsible",
   cs! "Destination", cs! "Document", cs! "Embed", cs! "Emphasis", cs! "Heading", cs! "Highlight", cs! "Icon",
   cs! "Image", cs! "Images", cs! "Italic", cs! "ListItem", cs! "Modifier", cs! "Metadata", cs! "OrderedList",
   cs! "Paragraph", cs! "Strikethrough", cs! "ThematicBreak", cs! "Title", cs! "UnorderedList"]

/-- A key that means nothing to the reader. -/
def unknownKey (k : Str) : Prop := k ∉ fieldNames ∧ k ∉ unitNames

mutual
/-- The same value, the maps inside possibly with more entries, at any place, under unknown keys. A map with one of the
`unitNames` as a key is left as it is. -/
inductive Extended : Value → Value → Prop
  | same (v : Value) : Extended v v
  | seq {vs ws : List Value} : ExtendedSeq vs ws → Extended (.seq vs) (.seq ws)
  | map {es fs : List (Str × Value)} : (∀ e ∈ es, e.1 ∉ unitNames) → ExtendedMap es fs → Extended (.map es) (.map fs)
/-- Element by element. -/
inductive ExtendedSeq : List Value → List Value → Prop
  | nil : ExtendedSeq [] []
  | cons {v w : Value} {vs ws : List Value} : Extended v w → ExtendedSeq vs ws → ExtendedSeq (v :: vs) (w :: ws)
/-- Entry by entry, with entries under unknown keys in between. -/
inductive ExtendedMap : List (Str × Value) → List (Str × Value) → Prop
  | nil : ExtendedMap [] []
  | cons {k : Str} {v w : Value} {es fs : List (Str × Value)} :
      Extended v w → ExtendedMap es fs → ExtendedMap ((k, v) :: es) ((k, w) :: fs)
  | more {k : Str} {w : Value} {es fs : List (Str × Value)} :
      unknownKey k → ExtendedMap es fs → ExtendedMap es ((k, w) :: fs)
end

/-! ### Null and absent -/

mutual
/-- The same value, the maps inside possibly with more entries at the end, all null and under keys the map does not have
(so `{}` and `{"title": null}`). A map with one of the `unitNames` as a key is left as it is, and none is made one. -/
inductive Filled : Value → Value → Prop
  | same (v : Value) : Filled v v
  | seq {vs ws : List Value} : FilledSeq vs ws → Filled (.seq vs) (.seq ws)
  | map {es fs : List (Str × Value)} {ks : List Str} : (∀ e ∈ es, e.1 ∉ unitNames) → ks.Nodup →
      (∀ k ∈ ks, k ∉ unitNames ∧ ∀ e ∈ es, e.1 ≠ k) → FilledMap es fs →
      Filled (.map es) (.map (fs ++ ks.map (fun k => (k, .null))))
/-- Element by element. -/
inductive FilledSeq : List Value → List Value → Prop
  | nil : FilledSeq [] []
  | cons {v w : Value} {vs ws : List Value} : Filled v w → FilledSeq vs ws → FilledSeq (v :: vs) (w :: ws)
/-- Entry by entry. -/
inductive FilledMap : List (Str × Value) → List (Str × Value) → Prop
  | nil : FilledMap [] []
  | cons {k : Str} {v w : Value} {es fs : List (Str × Value)} :
      Filled v w → FilledMap es fs → FilledMap ((k, v) :: es) ((k, w) :: fs)
end

/-! ### Without keys -/

mutual
/-- What a format writes that does not write the names of fields (such as MessagePack by default): every map becomes the
sequence of its values. -/
def keyless : Value → Value
  | .seq vs => .seq (keylessSeq vs)
  | .map es => .seq (keylessMap es)
  | v => v
/-- Element by element. -/
def keylessSeq : List Value → List Value
  | [] => []
  | v :: r => keyless v :: keylessSeq r
/-- The values of the entries. -/
def keylessMap : List (Str × Value) → List Value
  | [] => []
  | (_, v) :: r => keyless v :: keylessMap r
end

end Yamd.Spec
