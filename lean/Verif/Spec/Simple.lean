import Verif.Spec.RoundTrip

/-! # The blocks for which the round-trip conditions are exact (C72) -/

namespace Yamd.Spec

open Yamd

/-- Blocks that hold no list items, highlight paragraphs or other blocks. -/
def isSimple : YamdNode → Bool
  | .list _ => false
  | .highlight .. => false
  | .collapsible .. => false
  | _ => true

/-- Not a plain text with two line feeds in a row. -/
def noBlankText : ParagraphNode → Bool
  | .text s => !occurs (cs! "\n\n") s
  | _ => true

mutual
/-- No plain text in the list has two line feeds in a row, and no item ends with a carriage return. -/
def plainList : YList → Bool
  | .mk _ _ items => plainItems items
def plainItems : List YItem → Bool
  | [] => true
  | i :: r => plainItem i && plainItems r
def plainItem : YItem → Bool
  | .mk text none => text.all noBlankText && (trailingText text).getLast? != some '\r'
  | .mk text (some l) => text.all noBlankText && (trailingText text).getLast? != some '\r' && plainList l
end

/-- A highlight with paragraphs, none of them empty; no plain text in them has two line feeds in a row, and none ends with a
carriage return. Without an icon the first one does not start with an exclamation mark and a space. -/
def plainHighlight (icon : Option Str) (ps : List Paragraph) : Bool :=
  !ps.isEmpty && ps.all (fun p => !p.isEmpty && p.all noBlankText && (trailingText p).getLast? != some '\r')
    && (icon.isSome || !starts (cs! "! ") (leadingText (ps.head?.getD [])))

mutual
/-- The simple blocks, such lists and highlights, and collapsibles of plain blocks. -/
def isPlain : YamdNode → Bool
  | .list l => plainList l
  | .highlight _ icon ps => plainHighlight icon ps
  | .collapsible _ b => plainBlocks b
  | _ => true
def plainBlocks : List YamdNode → Bool
  | [] => true
  | n :: r => isPlain n && plainBlocks r
end

end Yamd.Spec
