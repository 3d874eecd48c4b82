import Verif.Spec.RoundTrip

/-!
# Documents that were read and can be written (C52)

A document that was read from a text without backslashes and carriage returns is written and read back
unchanged unless it has one of the shapes excluded here. All conditions are computable conditions on
the document.
-/

namespace Yamd.Spec

open Yamd

/-- A block, not a collapsible, without the shapes `Display` cannot write. -/
def steadyLeaf : YamdNode → Bool
  | .paragraph p => !startsHeading (leadingText p) && !imageLines p
  | .code _ c => !starts (cs! "\n") c
  | .highlight _ icon ps =>
    !ps.isEmpty && ps.all (!·.isEmpty) && !starts (cs! "\n") (leadingText (ps.head?.getD []))
      && (icon.isSome || !starts (cs! "! ") (leadingText (ps.head?.getD [])))
  | _ => true

mutual
/-- A block without the shapes `Display` cannot write. -/
def steadyBlock : YamdNode → Bool
  | .collapsible _ body =>
    steadyBlocks body && (match body with | [] => true | n :: _ => startsClean n)
  | n => steadyLeaf n
/-- All blocks of a body. -/
def steadyBlocks : List YamdNode → Bool
  | [] => true
  | n :: r => steadyBlock n && steadyBlocks r
end

/-- A document without the shapes `Display` cannot write. -/
def steadyDocument (y : Yamd) : Bool :=
  steadyBlocks y.body

end Yamd.Spec
