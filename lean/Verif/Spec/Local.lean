import Verif.Model.ToYamd
import Verif.Spec.LexProps

/-!
# Documents whose blocks are all finished (C49)

A paragraph that begins like a fenced code block, an embed, a highlight or a collapsible is text only
because the rest of the block is missing; text added later may complete it. A document without such
paragraphs is *settled*.
-/

namespace Yamd.Spec

open Yamd

/-- Text that begins with the opening mark of a code block, a highlight, an embed or a collapsible. -/
def opensBlock (s : Str) : Bool :=
  [cs! "```", cs! "!!", cs! "{{", cs! "{%"].any (·.isPrefixOf s)

mutual
/-- No unfinished block. -/
def settledBlock : YamdNode → Bool
  | .paragraph (.text s :: _) => !opensBlock s
  | .collapsible _ body => settledBlocks body
  | _ => true
/-- No unfinished block among the blocks. -/
def settledBlocks : List YamdNode → Bool
  | [] => true
  | n :: r => settledBlock n && settledBlocks r
end

/-- The text does not end with a line break, and not with a backslash that escapes nothing. -/
def cleanEnd (a : Str) : Bool :=
  a.getLast? != some '\n' && a.getLast? != some '\r' && !dangling a

/-- The text starts with the mark of front matter. -/
def startsDashes (a : Str) : Bool := (cs! "---").isPrefixOf a

end Yamd.Spec
