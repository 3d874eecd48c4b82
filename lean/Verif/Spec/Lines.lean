import Verif.Spec.Ops

/-!
# Vocabulary of the line properties C53-C57

Definitions used in the statements only. They speak about byte offsets of the input and about the op
stream, not about tokens or about how the parser works.
-/

namespace Yamd.Spec

open Yamd

/-- Byte `a` of the text is the first of a line: nothing stands before it, or a line feed that no
backslash escapes. -/
def LineStart (s : Str) (a : Nat) : Prop :=
  ∃ pre post, s = pre ++ post ∧ blen pre = a ∧ (pre = [] ∨ ∃ q, pre = q ++ ['\n'] ∧ dangling q = false)

/-- A line ends at byte `b` of the text: a line break follows, or nothing (but a lone backslash, which
stands for nothing). -/
def LineEnd (s : Str) (b : Nat) : Prop :=
  ∃ pre post, s = pre ++ post ∧ blen pre = b ∧
    (post = [] ∨ post = ['\\'] ∨ ∃ br r, IsBreak br ∧ post = br ++ r)

/-- The marks that are only marks at the start of a line. -/
def isLineMark : OpKind → Bool
  | .Start n => [.Metadata, .Heading, .Code, .Embed, .Highlight, .Collapsible, .ListItem, .Icon].contains n
  | .End n => [.Metadata, .Code, .Highlight, .Collapsible].contains n
  | .Value => false

/-- The content of an op is the bytes from `a` on, and these start a line. -/
def AtLineStart (input : Str) (op : Op) : Prop :=
  ∃ a b, op.content = .Span a b ∧ LineStart input a

/-- The nodes left open after a stream that began with the nodes `open_` open (innermost first). -/
def openAfter : List Node → List OpKind → List Node
  | open_, [] => open_
  | open_, .Start n :: r => openAfter (n :: open_) r
  | open_, .Value :: r => openAfter open_ r
  | open_, .End _ :: r => openAfter open_.tail r

/-- The blocks that end with a mark of their own (or are one): another block may follow at once. -/
def endsItself : Node → Bool
  | .Code | .Embed | .Highlight | .ThematicBreak | .Collapsible => true
  | _ => false

/-- The two lists. -/
def isListNode : Node → Bool
  | .UnorderedList | .OrderedList => true
  | _ => false

/-- May a block `b` stand directly after a block `a`, without a blank line? After a list only another
list or a paragraph may (a line that looks like an item of a level or kind the list has no place for). -/
def mayFollow (a b : Node) : Bool :=
  endsItself a || (isListNode a && [.UnorderedList, .OrderedList, .Paragraph].contains b)

end Yamd.Spec
