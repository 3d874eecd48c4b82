import Verif.Spec.Doc

/-!
# The size of a document (C63, C64)
-/

namespace Yamd.Spec

open Yamd

/-- Nodes of an inline node: itself and, for a bold, its children. -/
def nodesP : ParagraphNode → Nat
  | .bold l => 1 + l.length
  | _ => 1

/-- A paragraph and the nodes in it. -/
def nodesPara (p : Paragraph) : Nat := 1 + (p.map nodesP).sum

mutual
/-- A list and everything in it. -/
def nodesL : YList → Nat
  | .mk _ _ items => 1 + nodesIs items
/-- The same for a sequence of items. -/
def nodesIs : List YItem → Nat
  | [] => 0
  | i :: r => nodesI i + nodesIs r
/-- An item, its text and the list nested in it. -/
def nodesI : YItem → Nat
  | .mk text none => 1 + nodesPara text
  | .mk text (some l) => 1 + nodesPara text + nodesL l
end

mutual
/-- A block and everything in it. -/
def nodesN : YamdNode → Nat
  | .paragraph p => nodesPara p
  | .heading _ b => 1 + b.length
  | .images l => 1 + l.length
  | .list l => nodesL l
  | .highlight _ _ ps => 1 + (ps.map nodesPara).sum
  | .collapsible _ b => 1 + nodesNs b
  | _ => 1
/-- The same for a body. -/
def nodesNs : List YamdNode → Nat
  | [] => 0
  | n :: r => nodesN n + nodesNs r
end

/-- How many nodes a document has, at all depths. -/
def nodeCount (y : Yamd) : Nat := nodesNs y.body

mutual
/-- How deep collapsibles are nested in a block. -/
def depthN : YamdNode → Nat
  | .collapsible _ b => 1 + depthNs b
  | _ => 0
/-- The same for a body. -/
def depthNs : List YamdNode → Nat
  | [] => 0
  | n :: r => max (depthN n) (depthNs r)
end

/-- How deep collapsibles are nested in a document. -/
def collapsibleDepth (y : Yamd) : Nat := depthNs y.body

mutual
/-- How deep lists are nested in a list, the list itself included. -/
def depthL : YList → Nat
  | .mk _ _ items => 1 + depthIs items
/-- The same for a sequence of items. -/
def depthIs : List YItem → Nat
  | [] => 0
  | i :: r => max (depthI i) (depthIs r)
/-- The same for one item. -/
def depthI : YItem → Nat
  | .mk _ none => 0
  | .mk _ (some l) => depthL l
end

end Yamd.Spec
