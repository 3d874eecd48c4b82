import Verif.Spec.OpsOf
import Verif.Model.ToYamd
import Verif.Proofs.DocFacts

/-!
# `to_yamd` reads hand-written op streams (C70)
-/

namespace Yamd.Round

open Yamd Yamd.Spec Yamd.ToYamd Yamd.Ref

variable (src : Str)

/-- Running the ops turns the stack into another. -/
def Turns (ops : List Op) (s t : Stack) : Prop := run src ops s = .ok (some t)

variable {src}

theorem run_append : ∀ (a b : List Op) {s t : Stack}, Turns src a s t → run src (a ++ b) s = run src b t
  | [], b, s, t, h => by
    simp only [Turns, run, Except.ok.injEq, Option.some.injEq] at h
    simp [h]
  | o :: a, b, s, t, h => by
    simp only [Turns, run, List.cons_append] at h ⊢
    cases hs : step src o s with
    | error e => rw [hs] at h; cases h
    | ok x =>
      rw [hs] at h
      cases x with
      | none => cases h
      | some u => exact run_append a b (s := u) h

theorem Turns.nil (s : Stack) : Turns src [] s s := rfl

theorem Turns.append {a b : List Op} {s t u : Stack} (h : Turns src a s t) (h' : Turns src b t u) :
    Turns src (a ++ b) s u := by
  unfold Turns
  rw [run_append a b h]
  exact h'

theorem turns_value (v : Str) (f : Frame) (s : Stack) : Turns src [valueOp v] (f :: s) (valueInto v f :: s) := rfl

/-- A node: its frame is pushed, filled, popped. -/
theorem turns_around {n : Node} {o c : Str} {inner : List Op} {s t u : Stack} {f g : Frame}
    (ho : onStart n (.Materialized o) src s = .ok (f :: s)) (hi : Turns src inner (f :: s) (g :: t))
    (hc : onEndFrame n g t = some u) : Turns src (around n o c inner) s u := by
  have h1 : Turns src [startOp n o] s (f :: s) := by
    simp only [Turns, run, step, startOp, ho]; rfl
  have h2 : Turns src [endOp n c] (g :: t) u := by
    simp only [Turns, run, step, endOp, onEnd, hc]; rfl
  exact h1.append (hi.append h2)

theorem turns_anchor_p (a : Anchor) (b : List ParagraphNode) (s : Stack) :
    Turns src (opsOfAnchor a) (.Paragraph b :: s) (.Paragraph (b ++ [.anchor a]) :: s) :=
  turns_around rfl (Turns.append (turns_around rfl (turns_value _ _ _) rfl)
    (turns_around rfl (turns_value _ _ _) rfl)) rfl

theorem turns_anchor_h (a : Anchor) (l : Nat) (b : List HeadingNode) (s : Stack) :
    Turns src (opsOfAnchor a) (.Heading l b :: s) (.Heading l (b ++ [.anchor a]) :: s) :=
  turns_around rfl (Turns.append (turns_around rfl (turns_value _ _ _) rfl)
    (turns_around rfl (turns_value _ _ _) rfl)) rfl

theorem turns_boldNode (n : BoldNode) (b : List BoldNode) (s : Stack) :
    Turns src (opsOfBoldNode n) (.Bold b :: s) (.Bold (b ++ [n]) :: s) := by
  cases n with
  | italic t => exact turns_around rfl (turns_value _ _ _) rfl
  | strikethrough t => exact turns_around rfl (turns_value _ _ _) rfl
  | text t => exact turns_value _ _ _

theorem turns_boldNodes : ∀ (l b : List BoldNode) (s : Stack),
    Turns src (l.flatMap opsOfBoldNode) (.Bold b :: s) (.Bold (b ++ l) :: s)
  | [], b, s => by simpa using Turns.nil _
  | n :: l, b, s => by
    have := (turns_boldNode (src := src) n b s).append (turns_boldNodes l (b ++ [n]) s)
    simpa using this

theorem turns_inline (n : ParagraphNode) (b : List ParagraphNode) (s : Stack) :
    Turns src (opsOfInline n) (.Paragraph b :: s) (.Paragraph (b ++ [n]) :: s) := by
  cases n with
  | anchor a => exact turns_anchor_p a b s
  | bold l => exact turns_around rfl (turns_boldNodes l [] _) rfl
  | italic t => exact turns_around rfl (turns_value _ _ _) rfl
  | strikethrough t => exact turns_around rfl (turns_value _ _ _) rfl
  | text t => exact turns_value _ _ _
  | codeSpan t => exact turns_around rfl (turns_value _ _ _) rfl
  | emphasis t => exact turns_around rfl (turns_value _ _ _) rfl

theorem turns_inlines : ∀ (l b : List ParagraphNode) (s : Stack),
    Turns src (l.flatMap opsOfInline) (.Paragraph b :: s) (.Paragraph (b ++ l) :: s)
  | [], b, s => by simpa using Turns.nil _
  | n :: l, b, s => by
    have := (turns_inline (src := src) n b s).append (turns_inlines l (b ++ [n]) s)
    simpa using this

theorem turns_paragraph {p : Paragraph} {s u : Stack} (h : onEndFrame .Paragraph (.Paragraph p) s = some u) :
    Turns src (opsOfParagraph p) s u :=
  turns_around rfl (turns_inlines p [] _) h

theorem turns_headingNodes : ∀ (l b : List HeadingNode) (k : Nat) (s : Stack),
    Turns src (l.flatMap opsOfHeadingNode) (.Heading k b :: s) (.Heading k (b ++ l) :: s)
  | [], b, k, s => by simpa using Turns.nil _
  | n :: l, b, k, s => by
    have h1 : Turns src (opsOfHeadingNode n) (.Heading k b :: s) (.Heading k (b ++ [n]) :: s) := by
      cases n with
      | text t => exact turns_value _ _ _
      | anchor a => exact turns_anchor_h a k b s
    simpa using h1.append (turns_headingNodes l (b ++ [n]) k s)

theorem turns_image {i : Image} {s u : Stack} (h : onEndFrame .Image (.Image i.alt i.src) s = some u) :
    Turns src (opsOfImage i) s u :=
  turns_around rfl (Turns.append (turns_around rfl (turns_value _ _ _) rfl)
    (turns_around rfl (turns_value _ _ _) rfl)) h

theorem turns_images : ∀ (l b : List Image) (s : Stack),
    Turns src (l.flatMap opsOfImage) (.Images b :: s) (.Images (b ++ l) :: s)
  | [], b, s => by simpa using Turns.nil _
  | n :: l, b, s => by
    have := (turns_image (src := src) (i := n) (s := .Images b :: s) rfl).append (turns_images l (b ++ [n]) s)
    simpa using this

theorem dropLastNl_trim : ∀ p : Paragraph, trimTrailingNewline p = dropLastNl p
  | [] => rfl
  | [.text s] => by simp [trimTrailingNewline, dropLastNl]
  | [.anchor _] | [.bold _] | [.italic _] | [.strikethrough _] | [.codeSpan _] | [.emphasis _] => rfl
  | n :: m :: r => by
    have ih := dropLastNl_trim (m :: r)
    have : dropLastNl (n :: m :: r) = n :: dropLastNl (m :: r) := by cases n <;> rfl
    rw [this, ← ih]
    simp only [trimTrailingNewline, List.getLast?_cons_cons]
    cases (m :: r).getLast? with
    | none => rfl
    | some x =>
      cases x with
      | text t => dsimp only; split <;> simp
      | _ => rfl

theorem turns_hparas : ∀ (l b : List Paragraph) (t i : Option Str) (s : Stack),
    Turns src (l.flatMap opsOfParagraph) (.Highlight t i b :: s) (.Highlight t i (b ++ l.map dropLastNl) :: s)
  | [], b, t, i, s => by simpa using Turns.nil _
  | p :: l, b, t, i, s => by
    have := (turns_paragraph (src := src) (p := p) (s := .Highlight t i b :: s) rfl).append (turns_hparas l (b ++ [trimTrailingNewline p]) t i s)
    rw [dropLastNl_trim] at this
    simpa using this

mutual
theorem turns_list : ∀ (l : YList) (s : Stack) (u : Stack),
    finishList s (settleList (countListDepth s) l) = some u → Turns src (opsOfList l) s u
  | .mk .Unordered k items, s, u, h => by
    refine turns_around (f := .UnorderedList (countListDepth s) [])
      (g := .UnorderedList (countListDepth s) (settleItems (countListDepth s) items)) rfl ?_ h
    exact turns_uitems items (countListDepth s) [] s rfl
  | .mk .Ordered k items, s, u, h => by
    refine turns_around (f := .OrderedList (countListDepth s) [])
      (g := .OrderedList (countListDepth s) (settleItems (countListDepth s) items)) rfl ?_ h
    exact turns_oitems items (countListDepth s) [] s rfl
theorem turns_item : ∀ (i : YItem) (d : Nat) (s u : Stack), countListDepth s = d + 1 →
    (match settleItem d i with | .mk t n => onEndFrame .ListItem (.ListItem t n) s) = some u → Turns src (opsOfItem i) s u
  | .mk text none, d, s, u, hd, h => by
    refine turns_around (f := .ListItem [] none) (g := .ListItem (dropLastNl text) none) rfl ?_ h
    rw [← dropLastNl_trim]
    exact turns_paragraph rfl
  | .mk text (some l), d, s, u, hd, h => by
    refine turns_around (f := .ListItem [] none) (g := .ListItem (dropLastNl text) (some (settleList (d + 1) l))) rfl ?_ h
    refine Turns.append (t := .ListItem (dropLastNl text) none :: s) ?_ ?_
    · rw [← dropLastNl_trim]
      exact turns_paragraph rfl
    · refine turns_list l _ _ ?_
      have : countListDepth (.ListItem (dropLastNl text) none :: s) = d + 1 := by
        rw [← hd]; rfl
      rw [this]
      rfl
theorem turns_uitems : ∀ (l : List YItem) (d : Nat) (b : List YItem) (s : Stack), countListDepth s = d →
    Turns src (opsOfItems l) (.UnorderedList d b :: s) (.UnorderedList d (b ++ settleItems d l) :: s)
  | [], d, b, s, hd => by simpa [opsOfItems, settleItems] using Turns.nil _
  | i :: l, d, b, s, hd => by
    have h1 : Turns src (opsOfItem i) (.UnorderedList d b :: s) (.UnorderedList d (b ++ [settleItem d i]) :: s) := by
      refine turns_item i d _ _ (by rw [← hd]; rfl) ?_
      cases settleItem d i with
      | mk t n => rfl
    have := h1.append (turns_uitems l d (b ++ [settleItem d i]) s hd)
    simpa [opsOfItems, settleItems] using this
theorem turns_oitems : ∀ (l : List YItem) (d : Nat) (b : List YItem) (s : Stack), countListDepth s = d →
    Turns src (opsOfItems l) (.OrderedList d b :: s) (.OrderedList d (b ++ settleItems d l) :: s)
  | [], d, b, s, hd => by simpa [opsOfItems, settleItems] using Turns.nil _
  | i :: l, d, b, s, hd => by
    have h1 : Turns src (opsOfItem i) (.OrderedList d b :: s) (.OrderedList d (b ++ [settleItem d i]) :: s) := by
      refine turns_item i d _ _ (by rw [← hd]; rfl) ?_
      cases settleItem d i with
      | mk t n => rfl
    have := h1.append (turns_oitems l d (b ++ [settleItem d i]) s hd)
    simpa [opsOfItems, settleItems] using this
end

theorem heading_level (k : Nat) : ((List.replicate k '#' ++ cs! " ").takeWhile (· == '#')).length = k := by
  induction k with
  | zero => rfl
  | succ k ih => simpa [List.replicate_succ] using ih

theorem newCode_trim (l c : Str) : YamdNode.newCode l (trimEndNl c) = .code l (trimEndNl c) := by
  simp [YamdNode.newCode, trimEndNl_idem]

mutual
theorem turns_node : ∀ (n : YamdNode) (b : List YamdNode) (s : Stack), countListDepth s = 0 →
    Turns src (opsOfNode n) (.Document b :: s) (.Document (b ++ [settleNode n]) :: s)
  | .paragraph p, b, s, _ => turns_paragraph rfl
  | .heading k body, b, s, _ => by
    refine turns_around (f := .Heading (k % 256) []) (g := .Heading (k % 256) ([] ++ body)) ?_ (turns_headingNodes body [] _ _) rfl
    simp only [onStart, extractHeadingLevel, Content.asStr]
    have := heading_level k
    simp only [bind, Except.bind, pure, Except.pure, this]
  | .image i, b, s, _ => turns_image rfl
  | .images l, b, s, _ => turns_around rfl (turns_images l [] _) rfl
  | .code lang code, b, s, _ => by
    refine turns_around (f := .Code [] []) (g := .Code lang code) rfl
      (Turns.append (turns_around rfl (turns_value _ _ _) rfl) (turns_value _ _ _)) ?_
    simp only [onEndFrame, newCode_trim, pushYamdNode, settleNode]
  | .list l, b, s, hs => by
    rw [opsOfNode]
    refine turns_list l _ _ ?_
    have : countListDepth (.Document b :: s) = 0 := by rw [← hs]; rfl
    rw [this]
    simp only [settleNode]
    rfl
  | .highlight t i ps, b, s, _ => by
    rw [opsOfNode]
    refine turns_around (f := .Highlight none none []) (g := .Highlight t i ([] ++ ps.map dropLastNl)) (t := .Document b :: s) rfl ?_ rfl
    refine Turns.append (Turns.append (t := .Highlight t none [] :: .Document b :: s) ?_ ?_) (turns_hparas ps [] t i _)
    · cases t with
      | none => exact Turns.nil _
      | some t => exact turns_around rfl (turns_value _ _ _) rfl
    · cases i with
      | none => exact Turns.nil _
      | some i => exact turns_around rfl (turns_value _ _ _) rfl
  | .thematicBreak, b, s, _ => turns_around rfl (Turns.nil _) rfl
  | .embed k a, b, s, _ => turns_around (g := .Embed [k, cs! "|", a]) rfl rfl rfl
  | .collapsible title body, b, s, hs => by
    rw [opsOfNode]
    refine turns_around (f := .Collapsible [] []) (g := .Collapsible title (settleNodes body)) (t := .Document b :: s) rfl ?_ (by simp only [settleNode]; rfl)
    refine Turns.append (t := .Collapsible title [] :: .Document b :: s) (turns_around rfl (turns_value _ _ _) rfl) ?_
    refine turns_around (f := .Document []) (g := .Document ([] ++ settleNodes body)) rfl (turns_nodes body [] _ ?_) rfl
    rw [← hs]; rfl
theorem turns_nodes : ∀ (l : List YamdNode) (b : List YamdNode) (s : Stack), countListDepth s = 0 →
    Turns src (opsOfNodes l) (.Document b :: s) (.Document (b ++ settleNodes l) :: s)
  | [], b, s, _ => by simpa [opsOfNodes, settleNodes] using Turns.nil _
  | n :: l, b, s, hs => by
    have := (turns_node n b s hs).append (turns_nodes l (b ++ [settleNode n]) s hs)
    simpa [opsOfNodes, settleNodes] using this
end

theorem toYamd_opsOf (y : Yamd) (src : Str) : toYamd (opsOf y) src = .ok (settle y) := by
  have h : Turns src (opsOf y) [.Yamd none []] [.Yamd (y.metadata.map trimNl) ([] ++ settleNodes y.body)] := by
    refine Turns.append (t := [.Yamd (y.metadata.map trimNl) []]) ?_ ?_
    · cases y.metadata with
      | none => exact Turns.nil _
      | some m => exact turns_around rfl (turns_value _ _ _) rfl
    · exact turns_around (f := .Document []) (g := .Document ([] ++ settleNodes y.body)) rfl (turns_nodes _ [] _ rfl) rfl
  unfold Turns at h
  simp only [toYamd, tryToYamd, h]
  simp only [bind, Except.bind, pure, Except.pure, finish, Yamd.new, settle, List.nil_append]
  cases y.metadata with
  | none => rfl
  | some m => simp [trimNl_idem]

end Yamd.Round
