import Verif.Proofs.OpsOf

/-!
# The parts of a node may come in any order (C70)
-/

namespace Yamd.Round

open Yamd Yamd.Spec Yamd.ToYamd Yamd.Ref

variable {src : Str}

theorem run_both : ∀ (a b : List Op) (s : Stack),
    run src (a ++ b) s = (match run src a s with
      | .ok (some t) => run src b t
      | .ok none => .ok none
      | .error e => .error e)
  | [], b, s => by simp [run]
  | o :: a, b, s => by
    simp only [run, List.cons_append]
    cases step src o s with
    | error e => rfl
    | ok x =>
      cases x with
      | none => rfl
      | some u => exact run_both a b u

/-- Ops that do the same to every stack can replace each other anywhere. -/
theorem run_replace {x x' : List Op} (h : ∀ s, run src x s = run src x' s) (pre post : List Op) :
    tryToYamd (pre ++ x ++ post) src = tryToYamd (pre ++ x' ++ post) src := by
  have key : ∀ s, run src (pre ++ x ++ post) s = run src (pre ++ x' ++ post) s := by
    intro s
    rw [run_both, run_both (pre ++ x') post, run_both pre x, run_both pre x']
    cases run src pre s with
    | error e => rfl
    | ok t =>
      cases t with
      | none => rfl
      | some u => simp only [h u]
  unfold tryToYamd
  rw [key]

/-- A node with the same effect of what is inside. -/
theorem run_around {n : Node} {o c : Str} {inner inner' : List Op} {s t : Stack} {f : Frame}
    (ho : onStart n (.Materialized o) src s = .ok (f :: s)) (h : Turns src inner (f :: s) t)
    (h' : Turns src inner' (f :: s) t) : run src (around n o c inner) s = run src (around n o c inner') s := by
  have h1 : Turns src [startOp n o] s (f :: s) := by
    simp only [Turns, run, step, startOp, ho]; rfl
  have e : ∀ i : List Op, around n o c i = [startOp n o] ++ (i ++ [endOp n c]) := fun _ => rfl
  rw [e, e, run_append _ _ h1, run_append _ _ h1, run_append _ _ h, run_append _ _ h']

theorem item_order (text : Paragraph) (l : YList) (s : Stack) :
    run src (around .ListItem [] [] (opsOfParagraph text ++ opsOfList l)) s =
      run src (around .ListItem [] [] (opsOfList l ++ opsOfParagraph text)) s := by
  refine run_around (f := .ListItem [] none)
    (t := .ListItem (dropLastNl text) (some (settleList (countListDepth (.ListItem [] none :: s)) l)) :: s) rfl ?_ ?_
  · refine Turns.append (t := .ListItem (dropLastNl text) none :: s) ?_ (turns_list l _ _ rfl)
    rw [← dropLastNl_trim]
    exact turns_paragraph rfl
  · refine Turns.append (t := .ListItem [] (some (settleList (countListDepth (.ListItem [] none :: s)) l)) :: s)
      (turns_list l _ _ rfl) ?_
    rw [← dropLastNl_trim]
    exact turns_paragraph rfl

theorem turns_option_title (o : Option Str) (i : Option Str) (ps : List Paragraph) (s : Stack) :
    Turns src (opsOfOption .Modifier o) (.Highlight none i ps :: s) (.Highlight o i ps :: s) := by
  cases o with
  | none => exact Turns.nil _
  | some t => exact turns_around rfl (turns_value _ _ _) rfl

theorem turns_option_icon (o : Option Str) (t : Option Str) (ps : List Paragraph) (s : Stack) :
    Turns src (opsOfOption .Icon o) (.Highlight t none ps :: s) (.Highlight t o ps :: s) := by
  cases o with
  | none => exact Turns.nil _
  | some i => exact turns_around rfl (turns_value _ _ _) rfl

theorem highlight_order (title icon : Option Str) (ps qs : List Paragraph) (s : Stack) :
    run src (around .Highlight (cs! "!!") (cs! "!!")
        (opsOfOption .Modifier title ++ opsOfOption .Icon icon ++ (ps ++ qs).flatMap opsOfParagraph)) s =
      run src (around .Highlight (cs! "!!") (cs! "!!")
        (ps.flatMap opsOfParagraph ++ opsOfOption .Icon icon ++ qs.flatMap opsOfParagraph ++ opsOfOption .Modifier title)) s := by
  refine run_around (f := .Highlight none none []) (t := .Highlight title icon ((ps ++ qs).map dropLastNl) :: s) rfl ?_ ?_
  · exact ((turns_option_title _ _ _ _).append (turns_option_icon _ _ _ _)).append (turns_hparas (ps ++ qs) [] title icon s)
  · rw [List.map_append]
    exact (((turns_hparas ps [] none none s).append (turns_option_icon icon none _ s)).append
      (turns_hparas qs _ none icon s)).append (turns_option_title title icon _ s)

theorem anchor_order (a : Anchor) (s : Stack) :
    run src (opsOfAnchor a) s = run src (around .Anchor [] [] (around .Destination (cs! "(") (cs! ")") [valueOp a.url] ++
      around .Title (cs! "[") (cs! "]") [valueOp a.text])) s :=
  run_around (f := .Anchor [] []) (t := .Anchor a.text a.url :: s) rfl
    (Turns.append (turns_around rfl (turns_value _ _ _) rfl) (turns_around rfl (turns_value _ _ _) rfl))
    (Turns.append (turns_around rfl (turns_value _ _ _) rfl) (turns_around rfl (turns_value _ _ _) rfl))

theorem image_order (i : Image) (s : Stack) :
    run src (opsOfImage i) s = run src (around .Image [] [] (around .Destination (cs! "(") (cs! ")") [valueOp i.src] ++
      around .Title (cs! "![") (cs! "]") [valueOp i.alt])) s :=
  run_around (f := .Image [] []) (t := .Image i.alt i.src :: s) rfl
    (Turns.append (turns_around rfl (turns_value _ _ _) rfl) (turns_around rfl (turns_value _ _ _) rfl))
    (Turns.append (turns_around rfl (turns_value _ _ _) rfl) (turns_around rfl (turns_value _ _ _) rfl))

theorem code_order (lang code : Str) (s : Stack) :
    run src (opsOfNode (.code lang code)) s = run src (around .Code (cs! "```") (cs! "```")
      ([valueOp code] ++ around .Modifier [] [] [valueOp lang])) s :=
  run_around (f := .Code [] []) (t := .Code lang code :: s) rfl
    (Turns.append (turns_around rfl (turns_value _ _ _) rfl) (turns_value _ _ _))
    (Turns.append (turns_value _ _ _) (turns_around rfl (turns_value _ _ _) rfl))

theorem collapsible_order (title : Str) (body : List YamdNode) (b : List YamdNode) (s : Stack) (hs : countListDepth s = 0) :
    Turns src (around .Collapsible (cs! "{%") (cs! "%}")
      (around .Document [] [] (opsOfNodes body) ++ around .Modifier [] [] [valueOp title])) (.Document b :: s)
      (.Document (b ++ [settleNode (.collapsible title body)]) :: s) := by
  refine turns_around (f := .Collapsible [] []) (g := .Collapsible title (settleNodes body)) (t := .Document b :: s) rfl ?_
    (by simp only [settleNode]; rfl)
  refine Turns.append (t := .Collapsible [] (settleNodes body) :: .Document b :: s) ?_ (turns_around rfl (turns_value _ _ _) rfl)
  refine turns_around (f := .Document []) (g := .Document ([] ++ settleNodes body)) rfl (turns_nodes body [] _ ?_) rfl
  rw [← hs]; rfl

end Yamd.Round
