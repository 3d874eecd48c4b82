import Verif.Proofs.Round.Coll
import Verif.Spec.Expressible

/-!
# Texts with every character escaped
-/

namespace Yamd.Round

open Yamd Yamd.Spec Yamd.Lexer Yamd.Ref

/-- The view of a text with every character escaped. -/
def hid (s : Str) : V := s.map (fun c => (true, c))

theorem render_hid : ∀ s : Str, render (hid s) = hide s
  | [] => rfl
  | c :: s => by
    have ih := render_hid s
    rw [hid, List.map_cons, render_esc, ← hid, ih]; rfl

theorem hid_chars (s : Str) : (hid s).map Prod.snd = s := by simp [hid, Function.comp_def]

theorem hid_notFree {s : Str} {c : Char} : (false, c) ∉ hid s := by simp [hid]

theorem hid_valid (s : Str) : Valid (hid s) := hid_notFree

theorem hid_noInf {s pat : Str} (h : pat ≠ []) : NoInf pat (hid s) := by
  cases pat with
  | nil => exact absurd rfl h
  | cons c r => exact notFree_noInf (c := c) hid_notFree (by simp)

theorem hid_noStart {b : Bool} {s pat : Str} (h : pat ≠ []) : NoStart b pat (hid s) :=
  ⟨fun _ hp => hid_noInf h hp.isInfix, hid_noInf (by simp)⟩

theorem hid_vq {stops : List Stop} {b : Bool} {s : Str} : VQ stops b (hid s) := by
  intro st _
  cases st with
  | Terminator => exact ⟨hid_noInf (by simp), hid_noInf (by simp)⟩
  | CollapsibleEnd => exact hid_noStart (by simp)
  | HighlightEnd => exact hid_noStart (by simp)
  | ListBoundary _ _ => exact ⟨hid_noStart (by simp), hid_noStart (by simp), hid_noStart (by simp)⟩

theorem hid_body {stops : List Stop} {b : Bool} {S : List Char} {s : Str} : Body stops b S s (hid s) :=
  ⟨hid_valid s, hid_chars s, fun _ _ => hid_notFree, hid_vq⟩

theorem hid_ne {s : Str} (h : s ≠ []) : hid s ≠ [] := by simpa [hid] using h

/-- Every piece of a text with every character escaped is literal. -/
theorem hid_literal {src : Str} {b : Bool} {ts : List Token} {s : Str} (h : SpV src b ts (hid s)) :
    ∀ t ∈ ts, t.kind = .Literal := by
  intro t ht
  obtain ⟨p, v1, v2, e, hs, hf, he⟩ := spv_mem (hid_valid s) h ht
  rw [hs.kind]
  by_cases hk : p.kind = .Literal
  · exact hk
  · exfalso
    have h1 := pview_free he hk
    have hne := form_ne_nil hf
    cases ht : p.text with
    | nil => exact hne ht
    | cons c r =>
      rw [h1, ht] at e
      exact hid_notFree (c := c) (s := s) (by rw [e]; simp [free])

theorem hid_cleanEnd (s : Str) : CleanEnd (hid s) :=
  ⟨notFree_last hid_notFree, notFree_last hid_notFree⟩

/-! ### Inline nodes -/

def hidB : BoldNode → V
  | .text s => hid s
  | .italic s => free ['_'] ++ (hid s ++ free ['_'])
  | .strikethrough s => free ['~', '~'] ++ (hid s ++ free ['~', '~'])

def hidP : ParagraphNode → V
  | .text s => hid s
  | .italic s => free ['_'] ++ (hid s ++ free ['_'])
  | .strikethrough s => free ['~', '~'] ++ (hid s ++ free ['~', '~'])
  | .emphasis s => free ['*'] ++ (hid s ++ free ['*'])
  | .codeSpan s => free ['`'] ++ (hid s ++ free ['`'])
  | .anchor a => linkV (hid a.text) (hid a.url)
  | .bold l => free ['*', '*'] ++ (l.flatMap hidB ++ free ['*', '*'])

def hidH : HeadingNode → V
  | .text s => hid s
  | .anchor a => linkV (hid a.text) (hid a.url)

def hidPara (p : Paragraph) : V := p.flatMap hidP

theorem render_link (a b : Str) : render (linkV (hid a) (hid b)) = cs! "[" ++ hide a ++ cs! "](" ++ hide b ++ cs! ")" := by
  simp only [linkV, render_append, render_free_all, render_hid]; simp

theorem render_hidB (n : BoldNode) : render (hidB n) = spellB n := by
  cases n <;> simp only [hidB, spellB, render_append, render_free_all, render_hid, List.append_assoc]

theorem render_flat {α : Type} {f : α → V} {g : α → Str} (h : ∀ x, render (f x) = g x) (l : List α) :
    render (l.flatMap f) = l.flatMap g := by
  induction l with
  | nil => rfl
  | cons x l ih => rw [List.flatMap_cons, List.flatMap_cons, render_append, ih, h]

theorem render_hidP (n : ParagraphNode) : render (hidP n) = spellP n := by
  cases n with
  | anchor a => exact render_link _ _
  | bold l => simp only [hidP, spellP, render_append, render_free_all, render_flat render_hidB, List.append_assoc]
  | _ => simp only [hidP, spellP, render_append, render_free_all, render_hid, List.append_assoc]

theorem render_hidH (n : HeadingNode) : render (hidH n) = spellH n := by
  cases n with
  | anchor a => exact render_link _ _
  | text s => exact render_hid s

theorem render_hidPara (p : Paragraph) : render (hidPara p) = spellPara p := render_flat render_hidP p

theorem hidB_ok {stops : List Stop} {b : Bool} {n : BoldNode} (h : exprBold n = true) : BoldItemV stops b n (hidB n) := by
  cases n with
  | text s => exact ⟨by simpa [exprBold] using h, hid_body⟩
  | italic s => exact ⟨_, rfl, hid_body⟩
  | strikethrough s => exact ⟨by simpa [exprBold] using h, _, rfl, hid_body⟩

theorem hidBs_ok {stops : List Stop} : ∀ {l : List BoldNode} {b : Bool}, l.all exprBold = true →
    SeqV (BoldItemV stops) b l (l.flatMap hidB)
  | [], _, _ => rfl
  | n :: l, _, h => by
    rw [List.all_cons, Bool.and_eq_true] at h
    exact ⟨_, _, rfl, hidB_ok h.1, hidBs_ok h.2⟩

theorem hidP_ok {stops : List Stop} {b : Bool} {n : ParagraphNode} (h : exprNode n = true) : NodeV stops b n (hidP n) := by
  cases n with
  | text s => exact ⟨by simpa [exprNode] using h, hid_body⟩
  | italic s => exact ⟨_, rfl, hid_body⟩
  | strikethrough s => exact ⟨by simpa [exprNode] using h, _, rfl, hid_body⟩
  | emphasis s => exact ⟨by simpa [exprNode] using h, _, rfl, hid_body⟩
  | codeSpan s => exact ⟨by simpa [exprNode] using h, _, rfl, hid_body⟩
  | anchor a => exact ⟨_, _, rfl, hid_body, hid_body⟩
  | bold l =>
    simp only [exprNode, Bool.and_eq_true, Bool.not_eq_true'] at h
    exact ⟨by simpa using h.1.1, chainB h.2, _, rfl, hidBs_ok h.1.2⟩

theorem hidPs_ok {stops : List Stop} : ∀ {l : Paragraph} {b : Bool}, l.all exprNode = true → ParaV stops b l (hidPara l)
  | [], _, _ => rfl
  | n :: l, _, h => by
    rw [List.all_cons, Bool.and_eq_true] at h
    exact ⟨_, _, rfl, hidP_ok h.1, hidPs_ok h.2⟩

theorem hidPara_ok {stops : List Stop} {b : Bool} {p : Paragraph} (h : exprPara p = true) :
    ParaV stops b p (hidPara p) ∧ Chain nodeShape p := by
  simp only [exprPara, Bool.and_eq_true] at h
  exact ⟨hidPs_ok h.1, chainP h.2⟩

/-- The ends of a hidden paragraph are escaped characters or delimiters. -/
theorem hidPara_cleanEnd {p : Paragraph} (h : p.all exprNode = true) : CleanEnd (hidPara p) := by
  by_cases hp : p = []
  · subst hp; simp [CleanEnd, hidPara]
  · obtain ⟨q, n, rfl⟩ := (List.eq_nil_or_concat p).resolve_left hp
    rw [List.concat_eq_append] at *
    rw [List.all_append, Bool.and_eq_true] at h
    have hn : exprNode n = true := by simpa using h.2
    have hsh := (node_shape _ _ _ (hidP_ok (stops := []) (b := false) hn)).1
    unfold CleanEnd
    rw [hidPara, List.flatMap_append, List.flatMap_cons, List.flatMap_nil, List.append_nil, last_append hsh.ne]
    cases n with
    | text s => exact hid_cleanEnd s
    | _ =>
      have := hsh.ends
      simp only [nodeShape] at this
      rw [this.2]; simp

theorem cleanStart_esc {c : Char} {v : V} : CleanStart ((true, c) :: v) := by
  constructor <;> (rw [free_cons_prefix]; simp)

theorem cleanStart_nil : CleanStart [] := by constructor <;> simp [free]

/-- The head of a hidden paragraph. -/
theorem hidPara_head {p : Paragraph} {x} {r : V} (h : p.all exprNode = true) (e : hidPara p = x :: r) :
    (∃ c, x = (true, c)) ∨ ∃ c, x = (false, c) ∧ c ∈ textSet := by
  cases p with
  | nil => simp [hidPara] at e
  | cons n p =>
    rw [List.all_cons, Bool.and_eq_true] at h
    have hsh := (node_shape _ _ _ (hidP_ok (stops := []) (b := false) h.1)).1
    obtain ⟨y, v, ey⟩ := List.exists_cons_of_ne_nil hsh.ne
    rw [hidPara, List.flatMap_cons, ey, List.cons_append, List.cons.injEq] at e
    rw [← e.1]
    cases n with
    | text s =>
      cases s with
      | nil => simp [hidP, hid] at ey
      | cons c s => simp only [hidP, hid, List.map_cons, List.cons.injEq] at ey; exact .inl ⟨c, ey.1.symm⟩
    | _ =>
      have := hsh.ends
      simp only [nodeShape, ey, List.head?_cons, Option.some.injEq] at this
      exact .inr ⟨_, this.1, by decide⟩

theorem hidPara_cleanStart {p : Paragraph} (h : p.all exprNode = true) : CleanStart (hidPara p) := by
  cases e : hidPara p with
  | nil => exact cleanStart_nil
  | cons x r =>
    rcases hidPara_head h e with ⟨c, rfl⟩ | ⟨c, rfl, hc⟩
    · exact cleanStart_esc
    · refine cleanStart_of_head rfl ?_ ?_ <;> (rintro rfl; revert hc; decide)

end Yamd.Round
