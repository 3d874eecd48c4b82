import Verif.Proofs.Steady
import Verif.Proofs.Round.Para

/-!
# What a paragraph that was read looks like, and its text
-/

namespace Yamd.Round

open Yamd Yamd.Spec Yamd.Lexer Yamd.Ref

/-! ### The safe class in two parts -/

def solidB : BoldNode → Bool
  | .text s => !s.isEmpty
  | .italic _ => true
  | .strikethrough s => !s.isEmpty

def calmB : BoldNode → Bool
  | .text s => !leftBlank s
  | .italic s => !leftBlank s
  | .strikethrough s => !leftBlank s

/-- Nothing is empty that cannot be written empty, and no children clash. -/
def solid : ParagraphNode → Bool
  | .text s => !s.isEmpty
  | .italic _ => true
  | .strikethrough s => !s.isEmpty
  | .emphasis s => !s.isEmpty
  | .codeSpan s => !s.isEmpty
  | .anchor _ => true
  | .bold l => !l.isEmpty && l.all solidB && noClash clashB l

/-- No blank line is left. -/
def calmP : ParagraphNode → Bool
  | .text s => !leftBlankText s
  | .italic s => !leftBlank s
  | .strikethrough s => !leftBlank s
  | .emphasis s => !leftBlank s
  | .codeSpan s => !leftBlank s
  | .anchor a => !leftBlank a.text && !leftBlank a.url
  | .bold l => l.all calmB

theorem safeBody_out (s : Str) : safeBody ⟨false⟩ s = !leftBlank s := by simp [safeBody, noCloseLine]

theorem safe_bold (n : BoldNode) : safeBoldNode ⟨false⟩ n = (solidB n && calmB n) := by
  cases n <;> simp [safeBoldNode, solidB, calmB, safeBody_out]

theorem safe_split (n : ParagraphNode) : safeNode ⟨false⟩ n = (solid n && calmP n) := by
  cases n with
  | bold l =>
    have : l.all (safeBoldNode ⟨false⟩) = (l.all solidB && l.all calmB) := by
      induction l with
      | nil => rfl
      | cons x l ih => rw [List.all_cons, ih, safe_bold]; simp only [List.all_cons]; cases solidB x <;> cases calmB x <;> cases l.all solidB <;> rfl
    simp only [safeNode, solid, calmP, this]
    cases l.isEmpty <;> cases l.all solidB <;> cases l.all calmB <;> cases noClash clashB l <;> rfl
  | _ => simp [safeNode, solid, calmP, safeBody_out, safeText, safeAnchor]

/-! ### The shape of what was read -/

section
variable {src : Str}

theorem boldItem_solid {x : BoldItem} (hx : x.Ok) (hl : Live src x.toks) : solidB (x.denote src) = true := by
  cases x with
  | text ts =>
    have : textOfToks src ts ≠ [] := live_text hl hx
    simpa [BoldItem.denote, solidB] using this
  | delim d =>
    rcases hx with ⟨n, o, c⟩ | ⟨n, o, c⟩
    · have := delim_body hl (kind_of_len o) (kind_of_len c) (c := '~') rfl
      simpa [BoldItem.denote, n, solidB] using this
    · simp [BoldItem.denote, n, solidB]

theorem inl_solid {x : Inl} (hx : x.Ok) (hl : Live src x.toks) : solid (x.denote src) = true := by
  cases x with
  | text ts =>
    have : textOfToks src ts ≠ [] := live_text hl hx
    simpa [Inl.denote, solid] using this
  | anchor l => rfl
  | delim d =>
    have hne : ∀ {k : TokenKind} {c : Char}, d.opening.kind = k → d.closing.kind = k → runCharOf k = some c →
        (textOfToks src d.body).isEmpty = false := by
      intro k c h1 h2 h3
      have := delim_body hl h1 h2 h3
      simpa using this
    rcases hx with ⟨n, o, c⟩ | ⟨n, o, c⟩ | ⟨n, o, c⟩ | ⟨n, o, c⟩ <;> simp only [Inl.denote, n, solid, Bool.not_eq_true']
    · exact hne (kind_of_len o) (kind_of_len c) (c := '~') rfl
    · exact hne (kind_of_len o) (kind_of_len c) (c := '`') rfl
    · exact hne (kind_of_len o) (kind_of_len c) (c := '*') rfl
  | bold o items c =>
    obtain ⟨a1, a2, a3, a4⟩ := hx
    have hitems : Live src (items.flatMap BoldItem.toks) := hl.infix ⟨[o], [c], by simp [Inl.toks]⟩
    simp only [Inl.denote, solid, Bool.and_eq_true]
    refine ⟨⟨?_, ?_⟩, noClash_map (fun hx hy => clashB_free hx hy) a3 a4 hitems⟩
    · cases items with
      | nil =>
        have := Live.pair (a := o) (b := c) (r := []) hl ((kind_of_len a1).trans (kind_of_len a2).symm)
        rw [kind_of_len a1] at this
        simp [runCharOf] at this
      | cons => rfl
    · rw [List.all_eq_true]
      intro y hy
      obtain ⟨z, hz, rfl⟩ := List.mem_map.1 hy
      exact boldItem_solid (a3 z hz) (hitems.mem hz)

theorem para_solid {l : List Inl} (hl : ParaOk l) (h : Live src (paraToks l)) :
    (paraDenote src l).all solid = true ∧ noClash clashP (paraDenote src l) = true := by
  refine ⟨?_, noClash_map (fun hx hy => clashP_free hx hy) hl.1 hl.2.1 h⟩
  rw [List.all_eq_true]
  intro y hy
  obtain ⟨z, hz, rfl⟩ := List.mem_map.1 hy
  exact inl_solid (hl.1 z hz) (Live.mem h hz)

/-! ### Its text -/

theorem delim_text {d : Delim} {x y : Str} (h1 : sliceD src d.opening = x) (h2 : sliceD src d.closing = y) :
    textOfToks src d.toks = x ++ (textOfToks src d.body ++ y) := by
  rw [Delim.toks, text_cons, text_append, text_one, h1, h2]

theorem run_slice {k : TokenKind} {n : Nat} {c : Char} {ts : List Token} {t : Token} (hl : Live src ts) (ht : t ∈ ts)
    (h : (decide (t.kind = k) && decide (t.len = n)) = true) (hc : runCharOf k = some c) : sliceD src t = List.replicate n c :=
  RunPred.text (f := fun t => t.kind = k && t.len = n) (runPred_of hc) (hl.lexed t ht) h

theorem fixed_slice {k : TokenKind} {s : Str} {ts : List Token} {t : Token} (hl : Live src ts) (ht : t ∈ ts)
    (h : t.kind = k) (hc : fixedText k = some s) : sliceD src t = s := by
  have := fixed_text (by rw [h]; exact hc) (hl.lexed t ht)
  rwa [text_one] at this

theorem free_chars (s : Str) : (free s).map Prod.snd = s := by simp [free, Function.comp_def]

theorem linkV_chars (w1 w2 : V) : (linkV w1 w2).map Prod.snd =
    ['['] ++ (w1.map Prod.snd ++ ([']'] ++ (['('] ++ (w2.map Prod.snd ++ [')'])))) := by
  simp [linkV, free]

theorem link_text {l : Link} (hx : l.Ok) (hl : Live src l.toks) :
    textOfToks src l.toks = ['['] ++ ((textOfToks src l.title.body ++ [']']) ++ (['('] ++ (textOfToks src l.dest.body ++ [')']))) := by
  obtain ⟨-, h2, h3, -, h5, h6⟩ := hx
  have m : ∀ {t}, t ∈ l.title.toks ++ l.dest.toks → t ∈ l.toks := fun h => h
  rw [Link.toks, text_append,
    delim_text (fixed_slice hl (m (by simp [Delim.toks])) (kind_of_len h2) rfl) (fixed_slice hl (m (by simp [Delim.toks])) (kind_of_len h3) rfl),
    delim_text (fixed_slice hl (m (by simp [Delim.toks])) (kind_of_len h5) rfl) (fixed_slice hl (m (by simp [Delim.toks])) h6 rfl)]
  simp

theorem boldItem_text {x : BoldItem} (hx : x.Ok) (hl : Live src x.toks) :
    textOfToks src x.toks = (boldItemV (x.denote src)).map Prod.snd := by
  cases x with
  | text ts => simp only [BoldItem.denote, boldItemV, bodyV_chars]; rfl
  | delim d =>
    have mo : d.opening ∈ d.toks := by simp [Delim.toks]
    have mc : d.closing ∈ d.toks := by simp [Delim.toks]
    rcases hx with ⟨n, o, c⟩ | ⟨n, o, c⟩
    · simp only [BoldItem.denote, n, boldItemV, List.map_append, free_chars, mark2_chars, bodyV_chars]
      exact delim_text (run_slice hl mo o rfl) (run_slice hl mc c rfl)
    · simp only [BoldItem.denote, n, boldItemV, List.map_append, free_chars, mark2_chars, bodyV_chars]
      exact delim_text (fixed_slice hl mo (kind_of_len o) rfl) (fixed_slice hl mc (kind_of_len c) rfl)

theorem inl_text {x : Inl} (hx : x.Ok) (hl : Live src x.toks) :
    textOfToks src x.toks = (nodeW (x.denote src)).map Prod.snd := by
  cases x with
  | text ts => simp only [Inl.denote, nodeW, textV_chars]; rfl
  | anchor l =>
    simp only [Inl.denote, nodeW, linkV_chars, bodyV_chars, Link.denote]
    refine (link_text hx hl).trans ?_
    simp
  | bold o items c =>
    obtain ⟨a1, a2, a3, a4⟩ := hx
    have hitems : Live src (items.flatMap BoldItem.toks) := hl.infix ⟨[o], [c], by simp [Inl.toks]⟩
    have ho := run_slice hl (by simp [Inl.toks]) a1 (c := '*') rfl
    have hc := run_slice hl (by simp [Inl.toks]) a2 (c := '*') rfl
    simp only [Inl.denote, nodeW, List.map_append, free_chars, Inl.toks]
    rw [text_cons, text_append, text_one, ho, hc, text_flatMap, List.map_flatMap, List.flatMap_map]
    congr 2
    have : ∀ (l : List BoldItem), (∀ x ∈ l, x ∈ items) → (l.flatMap fun x => textOfToks src x.toks) =
        l.flatMap fun x => (boldItemV (x.denote src)).map Prod.snd := by
      intro l
      induction l with
      | nil => intro _; rfl
      | cons x l ih =>
        intro h
        rw [List.flatMap_cons, List.flatMap_cons, ih (fun y hy => h y (by simp [hy])),
          boldItem_text (a3 x (h x (by simp))) (hitems.mem (h x (by simp)))]
    exact this items (fun x h => h)
  | delim d =>
    have mo : d.opening ∈ d.toks := by simp [Delim.toks]
    have mc : d.closing ∈ d.toks := by simp [Delim.toks]
    rcases hx with ⟨n, o, c⟩ | ⟨n, o, c⟩ | ⟨n, o, c⟩ | ⟨n, o, c⟩ <;>
      simp only [Inl.denote, n, nodeW, List.map_append, free_chars, bodyV_chars]
    · exact delim_text (run_slice hl mo o rfl) (run_slice hl mc c rfl)
    · exact delim_text (fixed_slice hl mo (kind_of_len o) rfl) (fixed_slice hl mc (kind_of_len c) rfl)
    · exact delim_text (run_slice hl mo o rfl) (run_slice hl mc c rfl)
    · exact delim_text (run_slice hl mo o rfl) (run_slice hl mc c rfl)

theorem para_text : ∀ {l : List Inl}, (∀ x ∈ l, x.Ok) → Live src (paraToks l) →
    textOfToks src (paraToks l) = (paraW (paraDenote src l)).map Prod.snd
  | [], _, _ => rfl
  | x :: l, h, hl => by
    rw [paraToks, List.flatMap_cons] at hl ⊢
    have ih := para_text (l := l) (fun y hy => h y (by simp [hy])) hl.right
    rw [paraToks] at ih
    rw [text_append, inl_text (h x (by simp)) hl.left, ih]
    simp [paraW, paraDenote]

end

/-! ### The text that is displayed -/

theorem nodeW_solid {n : ParagraphNode} (h : solid n = true) : n.display = render (nodeW n) := by
  cases n with
  | text s => exact displayText_eq s
  | italic s => exact displayItalic_eq s
  | strikethrough s => exact displayStrikethrough_eq s
  | emphasis s => exact displayEmphasis_eq s
  | codeSpan s => exact displayCodeSpan_eq (by simpa [solid] using h)
  | anchor a => exact anchor_eq a
  | bold l =>
    simp only [solid, Bool.and_eq_true] at h
    obtain ⟨⟨h1, h2⟩, h3⟩ := h
    have hany : l.any BoldNode.hasContent = true := by
      cases l with
      | nil => simp at h1
      | cons x l =>
        rw [List.all_cons, Bool.and_eq_true] at h2
        have : x.hasContent = true := by
          cases x with
          | text s => exact h2.1
          | italic s => rfl
          | strikethrough s => rfl
        simp [this]
    simp only [ParagraphNode.display, displayBold, if_pos hany, nodeW]
    rw [render_append, render_append, render_free_all, render_flatMap, List.append_assoc]
    congr 2
    congr 1
    exact List.map_congr_left (fun n _ => boldItem_eq n)

theorem paraW_solid : ∀ {p : Paragraph}, p.all solid = true → displayParagraph p = render (paraW p)
  | [], _ => rfl
  | n :: p, h => by
    rw [List.all_cons, Bool.and_eq_true] at h
    have ih := paraW_solid h.2
    simp only [displayParagraph] at ih
    rw [paraW, List.flatMap_cons, render_append, ← nodeW_solid h.1, displayParagraph, List.map_cons, List.flatten_cons, ih]
    rfl

end Yamd.Round
