import Verif.Proofs.Round.Document

/-!
# Text that opens nothing
-/

namespace Yamd.Round

open Yamd Yamd.Spec Yamd.Lexer Yamd.Ref

/-- Characters that can open a construct. -/
def openers : List Char := ['~', '*', '{', '-', '#', '!', '`', '+', '[', '_']

/-- Kinds that can open a construct. -/
def openKinds : List TokenKind :=
  [.Tilde, .Star, .LeftCurlyBrace, .CollapsibleStart, .Minus, .Hash, .Bang, .Backtick, .Plus, .LeftSquareBracket, .Underscore]

theorem plain_kind {src b ts v} (hv : Valid v) (h : SpV src b ts v) (ho : ∀ c ∈ openers, (false, c) ∉ v) :
    ∀ t ∈ ts, t.kind ∉ openKinds := by
  intro t ht hk
  have hr : ∀ c, c ∈ openers → runCharOf t.kind ≠ some c := fun c hc e => ho c hc (spv_run hv h ht e)
  have hf : ∀ s c, c ∈ openers → c ∈ s → fixedText t.kind ≠ some s := by
    intro s c hc hcs e
    have := (spv_fixed hv h ht e).subset (a := (false, c)) (by simpa [free] using hcs)
    exact ho c hc this
  simp only [openKinds, List.mem_cons, List.not_mem_nil, or_false] at hk
  rcases hk with e | e | e | e | e | e | e | e | e | e | e <;> rw [e] at hr hf
  · exact hr '~' (by decide) rfl
  · exact hr '*' (by decide) rfl
  · exact hr '{' (by decide) rfl
  · exact hf _ '{' (by decide) (by decide) rfl
  · exact hr '-' (by decide) rfl
  · exact hr '#' (by decide) rfl
  · exact hr '!' (by decide) rfl
  · exact hr '`' (by decide) rfl
  · exact hr '+' (by decide) rfl
  · exact hf _ '[' (by decide) (by decide) rfl
  · exact hf _ '_' (by decide) (by decide) rfl

theorem plain_only {t r} (h : t.kind ∉ openKinds) : OnlyPara [] (t :: r) := by
  simp only [openKinds, List.mem_cons, List.not_mem_nil, or_false, not_or] at h
  have hm : isListMarker none t = false := by
    cases hk : isListMarker none t with
    | false => rfl
    | true =>
      have := listMarker_kind hk
      rcases this with e | e <;> rw [e] at h <;> simp at h
  refine only_of_head ?_ ?_ ?_ (.inl ?_) (.inl hm) (.inl ?_) ?_ (.inl ?_) <;>
    simp [isCollapsibleStart, isBacktick3, isLeftCurly2, isTwoBangs, isBang1, isDash5, isHash, h]

/-- A text whose free characters open nothing is one paragraph. -/
theorem plain_reads {v : V} (hv : Valid v) (hne : v ≠ []) (ho : ∀ c ∈ openers, (false, c) ∉ v)
    (h1 : NoInf ['\n', '\n'] v) (h2 : NoInf ['\n', '\r', '\n'] v) :
    deserialize (render v) = .ok ⟨none, [.paragraph [.text (v.map Prod.snd)]]⟩ := by
  have hs : SpV (render v) true (tokens (render v)) v := sp_tokens _
  have hts := spv_ne hv hs hne
  have htext := spv_text hv hs
  have hk := plain_kind hv hs ho
  have hq := spv_quiet (stops := [.Terminator]) hv hs (by
    intro st hst
    simp only [List.mem_singleton] at hst
    subst hst
    exact ⟨h1, h2⟩)
  rw [deserialize_eq]
  congr 1
  generalize tokens (render v) = ts at *
  obtain ⟨t, r, rfl⟩ := List.exists_cons_of_ne_nil hts
  have hkt := hk t (by simp)
  have honly := plain_only (r := r) hkt
  have hnt : isTerminator t = false := by
    have := hq t (by simp)
    simp only [quiet, List.all_cons, Bool.and_eq_true, quiet1] at this
    simpa [isTerminator] using this.1
  have hd : delimB isThreeDashes isThreeDashes .Metadata [] (t :: r) = none := by
    refine delimB_no ?_
    simp only [openKinds, List.mem_cons, List.not_mem_nil, or_false, not_or] at hkt
    simp [isThreeDashes, hkt]
  have hp : paraB [.Terminator] [] (t :: r) = ([.text (t :: r)], []) := by
    have := paraB_text (stops := [.Terminator]) (ts := t :: r) (acc := []) (rest := []) (fun u hu => ⟨hq u hu, ?_⟩)
      (by intro _; rfl)
    · rw [List.append_nil, List.nil_append] at this
      rw [this, paraB_stop (show stopAt [.Terminator] [] = true from rfl), accI _ (by simp)]
    · have := hk u hu
      simp only [openKinds, inlineOpen, List.mem_cons, List.not_mem_nil, or_false, not_or] at this ⊢
      tauto
  unfold topB
  rw [hd]
  simp only [Top.denote, Option.map_none, Yamd.new]
  rw [docB_other (show stopAt [] (t :: r) = false from rfl) (by simpa [tokenIs] using hnt) honly.code honly.coll,
    otherB_para honly, hp]
  simp only [docB_stop (show stopAt [] [] = true from rfl), Doc.denote, Block.denote, paraDenote, List.map_cons, List.map_nil,
    Inl.denote, htext]

/-- Every character escaped. -/
theorem escaped_reads {s : Str} (hs : s ≠ []) :
    deserialize (s.flatMap (fun c => ['\\', c])) = .ok ⟨none, [.paragraph [.text s]]⟩ := by
  have e : s.flatMap (fun c => ['\\', c]) = render (s.map (fun c => (true, c))) := by
    simp [render, List.flatMap_map]
  have hfree : ∀ c, (false, c) ∉ s.map (fun c => (true, c)) := by simp
  have hno : ∀ c pat, NoInf (c :: pat) (s.map (fun c => (true, c))) := by
    intro c pat h
    exact hfree c (h.subset (by simp [free]))
  rw [e, plain_reads (hfree _) (by simpa using hs) (fun c _ => hfree c) (hno _ _) (hno _ _)]
  simp [Function.comp_def]

/-- No character that opens anything. -/
theorem plain_text_reads {s : Str} (hs : s ≠ []) (hb : '\\' ∉ s) (ho : ∀ c ∈ openers, c ∉ s)
    (h1 : ¬ ['\n', '\n'] <:+: s) (h2 : ¬ ['\n', '\r', '\n'] <:+: s) :
    deserialize s = .ok ⟨none, [.paragraph [.text s]]⟩ := by
  have ec : (free s).map Prod.snd = s := by simp [free, Function.comp_def]
  have := plain_reads (v := free s) (valid_free hb) (by simpa [free] using hs)
    (fun c hc hm => ho c hc (by simpa [free] using hm)) (noInf_chars (by rwa [ec])) (noInf_chars (by rwa [ec]))
  rwa [render_free_all, ec] at this

end Yamd.Round
