import Verif.Proofs.Round.Para
import Verif.Proofs.ParseEq
import Verif.Proofs.Denote

/-!
# Reading documents block by block
-/

namespace Yamd.Round

open Yamd Yamd.Spec Yamd.Lexer Yamd.Ref

/-! ### One step of the document parser -/

theorem docB_code {stops ts b rest} (hs : stopAt stops ts = false) (ht : tokenIs ts 0 isTerminator = false)
    (hc : codeB stops ts = some (b, rest)) : docB stops ts = (.block b (docB stops rest).1, (docB stops rest).2) := by
  cases docB_step hs with
  | term t r h ht' e => rw [h] at ht; simp [tokenIs, ht'] at ht
  | code t r h ht' b' rest' hc' e =>
    rw [hc] at hc'
    simp only [Option.some.injEq, Prod.mk.injEq] at hc'
    obtain ⟨rfl, rfl⟩ := hc'
    exact e
  | coll t r h ht' o m r1 c r4 hc' ho hcl e => rw [hc] at hc'; simp at hc'
  | fallback t r h ht' o m r1 hc' ho hcl e => rw [hc] at hc'; simp at hc'
  | other t r h ht' hc' ho e => rw [hc] at hc'; simp at hc'

theorem docB_coll {stops ts o m r1 c r4} (hs : stopAt stops ts = false) (ht : tokenIs ts 0 isTerminator = false)
    (hc : codeB stops ts = none) (ho : collOpenB stops ts = some (o, m, r1))
    (hcl : collCloseB (skipEolB (docB (.CollapsibleEnd :: stops) r1).2).2 = some (c, r4)) :
    docB stops ts = (.coll o m (docB (.CollapsibleEnd :: stops) r1).1
        (skipEolB (docB (.CollapsibleEnd :: stops) r1).2).1 c (docB stops r4).1, (docB stops r4).2) := by
  cases docB_step hs with
  | term t r h ht' e => rw [h] at ht; simp [tokenIs, ht'] at ht
  | code t r h ht' b' rest' hc' e => rw [hc] at hc'; simp at hc'
  | coll t r h ht' o' m' r1' c' r4' hc' ho' hcl' e =>
    rw [ho] at ho'
    simp only [Option.some.injEq, Prod.mk.injEq] at ho'
    obtain ⟨rfl, rfl, rfl⟩ := ho'
    rw [hcl] at hcl'
    simp only [Option.some.injEq, Prod.mk.injEq] at hcl'
    obtain ⟨rfl, rfl⟩ := hcl'
    exact e
  | fallback t r h ht' o' m' r1' hc' ho' hcl' e =>
    rw [ho] at ho'
    simp only [Option.some.injEq, Prod.mk.injEq] at ho'
    obtain ⟨rfl, rfl, rfl⟩ := ho'
    rw [hcl] at hcl'; simp at hcl'
  | other t r h ht' hc' ho' e => rw [ho] at ho'; simp at ho'

theorem docB_other {stops ts} (hs : stopAt stops ts = false) (ht : tokenIs ts 0 isTerminator = false)
    (hc : codeB stops ts = none) (ho : tokenIs ts 0 isCollapsibleStart = false) :
    docB stops ts = (.block (otherB stops ts).1 (docB stops (otherB stops ts).2).1, (docB stops (otherB stops ts).2).2) := by
  have ho' : collOpenB stops ts = none := by unfold collOpenB; rw [ho]; rfl
  have hf : flipOpen ts = ts := by unfold flipOpen; rw [ho]; rfl
  cases docB_step hs with
  | term t r h ht' e => rw [h] at ht; simp [tokenIs, ht'] at ht
  | code t r h ht' b' rest' hc' e => rw [hc] at hc'; simp at hc'
  | coll t r h ht' o' m' r1' c' r4' hc' ho'' hcl' e => rw [ho'] at ho''; simp at ho''
  | fallback t r h ht' o' m' r1' hc' ho'' hcl' e => rw [ho'] at ho''; simp at ho''
  | other t r h ht' hc' ho'' e => rw [hf] at e; exact e

theorem docB_term {stops t r} (hs : stopAt stops (t :: r) = false) (ht : isTerminator t = true) :
    docB stops (t :: r) = (.term t (docB stops r).1, (docB stops r).2) := by
  cases docB_step hs with
  | term t' r' h ht' e => cases h; exact e
  | code t' r' h ht' => cases h; rw [ht] at ht'; simp at ht'
  | coll t' r' h ht' => cases h; rw [ht] at ht'; simp at ht'
  | fallback t' r' h ht' => cases h; rw [ht] at ht'; simp at ht'
  | other t' r' h ht' => cases h; rw [ht] at ht'; simp at ht'

/-! ### What follows a block -/

/-- The stop conditions of documents. -/
def DStops (stops : List Stop) : Prop := ∀ st ∈ stops, st = .CollapsibleEnd

theorem DStops.coll {stops} (h : DStops stops) : DStops (.CollapsibleEnd :: stops) := by
  intro st hst
  rcases List.mem_cons.1 hst with rfl | h1
  · rfl
  · exact h st h1

/-- After a block: nothing, a blank line, or the closing line of a collapsible. -/
inductive Bd (stops : List Stop) : List Token → Prop
  | nil : Bd stops []
  | term (t r) (h : t.kind = .Terminator) : Bd stops (t :: r)
  | close (e c r) (hm : .CollapsibleEnd ∈ stops) (he : e.kind = .Eol) (hc : c.kind = .CollapsibleEnd) (h0 : col0 c = true) :
      Bd stops (e :: c :: r)

theorem Bd.stop {stops rest} (h : Bd stops rest) : stopAt (.Terminator :: stops) rest = true := by
  cases h with
  | nil => rfl
  | term t r h => simp [stopAt, stopHere, h]
  | close e c r hm he hc h0 =>
    simp only [stopAt, List.any_eq_true]
    exact ⟨.CollapsibleEnd, by simp [hm], by simp [stopHere, he, tokenIs, hc, h0]⟩

theorem Bd.calm {stops rest} (h : Bd stops rest) (S : List Stop) : Calm S rest := by
  intro _
  cases h with
  | nil => rfl
  | term t r h => simp [closesColl, tokenIs, h]
  | close e c r hm he hc h0 => simp [closesColl, tokenIs, he]

/-- The first token after a block is none of these. -/
theorem Bd.head {stops rest} (h : Bd stops rest) {f : Token → Bool}
    (hf : ∀ t : Token, t.kind = .Terminator ∨ t.kind = .Eol → f t = false) : tokenIs rest 0 f = false := by
  cases h with
  | nil => rfl
  | term t r h => exact hf t (.inl h)
  | close e c r hm he hc h0 => exact hf e (.inr he)

/-- The tokens `ts` are read as the block `n` when a boundary follows; a block may read the line break
before a closing `%}`. -/
def Reads (src : Str) (stops : List Stop) (ts : List Token) (n : YamdNode) : Prop :=
  ∀ rest, Bd stops rest → ∃ (f : Doc → Doc) (r : List Token),
    docB stops (ts ++ rest) = (f (docB stops r).1, (docB stops r).2) ∧
    (∀ d, (f d).denote src = n :: d.denote src) ∧ (r = rest ∨ ∃ e, rest = e :: r ∧ e.kind = .Eol)

/-- A block read by `otherB`. -/
theorem reads_other {src stops ts n}
    (h : ∀ rest, Bd stops rest → stopAt stops (ts ++ rest) = false ∧ tokenIs (ts ++ rest) 0 isTerminator = false ∧
      codeB stops (ts ++ rest) = none ∧ tokenIs (ts ++ rest) 0 isCollapsibleStart = false ∧
      (otherB stops (ts ++ rest)).1.denote src = n ∧
      ((otherB stops (ts ++ rest)).2 = rest ∨ ∃ e, rest = e :: (otherB stops (ts ++ rest)).2 ∧ e.kind = .Eol)) :
    Reads src stops ts n := by
  intro rest hr
  obtain ⟨h1, h2, h3, h4, h5, h6⟩ := h rest hr
  exact ⟨fun d => .block (otherB stops (ts ++ rest)).1 d, _, docB_other h1 h2 h3 h4, fun d => by simp [Doc.denote, h5], h6⟩

/-! ### Sequences of blocks -/

/-- Blocks with blank lines between them. -/
def joinV : List V → V
  | [] => []
  | [v] => v
  | v :: w :: r => v ++ (free ['\n', '\n'] ++ joinV (w :: r))

theorem joinV_eq : ∀ l : List V, render (joinV l) = joinWith (cs! "\n\n") (l.map render)
  | [] => rfl
  | [v] => rfl
  | v :: w :: r => by
    have ih := joinV_eq (w :: r)
    simp only [List.map_cons] at ih
    simp only [joinV, joinWith, List.map_cons, render_append, render_free_all, ih, List.append_assoc]

/-- The view does not end with a free line break. -/
def CleanEnd (v : V) : Prop := v.getLast? ≠ some (false, '\n') ∧ v.getLast? ≠ some (false, '\r')

theorem join_nl {v w : V} (hv : Valid v) (hc : CleanEnd v) : Join v (free ['\n'] ++ w) :=
  join_stop hv (c := '\n') rfl (by decide) hc.1 (fun _ => hc.2) (by simp)

theorem join_blank {v w : V} (hv : Valid v) (hc : CleanEnd v) : Join v (free ['\n', '\n'] ++ w) :=
  join_stop hv (c := '\n') rfl (by decide) hc.1 (fun _ => hc.2) (by simp)

theorem join_after_blank (w : V) : Join (free ['\n', '\n']) w := by
  refine join_known (l := []) (p := ⟨false, .Terminator, ['\n', '\n']⟩) (by simp [Valid, free]) ?_ ?_
  · exact pieces_one rfl
  · rfl

/-- A view that reads as a block at the start of a line. -/
structure BlockV (stops : List Stop) (n : YamdNode) (v : V) : Prop where
  valid : Valid v
  ne : v ≠ []
  reads : ∀ src ts, SpV src true ts v → Reads src stops ts n

/-- Pairwise: views of blocks. -/
inductive BlocksV (stops : List Stop) : List YamdNode → List V → Prop
  | nil : BlocksV stops [] []
  | cons {n l v w} : BlockV stops n v → BlocksV stops l w → BlocksV stops (n :: l) (v :: w)

theorem stop_term {stops} (hd : DStops stops) {t : Token} {r : List Token} (h : t.kind = .Terminator) :
    stopAt stops (t :: r) = false := by
  rw [stopAt, List.any_eq_false]
  intro st hst
  rw [hd st hst]
  simp [stopHere, h]

theorem joinV_valid {stops} : ∀ {l : List YamdNode} {vs : List V}, BlocksV stops l vs → Valid (joinV vs)
  | _, _, .nil => by simp [joinV, Valid]
  | _, _, .cons h .nil => h.valid
  | _, _, .cons h (.cons h2 hr) =>
    h.valid.append ((valid_free (by decide)).append (joinV_valid (.cons h2 hr)))

/-- Blocks are read one after another. -/
theorem reads_blocks {src stops} (hd : DStops stops) : ∀ {l : List YamdNode} {vs : List V} {ts : List Token}, l ≠ [] →
    BlocksV stops l vs → (∀ v ∈ vs.dropLast, CleanEnd v) → SpV src true ts (joinV vs) → ∀ rest, Bd stops rest →
    ∃ (f : Doc → Doc) (r : List Token), docB stops (ts ++ rest) = (f (docB stops r).1, (docB stops r).2) ∧
      (∀ d, (f d).denote src = l ++ d.denote src) ∧ (r = rest ∨ ∃ e, rest = e :: r ∧ e.kind = .Eol)
  | _, _, _, hl, .nil, _, _, _, _ => absurd rfl hl
  | _, _, ts, _, .cons (n := n) (v := v) h .nil, _, hs, rest, hr => by
    obtain ⟨f, r, e, hf, hor⟩ := h.reads src ts hs rest hr
    exact ⟨f, r, e, fun d => by rw [hf]; rfl, hor⟩
  | _, _, ts, _, .cons (n := n) (v := v) h (.cons (n := m) (v := w) (l := l) (w := vs) h2 hr2), hc, hs, rest, hr => by
    have hclean : CleanEnd v := hc v (by simp)
    obtain ⟨t1, t2, rfl, s1, s2⟩ := spv_split h.valid (join_blank h.valid hclean) hs
    obtain ⟨t3, t4, rfl, s3, s4⟩ := spv_split (valid_free (by decide)) (join_after_blank _) s2
    obtain ⟨t, rfl, st⟩ := spv_one (p := ⟨false, .Terminator, ['\n', '\n']⟩) rfl s3
    have hfl : flag (flag true v) (free ['\n', '\n']) = true := rfl
    rw [hfl] at s4
    obtain ⟨f2, r2, e2, hf2, hor2⟩ := reads_blocks hd (by simp) (.cons h2 hr2)
      (fun u hu => hc u (by rw [List.dropLast_cons_of_ne_nil (by simp)]; exact List.mem_cons_of_mem _ hu)) s4 rest hr
    obtain ⟨f1, r1, e1, hf1, hor1⟩ := h.reads src t1 s1 (t :: (t4 ++ rest)) (.term t _ st.kind)
    have hr1 : r1 = t :: (t4 ++ rest) := by
      rcases hor1 with h | ⟨e, h, he⟩
      · exact h
      · simp only [List.cons.injEq] at h
        rw [← h.1, st.kind] at he; simp at he
    subst hr1
    rw [docB_term (stop_term hd st.kind) (by simp [isTerminator, st.kind]), e2] at e1
    refine ⟨fun d => f1 (.term t (f2 d)), r2, ?_, ?_, hor2⟩
    · simpa using e1
    · intro d
      rw [hf1]
      simp [Doc.denote, hf2]

end Yamd.Round
