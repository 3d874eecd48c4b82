import Verif.Proofs.Exact.ItemStrings
import Verif.Proofs.Calm

/-!
# A block of a collapsible shows no closing line
-/

namespace Yamd.Round

open Yamd Yamd.Spec Yamd.Lexer Yamd.Ref

/-- A line of the view starts with an unescaped `%}`. -/
def Closes (v : V) : Prop := free ['\n', '%', '}'] <:+: v

theorem Closes.infix {v w : V} (h : Closes v) (hi : v <:+: w) : Closes w := List.IsInfix.trans h hi

/-- Where no token closes a collapsible no line of the view does. -/
theorem spv_close {src : Str} {b : Bool} {ts : List Token} {v : V} (hv : Valid v) (hs : SpV src b ts v) (hn : NoEnd ts) : ¬ Closes v := by
  rintro ⟨a, z, e⟩
  have e1 : v = (a ++ free ['\n']) ++ (free ['%', '}'] ++ z) := by rw [← e]; simp [free]
  rw [e1] at hv hs
  have hj : Join (a ++ free ['\n']) (free ['%', '}'] ++ z) := by
    refine join_of hv.left (fun p hp => ?_)
    obtain ⟨hf, he, hl⟩ := last_piece hv.left hp
    have hm : (false, '\n') ∈ pview p := by
      refine List.mem_of_getLast? ?_
      rw [← hl]; simp [free]
    rcases nl_piece hf he hm with hk | ⟨hk, -⟩
    · simp [joinOk, hk, runCharOf]
    · simp only [joinOk, hk]
      rw [render_append, render_free_all]
      show (lineBreak ('%' :: _)).isNone = true
      rw [lineBreak_ne (by decide) (by simp)]; rfl
  obtain ⟨t1, t2, rfl, s1, s2⟩ := spv_split hv.left hj hs
  have hfl : flag b (a ++ free ['\n']) = true := by
    simp [flag, free]
  rw [hfl] at s2
  have hj2 : Join (free ['%', '}']) z := by
    refine join_known (l := []) (p := ⟨false, .CollapsibleEnd, ['%', '}']⟩) (valid_free (by decide)) (pieces_one rfl) ?_
    rfl
  obtain ⟨t3, t4, rfl, s3, -⟩ := spv_split (valid_free (by decide)) hj2 s2
  obtain ⟨t, rfl, st⟩ := spv_one (p := ⟨false, .CollapsibleEnd, ['%', '}']⟩) rfl s3
  have := hn t (by simp) st.kind
  rw [st.col] at this
  simp at this

/-! ### The marks of `Display` keep closing lines -/

def closeChars : List Char := ['\n', '%', '}']

/-- The same characters, none of a closing line escaped anew. -/
def Keep : V → V → Prop
  | [], [] => True
  | x :: v, y :: w => (x.2 = y.2 ∧ (x.1 = false → x.2 ∈ closeChars → y.1 = false)) ∧ Keep v w
  | _, _ => False

theorem Keep.refl : ∀ v : V, Keep v v
  | [] => trivial
  | _ :: v => ⟨⟨rfl, fun h _ => h⟩, Keep.refl v⟩

theorem Keep.trans : ∀ {u v w : V}, Keep u v → Keep v w → Keep u w
  | [], [], [], _, _ => trivial
  | x :: u, y :: v, z :: w, h1, h2 =>
    ⟨⟨h1.1.1.trans h2.1.1, fun h hc => h2.1.2 (h1.1.2 h hc) (by rw [← h1.1.1]; exact hc)⟩, h1.2.trans h2.2⟩
  | [], [], _ :: _, _, h => h.elim
  | [], _ :: _, _, h, _ => h.elim
  | _ :: _, [], _, h, _ => h.elim
  | _ :: _, _ :: _, [], _, h => h.elim

theorem Keep.free : ∀ {P : Str} {z w : V}, (∀ c ∈ P, c ∈ closeChars) → Keep (free P ++ z) w → ∃ z', w = Round.free P ++ z' ∧ Keep z z'
  | [], z, w, _, h => ⟨w, rfl, h⟩
  | c :: P, z, [], _, h => h.elim
  | c :: P, z, (f, d) :: w, hP, h => by
    obtain ⟨⟨e1, e2⟩, h2⟩ := h
    obtain ⟨z', rfl, hz⟩ := Keep.free (P := P) (fun c hc => hP c (by simp [hc])) h2
    refine ⟨z', ?_, hz⟩
    have h1 : f = false := e2 rfl (hP c (by simp))
    have h2 : c = d := e1
    rw [h1, ← h2]; rfl

theorem Keep.split : ∀ {a b w : V}, Keep (a ++ b) w → ∃ a' b', w = a' ++ b' ∧ Keep a a' ∧ Keep b b'
  | [], b, w, h => ⟨[], w, rfl, trivial, h⟩
  | x :: a, b, [], h => h.elim
  | x :: a, b, y :: w, h => by
    obtain ⟨a', b', rfl, h1, h2⟩ := Keep.split (a := a) h.2
    exact ⟨y :: a', b', rfl, ⟨h.1, h1⟩, h2⟩

theorem Closes.keep {v w : V} (h : Closes v) (hk : Keep v w) : Closes w := by
  obtain ⟨a, z, e⟩ := h
  rw [← e, List.append_assoc] at hk
  obtain ⟨a', b', rfl, -, h2⟩ := hk.split
  obtain ⟨z', rfl, -⟩ := Keep.free (by decide) h2
  exact ⟨a', z', by simp⟩

theorem keep_mark2 {a b : Char} {fb : Bool} (ha : a ∉ closeChars) (hb : b ∉ closeChars) : ∀ v : V, Keep v (mark2 a b fb v)
  | [] => trivial
  | [x] => Keep.refl [x]
  | x :: y :: r => by
    by_cases hxy : x = (false, a) ∧ y = (false, b)
    · obtain ⟨rfl, rfl⟩ := hxy
      rw [mark2_yes]
      exact ⟨⟨rfl, fun _ h => absurd h ha⟩, ⟨rfl, fun _ h => absurd h hb⟩, keep_mark2 ha hb r⟩
    · rw [mark2_no hxy]
      exact ⟨⟨rfl, fun h _ => h⟩, keep_mark2 ha hb (y :: r)⟩

theorem keep_mark {a : Char} (ha : a ∉ closeChars) : ∀ v : V, Keep v (mark a v)
  | [] => trivial
  | x :: v => by
    refine ⟨?_, keep_mark ha v⟩
    show x.2 = (if x = (false, a) then (true, a) else x).2 ∧ (x.1 = false → x.2 ∈ closeChars → (if x = (false, a) then (true, a) else x).1 = false)
    by_cases hx : x = (false, a)
    · rw [if_pos hx, hx]
      exact ⟨rfl, fun _ h => absurd h ha⟩
    · rw [if_neg hx]
      exact ⟨rfl, fun h _ => h⟩

theorem keep_mark1 {c : Char} {v : V} (hc : c ∉ closeChars) (hh : v.head? = some (false, c)) : Keep v (mark1 v) := by
  cases v with
  | nil => trivial
  | cons x v =>
    simp only [List.head?_cons, Option.some.injEq] at hh
    subst hh
    exact ⟨⟨rfl, fun _ h => absurd h hc⟩, Keep.refl v⟩

theorem keep_mk {M} (hM : Markers M) : ∀ (p : Bool) (v : V), Keep v (mk M p v)
  | _, [] => trivial
  | p, x :: v => by
    rw [mk]
    refine ⟨?_, keep_mk hM _ v⟩
    split
    · rename_i h
      refine ⟨rfl, fun _ hc => ?_⟩
      have := hM x.2 h.2.2.1
      rcases this with e | e <;> rw [e] at hc <;> exact absurd hc (by decide)
    · exact ⟨rfl, fun h _ => h⟩

/-! ### Strings with closing lines -/

theorem body_close {S : List Char} {s : Str} (h : ∀ c ∈ closeChars, c ∉ S) (hc : ¬ Closes (bodyV S s)) : occurs (cs! "\n%}") s = false := by
  cases ho : occurs (cs! "\n%}") s with
  | false => rfl
  | true =>
    exfalso
    refine hc ?_
    have : cs! "\n%}" <:+: (bodyV S s).map Prod.snd := by rw [bodyV_chars]; simpa [occurs] using ho
    obtain ⟨a, z, e⟩ := this
    rw [List.append_assoc] at e
    obtain ⟨A, R, eA, -, hR⟩ := List.map_eq_append_iff.1 e.symm
    obtain ⟨⟨f, c⟩, R, rfl, hfc, hR2⟩ := List.map_eq_cons_iff.1 (show _ = '\n' :: (['%', '}'] ++ z) from hR)
    simp only at hfc
    subst hfc
    obtain ⟨Y, rfl, -⟩ := chars_free (P := ['%', '}']) (y := z) (v := R) hR2 (fun d hd hm => by
      have hm2 : (true, d) ∈ bodyV S s := by rw [eA]; simp [hm]
      simp only [List.mem_cons, List.not_mem_nil, or_false] at hd
      refine bodyV_notEsc (h d ?_) ?_ hm2
      · rcases hd with rfl | rfl <;> decide
      · rcases hd with rfl | rfl <;> decide)
    have hf : f = false := by
      cases f with
      | false => rfl
      | true =>
        exfalso
        have hnl : NlOk (bodyV S s) := nlOk_mark2 (markSet_notEsc (h _ (by decide)) s)
        rw [eA] at hnl
        have := hnl.next (u := A) (c := (false, '%')) (w := free ['}'] ++ Y)
        simp at this
    subst hf
    exact ⟨A, Y, by rw [eA]; simp [free]⟩

theorem body_in {S : List Char} {s : Str} {w : V} {c : Bool} (h : ∀ c ∈ closeChars, c ∉ S) (hs : safeBody ⟨false⟩ s = true)
    (hc : c = true → ¬ Closes w) (hk : ∃ v, Keep (bodyV S s) v ∧ v <:+: w) : safeBody ⟨c⟩ s = true := by
  simp only [safeBody, noCloseLine, Bool.and_eq_true, Bool.or_eq_true, Bool.not_eq_true'] at hs ⊢
  refine ⟨hs.1, ?_⟩
  cases c with
  | false => exact .inl rfl
  | true =>
    refine .inr (body_close (S := S) h (fun hcl => hc rfl ?_))
    obtain ⟨v, h1, h2⟩ := hk
    exact (hcl.keep h1).infix h2

theorem infix_mid {a s b w : V} (e : w = a ++ (s ++ b)) : s <:+: w := ⟨a, b, by rw [e]; simp⟩

theorem anchor_close {a : Anchor} {c : Bool} {w : V} (hs : safeAnchor ⟨false⟩ a = true) (hc : c = true → ¬ Closes w)
    (hw : linkV (bodyV [']', '[', '\\'] a.text) (bodyV [')', '(', '\\'] a.url) <:+: w) : safeAnchor ⟨c⟩ a = true := by
  simp only [safeAnchor, Bool.and_eq_true] at hs ⊢
  refine ⟨body_in (S := [']', '[', '\\']) (by decide) hs.1 hc ⟨_, Keep.refl _, List.IsInfix.trans ?_ hw⟩, body_in (S := [')', '(', '\\']) (by decide) hs.2 hc ⟨_, Keep.refl _, List.IsInfix.trans ?_ hw⟩⟩
  · exact infix_mid (a := free ['[']) rfl
  · exact infix_mid (a := free ['['] ++ (bodyV [']', '[', '\\'] a.text ++ (free [']'] ++ free ['(']))) (b := free [')']) (by simp [linkV])

theorem node_close {n : ParagraphNode} {c : Bool} {w : V} (hs : safeNode ⟨false⟩ n = true) (hc : c = true → ¬ Closes w)
    (hw : nodeW n <:+: w) : safeNode ⟨c⟩ n = true := by
  have key : ∀ {S : List Char} {s : Str} {a b : V}, (∀ c ∈ closeChars, c ∉ S) → safeBody ⟨false⟩ s = true → nodeW n = a ++ (bodyV S s ++ b) →
      safeBody ⟨c⟩ s = true :=
    fun h1 h2 e => body_in h1 h2 hc ⟨_, Keep.refl _, List.IsInfix.trans (infix_mid e) hw⟩
  cases n with
  | text s => exact hs
  | italic s => exact key (by decide) hs rfl
  | strikethrough s =>
    simp only [safeNode, Bool.and_eq_true] at hs ⊢
    exact ⟨hs.1, key (by decide) hs.2 rfl⟩
  | emphasis s =>
    simp only [safeNode, Bool.and_eq_true] at hs ⊢
    exact ⟨hs.1, key (by decide) hs.2 rfl⟩
  | codeSpan s =>
    simp only [safeNode, Bool.and_eq_true] at hs ⊢
    exact ⟨hs.1, key (by decide) hs.2 rfl⟩
  | anchor a => exact anchor_close hs hc hw
  | bold l =>
    simp only [safeNode, Bool.and_eq_true] at hs ⊢
    refine ⟨⟨hs.1.1, ?_⟩, hs.2⟩
    rw [List.all_eq_true]
    intro x hx
    have h1 := List.all_eq_true.1 hs.1.2 x hx
    obtain ⟨l1, l2, rfl⟩ := List.append_of_mem hx
    have hi : boldItemV x <:+: w := by
      refine List.IsInfix.trans ?_ hw
      exact infix_mid (a := free ['*', '*'] ++ l1.flatMap boldItemV) (b := l2.flatMap boldItemV ++ free ['*', '*']) (by simp [nodeW])
    cases x with
    | text s =>
      simp only [safeBoldNode, Bool.and_eq_true] at h1 ⊢
      exact ⟨h1.1, body_in (by decide) h1.2 hc ⟨_, Keep.refl _, hi⟩⟩
    | italic s =>
      simp only [safeBoldNode] at h1 ⊢
      exact body_in (by decide) h1 hc ⟨_, keep_mark2 (by decide) (by decide) _, List.IsInfix.trans (infix_mid rfl) hi⟩
    | strikethrough s =>
      simp only [safeBoldNode, Bool.and_eq_true] at h1 ⊢
      exact ⟨h1.1, body_in (by decide) h1.2 hc ⟨_, keep_mark2 (by decide) (by decide) _, List.IsInfix.trans (infix_mid rfl) hi⟩⟩

/-- Inline content that shows no closing line. -/
theorem inline_close {p : Paragraph} {c : Bool} (hs : safeInline ⟨false⟩ p = true) (hc : c = true → ¬ Closes (paraW p)) :
    safeInline ⟨c⟩ p = true := by
  simp only [safeInline, Bool.and_eq_true] at hs ⊢
  refine ⟨List.all_eq_true.2 fun n hn => ?_, hs.2⟩
  refine node_close (List.all_eq_true.1 hs.1 n hn) hc ?_
  obtain ⟨l1, l2, rfl⟩ := List.append_of_mem hn
  exact infix_mid (a := paraW l1) (b := paraW l2) (by simp [paraW])

/-- A string of an embed. -/
theorem embed_close {k a : Str} {c : Bool} (hc : c = true → ¬ Closes (embedV k a)) : noCloseLine ⟨c⟩ k = true := by
  cases c with
  | false => rfl
  | true =>
    simp only [noCloseLine, Bool.not_true, Bool.false_or, Bool.not_eq_true']
    cases ho : occurs (cs! "\n%}") k with
    | false => rfl
    | true =>
      exfalso
      refine hc rfl ?_
      have : cs! "\n%}" <:+: k := by simpa [occurs] using ho
      obtain ⟨u, z, e⟩ := this
      refine Closes.infix (v := markSet ['|', '{', '\\'] k) ?_ (infix_mid (a := free ['{', '{']) rfl)
      rw [← e]
      exact ⟨markSet ['|', '{', '\\'] u, markSet ['|', '{', '\\'] z, by simp [markSet, free]⟩

end Yamd.Round
