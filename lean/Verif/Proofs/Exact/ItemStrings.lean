import Verif.Proofs.Exact.ParaLead
import Verif.Proofs.Round.ListDisplay
import Verif.Spec.Simple

/-!
# A text without item lines has no strings with item lines

The converse of `Proofs/Round/ItemLine.lean`: if no line of what `Display` writes for the text of an item starts an item,
no string of the text has such a line.
-/

namespace Yamd.Round

open Yamd Yamd.Spec Yamd.Lexer Yamd.Ref

/-- Every escaped line feed is in front of a line feed. -/
def NlOk : V → Prop
  | [] => True
  | x :: r => (x = (true, '\n') → ∀ c ∈ r.head?, c.2 = '\n') ∧ NlOk r

theorem NlOk.next : ∀ {u : V} {c} {w : V}, NlOk (u ++ (true, '\n') :: c :: w) → c.2 = '\n'
  | [], _, _, h => h.1 rfl _ rfl
  | _ :: u, _, _, h => NlOk.next (u := u) h.2

theorem nlOk_of : ∀ {v : V}, (true, '\n') ∉ v → NlOk v
  | [], _ => trivial
  | x :: r, h => ⟨fun e => absurd (by simp [e]) h, nlOk_of (fun hm => h (by simp [hm]))⟩

theorem head_chars {v w : V} (h : v.map Prod.snd = w.map Prod.snd) (hv : ∀ c ∈ w.head?, c.2 = '\n') : ∀ c ∈ v.head?, c.2 = '\n' := by
  cases v with
  | nil => simp
  | cons x v =>
    cases w with
    | nil => simp at h
    | cons y w =>
      simp only [List.map_cons, List.cons.injEq] at h
      intro c hc
      simp only [List.head?_cons, Option.mem_def, Option.some.injEq] at hc
      subst hc
      rw [h.1]; exact hv y rfl

/-- Marking other pairs does not matter. -/
theorem NlOk.mark2 {a b : Char} {fb : Bool} (ha : a ≠ '\n') (hb : b ≠ '\n') : ∀ {v : V}, NlOk v → NlOk (Round.mark2 a b fb v)
  | [], _ => trivial
  | [_], h => h
  | x :: y :: r, h => by
    by_cases hxy : x = (false, a) ∧ y = (false, b)
    · obtain ⟨rfl, rfl⟩ := hxy
      rw [mark2_yes]
      refine ⟨fun e => ?_, fun e => ?_, NlOk.mark2 ha hb h.2.2⟩
      · simp only [Prod.mk.injEq] at e; exact absurd e.2 ha
      · simp only [Prod.mk.injEq] at e; exact absurd e.2 hb
    · rw [mark2_no hxy]
      refine ⟨fun e => head_chars (mark2_chars (y :: r)) (h.1 e), NlOk.mark2 ha hb h.2⟩

/-- Marking the first of two line feeds. -/
theorem nlOk_mark2 : ∀ {v : V}, (true, '\n') ∉ v → NlOk (mark2 '\n' '\n' false v)
  | [], _ => trivial
  | [x], h => nlOk_of h
  | x :: y :: r, h => by
    by_cases hxy : x = (false, '\n') ∧ y = (false, '\n')
    · obtain ⟨rfl, rfl⟩ := hxy
      rw [mark2_yes]
      refine ⟨fun _ c hc => ?_, fun e => by simp at e, nlOk_mark2 (fun hm => h (by simp [hm]))⟩
      simp only [List.head?_cons, Option.mem_def, Option.some.injEq] at hc
      rw [← hc]
    · rw [mark2_no hxy]
      exact ⟨fun e => absurd (by simp [e]) h, nlOk_mark2 (fun hm => h (List.mem_cons_of_mem _ hm))⟩

/-- A view that shows line breaks and markers as they are. -/
structure Bare (v : V) : Prop where
  chars : ∀ c ∈ itemChars, (true, c) ∉ v
  nl : NlOk v

theorem bare_body {S : List Char} {s : Str} (h : ∀ c ∈ '\n' :: itemChars, c ∉ S) : Bare (bodyV S s) := by
  refine ⟨fun c hc hm => ?_, nlOk_mark2 (markSet_notEsc (h _ (by simp)) s)⟩
  have hn : c ≠ '\n' := by rintro rfl; revert hc; decide
  exact markSet_notEsc (h c (by simp [hc])) s (mark2_mem hm hn hn)

theorem Bare.mark2 {a b : Char} {fb : Bool} {v : V} (ha : a ∉ '\n' :: itemChars) (hb : b ∉ '\n' :: itemChars) (h : Bare v) :
    Bare (Round.mark2 a b fb v) := by
  refine ⟨fun c hc hm => h.chars c hc (mark2_mem hm ?_ ?_), h.nl.mark2 ?_ ?_⟩
  · rintro rfl; exact ha (by simp [hc])
  · rintro rfl; exact hb (by simp [hc])
  · rintro rfl; exact ha (by simp)
  · rintro rfl; exact hb (by simp)

theorem mark2_none {a b : Char} {fb : Bool} : ∀ {v : V}, ¬ [a, b] <:+: v.map Prod.snd → mark2 a b fb v = v
  | [], _ => rfl
  | [_], _ => rfl
  | x :: y :: r, h => by
    rw [mark2_no, mark2_none]
    · rintro ⟨u, w, e⟩
      exact h ⟨x.2 :: u, w, by simp only [List.map_cons] at e ⊢; rw [← e]; rfl⟩
    · rintro ⟨rfl, rfl⟩
      exact h ⟨[], r.map Prod.snd, by simp⟩

theorem bare_text {s : Str} (h : occurs (cs! "\n\n") s = false) : Bare (textV s) := by
  have h' : ¬ ['\n', '\n'] <:+: (markSet ['{', '[', '`', '~', '_', '*', '\\'] s).map Prod.snd := by
    rw [markSet_chars]; simpa [occurs] using h
  unfold textV
  rw [mark2_none (a := '\n') h']
  refine Bare.mark2 (by decide) (by decide) ⟨fun c hc => markSet_notEsc ?_ s, nlOk_of (markSet_notEsc (by decide) s)⟩
  intro hm
  revert hc
  simp only [List.mem_cons, List.not_mem_nil, or_false] at hm
  rcases hm with rfl | rfl | rfl | rfl | rfl | rfl | rfl <;> decide

theorem mk_at_nl {M} (hM : Markers M) : ∀ (p : Bool) (u w : V), ∃ u', mk M p (u ++ (false, '\n') :: w) = u' ++ (false, '\n') :: mk M true w
  | p, [], w => ⟨[], mk_nl hM p w⟩
  | p, x :: u, w => by
    obtain ⟨u', e⟩ := mk_at_nl hM (x.2 == '\n') u w
    rw [List.cons_append, mk, e]
    exact ⟨_ :: u', rfl⟩

theorem chars_free : ∀ {P y : Str} {v : V}, v.map Prod.snd = P ++ y → (∀ c ∈ P, (true, c) ∉ v) → ∃ Y, v = free P ++ Y ∧ Y.map Prod.snd = y
  | [], _, v, e, _ => ⟨v, rfl, e⟩
  | c :: P, y, [], e, _ => by simp at e
  | c :: P, y, (f, d) :: v, e, h => by
    simp only [List.map_cons, List.cons_append, List.cons.injEq] at e
    obtain ⟨rfl, e⟩ := e
    obtain ⟨Y, rfl, hY⟩ := chars_free e (fun c hc hm => h c (by simp [hc]) (by simp [hm]))
    refine ⟨Y, ?_, hY⟩
    cases f with
    | false => rfl
    | true => exact absurd (by simp) (h d (by simp))

/-- A string of the text. -/
theorem noItem_string {level own esc} {a sv b : V} {s : Str} (hM : Markers esc) (hc : sv.map Prod.snd = s) (hp : Bare sv)
    (hb : b.head? ≠ some (false, ' ')) (h : NoItem level own (mk esc false (a ++ (sv ++ b)))) :
    noItemLine ⟨level, own, esc⟩ s = true := by
  rw [noItemLine_iff]
  intro u r e
  cases hst : startsItem ⟨level, own, esc⟩ r with
  | false => rfl
  | true =>
    exfalso
    obtain ⟨n, m, y, rfl, hm, h1, h2, h3, h4⟩ := startsItem_iff.1 hst
    simp only at h1 h2 h3
    have hne := marker_ne_nl hm
    rw [e] at hc
    obtain ⟨U, R0, rfl, hU, hR0⟩ := List.map_eq_append_iff.1 hc
    obtain ⟨⟨f, c⟩, R, rfl, hfc, hR⟩ := List.map_eq_cons_iff.1 hR0
    simp only at hfc
    subst hfc
    have hP : ∀ d ∈ List.replicate n ' ' ++ [m, ' '], d ∈ itemChars := by
      intro d hd
      rcases List.mem_append.1 hd with hd | hd
      · rw [(List.mem_replicate.1 hd).2]; simp [itemChars]
      · rcases hm with rfl | rfl <;> simp [itemChars] at hd ⊢ <;> rcases hd with rfl | rfl <;> decide
    obtain ⟨Y, rfl, hY⟩ := chars_free (P := List.replicate n ' ' ++ [m, ' ']) (y := y) (v := R) (by rw [hR]; simp)
      (fun d hd hm => hp.chars d (hP d hd) (by simp [hm]))
    have hf : f = false := by
      cases f with
      | false => rfl
      | true =>
        exfalso
        cases n with
        | zero => exact hne.1 (hp.nl.next (c := (false, m)) (w := free [' '] ++ Y))
        | succ n =>
          have := hp.nl.next (u := U) (c := (false, ' ')) (w := free (List.replicate n ' ' ++ [m, ' ']) ++ Y)
          simp at this
    subst hf
    have eA : a ++ ((U ++ (false, '\n') :: (free (List.replicate n ' ' ++ [m, ' ']) ++ Y)) ++ b) =
        (a ++ U) ++ (false, '\n') :: (free (List.replicate n ' ' ++ [m, ' ']) ++ (Y ++ b)) := by simp
    rw [eA] at h
    obtain ⟨u', e'⟩ := mk_at_nl hM false (a ++ U) (free (List.replicate n ' ' ++ [m, ' ']) ++ (Y ++ b))
    refine h u' _ e' ⟨n, m, mk esc false (Y ++ b), ?_, hm, h1, h2, ?_⟩
    · cases n with
      | zero =>
        have hme : m ∉ esc := fun hme => h3 ⟨rfl, hme⟩
        simp [free, mk, hme, hne.1]
      | succ n =>
        obtain ⟨ty, rfl⟩ : ∃ ty : ListTypes, ty.marker = m := by
          rcases hm with rfl | rfl
          · exact ⟨.Unordered, rfl⟩
          · exact ⟨.Ordered, rfl⟩
        have := mk_mark hM true n ty (Y ++ b)
        simpa [markV, free] using this
    · rw [mk_head]
      cases Y with
      | nil => simpa using hb
      | cons x Y =>
        simp only [List.map_cons] at hY
        rw [← hY] at h4
        intro hx
        simp only [List.cons_append, List.head?_cons, Option.some.injEq] at hx
        rw [hx] at h4
        simp at h4

theorem noClash_mid {α : Type} {f : α → α → Bool} : ∀ {a : List α} {x y : α} {r : List α}, noClash f (a ++ x :: y :: r) = true → f x y = false
  | [], x, y, r, h => by
    simp only [List.nil_append, noClash, Bool.and_eq_true, Bool.not_eq_true'] at h; exact h.1
  | [z], x, y, r, h => by
    simp only [List.cons_append, List.nil_append] at h
    rw [noClash, Bool.and_eq_true] at h
    exact noClash_mid (a := []) h.2
  | z :: w :: a, x, y, r, h => by
    simp only [List.cons_append] at h
    rw [noClash, Bool.and_eq_true] at h
    exact noClash_mid (a := w :: a) h.2

theorem boldItem_space {n : BoldNode} (h : ∀ s, n ≠ .text s) (w : V) : (boldItemV n ++ w).head? ≠ some (false, ' ') := by
  cases n with
  | text s => exact absurd rfl (h s)
  | _ => simp [boldItemV, free]

/-- No string of a text without item lines has an item line. -/
theorem strings_noItem {level own esc} {p : Paragraph} (hM : Markers esc) (hs : p.all solid = true) (hc : noClash clashP p = true)
    (hp : p.all noBlankText = true)
    (h : NoItem level own (mk esc false (paraW p))) : (inlineStrings p).all (noItemLine ⟨level, own, esc⟩) = true := by
  rw [List.all_eq_true]
  intro s hmem
  obtain ⟨x, hx, hxs⟩ := List.mem_flatMap.1 hmem
  have hsx := List.all_eq_true.1 hs x hx
  have hpx := List.all_eq_true.1 hp x hx
  obtain ⟨p1, p2, rfl⟩ := List.append_of_mem hx
  have key : ∀ {a sv b : V}, nodeW x = a ++ (sv ++ b) → sv.map Prod.snd = s → Bare sv → (b ++ paraW p2).head? ≠ some (false, ' ') →
      noItemLine ⟨level, own, esc⟩ s = true := by
    intro a sv b e h1 h2 h3
    refine noItem_string (a := paraW p1 ++ a) (b := b ++ paraW p2) hM h1 h2 h3 ?_
    have : paraW (p1 ++ x :: p2) = paraW p1 ++ a ++ (sv ++ (b ++ paraW p2)) := by
      unfold paraW
      rw [List.flatMap_append, List.flatMap_cons, e]; simp
    rw [← this]; exact h
  cases x with
  | text t =>
    simp only [List.mem_singleton] at hxs
    subst hxs
    simp only [noBlankText, Bool.not_eq_true'] at hpx
    refine key (a := []) (b := []) (by simp [nodeW]) (textV_chars _) (bare_text hpx) ?_
    cases p2 with
    | nil => simp [paraW]
    | cons y p2 =>
      have := noClash_mid hc
      simp only [paraW, List.flatMap_cons, List.nil_append]
      exact node_space (fun s e => by subst e; simp [clashP] at this) _
  | italic t =>
    simp only [List.mem_singleton] at hxs; subst hxs
    exact key rfl (bodyV_chars _ _) (bare_body (by decide)) (by simp [free])
  | strikethrough t =>
    simp only [List.mem_singleton] at hxs; subst hxs
    exact key rfl (bodyV_chars _ _) (bare_body (by decide)) (by simp [free])
  | emphasis t =>
    simp only [List.mem_singleton] at hxs; subst hxs
    exact key rfl (bodyV_chars _ _) (bare_body (by decide)) (by simp [free])
  | codeSpan t =>
    simp only [List.mem_singleton] at hxs; subst hxs
    exact key rfl (bodyV_chars _ _) (bare_body (by decide)) (by simp [free])
  | anchor a =>
    simp only [List.mem_cons, List.not_mem_nil, or_false] at hxs
    rcases hxs with rfl | rfl
    · exact key (a := free ['[']) (sv := bodyV [']', '[', '\\'] a.text) (b := free [']'] ++ (free ['('] ++ (bodyV [')', '(', '\\'] a.url ++ free [')'])))
        (by simp [nodeW, linkV]) (bodyV_chars _ _) (bare_body (by decide)) (by simp [free])
    · exact key (a := free ['['] ++ (bodyV [']', '[', '\\'] a.text ++ (free [']'] ++ free ['(']))) (sv := bodyV [')', '(', '\\'] a.url) (b := free [')'])
        (by simp [nodeW, linkV]) (bodyV_chars _ _) (bare_body (by decide)) (by simp [free])
  | bold l =>
    simp only [List.mem_map] at hxs
    obtain ⟨y, hy, hys⟩ := hxs
    simp only [solid, Bool.and_eq_true] at hsx
    have hcl := hsx.2
    obtain ⟨l1, l2, rfl⟩ := List.append_of_mem hy
    have keyB : ∀ {a sv b : V}, boldItemV y = a ++ (sv ++ b) → sv.map Prod.snd = s → Bare sv →
        (b ++ (l2.flatMap boldItemV ++ free ['*', '*'])).head? ≠ some (false, ' ') → noItemLine ⟨level, own, esc⟩ s = true := by
      intro a sv b e h1 h2 h3
      refine key (a := free ['*', '*'] ++ l1.flatMap boldItemV ++ a) (b := b ++ (l2.flatMap boldItemV ++ free ['*', '*'])) ?_ h1 h2 ?_
      · simp [nodeW, e]
      · cases hq : b ++ (l2.flatMap boldItemV ++ free ['*', '*']) with
        | nil => simp [free] at hq
        | cons z q => rw [hq] at h3; simpa using h3
    cases y with
    | text t =>
      simp only at hys; subst hys
      refine keyB (a := []) (sv := bodyV ['~', '_', '*', '\\'] t) (b := []) (by simp [boldItemV]) (bodyV_chars _ _) (bare_body (by decide)) ?_
      cases l2 with
      | nil => simp [free]
      | cons z l2 =>
        have := noClash_mid hcl
        rw [List.nil_append, List.flatMap_cons, List.append_assoc]
        exact boldItem_space (fun s e => by subst e; simp [clashB] at this) _
    | italic t =>
      simp only at hys; subst hys
      exact keyB rfl (by rw [mark2_chars, bodyV_chars]) ((bare_body (by decide)).mark2 (by decide) (by decide)) (by simp [free])
    | strikethrough t =>
      simp only at hys; subst hys
      exact keyB rfl (by rw [mark2_chars, bodyV_chars]) ((bare_body (by decide)).mark2 (by decide) (by decide)) (by simp [free])

end Yamd.Round
