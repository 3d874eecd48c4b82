import Verif.Proofs.Fits
import Verif.Ref.Denote

/-!
# Collecting the ops of a tree gives the document of the tree
-/

namespace Yamd.Ref

open Yamd Yamd.Spec Yamd.ToYamd

/-- All contents resolve to the text of their tokens. -/
def Rd (src : Str) (l : List Seg) : Prop :=
  ∀ s ∈ l, (content src s.own).asStr src = .ok (textOfToks src s.own)

section
variable {src : Str}

theorem Rd.left {a b} (h : Rd src (a ++ b)) : Rd src a := fun s hs => h s (by simp [hs])
theorem Rd.right {a b} (h : Rd src (a ++ b)) : Rd src b := fun s hs => h s (by simp [hs])
theorem Rd.tail {a b} (h : Rd src (a :: b)) : Rd src b := fun s hs => h s (by simp [hs])
theorem Rd.head {a b} (h : Rd src (a :: b)) : (content src a.own).asStr src = .ok (textOfToks src a.own) :=
  h a (by simp)
theorem Rd.val {ts b} (h : Rd src (segValue ts :: b)) : (content src ts).asStr src = .ok (textOfToks src ts) :=
  h.head
theorem Rd.mem {α : Type} {f : α → List Seg} {l : List α} (h : Rd src (l.flatMap f)) {x} (hx : x ∈ l) : Rd src (f x) :=
  fun s hs => h s (List.mem_flatMap.2 ⟨x, hx, hs⟩)

abbrev run' (src : Str) (l : List Seg) (st : Stack) : R StepResult := run src (l.map (Seg.op src)) st

theorem run_value {ts r f st} (h : (content src ts).asStr src = .ok (textOfToks src ts)) :
    run' src (segValue ts :: r) (f :: st) = run' src r (valueInto (textOfToks src ts) f :: st) := by
  show run src (_ :: _) _ = _
  rw [run]
  simp only [step, Seg.op, segValue, onValue, h, bind, Except.bind, pure, Except.pure]

theorem run_start {n ts r st st'} (h : onStart n (content src ts) src st = .ok st') :
    run' src (segStart n ts :: r) st = run' src r st' := by
  show run src (_ :: _) _ = _
  rw [run]
  simp only [step, Seg.op, segStart, h, bind, Except.bind, pure, Except.pure]

theorem run_end {n sk ts r f st st'} (h : onEndFrame n f st = some st') :
    run' src (⟨.End n, sk, ts⟩ :: r) (f :: st) = run' src r st' := by
  show run src (_ :: _) _ = _
  rw [run]
  simp only [step, Seg.op, onEnd, h, bind, Except.bind]

/-- Open, one value, close. -/
theorem run_delim {d : Delim} {r st f st'} (hr : Rd src d.segs)
    (h1 : onStart d.node (content src [d.opening]) src st = .ok (f :: st))
    (h2 : onEndFrame d.node (valueInto (textOfToks src d.body) f) st = some st') :
    run' src (d.segs ++ r) st = run' src r st' := by
  unfold Delim.segs
  simp only [List.cons_append, List.nil_append]
  rw [run_start h1, run_value hr.tail.val]
  exact run_end h2

theorem run_boldItem {x : BoldItem} {b st r} (hx : x.Ok) (hr : Rd src x.segs) :
    run' src (x.segs ++ r) (.Bold b :: st) = run' src r (.Bold (b ++ [x.denote src]) :: st) := by
  cases x with
  | text ts => exact run_value hr.val
  | delim d =>
    rcases hx with ⟨hn, -⟩ | ⟨hn, -⟩
    · exact run_delim hr (f := .Strikethrough []) (by rw [hn]; rfl) (by rw [hn]; simp [valueInto, onEndFrame, BoldItem.denote, hn])
    · exact run_delim hr (f := .Italic []) (by rw [hn]; rfl) (by rw [hn]; simp [valueInto, onEndFrame, BoldItem.denote, hn])

theorem run_boldItems : ∀ {l : List BoldItem} {b st r}, (∀ x ∈ l, x.Ok) → Rd src (l.flatMap BoldItem.segs) →
    run' src (l.flatMap BoldItem.segs ++ r) (.Bold b :: st) = run' src r (.Bold (b ++ l.map (BoldItem.denote src)) :: st)
  | [], b, st, r, _, _ => by simp
  | x :: l, b, st, r, h, hr => by
    rw [List.flatMap_cons] at hr
    rw [List.flatMap_cons, List.append_assoc, run_boldItem (h x (by simp)) hr.left,
      run_boldItems (fun y hy => h y (by simp [hy])) hr.right]
    simp

theorem run_link_anchor {l : Link} {a u st r} (hl : l.Ok) (hr : Rd src l.segs) :
    run' src (l.segs ++ r) (.Anchor a u :: st)
      = run' src r (.Anchor (textOfToks src l.title.body) (textOfToks src l.dest.body) :: st) := by
  obtain ⟨h1, -, -, h2, -, -⟩ := hl
  unfold Link.segs at hr ⊢
  rw [List.append_assoc, run_delim (st' := .Anchor (textOfToks src l.title.body) u :: st) hr.left
    (f := .Title []) (by rw [h1]; rfl) (by rw [h1]; simp [valueInto, onEndFrame]),
    run_delim (st' := .Anchor (textOfToks src l.title.body) (textOfToks src l.dest.body) :: st) hr.right
      (f := .Destination []) (by rw [h2]; rfl) (by rw [h2]; simp [valueInto, onEndFrame])]

theorem run_link_image {l : Link} {a u st r} (hl : l.Ok) (hr : Rd src l.segs) :
    run' src (l.segs ++ r) (.Image a u :: st)
      = run' src r (.Image (textOfToks src l.title.body) (textOfToks src l.dest.body) :: st) := by
  obtain ⟨h1, -, -, h2, -, -⟩ := hl
  unfold Link.segs at hr ⊢
  rw [List.append_assoc, run_delim (st' := .Image (textOfToks src l.title.body) u :: st) hr.left
    (f := .Title []) (by rw [h1]; rfl) (by rw [h1]; simp [valueInto, onEndFrame]),
    run_delim (st' := .Image (textOfToks src l.title.body) (textOfToks src l.dest.body) :: st) hr.right
      (f := .Destination []) (by rw [h2]; rfl) (by rw [h2]; simp [valueInto, onEndFrame])]

theorem run_anchor {l : Link} {st f st' r} (hl : l.Ok) (hr : Rd src (anchorSegs l))
    (h : onEndFrame .Anchor (.Anchor (textOfToks src l.title.body) (textOfToks src l.dest.body)) (f :: st) = some st') :
    run' src (anchorSegs l ++ r) (f :: st) = run' src r st' := by
  unfold anchorSegs at hr ⊢
  simp only [List.cons_append, List.append_assoc, List.nil_append]
  rw [run_start (st' := .Anchor [] [] :: f :: st) rfl, run_link_anchor hl hr.tail.left]
  exact run_end h

theorem run_inl {x : Inl} {b st r} (hx : x.Ok) (hr : Rd src x.segs) :
    run' src (x.segs ++ r) (.Paragraph b :: st) = run' src r (.Paragraph (b ++ [x.denote src]) :: st) := by
  cases x with
  | text ts => exact run_value hr.val
  | delim d =>
    rcases hx with ⟨hn, -⟩ | ⟨hn, -⟩ | ⟨hn, -⟩ | ⟨hn, -⟩
    · exact run_delim hr (f := .Strikethrough []) (by rw [hn]; rfl) (by rw [hn]; simp [valueInto, onEndFrame, Inl.denote, hn])
    · exact run_delim hr (f := .Italic []) (by rw [hn]; rfl) (by rw [hn]; simp [valueInto, onEndFrame, Inl.denote, hn])
    · exact run_delim hr (f := .CodeSpan []) (by rw [hn]; rfl) (by rw [hn]; simp [valueInto, onEndFrame, Inl.denote, hn, pushIntoParagraph])
    · exact run_delim hr (f := .Emphasis []) (by rw [hn]; rfl) (by rw [hn]; simp [valueInto, onEndFrame, Inl.denote, hn, pushIntoParagraph])
  | bold o items c =>
    unfold Inl.segs at hr ⊢
    simp only [List.cons_append, List.append_assoc, List.nil_append]
    rw [run_start (st' := .Bold [] :: .Paragraph b :: st) rfl, run_boldItems hx.2.2.1 hr.tail.left]
    exact run_end rfl
  | anchor l => exact run_anchor hx hr rfl

theorem run_inls : ∀ {l : List Inl} {b st r}, (∀ x ∈ l, x.Ok) → Rd src (l.flatMap Inl.segs) →
    run' src (l.flatMap Inl.segs ++ r) (.Paragraph b :: st) = run' src r (.Paragraph (b ++ paraDenote src l) :: st)
  | [], b, st, r, _, _ => by simp [paraDenote]
  | x :: l, b, st, r, h, hr => by
    rw [List.flatMap_cons] at hr
    rw [List.flatMap_cons, List.append_assoc, run_inl (h x (by simp)) hr.left,
      run_inls (fun y hy => h y (by simp [hy])) hr.right]
    simp [paraDenote]

theorem run_para {l : List Inl} {st st' r} (hl : ParaOk l) (hr : Rd src (paraSegs l))
    (h : onEndFrame .Paragraph (.Paragraph (paraDenote src l)) st = some st') :
    run' src (paraSegs l ++ r) st = run' src r st' := by
  unfold paraSegs at hr ⊢
  simp only [List.cons_append, List.append_assoc, List.nil_append]
  rw [run_start (st' := .Paragraph [] :: st) rfl, run_inls hl.1 hr.tail.left]
  exact run_end h

theorem run_headItems : ∀ {l : List HeadItem} {v b st r}, (∀ x ∈ l, x.Ok) → Rd src (l.flatMap HeadItem.segs) →
    run' src (l.flatMap HeadItem.segs ++ r) (.Heading v b :: st)
      = run' src r (.Heading v (b ++ l.map (HeadItem.denote src)) :: st)
  | [], v, b, st, r, _, _ => by simp
  | x :: l, v, b, st, r, h, hr => by
    rw [List.flatMap_cons] at hr
    have h1 : run' src (x.segs ++ (l.flatMap HeadItem.segs ++ r)) (.Heading v b :: st)
        = run' src (l.flatMap HeadItem.segs ++ r) (.Heading v (b ++ [x.denote src]) :: st) := by
      cases x with
      | text ts => exact run_value hr.left.val
      | anchor l => exact run_anchor (h (.anchor l) (by simp)) hr.left rfl
    rw [List.flatMap_cons, List.append_assoc, h1, run_headItems (fun y hy => h y (by simp [hy])) hr.right]
    simp

theorem run_img {i : Img} {st st' r} (hi : i.Ok) (hr : Rd src i.segs)
    (h : onEndFrame .Image (.Image (textOfToks src i.link.title.body) (textOfToks src i.link.dest.body)) st = some st') :
    run' src (i.segs ++ r) st = run' src r st' := by
  unfold Img.segs at hr ⊢
  simp only [List.cons_append, List.append_assoc, List.nil_append]
  rw [run_start (st' := .Image [] [] :: st) rfl, run_link_image hi.2.1 hr.tail.left]
  exact run_end h

theorem run_imgs : ∀ {l : List Img} {b st r}, (∀ x ∈ l, x.Ok) → Rd src (l.flatMap Img.segs) →
    run' src (l.flatMap Img.segs ++ r) (.Images b :: st) = run' src r (.Images (b ++ l.map (Img.denote src)) :: st)
  | [], b, st, r, _, _ => by simp
  | x :: l, b, st, r, h, hr => by
    rw [List.flatMap_cons] at hr
    rw [List.flatMap_cons, List.append_assoc, run_img (h x (by simp)) hr.left rfl,
      run_imgs (fun y hy => h y (by simp [hy])) hr.right]
    simp [Img.denote]

/-- The list frame of a kind. -/
def listFrame (k : ListKind) (level : Nat) (items : List YItem) : Frame :=
  match k with
  | .Unordered => .UnorderedList level items
  | .Ordered => .OrderedList level items

theorem run_wrap {k : ListKind} {level st st' segs items} {r : List Seg} (hc : countListDepth st = level)
    (h1 : ∀ r, run' src (segs ++ r) (listFrame k level [] :: st) = run' src r (listFrame k level items :: st))
    (h2 : finishList st (.mk (listType k) level items) = some st') :
    run' src (wrapSegs (some k) segs ++ r) st = run' src r st' := by
  simp only [wrapSegs, List.cons_append, List.append_assoc, List.nil_append]
  rw [run_start (st' := listFrame k level [] :: st), h1]
  · exact run_end (by cases k <;> exact h2)
  · cases k <;> simp [ListKind.node, onStart, listFrame, hc]

theorem count_cons_item {t n st} : countListDepth (.ListItem t n :: st) = countListDepth st := by
  simp [countListDepth, isListFrame]

theorem count_list {k level items st} : countListDepth (listFrame k level items :: st) = countListDepth st + 1 := by
  cases k <;> simp [countListDepth, listFrame, List.filter_cons, isListFrame]

theorem run_items : ∀ {i : Items} {level want kind b st r}, i.Ok level want → Rd src i.segs → countListDepth st = level →
    run' src (i.segs ++ r) (listFrame kind level b :: st)
      = run' src r (listFrame kind level (b ++ i.denote src level) :: st)
  | .nil, _, _, _, _, _, _, _, _, _ => by simp [Items.segs, Items.denote]
  | .cons k m p n q, level, want, kind, b, st, r, hi, hr, hc => by
    obtain ⟨-, -, a3, a4, a5⟩ := hi
    unfold Items.segs at hr ⊢
    simp only [List.cons_append, List.append_assoc]
    rw [run_start (st' := .ListItem [] none :: listFrame kind level b :: st) rfl,
      run_para (st' := .ListItem (trimTrailingNewline (paraDenote src p)) none :: listFrame kind level b :: st)
        a3 hr.tail.left (by simp [onEndFrame])]
    have hr2 := hr.tail.right
    have hn : run' src (wrapSegs n.kind n.segs ++ (segEnd .ListItem [] :: (q.segs ++ r)))
        (.ListItem (trimTrailingNewline (paraDenote src p)) none :: listFrame kind level b :: st)
        = run' src (segEnd .ListItem [] :: (q.segs ++ r))
          (.ListItem (trimTrailingNewline (paraDenote src p)) (wrapDenote n.kind (level + 1) (n.denote src (level + 1)))
            :: listFrame kind level b :: st) := by
      cases n with
      | nil => rfl
      | cons kk mm pp nn rr =>
        refine run_wrap (level := level + 1) (by rw [count_cons_item, count_list, hc]) ?_ rfl
        intro r
        have hr3 : Rd src (Items.cons kk mm pp nn rr).segs := fun s hs => hr2 s (by
          simp only [wrapSegs, Items.kind, List.mem_append, List.mem_cons]
          exact .inl (.inr (.inl hs)))
        have := run_items (kind := kk) (b := []) (st := .ListItem (trimTrailingNewline (paraDenote src p)) none :: listFrame kind level b :: st)
          (r := r) a4 hr3 (by rw [count_cons_item, count_list, hc])
        simpa using this
    rw [hn]
    have h3 : run' src (segEnd .ListItem [] :: (q.segs ++ r))
        (.ListItem (trimTrailingNewline (paraDenote src p)) (wrapDenote n.kind (level + 1) (n.denote src (level + 1)))
          :: listFrame kind level b :: st)
        = run' src (q.segs ++ r) (listFrame kind level (b ++ [.mk (trimTrailingNewline (paraDenote src p))
            (wrapDenote n.kind (level + 1) (n.denote src (level + 1)))]) :: st) :=
      run_end (by cases kind <;> rfl)
    rw [h3, run_items a5 hr2.right.tail hc]
    simp [Items.denote]

theorem run_mod {m : Option Mod} {f : Frame} {st r} (g : Option Str → Frame) (hg : g none = f)
    (hr : Rd src (modSegs m)) (h : ∀ t, onEndFrame .Modifier (.Modifier t) (f :: st) = some (g (some t) :: st)) :
    run' src (modSegs m ++ r) (f :: st) = run' src r (g (modDenote src m) :: st) := by
  cases m with
  | none => rw [modDenote, hg]; rfl
  | some m =>
    simp only [modSegs, List.cons_append, List.nil_append]
    rw [run_start (st' := .Modifier [] :: f :: st) rfl, run_value hr.tail.val]
    exact run_end (h _)

theorem run_icon {m : Option IconLine} {t st r} (hr : Rd src (iconSegs m)) :
    run' src (iconSegs m ++ r) (.Highlight t none [] :: st) = run' src r (.Highlight t (iconDenote src m) [] :: st) := by
  cases m with
  | none => rfl
  | some m =>
    simp only [iconSegs, List.cons_append, List.nil_append]
    rw [run_start (st' := .Icon [] :: .Highlight t none [] :: st) rfl, run_value hr.tail.val]
    exact run_end rfl

theorem run_hparas : ∀ {l : List HPara} {t i b st r}, (∀ x ∈ l, x.Ok) → Rd src (l.flatMap HPara.segs) →
    run' src (l.flatMap HPara.segs ++ r) (.Highlight t i b :: st)
      = run' src r (.Highlight t i (b ++ l.map (fun h => trimTrailingNewline (paraDenote src h.para))) :: st)
  | [], _, _, b, st, r, _, _ => by simp
  | x :: l, t, i, b, st, r, h, hr => by
    rw [List.flatMap_cons] at hr
    have hx := h x (by simp)
    have h1 : ∀ r, run' src (termSegs x.term ++ r) (.Highlight t i b :: st) = run' src r (.Highlight t i b :: st) := by
      intro r
      have hrx := hr.left.left
      cases ht : x.term with
      | nil => rfl
      | cons a q => rw [ht] at hrx; exact run_value hrx.val
    rw [List.flatMap_cons, List.append_assoc, HPara.segs, List.append_assoc, h1,
      run_para (st' := .Highlight t i (b ++ [trimTrailingNewline (paraDenote src x.para)]) :: st) hx.2 hr.left.right rfl,
      run_hparas (fun y hy => h y (by simp [hy])) hr.right]
    simp

/-- No list is open. -/
theorem run_block {b : Block} {children st r} (hb : b.Ok) (hr : Rd src b.segs) (hc : countListDepth st = 0) :
    run' src (b.segs ++ r) (.Document children :: st)
      = run' src r (.Document (children ++ [b.denote src]) :: st) := by
  cases b with
  | code o m b c =>
    unfold Block.segs at hr ⊢
    simp only [List.cons_append, List.append_assoc, List.nil_append]
    rw [run_start (st' := .Code [] [] :: .Document children :: st) rfl,
      run_mod (f := .Code [] []) (fun x => .Code (x.getD []) []) rfl hr.tail.left (fun _ => rfl), run_value hr.tail.right.val]
    exact run_end rfl
  | embed o l p q c =>
    unfold Block.segs at hr ⊢
    simp only [List.cons_append, List.nil_append]
    rw [run_start (st' := .Embed [] :: .Document children :: st) rfl, run_value hr.tail.val,
      run_value hr.tail.tail.val, run_value hr.tail.tail.tail.val]
    exact run_end rfl
  | highlight o m i b c =>
    unfold Block.segs at hr ⊢
    simp only [List.cons_append, List.append_assoc, List.nil_append]
    rw [run_start (st' := .Highlight none none [] :: .Document children :: st) rfl,
      run_mod (fun x => .Highlight x none []) rfl hr.tail.left (fun _ => rfl), run_icon hr.tail.right.left,
      run_hparas hb.2.2.2.1 hr.tail.right.right.left]
    exact run_end (by simp [onEndFrame, pushYamdNode, Block.denote])
  | list i =>
    obtain ⟨h1, h2⟩ := hb
    have hc' : countListDepth (.Document children :: st) = 0 := by
      simpa [countListDepth, isListFrame] using hc
    cases i with
    | nil => exact absurd rfl h2
    | cons k m p n q =>
      unfold Block.segs Items.listSegs at hr ⊢
      have hr' : Rd src (Items.cons k m p n q).segs := fun s hs => hr s (by
        simp only [wrapSegs, Items.kind, List.mem_append, List.mem_cons]; exact .inr (.inl hs))
      refine run_wrap (level := 0) (items := (Items.cons k m p n q).denote src 0) hc' ?_ rfl
      intro r
      have := run_items (kind := k) (b := []) (st := .Document children :: st) (r := r) h1 hr' hc'
      simpa using this
  | images l =>
    obtain ⟨h1, h2⟩ := hb
    match l, h1 with
    | [i], _ =>
      simp only [Block.segs, List.length_cons, List.length_nil] at hr ⊢
      simp only [gt_iff_lt, Nat.lt_irrefl, if_false, List.flatMap_cons, List.flatMap_nil, List.append_nil, Nat.zero_add] at hr ⊢
      exact run_img (h2 i (by simp)) hr rfl
    | i :: j :: l, _ =>
      have e : (i :: j :: l).length > 1 := by simp
      simp only [Block.segs] at hr ⊢
      rw [if_pos e] at hr ⊢
      simp only [List.cons_append, List.append_assoc, List.nil_append]
      rw [run_start (st' := .Images [] :: .Document children :: st) rfl, run_imgs h2 hr.tail.left]
      exact run_end rfl
  | thematic t =>
    unfold Block.segs at hr ⊢
    simp only [List.cons_append, List.nil_append]
    rw [run_start (st' := .ThematicBreak :: .Document children :: st) rfl, run_value hr.tail.val]
    exact run_end rfl
  | heading m b =>
    simp only [Block.segs] at hr ⊢
    simp only [List.cons_append, List.append_assoc, List.nil_append]
    have h0 : (content src m).asStr src = .ok (textOfToks src m) := hr.head
    rw [run_start (st' := .Heading (headLevel src m) [] :: .Document children :: st)
      (by simp [onStart, extractHeadingLevel, h0, bind, Except.bind, pure, Except.pure, headLevel]),
      run_headItems hb.2.1 hr.tail.left]
    exact run_end (by simp [onEndFrame, pushYamdNode, Block.denote])
  | para l => exact run_para hb hr rfl

theorem run_doc : ∀ {d : Doc} {children st r}, d.Ok → Rd src d.segs → countListDepth st = 0 →
    run' src (d.segs ++ r) (.Document children :: st)
      = run' src r (.Document (children ++ d.denote src) :: st)
  | .nil, _, _, _, _, _, _ => by simp [Doc.segs, Doc.denote]
  | .term t d, children, st, r, h, hr, hc => by
    rw [Doc.segs] at hr ⊢
    rw [List.cons_append, run_value hr.val]
    exact run_doc (d := d) h.2 hr.tail hc
  | .block b d, children, st, r, h, hr, hc => by
    rw [Doc.segs] at hr ⊢
    rw [List.append_assoc, run_block h.1 hr.left hc, run_doc h.2 hr.right hc]
    simp [Doc.denote]
  | .coll o m i s c d, children, st, r, h, hr, hc => by
    obtain ⟨-, -, h2, -, -, h5⟩ := h
    unfold Doc.segs at hr ⊢
    simp only [List.cons_append, List.append_assoc]
    have hc' : countListDepth (.Collapsible ((modDenote src m).getD []) [] :: .Document children :: st) = 0 := by
      simpa [countListDepth, isListFrame] using hc
    have hr1 := hr.tail.right
    rw [run_start (st' := .Collapsible [] [] :: .Document children :: st) rfl,
      run_mod (f := .Collapsible [] []) (fun x => .Collapsible (x.getD []) []) rfl hr.tail.left (fun _ => rfl),
      run_start (st' := .Document [] :: .Collapsible ((modDenote src m).getD []) [] :: .Document children :: st) rfl,
      run_doc h2 hr1.tail.left hc',
      show ∀ r, run' src (segEnd .Document [] :: r) (.Document ([] ++ i.denote src) :: .Collapsible ((modDenote src m).getD []) [] :: .Document children :: st)
        = run' src r (.Collapsible ((modDenote src m).getD []) (i.denote src) :: .Document children :: st) from
        fun r => run_end rfl,
      show ∀ r, run' src (⟨.End .Collapsible, s, c⟩ :: r) (.Collapsible ((modDenote src m).getD []) (i.denote src) :: .Document children :: st)
        = run' src r (.Document (children ++ [.collapsible ((modDenote src m).getD []) (i.denote src)]) :: st) from
        fun r => run_end rfl,
      run_doc h5 hr1.tail.right.tail.tail hc]
    simp [Doc.denote]

end

/-- The contents of `parse` resolve to the text of the tree's tokens. -/
theorem rd_top (input : Str) : Rd input (topB (tokens input)).segs := by
  have hf := top_flips (tokens input)
  rw [← Top.toks_segs] at hf
  obtain ⟨ss, h1, -, -, h4⟩ := segmentation_of (walk_top (tokens input)) hf
  intro s hs
  have hlen : (topB (tokens input)).segs.length = ss.length := by have := h1.length; simpa using this.symm
  obtain ⟨x, hx, hz⟩ := zip_mem hlen s hs
  have hr := h1.reads (Seg.op input s, x) (by
    rw [zip_map_left]; exact List.mem_map.2 ⟨(s, x), hz, rfl⟩)
  have e := hr.1
  have : textOfTokens input x.2 = textOfToks input s.own := ((h4 _ hz).2.text (src := input)).symm
  rw [this] at e
  exact e

theorem tryToYamd_top (input : Str) :
    tryToYamd ((topB (tokens input)).ops input) input = .ok (some ((topB (tokens input)).denote input)) := by
  have hr := rd_top input
  rw [Top.ops_segs]
  have key : ∀ (d : Doc) m, d.Ok → Rd input (segStart .Document [] :: (d.segs ++ [segEnd .Document []])) →
      run' input (segStart .Document [] :: (d.segs ++ [segEnd .Document []])) [.Yamd m []]
        = .ok (some [.Yamd m (d.denote input)]) := by
    intro d m hd hr
    rw [run_start (st' := [.Document [], .Yamd m []]) rfl, run_doc hd hr.tail.left rfl]
    have : run' input [segEnd .Document []] [.Document ([] ++ d.denote input), .Yamd m []] = run' input [] [.Yamd m (d.denote input)] :=
      run_end rfl
    rw [this]; rfl
  unfold tryToYamd
  show (run' input _ _ >>= _) = _
  unfold topB at hr ⊢
  cases hd : delimB isThreeDashes isThreeDashes .Metadata [] (tokens input) with
  | none =>
    rw [hd] at hr
    unfold Top.segs at hr ⊢
    simp only [List.nil_append] at hr ⊢
    rw [key _ _ (docB_ok _ _) hr]
    rfl
  | some x =>
    obtain ⟨d, r⟩ := x
    rw [hd] at hr
    unfold Top.segs at hr ⊢
    simp only at hr ⊢
    have hn := (delimB_ok hd).1
    rw [run_delim (st' := [.Yamd (some (trimNl (textOfToks input d.body))) []]) hr.left (f := .Metadata [])
      (by rw [hn]; rfl) (by rw [hn]; simp [valueInto, onEndFrame]), key _ _ (docB_ok _ _) hr.right]
    rfl

/-- `deserialize` gives the document of the reference tree. -/
theorem deserialize_eq (input : Str) : deserialize input = .ok ((topB (tokens input)).denote input) := by
  unfold deserialize toYamd
  rw [parse_eq]
  simp only [bind, Except.bind, tryToYamd_top, pure, Except.pure]

end Yamd.Ref
