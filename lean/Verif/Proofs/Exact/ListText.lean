import Verif.Proofs.Exact.ListShow
import Verif.Proofs.Exact.DocPara
import Verif.Proofs.Extent

/-!
# The text of an item that was read back
-/

namespace Yamd.Round

open Yamd Yamd.Spec Yamd.Lexer Yamd.Ref

/-! ### Marks -/

theorem mk_nls {M} (hM : Markers M) : ∀ {pat : Str} (_ : ∀ c ∈ pat, c = '\n' ∨ c = '\r') (p : Bool) (w : V),
    ∃ p', mk M p (free pat ++ w) = free pat ++ mk M p' w
  | [], _, p, w => ⟨p, rfl⟩
  | c :: pat, h, p, w => by
    obtain ⟨p', e⟩ := mk_nls hM (pat := pat) (fun x hx => h x (by simp [hx])) (c == '\n') w
    refine ⟨p', ?_⟩
    show mk M p ((false, c) :: (free pat ++ w)) = _
    rw [mk, if_neg, e]
    · rfl
    · rintro ⟨-, -, h3, -⟩
      have hm := hM c h3
      rcases h c (by simp) with rfl | rfl <;> simp [isMarker] at hm

theorem mk_at {M} (hM : Markers M) {pat : Str} (h : ∀ c ∈ pat, c = '\n' ∨ c = '\r') :
    ∀ (p : Bool) (u w : V), ∃ u' w', mk M p (u ++ (free pat ++ w)) = u' ++ (free pat ++ w')
  | p, [], w => by
    obtain ⟨p', e⟩ := mk_nls hM h p w
    exact ⟨[], _, e⟩
  | p, x :: u, w => by
    obtain ⟨u', w', e⟩ := mk_at hM h (x.2 == '\n') u w
    rw [List.cons_append, mk, e]
    exact ⟨_ :: u', w', rfl⟩

theorem NB.of_mk {M p} {v : V} (hM : Markers M) (h : NB (mk M p v)) : NB v := by
  have key : ∀ {pat : Str}, (∀ c ∈ pat, c = '\n' ∨ c = '\r') → NoInf pat (mk M p v) → NoInf pat v := by
    intro pat hp hn hi
    obtain ⟨a, b, e⟩ := hi
    obtain ⟨u, w, e2⟩ := mk_at hM hp p a b
    refine hn ⟨u, w, ?_⟩
    rw [← e, List.append_assoc a, e2, List.append_assoc]
  exact ⟨key (by decide) h.1, key (by decide) h.2⟩

/-! ### No line starts an item -/

theorem markOf_ty {m : Char} (h : isMarker m) : ∃ ty : ListTypes, ty.marker = m := by
  rcases h with rfl | rfl
  · exact ⟨.Unordered, rfl⟩
  · exact ⟨.Ordered, rfl⟩

theorem unstopped_noItem {src level k ts rest} {v : V} (hv : Valid v) (hs : SpV src false ts v)
    (hu : Unstopped [.ListBoundary level k] ts rest) : NoItem level (markOf k) v := by
  rintro u w rfl ⟨n, m, B, rfl, hm, hn, ho, hB⟩
  obtain ⟨ty, rfl⟩ := markOf_ty hm
  have e : u ++ (false, '\n') :: (free (List.replicate n ' ' ++ [ty.marker, ' ']) ++ B) = (u ++ free ['\n']) ++ (markV n ty ++ B) := by
    simp [markV, free]
  rw [e] at hs hv
  have hv1 : Valid (u ++ free ['\n']) := hv.left
  have hj : Join (u ++ free ['\n']) (markV n ty ++ B) := by
    refine join_of hv1 (fun p hp => ?_)
    obtain ⟨h1, h2, h3⟩ := last_piece hv1 hp
    have hmem : (false, '\n') ∈ pview p := by
      apply List.mem_of_getLast?
      rw [← h3]; simp [free]
    have hh : ∃ c r, render (markV n ty ++ B) = c :: r ∧ c ≠ '\n' ∧ c ≠ '\r' := by
      cases n with
      | zero =>
        refine ⟨ty.marker, ' ' :: render B, ?_, by cases ty <;> decide, by cases ty <;> decide⟩
        rw [render_append, markV, render_append, render_append]
        simp [render_free_all]
      | succ n =>
        refine ⟨' ', List.replicate n ' ' ++ ty.marker :: ' ' :: render B, ?_, by decide, by decide⟩
        rw [render_append, markV, render_append, render_append]
        simp [render_free_all, List.replicate_succ]
    obtain ⟨c, r, hr, c1, c2⟩ := hh
    rcases nl_piece h1 h2 hmem with hk | ⟨hk, -⟩
    · rw [joinOk, hk]; rfl
    · rw [joinOk, hk, hr]
      simp [lineBreak, c1, c2]
  obtain ⟨t1, t2, rfl, s1, s2⟩ := spv_split hv1 hj hs
  have hfl : flag false (u ++ free ['\n']) = true := by simp [flag, free]
  rw [hfl] at s2
  obtain ⟨mt, r, rfl, hmt, -⟩ := mark_split hB s2
  have hM : Marked n (kindOf ty) (mt ++ r) := ⟨mt, r, rfl, hmt⟩
  have hM' := hM.append rest
  have hst := marked_stop (S := []) hM' hn (K := k) (fun e => by
    have := ho e
    cases ty <;> cases k <;> simp_all [kindOf, markOf, ListTypes.marker])
  have := hu.right
  obtain ⟨t, r', e', -⟩ := marked_head hM
  rw [e'] at this hst
  have := this.1
  rw [List.cons_append] at hst
  rw [hst] at this
  simp at this

/-! ### The marker -/

theorem tryFrom_slice {src : Str} {ts : List Token} {a : Token} {k} (hl : Live src ts) (ha : a ∈ ts) (h : ListKind.tryFrom a = some k) :
    (sliceD src a).length = 1 := by
  unfold ListKind.tryFrom at h
  split at h
  · rename_i h1
    rw [run_slice hl ha (k := .Minus) (n := 1) (by simp [h1.1, h1.2]) rfl]; rfl
  · split at h
    · rename_i h1
      rw [run_slice hl ha (k := .Plus) (n := 1) (by simp [h1.1, h1.2]) rfl]; rfl
    · simp at h

theorem marker_split {src : Str} {level want ts k m r ty} {w : V} (h : markerB level want ts = some (k, m, r)) (hl : Live src ts)
    (hv : Valid w) (hs : SpV src true ts (markV level ty ++ w)) : SpV src false r w ∧ w.head? ≠ some (false, ' ') := by
  obtain ⟨rfl, -⟩ := markerB_toks h
  obtain ⟨-, hm⟩ := markerB_ok h
  have hvv : Valid (markV level ty ++ w) := (markV_valid _ _).append hv
  obtain ⟨m0, b, rfl, hb, hlen⟩ : ∃ m0 b, m = m0 ++ [b] ∧ isSpace1 b = true ∧ (textOfToks src m0).length = level + 1 := by
    rcases hm with ⟨rfl, a, b, rfl, h1, h2, h3⟩ | ⟨h0, i, a, b, rfl, h1, h2, h3, h4, h5⟩
    · refine ⟨[a], b, rfl, h3, ?_⟩
      rw [text_one, tryFrom_slice hl (by simp) h2]
    · refine ⟨[i, a], b, rfl, h5, ?_⟩
      rw [text_cons, text_one, List.length_append, tryFrom_slice hl (by simp) h4,
        run_slice hl (t := i) (by simp) (k := .Space) (n := level) (by simp [h2, h3]) rfl]
      simp
  have hb' : b.kind = .Space ∧ b.len = 1 := by simpa [isSpace1] using hb
  have hbs : sliceD src b = [' '] := run_slice hl (by simp) (k := .Space) (n := 1) (by simp [hb'.1, hb'.2]) rfl
  have hmk : (markV level ty).length = level + 2 := by simp [markV, free]
  obtain ⟨g1, g2, -⟩ := spv_take hvv hs (by rw [text_append, text_one, hbs, List.length_append, hlen, hmk]; simp)
  have hfl : flag true (markV level ty) = false := by simp [flag, markV, free]
  rw [hfl] at g2
  refine ⟨g2, ?_⟩
  obtain ⟨v1, v2, e, e1, -, -, e4⟩ := spv_at_run (t1 := m0) (t := b) (t2 := r) (c := ' ') hvv (by simpa using hs) (by rw [hb'.1]; rfl)
  have l1 : v1.length = level + 1 := by
    have := congrArg List.length e1
    rwa [List.length_map, hlen] at this
  rw [← List.append_assoc] at e
  have := (List.append_inj e (by rw [hmk, List.length_append, l1, hb'.2]; simp [free])).2
  rw [this]; exact e4

/-! ### What follows -/

/-- A line that can start an item. -/
def Itemish (w : V) : Prop := ∃ c r, w = (false, c) :: r ∧ c ∈ itemChars

/-- What follows the text of an item: nothing, an item, a blank line, or the closing line of the collapsible. -/
def NextV (c : Bool) (w1 : V) : Prop := w1 = [] ∨ (∃ w, w1 = free ['\n'] ++ w ∧ Itemish w) ∨ (∃ w, w1 = free ['\n', '\n'] ++ w) ∨
  (c = true ∧ ∃ w, w1 = free ['\n', '%', '}'] ++ w)

/-- Where the reader is after the text of an item. -/
def Onward (src : Str) (rest : List Token) (w1 : V) : Prop :=
  (w1 = [] → rest = []) ∧ ∀ w, w1 = free ['\n'] ++ w → Itemish w → SpV src true rest w

theorem noItem_nl {level own} {v : V} (h : NoItem level own (v ++ free ['\n'])) : NoItem level own v := by
  rintro u w rfl ⟨n, m, B, rfl, h1, h2, h3, h4⟩
  refine h u (free (List.replicate n ' ' ++ [m, ' ']) ++ (B ++ free ['\n'])) (by simp) ⟨n, m, B ++ free ['\n'], rfl, h1, h2, h3, ?_⟩
  cases B with
  | nil => simp [free]
  | cons x B => simpa using h4

theorem text_lead {M} {p : Paragraph} {w1 : V} (hs : p.all solid = true) (h : (mk M false (paraW p) ++ w1).head? ≠ some (false, ' ')) :
    starts (cs! " ") (leadingText p) = false := by
  cases hq : starts (cs! " ") (leadingText p) with
  | false => rfl
  | true =>
    exfalso
    cases p with
    | nil => simp [leadingText, starts] at hq
    | cons x p =>
      cases x with
      | text s =>
        simp only [leadingText, starts] at hq
        obtain ⟨s', rfl⟩ := List.isPrefixOf_iff_prefix.1 hq
        apply h
        have e : textV ([' '] ++ s') = free [' '] ++ textV s' := textV_free (by simp) s'
        have : (paraW (.text (cs! " " ++ s') :: p)).head? = some (false, ' ') := by
          simp only [paraW, List.flatMap_cons, nodeW]
          rw [show cs! " " ++ s' = [' '] ++ s' from rfl, e]
          rfl
        cases hx : mk M false (paraW (.text (cs! " " ++ s') :: p)) with
        | nil =>
          have h2 := mk_head (M := M) (paraW (.text (cs! " " ++ s') :: p))
          rw [hx, this] at h2; simp at h2
        | cons y q =>
          have h2 := mk_head (M := M) (paraW (.text (cs! " " ++ s') :: p))
          rw [hx, this] at h2
          simpa using h2
      | _ => simp [leadingText, starts] at hq

theorem mk_chars {M} : ∀ (p : Bool) (v : V), (mk M p v).map Prod.snd = v.map Prod.snd
  | _, [] => rfl
  | p, x :: r => by
    rw [mk, List.map_cons, List.map_cons, mk_chars _ r]
    congr 1
    split <;> rfl

theorem eol_noStop {S level k} {src b} {x : Token} {r : List Token} (hd : DStops S) (hx : SpT src b x ⟨false, .Eol, ['\n']⟩)
    (hr : tokenIs r 0 (fun t => t.kind = .CollapsibleEnd && col0 t) = false) :
    stopAt (.ListBoundary level k :: .Terminator :: S) (x :: r) = false := by
  have hk := hx.kind
  have h1 : ∀ want, isListMarker want x = false := by intro want; simp [isListMarker, ListKind.tryFrom, hk]
  simp only [stopAt, List.any_eq_false]
  intro st hst
  rcases List.mem_cons.1 hst with rfl | hst
  · simp [stopHere, hk, boundaryHere, tokenIs, h1]
  · rcases List.mem_cons.1 hst with rfl | hst
    · simp [stopHere, hk]
    · rw [hd st hst]; simp only [stopHere, hr]; simp [hk]

/-- The last token of a text that ends with a line break. -/
theorem spv_last_nl {src : Str} {b : Bool} {ts : List Token} {v : V} (hv : Valid (v ++ free ['\n'])) (h : SpV src b ts (v ++ free ['\n']))
    (hn : NoTerm ts) : ∃ l e, ts = l ++ [e] ∧ e.kind = .Eol := by
  rcases List.eq_nil_or_concat ts with rfl | ⟨l, e, rfl⟩
  · have := spv_text hv h
    simp [textOfToks, free] at this
  · rw [List.concat_eq_append] at *
    refine ⟨l, e, rfl, ?_⟩
    obtain ⟨v1, v2, ev, -, h2, -⟩ := spv_cut hv h
    have hv2 : Valid v2 := by rw [ev] at hv; exact hv.right
    obtain ⟨p, v3, e2, hs, hf, he⟩ := spv_head hv2 h2
    have ht := spv_text hv2 h2
    rw [text_one, hs.text, e2, List.map_append, pview_chars] at ht
    have h3 : v3 = [] := by
      have := congrArg List.length ht
      simpa using this
    rw [h3, List.append_nil] at e2
    have hlast : (pview p).getLast? = some (false, '\n') := by
      have h5 : (v1 ++ v2).getLast? = some (false, '\n') := by rw [← ev]; simp [free]
      rw [← e2]
      rw [last_append ?_] at h5
      · exact h5
      · intro e0
        rw [e0] at e2
        have := pview_chars p
        rw [← e2] at this
        exact form_ne_nil hf this.symm
    rcases nl_piece hf he (List.mem_of_getLast? hlast) with hk | ⟨hk, -⟩
    · exact absurd (by rw [hs.kind, hk]) (hn e (by simp))
    · rw [hs.kind, hk]

/-- The text of an item that is read back is safe. -/
theorem item_exact {c S} {src : Str} {level k M r l rest p} {w1 : V} (hS : At c S) (hM : Markers M) (hl : Live src r)
    (hp : paraB (.ListBoundary level k :: .Terminator :: S) [] r = (l, rest))
    (hv : Valid w1) (hs : SpV src false r (mk M false (paraW p) ++ w1)) (hn : NextV c w1)
    (hh : (mk M false (paraW p) ++ w1).head? ≠ some (false, ' ')) (hd : ToYamd.trimTrailingNewline (paraDenote src l) = p)
    (hb : p.all noBlankText = true) (hr : (trailingText p).getLast? ≠ some '\r') :
    safeItemText ⟨c⟩ ⟨level, markOf k, M⟩ p = true ∧ Onward src rest w1 := by
  have e0 := paraB_toks (stops := .ListBoundary level k :: .Terminator :: S) (acc := []) _ (Nat.le_refl r.length)
  have ok := paraB_ok (stops := .ListBoundary level k :: .Terminator :: S) (by simp) [] r .nil
  have ext := paraB_extent (.ListBoundary level k :: .Terminator :: S) r
  rw [hp] at e0 ok ext
  simp only [List.nil_append] at e0 ok ext
  obtain ⟨hstop, hun⟩ := ext
  have hun' : Unstopped [.ListBoundary level k] (paraToks l) rest := hun.sub (by simp)
  subst e0
  have hll : Live src (paraToks l) := hl.left
  obtain ⟨s1, s2⟩ := para_solid ok hll
  obtain ⟨t1, t2, t3, n, t4⟩ := trim_solid s1 s2
  rw [hd] at t1 t2 t3 t4
  have htext := para_text ok.1 hll
  rw [t4] at htext
  generalize hvv : mk M false (paraW p) = v at hs hh
  have hvalid : Valid v := by
    rw [← hvv]
    exact (mk_more _ _).more.valid (paraW_valid p)
  have hchars : v.map Prod.snd = (paraW p).map Prod.snd := by rw [← hvv, mk_chars]
  rw [← hchars] at htext
  have hall := spv_text (hvalid.append hv) hs
  rw [text_append, htext, List.map_append, List.append_assoc] at hall
  have hall := List.append_cancel_left hall
  have hlen : ∀ m, n = m → (textOfToks src (paraToks l)).length = (v ++ free (List.replicate m '\n')).length := by
    rintro m rfl
    rw [htext]; simp [free]
  have hnt : NoTerm (paraToks l) := ok.2.2
  have hend : c = true → NoEnd (paraToks l) := fun hc => hun.noEnd (by simp [hS.stop hc])
  have fin : NB v → (c = true → ¬ Closes v) → NoItem level (markOf k) v → safeItemText ⟨c⟩ ⟨level, markOf k, M⟩ p = true := by
    intro hnb hcl hni
    rw [← hvv] at hnb hni hcl
    have hin : safeInline ⟨c⟩ p = true := by
      refine inline_close ?_ (fun hc h => hcl hc (h.keep (keep_mk hM _ _)))
      unfold safeInline
      rw [calm_solid t1 (NB.of_mk hM hnb).para, t2]; rfl
    unfold safeItemText
    rw [hin, text_lead t1 (by rw [hvv]; exact hh), strings_noItem hM t1 t2 hb hni]
    simp [endsLine, t3, hr]
  have same : ∀ {X : V}, Valid (v ++ X) → SpV src false (paraToks l ++ rest) (v ++ X) → n = 0 → safeItemText ⟨c⟩ ⟨level, markOf k, M⟩ p = true := by
    intro X hX hs' h0
    obtain ⟨g1, g2, g3⟩ := spv_take hX hs' (by simpa [free] using hlen 0 h0)
    exact fin (vq_of_noTerm hvalid g1 hnt) (fun hc => spv_close hvalid g1 (hend hc)) (unstopped_noItem hvalid g1 hun')
  rcases hn with rfl | ⟨w, rfl, hw⟩ | ⟨w, rfl⟩ | ⟨hc, w, rfl⟩
  · have h0 : n = 0 := by
      have := congrArg List.length hall
      simp at this
      exact this.1
    refine ⟨same (hvalid.append hv) hs h0, fun _ => ?_, fun w e => by simp [free] at e⟩
    obtain ⟨-, g2, -⟩ := spv_take (hvalid.append hv) hs (by simpa [free] using hlen 0 h0)
    exact spv_nil g2
  · obtain ⟨x0, r', rfl, hc⟩ := hw
    have hcn : x0 ≠ '\n' := by rintro rfl; revert hc; decide
    have hcr : x0 ≠ '\r' := by rintro rfl; revert hc; decide
    have h1 : n = 1 := by
      match n, hall, hlen with
      | 0, hall, hlen =>
        exfalso
        obtain ⟨g1, g2, g3⟩ := spv_take (hvalid.append hv) hs (by simpa [free] using hlen 0 rfl)
        have hj : Join (free ['\n']) ((false, x0) :: r') := join_eol ⟨by
          rintro ⟨z, e⟩; simp [free] at e; exact hcn e.1.symm, by rintro ⟨z, e⟩; simp [free] at e; exact hcr e.1.symm⟩
        obtain ⟨t1, t2, rfl, f1, f2⟩ := spv_split (valid_free (by decide)) hj g2
        obtain ⟨x, rfl, fx⟩ := spv_one (p := ⟨false, .Eol, ['\n']⟩) rfl f1
        have hr : tokenIs t2 0 (fun t => t.kind = .CollapsibleEnd && col0 t) = false := by
          cases t2 with
          | nil => rfl
          | cons y t2 =>
            cases hq : tokenIs (y :: t2) 0 (fun t => t.kind = .CollapsibleEnd && col0 t) with
            | false => rfl
            | true =>
              have hk : y.kind = .CollapsibleEnd := by
                simp only [tokenIs] at hq
                simp at hq
                exact hq.1
              have hsl := fixed_slice hl (by simp) hk rfl
              have := spv_text hv.right f2
              rw [text_cons, hsl] at this
              simp only [List.map_cons, List.cons_append, List.nil_append, List.cons.injEq] at this
              rw [← this.1] at hc
              exact absurd hc (by decide)
        rw [List.singleton_append, eol_noStop hS.inside.1 fx hr] at hstop
        simp at hstop
      | 1, _, _ => rfl
      | n + 2, hall, _ =>
        exfalso
        rw [List.replicate_succ, List.replicate_succ, free, List.map_append] at hall
        simp only [List.cons_append, List.map_cons, List.map_nil, List.nil_append, List.cons.injEq, true_and] at hall
        exact hcn hall.1.symm
    have hs' : SpV src false (paraToks l ++ rest) ((v ++ free ['\n']) ++ ((false, x0) :: r')) := by simpa using hs
    have hv' : Valid ((v ++ free ['\n']) ++ ((false, x0) :: r')) := by simpa using hvalid.append hv
    obtain ⟨g1, g2, g3⟩ := spv_take hv' hs' (by simpa [free] using hlen 1 h1)
    have hfl : flag false (v ++ free ['\n']) = true := by simp [flag, free]
    rw [hfl] at g2
    refine ⟨fin ?_ (fun hc hcl => spv_close hv'.left g1 (hend hc) (hcl.infix ⟨[], free ['\n'], by simp⟩)) (noItem_nl (unstopped_noItem hv'.left g1 hun')), fun e => by simp [free] at e, fun w e _ => ?_⟩
    · exact NB.infix (vq_of_noTerm hv'.left g1 hnt) ⟨[], free ['\n'], by simp⟩
    · rw [← List.append_cancel_left e]; exact g2
  · have e2 : v ++ (free ['\n', '\n'] ++ w) = v ++ free ['\n', '\n'] ++ w := by simp
    have e1 : v ++ (free ['\n', '\n'] ++ w) = (v ++ free ['\n']) ++ (free ['\n'] ++ w) := by simp [free]
    have h0 : n = 0 := by
      match n, hall, hlen with
      | 0, _, _ => rfl
      | 1, _, hlen =>
        exfalso
        have hv' := hvalid.append hv
        rw [e1] at hs hv'
        obtain ⟨g1, g2, g3⟩ := spv_take hv' hs (by simpa [free] using hlen 1 rfl)
        have := cut_clean hv'.left g1 hnt g3
        exact this.1 (by simp [free])
      | n + 2, hall, hlen =>
        exfalso
        obtain ⟨m, hm⟩ : ∃ m, paraToks l = m := ⟨_, rfl⟩
        have hv' := hvalid.append hv
        rw [e2] at hs hv'
        obtain ⟨v1, v2, e, g1, g2, -⟩ := spv_cut hv' hs
        have hv1 : Valid v1 := by rw [e] at hv'; exact hv'.left
        have ht := spv_text hv1 g1
        rw [htext] at ht
        have hnb := vq_of_noTerm hv1 g1 hnt
        have hl1 : v.length + (n + 2) = v1.length := by
          have := congrArg List.length ht
          simpa using this
        have hpre : v ++ free ['\n', '\n'] <+: v1 := by
          refine List.prefix_of_prefix_length_le ⟨w, rfl⟩ (e ▸ ⟨v2, rfl⟩) ?_
          rw [← hl1]; simp [free]
        obtain ⟨z, rfl⟩ := hpre
        exact hnb.1 ⟨v, z, by simp⟩
    refine ⟨same (hvalid.append hv) hs h0, fun e => by simp [free] at e, fun w' e hw => ?_⟩
    exfalso
    obtain ⟨c, r', rfl, hc⟩ := hw
    simp [free] at e
    rw [← e.1] at hc
    revert hc; decide
  · have e1 : v ++ (free ['\n', '%', '}'] ++ w) = (v ++ free ['\n']) ++ (free ['%', '}'] ++ w) := by simp [free]
    have h0 : n = 0 := by
      match n, hall, hlen with
      | 0, _, _ => rfl
      | 1, _, hlen =>
        exfalso
        have hv' := hvalid.append hv
        rw [e1] at hs hv'
        obtain ⟨g1, g2, g3⟩ := spv_take hv' hs (by simpa [free] using hlen 1 rfl)
        obtain ⟨l0, e, el, ek⟩ := spv_last_nl hv'.left g1 hnt
        have hj2 : Join (free ['%', '}']) w := by
          refine join_known (l := []) (p := ⟨false, .CollapsibleEnd, ['%', '}']⟩) (valid_free (by decide)) (pieces_one rfl) ?_
          rfl
        obtain ⟨t4, t5, rfl, s5, s6⟩ := spv_split (valid_free (by decide)) hj2 g2
        obtain ⟨k0, rfl, sc⟩ := spv_one (p := ⟨false, .CollapsibleEnd, ['%', '}']⟩) rfl s5
        have hfl : flag false (v ++ free ['\n']) = true := by simp [flag, free]
        rw [el] at hun
        have h1 := hun.right.1
        simp only [List.nil_append, List.singleton_append, stopAt, List.any_eq_false] at h1
        refine h1 .CollapsibleEnd (by simp [hS.stop hc]) ?_
        have hk0 := sc.kind
        have hc0 := sc.col
        rw [hfl] at hc0
        simp [stopHere, ek, tokenIs, hk0, hc0]
      | n + 2, hall, _ =>
        exfalso
        rw [List.replicate_succ, List.replicate_succ, free, List.map_append] at hall
        simp at hall
    refine ⟨same (hvalid.append hv) hs h0, fun e => by simp [free] at e, fun w' e hw => ?_⟩
    exfalso
    obtain ⟨c', r', rfl, hc'⟩ := hw
    simp [free] at e
    rw [← e.1] at hc'
    revert hc'; decide

end Yamd.Round
