import Verif.Props.HeapModels
import Verif.Lemmas.RunFilter

/-!
C87: `run_filter` on a heap of mutable objects. With models that copy the state they are given, the estimates it
returns are those of the value-level model, keep their contents while the filter goes on, and share nothing with each
other or with the caller's objects; only the first one may share the caller's `x0` and `P0`.
-/

namespace Verif.Heap

open Verif Matrix

set_option linter.unusedVariables false

variable {V U : Type} {n : ℕ} {I Y Y' : Type}

/-! ### Specification -/

/-- The filter object `F` computes the value-level filter `f` and only allocates; `φ` maps measurements to values,
`Good` are the measurements whose models are well behaved. -/
structure FilterRefines (w : View V n) (k : ℕ) (Good : Y → Prop) (φ : Y → Y') (F : HFilter I Y)
    (f : FilterApi (SWC V n) I Y') : Prop where
  istamp : ∀ u, f.istamp u = F.istamp u
  ystamp : ∀ y, f.ystamp (φ y) = F.ystamp y
  xstamp : ∀ X, f.xstamp X = X.state.stamp
  correct : ∀ (h : Heap) (x : Ref) (X : SWC V n) (y : Y) (u : I), Sees w k h x X → Good y →
    TracksW w k h (F.correct h x y u) (f.correct X (φ y) u)
  predict : ∀ (h : Heap) (x : Ref) (X : SWC V n) (u : I) (dt : ℝ), Sees w k h x X →
    TracksW w k h (F.predict h x u dt) (f.predict X u dt)

/-- Two objects have no object in common. -/
def NoShare (h : Heap) (r r' : Ref) : Prop := ∀ q, Reach h r q → ¬ Reach h r' q

/-! ### Proofs -/

theorem reach_lt {h : Heap} (hw : WF h) {r q : Ref} (hr : r < h.length) (hq : Reach h r q) : q < h.length := by
  induction hq with
  | refl => exact hr
  | step _ ho hp ih => exact hw _ (List.mem_of_getElem? ho) _ hp

theorem Work.wf {h H : Heap} (hw : Work h H) (hwf : WF h) : WF H := by
  obtain ⟨N, rfl, hN⟩ := hw
  exact hwf.grow hN

/-- Old objects reach old objects only. -/
theorem Work.reach_old {h H : Heap} (hw : Work h H) (hwf : WF h) {r q : Ref} (hr : r < h.length)
    (hq : Reach H r q) : q < h.length := by
  induction hq with
  | refl => exact hr
  | step _ ho hp ih =>
    rw [hw.old ih] at ho
    exact hwf _ (List.mem_of_getElem? ho) _ hp

/-- New objects reach new objects only. -/
theorem Work.reach_new {h H : Heap} (hw : Work h H) {r q : Ref} (hr : h.length ≤ r) (hq : Reach H r q) :
    h.length ≤ q := by
  induction hq with
  | refl => exact hr
  | step _ ho hp ih => exact (hw.refs ho ih _ hp).1

theorem Sees.lt {w : View V n} {k : ℕ} {h : Heap} {r : Ref} {X : SWC V n} (hs : Sees w k h r X) : r < h.length := by
  obtain ⟨t, h1, _⟩ := hs
  exact swc_lt h1

theorem Sees.stamp {w : View V n} {k : ℕ} {h : Heap} {r : Ref} {X : SWC V n} (hs : Sees w k h r X) :
    swcStamp h r = .ok X.state.stamp := by
  obtain ⟨t, h1, h2, h3⟩ := hs
  obtain ⟨s, c, g1, g2, g3, g4⟩ := contentsSwc_inv h1
  unfold swcStamp
  rw [readSwc_of g1]
  show stampOf h s = _
  rw [stampOf_contents g2, h3]
  rfl

/-- The inner loop. -/
theorem fuseWhile_spec {w : View V n} {k : ℕ} {Good : Y → Prop} {φ : Y → Y'} {F : HFilter I Y}
    {f : FilterApi (SWC V n) I Y'} (hr : FilterRefines w k Good φ F f) (u : I) (tn : ℝ) :
    ∀ (rest : List Y) (h : Heap) (x : Ref) (X : SWC V n), Sees w k h x X → (∀ y ∈ rest, Good y) →
      (∀ err, fuseWhile f u tn (rest.map φ) X = .error err → F.fuseWhile u tn h rest x = .error err) ∧
      ∀ (X' : SWC V n) (l : List Y'), fuseWhile f u tn (rest.map φ) X = .ok (X', l) →
        ∃ (x' : Ref) (rest' : List Y) (h' : Heap), F.fuseWhile u tn h rest x = .ok (x', rest', h') ∧
          l = rest'.map φ ∧ (∀ y ∈ rest', y ∈ rest) ∧ Work h h' ∧ Sees w k h' x' X' ∧
          ((x' = x ∧ h' = h ∧ ∀ y, rest.head? = some y → ¬ F.ystamp y < tn) ∨
            (h.length ≤ x' ∧ ∃ y, rest.head? = some y ∧ F.ystamp y < tn))
  | [], h, x, X, hx, hg => by
    refine ⟨fun err he => (by cases he), fun X' l he => ?_⟩
    cases he
    exact ⟨x, [], h, rfl, rfl, fun y hy => hy, Work.refl h, hx, .inl ⟨rfl, rfl, fun y hy => (by cases hy)⟩⟩
  | y :: rest, h, x, X, hx, hg => by
    rw [List.map_cons]
    unfold fuseWhile HFilter.fuseWhile
    rw [hr.ystamp]
    by_cases ht : F.ystamp y < tn
    · rw [if_pos ht, if_pos ht]
      have hc := hr.correct h x X y u hx (hg y List.mem_cons_self)
      cases hX : f.correct X (φ y) u with
      | error err =>
        refine ⟨fun err' he => ?_, fun X' l he => (by cases he)⟩
        cases he
        rw [hc.1 err hX]
        rfl
      | ok X1 =>
        obtain ⟨x1, h1, e1, w1, l1, s1⟩ := hc.2 X1 hX
        have ih := fuseWhile_spec hr u tn rest h1 x1 X1 s1 (fun z hz => hg z (List.mem_cons_of_mem _ hz))
        rw [e1]
        refine ⟨fun err he => ih.1 err he, fun X' l he => ?_⟩
        obtain ⟨x', rest', h', e2, r2, m2, w2, s2, c2⟩ := ih.2 X' l he
        refine ⟨x', rest', h', e2, r2, fun z hz => List.mem_cons_of_mem _ (m2 z hz), w1.trans w2, s2, .inr ⟨?_, y, rfl, ht⟩⟩
        rcases c2 with ⟨rfl, _⟩ | ⟨c2, _⟩
        · exact l1
        · exact le_trans w1.len c2
    · rw [if_neg ht, if_neg ht]
      refine ⟨fun err he => (by cases he), fun X' l he => ?_⟩
      cases he
      exact ⟨x, y :: rest, h, rfl, rfl, fun z hz => hz, Work.refl h, hx, .inl ⟨rfl, rfl, fun z hz => (by cases hz; exact ht)⟩⟩

/-- The main loop. -/
theorem runLoop_spec {w : View V n} {k : ℕ} {Good : Y → Prop} {φ : Y → Y'} {F : HFilter I Y}
    {f : FilterApi (SWC V n) I Y'} (hr : FilterRefines w k Good φ F f) :
    ∀ (us : List I) (rest : List Y) (h : Heap) (x : Ref) (X : SWC V n), WF h → Sees w k h x X → (∀ y ∈ rest, Good y) →
      (∀ err, runLoop f us (rest.map φ) X = .error err → F.runLoop h us rest x = .error err) ∧
      ∀ Xs : List (SWC V n), runLoop f us (rest.map φ) X = .ok Xs →
        ∃ (rs : List Ref) (h' : Heap), F.runLoop h us rest x = .ok (rs, h') ∧ Work h h' ∧
          List.Forall₂ (Sees w k h') rs Xs ∧ rs.Pairwise (NoShare h') ∧ (∀ r ∈ rs.tail, h.length ≤ r) ∧
          ∀ r, rs.head? = some r → ∃ u u' us', us = u :: u' :: us' ∧
            ((r = x ∧ ∀ y, rest.head? = some y → ¬ F.ystamp y < F.istamp u') ∨
            (h.length ≤ r ∧ ∃ y, rest.head? = some y ∧ F.ystamp y < F.istamp u'))
  | [], rest, h, x, X, hwf, hx, hg => by
    refine ⟨fun err he => (by cases he), fun Xs he => ?_⟩
    cases he
    exact ⟨[], h, rfl, Work.refl h, .nil, .nil, fun r hr => (by cases hr), fun r hr => (by cases hr)⟩
  | [u], rest, h, x, X, hwf, hx, hg => by
    refine ⟨fun err he => (by cases he), fun Xs he => ?_⟩
    cases he
    exact ⟨[], h, rfl, Work.refl h, .nil, .nil, fun r hr => (by cases hr), fun r hr => (by cases hr)⟩
  | u :: u' :: us, rest, h, x, X, hwf, hx, hg => by
    unfold runLoop HFilter.runLoop
    rw [hr.istamp]
    have hf := fuseWhile_spec hr u (F.istamp u') rest h x X hx hg
    cases hX : fuseWhile f u (F.istamp u') (rest.map φ) X with
    | error err =>
      refine ⟨fun err' he => ?_, fun X' he => (by cases he)⟩
      cases he
      rw [hf.1 err hX]
      rfl
    | ok p =>
      obtain ⟨X1, l⟩ := p
      obtain ⟨x1, rest1, h1, e1, rfl, m1, w1, s1, c1⟩ := hf.2 X1 l hX
      rw [e1]
      show (∀ err, (predictTo f X1 u (F.istamp u') >>= fun X2 => runLoop f (u' :: us) (rest1.map φ) X2 >>= fun rs =>
        pure (X1 :: rs)) = .error err → _) ∧ ∀ Xs, (predictTo f X1 u (F.istamp u') >>= fun X2 =>
          runLoop f (u' :: us) (rest1.map φ) X2 >>= fun rs => pure (X1 :: rs)) = .ok Xs → _
      have hst := s1.stamp
      unfold predictTo
      rw [hr.xstamp]
      cases hs : X1.state.stamp with
      | none =>
        rw [hs] at hst
        refine ⟨fun err he => ?_, fun Xs he => (by cases he)⟩
        cases he
        show (swcStamp h1 x1 >>= _) = _
        rw [hst]
        rfl
      | some t =>
        rw [hs] at hst
        have hp := hr.predict h1 x1 X1 u (F.istamp u' - t) s1
        have hred : ∀ (g : Except Err (List Ref × Heap)),
            ((swcStamp h1 x1 >>= fun st => match st with
              | none => (.error .typeError : Except Err (List Ref × Heap))
              | some t => do
                let (x2, h2) ← F.predict h1 x1 u (F.istamp u' - t)
                let (rs, h3) ← HFilter.runLoop F h2 (u' :: us) rest1 x2
                return (x1 :: rs, h3)) = g) ↔
            ((F.predict h1 x1 u (F.istamp u' - t) >>= fun p => HFilter.runLoop F p.2 (u' :: us) rest1 p.1 >>= fun q =>
              pure (x1 :: q.1, q.2)) = g) := by
          intro g
          rw [hst]
          exact Iff.rfl
        show (∀ err, (f.predict X1 u (F.istamp u' - t) >>= fun X2 => runLoop f (u' :: us) (rest1.map φ) X2 >>= fun rs =>
          pure (X1 :: rs)) = .error err → _) ∧ ∀ Xs, (f.predict X1 u (F.istamp u' - t) >>= fun X2 =>
            runLoop f (u' :: us) (rest1.map φ) X2 >>= fun rs => pure (X1 :: rs)) = .ok Xs → _
        cases hX2 : f.predict X1 u (F.istamp u' - t) with
        | error err =>
          refine ⟨fun err' he => ?_, fun Xs he => (by cases he)⟩
          cases he
          refine (hred _).mpr ?_
          rw [hp.1 err hX2]
          rfl
        | ok X2 =>
          obtain ⟨x2, h2, e2, w2, l2, s2⟩ := hp.2 X2 hX2
          have hwf1 := w1.wf hwf
          have ih := runLoop_spec hr (u' :: us) rest1 h2 x2 X2 (w2.wf hwf1) s2 (fun z hz => hg z (m1 z hz))
          show (∀ err, (runLoop f (u' :: us) (rest1.map φ) X2 >>= fun rs => pure (X1 :: rs)) = .error err → _) ∧
            ∀ Xs, (runLoop f (u' :: us) (rest1.map φ) X2 >>= fun rs => pure (X1 :: rs)) = .ok Xs → _
          cases hrs : runLoop f (u' :: us) (rest1.map φ) X2 with
          | error err =>
            refine ⟨fun err' he => ?_, fun Xs he => (by cases he)⟩
            cases he
            refine (hred _).mpr ?_
            rw [e2]
            show (HFilter.runLoop F h2 (u' :: us) rest1 x2 >>= _) = _
            rw [ih.1 err hrs]
            rfl
          | ok Xs2 =>
            refine ⟨fun err' he => (by cases he), fun Xs he => ?_⟩
            cases he
            obtain ⟨rs, h3, e3, w3, f3, p3, t3, d3⟩ := ih.2 Xs2 hrs
            have hge : ∀ r ∈ rs, h1.length ≤ r := by
              intro r hm
              cases rs with
              | nil => cases hm
              | cons a tl =>
                rcases List.mem_cons.mp hm with rfl | hm
                · obtain ⟨_, _, _, _, ⟨rfl, _⟩ | ⟨c, _⟩⟩ := d3 r rfl
                  · exact l2
                  · exact le_trans w2.len c
                · exact le_trans w2.len (t3 r hm)
            refine ⟨x1 :: rs, h3, (hred _).mpr ?_, w1.trans (w2.trans w3), .cons ((w2.trans w3).sees s1) f3, ?_, ?_, ?_⟩
            · rw [e2]
              show (HFilter.runLoop F h2 (u' :: us) rest1 x2 >>= _) = _
              rw [e3]
              rfl
            · refine List.Pairwise.cons (fun r hm q hq hq' => ?_) p3
              have a1 := (w2.trans w3).reach_old hwf1 s1.lt hq
              have a2 := (w2.trans w3).reach_new (hge r hm) hq'
              omega
            · intro r hm
              exact le_trans w1.len (hge r hm)
            · intro r hm
              cases hm
              refine ⟨u, u', us, rfl, ?_⟩
              rcases c1 with ⟨a, _, b⟩ | c1
              · exact .inl ⟨a, b⟩
              · exact .inr c1

open Classical in
theorem sortByStamp_map (φ : Y → Y') (st : Y → ℝ) (st' : Y' → ℝ) (he : ∀ y, st' (φ y) = st y) (l : List Y) :
    sortByStamp st' (l.map φ) = (sortByStamp st l).map φ := by
  unfold sortByStamp
  refine (List.map_mergeSort (fun a _ b _ => ?_)).symm
  rw [he, he]

open Classical in
theorem dropBefore_map (φ : Y → Y') (st : Y → ℝ) (st' : Y' → ℝ) (he : ∀ y, st' (φ y) = st y) (t0 : ℝ) (l : List Y) :
    dropBefore st' t0 (l.map φ) = (dropBefore st t0 l).map φ := by
  unfold dropBefore
  have hiff : (∃ a ∈ l.map φ, t0 ≤ st' a) ↔ ∃ a ∈ l, t0 ≤ st a := by
    simp only [List.mem_map, exists_exists_and_eq_and, he]
  by_cases hc : ∃ a ∈ l, t0 ≤ st a
  · rw [if_pos hc, if_pos (hiff.mpr hc), List.dropWhile_map]
    congr 2
    funext y
    simp only [Function.comp, he]
  · rw [if_neg hc, if_neg (fun h => hc (hiff.mp h))]

theorem dropBefore_sub {α : Type} (st : α → ℝ) (t0 : ℝ) (l : List α) : ∀ y ∈ dropBefore st t0 l, y ∈ l := by
  intro y hy
  unfold dropBefore at hy
  split at hy
  · exact (List.dropWhile_sublist _).subset hy
  · exact hy

/-- A separate object is separate from a smaller heap too. -/
theorem Separate.weaken {h new h' : Heap} {r : Ref} (hs : Separate (h ++ new) h' r) : Separate h h' r := by
  have hle : h.length ≤ (h ++ new).length := by simp
  obtain ⟨a, b, c, d⟩ := hs
  refine ⟨fun q hq => ?_, fun q hq => le_trans hle (b q hq), fun cs q hq => ?_, fun cs vars hv => ?_⟩
  · rw [a q (by omega), List.getElem?_append_left hq]
  · rw [c cs q (by omega), List.getElem?_append_left hq]
  · exact d cs vars (fun v hm => lt_of_lt_of_le (hv v hm) hle)

/-! ### C87 -/

/-- C87: `run_filter` on mutable objects raises what the value-level `run_filter` raises; otherwise the estimates it
returns have, at the end of the run, the value-level contents, no two of them share an object, every object of the
caller is unchanged, and all but the first are separate from the caller's objects. The first one is separate too if
a measurement is fused before the second input, and is made of the caller's `x0` and `P0` themselves otherwise. -/
theorem C87_run_filter {w : View V n} {k : ℕ} {Good : Y → Prop} {φ : Y → Y'} {F : HFilter I Y}
    {f : FilterApi (SWC V n) I Y'} (hr : FilterRefines w k Good φ F f) {h : Heap} (hwf : WF h) {x0 P0 : Ref}
    {t : STree} {P : Mat n n} (hx : contents k h x0 = some t) (hP : arrAt h P0 = some (.mat n n P)) (hd : w.Dom t)
    (inputs : List I) (meas : List Y) (hg : ∀ y ∈ meas, Good y) :
    (∀ err, runFilter f ⟨w.st t, P⟩ inputs (meas.map φ) = .error err → F.runFilter k h x0 P0 inputs meas = .error err) ∧
    ∀ Xs, runFilter f ⟨w.st t, P⟩ inputs (meas.map φ) = .ok Xs →
      ∃ (rs : List Ref) (h' : Heap), F.runFilter k h x0 P0 inputs meas = .ok (rs, h') ∧
        List.Forall₂ (Sees w k h') rs Xs ∧ (∀ q, q < h.length → h'[q]? = h[q]?) ∧ rs.Pairwise (NoShare h') ∧
        (∀ r ∈ rs.tail, Separate h h' r) ∧
        ∀ r t0 u u' us, rs.head? = some r → t.stamp = some t0 →
          dropBefore F.istamp t0 (sortByStamp F.istamp inputs) = u :: u' :: us →
          ((∃ y, (dropBefore F.ystamp t0 (sortByStamp F.ystamp meas)).head? = some y ∧ F.ystamp y < F.istamp u') →
            Separate h h' r) ∧
          ((¬ ∃ y, (dropBefore F.ystamp t0 (sortByStamp F.ystamp meas)).head? = some y ∧ F.ystamp y < F.istamp u') →
            h'[r]? = some (.swc x0 P0)) := by
  have hn := newSwc_spec hx hP (w.dof t hd).symm
  have hlx := contents_lt hx
  have hlp := get_lt (arrAt_some hP)
  have hwf1 : WF (h ++ [Obj.swc x0 P0]) := by
    intro o ho q hq
    rw [List.length_append]
    rcases List.mem_append.mp ho with ho | ho
    · exact lt_of_lt_of_le (hwf o ho q hq) (by simp)
    · rw [List.mem_singleton.mp ho] at hq
      simp only [Obj.refs, List.mem_cons, List.not_mem_nil, or_false] at hq
      rcases hq with rfl | rfl <;> simp <;> omega
  have hs1 : Sees w k (h ++ [Obj.swc x0 P0]) h.length ⟨w.st t, P⟩ :=
    ⟨t, contentsSwc_intro (get_last _ _) (contents_grow hx) (arrAt_grow hP) (w.dof t hd).symm, hd, rfl⟩
  have hst := hs1.stamp
  unfold runFilter HFilter.runFilter
  rw [hr.xstamp, hn]
  cases ht : t.stamp with
  | none =>
    have e1 : (⟨w.st t, P⟩ : SWC V n).state.stamp = none := ht
    rw [e1] at hst ⊢
    refine ⟨fun err he => ?_, fun Xs he => (by cases he)⟩
    cases he
    show (swcStamp (h ++ [Obj.swc x0 P0]) h.length >>= _) = _
    rw [hst]
    rfl
  | some t0 =>
    have e1 : (⟨w.st t, P⟩ : SWC V n).state.stamp = some t0 := ht
    rw [e1] at hst ⊢
    have hi : f.istamp = F.istamp := funext hr.istamp
    have hy : dropBefore f.ystamp t0 (sortByStamp f.ystamp (meas.map φ))
        = (dropBefore F.ystamp t0 (sortByStamp F.ystamp meas)).map φ := by
      rw [sortByStamp_map φ F.ystamp f.ystamp hr.ystamp, dropBefore_map φ F.ystamp f.ystamp hr.ystamp]
    show (∀ err, runLoop f (dropBefore f.istamp t0 (sortByStamp f.istamp inputs))
      (dropBefore f.ystamp t0 (sortByStamp f.ystamp (meas.map φ))) ⟨w.st t, P⟩ = .error err →
        (swcStamp (h ++ [Obj.swc x0 P0]) h.length >>= _) = _) ∧
      ∀ Xs, runLoop f (dropBefore f.istamp t0 (sortByStamp f.istamp inputs))
      (dropBefore f.ystamp t0 (sortByStamp f.ystamp (meas.map φ))) ⟨w.st t, P⟩ = .ok Xs →
        ∃ rs h', (swcStamp (h ++ [Obj.swc x0 P0]) h.length >>= _) = _ ∧ _
    rw [hst, hy, hi]
    have hl := runLoop_spec hr (dropBefore F.istamp t0 (sortByStamp F.istamp inputs))
      (dropBefore F.ystamp t0 (sortByStamp F.ystamp meas)) _ _ _ hwf1 hs1
      (fun y hm => hg y ((sortByStamp_mem F.ystamp).mp (dropBefore_sub _ _ _ y hm)))
    refine ⟨fun err he => hl.1 err he, fun Xs he => ?_⟩
    obtain ⟨rs, h', e2, w2, f2, p2, t2, d2⟩ := hl.2 Xs he
    have hsep : ∀ r ∈ rs, (h ++ [Obj.swc x0 P0]).length ≤ r → Separate h h' r := by
      intro r hm hge
      have hlt : r < h'.length := by
        obtain ⟨i, hi, rfl⟩ := List.getElem_of_mem hm
        exact ((List.forall₂_iff_get.mp f2).2 i hi (by rw [← f2.length_eq]; exact hi)).lt
      obtain ⟨N, rfl, hN⟩ := w2
      exact (separate_of hwf1 hN hge hlt).weaken
    refine ⟨rs, h', e2, f2, fun q hq => ?_, p2, fun r hm => ?_, ?_⟩
    · rw [w2.old (by rw [List.length_append]; omega), List.getElem?_append_left hq]
    · exact hsep r (List.mem_of_mem_tail hm) (t2 r hm)
    · intro r t0' u u' us hrr ht' hus
      cases ht'
      obtain ⟨v, v', vs, hv, hcase⟩ := d2 r hrr
      rw [hus] at hv
      cases hv
      refine ⟨fun ⟨y, hy1, hy2⟩ => ?_, fun hno => ?_⟩
      · rcases hcase with ⟨_, hc⟩ | ⟨hc, _⟩
        · exact absurd hy2 (hc y hy1)
        · exact hsep r (List.mem_of_mem_head? hrr) hc
      · rcases hcase with ⟨rfl, _⟩ | ⟨_, hc⟩
        · rw [w2.old (by rw [List.length_append]; simp)]
          exact get_last _ _
        · exact absurd hc hno

/-- The extended Kalman filter of C86 is such a filter: `φ` attaches the value-level measurement models. -/
theorem C87_ekf {w : View V n} {f : HEkf U n} {e : EkfEnv V U n} (hr : Refines w f e)
    (g : ∀ y : StHMeas n, MeasModel V n y.meas.m) :
    FilterRefines w f.depth (fun y => MeasImplements w f.depth y.meas (g y))
      (fun y => ⟨y.meas.pure (g y), y.stamp, y.hstamp⟩) f.api (ekfApi e) where
  istamp u := rfl
  ystamp y := rfl
  xstamp X := rfl
  correct h x X y u hx hy := correct_spec hr hx y.meas hy (some ⟨u.value, some u.stamp⟩) (.inl ⟨rfl, rfl⟩) none
  predict h x X u dt hx := predict_spec hr hx (some ⟨u.value, some u.stamp⟩) (some dt) (.inl ⟨rfl, rfl⟩)

/-- The hypotheses of `C87_run_filter` are met, by the filter around `SingleIntegrator` on the objects 3 (state) and 1
(covariance) of a heap, with a direct measurement. -/
example (Exp : LieCls → Arr → Arr) (P : LiePlus) (chi : ℕ → ℝ) (z : Vec 2) :
    ∃ (F : HFilter (StInp (Vec 2)) (StHMeas 2)) (f : FilterApi (SWC (Vec 2) 2) (StInp (Vec 2)) (StMeas (Vec 2) 2))
      (Good : StHMeas 2 → Prop) (φ : StHMeas 2 → StMeas (Vec 2) 2),
      FilterRefines (vecView 2) 1 Good φ F f ∧ WF exHeap2 ∧ contents 1 exHeap2 3 = some (.vec [1, 2] (some 0) none) ∧
      arrAt exHeap2 1 = some (.mat 2 2 1) ∧ (vecView 2).Dom (.vec [1, 2] (some 0) none) ∧
      ∀ y ∈ [(⟨readMeas 1 z (some 1) 1, 1, rfl⟩ : StHMeas 2)], Good y := by
  classical
  refine ⟨_, _, _, _, C87_ekf (C86_integrator_filter Exp P 1 1 false chi) (fun y =>
    if h : y.meas.m = 2 then ⟨fun x => some (fun i => x.value (Fin.cast h i)), fun _ => fun i j =>
      (1 : Mat 2 2) (Fin.cast h i) j, fun _ => 1⟩
    else ⟨fun _ => none, fun _ => 0, fun _ => 0⟩), exHeap2_wf, ?_, rfl, ⟨_, _, _, rfl, rfl⟩, ?_⟩
  · obtain ⟨s, c, h1, h2, h3, h4⟩ := contentsSwc_inv exHeap2_contents
    cases h1
    exact h2
  · intro y hy
    rw [List.mem_singleton.mp hy]
    exact C86_read_meas 1 z (some 1) 1

/-! ### A model that works in place -/

theorem runLoop_in_place (f : HEkf (Vec n) n) (Q : Mat n n) (hf : f.proc = inPlaceIntegrator Q) :
    ∀ (us : List (StInp (Vec n))) (h : Heap) (x xs xc : Ref) (l : List ℝ) (s : ℝ) (i : Id) (P : Mat n n),
      h[x]? = some (.swc xs xc) → contentsSwc f.depth h x = some (.vec l (some s) i, ⟨n, P⟩) →
      (∀ u ∈ us, s ≤ u.stamp) → us.Pairwise (fun u v => u.stamp ≤ v.stamp) →
      ∃ (rs : List Ref) (h' : Heap), f.api.runLoop h us [] x = .ok (rs, h') ∧ rs.length = us.length - 1 ∧
        (∀ r ∈ rs, ∃ c, h'[r]? = some (.swc xs c)) ∧ (∀ q o, q ≠ xs → h[q]? = some o → h'[q]? = some o) ∧
        (∃ L, contents f.depth h' xs = some (.vec L (some (if 2 ≤ us.length then (us.getLast?.map (·.stamp)).getD s else s)) i))
  | [], h, x, xs, xc, l, s, i, P, hx, hc, _, _ => by
    obtain ⟨s', c', g1, g2, g3, g4⟩ := contentsSwc_inv hc
    rw [hx] at g1
    cases g1
    exact ⟨[], h, rfl, rfl, fun r hr => (by cases hr), fun q o _ ho => ho, l, g2⟩
  | [u], h, x, xs, xc, l, s, i, P, hx, hc, _, _ => by
    obtain ⟨s', c', g1, g2, g3, g4⟩ := contentsSwc_inv hc
    rw [hx] at g1
    cases g1
    exact ⟨[], h, rfl, rfl, fun r hr => (by cases hr), fun q o _ ho => ho, l, g2⟩
  | u :: u' :: us, h, x, xs, xc, l, s, i, P, hx, hc, hle, hsort => by
    have hle' := hle u' (by simp)
    have hpt : predictTime (some s) (some (⟨u.value, some u.stamp⟩ : Inp (Vec n))) (some (u'.stamp - s))
        = .ok (s, u'.stamp - s) := by
      show (if u'.stamp - s < 0 then Except.error Err.runtimeError else Except.ok (s, u'.stamp - s)) = _
      rw [if_neg (by linarith)]
    obtain ⟨x', c', h1, e1, g1, g2, g3, g4, g5⟩ := C86_predict_in_place f Q hf hx hc ⟨u.value, some u.stamp⟩ hpt
    rw [show s + (u'.stamp - s) = u'.stamp by ring] at g4
    have hs2 := (List.pairwise_cons.mp hsort).2
    have hle2 : ∀ v ∈ u' :: us, u'.stamp ≤ v.stamp := by
      intro v hv
      rcases List.mem_cons.mp hv with rfl | hv
      · exact le_refl _
      · exact (List.pairwise_cons.mp hs2).1 v hv
    obtain ⟨rs, h2, e2, n2, r2, k2, L, c2⟩ := runLoop_in_place f Q hf (u' :: us) h1 x' xs c' _ _ i _ g1 g4 hle2 hs2
    have hst : swcStamp h x = .ok (some s) := by
      obtain ⟨s', c', a1, a2, _⟩ := contentsSwc_inv hc
      unfold swcStamp
      rw [readSwc_of a1]
      show stampOf h s' = _
      rw [stampOf_contents a2]
      rfl
    have hxs : x ≠ xs := by
      rintro rfl
      obtain ⟨s', c', a1, a2, _⟩ := contentsSwc_inv hc
      rw [hx] at a1
      cases a1
      exact (contents_notarr a2).2.2 _ _ hx
    refine ⟨x :: rs, h2, ?_, by simp [n2], ?_, fun q o hq ho => k2 q o hq (g5 q o hq ho), L, ?_⟩
    · unfold HFilter.runLoop HFilter.fuseWhile
      show (swcStamp h x >>= _) = _
      rw [hst]
      show (f.predict h x (some ⟨u.value, some u.stamp⟩) (some (u'.stamp - s)) none >>= _) = _
      rw [e1]
      show (HFilter.runLoop f.api h1 (u' :: us) [] x' >>= _) = _
      rw [e2]
      rfl
    · intro r hr
      rcases List.mem_cons.mp hr with rfl | hr
      · exact ⟨xc, k2 _ _ hxs g2⟩
      · exact r2 r hr
    · rw [c2]
      cases us with
      | nil => rfl
      | cons v vs =>
        simp only [List.length_cons, List.getLast?_cons_cons]
        rw [if_pos (by omega), if_pos (by omega)]
        congr 3

/-- C87 (the defect of `predict` seen from `run_filter`): with a process model that updates its argument, the caller's
`x0` is the state of EVERY estimate returned, and at the end it carries the stamp of the last input: the whole history
of means is lost. -/
theorem C87_in_place (f : HEkf (Vec n) n) (Q : Mat n n) (hf : f.proc = inPlaceIntegrator Q) {h : Heap} {x0 P0 : Ref}
    {l : List ℝ} {s : ℝ} {i : Id} {P : Mat n n} (hx : contents f.depth h x0 = some (.vec l (some s) i))
    (hP : arrAt h P0 = some (.mat n n P)) (hl : l.length = n) (inputs : List (StInp (Vec n)))
    (h2 : 2 ≤ inputs.length) (hs : ∀ u ∈ inputs, s ≤ u.stamp) :
    ∃ (rs : List Ref) (h' : Heap), f.api.runFilter f.depth h x0 P0 inputs [] = .ok (rs, h') ∧
      rs.length = inputs.length - 1 ∧ (∀ r ∈ rs, ∃ c, h'[r]? = some (.swc x0 c)) ∧
      ∃ (L : List ℝ) (T : ℝ), contents f.depth h' x0 = some (.vec L (some T) i) ∧ (∃ u ∈ inputs, u.stamp = T) ∧
        ∀ u ∈ inputs, u.stamp ≤ T := by
  have hd : n = (STree.vec l (some s) i).dof := by simp [STree.dof, hl]
  have hn := newSwc_spec hx hP hd
  have hc : contentsSwc f.depth (h ++ [Obj.swc x0 P0]) h.length = some (.vec l (some s) i, ⟨n, P⟩) :=
    contentsSwc_intro (get_last _ _) (contents_grow hx) (arrAt_grow hP) hd
  have hperm := sortByStamp_perm f.api.istamp inputs
  have hsorted : (sortByStamp f.api.istamp inputs).Pairwise (fun u v => u.stamp ≤ v.stamp) :=
    sortByStamp_sorted f.api.istamp inputs
  have hkeep : dropBefore f.api.istamp s (sortByStamp f.api.istamp inputs) = sortByStamp f.api.istamp inputs := by
    unfold dropBefore
    split
    · cases hcs : sortByStamp f.api.istamp inputs with
      | nil => rfl
      | cons a tl =>
        have ha : s ≤ a.stamp := hs a (hperm.mem_iff.mp (by rw [hcs]; simp))
        have : ¬ f.api.istamp a < s := not_lt.mpr ha
        rw [List.dropWhile_cons, if_neg (by simpa using this)]
    · rfl
  have hlen := hperm.length_eq
  obtain ⟨rs, h', e1, n1, r1, k1, L, c1⟩ := runLoop_in_place f Q hf (sortByStamp f.api.istamp inputs)
    (h ++ [Obj.swc x0 P0]) h.length x0 P0 l s i P (get_last _ _) hc (fun u hu => hs u (hperm.mem_iff.mp hu)) hsorted
  obtain ⟨z, hz⟩ : ∃ z, (sortByStamp f.api.istamp inputs).getLast? = some z := by
    cases hq : (sortByStamp f.api.istamp inputs).getLast? with
    | none =>
      rw [List.getLast?_eq_none_iff] at hq
      rw [hq] at hlen
      simp at hlen
      omega
    | some z => exact ⟨z, rfl⟩
  rw [if_pos (by omega), hz] at c1
  refine ⟨rs, h', ?_, by omega, r1, L, z.stamp, c1, ⟨z, hperm.mem_iff.mp (List.mem_of_getLast? hz), rfl⟩, ?_⟩
  · unfold HFilter.runFilter
    rw [hn]
    show (swcStamp (h ++ [Obj.swc x0 P0]) h.length >>= _) = _
    have hst : swcStamp (h ++ [Obj.swc x0 P0]) h.length = .ok (some s) := by
      unfold swcStamp
      rw [readSwc_of (get_last _ _)]
      show stampOf _ x0 = _
      rw [stampOf_contents (contents_grow hx)]
      rfl
    rw [hst]
    show f.api.runLoop (h ++ [Obj.swc x0 P0]) (dropBefore f.api.istamp s (sortByStamp f.api.istamp inputs))
      (dropBefore f.api.ystamp s (sortByStamp f.api.ystamp [])) h.length = _
    have hnil : dropBefore f.api.ystamp s (sortByStamp f.api.ystamp []) = [] := by
      unfold sortByStamp dropBefore
      simp
    rw [hnil, hkeep, e1]
  · intro u hu
    have hu' := hperm.mem_iff.mpr hu
    obtain ⟨l1, hl1⟩ := List.getLast?_eq_some_iff.mp hz
    rw [hl1] at hu' hsorted
    rcases List.mem_append.mp hu' with hm | hm
    · exact (List.pairwise_append.mp hsorted).2.2 u hm z (by simp)
    · rw [List.mem_singleton.mp hm]

/-- The hypotheses of `C87_in_place` are met. -/
example : contents 1 exHeap2 3 = some (.vec [1, 2] (some 0) none) ∧ arrAt exHeap2 1 = some (.mat 2 2 1) ∧
    ∀ u ∈ [(⟨0, 0⟩ : StInp (Vec 2)), ⟨0, 1⟩], (0 : ℝ) ≤ u.stamp := by
  refine ⟨?_, rfl, by simp⟩
  obtain ⟨s, c, h1, h2, h3, h4⟩ := contentsSwc_inv exHeap2_contents
  cases h1
  exact h2

end Verif.Heap
