import Verif.Lemmas.HeapEkf
import Verif.Props.HeapCopy

/-!
C86: the extended Kalman filter on a heap of mutable objects. With process and measurement models that copy the state
they are given, `predict` and `correct` compute what the value-level model `EkfEnv` computes, do not change any object
of the caller, and return an estimate that shares nothing with the caller's objects.
-/

namespace Verif.Heap

open Verif Matrix

set_option linter.unusedVariables false

variable {V U : Type} {n : ℕ}

/-! ### Specification -/

/-- How the contents of a state are read as a value: `val` ignores stamps (of the state and, for an `IMUState`, of
its parts), `Dom` are the states with `n` degrees of freedom the models accept. -/
structure View (V : Type) (n : ℕ) where
  val : STree → V
  Dom : STree → Prop
  dof : ∀ t, Dom t → t.dof = n
  copied_val : ∀ t, Dom t → val (copied t) = val t
  copied_dom : ∀ t, Dom t → Dom (copied t)
  stamp_val : ∀ t s, Dom t → val (t.setStamp s) = val t
  stamp_dom : ∀ t s, Dom t → Dom (t.setStamp s)

/-- A state of the heap as a value with a stamp. -/
def View.st (w : View V n) (t : STree) : St V := ⟨w.val t, t.stamp⟩

/-- The estimate under the reference `r` is `x`. -/
def Sees (w : View V n) (k : ℕ) (h : Heap) (r : Ref) (x : SWC V n) : Prop :=
  ∃ t : STree, contentsSwc k h r = some (t, ⟨n, x.cov⟩) ∧ w.Dom t ∧ x.state = w.st t

/-- An optional linearization point. -/
def SeesJac (w : View V n) (k : ℕ) (h : Heap) (r : Option Ref) (x : Option (St V)) : Prop :=
  (r = none ∧ x = none) ∨ ∃ (j : Ref) (t : STree), r = some j ∧ contents k h j = some t ∧ w.Dom t ∧ x = some (w.st t)

/-- A process model that only allocates, returns a new object and computes the value-level model `q`. -/
structure Implements (w : View V n) (k : ℕ) (p : HProc U n) (q : ProcModel V U n) : Prop where
  evaluate : ∀ (h : Heap) (r : Ref) (t : STree) (u : Inp U) (dt : ℝ), contents k h r = some t → w.Dom t →
    ∃ (r' : Ref) (new : Heap) (t' : STree), p.evaluate h r u dt = .ok (r', h ++ new) ∧
      FreshFrom h.length h new ∧ h.length ≤ r' ∧ contents k (h ++ new) r' = some t' ∧ w.Dom t' ∧
      w.val t' = (q.evaluate (w.st t) u dt).value
  jacobian : ∀ (h : Heap) (r : Ref) (t : STree) (u : Inp U) (dt : ℝ), contents k h r = some t → w.Dom t →
    ∃ new : Heap, p.jacobian h r u dt = .ok (q.jacobian (w.st t) u dt, h ++ new) ∧ FreshFrom h.length h new
  covariance : ∀ (h : Heap) (r : Ref) (t : STree) (u : Inp U) (dt : ℝ), contents k h r = some t → w.Dom t →
    ∃ new : Heap, p.covariance h r u dt = .ok (q.covariance (w.st t) u dt, h ++ new) ∧ FreshFrom h.length h new

/-- The measurement as a value, with a value-level model. -/
def HMeas.pure (y : HMeas n) (g : MeasModel V n y.m) : Meas V n := ⟨y.m, y.value, y.stamp, g⟩

/-- A measurement model that only allocates and computes the value-level model `g`. -/
structure MeasImplements (w : View V n) (k : ℕ) (y : HMeas n) (g : MeasModel V n y.m) : Prop where
  evaluate : ∀ (h : Heap) (r : Ref) (t : STree), contents k h r = some t → w.Dom t →
    ∃ new : Heap, y.evaluate h r = .ok (g.evaluate (w.st t), h ++ new) ∧ FreshFrom h.length h new
  jacobian : ∀ (h : Heap) (r : Ref) (t : STree), contents k h r = some t → w.Dom t →
    ∃ new : Heap, y.jacobian h r = .ok (g.jacobian (w.st t), h ++ new) ∧ FreshFrom h.length h new
  covariance : ∀ (h : Heap) (r : Ref) (t : STree), contents k h r = some t → w.Dom t →
    ∃ new : Heap, y.covariance h r = .ok (g.covariance (w.st t), h ++ new) ∧ FreshFrom h.length h new

/-- The filter object `f` is configured like the value-level filter `e`. -/
structure Refines (w : View V n) (f : HEkf U n) (e : EkfEnv V U n) : Prop where
  proc : Implements w f.depth f.proc e.proc
  reject : f.rejectOutliers = e.rejectOutliers
  chi2 : f.chi2ppf99 = e.chi2ppf99
  plus : ∀ (t : STree) (dx : Vec n), w.Dom t →
    ∃ t' : STree, plusTree f.P t (List.ofFn dx) = .ok t' ∧ w.Dom t' ∧ w.val t' = e.plus (w.val t) dx

/-- What the caller can rely on: the same exception, or an estimate that is the value-level one, separate from
everything the caller had, every object of the caller being unchanged. -/
def Tracks (w : View V n) (k : ℕ) (h : Heap) (res : Except Err (Ref × Heap)) (x : Except Err (SWC V n)) : Prop :=
  (∀ err, x = .error err → res = .error err) ∧
  ∀ x', x = .ok x' → ∃ (r' : Ref) (h' : Heap), res = .ok (r', h') ∧ WF h' ∧ Separate h h' r' ∧ Sees w k h' r' x'

/-! ### The working heap -/

/-- `H` is `h0` with new objects that refer to new objects only. -/
def Work (h0 H : Heap) : Prop := ∃ N, H = h0 ++ N ∧ FreshFrom h0.length h0 N

theorem Work.refl (h : Heap) : Work h h := ⟨[], by simp, FreshFrom.nil _ _⟩

theorem Work.len {h0 H : Heap} (hw : Work h0 H) : h0.length ≤ H.length := by
  obtain ⟨N, rfl, _⟩ := hw; simp

theorem Work.app {h0 H new : Heap} {m : ℕ} (hw : Work h0 H) (hm : h0.length ≤ m) (hf : FreshFrom m H new) :
    Work h0 (H ++ new) := by
  obtain ⟨N, rfl, hN⟩ := hw
  exact ⟨N ++ new, by simp, hN.append (hf.weaken hm)⟩

theorem Work.app' {h0 H new : Heap} (hw : Work h0 H) (hf : FreshFrom H.length H new) : Work h0 (H ++ new) :=
  hw.app hw.len hf

theorem Work.arr {h0 H : Heap} (hw : Work h0 H) (a : Arr) : Work h0 (H ++ [.arr a]) := by
  refine hw.app' ?_
  intro o ho q hq
  rw [List.mem_singleton.mp ho] at hq
  cases hq

theorem Work.set {h0 H : Heap} (hw : Work h0 H) {r : Ref} (hr : h0.length ≤ r) (o : Obj)
    (ho : ∀ q ∈ o.refs, h0.length ≤ q ∧ q < H.length) : Work h0 (H.set r o) := by
  obtain ⟨N, rfl, hN⟩ := hw
  exact ⟨N.set (r - h0.length) o, set_new hr o, hN.set _ _ ho⟩

theorem Work.old {h0 H : Heap} (hw : Work h0 H) {q : Ref} (hq : q < h0.length) : H[q]? = h0[q]? := by
  obtain ⟨N, rfl, hN⟩ := hw
  exact List.getElem?_append_left hq

theorem Work.get {h0 H : Heap} (hw : Work h0 H) {q : Ref} {o : Obj} (hq : h0[q]? = some o) : H[q]? = some o := by
  rw [hw.old (get_lt hq), hq]

theorem Work.arrAt {h0 H : Heap} (hw : Work h0 H) {q : Ref} {a : Arr} (hq : arrAt h0 q = some a) :
    Heap.arrAt H q = some a := by
  unfold Heap.arrAt; rw [hw.get (arrAt_some hq)]

theorem Work.contents {h0 H : Heap} (hw : Work h0 H) {k : ℕ} {q : Ref} {t : STree} (hq : contents k h0 q = some t) :
    Heap.contents k H q = some t := by
  obtain ⟨N, rfl, hN⟩ := hw
  exact contents_grow hq

theorem Work.trans {h0 h1 h2 : Heap} (a : Work h0 h1) (b : Work h1 h2) : Work h0 h2 := by
  obtain ⟨N, rfl, hN⟩ := b
  exact a.app' hN

/-- Objects in the new part refer to the new part. -/
theorem Work.refs {h0 H : Heap} (hw : Work h0 H) {q : Ref} {o : Obj} (ho : H[q]? = some o) (hq : h0.length ≤ q) :
    ∀ p ∈ o.refs, h0.length ≤ p ∧ p < H.length := by
  obtain ⟨N, rfl, hN⟩ := hw
  exact closed_fresh hN _ _ ho ⟨hq, get_lt ho⟩

theorem Work.sees {w : View V n} {k : ℕ} {h0 H : Heap} (hw : Work h0 H) {r : Ref} {x : SWC V n}
    (hs : Sees w k h0 r x) : Sees w k H r x := by
  obtain ⟨N, rfl, hN⟩ := hw
  obtain ⟨t, h1, h2⟩ := hs
  exact ⟨t, contentsSwc_grow _ _ _ _ h1, h2⟩

/-- The internal form of `Tracks`. -/
def TracksW (w : View V n) (k : ℕ) (h : Heap) (res : Except Err (Ref × Heap)) (x : Except Err (SWC V n)) : Prop :=
  (∀ err, x = .error err → res = .error err) ∧
  ∀ x', x = .ok x' → ∃ (r' : Ref) (h' : Heap), res = .ok (r', h') ∧ Work h h' ∧ h.length ≤ r' ∧ Sees w k h' r' x'

theorem swc_lt {k : ℕ} {h : Heap} {r : Ref} {v : STree × Σ n, Mat n n} (hc : contentsSwc k h r = some v) :
    r < h.length := by
  obtain ⟨s, c, h1, _⟩ := contentsSwc_inv hc
  exact get_lt h1

theorem TracksW.tracks {w : View V n} {k : ℕ} {h : Heap} {res : Except Err (Ref × Heap)}
    {x : Except Err (SWC V n)} (hwf : WF h) (ht : TracksW w k h res x) : Tracks w k h res x := by
  refine ⟨ht.1, fun x' hx => ?_⟩
  obtain ⟨r', h', h1, ⟨N, rfl, hN⟩, h3, t, h4, h5⟩ := ht.2 x' hx
  exact ⟨r', _, h1, hwf.grow hN, separate_of hwf hN h3 (swc_lt h4), t, h4, h5⟩

/-! ### Writing into an estimate -/

/-- The sequence `x.state = s; x.covariance = M1; x.covariance = M2` on an estimate object of the new part. -/
theorem write_swc {h0 H : Heap} (hw : Work h0 H) {xn a b s : Ref} (hxn : H[xn]? = some (.swc a b))
    (hx0 : h0.length ≤ xn) (hs0 : h0.length ≤ s) {k : ℕ} {t : STree} (hs : contents k H s = some t)
    (M1 M2 : Mat n n) (hd : t.dof = n) :
    ∃ H4 H6 H8 : Heap,
      setSwcState H xn s = .ok H4 ∧ Work h0 H4 ∧
      setSwcCov (H4 ++ [.arr (.mat n n M1)]) xn H4.length = .ok H6 ∧
      setSwcCov (H6 ++ [.arr (.mat n n M2)]) xn H6.length = .ok H8 ∧
      Work h0 H8 ∧ H8[xn]? = some (.swc s H6.length) ∧ contents k H8 s = some t ∧
      arrAt H8 H6.length = some (.mat n n M2) := by
  have hb := hw.refs hxn hx0 b (by simp [Obj.refs])
  have e4 : setSwcState H xn s = .ok (H.set xn (.swc s b)) := by unfold setSwcState; rw [hxn]
  have w4 : Work h0 (H.set xn (.swc s b)) := by
    refine hw.set hx0 _ ?_
    intro q hq
    simp only [Obj.refs, List.mem_cons, List.not_mem_nil, or_false] at hq
    rcases hq with rfl | rfl
    · exact ⟨hs0, contents_lt hs⟩
    · exact hb
  have g4 : (H.set xn (.swc s b))[xn]? = some (.swc s b) := set_get_eq (get_lt hxn) _
  have c4 : contents k (H.set xn (.swc s b)) s = some t := contents_set_swc hxn _ hs
  generalize H.set xn (.swc s b) = H4 at *
  have w5 : Work h0 (H4 ++ [.arr (.mat n n M1)]) := w4.arr _
  have g5 : (H4 ++ [Obj.arr (.mat n n M1)])[xn]? = some (.swc s b) := get_grow g4
  have e6 : setSwcCov (H4 ++ [.arr (.mat n n M1)]) xn H4.length
      = .ok ((H4 ++ [Obj.arr (.mat n n M1)]).set xn (.swc s H4.length)) := by unfold setSwcCov; rw [g5]
  have c5 : contents k (H4 ++ [Obj.arr (.mat n n M1)]) s = some t := contents_grow c4
  have w6 : Work h0 ((H4 ++ [Obj.arr (.mat n n M1)]).set xn (.swc s H4.length)) := by
    refine w5.set hx0 _ ?_
    intro q hq
    simp only [Obj.refs, List.mem_cons, List.not_mem_nil, or_false] at hq
    rcases hq with rfl | rfl
    · exact ⟨hs0, contents_lt c5⟩
    · exact ⟨w4.len, by simp⟩
  have g6 : ((H4 ++ [Obj.arr (.mat n n M1)]).set xn (.swc s H4.length))[xn]? = some (.swc s H4.length) :=
    set_get_eq (get_lt g5) _
  have c6 : contents k ((H4 ++ [Obj.arr (.mat n n M1)]).set xn (.swc s H4.length)) s = some t :=
    contents_set_swc g5 _ c5
  generalize (H4 ++ [Obj.arr (.mat n n M1)]).set xn (.swc s H4.length) = H6 at *
  have w7 : Work h0 (H6 ++ [.arr (.mat n n M2)]) := w6.arr _
  have g7 : (H6 ++ [Obj.arr (.mat n n M2)])[xn]? = some (.swc s H4.length) := get_grow g6
  have e8 : setSwcCov (H6 ++ [.arr (.mat n n M2)]) xn H6.length
      = .ok ((H6 ++ [Obj.arr (.mat n n M2)]).set xn (.swc s H6.length)) := by unfold setSwcCov; rw [g7]
  have c7 : contents k (H6 ++ [Obj.arr (.mat n n M2)]) s = some t := contents_grow c6
  have a7 : arrAt (H6 ++ [Obj.arr (.mat n n M2)]) H6.length = some (.mat n n M2) := by
    unfold arrAt; rw [get_last]
  refine ⟨H4, H6, _, e4, w4, e6, e8, ?_, set_get_eq (get_lt g7) _, contents_set_swc g7 _ c7, ?_⟩
  · refine w7.set hx0 _ ?_
    intro q hq
    simp only [Obj.refs, List.mem_cons, List.not_mem_nil, or_false] at hq
    rcases hq with rfl | rfl
    · exact ⟨hs0, contents_lt c7⟩
    · exact ⟨w6.len, by simp⟩
  · exact arrAt_set_ne (by unfold arrAt; rw [g7]) _ a7

/-! ### `predict` -/

theorem propagate_spec {w : View V n} {f : HEkf U n} {e : EkfEnv V U n} (hr : Refines w f e) {h0 H : Heap}
    (hw : Work h0 H) {x xn a b : Ref} {X : SWC V n} (hx : Sees w f.depth h0 x X) (hxn : H[xn]? = some (.swc a b))
    (hx0 : h0.length ≤ xn) (u : Inp U) (tkm1 dt : ℝ) {xj : Ref} {tj : STree} (hj : contents f.depth h0 xj = some tj)
    (hjd : w.Dom tj) :
    ∃ h' : Heap, f.propagate H x xn u tkm1 dt xj = .ok (xn, h') ∧ Work h0 h' ∧
      Sees w f.depth h' xn (e.propagate X u tkm1 dt (w.st tj)) := by
  obtain ⟨t, hc, hd, hst⟩ := hx
  obtain ⟨s, c, hx1, hx2, hx3, hx4⟩ := contentsSwc_inv hc
  -- covariance
  obtain ⟨n1, q1, f1⟩ := hr.proc.covariance H xj tj u dt (hw.contents hj) hjd
  have w1 := hw.app' f1
  have g1 : (H ++ n1)[xn]? = some (.swc a b) := get_grow hxn
  generalize H ++ n1 = H1 at *
  -- evaluate
  obtain ⟨s', n2, t', q2, f2, l2, c2, d2, v2⟩ := hr.proc.evaluate H1 s t u dt (w1.contents hx2) hd
  have w2 := w1.app' f2
  have g2 : (H1 ++ n2)[xn]? = some (.swc a b) := get_grow g1
  have hs' : h0.length ≤ s' := le_trans w1.len l2
  generalize H1 ++ n2 = H2 at *
  -- jacobian
  obtain ⟨n3, q3, f3⟩ := hr.proc.jacobian H2 s t u dt (w2.contents hx2) hd
  have w3 := w2.app' f3
  have g3 : (H2 ++ n3)[xn]? = some (.swc a b) := get_grow g2
  have c3 : contents f.depth (H2 ++ n3) s' = some t' := contents_grow c2
  generalize H2 ++ n3 = H3 at *
  obtain ⟨H4, H6, H8, e4, w4, e6, e8, w8, g8, c8, a8⟩ := write_swc w3 g3 hx0 hs' c3
    (e.proc.jacobian (w.st t) u dt * X.cov * (e.proc.jacobian (w.st t) u dt)ᵀ + e.proc.covariance (w.st tj) u dt)
    (symmetrize (e.proc.jacobian (w.st t) u dt * X.cov * (e.proc.jacobian (w.st t) u dt)ᵀ
      + e.proc.covariance (w.st tj) u dt)) (w.dof t' d2)
  obtain ⟨o, o', ho, e9, ho', c9, na⟩ := setStamp_spec c8 (some (tkm1 + dt))
  have hsx : s' ≠ xn := by
    rintro rfl
    exact (contents_notarr c8).2.2 _ _ g8
  have w9 : Work h0 (H8.set s' o') := w8.set hs' _ (by rw [ho']; exact w8.refs ho hs')
  have a9 := arrAt_set_ne na o' a8
  have g9 : (H8.set s' o')[xn]? = some (.swc s' H6.length) := by rw [set_get_ne hsx, g8]
  refine ⟨H8.set s' o', ?_, w9, t'.setStamp (some (tkm1 + dt)), ?_, w.stamp_dom _ _ d2, ?_⟩
  · unfold HEkf.propagate
    rw [q1]
    show (readSwc H1 x >>= _) = _
    rw [readSwc_of (w1.get hx1)]
    show (f.proc.evaluate H1 s u dt >>= _) = _
    rw [q2]
    show (f.proc.jacobian H2 s u dt >>= _) = _
    rw [q3]
    show (setSwcState H3 xn s' >>= _) = _
    rw [e4]
    show (readSwc H4 x >>= _) = _
    rw [readSwc_of (w4.get hx1)]
    show (readMat n H4 c >>= _) = _
    rw [readMat_of (w4.arrAt hx3)]
    show (setSwcCov (H4 ++ [_]) xn H4.length >>= _) = _
    rw [e6]
    show (setSwcCov (H6 ++ [_]) xn H6.length >>= _) = _
    rw [e8]
    show (readSwc H8 xn >>= _) = _
    rw [readSwc_of g8]
    show (setStamp H8 s' _ >>= _) = _
    rw [e9]
    rfl
  · refine contentsSwc_intro g9 c9 ?_ ((dof_setStamp _ t').trans (w.dof t' d2)).symm
    rw [a9]
    show _ = some (Arr.mat n n (symmetrize _))
    rw [hst]
  · show (⟨_, _⟩ : St V) = ⟨_, _⟩
    rw [stamp_setStamp, w.stamp_val _ _ d2, v2, hst]

theorem predict_spec {w : View V n} {f : HEkf U n} {e : EkfEnv V U n} (hr : Refines w f e) {h : Heap}
    {x : Ref} {X : SWC V n} (hx : Sees w f.depth h x X) (u : Option (Inp U)) (dt : Option ℝ) {xj : Option Ref}
    {XJ : Option (St V)} (hj : SeesJac w f.depth h xj XJ) :
    TracksW w f.depth h (f.predict h x u dt xj) (e.predict X u dt XJ) := by
  have hx' := hx
  obtain ⟨t, hc, hd, hst⟩ := hx
  obtain ⟨s, c, hx1, hx2, hx3, hx4⟩ := contentsSwc_inv hc
  obtain ⟨xn, n1, q1, l1, l1', f1, c1⟩ := copySwc_spec f.Exp h x _ hc
  have w1 : Work h (h ++ n1) := ⟨n1, rfl, f1⟩
  obtain ⟨a, b, g1, g2, g3, g4⟩ := contentsSwc_inv c1
  have hs1 : (h ++ n1)[xn]? = some (.swc a b) := g1
  have e1 : f.predict h x u dt xj = (predictTime X.state.stamp u dt >>= fun p =>
      match u with
      | none => .ok (xn, h ++ n1)
      | some u => f.propagate (h ++ n1) x xn u p.1 p.2 (xj.getD s)) := by
    unfold HEkf.predict
    rw [q1]
    show (readSwc (h ++ n1) x >>= _) = _
    rw [readSwc_of (w1.get hx1)]
    show (stampOf (h ++ n1) s >>= _) = _
    rw [stampOf_contents (w1.contents hx2), hst]
    show (predictTime t.stamp u dt >>= _) = _
    rfl
  have e2 : e.predict X u dt XJ = (predictTime X.state.stamp u dt >>= fun p =>
      match u with
      | none => .ok X
      | some u => .ok (e.propagate X u p.1 p.2 (XJ.getD X.state))) := rfl
  rw [e1, e2]
  cases hp : predictTime X.state.stamp u dt with
  | error err =>
    refine ⟨fun err' he => ?_, fun x' he => (by cases he)⟩
    cases he; rfl
  | ok p =>
    cases u with
    | none =>
      refine ⟨fun err' he => (by cases he), fun x' he => ?_⟩
      cases he
      refine ⟨xn, h ++ n1, rfl, w1, l1, copied t, c1, w.copied_dom t hd, ?_⟩
      rw [hst]
      show (⟨_, _⟩ : St V) = ⟨_, _⟩
      rw [w.copied_val t hd]
      congr 1
      cases t <;> rfl
    | some u =>
      refine ⟨fun err' he => (by cases he), fun x' he => ?_⟩
      have hx'' : x' = e.propagate X u p.1 p.2 (XJ.getD X.state) := by
        cases he; rfl
      subst hx''
      obtain ⟨tj, j1, j2, j3⟩ : ∃ tj, contents f.depth h (xj.getD s) = some tj ∧ w.Dom tj ∧
          XJ.getD X.state = w.st tj := by
        rcases hj with ⟨rfl, rfl⟩ | ⟨j, tj, rfl, h1, h2, rfl⟩
        · exact ⟨t, hx2, hd, hst⟩
        · exact ⟨tj, h1, h2, rfl⟩
      obtain ⟨h', p1, p2, p3⟩ := propagate_spec hr w1 hx' hs1 l1 u p.1 p.2 j1 j2
      rw [← j3] at p3
      exact ⟨xn, h', p1, p2, l1, p3⟩

/-- C86: `predict` computes the value-level prediction, raises the same exceptions, changes no object of the caller
and returns an estimate separate from all of them. -/
theorem C86_predict {w : View V n} {f : HEkf U n} {e : EkfEnv V U n} (hr : Refines w f e) {h : Heap} (hwf : WF h)
    {x : Ref} {X : SWC V n} (hx : Sees w f.depth h x X) (u : Option (Inp U)) (dt : Option ℝ) {xj : Option Ref}
    {XJ : Option (St V)} (hj : SeesJac w f.depth h xj XJ) :
    Tracks w f.depth h (f.predict h x u dt xj) (e.predict X u dt XJ) :=
  (predict_spec hr hx u dt hj).tracks hwf

/-! ### `correct` -/

/-- A copied estimate is seen as the same value. -/
theorem copy_sees {w : View V n} {k : ℕ} (Exp : LieCls → Arr → Arr) {h : Heap} {x : Ref} {X : SWC V n}
    (hx : Sees w k h x X) :
    ∃ (x1 : Ref) (H : Heap), copySwc Exp k h x = .ok (x1, H) ∧ Work h H ∧ h.length ≤ x1 ∧ Sees w k H x1 X := by
  obtain ⟨t, hc, hd, hst⟩ := hx
  obtain ⟨xn, n1, q1, l1, l1', f1, c1⟩ := copySwc_spec Exp h x _ hc
  refine ⟨xn, h ++ n1, q1, ⟨n1, rfl, f1⟩, l1, copied t, c1, w.copied_dom t hd, ?_⟩
  rw [hst]
  show (⟨_, _⟩ : St V) = ⟨_, _⟩
  rw [w.copied_val t hd]
  congr 1
  cases t <;> rfl

/-- Filling in a missing stamp. -/
theorem fill_sees {w : View V n} {k : ℕ} {h H : Heap} (hw : Work h H) {x s c : Ref} {X : SWC V n}
    (hx0 : h.length ≤ x) (hx : Sees w k H x X) (hg : H[x]? = some (.swc s c)) (ty : Option ℝ) :
    ∃ H2 : Heap, setStamp H s ty = .ok H2 ∧ Work h H2 ∧ H2[x]? = some (.swc s c) ∧
      Sees w k H2 x { X with state := { X.state with stamp := ty } } := by
  obtain ⟨t, hc, hd, hst⟩ := hx
  obtain ⟨s', c', g1, g2, g3, g4⟩ := contentsSwc_inv hc
  rw [hg] at g1
  cases g1
  obtain ⟨o, o', ho, e9, ho', c9, na⟩ := setStamp_spec g2 ty
  have hs0 := (hw.refs hg hx0 s (by simp [Obj.refs])).1
  have hsx : s ≠ x := by
    rintro rfl
    exact (contents_notarr g2).2.2 _ _ hg
  have gx : (H.set s o')[x]? = some (.swc s c) := by rw [set_get_ne hsx, hg]
  refine ⟨H.set s o', e9, hw.set hs0 _ (by rw [ho']; exact hw.refs ho hs0), gx, t.setStamp ty, ?_, w.stamp_dom _ _ hd,
    ?_⟩
  · exact contentsSwc_intro gx c9 (arrAt_set_ne na o' g3) (g4.trans (dof_setStamp _ t).symm)
  · show (⟨_, _⟩ : St V) = ⟨_, _⟩
    rw [stamp_setStamp, w.stamp_val _ _ hd, hst]
    rfl

theorem advance_spec {w : View V n} {f : HEkf U n} {e : EkfEnv V U n} (hr : Refines w f e) {h : Heap}
    {x : Ref} {X : SWC V n} (hx : Sees w f.depth h x X) (y : HMeas n) (g : MeasModel V n y.m) (u : Option (Inp U)) :
    TracksW w f.depth h (f.advance h x y u) (e.advance X (y.pure g) u) := by
  obtain ⟨x1, H1, q1, w1, l1, s1⟩ := copy_sees f.Exp hx
  obtain ⟨sr, cr, gx⟩ : ∃ sr cr, H1[x1]? = some (.swc sr cr) := by
    obtain ⟨t, hc, _⟩ := s1
    obtain ⟨s, c, g1, _⟩ := contentsSwc_inv hc
    exact ⟨s, c, g1⟩
  have hst1 : stampOf H1 sr = .ok X.state.stamp := by
    obtain ⟨t, hc, _, hst⟩ := s1
    obtain ⟨s, c, g1, g2, _⟩ := contentsSwc_inv hc
    rw [gx] at g1; cases g1
    rw [stampOf_contents g2, hst]; rfl
  -- the estimate after 210-211
  obtain ⟨H2, X2, p2, w2, g2, s2, hX2⟩ : ∃ (H2 : Heap) (X2 : SWC V n),
      (match X.state.stamp with
        | none => setStamp H1 sr y.stamp
        | some _ => Except.ok H1) = .ok H2 ∧ Work h H2 ∧ H2[x1]? = some (.swc sr cr) ∧ Sees w f.depth H2 x1 X2 ∧
      X2 = (match X.state.stamp with
        | none => { X with state := { X.state with stamp := y.stamp } }
        | some _ => X) := by
    cases hs : X.state.stamp with
    | none =>
      obtain ⟨H2, a1, a2, a3, a4⟩ := fill_sees w1 l1 s1 gx y.stamp
      exact ⟨H2, _, a1, a2, a3, a4, rfl⟩
    | some t0 => exact ⟨H1, X, rfl, w1, gx, s1, rfl⟩
  have hst2 : stampOf H2 sr = .ok X2.state.stamp := by
    obtain ⟨t, hc, _, hst⟩ := s2
    obtain ⟨s, c, g1, g3, _⟩ := contentsSwc_inv hc
    rw [g2] at g1; cases g1
    rw [stampOf_contents g3, hst]; rfl
  have e1 : f.advance h x y u = (match y.stamp with
      | none => .ok (x1, H2)
      | some ty => match X2.state.stamp with
        | none => .error .typeError
        | some tx =>
          if ty - tx < -(10 ^ 10 : ℝ) then .error .runtimeError
          else
            match u with
            | none => .ok (x1, H2)
            | some u =>
              if ty - tx > (1 / 10 ^ 11 : ℝ) then f.predict H2 x1 (some u) (some (ty - tx)) none
              else .ok (x1, H2)) := by
    unfold HEkf.advance
    rw [q1]
    show (readSwc H1 x1 >>= _) = _
    rw [readSwc_of gx]
    show (stampOf H1 sr >>= _) = _
    rw [hst1]
    show ((match X.state.stamp with
        | none => setStamp H1 sr y.stamp
        | some _ => Except.ok H1) >>= _) = _
    rw [p2]
    cases hy : y.stamp with
    | none => rfl
    | some ty =>
      show (readSwc H2 x1 >>= _) = _
      rw [readSwc_of g2]
      show (stampOf H2 sr >>= _) = _
      rw [hst2]
      rfl
  have e2 : e.advance X (y.pure g) u = (match (generalizing := false) y.stamp with
      | none => .ok X2
      | some ty => match (generalizing := false) X2.state.stamp with
        | none => .error .typeError
        | some tx =>
          if ty - tx < -(10 ^ 10 : ℝ) then .error .runtimeError
          else
            match (generalizing := false) u with
            | none => .ok X2
            | some u =>
              if ty - tx > (1 / 10 ^ 11 : ℝ) then e.predict X2 (some u) (some (ty - tx)) none
              else .ok X2) := by
    rw [hX2]; rfl
  have base : TracksW w f.depth h (.ok (x1, H2)) (.ok X2) := by
    refine ⟨fun err' he => (by cases he), fun x' he => ?_⟩
    cases he
    exact ⟨x1, H2, rfl, w2, l1, s2⟩
  rw [e1, e2]
  cases y.stamp with
  | none => exact base
  | some ty =>
    cases X2.state.stamp with
    | none => exact ⟨fun err' he => (by cases he; rfl), fun x' he => (by cases he)⟩
    | some tx =>
      by_cases h1 : ty - tx < -(10 ^ 10 : ℝ)
      · simp only [if_pos h1]
        exact ⟨fun err' he => (by cases he; rfl), fun x' he => (by cases he)⟩
      · simp only [if_neg h1]
        cases u with
        | none => exact base
        | some u =>
          by_cases h2 : ty - tx > (1 / 10 ^ 11 : ℝ)
          · simp only [if_pos h2]
            have := predict_spec hr s2 (some u) (some (ty - tx)) (xj := none) (XJ := none) (Or.inl ⟨rfl, rfl⟩)
            refine ⟨this.1, fun x' he => ?_⟩
            obtain ⟨r', h', a1, a2, a3, a4⟩ := this.2 x' he
            exact ⟨r', h', a1, w2.trans a2, le_trans w2.len a3, a4⟩
          · simp only [if_neg h2]
            exact base

theorem update_spec {w : View V n} {f : HEkf U n} {e : EkfEnv V U n} (hr : Refines w f e) {h H : Heap}
    (hw : Work h H) {x s c : Ref} {X : SWC V n} {t : STree} (hx0 : h.length ≤ x) (hg : H[x]? = some (.swc s c))
    (hs : contents f.depth H s = some t) (hd : w.Dom t) (hst : X.state = w.st t) {m : ℕ} (G : Mat m n) (S : Mat m m)
    (z : Vec m) :
    TracksW w f.depth h (f.update H x s G S z X.cov) (solve Sᵀ (X.cov * Gᵀ)ᵀ >>= fun Kt =>
      .ok { state := e.plusSt X.state (Ktᵀ *ᵥ z), cov := symmetrize ((1 - Ktᵀ * G) * X.cov) }) := by
  unfold HEkf.update
  cases hK : solve Sᵀ (X.cov * Gᵀ)ᵀ with
  | error err => exact ⟨fun err' he => (by cases he; rfl), fun x' he => (by cases he)⟩
  | ok Kt =>
    refine ⟨fun err' he => (by cases he), fun x' he => ?_⟩
    cases he
    obtain ⟨t', p1, p2, p3⟩ := hr.plus t (Ktᵀ *ᵥ z) hd
    obtain ⟨s', n1, a1, a2, a3, a4, a5⟩ := plus_spec f.Exp f.P f.depth H s t _ t' hs p1
    have w1 : Work h (H ++ n1) := hw.app' a4
    have g1 : (H ++ n1)[x]? = some (.swc s c) := get_grow hg
    have hs' : h.length ≤ s' := le_trans hw.len a2
    generalize H ++ n1 = H1 at *
    obtain ⟨H4, H6, H8, e4, w4, e6, e8, w8, g8, c8, a8⟩ := write_swc w1 g1 hx0 hs' a5
      ((1 - Ktᵀ * G) * X.cov) (symmetrize ((1 - Ktᵀ * G) * X.cov)) (w.dof t' p2)
    refine ⟨x, H8, ?_, w8, hx0, t', ?_, p2, ?_⟩
    · show (plusState f.Exp f.P f.depth H s _ >>= _) = _
      rw [a1]
      show (setSwcState H1 x s' >>= _) = _
      rw [e4]
      show (setSwcCov (H4 ++ [_]) x H4.length >>= _) = _
      rw [e6]
      show (setSwcCov (H6 ++ [_]) x H6.length >>= _) = _
      rw [e8]
      rfl
    · exact contentsSwc_intro g8 c8 a8 (w.dof t' p2).symm
    · show (⟨_, _⟩ : St V) = ⟨_, _⟩
      rw [hst, p3, plusTree_stamp p1]
      rfl

theorem fuse_spec {w : View V n} {f : HEkf U n} {e : EkfEnv V U n} (hr : Refines w f e) {h H : Heap}
    (hw : Work h H) {x : Ref} {X : SWC V n} (hx0 : h.length ≤ x) (hx : Sees w f.depth H x X) (y : HMeas n)
    {g : MeasModel V n y.m} (hy : MeasImplements w f.depth y g) {xj : Option Ref} {XJ : Option (St V)}
    (hj : SeesJac w f.depth H xj XJ) (reject : Bool) :
    TracksW w f.depth h (f.fuse H x y xj reject) ((e.fuse X (y.pure g) XJ reject).map Prod.fst) := by
  have hx' := hx
  obtain ⟨t, hc, hd, hst⟩ := hx
  obtain ⟨s, c, g0, c0, a0, d0⟩ := contentsSwc_inv hc
  obtain ⟨tj, j1, j2, j3⟩ : ∃ tj, contents f.depth H (xj.getD s) = some tj ∧ w.Dom tj ∧
      XJ.getD X.state = w.st tj := by
    rcases hj with ⟨rfl, rfl⟩ | ⟨j, tj, rfl, h1, h2, rfl⟩
    · exact ⟨t, c0, hd, hst⟩
    · exact ⟨tj, h1, h2, rfl⟩
  obtain ⟨n1, q1, f1⟩ := hy.evaluate H s t c0 hd
  have w1 := hw.app' f1
  have g1 : (H ++ n1)[x]? = some (.swc s c) := get_grow g0
  have c1 : contents f.depth (H ++ n1) s = some t := contents_grow c0
  have b1 : Sees w f.depth (H ++ n1) x X := (show Work H (H ++ n1) from ⟨n1, rfl, f1⟩).sees hx'
  have j1' : contents f.depth (H ++ n1) (xj.getD s) = some tj := contents_grow j1
  have a1 : arrAt (H ++ n1) c = some (.mat n n X.cov) := arrAt_grow a0
  generalize H ++ n1 = H1 at *
  obtain ⟨n2, q2, f2⟩ := hy.jacobian H1 s t c1 hd
  have w2 := w1.app' f2
  have g2 : (H1 ++ n2)[x]? = some (.swc s c) := get_grow g1
  have c2 : contents f.depth (H1 ++ n2) s = some t := contents_grow c1
  have b2 : Sees w f.depth (H1 ++ n2) x X := (show Work H1 (H1 ++ n2) from ⟨n2, rfl, f2⟩).sees b1
  have j2' : contents f.depth (H1 ++ n2) (xj.getD s) = some tj := contents_grow j1'
  have a2 : arrAt (H1 ++ n2) c = some (.mat n n X.cov) := arrAt_grow a1
  generalize H1 ++ n2 = H2 at *
  unfold HEkf.fuse EkfEnv.fuse
  rw [readSwc_of g0]
  show TracksW w f.depth h (y.evaluate H s >>= _) _
  rw [q1]
  rw [← hst]
  cases hev : g.evaluate X.state with
  | none =>
    simp only [show (y.pure g).model.evaluate X.state = none from hev]
    refine ⟨fun err' he => (by cases he), fun x' he => ?_⟩
    cases he
    refine ⟨x, H2, ?_, w2, hx0, b2⟩
    show (y.jacobian H1 s >>= _) = _
    rw [q2]
    rfl
  | some yc =>
    simp only [show (y.pure g).model.evaluate X.state = some yc from hev]
    obtain ⟨n3, q3, f3⟩ := hy.covariance H2 (xj.getD s) tj j2' j2
    have w3 := w2.app' f3
    have g3 : (H2 ++ n3)[x]? = some (.swc s c) := get_grow g2
    have c3 : contents f.depth (H2 ++ n3) s = some t := contents_grow c2
    have b3 : Sees w f.depth (H2 ++ n3) x X := (show Work H2 (H2 ++ n3) from ⟨n3, rfl, f3⟩).sees b2
    generalize H2 ++ n3 = H3 at *
    show TracksW w f.depth h (y.jacobian H1 s >>= _) _
    rw [q2]
    show TracksW w f.depth h (readSwc H2 x >>= _) _
    rw [readSwc_of g2]
    show TracksW w f.depth h (readMat n H2 c >>= _) _
    rw [readMat_of a2]
    show TracksW w f.depth h (y.covariance H2 (xj.getD s) >>= _) _
    rw [q3, ← hst, ← j3, hr.chi2]
    generalize hz : (fun i => y.value i - yc i : Vec y.m) = z
    generalize hS : g.jacobian X.state * X.cov * (g.jacobian X.state)ᵀ + g.covariance (XJ.getD X.state) = S
    have key : TracksW w f.depth h ((if reject then checkOutlier e.chi2ppf99 z S else Except.ok false) >>= fun o =>
          if o then .ok (x, H3) else (readSwc H3 x >>= fun p => f.update H3 x p.1 (g.jacobian X.state) S z X.cov))
        (Except.map Prod.fst ((if reject then checkOutlier e.chi2ppf99 z S else Except.ok false) >>= fun o =>
          if o then Except.ok (X, some (⟨y.m, z, S, true⟩ : CorrectDetails))
          else solve Sᵀ (X.cov * (g.jacobian X.state)ᵀ)ᵀ >>= fun Kt =>
            Except.ok ({ state := e.plusSt X.state (Ktᵀ *ᵥ z), cov := symmetrize ((1 - Ktᵀ * g.jacobian X.state) * X.cov) },
              some (⟨y.m, z, S, false⟩ : CorrectDetails)))) := by
      cases ho : (if reject then checkOutlier e.chi2ppf99 z S else Except.ok false) with
      | error err => exact ⟨fun err' he => (by cases he; rfl), fun x' he => (by cases he)⟩
      | ok o =>
        cases o with
        | true =>
          refine ⟨fun err' he => (by cases he), fun x' he => ?_⟩
          cases he
          exact ⟨x, H3, rfl, w3, hx0, b3⟩
        | false =>
          have := update_spec hr w3 hx0 g3 c3 hd hst (g.jacobian X.state) S z
          show TracksW w f.depth h (readSwc H3 x >>= fun p => f.update H3 x p.1 (g.jacobian X.state) S z X.cov) _
          rw [readSwc_of g3]
          show TracksW w f.depth h (f.update H3 x s (g.jacobian X.state) S z X.cov) _
          cases hK : solve Sᵀ (X.cov * (g.jacobian X.state)ᵀ)ᵀ with
          | error err => rw [hK] at this; exact this
          | ok Kt => rw [hK] at this; exact this
    subst hz hS
    cases reject <;> exact key

theorem correct_spec {w : View V n} {f : HEkf U n} {e : EkfEnv V U n} (hr : Refines w f e) {h : Heap}
    {x : Ref} {X : SWC V n} (hx : Sees w f.depth h x X) (y : HMeas n) {g : MeasModel V n y.m}
    (hy : MeasImplements w f.depth y g) (u : Option (Inp U)) {xj : Option Ref}
    {XJ : Option (St V)} (hj : SeesJac w f.depth h xj XJ) (reject : Option Bool) :
    TracksW w f.depth h (f.correct h x y u xj reject) (e.correct X (y.pure g) u XJ reject) := by
  have ha := advance_spec hr hx y g u
  unfold HEkf.correct EkfEnv.correct EkfEnv.correctD
  cases hadv : e.advance X (y.pure g) u with
  | error err =>
    rw [ha.1 err hadv]
    exact ⟨fun err' he => (by cases he; rfl), fun x' he => (by cases he)⟩
  | ok X1 =>
    obtain ⟨x1, h1, p1, p2, p3, p4⟩ := ha.2 X1 hadv
    rw [p1]
    have hj' : SeesJac w f.depth h1 xj XJ := by
      rcases hj with h' | ⟨j, tj, a1, a2, a3⟩
      · exact Or.inl h'
      · exact Or.inr ⟨j, tj, a1, p2.contents a2, a3⟩
    have := fuse_spec hr p2 p3 p4 y hy hj' (reject.getD e.rejectOutliers)
    show TracksW w f.depth h (f.fuse h1 x1 y xj (reject.getD f.rejectOutliers)) _
    rw [hr.reject]
    exact this

/-- C86: `correct` computes the value-level correction, raises the same exceptions, changes no object of the caller
and returns an estimate separate from all of them. -/
theorem C86_correct {w : View V n} {f : HEkf U n} {e : EkfEnv V U n} (hr : Refines w f e) {h : Heap} (hwf : WF h)
    {x : Ref} {X : SWC V n} (hx : Sees w f.depth h x X) (y : HMeas n) {g : MeasModel V n y.m}
    (hy : MeasImplements w f.depth y g) (u : Option (Inp U)) {xj : Option Ref}
    {XJ : Option (St V)} (hj : SeesJac w f.depth h xj XJ) (reject : Option Bool) :
    Tracks w f.depth h (f.correct h x y u xj reject) (e.correct X (y.pure g) u XJ reject) :=
  (correct_spec hr hx y hy u hj reject).tracks hwf

end Verif.Heap
