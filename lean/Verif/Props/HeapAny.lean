import Verif.Lemmas.HeapAny
import Verif.Props.HeapEkf

/-!
C86, any models: what `predict` and `correct` of the extended Kalman filter can change when the process and
measurement models are arbitrary code that may write into everything it can reach.
-/

namespace Verif.Heap

open Verif Matrix

set_option linter.unusedVariables false

variable {V U : Type} {n : ℕ}

/-! ### Specification -/

/-- The methods of a process model are code that holds the state it is given and its own objects `own`, and may read,
overwrite and allocate anything it can reach from there. -/
structure ProcCode (own : List Ref) (p : HProc U n) : Prop where
  evaluate : ∀ h r u dt r' h', p.evaluate h r u dt = .ok (r', h') → Acts h (r :: own) h' [r']
  jacobian : ∀ h r u dt A h', p.jacobian h r u dt = .ok (A, h') → Acts h (r :: own) h' []
  covariance : ∀ h r u dt Q h', p.covariance h r u dt = .ok (Q, h') → Acts h (r :: own) h' []

/-- Likewise for a measurement model. -/
structure MeasCode (own : List Ref) (y : HMeas n) : Prop where
  evaluate : ∀ h r v h', y.evaluate h r = .ok (v, h') → Acts h (r :: own) h' []
  jacobian : ∀ h r G h', y.jacobian h r = .ok (G, h') → Acts h (r :: own) h' []
  covariance : ∀ h r R h', y.covariance h r = .ok (R, h') → Acts h (r :: own) h' []

/-! ### Proofs -/

theorem propagate_any {f : HEkf U n} {own : List Ref} (hp : ProcCode own f.proc) {A : Ref → Prop} {h0 H : Heap}
    (hi : Inside A h0 H) (hown : ∀ q ∈ own, A q) {x xn xs xc xj : Ref} (hx : h0[x]? = some (.swc xs xc)) (hxs : A xs)
    (hxn : h0.length ≤ xn) (hxj : A xj) {u : Inp U} {tkm1 dt : ℝ} {x' : Ref} {h' : Heap}
    (he : f.propagate H x xn u tkm1 dt xj = .ok (x', h')) : Inside A h0 h' ∧ x' = xn := by
  have hargs : ∀ r, A r ∨ h0.length ≤ r → ∀ q ∈ r :: own, A q ∨ h0.length ≤ q := by
    intro r hr q hq
    rcases List.mem_cons.mp hq with rfl | hq
    · exact hr
    · exact Or.inl (hown q hq)
  have hstate : ∀ {H : Heap} {s c : Ref}, Inside A h0 H → readSwc H x = .ok (s, c) → A s ∨ h0.length ≤ s := by
    intro H s c hi hr
    by_cases hxA : A x
    · exact hi.2.1 x _ (readSwc_inv hr) (Or.inl hxA) s (by simp [Obj.refs])
    · have := readSwc_inv hr
      rw [hi.2.2 x hxA (get_lt hx), hx] at this
      cases this
      exact Or.inl hxs
  unfold HEkf.propagate at he
  obtain ⟨⟨Q, h1⟩, e1, he1⟩ := ebind he
  obtain ⟨i1, _⟩ := hi.acts (hargs xj (Or.inl hxj)) (hp.covariance _ _ _ _ _ _ e1)
  obtain ⟨⟨s, c⟩, e2, he2⟩ := ebind he1
  obtain ⟨⟨s', h2⟩, e3, he3⟩ := ebind he2
  obtain ⟨i2, r2⟩ := i1.acts (hargs s (hstate i1 e2)) (hp.evaluate _ _ _ _ _ _ e3)
  obtain ⟨⟨M, h3⟩, e4, he4⟩ := ebind he3
  obtain ⟨i3, _⟩ := i2.acts (hargs s (hstate i1 e2)) (hp.jacobian _ _ _ _ _ _ e4)
  obtain ⟨h4, e5, he5⟩ := ebind he4
  have i4 := i3.setSwcState (Or.inr hxn) (r2 s' (by simp)) e5
  obtain ⟨⟨_, xc'⟩, e6, he6⟩ := ebind he5
  obtain ⟨P, e7, he7⟩ := ebind he6
  obtain ⟨h6, e8, he8⟩ := ebind he7
  have i6 := (i4.arr _).setSwcCov (Or.inr hxn) (Or.inr i4.1) e8
  obtain ⟨h8, e9, he9⟩ := ebind he8
  have i8 := (i6.arr _).setSwcCov (Or.inr hxn) (Or.inr i6.1) e9
  obtain ⟨⟨sn, cn⟩, e10, he10⟩ := ebind he9
  obtain ⟨h9, e11, he11⟩ := ebind he10
  cases he11
  exact ⟨i8.setStamp (i8.2.1 xn _ (readSwc_inv e10) (Or.inr hxn) sn (by simp [Obj.refs])) e11, rfl⟩

theorem predict_any {f : HEkf U n} {own : List Ref} (hp : ProcCode own f.proc) {A : Ref → Prop} {h : Heap}
    (hA : Closed h A) (hown : ∀ q ∈ own, A q) {x xs xc : Ref} (hx : h[x]? = some (.swc xs xc)) (hxs : A xs)
    {xj : Option Ref} (hxj : ∀ j ∈ xj, A j) {u : Option (Inp U)} {dt : Option ℝ} {x' : Ref} {h' : Heap}
    (he : f.predict h x u dt xj = .ok (x', h')) : Inside A h h' ∧ h.length ≤ x' := by
  unfold HEkf.predict at he
  obtain ⟨⟨xn, h1⟩, e1, he1⟩ := ebind he
  obtain ⟨i1, l1⟩ := (Inside.refl hA).alloc (copySwc_any f.Exp e1)
  obtain ⟨⟨s, c⟩, e2, he2⟩ := ebind he1
  have hs : s = xs := by
    obtain ⟨new, rfl, _⟩ := copySwc_any f.Exp e1
    have := readSwc_inv e2
    rw [get_grow hx] at this
    cases this; rfl
  subst hs
  obtain ⟨st, e3, he3⟩ := ebind he2
  obtain ⟨⟨tkm1, d⟩, e4, he4⟩ := ebind he3
  cases u with
  | none => cases he4; exact ⟨i1, l1⟩
  | some u =>
    have hj : A (xj.getD s) := by
      cases xj with
      | none => exact hxs
      | some j => exact hxj j rfl
    obtain ⟨i2, rfl⟩ := propagate_any hp i1 hown hx hxs l1 hj he4
    exact ⟨i2, l1⟩

theorem advance_any {f : HEkf U n} {own : List Ref} (hp : ProcCode own f.proc) {A : Ref → Prop} {h : Heap}
    (hA : Closed h A) (hown : ∀ q ∈ own, A q) {x : Ref} {y : HMeas n} {u : Option (Inp U)} {x' : Ref} {h' : Heap}
    (he : f.advance h x y u = .ok (x', h')) : Inside A h h' ∧ h.length ≤ x' := by
  unfold HEkf.advance at he
  obtain ⟨⟨x1, h1⟩, e1, he1⟩ := ebind he
  obtain ⟨i1, l1⟩ := (Inside.refl hA).alloc (copySwc_any f.Exp e1)
  obtain ⟨⟨s, c⟩, e2, he2⟩ := ebind he1
  have hs : A s ∨ h.length ≤ s := i1.2.1 x1 _ (readSwc_inv e2) (Or.inr l1) s (by simp [Obj.refs])
  obtain ⟨st, e3, he3⟩ := ebind he2
  obtain ⟨h2, e4, he4⟩ := ebind he3
  have i2 : Inside A h h2 := by
    cases st with
    | none => exact i1.setStamp hs e4
    | some _ => cases e4; exact i1
  cases hy : y.stamp with
  | none => rw [hy] at he4; cases he4; exact ⟨i2, l1⟩
  | some ty =>
    rw [hy] at he4
    obtain ⟨⟨s2, c2⟩, e5, he5⟩ := ebind he4
    obtain ⟨st2, e6, he6⟩ := ebind he5
    cases st2 with
    | none => cases he6
    | some tx =>
      simp only [] at he6
      split at he6
      · cases he6
      · cases u with
        | none => cases he6; exact ⟨i2, l1⟩
        | some u =>
          simp only [] at he6
          split at he6
          · -- the inner `predict` works on the copy
            have hA2 : Closed h2 (fun r => A r ∨ h.length ≤ r) := i2.2.1
            have hs2 := hA2 x1 _ (readSwc_inv e5) (Or.inr l1) s2 (by simp [Obj.refs])
            obtain ⟨⟨j1, j2, j3⟩, l3⟩ := predict_any hp hA2 (fun q hq => Or.inl (hown q hq)) (readSwc_inv e5) hs2
              (xj := none) (fun j hj => by cases hj) he6
            refine ⟨⟨le_trans i2.1 j1, ?_, ?_⟩, le_trans i2.1 l3⟩
            · intro r o ho hr q hq
              rcases j2 r o ho (Or.inl hr) q hq with h' | h'
              · exact h'
              · exact Or.inr (le_trans i2.1 h')
            · intro r hr hl
              rw [j3 r (by rintro (h' | h') <;> [exact hr h'; omega]) (by have := i2.1; omega), i2.2.2 r hr hl]
          · cases he6; exact ⟨i2, l1⟩

theorem fuse_any {f : HEkf U n} {own : List Ref} {A : Ref → Prop} {h H : Heap} (hi : Inside A h H)
    (hown : ∀ q ∈ own, A q) {x : Ref} (hx : h.length ≤ x) {y : HMeas n} (hy : MeasCode own y) {xj : Option Ref}
    (hxj : ∀ j ∈ xj, A j) {reject : Bool} {x' : Ref} {h' : Heap} (he : f.fuse H x y xj reject = .ok (x', h')) :
    Inside A h h' ∧ x' = x := by
  have hargs : ∀ r, A r ∨ h.length ≤ r → ∀ q ∈ r :: own, A q ∨ h.length ≤ q := by
    intro r hr q hq
    rcases List.mem_cons.mp hq with rfl | hq
    · exact hr
    · exact Or.inl (hown q hq)
  have hstate : ∀ {H : Heap} {s c : Ref}, Inside A h H → readSwc H x = .ok (s, c) → A s ∨ h.length ≤ s :=
    fun hi hr => hi.2.1 x _ (readSwc_inv hr) (Or.inr hx) _ (by simp [Obj.refs])
  unfold HEkf.fuse at he
  obtain ⟨⟨s, c⟩, e1, he1⟩ := ebind he
  have hs := hstate hi e1
  obtain ⟨⟨yc, h1⟩, e2, he2⟩ := ebind he1
  obtain ⟨i1, _⟩ := hi.acts (hargs s hs) (hy.evaluate _ _ _ _ e2)
  cases yc with
  | none =>
    obtain ⟨⟨G, h2⟩, e3, he3⟩ := ebind he2
    cases he3
    exact ⟨(i1.acts (hargs s hs) (hy.jacobian _ _ _ _ e3)).1, rfl⟩
  | some yc =>
    obtain ⟨⟨G, h2⟩, e3, he3⟩ := ebind he2
    obtain ⟨i2, _⟩ := i1.acts (hargs s hs) (hy.jacobian _ _ _ _ e3)
    obtain ⟨⟨s2, c2⟩, e4, he4⟩ := ebind he3
    obtain ⟨P, e5, he5⟩ := ebind he4
    obtain ⟨⟨R, h3⟩, e6, he6⟩ := ebind he5
    have hj : A (xj.getD s) ∨ h.length ≤ xj.getD s := by
      cases xj with
      | none => exact hs
      | some j => exact Or.inl (hxj j rfl)
    obtain ⟨i3, _⟩ := i2.acts (hargs _ hj) (hy.covariance _ _ _ _ e6)
    have fin : ∀ o : Bool, (if o = true then Except.ok (x, h3) else do
        let (s2, _) ← readSwc h3 x
        f.update h3 x s2 G (G * P * Gᵀ + R) (fun i => y.value i - yc i) P) = .ok (x', h') →
        Inside A h h' ∧ x' = x := by
      intro o hfin
      cases o with
      | true => cases hfin; exact ⟨i3, rfl⟩
      | false =>
        have hfin' : (readSwc h3 x >>= fun p => f.update h3 x p.1 G (G * P * Gᵀ + R) (fun i => y.value i - yc i) P)
            = .ok (x', h') := hfin
        obtain ⟨⟨s3, c3⟩, e8, he8⟩ := ebind hfin'
        unfold HEkf.update at he8
        obtain ⟨Kt, _, he9⟩ := ebind he8
        obtain ⟨⟨s', h4⟩, e10, he10⟩ := ebind he9
        obtain ⟨i4, l4⟩ := i3.alloc (plusState_any f.Exp f.P _ _ _ _ _ _ e10)
        obtain ⟨h5, e11, he11⟩ := ebind he10
        have i5 := i4.setSwcState (Or.inr hx) (Or.inr l4) e11
        obtain ⟨h6, e12, he12⟩ := ebind he11
        have i6 := (i5.arr _).setSwcCov (Or.inr hx) (Or.inr i5.1) e12
        obtain ⟨h7, e13, he13⟩ := ebind he12
        have i7 := (i6.arr _).setSwcCov (Or.inr hx) (Or.inr i6.1) e13
        cases he13
        exact ⟨i7, rfl⟩
    cases reject with
    | false =>
      obtain ⟨o, e7, he7⟩ := ebind he6
      exact fin o he7
    | true =>
      obtain ⟨o, e7, he7⟩ := ebind he6
      exact fin o he7

theorem correct_any {f : HEkf U n} {own : List Ref} (hp : ProcCode own f.proc) {A : Ref → Prop} {h : Heap}
    (hA : Closed h A) (hown : ∀ q ∈ own, A q) {x : Ref} {y : HMeas n} (hy : MeasCode own y) {u : Option (Inp U)}
    {xj : Option Ref} (hxj : ∀ j ∈ xj, A j) {reject : Option Bool} {x' : Ref} {h' : Heap}
    (he : f.correct h x y u xj reject = .ok (x', h')) : Inside A h h' ∧ h.length ≤ x' := by
  unfold HEkf.correct at he
  obtain ⟨⟨x1, h1⟩, e1, he1⟩ := ebind he
  obtain ⟨i1, l1⟩ := advance_any hp hA hown e1
  obtain ⟨i2, rfl⟩ := fuse_any i1 hown l1 hy hxj he1
  exact ⟨i2, l1⟩

/-- Reachable from one of the objects of a list. -/
def ReachAny (h : Heap) (l : List Ref) (q : Ref) : Prop := ∃ r ∈ l, Reach h r q

theorem closed_reachAny (h : Heap) (l : List Ref) : Closed h (ReachAny h l) := by
  rintro r o ho ⟨p, hp, hr⟩ q hq
  exact ⟨p, hp, Reach.step hr ho hq⟩

theorem Inside.reach {A : Ref → Prop} {h0 H : Heap} (hi : Inside A h0 H) {r q : Ref} (hr : A r ∨ h0.length ≤ r)
    (hq : Reach H r q) : A q ∨ h0.length ≤ q := by
  induction hq with
  | refl => exact hr
  | step _ ho hp ih => exact hi.2.1 _ _ ho ih _ hp

/-- C86: `correct` protects the caller from the models. Whatever the code of the process model and of the measurement
model does, an object the caller had before the call is unchanged unless it can be reached from the models' own
objects or from the linearization point given; in particular nothing in `x` changes. The estimate returned is a new
object, and nothing reachable from it is an older object, except through the models' own objects or that point. -/
theorem C86_correct_any_models {f : HEkf U n} {own : List Ref} (hp : ProcCode own f.proc) {h : Heap} {x : Ref}
    {y : HMeas n} (hy : MeasCode own y) {u : Option (Inp U)} {xj : Option Ref} {reject : Option Bool} {x' : Ref}
    {h' : Heap} (he : f.correct h x y u xj reject = .ok (x', h')) :
    (∀ q, q < h.length → ¬ ReachAny h (own ++ xj.toList) q → h'[q]? = h[q]?) ∧ h.length ≤ x' ∧
    (∀ q, Reach h' x' q → h.length ≤ q ∨ ReachAny h (own ++ xj.toList) q) := by
  obtain ⟨i, l⟩ := correct_any hp (closed_reachAny h (own ++ xj.toList))
    (fun q hq => ⟨q, List.mem_append_left _ hq, Reach.refl⟩) hy
    (fun j hj => ⟨j, List.mem_append_right _ (by simpa using hj), Reach.refl⟩) he
  exact ⟨fun q hq hn => i.2.2 q hn hq, l, fun q hq => (i.reach (Or.inr l) hq).symm⟩

/-- C86: `predict` does not: the process model is given the caller's own state object. Objects that cannot be reached
from `x.state` (nor from the model or the linearization point) are unchanged, but those that can be are at the mercy
of the model. -/
theorem C86_predict_any_models {f : HEkf U n} {own : List Ref} (hp : ProcCode own f.proc) {h : Heap} {x xs xc : Ref}
    (hx : h[x]? = some (.swc xs xc)) {u : Option (Inp U)} {dt : Option ℝ} {xj : Option Ref} {x' : Ref} {h' : Heap}
    (he : f.predict h x u dt xj = .ok (x', h')) :
    (∀ q, q < h.length → ¬ ReachAny h (xs :: own ++ xj.toList) q → h'[q]? = h[q]?) ∧ h.length ≤ x' ∧
    (∀ q, Reach h' x' q → h.length ≤ q ∨ ReachAny h (xs :: own ++ xj.toList) q) := by
  obtain ⟨i, l⟩ := predict_any hp (closed_reachAny h (xs :: own ++ xj.toList))
    (fun q hq => ⟨q, by simp [hq], Reach.refl⟩) hx ⟨xs, by simp, Reach.refl⟩
    (fun j hj => ⟨j, List.mem_append_right _ (by simpa using hj), Reach.refl⟩) he
  exact ⟨fun q hq hn => i.2.2 q hn hq, l, fun q hq => (i.reach (Or.inr l) hq).symm⟩

end Verif.Heap
