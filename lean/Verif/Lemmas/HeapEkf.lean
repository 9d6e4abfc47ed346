import Verif.Model.HeapEkf
import Verif.Lemmas.HeapPlus

/-!
Facts about `setStamp`, `plus` and the attributes of estimates, for the Kalman filter on the heap.
-/

namespace Verif.Heap

open Verif

set_option linter.unusedVariables false

/-- More fuel shows the same contents. -/
theorem contents_mono : ∀ {k : ℕ} {h : Heap} {r : Ref} {t : STree}, contents k h r = some t →
    contents (k + 1) h r = some t
  | 0, h, r, t, hc => by cases hc
  | k + 1, h, r, t, hc => by
    unfold contents at hc ⊢
    cases ho : h[r]? with
    | none => rw [ho] at hc; cases hc
    | some o =>
      rw [ho] at hc
      cases o with
      | comp v s i =>
        obtain ⟨l, hl, hc1⟩ := obind hc
        obtain ⟨ts, hts, hc2⟩ := obind hc1
        show (listAt h v >>= _) = _
        rw [hl]
        show (l.mapM (contents (k + 1) h) >>= _) = _
        rw [mapM_mono hts (fun a t _ ha => contents_mono ha)]
        exact hc2
      | imuState v s i =>
        obtain ⟨l, hl, hc1⟩ := obind hc
        obtain ⟨ts, hts, hc2⟩ := obind hc1
        show (listAt h v >>= _) = _
        rw [hl]
        show (l.mapM (contents (k + 1) h) >>= _) = _
        rw [mapM_mono hts (fun a t _ ha => contents_mono ha)]
        exact hc2
      | vec v d s i => exact hc
      | lie c v s i d => exact hc
      | _ => cases hc

theorem contents_mono_le {k k' : ℕ} {h : Heap} {r : Ref} {t : STree} (hk : k ≤ k') (hc : contents k h r = some t) :
    contents k' h r = some t := by
  induction hk with
  | refl => exact hc
  | step _ ih => exact contents_mono ih

/-- Overwriting an object that is neither an array nor a list does not change what is seen without looking at it. -/
theorem contents_set {h : Heap} {r : Ref} {o : Obj} (ha : arrAt h r = none) (hl : listAt h r = none) :
    ∀ (j : ℕ), contents j h r = none → ∀ (q : Ref) (t : STree), contents j h q = some t →
      contents j (h.set r o) q = some t
  | 0, _, q, t, hc => by cases hc
  | j + 1, hr, q, t, hc => by
    have hr' : contents j h r = none := by
      cases hj : contents j h r with
      | none => rfl
      | some t' => rw [contents_mono hj] at hr; cases hr
    have hq : r ≠ q := by rintro rfl; rw [hr] at hc; cases hc
    have hA : ∀ {v a}, arrAt h v = some a → arrAt (h.set r o) v = some a := by
      intro v a hv
      have : r ≠ v := by rintro rfl; rw [ha] at hv; cases hv
      unfold arrAt; rw [set_get_ne this, arrAt_some hv]
    have hL : ∀ {v a}, listAt h v = some a → listAt (h.set r o) v = some a := by
      intro v a hv
      have : r ≠ v := by rintro rfl; rw [hl] at hv; cases hv
      unfold listAt; rw [set_get_ne this, listAt_some hv]
    have ih := contents_set (o := o) ha hl j hr'
    unfold contents at hc ⊢
    rw [set_get_ne hq]
    cases ho : h[q]? with
    | none => rw [ho] at hc; cases hc
    | some o' =>
      rw [ho] at hc
      cases o' with
      | comp v s i =>
        obtain ⟨l, hl', hc1⟩ := obind hc
        obtain ⟨ts, hts, hc2⟩ := obind hc1
        show (listAt _ v >>= _) = _
        rw [hL hl']
        show (l.mapM (contents j (h.set r o)) >>= _) = _
        rw [mapM_mono hts (fun a t _ ha' => ih a t ha')]
        exact hc2
      | imuState v s i =>
        obtain ⟨l, hl', hc1⟩ := obind hc
        obtain ⟨ts, hts, hc2⟩ := obind hc1
        show (listAt _ v >>= _) = _
        rw [hL hl']
        show (l.mapM (contents j (h.set r o)) >>= _) = _
        rw [mapM_mono hts (fun a t _ ha' => ih a t ha')]
        exact hc2
      | vec v d s i =>
        obtain ⟨a, ha', hc1⟩ := obind hc
        show (arrAt _ v >>= _) = _
        rw [hA ha']
        exact hc1
      | lie c v s i d =>
        obtain ⟨a, ha', hc1⟩ := obind hc
        show (arrAt _ v >>= _) = _
        rw [hA ha']
        exact hc1
      | _ => cases hc

/-- The least fuel that shows the contents. -/
theorem contents_min {k : ℕ} {h : Heap} {r : Ref} {t : STree} (hc : contents k h r = some t) :
    ∃ j, j + 1 ≤ k ∧ contents j h r = none ∧ contents (j + 1) h r = some t := by
  induction k with
  | zero => cases hc
  | succ k ih =>
    cases hk : contents k h r with
    | none => exact ⟨k, le_refl _, hk, hc⟩
    | some t' =>
      have : t' = t := by
        have := contents_mono hk
        rw [hc] at this
        exact (Option.some.inj this).symm
      subst this
      obtain ⟨j, h1, h2, h3⟩ := ih hk
      exact ⟨j, by omega, h2, h3⟩

/-- `x.stamp` reads the stamp of the contents. -/
theorem stampOf_contents {k : ℕ} {h : Heap} {r : Ref} {t : STree} (hc : contents k h r = some t) :
    stampOf h r = .ok t.stamp := by
  cases k with
  | zero => cases hc
  | succ k =>
    unfold contents at hc
    unfold stampOf
    cases ho : h[r]? with
    | none => rw [ho] at hc; cases hc
    | some o =>
      rw [ho] at hc
      cases o with
      | comp v s i =>
        obtain ⟨l, hl', hc1⟩ := obind hc
        obtain ⟨ts, hts, hc2⟩ := obind hc1
        cases hc2; rfl
      | imuState v s i =>
        obtain ⟨l, hl', hc1⟩ := obind hc
        obtain ⟨ts, hts, hc2⟩ := obind hc1
        obtain ⟨n, M, s0, i0, d, g, s1, i1, a, s2, i2, _, rfl⟩ := asImu_some hc2
        rfl
      | vec v d s i =>
        obtain ⟨a, ha', hc1⟩ := obind hc
        obtain ⟨l, _, hc2⟩ := obind hc1
        cases hc2; rfl
      | lie c v s i d =>
        obtain ⟨a, ha', hc1⟩ := obind hc
        obtain ⟨l, _, hc2⟩ := obind hc1
        cases hc2; rfl
      | _ => cases hc

/-- The object under a state reference is a state. -/
theorem contents_notarr {k : ℕ} {h : Heap} {r : Ref} {t : STree} (hc : contents k h r = some t) :
    arrAt h r = none ∧ listAt h r = none ∧ ∀ s c, h[r]? ≠ some (.swc s c) := by
  cases k with
  | zero => cases hc
  | succ k =>
    unfold contents at hc
    unfold arrAt listAt
    cases ho : h[r]? with
    | none => rw [ho] at hc; cases hc
    | some o =>
      rw [ho] at hc
      cases o with
      | comp v s i => exact ⟨rfl, rfl, by intro _ _ h; cases h⟩
      | imuState v s i => exact ⟨rfl, rfl, by intro _ _ h; cases h⟩
      | vec v d s i => exact ⟨rfl, rfl, by intro _ _ h; cases h⟩
      | lie c v s i d => exact ⟨rfl, rfl, by intro _ _ h; cases h⟩
      | _ => cases hc

/-- Rebinding a stamp: the object written, its references and the contents afterwards. -/
theorem setStamp_spec {k : ℕ} {h : Heap} {r : Ref} {t : STree} (hc : contents k h r = some t) (s' : Option ℝ) :
    ∃ o o' : Obj, h[r]? = some o ∧ setStamp h r s' = .ok (h.set r o') ∧ o'.refs = o.refs ∧
      contents k (h.set r o') r = some (t.setStamp s') ∧ arrAt h r = none := by
  obtain ⟨j, hj1, hj2, hj3⟩ := contents_min hc
  obtain ⟨hna, hnl, _⟩ := contents_notarr hc
  have hlt : r < h.length := by
    by_contra hn
    unfold contents at hj3
    rw [List.getElem?_eq_none (not_lt.mp hn)] at hj3
    cases hj3
  suffices H : ∃ o o' : Obj, h[r]? = some o ∧ setStamp h r s' = .ok (h.set r o') ∧ o'.refs = o.refs ∧
      contents (j + 1) (h.set r o') r = some (t.setStamp s') by
    obtain ⟨o, o', h1, h2, h3, h4⟩ := H
    exact ⟨o, o', h1, h2, h3, contents_mono_le hj1 h4, hna⟩
  have hA : ∀ (o' : Obj) {v a}, arrAt h v = some a → arrAt (h.set r o') v = some a := by
    intro o' v a hv
    have : r ≠ v := by rintro rfl; rw [hna] at hv; cases hv
    unfold arrAt; rw [set_get_ne this, arrAt_some hv]
  have hL : ∀ (o' : Obj) {v a}, listAt h v = some a → listAt (h.set r o') v = some a := by
    intro o' v a hv
    have : r ≠ v := by rintro rfl; rw [hnl] at hv; cases hv
    unfold listAt; rw [set_get_ne this, listAt_some hv]
  have hj3' := hj3
  unfold contents at hj3
  cases ho : h[r]? with
  | none => rw [ho] at hj3; cases hj3
  | some o =>
    rw [ho] at hj3
    cases o with
    | comp v s i =>
      obtain ⟨l, hl', hc1⟩ := obind hj3
      obtain ⟨ts, hts, hc2⟩ := obind hc1
      cases hc2
      refine ⟨_, .comp v s' i, rfl, by unfold setStamp; rw [ho], rfl, ?_⟩
      exact contents_comp (set_get_eq hlt _) (hL _ hl')
        (mapM_mono hts (fun a t _ ha => contents_set hna hnl j hj2 a t ha))
    | imuState v s i =>
      obtain ⟨l, hl', hc1⟩ := obind hj3
      obtain ⟨ts, hts, hc2⟩ := obind hc1
      obtain ⟨n, M, s0, i0, d, g, s1, i1, a, s2, i2, rfl, rfl⟩ := asImu_some hc2
      refine ⟨_, .imuState v s' i, rfl, by unfold setStamp; rw [ho], rfl, ?_⟩
      exact contents_imu (set_get_eq hlt _) (hL _ hl')
        (mapM_mono hts (fun a t _ ha => contents_set hna hnl j hj2 a t ha)) rfl
    | vec v d s i =>
      obtain ⟨a, ha', hc1⟩ := obind hj3
      obtain ⟨l, hl', hc2⟩ := obind hc1
      cases hc2
      obtain ⟨rfl, rfl⟩ := asVec_some hl'
      refine ⟨_, .vec v l.length s' i, rfl, by unfold setStamp; rw [ho], rfl, ?_⟩
      exact contents_vec j (set_get_eq hlt _) (hA _ ha')
    | lie c v s i d =>
      obtain ⟨a, ha', hc1⟩ := obind hj3
      obtain ⟨M, hM, hc2⟩ := obind hc1
      cases hc2
      refine ⟨_, .lie c v s' i d, rfl, by unfold setStamp; rw [ho], rfl, ?_⟩
      exact contents_lie j (set_get_eq hlt _) (hA _ ha') hM
    | _ => cases hj3

theorem dof_setStamp (s : Option ℝ) (t : STree) : (t.setStamp s).dof = t.dof := by
  cases t <;> simp [STree.setStamp, STree.dof]

theorem stamp_setStamp (s : Option ℝ) (t : STree) : (t.setStamp s).stamp = s := by
  cases t <;> rfl

/-- `plus` keeps the stamp. -/
theorem plusTree_stamp {P : LiePlus} {t t' : STree} {dx : List ℝ} (h : plusTree P t dx = .ok t') :
    t'.stamp = t.stamp := by
  cases t with
  | vec l s i =>
    simp only [plusTree] at h
    rcases plusLeaf_shape h with ⟨l', s', i', e, rfl, _⟩ | ⟨_, _, _, _, _, _, _, e, _⟩
    · cases e; rfl
    · cases e
  | lie c n M s i d =>
    simp only [plusTree] at h
    rcases plusLeaf_shape h with ⟨l', s', i', e, _⟩ | ⟨_, _, _, _, _, _, _, e, rfl, _⟩
    · cases e
    · cases e; rfl
  | comp l s i =>
    simp only [plusTree] at h
    obtain ⟨l', _, h2⟩ := ebind h
    cases h2; rfl
  | imu n g a s i =>
    simp only [plusTree] at h
    obtain ⟨n', _, h2⟩ := ebind h
    obtain ⟨g', _, h3⟩ := ebind h2
    obtain ⟨a', _, h4⟩ := ebind h3
    cases h4; rfl

/-- Attributes of an estimate. -/
theorem readSwc_of {h : Heap} {r s c : Ref} (hr : h[r]? = some (.swc s c)) : readSwc h r = .ok (s, c) := by
  unfold readSwc; rw [hr]

theorem readMat_of {n : ℕ} {h : Heap} {r : Ref} {M : Mat n n} (hr : arrAt h r = some (.mat n n M)) :
    readMat n h r = .ok M := by
  unfold readMat
  rw [readArr_of hr]
  show (if e : n = n ∧ n = n then _ else _) = _
  rw [dif_pos ⟨rfl, rfl⟩]
  rfl

/-- Writing into an estimate object is not seen from any state. -/
theorem contents_set_swc {h : Heap} {r s c : Ref} (hr : h[r]? = some (.swc s c)) (o : Obj) {k : ℕ} {q : Ref}
    {t : STree} (hc : contents k h q = some t) : contents k (h.set r o) q = some t := by
  have h1 : arrAt h r = none := by unfold arrAt; rw [hr]
  have h2 : listAt h r = none := by unfold listAt; rw [hr]
  refine contents_set h1 h2 k ?_ q t hc
  cases k with
  | zero => rfl
  | succ k => unfold contents; rw [hr]

theorem arrAt_set_ne {h : Heap} {r v : Ref} {a : Arr} (hr : arrAt h r = none) (o : Obj) (hv : arrAt h v = some a) :
    arrAt (h.set r o) v = some a := by
  have : r ≠ v := by rintro rfl; rw [hr] at hv; cases hv
  unfold arrAt; rw [set_get_ne this, arrAt_some hv]

theorem contents_lt {k : ℕ} {h : Heap} {r : Ref} {t : STree} (hc : contents k h r = some t) : r < h.length := by
  by_contra hn
  cases k with
  | zero => cases hc
  | succ k =>
    unfold contents at hc
    rw [List.getElem?_eq_none (not_lt.mp hn)] at hc
    cases hc

theorem get_lt {h : Heap} {r : Ref} {o : Obj} (hr : h[r]? = some o) : r < h.length :=
  (List.getElem?_eq_some_iff.mp hr).1

end Verif.Heap
