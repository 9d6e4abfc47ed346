import Verif.Props.Group
import Verif.Props.NoiseFree

/-!
C111: pose estimation. Matrix Lie group states moved by `BodyFrameVelocity`, in the filters, with a true pose that solves
`Ṫ = T u^∧` for piecewise constant `u`.
-/

namespace Verif

open Matrix NormedSpace

set_option linter.unusedVariables false
set_option linter.unusedSectionVars false

variable {ι κ : Type} [Fintype ι] [DecidableEq ι] [Fintype κ] [DecidableEq κ] {G : MLG ι κ}
  {mem : Matrix ι ι ℝ → Prop} {ad : (κ → ℝ) → Matrix κ κ ℝ} {n nu : ℕ}

/-! ### The models -/

/-- Members of the group, as values of states. -/
abbrev Member (mem : Matrix ι ι ℝ → Prop) : Type := { X : Matrix ι ι ℝ // mem X }

/-- `MatrixLieGroupState.plus` (`GSt.plus`, `navlie/lib/states.py:117-125`) on members; the coordinates are numbered by
`e`. -/
noncomputable def memberPlus (h : G.Laws mem ad) (e : κ ≃ Fin n) (dir : Dir) (X : Member mem) (dx : Vec n) : Member mem :=
  ⟨(GSt.plus G ⟨X.1, dir, none⟩ (dx ∘ e)).value, by
    cases dir
    · exact h.mem_mul _ _ X.2 (h.mem_exp _)
    · exact h.mem_mul _ _ (h.mem_exp _) X.2⟩

/-- `MatrixLieGroupState.minus` (`GSt.minus`, `navlie/lib/states.py:126-133`) on members. -/
def memberMinus (G : MLG ι κ) (log : Matrix ι ι ℝ → κ → ℝ) (e : κ ≃ Fin n) (dir : Dir) (Y X : Member mem) : Vec n :=
  GSt.minus G log ⟨Y.1, dir, none⟩ ⟨X.1, dir, none⟩ ∘ e.symm

/-- `BodyFrameVelocity` (`navlie/lib/models.py:214-261`, `bfvEvaluate`, `bfvJacobian`, `bfvCovariance`) as the process
model of a filter. -/
noncomputable def poseProc (h : G.Laws mem ad) (e : κ ≃ Fin n) (dir : Dir) (Q : Matrix κ κ ℝ) :
    ProcModel (Member mem) (κ → ℝ) n where
  evaluate x u dt := ⟨⟨(bfvEvaluate G ⟨x.value.1, dir, x.stamp⟩ u.value dt).value,
    (C78_closed h ⟨x.value.1, dir, x.stamp⟩ x.value.2 u.value dt).1⟩, x.stamp⟩
  jacobian x u dt := (bfvJacobian G ⟨x.value.1, dir, x.stamp⟩ u.value dt).submatrix e.symm e.symm
  covariance x u dt := (bfvCovariance G Q ⟨x.value.1, dir, x.stamp⟩ u.value dt).submatrix e.symm e.symm

/-! ### The truth -/

/-- Specification: on `[a, b]` the pose moves with the constant body-frame velocity `u`: `Ṫ = T u^∧`, with one-sided
derivatives at the ends. -/
def MovesWith (G : MLG ι κ) (T : ℝ → Member mem) (u : κ → ℝ) (a b : ℝ) : Prop :=
  ∀ t ∈ Set.Icc a b, ∀ i j, HasDerivWithinAt (fun s => (T s).1 i j) (((T t).1 * G.wedge u) i j) (Set.Icc a b) t

/-- Specification: the inputs are the body-frame velocities of the pose, each held from its stamp (the first from `τ`) to
the stamp of the next one. -/
def Drives (G : MLG ι κ) (T : ℝ → Member mem) : ℝ → List (StInp (κ → ℝ)) → Prop
  | τ, u :: u' :: us => MovesWith G T u.value τ u'.stamp ∧ Drives G T u'.stamp (u' :: us)
  | _, _ => True

theorem exp_inv (A : Matrix ι ι ℝ) (s : ℝ) : exp (s • -A) * exp (s • A) = 1 := by
  rw [smul_neg, ← Matrix.exp_add_of_commute _ _ (Commute.neg_left (Commute.refl (s • A))), neg_add_cancel, exp_zero]

/-- On an interval of constant velocity the pose is `T(s) Exp((t - s) u)`. -/
theorem movesWith_exp (h : G.Laws mem ad) {T : ℝ → Member mem} {u : κ → ℝ} {a b : ℝ} (hT : MovesWith G T u a b) {s t : ℝ}
    (hs : a ≤ s) (hst : s ≤ t) (ht : t ≤ b) : (T s).1 * G.Exp ((t - s) • u) = (T t).1 := by
  set A := G.wedge u with hA
  have key : ∀ i j, ∀ x ∈ Set.Icc a b, HasDerivWithinAt (fun r => ((T r).1 * exp (r • -A)) i j) 0 (Set.Icc a b) x := by
    intro i j x hx
    have h1 : HasDerivWithinAt (fun r => ∑ k, (T r).1 i k * exp (r • -A) k j)
        (∑ k, (((T x).1 * A) i k * exp (x • -A) k j + (T x).1 i k * (-A * exp (x • -A)) k j)) (Set.Icc a b) x :=
      HasDerivWithinAt.fun_sum fun k _ => (hT x hx i k).mul ((hasMatDeriv_exp' (-A) x k j).hasDerivWithinAt)
    have h2 : (∑ k, (((T x).1 * A) i k * exp (x • -A) k j + (T x).1 i k * (-A * exp (x • -A)) k j)) = 0 := by
      rw [Finset.sum_add_distrib, ← Matrix.mul_apply, ← Matrix.mul_apply, ← Matrix.add_apply, Matrix.mul_assoc, ← Matrix.mul_add,
        Matrix.neg_mul, add_neg_cancel, Matrix.mul_zero]
      rfl
    rw [h2] at h1
    exact h1
  have hc : ∀ x ∈ Set.Icc a b, (T x).1 * exp (x • -A) = (T a).1 * exp (a • -A) := by
    intro x hx
    ext i j
    refine constant_of_has_deriv_right_zero (f := fun r => ((T r).1 * exp (r • -A)) i j) (a := a) (b := b)
      (fun r hr => (key i j r hr).continuousWithinAt) (fun r hr => ?_) x hx
    exact (key i j r ⟨hr.1, hr.2.le⟩).mono_of_mem_nhdsWithin (Icc_mem_nhdsGE_of_mem hr)
  have hb : (T s).1 * exp (s • -A) = (T t).1 * exp (t • -A) :=
    (hc s ⟨hs, hst.trans ht⟩).trans (hc t ⟨hs.trans hst, ht⟩).symm
  have e1 : exp ((t - s) • A) = exp (s • -A) * exp (t • A) := by
    rw [← Matrix.exp_add_of_commute _ _ (((Commute.refl A).neg_left.smul_left s).smul_right t)]
    congr 1
    rw [sub_smul, smul_neg]
    abel
  unfold MLG.Exp
  rw [h.wedge_smul, ← hA, e1, ← mul_assoc, hb, mul_assoc, exp_inv, mul_one]

theorem drives_follows (h : G.Laws mem ad) (e : κ ≃ Fin n) (dir : Dir) (Q : Matrix κ κ ℝ) {T : ℝ → Member mem} :
    ∀ (us : List (StInp (κ → ℝ))) (τ : ℝ), Drives G T τ us → Follows (poseProc h e dir Q) T τ us
  | [], τ, hd => trivial
  | [u], τ, hd => trivial
  | u :: u' :: us, τ, hd => by
    refine ⟨fun s t hs hst ht => ?_, drives_follows h e dir Q (u' :: us) _ hd.2⟩
    apply Subtype.ext
    exact movesWith_exp h hd.1 hs hst ht

/-- Specification: what the logs have to satisfy: some entry of each non-empty log is not older than the initial estimate;
the inputs used are the velocities of the pose; every measurement used has the value of its model at the true pose (or the
model produces none); stamps are equal or more than 1e-11 apart. -/
structure PoseLog (G : MLG ι κ) (T : ℝ → Member mem) (t0 : ℝ) (ins : List (StInp (κ → ℝ)))
    (meas : List (StMeas (Member mem) n)) : Prop where
  ins_fresh : ins = [] ∨ ∃ u ∈ ins, t0 ≤ u.stamp
  meas_fresh : meas = [] ∨ ∃ y ∈ meas, t0 ≤ y.stamp
  drives : Drives G T t0 (retained StInp.stamp t0 ins)
  perfect : ∀ y ∈ meas, t0 ≤ y.stamp → Perfect T y
  apart : ∀ y ∈ meas, ∀ s ∈ t0 :: (ins.map StInp.stamp ++ meas.map StMeas.stamp), Distinguishable y.stamp s

theorem PoseLog.perfectLog (h : G.Laws mem ad) (e : κ ≃ Fin n) (dir : Dir) (Q : Matrix κ κ ℝ) {T : ℝ → Member mem} {t0 : ℝ}
    {ins : List (StInp (κ → ℝ))} {meas : List (StMeas (Member mem) n)} (hl : PoseLog G T t0 ins meas) :
    PerfectLog (poseProc h e dir Q) T t0 ins meas :=
  ⟨hl.ins_fresh, hl.meas_fresh, drives_follows h e dir Q _ _ hl.drives, hl.perfect, hl.apart⟩

theorem poseProc_psd (h : G.Laws mem ad) (e : κ ≃ Fin n) (dir : Dir) {Q : Matrix κ κ ℝ} (hQ : Q.PosSemidef)
    (x : St (Member mem)) (u : Inp (κ → ℝ)) (dt : ℝ) : ((poseProc h e dir Q).covariance x u dt).PosSemidef := by
  refine PosSemidef.submatrix ?_ _
  have := hQ.mul_mul_conjTranspose_same (bfvNoise G ⟨x.value.1, dir, x.stamp⟩ u.value dt)
  rw [conjTranspose_eq_transpose_of_trivial] at this
  exact this

theorem memberPlus_zero (h : G.Laws mem ad) (e : κ ≃ Fin n) (dir : Dir) (X : Member mem) : memberPlus h e dir X 0 = X := by
  apply Subtype.ext
  have h0 : (0 : Vec n) ∘ e = 0 := rfl
  unfold memberPlus
  cases dir <;> simp [GSt.plus, h0, h.Exp_zero]

theorem memberMinus_self (h : G.Laws mem ad) (log : Matrix ι ι ℝ → κ → ℝ) (hlog : log 1 = 0) (e : κ ≃ Fin n) (dir : Dir)
    (X : Member mem) : memberMinus G log e dir X X = 0 := by
  have e1 : GSt.minus G log ⟨X.1, dir, none⟩ ⟨X.1, dir, none⟩ = 0 := by
    unfold GSt.minus
    cases dir
    · simp only [h.inv_mul X.2, hlog]
    · simp only [h.mul_inv X.1 X.2, hlog]
  unfold memberMinus
  rw [e1]
  rfl

/-! ### The filters -/

/-- **C111 (extended filter).** With the true initial pose (and any covariance), the true body-frame velocities and perfect
measurements of any kind, on any of the groups and for either perturbation direction, `run_filter` returns the true pose at
the stamp of every estimate. -/
theorem C111_ekf (h : G.Laws mem ad) (e : κ ≃ Fin n) (dir : Dir) (Q : Matrix κ κ ℝ) (hQ : Q.PosSemidef) (rej : Bool)
    (chi : ℕ → ℝ) (T : ℝ → Member mem) (t0 : ℝ) (P0 : Mat n n) (hP : P0.PosSemidef)
    (ins : List (StInp (κ → ℝ))) (meas : List (StMeas (Member mem) n)) (hlog : PoseLog G T t0 ins meas)
    (hR : ∀ y ∈ meas, ∀ s, (y.meas.model.covariance s).PosDef) :
    ∃ rs, runFilter (ekfApi ⟨poseProc h e dir Q, rej, memberPlus h e dir, chi⟩) ⟨⟨T t0, some t0⟩, P0⟩ ins meas = .ok rs ∧
      ∀ r ∈ rs, ∃ τ, r.state = ⟨T τ, some τ⟩ ∧ r.cov.PosSemidef :=
  C94_ekf _ (memberPlus_zero h e dir) (fun x u dt _ => poseProc_psd h e dir hQ x u dt) T t0 _ rfl hP ins meas
    (hlog.perfectLog h e dir Q) hR

/-- **C111 (iterated filter).** The same for the iterated filter with any settings, whenever it returns, for any logarithm
with `Log(1) = 0`. -/
theorem C111_iterated (h : G.Laws mem ad) (e : κ ≃ Fin n) (dir : Dir) (Q : Matrix κ κ ℝ) (log : Matrix ι ι ℝ → κ → ℝ)
    (hlog1 : log 1 = 0) (f : IekfEnv (Member mem) (κ → ℝ) n) (hproc : f.proc = poseProc h e dir Q)
    (hplus : f.plus = memberPlus h e dir) (hminus : f.minus = memberMinus G log e dir) (lsFuel : ℕ) (T : ℝ → Member mem)
    (t0 : ℝ) (P0 : Mat n n) (ins : List (StInp (κ → ℝ))) (meas : List (StMeas (Member mem) n))
    (hlog : PoseLog G T t0 ins meas) (rs : List (SWC (Member mem) n))
    (hrun : runFilter (iekfApi f lsFuel) ⟨⟨T t0, some t0⟩, P0⟩ ins meas = .ok rs) :
    ∀ r ∈ rs, ∃ τ, r.state = ⟨T τ, some τ⟩ := by
  refine C94_iterated f (fun v => ?_) (fun v => ?_) lsFuel T t0 _ rfl ins meas ?_ rs hrun
  · rw [hplus]
    exact memberPlus_zero h e dir v
  · rw [hminus]
    exact memberMinus_self h log hlog1 e dir v
  · rw [hproc]
    exact hlog.perfectLog h e dir Q

/-! ### Generated data -/

theorem poseProc_flow (h : G.Laws mem ad) (e : κ ≃ Fin n) (dir : Dir) (Q : Matrix κ κ ℝ) : IsFlow (poseProc h e dir Q) := by
  intro v u s a b
  apply Subtype.ext
  have := congrArg GSt.value (C78_flow h ⟨v.1, dir, none⟩ u.value a b).1
  exact this.symm

theorem poseProc_still (h : G.Laws mem ad) (e : κ ≃ Fin n) (dir : Dir) (Q : Matrix κ κ ℝ) (v : Member mem) (u : Inp (κ → ℝ))
    (s : ℝ) : ((poseProc h e dir Q).evaluate ⟨v, some s⟩ u 0).value = v := by
  apply Subtype.ext
  exact congrArg GSt.value (C78_flow h ⟨v.1, dir, none⟩ u.value 0 0).2

/-- **C111 (simulation).** Data generated without noise by `DataGenerator` from a `BodyFrameVelocity` model and any
velocity function, given to the extended filter started at the true pose: every estimate is the simulated pose. -/
theorem C111_generated (h : G.Laws mem ad) (e : κ ≃ Fin n) (dir : Dir) (Q : Matrix κ κ ℝ) (hQ : Q.PosSemidef) (rej : Bool)
    (chi : ℕ → ℝ) {g : DataGen (Member mem) (κ → ℝ) n nu} (hg : g.proc = poseProc h e dir Q) (hf : 0 < g.inputFreq)
    (hinfo : ∀ r ∈ g.info, 0 < r.freq ∧ 0 ≤ r.offset)
    (f : ℝ → Member mem → κ → ℝ) (hraw : ∀ t v, g.inputFunc t v = .raw (f t v)) {x0 : Member mem} {start stop : ℝ}
    {D : GenData (Member mem) (κ → ℝ) n} (hD : g.generate x0 start stop none = .ok D) (h2 : 2 ≤ D.states.length)
    (hs : (D.states.map Prod.snd).Pairwise (· < ·))
    (hd : ∀ d ∈ D.meas, ∀ s ∈ D.states.map Prod.snd ++ D.meas.map GenMeas.stamp, Distinguishable d.stamp s)
    {t0 : ℝ} (ht0 : (D.states.map Prod.snd).head? = some t0)
    (hR : ∀ d ∈ D.meas, ∀ s, (d.model.covariance s).PosDef) (P0 : Mat n n) (hP : P0.PosSemidef) :
    ∃ rs, runFilter (ekfApi ⟨poseProc h e dir Q, rej, memberPlus h e dir, chi⟩) ⟨⟨x0, some t0⟩, P0⟩ D.inputLog D.measLog
        = .ok rs ∧ ∀ r ∈ rs, ∃ τ, r.state = ⟨trueAt g x0 D.states τ, some τ⟩ ∧ r.cov.PosSemidef :=
  C94_generated hf hinfo (hg ▸ poseProc_flow h e dir Q) (hg ▸ fun v u s => poseProc_still h e dir Q v u s) f hraw hD h2 hs hd
    ht0 ⟨poseProc h e dir Q, rej, memberPlus h e dir, chi⟩ hg.symm (memberPlus_zero h e dir)
    (fun x u dt _ => poseProc_psd h e dir hQ x u dt) hR P0 hP

/-! ### A case -/

/-- Such trajectories exist through every pose, for every velocity. -/
theorem movesWith_exists (h : G.Laws mem ad) (X : Member mem) (u : κ → ℝ) (a b : ℝ) :
    MovesWith G (fun t => (⟨X.1 * G.Exp (t • u), h.mem_mul _ _ X.2 (h.mem_exp _)⟩ : Member mem)) u a b := by
  intro t ht i j
  have hm : HasMatDeriv (fun s => X.1 * G.Exp (s • u)) (X.1 * G.Exp (t • u) * G.wedge u) t := by
    unfold MLG.Exp
    simp only [h.wedge_smul]
    refine ((hasMatDeriv_const X.1 t).mul (hasMatDeriv_exp (G.wedge u) t)).congr_deriv ?_
    simp [mul_assoc]
  exact (hm i j).hasDerivWithinAt

/-- Non-vacuity of `PoseLog`: a screw motion in SE(3) with inputs at 0, 1, 2 and a position measurement at 1. -/
example (X : Member IsSE3) (u : Fin 3 ⊕ Fin 3 → ℝ) :
    ∃ (T : ℝ → Member IsSE3) (y : StMeas (Member IsSE3) 6), T 0 = X ∧ PoseLog se3 T 0 [⟨u, 0⟩, ⟨u, 1⟩, ⟨u, 2⟩] [y] ∧
      (∀ s, (y.meas.model.covariance s).PosDef) ∧ y.stamp = 1 := by
  set T : ℝ → Member IsSE3 := fun t => ⟨X.1 * se3.Exp (t • u), se3_laws.mem_mul _ _ X.2 (se3_laws.mem_exp _)⟩ with hT
  refine ⟨T, ⟨⟨3, fun i => (T 1).1 (.inl i) (.inr 0), some 1,
    ⟨fun s => some fun i => s.value.1 (.inl i) (.inr 0), fun _ => 0, fun _ => 1⟩⟩, 1, rfl⟩, ?_, ?_, fun _ => PosDef.one, rfl⟩
  · apply Subtype.ext
    simp [hT, se3_laws.Exp_zero]
  · have hr : retained StInp.stamp 0 [(⟨u, 0⟩ : StInp (Fin 3 ⊕ Fin 3 → ℝ)), ⟨u, 1⟩, ⟨u, 2⟩] = [⟨u, 0⟩, ⟨u, 1⟩, ⟨u, 2⟩] := by
      unfold retained
      rw [sortByStamp_of_sorted _ _ (by simp [TimeSorted])]
      simp
    refine ⟨Or.inr ⟨⟨u, 0⟩, by simp, le_rfl⟩, Or.inr ⟨_, List.mem_singleton.2 rfl, zero_le_one⟩, ?_, ?_, ?_⟩
    · rw [hr]
      exact ⟨movesWith_exists se3_laws X u _ _, movesWith_exists se3_laws X u _ _, trivial⟩
    · intro y hy _
      rw [List.mem_singleton] at hy
      subst hy
      exact Or.inl rfl
    · intro y hy s hs
      rw [List.mem_singleton] at hy
      subst hy
      simp only [List.map_cons, List.map_nil, List.cons_append, List.nil_append, List.mem_cons, List.not_mem_nil, or_false] at hs
      unfold Distinguishable
      rcases hs with rfl | rfl | rfl | rfl | rfl <;> norm_num

end Verif
