import Verif.Props.FilterBatch
import Verif.Props.WorldFrame
import Verif.Model.Datasets
import Mathlib.MeasureTheory.Integral.Bochner.Basic

/-!
C127: dead reckoning. Without measurements and process noise, the error of the estimate (as the state's own perturbation) is carried
along *linearly*, whatever its size, by the matrices that carry the covariance.
-/

namespace Verif

open Matrix

set_option linter.unusedVariables false
set_option linter.unusedSectionVars false

variable {V U : Type} {n : ℕ}

/-- A process model without noise for which perturbations in `S` are carried along exactly by the Jacobian. -/
structure LogLinear (e : EkfEnv V U n) (S : Set (Vec n)) : Prop where
  exact : ∀ v s u dt ξ, 0 ≤ dt → ξ ∈ S →
    (e.proc.evaluate ⟨e.plus v ξ, s⟩ u dt).value
      = e.plus (e.proc.evaluate ⟨v, s⟩ u dt).value (e.proc.jacobian ⟨v, s⟩ u dt *ᵥ ξ)
  stays : ∀ x u dt ξ, 0 ≤ dt → ξ ∈ S → e.proc.jacobian x u dt *ᵥ ξ ∈ S
  noiseless : ∀ x u dt, 0 ≤ dt → e.proc.covariance x u dt = 0

/-- The state that is off the estimate `r` by `Φ ξ`. -/
def offBy (e : EkfEnv V U n) (ξ : Vec n) (r : SWC V n) (Φ : Mat n n) : St V := ⟨e.plus r.state.value (Φ *ᵥ ξ), r.state.stamp⟩

theorem predictTo_ok {e : EkfEnv V U n} {v : V} {t t' : ℝ} {P : Mat n n} {u : StInp U} :
    predictTo (ekfApi e) ⟨⟨v, some t⟩, P⟩ u t'
      = if t' - t < 0 then .error .runtimeError
        else .ok (e.propagate ⟨⟨v, some t⟩, P⟩ ⟨u.value, some u.stamp⟩ t (t' - t) ⟨v, some t⟩) := by
  show e.predict ⟨⟨v, some t⟩, P⟩ (some ⟨u.value, some u.stamp⟩) (some (t' - t)) none = _
  unfold EkfEnv.predict predictTime
  by_cases h : t' - t < 0
  · simp [bind, Except.bind, h]
  · simp [bind, Except.bind, h]

theorem runLoop_step {e : EkfEnv V U n} {u u' : StInp U} {us : List (StInp U)} {x : SWC V n} :
    runLoop (ekfApi e) (u :: u' :: us) [] x
      = predictTo (ekfApi e) x u u'.stamp >>= fun x2 => runLoop (ekfApi e) (u' :: us) [] x2 >>= fun rs => .ok (x :: rs) := rfl

theorem logLinear_loop {e : EkfEnv V U n} {S : Set (Vec n)} (h : LogLinear e S) {P0 : Mat n n} (hP : P0ᵀ = P0) :
    ∀ (us : List (StInp U)) (v : V) (t : ℝ) (Φ : Mat n n) (rs : List (SWC V n)),
      runLoop (ekfApi e) us [] ⟨⟨v, some t⟩, Φ * P0 * Φᵀ⟩ = .ok rs →
      ∃ Φs : List (Mat n n), rs.map SWC.cov = Φs.map (fun Φ => Φ * P0 * Φᵀ) ∧
        ((∀ x u dt, 0 ≤ dt → IsUnit (e.proc.jacobian x u dt).det) → IsUnit Φ.det → ∀ Ψ ∈ Φs, IsUnit Ψ.det) ∧
        ∀ (ξ : Vec n) (P' : Mat n n), Φ *ᵥ ξ ∈ S → ∃ rs', runLoop (ekfApi e) us [] ⟨⟨e.plus v (Φ *ᵥ ξ), some t⟩, P'⟩ = .ok rs' ∧
          rs'.map SWC.state = List.zipWith (offBy e ξ) rs Φs
  | [], v, t, Φ, rs, hrs => by
    obtain rfl : [] = rs := by simpa [runLoop] using hrs
    exact ⟨[], rfl, by simp, fun ξ P' _ => ⟨[], rfl, rfl⟩⟩
  | [u], v, t, Φ, rs, hrs => by
    obtain rfl : [] = rs := by simpa [runLoop] using hrs
    exact ⟨[], rfl, by simp, fun ξ P' _ => ⟨[], rfl, rfl⟩⟩
  | u :: u' :: us, v, t, Φ, rs, hrs => by
    rw [runLoop_step, predictTo_ok] at hrs
    by_cases hd : u'.stamp - t < 0
    · rw [if_pos hd] at hrs
      simp [bind, Except.bind] at hrs
    have hd0 := not_lt.mp hd
    rw [if_neg hd] at hrs
    set A := e.proc.jacobian ⟨v, some t⟩ ⟨u.value, some u.stamp⟩ (u'.stamp - t) with hA
    have hprop : e.propagate ⟨⟨v, some t⟩, Φ * P0 * Φᵀ⟩ ⟨u.value, some u.stamp⟩ t (u'.stamp - t) ⟨v, some t⟩
        = ⟨⟨(e.proc.evaluate ⟨v, some t⟩ ⟨u.value, some u.stamp⟩ (u'.stamp - t)).value, some (t + (u'.stamp - t))⟩, (A * Φ) * P0 * (A * Φ)ᵀ⟩ := by
      unfold EkfEnv.propagate
      simp only [h.noiseless _ _ _ hd0, add_zero, ← hA]
      congr 1
      have e1 : A * (Φ * P0 * Φᵀ) * Aᵀ = (A * Φ) * P0 * (A * Φ)ᵀ := by
        rw [transpose_mul]
        simp only [Matrix.mul_assoc]
      rw [e1]
      refine symmetrize_eq ?_
      simp only [transpose_mul, transpose_transpose, hP, Matrix.mul_assoc]
    rw [hprop] at hrs
    change (runLoop (ekfApi e) (u' :: us) [] _ >>= fun rs => Except.ok (_ :: rs)) = _ at hrs
    cases hr : runLoop (ekfApi e) (u' :: us) [] ⟨⟨(e.proc.evaluate ⟨v, some t⟩ ⟨u.value, some u.stamp⟩ (u'.stamp - t)).value,
        some (t + (u'.stamp - t))⟩, (A * Φ) * P0 * (A * Φ)ᵀ⟩ with
    | error er => rw [hr] at hrs; simp [bind, Except.bind] at hrs
    | ok r1 =>
      rw [hr] at hrs
      obtain rfl : _ :: r1 = rs := by simpa [bind, Except.bind] using hrs
      obtain ⟨Φs, h1, hun, h2⟩ := logLinear_loop h hP (u' :: us) _ _ (A * Φ) r1 hr
      refine ⟨Φ :: Φs, by rw [List.map_cons, List.map_cons, h1], fun hJ hΦ => ?_, fun ξ P' hξ => ?_⟩
      · rw [List.forall_mem_cons]
        exact ⟨hΦ, hun hJ (by rw [det_mul]; exact (hJ _ _ _ hd0).mul hΦ)⟩
      have hst := h.stays ⟨v, some t⟩ ⟨u.value, some u.stamp⟩ (u'.stamp - t) _ hd0 hξ
      rw [← hA, mulVec_mulVec] at hst
      obtain ⟨rs', h3, h4⟩ := h2 ξ (e.propagate ⟨⟨e.plus v (Φ *ᵥ ξ), some t⟩, P'⟩ ⟨u.value, some u.stamp⟩ t (u'.stamp - t)
        ⟨e.plus v (Φ *ᵥ ξ), some t⟩).cov hst
      refine ⟨⟨⟨e.plus v (Φ *ᵥ ξ), some t⟩, P'⟩ :: rs', ?_, ?_⟩
      · rw [runLoop_step, predictTo_ok, if_neg hd]
        have e2 : e.propagate ⟨⟨e.plus v (Φ *ᵥ ξ), some t⟩, P'⟩ ⟨u.value, some u.stamp⟩ t (u'.stamp - t) ⟨e.plus v (Φ *ᵥ ξ), some t⟩
            = ⟨⟨e.plus (e.proc.evaluate ⟨v, some t⟩ ⟨u.value, some u.stamp⟩ (u'.stamp - t)).value ((A * Φ) *ᵥ ξ), some (t + (u'.stamp - t))⟩,
              (e.propagate ⟨⟨e.plus v (Φ *ᵥ ξ), some t⟩, P'⟩ ⟨u.value, some u.stamp⟩ t (u'.stamp - t) ⟨e.plus v (Φ *ᵥ ξ), some t⟩).cov⟩ := by
          unfold EkfEnv.propagate
          simp only [h.exact _ _ _ _ _ hd0 hξ, ← hA, mulVec_mulVec]
        rw [e2]
        change (runLoop (ekfApi e) (u' :: us) [] _ >>= fun rs => Except.ok (_ :: rs)) = _
        rw [h3]
        rfl
      · rw [List.map_cons, List.zipWith_cons_cons, h4]
        rfl

/-- C127: dead reckoning. Let the process model carry the perturbations in `S` exactly. Whatever the error `ξ ∈ S` of the initial
estimate, when the estimate and the true state are both moved by the process model, the true state is off the `j`-th estimate by `Φⱼ ξ`, and
the reported covariance is `Φⱼ P₀ Φⱼᵀ`, with one and the same matrix `Φⱼ` for all errors. (The true states are those that `run_filter` reports
when started at the true state.) -/
theorem C127_run {e : EkfEnv V U n} {S : Set (Vec n)} (h : LogLinear e S) {P0 : Mat n n} (hP : P0ᵀ = P0) (v0 : V) (t0 : ℝ)
    (ins : List (StInp U)) (rs : List (SWC V n)) (hrs : runFilter (ekfApi e) ⟨⟨v0, some t0⟩, P0⟩ ins [] = .ok rs) :
    ∃ Φs : List (Mat n n), rs.map SWC.cov = Φs.map (fun Φ => Φ * P0 * Φᵀ) ∧
      ((∀ x u dt, 0 ≤ dt → IsUnit (e.proc.jacobian x u dt).det) → ∀ Φ ∈ Φs, IsUnit Φ.det) ∧
      ∀ ξ ∈ S, ∃ truth, runFilter (ekfApi e) ⟨⟨e.plus v0 ξ, some t0⟩, P0⟩ ins [] = .ok truth ∧
        truth.map SWC.state = List.zipWith (offBy e ξ) rs Φs := by
  have hd : ∀ t, dropBefore (ekfApi e).ystamp t (sortByStamp (ekfApi e).ystamp []) = [] := by
    intro t
    simp [sortByStamp, dropBefore]
  change runLoop (ekfApi e) (dropBefore _ t0 (sortByStamp _ ins)) (dropBefore (ekfApi e).ystamp t0 (sortByStamp (ekfApi e).ystamp [])) _ = _ at hrs
  rw [hd] at hrs
  have h0 : P0 = (1 : Mat n n) * P0 * (1 : Mat n n)ᵀ := by rw [transpose_one, Matrix.mul_one, Matrix.one_mul]
  rw [h0] at hrs
  obtain ⟨Φs, h1, hun, h2⟩ := logLinear_loop h hP _ v0 t0 1 rs hrs
  refine ⟨Φs, h1, fun hJ => hun hJ (by simp), fun ξ hξ => ?_⟩
  obtain ⟨rs', h3, h4⟩ := h2 ξ P0 (by rwa [one_mulVec])
  rw [one_mulVec] at h3
  refine ⟨rs', ?_, h4⟩
  show runLoop (ekfApi e) (dropBefore _ t0 (sortByStamp _ ins)) (dropBefore (ekfApi e).ystamp t0 (sortByStamp (ekfApi e).ystamp [])) _ = _
  rw [hd]
  exact h3

/-- C127: the covariance of dead reckoning is honest, for initial errors of any size: if the initial error is random with second moments
`P₀`, the second moments of the error of the `j`-th estimate are the reported covariance. `err` lists the errors of the estimates; they are
random because the initial one is. -/
theorem C127_honest {e : EkfEnv V U n} {S : Set (Vec n)} (h : LogLinear e S) {P0 : Mat n n} (v0 : V) (t0 : ℝ) (ins : List (StInp U))
    (rs : List (SWC V n)) (hrs : runFilter (ekfApi e) ⟨⟨v0, some t0⟩, P0⟩ ins [] = .ok rs) {Ω : Type} [MeasurableSpace Ω]
    (μ : MeasureTheory.Measure Ω) (ξ : Ω → Vec n) (hS : ∀ ω, ξ ω ∈ S) (hi : ∀ i j, MeasureTheory.Integrable (fun ω => ξ ω i * ξ ω j) μ)
    (hP : ∀ i j, ∫ ω, ξ ω i * ξ ω j ∂μ = P0 i j) :
    ∃ err : List (Ω → Vec n), List.Forall₂ (fun (r : SWC V n) (d : Ω → Vec n) => ∀ i j, ∫ ω, d ω i * d ω j ∂μ = r.cov i j) rs err ∧
      ∀ ω, ∃ truth, runFilter (ekfApi e) ⟨⟨e.plus v0 (ξ ω), some t0⟩, P0⟩ ins [] = .ok truth ∧
        truth.map SWC.state = List.zipWith (fun (r : SWC V n) (d : Ω → Vec n) => (⟨e.plus r.state.value (d ω), r.state.stamp⟩ : St V)) rs err := by
  have hsym : P0ᵀ = P0 := by
    ext i j
    rw [transpose_apply, ← hP, ← hP]
    exact MeasureTheory.integral_congr_ae (.of_forall fun ω => mul_comm _ _)
  obtain ⟨Φs, h1, -, h2⟩ := C127_run h hsym v0 t0 ins rs hrs
  refine ⟨Φs.map fun Φ ω => Φ *ᵥ ξ ω, ?_, fun ω => ?_⟩
  · have hmom : ∀ Φ : Mat n n, ∀ i j, ∫ ω, (Φ *ᵥ ξ ω) i * (Φ *ᵥ ξ ω) j ∂μ = (Φ * P0 * Φᵀ) i j := by
      intro Φ i j
      have e1 : ∀ ω, (Φ *ᵥ ξ ω) i * (Φ *ᵥ ξ ω) j = ∑ l, ∑ k, Φ i k * Φ j l * (ξ ω k * ξ ω l) := by
        intro ω
        simp only [mulVec, dotProduct, Finset.sum_mul_sum]
        rw [Finset.sum_comm]
        exact Finset.sum_congr rfl fun l _ => Finset.sum_congr rfl fun k _ => by ring
      simp only [e1]
      rw [MeasureTheory.integral_finsetSum _ fun l _ => MeasureTheory.integrable_finsetSum _ fun k _ => (hi k l).const_mul _]
      rw [mul_apply]
      refine Finset.sum_congr rfl fun l _ => ?_
      rw [MeasureTheory.integral_finsetSum _ fun k _ => (hi k l).const_mul _, mul_apply, Finset.sum_mul]
      refine Finset.sum_congr rfl fun k _ => ?_
      rw [MeasureTheory.integral_const_mul, hP, transpose_apply]
      ring
    rw [List.forall₂_map_right_iff]
    clear hrs h2
    induction rs generalizing Φs with
    | nil =>
      obtain rfl : Φs = [] := by simpa using h1
      exact .nil
    | cons r rs ih =>
      cases Φs with
      | nil => simp at h1
      | cons Φ Φs =>
        rw [List.map_cons, List.map_cons, List.cons.injEq] at h1
        refine .cons (fun i j => ?_) (ih Φs h1.2)
        rw [hmom, h1.1]
  · obtain ⟨truth, h3, h4⟩ := h2 (ξ ω) (hS ω)
    refine ⟨truth, h3, ?_⟩
    rw [h4, List.zipWith_map_right]
    rfl

/-- C127: the normalised squared error of dead reckoning stays what it was at the start, whatever the error. -/
theorem C127_nees {e : EkfEnv V U n} {S : Set (Vec n)} (h : LogLinear e S) {P0 : Mat n n} (hP : P0.PosDef) (v0 : V) (t0 : ℝ)
    (hJ : ∀ x u dt, 0 ≤ dt → IsUnit (e.proc.jacobian x u dt).det) (ins : List (StInp U))
    (rs : List (SWC V n)) (hrs : runFilter (ekfApi e) ⟨⟨v0, some t0⟩, P0⟩ ins [] = .ok rs) (ξ : Vec n) (hξ : ξ ∈ S) :
    ∃ (err : List (Vec n)) (truth : List (SWC V n)), runFilter (ekfApi e) ⟨⟨e.plus v0 ξ, some t0⟩, P0⟩ ins [] = .ok truth ∧
      truth.map SWC.state = List.zipWith (fun (r : SWC V n) d => (⟨e.plus r.state.value d, r.state.stamp⟩ : St V)) rs err ∧
      List.Forall₂ (fun (r : SWC V n) (d : Vec n) => d ⬝ᵥ (r.cov⁻¹ *ᵥ d) = ξ ⬝ᵥ (P0⁻¹ *ᵥ ξ)) rs err := by
  obtain ⟨Φs, h1, hun0, h2⟩ := C127_run h (psd_symm hP.posSemidef) v0 t0 ins rs hrs
  obtain ⟨truth, h3, h4⟩ := h2 ξ hξ
  have hun := hun0 hJ
  clear hun0
  refine ⟨Φs.map fun Φ => Φ *ᵥ ξ, truth, h3, ?_, ?_⟩
  · rw [h4, List.zipWith_map_right]
    rfl
  · rw [List.forall₂_map_right_iff]
    clear hrs h2 h3 h4
    induction rs generalizing Φs with
    | nil =>
      obtain rfl : Φs = [] := by simpa using h1
      exact .nil
    | cons r rs ih =>
      cases Φs with
      | nil => simp at h1
      | cons Φ Φs =>
        rw [List.map_cons, List.map_cons, List.cons.injEq] at h1
        rw [List.forall_mem_cons] at hun
        refine .cons ?_ (ih Φs h1.2 hun.2)
        rw [h1.1]
        have hu := hun.1
        have e1 : Φᵀ * (Φ * P0 * Φᵀ)⁻¹ * Φ = P0⁻¹ := by
          rw [Matrix.mul_inv_rev, Matrix.mul_inv_rev, ← Matrix.mul_assoc, Matrix.mul_nonsing_inv _ (by rwa [det_transpose]), Matrix.one_mul,
            Matrix.mul_assoc, Matrix.nonsing_inv_mul _ hu, Matrix.mul_one]
        rw [← e1, ← mulVec_mulVec, ← mulVec_mulVec, dotProduct_mulVec ξ, vecMul_transpose]

/-! ### Linear systems and groups -/

/-- C127 applies to linear systems. -/
theorem C127_linear (A : Inp U → ℝ → Mat n n) (b : Inp U → ℝ → Vec n) (chi : ℕ → ℝ) :
    LogLinear (linFilter A b (fun _ _ => 0) chi) Set.univ where
  exact v s u dt ξ _ _ := by
    show A u dt *ᵥ (v + ξ) + b u dt = A u dt *ᵥ v + b u dt + A u dt *ᵥ ξ
    rw [mulVec_add]
    abel
  stays _ _ _ _ _ _ := trivial
  noiseless _ _ _ _ := rfl

/-- C127 applies to `BodyFrameVelocity` on every group and in both directions: errors of any size. -/
theorem C127_group {ι κ : Type} [Fintype ι] [DecidableEq ι] [Fintype κ] [DecidableEq κ] {G : MLG ι κ} {mem : Matrix ι ι ℝ → Prop}
    {ad : (κ → ℝ) → Matrix κ κ ℝ} (h : G.Laws mem ad) (dir : Dir) (eqv : κ ≃ Fin n) (rej : Bool) (chi : ℕ → ℝ) :
    LogLinear (groupEkf h dir 0 eqv rej chi) Set.univ where
  exact v s u dt ξ _ _ := by
    apply Subtype.ext
    have := congrArg GSt.value (C78_jacobian h ⟨v.1, dir, s⟩ u.value (ξ ∘ eqv) dt)
    cases dir <;>
    · refine Eq.trans this ?_
      show (GSt.plus G _ _).value = (GSt.plus G _ ((numbered eqv _ *ᵥ ξ) ∘ eqv)).value
      rw [numbered_mulVec]
      rfl
  stays _ _ _ _ _ _ := trivial
  noiseless x u dt _ := by
    show numbered eqv (bfvCovariance G 0 _ _ _) = 0
    unfold bfvCovariance
    rw [Matrix.mul_zero, Matrix.zero_mul]
    rfl

/-- On groups the Jacobians are invertible, so C127_nees applies. -/
theorem C127_group_unit {ι κ : Type} [Fintype ι] [DecidableEq ι] [Fintype κ] [DecidableEq κ] {G : MLG ι κ} {mem : Matrix ι ι ℝ → Prop}
    {ad : (κ → ℝ) → Matrix κ κ ℝ} (h : G.Laws mem ad) (dir : Dir) (Q : Matrix κ κ ℝ) (eqv : κ ≃ Fin n) (rej : Bool) (chi : ℕ → ℝ)
    (x : St {X // mem X}) (u : Inp (κ → ℝ)) (dt : ℝ) : IsUnit ((groupEkf h dir Q eqv rej chi).proc.jacobian x u dt).det := by
  have key : ∃ B, numbered eqv (bfvJacobian G ⟨x.value.1, dir, x.stamp⟩ u.value dt) * B = 1 := by
    cases dir
    · refine ⟨numbered eqv (G.adjoint (G.inverse (G.Exp (dt • -u.value)))), ?_⟩
      rw [numbered_mul]
      show numbered eqv (G.adjoint (G.Exp (dt • -u.value)) * _) = 1
      rw [h.adjoint_mul_inv (h.mem_exp _)]
      exact submatrix_one_equiv _
    · refine ⟨1, ?_⟩
      rw [Matrix.mul_one]
      exact submatrix_one_equiv _
  obtain ⟨B, hB⟩ := key
  exact (isUnit_iff_isUnit_det _).mp (IsUnit.of_mul_eq_one _ hB)

/-! ### Inertial navigation -/

/-- Perturbations of an `IMUState` that leave the biases alone. -/
def navOnly : Set (Vec 15) := {ξ | ∀ p, ξ (imuEqv (3, p)) = 0 ∧ ξ (imuEqv (4, p)) = 0}

theorem navOnly_blocks {ξ : Vec 15} (h : ξ ∈ navOnly) :
    (fun (i : Fin 5) (p : Fin 3) => ξ (imuEqv (i, p)))
      = ![fun p => ξ (imuEqv (0, p)), fun p => ξ (imuEqv (1, p)), fun p => ξ (imuEqv (2, p)), 0, 0] := by
  funext i p
  fin_cases i
  · rfl
  · rfl
  · rfl
  · exact (h p).1
  · exact (h p).2

theorem numbered_act (B : Blk 5 5) (ξ : Vec 15) (i : Fin 5) (p : Fin 3) :
    (numbered imuEqv B.flat *ᵥ ξ) (imuEqv (i, p)) = B.act (fun i p => ξ (imuEqv (i, p))) i p := by
  rw [← Blk.flat_mulVec]
  exact congrFun (numbered_mulVec imuEqv B.flat ξ) (i, p)

theorem NavBias.ext' {x y : NavBias} (h1 : x.pose.1 = y.pose.1) (h2 : x.bg = y.bg) (h3 : x.ba = y.ba) : x = y := by
  obtain ⟨⟨_, _⟩, _, _⟩ := x
  obtain ⟨⟨_, _⟩, _, _⟩ := y
  simp only at h1 h2 h3
  subst h1 h2 h3
  rfl

/-- The navigation part of a perturbation. -/
def navPart (ξ : Vec 15) : Fin 3 → Vec 3 := ![fun p => ξ (imuEqv (0, p)), fun p => ξ (imuEqv (1, p)), fun p => ξ (imuEqv (2, p))]

theorem imuJac_nav (tol : ℝ) (g : Vec 3) (dir : Dir) (Q : Blk 4 4) (x : St NavBias) (u : Inp ImuVal) (dt : ℝ) {ξ : Vec 15} (h : ξ ∈ navOnly) :
    (fun (i : Fin 5) (p : Fin 3) => ((imuProc tol g dir Q).jacobian x u dt *ᵥ ξ) (imuEqv (i, p)))
      = ![(imuNavJac tol g dir (u.value 0 - x.value.bg) (u.value 1 - x.value.ba) dt).act (navPart ξ) 0,
        (imuNavJac tol g dir (u.value 0 - x.value.bg) (u.value 1 - x.value.ba) dt).act (navPart ξ) 1,
        (imuNavJac tol g dir (u.value 0 - x.value.bg) (u.value 1 - x.value.ba) dt).act (navPart ξ) 2, 0, 0] := by
  funext i p
  show (numbered imuEqv (((imuJacobian tol g (x.value.toSt dir x.stamp) (imuObj u.value u.stamp) dt).toOption.getD 0).flat) *ᵥ ξ) (imuEqv (i, p)) = _
  rw [numbered_act, navOnly_blocks h, NavBias.toSt, imuObj, imuJacobian_ok]
  exact congrFun (congrFun (withBias_act_nav _ _ (navPart ξ)) i) p

/-- C127 applies to inertial navigation, for errors of any size of attitude, velocity and position, the biases being known. -/
theorem C127_imu (tol : ℝ) (g : Vec 3) (dir : Dir) (rej : Bool) (chi : ℕ → ℝ) : LogLinear (imuEkf tol g dir 0 rej chi) navOnly where
  exact v s u dt ξ _ hξ := by
    have hb := navOnly_blocks hξ
    have hj := imuJac_nav tol g dir 0 ⟨v, s⟩ u dt hξ
    have e3 : ∀ w : Fin 3 → Vec 3, ![w 0, w 1, w 2] = w := by intro w; funext i; fin_cases i <;> rfl
    have z3 : (fun p => ξ (imuEqv (3, p))) = (0 : Vec 3) := congrFun hb 3
    have z4 : (fun p => ξ (imuEqv (4, p))) = (0 : Vec 3) := congrFun hb 4
    have y3 : (fun p => ((imuProc tol g dir 0).jacobian ⟨v, s⟩ u dt *ᵥ ξ) (imuEqv (3, p))) = (0 : Vec 3) := congrFun hj 3
    have y4 : (fun p => ((imuProc tol g dir 0).jacobian ⟨v, s⟩ u dt *ᵥ ξ) (imuEqv (4, p))) = (0 : Vec 3) := congrFun hj 4
    have hbg : (NavBias.plus dir v ξ).bg = v.bg := by
      show v.bg + _ = v.bg
      rw [z3, add_zero]
    have hba : (NavBias.plus dir v ξ).ba = v.ba := by
      show v.ba + _ = v.ba
      rw [z4, add_zero]
    refine NavBias.ext' ?_ ?_ ?_
    · show gMatrix g dt * (NavBias.plus dir v ξ).pose.1 * uMatrix tol (u.value 0 - (NavBias.plus dir v ξ).bg) (u.value 1 - (NavBias.plus dir v ξ).ba) dt
        = (ImuSt.plus _ fun i p => ((imuProc tol g dir 0).jacobian ⟨v, s⟩ u dt *ᵥ ξ) (imuEqv (i, p))).pose
      rw [hj, hbg, hba]
      show gMatrix g dt * (ImuSt.plus (v.toSt dir none) fun i p => ξ (imuEqv (i, p))).pose * _ = _
      rw [hb]
      cases dir
      · show gMatrix g dt * (v.pose.1 * se23Exp (navPart ξ)) * _ = _ * se23Exp ![_, _, _]
        rw [navPose_right]
        congr 2
        exact (e3 _).symm
      · show gMatrix g dt * (se23Exp (navPart ξ) * v.pose.1) * _ = se23Exp ![_, _, _] * _
        rw [navPose_left]
        congr 2
        exact (e3 _).symm
    · show (NavBias.plus dir v ξ).bg + dt • u.value 2 = v.bg + dt • u.value 2 + fun p => ((imuProc tol g dir 0).jacobian ⟨v, s⟩ u dt *ᵥ ξ) (imuEqv (3, p))
      rw [hbg, y3, add_zero]
    · show (NavBias.plus dir v ξ).ba + dt • u.value 3 = v.ba + dt • u.value 3 + fun p => ((imuProc tol g dir 0).jacobian ⟨v, s⟩ u dt *ᵥ ξ) (imuEqv (4, p))
      rw [hba, y4, add_zero]
  stays x u dt ξ _ hξ := fun p => ⟨congrFun (congrFun (imuJac_nav tol g dir 0 x u dt hξ) 3) p,
    congrFun (congrFun (imuJac_nav tol g dir 0 x u dt hξ) 4) p⟩
  noiseless x u dt _ := by
    show numbered imuEqv (((imuCovariance tol g 0 (x.value.toSt dir x.stamp) (imuObj u.value u.stamp) dt).toOption.getD 0).flat) = 0
    rw [NavBias.toSt, imuObj]
    unfold imuCovariance
    rw [imuInputJac_ok]
    show numbered imuEqv (Blk.flat (noiseJac _ dt * (0 : Blk 4 4) * (noiseJac _ dt).T)) = 0
    rw [Matrix.mul_zero, Matrix.zero_mul]
    rfl

/-- C127's hypotheses are met: inertial navigation over any time from a state with a large error. -/
example (u : ImuVal) (v0 : NavBias) : ∃ rs, runFilter (ekfApi (imuEkf 0.001 ![0, 0, -9.81] .right 0 true fun _ => 4)) ⟨⟨v0, some 0⟩, 1⟩
    [⟨u, 0⟩, ⟨u, 1⟩] [] = .ok rs ∧ rs.length = 1 ∧ (fun i => if i = imuEqv (2, 0) then 1000 else 0 : Vec 15) ∈ navOnly := by
  have hsort : sortByStamp (ekfApi (imuEkf 0.001 ![0, 0, -9.81] .right 0 true fun _ => 4)).istamp [⟨u, 0⟩, ⟨u, 1⟩] = [⟨u, 0⟩, ⟨u, 1⟩] := by
    unfold sortByStamp
    refine List.mergeSort_of_pairwise ?_
    simp [ekfApi]
  have hdrop : dropBefore (ekfApi (imuEkf 0.001 ![0, 0, -9.81] .right 0 true fun _ => 4)).istamp 0 [⟨u, 0⟩, ⟨u, 1⟩] = [⟨u, 0⟩, ⟨u, 1⟩] := by
    unfold dropBefore
    rw [if_pos ⟨⟨u, 0⟩, by simp, le_refl _⟩]
    simp [ekfApi]
  refine ⟨[⟨⟨v0, some 0⟩, 1⟩], ?_, rfl, fun p => ⟨?_, ?_⟩⟩
  · show runLoop _ (dropBefore _ 0 (sortByStamp _ _)) (dropBefore (ekfApi _).ystamp 0 (sortByStamp (ekfApi _).ystamp [])) _ = _
    rw [hsort, hdrop, show dropBefore (ekfApi (imuEkf 0.001 ![0, 0, -9.81] .right 0 true fun _ => 4)).ystamp 0
      (sortByStamp (ekfApi (imuEkf 0.001 ![0, 0, -9.81] .right 0 true fun _ => 4)).ystamp []) = [] by simp [sortByStamp, dropBefore], runLoop_step,
      predictTo_ok, if_neg (by norm_num)]
    rfl
  · beta_reduce
    rw [if_neg]
    intro h
    have := imuEqv.injective h
    simp at this
  · beta_reduce
    rw [if_neg]
    intro h
    have := imuEqv.injective h
    simp at this

end Verif
