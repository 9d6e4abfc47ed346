import Verif.Model.FiniteDiff
import Verif.Props.Residuals
import Verif.Props.MixtureGrad
import Verif.Lemmas.LinAlg
import Mathlib.Analysis.Calculus.Deriv.MeanValue
import Mathlib.Analysis.Calculus.Deriv.Slope
import Mathlib.Tactic.LinearCombination

/-!
Property theorems about finite difference Jacobians (C53).
-/

namespace Verif

open Matrix

set_option linter.unusedVariables false
set_option linter.unusedSectionVars false

variable {X Y U : Type} {N M : ℕ}

theorem mulVec_stepVec (A : Mat M N) (h : ℝ) (i : Fin N) (k : Fin M) : (A *ᵥ stepVec h i) k = A k i * h := by
  simp [mulVec, dotProduct, stepVec]

theorem stepVec_neg (h : ℝ) (i : Fin N) : -stepVec h i = stepVec (-h) i := by
  funext j; simp only [stepVec, Pi.neg_apply]; split <;> simp

theorem mapM_finRange {β : Type} (g : Fin N → Except Err β) (c : Fin N → β) (hc : ∀ i, g i = .ok (c i)) :
    (List.finRange N).mapM g = .ok (List.ofFn c) := by
  have h : ∀ l : List (Fin N), l.mapM g = .ok (l.map c) := by
    intro l
    induction l with
    | nil => rfl
    | cons a l ih => rw [List.mapM_cons, hc a]; simp only [ih]; rfl
  rw [h, List.ofFn_eq_map]

/-- The Jacobian when every column is computed. -/
theorem utilsJacobian_ok (F : FdFun X Y N M) (x : X) (step : Option ℝ) (m : FdMethod) (c : Fin N → Vec M)
    (hc : ∀ i, F.column x (step.getD (defaultStep m)) m i = .ok (c i)) :
    utilsJacobian F x step m = .ok (.of fun k i => c i k) := by
  unfold utilsJacobian
  rw [mapM_finRange _ c hc, ok_bindE]
  congr 1
  ext k i
  simp [List.getD]

/-- **C53.** With an unknown method the call raises `ValueError` (if the input has any components), and with a known
one it never raises. -/
theorem C53_method (F : FdFun X Y N M) (x : X) (step : Option ℝ) (m : FdMethod) :
    (∃ J, utilsJacobian F x step m = .ok J) ↔ m ≠ .other ∨ N = 0 := by
  constructor
  · rintro ⟨J, h⟩
    by_contra hh
    push Not at hh
    obtain ⟨rfl, h0⟩ := hh
    obtain ⟨n, rfl⟩ := Nat.exists_eq_succ_of_ne_zero h0
    unfold utilsJacobian at h
    rw [List.finRange_succ, List.mapM_cons] at h
    cases h
  · rintro (h | rfl)
    · cases m with
      | forward => exact ⟨_, utilsJacobian_ok F x step _ _ fun i => rfl⟩
      | central => exact ⟨_, utilsJacobian_ok F x step _ _ fun i => rfl⟩
      | cs => exact ⟨_, utilsJacobian_ok F x step _ _ fun i => rfl⟩
      | other => exact absurd rfl h
    · exact ⟨_, utilsJacobian_ok F x step m (fun i => i.elim0) fun i => i.elim0⟩

theorem C53_unknown_method (F : FdFun X Y (N + 1) M) (x : X) (step : Option ℝ) :
    utilsJacobian F x step .other = .error .valueError := by
  unfold utilsJacobian
  rw [List.finRange_succ, List.mapM_cons]
  rfl

/-- **C53.** All three methods are exact for affine functions `A x + b` of arrays, for every step but zero. -/
theorem C53_affine (A : Mat M N) (b : Vec M) (x : Vec N) (step : Option ℝ) (hs : step ≠ some 0) (m : FdMethod)
    (hm : m ≠ .other) :
    utilsJacobian (arrayFd (fun x => A *ᵥ x + b) (fun z k => ∑ j, (A k j : ℂ) * z j + (b k : ℂ))) x step m = .ok A := by
  have h0 : step.getD (defaultStep m) ≠ 0 := by
    cases step with
    | none =>
      simp only [Option.getD_none, defaultStep]
      split <;> positivity
    | some h => simpa using hs
  set h := step.getD (defaultStep m) with hh
  have e : ∀ i, (arrayFd (fun x => A *ᵥ x + b) (fun z k => ∑ j, (A k j : ℂ) * z j + (b k : ℂ))).column x h m i =
      .ok fun k => A k i := by
    intro i
    cases m with
    | forward =>
      simp only [FdFun.column, FdFun.toDiff, arrayFd]
      congr 1
      funext k
      simp only [mulVec_add, Pi.sub_apply, Pi.add_apply, mulVec_stepVec, mulVec_zero, Pi.zero_apply]
      field_simp
      ring
    | central =>
      simp only [FdFun.column, FdFun.toDiff, arrayFd]
      congr 1
      funext k
      rw [stepVec_neg]
      simp only [mulVec_add, Pi.sub_apply, Pi.add_apply, mulVec_stepVec]
      field_simp
      ring
    | cs =>
      simp only [FdFun.column, arrayFd]
      congr 1
      funext k
      simp only [Complex.sub_im, Complex.add_im, Complex.im_sum, Complex.mul_im, Complex.ofReal_re, Complex.ofReal_im,
        Complex.add_re, Complex.I_re, Complex.I_im, zero_mul, one_mul, add_zero, zero_add, mul_zero, sub_zero,
        Complex.mul_re]
      have := mulVec_stepVec A h i k
      simp only [mulVec, dotProduct] at this
      rw [this]
      field_simp
    | other => exact absurd rfl hm
  rw [utilsJacobian_ok _ x step m (fun i k => A k i) e]
  congr 1

/-- A quadratic function: component `k` is `x^T Q_k x + (A x)_k + b_k`. -/
def quadFun (Q : Fin M → Mat N N) (A : Mat M N) (b : Vec M) (x : Vec N) : Vec M :=
  fun k => x ⬝ᵥ Q k *ᵥ x + (A *ᵥ x) k + b k

/-- **C53.** Central differences are exact for quadratic functions, for every step but zero. -/
theorem C53_quadratic (Q : Fin M → Mat N N) (A : Mat M N) (b : Vec M) (fc : (Fin N → ℂ) → Fin M → ℂ) (x : Vec N)
    (step : Option ℝ) (hs : step ≠ some 0) :
    utilsJacobian (arrayFd (quadFun Q A b) fc) x step .central =
      .ok (.of fun k i => (Q k *ᵥ x) i + ((Q k)ᵀ *ᵥ x) i + A k i) := by
  have h0 : step.getD (defaultStep .central) ≠ 0 := by
    cases step with
    | none => simp only [Option.getD_none, defaultStep]; split <;> positivity
    | some h => simpa using hs
  refine utilsJacobian_ok _ x step .central (fun i k => (Q k *ᵥ x) i + ((Q k)ᵀ *ᵥ x) i + A k i) ?_
  intro i
  set h := step.getD (defaultStep .central) with hh
  simp only [FdFun.column, FdFun.toDiff, arrayFd]
  congr 1
  funext k
  rw [stepVec_neg]
  have d1 : ∀ (s : ℝ) (v : Vec N), stepVec s i ⬝ᵥ v = s * v i := by
    intro s v; simp [stepVec, dotProduct]
  have d2 : ∀ s : ℝ, x ⬝ᵥ Q k *ᵥ stepVec s i = s * ((Q k)ᵀ *ᵥ x) i := by
    intro s
    rw [dotProduct_mulVec, dotProduct_comm, d1, mulVec_transpose]
  simp only [quadFun, mulVec_add, Pi.sub_apply, Pi.add_apply, mulVec_stepVec, add_dotProduct, dotProduct_add, d1, d2]
  field_simp
  ring

/-- Forward differences are not exact for quadratic functions (so the previous theorem cannot be extended): for `x^2`
the error is the step. -/
theorem C53_forward_quadratic_error (fc : (Fin 1 → ℂ) → Fin 1 → ℂ) (x : Vec 1) (h : ℝ) (hh : h ≠ 0) :
    utilsJacobian (arrayFd (quadFun (fun _ => (1 : Mat 1 1)) 0 0) fc) x (some h) .forward =
      .ok (.of fun _ _ => 2 * x 0 + h) := by
  refine utilsJacobian_ok _ x (some h) .forward (fun i k => 2 * x 0 + h) ?_
  intro i
  simp only [FdFun.column, FdFun.toDiff, arrayFd, Option.getD_some]
  congr 1
  funext k
  simp only [quadFun, one_mulVec, zero_mulVec, Pi.zero_apply, add_zero, Pi.sub_apply, dotProduct, Finset.univ_unique,
    Fin.default_eq_zero, Finset.sum_singleton, Pi.add_apply, stepVec, Subsingleton.elim i 0, if_true]
  field_simp
  ring

/-- **C53.** For every state and output class and every function that is differentiable along coordinate `i` (with
`Y.minus(Y) = 0`), column `i` of the forward difference tends to the derivative as the step goes to zero. -/
theorem C53_limit (F : FdFun X Y N M) (x : X) (i : Fin N) (k : Fin M) (d : ℝ)
    (h0 : F.toDiff x 0 k = 0) (hd : HasDerivAt (fun t => F.toDiff x (stepVec t i) k) d 0) :
    Filter.Tendsto (fun h => (F.toDiff x (stepVec h i) k - F.toDiff x 0 k) / h) (nhdsWithin 0 {0}ᶜ) (nhds d) ∧
    ∀ h J, utilsJacobian F x (some h) .forward = .ok J → J k i = (F.toDiff x (stepVec h i) k - F.toDiff x 0 k) / h := by
  constructor
  · have hz : (stepVec 0 i : Vec N) = 0 := by funext j; simp [stepVec]
    have := hd.tendsto_slope_zero
    simp only [zero_add, hz, smul_eq_mul] at this
    refine this.congr fun h => ?_
    rw [div_eq_inv_mul]
  · intro h J hJ
    rw [utilsJacobian_ok F x (some h) .forward (fun i k => (F.toDiff x (stepVec h i) k - F.toDiff x 0 k) / h)
      (fun i => rfl)] at hJ
    cases hJ
    rfl

/-- **C53.** The error of the forward difference is at most `K h` when the derivative along the coordinate changes at
most at the rate `K`. -/
theorem C53_error_bound (F : FdFun X Y N M) (x : X) (i : Fin N) (k : Fin M) (g' : ℝ → ℝ) (K h : ℝ) (hh : 0 < h)
    (h0 : F.toDiff x 0 k = 0)
    (hd : ∀ t ∈ Set.Icc 0 h, HasDerivAt (fun t => F.toDiff x (stepVec t i) k) (g' t) t)
    (hK : ∀ t ∈ Set.Icc 0 h, |g' t - g' 0| ≤ K * t) :
    ∃ J, utilsJacobian F x (some h) .forward = .ok J ∧ |J k i - g' 0| ≤ K * h := by
  refine ⟨_, utilsJacobian_ok F x (some h) .forward (fun i k => (F.toDiff x (stepVec h i) k - F.toDiff x 0 k) / h)
      (fun i => rfl), ?_⟩
  have hz : (stepVec 0 i : Vec N) = 0 := by funext j; simp [stepVec]
  obtain ⟨c, hc, he⟩ := exists_hasDerivAt_eq_slope (fun t => F.toDiff x (stepVec t i) k) g' hh
    (fun t ht => (hd t ht).continuousAt.continuousWithinAt) (fun t ht => hd t ⟨ht.1.le, ht.2.le⟩)
  simp only [hz, sub_zero] at he
  show |(F.toDiff x (stepVec h i) k - F.toDiff x 0 k) / h - g' 0| ≤ K * h
  rw [← he]
  have hK0 : 0 ≤ K := by
    have := (abs_nonneg _).trans (hK c ⟨hc.1.le, hc.2.le⟩)
    nlinarith [hc.1]
  exact (hK c ⟨hc.1.le, hc.2.le⟩).trans (mul_le_mul_of_nonneg_left hc.2.le hK0)

/-- **C53.** The default Jacobian of a measurement model is exact for affine models of vector states. -/
theorem C53_measurement (A : Mat M N) (b : Vec M) (x : Vec N) (h : ℝ) (hh : h ≠ 0) :
    measJacobianFd (fun x dx => x + dx) (fun x => some (A *ᵥ x + b)) x h = .ok A := by
  unfold measJacobianFd
  simp only [reduceCtorEq, exists_false, if_false, Option.getD_some]
  congr 1
  ext k i
  simp only [of_apply, mulVec_add, Pi.add_apply, mulVec_stepVec]
  field_simp
  ring

/-- **C53.** A measurement model that returns `None` at `x`, or near it, makes `jacobian_fd` raise; otherwise it
succeeds. -/
theorem C53_measurement_none (plus : X → Vec N → X) (evaluate : X → Option (Vec M)) (x : X) (h : ℝ) :
    (evaluate x = none → measJacobianFd plus evaluate x h = .error .attributeError) ∧
    (∀ i, evaluate x ≠ none → evaluate (plus x (stepVec h i)) = none →
      measJacobianFd plus evaluate x h = .error .typeError) ∧
    (evaluate x ≠ none → (∀ i, evaluate (plus x (stepVec h i)) ≠ none) → ∃ J, measJacobianFd plus evaluate x h = .ok J) := by
  unfold measJacobianFd
  refine ⟨fun h1 => by rw [h1], fun i h1 h2 => ?_, fun h1 h2 => ?_⟩
  · cases hy : evaluate x with
    | none => exact absurd hy h1
    | some y => simp only; rw [if_pos ⟨i, h2⟩]
  · cases hy : evaluate x with
    | none => exact absurd hy h1
    | some y =>
      simp only
      rw [if_neg (by push Not; exact h2)]
      exact ⟨_, rfl⟩

/-- **C53.** The default Jacobians of a process model are exact for models of vector states that are affine in the
state and in the input. -/
theorem C53_process (A : Mat N N) (B : Mat N M) (c : Vec N) (x : Vec N) (u : Vec M) (dt h : ℝ) (hh : h ≠ 0) :
    procJacobianFd (vecStateOps N) (fun x u _ => A *ᵥ x + B *ᵥ u + c) x u dt h = A ∧
    inputJacobianFd (vecStateOps N) (fun (u du : Vec M) => u + du) (fun x u _ => A *ᵥ x + B *ᵥ u + c) x u dt h = B := by
  constructor <;> ext k i
  · simp only [procJacobianFd, vecStateOps, of_apply, mulVec_add, Pi.add_apply, Pi.sub_apply, mulVec_stepVec]
    field_simp
    ring
  · simp only [inputJacobianFd, vecStateOps, of_apply, mulVec_add, Pi.add_apply, Pi.sub_apply, mulVec_stepVec]
    field_simp
    ring

/-- **C53.** The default process noise covariance is positive semidefinite for every state class and every model if the
input covariance is, and equals `B Q B^T` for vector states and models that are affine in the input. -/
theorem C53_covariance (o : StateOps X N) (uplus : U → Vec M → U) (evaluate : X → U → ℝ → X)
    (Q : X → U → ℝ → Mat M M) (x : X) (u : U) (dt : ℝ) (hQ : (Q x u dt).PosSemidef) :
    (defaultCovariance o uplus evaluate Q x u dt).PosSemidef := psd_conj hQ _

theorem C53_covariance_affine (f : Vec N → ℝ → Vec N) (B : Vec N → ℝ → Mat N M) (Q : Mat M M) (x : Vec N) (u : Vec M)
    (dt : ℝ) :
    defaultCovariance (vecStateOps N) (fun (u du : Vec M) => u + du) (fun x u dt => f x dt + B x dt *ᵥ u) (fun _ _ _ => Q)
      x u dt = B x dt * Q * (B x dt)ᵀ := by
  have e : inputJacobianFd (vecStateOps N) (fun (u du : Vec M) => u + du) (fun x u dt => f x dt + B x dt *ᵥ u) x u dt
      (10 ^ (-6 : ℤ)) = B x dt := by
    ext k i
    simp only [inputJacobianFd, vecStateOps, of_apply, mulVec_add, Pi.add_apply, Pi.sub_apply, mulVec_stepVec]
    have : (10 : ℝ) ^ (-6 : ℤ) ≠ 0 := by positivity
    field_simp
    ring
  unfold defaultCovariance
  simp only [e]

/-- **C53.** The default `plus_jacobian` of a vector state is the identity. -/
theorem C53_plus (x dx : Vec N) (h : ℝ) (hh : h ≠ 0) : plusJacobianFd (vecStateOps N) x dx h = 1 := by
  ext k i
  simp only [plusJacobianFd, vecStateOps, of_apply, Pi.add_apply, Pi.sub_apply, stepVec, one_apply]
  split <;> field_simp <;> ring

/-- The hypotheses of `C53_limit` and `C53_error_bound` hold for `x^2` at `x = 3`. -/
example (fc : (Fin 1 → ℂ) → Fin 1 → ℂ) :
    let F := arrayFd (fun x : Vec 1 => fun _ : Fin 1 => x 0 ^ 2) fc
    F.toDiff (fun _ => 3) 0 0 = 0 ∧
    (∀ t, HasDerivAt (fun t => F.toDiff (fun _ => 3) (stepVec t 0) 0) (2 * t + 6) t) ∧
    ∀ t ∈ Set.Icc (0 : ℝ) 1, |(2 * t + 6) - (2 * 0 + 6)| ≤ 2 * t := by
  refine ⟨by simp [FdFun.toDiff, arrayFd], fun t => ?_, fun t ht => ?_⟩
  · have e : (fun t => (arrayFd (fun x : Vec 1 => fun _ : Fin 1 => x 0 ^ 2) fc).toDiff (fun _ => 3) (stepVec t 0) 0) =
        fun t : ℝ => (3 + t) ^ 2 - 9 := by
      funext t; simp [FdFun.toDiff, arrayFd, stepVec]; norm_num
    rw [e]
    exact ((((hasDerivAt_id t).const_add 3).pow 2).sub_const 9).congr_deriv (by simp; ring)
  · rw [abs_of_nonneg] <;> linarith [ht.1]

end Verif
