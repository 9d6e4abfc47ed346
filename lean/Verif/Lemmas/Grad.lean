import Verif.Lemmas.Group
import Verif.Model.Iekf
import Mathlib.Analysis.Calculus.FDeriv.Pi
import Mathlib.Analysis.Calculus.FDeriv.Mul
import Mathlib.Analysis.SpecialFunctions.Sqrt
import Mathlib.Analysis.SpecialFunctions.Exponential
import Mathlib.Topology.Algebra.Module.FiniteDimension

/-! Derivatives of functions of a perturbation at zero: the specification of a Jacobian, and calculus rules. -/

namespace Verif

open Matrix NormedSpace

set_option linter.unusedVariables false
set_option linter.unusedSectionVars false

/-- Specification: `J` is the Jacobian at zero of the function `f` of a perturbation. -/
def HasJac {κ μ : Type} [Fintype κ] [Fintype μ] [DecidableEq κ] (f : (κ → ℝ) → μ → ℝ) (J : Matrix μ κ ℝ) : Prop :=
  HasFDerivAt f (LinearMap.toContinuousLinearMap (Matrix.toLin' J)) 0

section

variable {κ : Type} [Fintype κ] [DecidableEq κ]

/-- `f` is differentiable at zero with derivative `L`. -/
def HasD (f : (κ → ℝ) → ℝ) (L : (κ → ℝ) → ℝ) : Prop :=
  ∃ f' : (κ → ℝ) →L[ℝ] ℝ, HasFDerivAt f f' 0 ∧ ∀ ξ, f' ξ = L ξ

/-- The same for a vector, entry by entry. -/
def HasVD {μ : Type} (f : (κ → ℝ) → μ → ℝ) (L : (κ → ℝ) → μ → ℝ) : Prop := ∀ i, HasD (fun ξ => f ξ i) (fun ξ => L ξ i)

/-- The same for a matrix, entry by entry. -/
def HasMD {μ ν : Type} (f : (κ → ℝ) → Matrix μ ν ℝ) (L : (κ → ℝ) → Matrix μ ν ℝ) : Prop :=
  ∀ i j, HasD (fun ξ => f ξ i j) (fun ξ => L ξ i j)

theorem HasD.congr {f g L M : (κ → ℝ) → ℝ} (h : HasD f L) (e : ∀ ξ, f ξ = g ξ) (e' : ∀ ξ, L ξ = M ξ) : HasD g M := by
  obtain rfl : f = g := funext e
  obtain rfl : L = M := funext e'
  exact h

theorem HasD.const (c : ℝ) : HasD (fun _ : κ → ℝ => c) (fun _ => 0) := ⟨0, hasFDerivAt_const c 0, fun _ => rfl⟩

theorem HasD.add {f g L M : (κ → ℝ) → ℝ} (h : HasD f L) (h' : HasD g M) : HasD (fun ξ => f ξ + g ξ) (fun ξ => L ξ + M ξ) := by
  obtain ⟨a, ha, ea⟩ := h
  obtain ⟨b, hb, eb⟩ := h'
  exact ⟨a + b, ha.add hb, fun ξ => by simp [ea, eb]⟩

theorem HasD.sub {f g L M : (κ → ℝ) → ℝ} (h : HasD f L) (h' : HasD g M) : HasD (fun ξ => f ξ - g ξ) (fun ξ => L ξ - M ξ) := by
  obtain ⟨a, ha, ea⟩ := h
  obtain ⟨b, hb, eb⟩ := h'
  exact ⟨a - b, ha.sub hb, fun ξ => by simp [ea, eb]⟩

theorem HasD.neg {f L : (κ → ℝ) → ℝ} (h : HasD f L) : HasD (fun ξ => -f ξ) (fun ξ => -L ξ) := by
  obtain ⟨a, ha, ea⟩ := h
  exact ⟨-a, ha.neg, fun ξ => by simp [ea]⟩

theorem HasD.mul {f g L M : (κ → ℝ) → ℝ} (h : HasD f L) (h' : HasD g M) :
    HasD (fun ξ => f ξ * g ξ) (fun ξ => L ξ * g 0 + f 0 * M ξ) := by
  obtain ⟨a, ha, ea⟩ := h
  obtain ⟨b, hb, eb⟩ := h'
  refine ⟨_, ha.mul hb, fun ξ => ?_⟩
  simp [ea, eb]
  ring

theorem HasD.sum {ι : Type} (s : Finset ι) {f L : ι → (κ → ℝ) → ℝ} (h : ∀ i ∈ s, HasD (f i) (L i)) :
    HasD (fun ξ => ∑ i ∈ s, f i ξ) (fun ξ => ∑ i ∈ s, L i ξ) := by
  classical
  induction s using Finset.induction_on with
  | empty => exact (HasD.const 0).congr (fun _ => by simp) (fun _ => by simp)
  | insert a s ha ih =>
    refine ((h a (by simp)).add (ih fun i hi => h i (by simp [hi]))).congr (fun ξ => ?_) (fun ξ => ?_)
    · rw [Finset.sum_insert ha]
    · rw [Finset.sum_insert ha]

theorem HasD.comp {f L : (κ → ℝ) → ℝ} (h : HasD f L) {g : ℝ → ℝ} {g' : ℝ} (hg : HasDerivAt g g' (f 0)) :
    HasD (fun ξ => g (f ξ)) (fun ξ => g' * L ξ) := by
  obtain ⟨a, ha, ea⟩ := h
  refine ⟨_, hg.comp_hasFDerivAt 0 ha, fun ξ => ?_⟩
  simp [ea]

theorem HasD.proj (k : κ) : HasD (fun ξ : κ → ℝ => ξ k) (fun ξ => ξ k) :=
  ⟨ContinuousLinearMap.proj k, (ContinuousLinearMap.proj (R := ℝ) (φ := fun _ : κ => ℝ) k).hasFDerivAt, fun _ => rfl⟩

theorem HasVD.const {μ : Type} (c : μ → ℝ) : HasVD (fun _ : κ → ℝ => c) (fun _ => 0) := fun i => HasD.const _

theorem HasMD.const {μ ν : Type} (c : Matrix μ ν ℝ) : HasMD (fun _ : κ → ℝ => c) (fun _ => 0) := fun i j => HasD.const _

theorem HasVD.add {μ : Type} {f g L M : (κ → ℝ) → μ → ℝ} (h : HasVD f L) (h' : HasVD g M) :
    HasVD (fun ξ => f ξ + g ξ) (fun ξ => L ξ + M ξ) := fun i => (h i).add (h' i)

theorem HasVD.sub {μ : Type} {f g L M : (κ → ℝ) → μ → ℝ} (h : HasVD f L) (h' : HasVD g M) :
    HasVD (fun ξ => f ξ - g ξ) (fun ξ => L ξ - M ξ) := fun i => (h i).sub (h' i)

theorem HasVD.congr {μ : Type} {f g L M : (κ → ℝ) → μ → ℝ} (h : HasVD f L) (e : ∀ ξ, f ξ = g ξ) (e' : ∀ ξ, L ξ = M ξ) :
    HasVD g M := by
  obtain rfl : f = g := funext e
  obtain rfl : L = M := funext e'
  exact h

theorem HasMD.congr {μ ν : Type} {f g L M : (κ → ℝ) → Matrix μ ν ℝ} (h : HasMD f L) (e : ∀ ξ, f ξ = g ξ)
    (e' : ∀ ξ, L ξ = M ξ) : HasMD g M := by
  obtain rfl : f = g := funext e
  obtain rfl : L = M := funext e'
  exact h

theorem HasMD.transpose {μ ν : Type} {f L : (κ → ℝ) → Matrix μ ν ℝ} (h : HasMD f L) :
    HasMD (fun ξ => (f ξ)ᵀ) (fun ξ => (L ξ)ᵀ) := fun i j => h j i

theorem HasMD.mul {μ ν ρ : Type} [Fintype ν] {f L : (κ → ℝ) → Matrix μ ν ℝ} {g M : (κ → ℝ) → Matrix ν ρ ℝ} (h : HasMD f L)
    (h' : HasMD g M) : HasMD (fun ξ => f ξ * g ξ) (fun ξ => L ξ * g 0 + f 0 * M ξ) := by
  intro i j
  refine (HasD.sum Finset.univ fun k _ => (h i k).mul (h' k j)).congr (fun ξ => ?_) (fun ξ => ?_)
  · show _ = (f ξ * g ξ) i j
    rw [Matrix.mul_apply]
  · show _ = (L ξ * g 0 + f 0 * M ξ) i j
    rw [Matrix.add_apply, Matrix.mul_apply, Matrix.mul_apply, Finset.sum_add_distrib]

theorem HasMD.mulVec {μ ν : Type} [Fintype ν] {f L : (κ → ℝ) → Matrix μ ν ℝ} {g M : (κ → ℝ) → ν → ℝ} (h : HasMD f L)
    (h' : HasVD g M) : HasVD (fun ξ => f ξ *ᵥ g ξ) (fun ξ => L ξ *ᵥ g 0 + f 0 *ᵥ M ξ) := by
  intro i
  refine (HasD.sum Finset.univ fun k _ => (h i k).mul (h' k)).congr (fun ξ => ?_) (fun ξ => ?_)
  · rfl
  · show _ = (L ξ *ᵥ g 0 + f 0 *ᵥ M ξ) i
    rw [Pi.add_apply, Matrix.mulVec, Matrix.mulVec, dotProduct, dotProduct, Finset.sum_add_distrib]

theorem HasVD.dot {ν : Type} [Fintype ν] {f L g M : (κ → ℝ) → ν → ℝ} (h : HasVD f L) (h' : HasVD g M) :
    HasD (fun ξ => f ξ ⬝ᵥ g ξ) (fun ξ => L ξ ⬝ᵥ g 0 + f 0 ⬝ᵥ M ξ) := by
  refine (HasD.sum Finset.univ fun k _ => (h k).mul (h' k)).congr (fun ξ => ?_) (fun ξ => ?_)
  · rfl
  · rw [dotProduct, dotProduct, Finset.sum_add_distrib]

/-- The norm, away from zero. -/
theorem HasVD.norm {m : ℕ} {f L : (κ → ℝ) → Vec m} (h : HasVD f L) (h0 : f 0 ≠ 0) :
    HasD (fun ξ => npNorm (f ξ)) (fun ξ => ((npNorm (f 0))⁻¹ • f 0) ⬝ᵥ L ξ) := by
  have hp : f 0 ⬝ᵥ f 0 ≠ 0 := fun e => h0 (dotProduct_self_eq_zero.1 e)
  refine ((h.dot h).comp (Real.hasDerivAt_sqrt hp)).congr (fun _ => rfl) (fun ξ => ?_)
  rw [smul_dotProduct, smul_eq_mul, dotProduct_comm (L ξ), npNorm]
  field_simp
  ring

theorem HasVD.hasJac {μ : Type} [Fintype μ] {f L : (κ → ℝ) → μ → ℝ} (h : HasVD f L) {J : Matrix μ κ ℝ}
    (e : ∀ ξ, J *ᵥ ξ = L ξ) : HasJac f J := by
  rw [HasJac, hasFDerivAt_pi']
  intro i
  obtain ⟨f', hf, ef⟩ := h i
  refine hf.congr_fderiv ?_
  ext1 ξ
  rw [ef]
  show L ξ i = _
  rw [← e]
  rfl

theorem HasJac.hasVD {μ : Type} [Fintype μ] {f : (κ → ℝ) → μ → ℝ} {J : Matrix μ κ ℝ} (h : HasJac f J) :
    HasVD f (fun ξ => J *ᵥ ξ) := by
  intro i
  rw [HasJac, hasFDerivAt_pi'] at h
  exact ⟨_, h i, fun ξ => rfl⟩

/-- A Jacobian is unique. -/
theorem HasJac.unique {μ : Type} [Fintype μ] {f : (κ → ℝ) → μ → ℝ} {J K : Matrix μ κ ℝ} (h : HasJac f J) (h' : HasJac f K) :
    J = K := by
  have e := HasFDerivAt.unique h h'
  have e2 : Matrix.toLin' J = Matrix.toLin' K := LinearMap.toContinuousLinearMap.injective e
  exact Matrix.toLin'.injective e2

open scoped Matrix.Norms.Operator in
/-- The exponential map of a group at zero. -/
theorem MLG.Laws.hasMD_Exp {ι : Type} [Fintype ι] [DecidableEq ι] {G : MLG ι κ} {mem : Matrix ι ι ℝ → Prop}
    {ad : (κ → ℝ) → Matrix κ κ ℝ} (h : G.Laws mem ad) : HasMD (fun ξ => G.Exp ξ) (fun ξ => G.wedge ξ) := by
  intro i j
  have hw : HasFDerivAt (fun ξ => G.wedge ξ) (LinearMap.toContinuousLinearMap h.wedgeL) (0 : κ → ℝ) :=
    (LinearMap.toContinuousLinearMap h.wedgeL).hasFDerivAt
  have he : HasFDerivAt (exp : Matrix ι ι ℝ → Matrix ι ι ℝ) (1 : Matrix ι ι ℝ →L[ℝ] Matrix ι ι ℝ) (G.wedge 0) := by
    rw [h.wedge_zero]
    exact (hasStrictFDerivAt_exp_zero (𝕂 := ℝ) (𝔸 := Matrix ι ι ℝ)).hasFDerivAt
  have hc := he.comp (0 : κ → ℝ) hw
  let en : Matrix ι ι ℝ →L[ℝ] ℝ := LinearMap.toContinuousLinearMap (Matrix.entryLinearMap ℝ ℝ i j)
  exact ⟨_, en.hasFDerivAt.comp (0 : κ → ℝ) hc, fun ξ => rfl⟩

end

end Verif
