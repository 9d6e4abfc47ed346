import Verif.Lemmas.Imm
import Verif.Props.Ekf

/-! Properties of Gaussian mixing, the IMM filter and the Gaussian sum filter (C17-C20). -/

set_option linter.unusedVariables false
set_option linter.unusedSectionVars false

namespace Verif

open Matrix

variable {V U : Type} {n M : ℕ}

/-- Specification: a probability vector. -/
def IsProb (p : Fin M → ℝ) : Prop := (∀ i, 0 ≤ p i) ∧ ∑ i, p i = 1

/-- Specification: a transition matrix, each row a probability vector. -/
def RowStochastic (T : Mat M M) : Prop := ∀ i, IsProb (T i)

/-! ### C20: Gaussian mixing -/

theorem mixVec_shift (w : Fin M → ℝ) (hw : ∑ i, w i = 1) (μ : Fin M → Vec n) (P : Fin M → Mat n n)
    (r : Vec n) :
    (mixVec w (fun i => μ i - r) P).1 = (mixVec w μ P).1 - r ∧
    (mixVec w (fun i => μ i - r) P).2 = (mixVec w μ P).2 := by
  have h1 : ∑ i, w i • (μ i - r) = ∑ i, w i • μ i - r := by
    simp only [smul_sub, Finset.sum_sub_distrib, ← Finset.sum_smul, hw, one_smul]
  refine ⟨h1, ?_⟩
  unfold mixVec
  simp only [h1]
  refine Finset.sum_congr rfl fun i _ => ?_
  have : μ i - r - (∑ i, w i • μ i - r) = μ i - ∑ i, w i • μ i := by abel
  rw [this]

/-- **C20.** On vector states, with weights summing to one, `gaussian_mixing` returns the mean of the
mixture and the covariance of the mixture (average covariance plus spread of the means); its stamp is that of the first
heaviest component. -/
theorem C20_mixing_vector (hM : M ≠ 0) (w : Fin M → ℝ) (hw : ∑ i, w i = 1) (xs : Fin M → SWC (Vec n) n) :
    ∃ r i, gaussianMixing (vecOps n) w xs = .ok r ∧
      r.state.value = ∑ i, w i • (xs i).state.value ∧
      r.cov = ∑ i, w i • ((xs i).cov + vecMulVec ((xs i).state.value - r.state.value)
        ((xs i).state.value - r.state.value)) ∧
      r.state.stamp = (xs i).state.stamp ∧ (∀ j, w j ≤ w i) ∧ (∀ j < i, w j < w i) := by
  obtain ⟨i, hi⟩ := argmaxFirst_total hM w
  obtain ⟨hs1, hs2⟩ := argmaxFirst_spec hi
  refine ⟨mixAbout (vecOps n) (xs i).state w xs, i, ?_, ?_, ?_, rfl, hs1, ?_⟩
  · unfold gaussianMixing; rw [hi]; rfl
  all_goals
    have h := mixVec_shift w hw (fun i => (xs i).state.value) (fun i => (xs i).cov) (xs i).state.value
  · simp only [mixAbout, vecOps, Matrix.one_mul, transpose_one, Matrix.mul_one, h.1]
    simp only [mixVec]
    abel
  · simp only [mixAbout, vecOps, Matrix.one_mul, transpose_one, Matrix.mul_one, h.1, h.2]
    simp only [mixVec, smul_add, add_sub_cancel]
  · intro j hj
    obtain ⟨l, hl⟩ := hs2 j hj
    exact lt_of_lt_of_le hl (hs1 l)

/-- **C20 (PSD).** For any state type and any Jacobians, nonnegative weights and PSD components give a PSD
mixed covariance. -/
theorem C20_mixing_psd (ops : ManifoldOps V n) (w : Fin M → ℝ) (hw : ∀ i, 0 ≤ w i)
    (xs : Fin M → SWC V n) (hP : ∀ i, (xs i).cov.PosSemidef) (r : SWC V n)
    (h : gaussianMixing ops w xs = .ok r) : r.cov.PosSemidef := by
  unfold gaussianMixing at h
  obtain ⟨i, hi, h⟩ := bind_ok h
  cases h
  unfold mixAbout
  apply psd_conj
  unfold mixVec
  simp only
  refine sum_psd _ fun j => ?_
  exact psd_add (PosSemidef.smul (psd_conj (hP j) _) (hw j)) (PosSemidef.smul (outer_psd _) (hw j))

/-- **C20 (identical components).** For any state type whose `plus`/`minus` agree at zero (with identity
Jacobians there), mixing identical components with weights summing to one returns that component. -/
theorem C20_mixing_identical (ops : ManifoldOps V n) (x : SWC V n)
    (hminus : ops.minus x.state.value x.state.value = 0) (hplus : ops.plus x.state.value 0 = x.state.value)
    (hJ : ops.minusJac x.state.value x.state.value = 1) (hJ' : ops.plusJac x.state.value 0 = 1)
    (hM : M ≠ 0) (w : Fin M → ℝ) (hw : ∑ i, w i = 1) :
    gaussianMixing ops w (fun _ => x) = .ok x := by
  obtain ⟨i, hi⟩ := argmaxFirst_total hM w
  unfold gaussianMixing
  rw [hi]
  have hm : mixVec w (fun _ => ops.minus x.state.value x.state.value)
      (fun _ => x.cov) = (0, x.cov) := by
    unfold mixVec
    simp only [hminus, smul_zero, Finset.sum_const_zero, sub_self, vecMulVec_zero, add_zero,
      ← Finset.sum_smul, hw, one_smul]
  simp only [bind, Except.bind, pure, Except.pure, mixAbout, hJ, Matrix.one_mul, transpose_one,
    Matrix.mul_one, hm, hJ', hplus]

example : gaussianMixing (vecOps 1) (fun _ : Fin 2 => 1 / 2) (fun _ => est1 0) = .ok (est1 0) :=
  C20_mixing_identical _ _ (by simp [vecOps]) (by simp [vecOps]) rfl rfl (by norm_num) _
    (by simp)

/-! ### C17: interaction -/

/-- **C17.** For a row-stochastic transition matrix and a probability vector, the predicted model probabilities
form a probability vector. -/
theorem C17_predicted_prob (T : Mat M M) (hT : RowStochastic T) (mu : Fin M → ℝ) (hmu : IsProb mu) :
    IsProb fun j => ∑ i, T i j * mu i := by
  refine ⟨fun j => Finset.sum_nonneg fun i _ => mul_nonneg ((hT i).1 j) (hmu.1 i), ?_⟩
  rw [Finset.sum_comm]
  simp only [← Finset.sum_mul, (hT _).2, one_mul, hmu.2]

/-- **C17.** With all predicted probabilities positive, `interaction` succeeds, keeps the model
probabilities, and each model's new state is the Gaussian mixing of all models with nonnegative weights that
sum to one and satisfy Bayes' rule `W i j * c j = T i j * mu i`. -/
theorem C17_interaction (f : Imm V U n M) (hM : M ≠ 0) (hT : RowStochastic f.trans) (x : Mixture V n M)
    (hmu : IsProb x.probs) (hc : ∀ j, 0 < ∑ i, f.trans i j * x.probs i) :
    ∃ (x' : Mixture V n M) (W : Fin M → Fin M → ℝ), f.interaction x = .ok x' ∧ x'.probs = x.probs ∧
      (∀ i j, 0 ≤ W i j) ∧ (∀ j, ∑ i, W i j = 1) ∧
      (∀ i j, W i j * ∑ l, f.trans l j * x.probs l = f.trans i j * x.probs i) ∧
      ∀ j, gaussianMixing f.ops (fun i => W i j) x.states = .ok (x'.states j) := by
  have hex : ∀ j, ∃ r, gaussianMixing f.ops (fun i => mixWeight f.trans x.probs i j) x.states = .ok r := by
    intro j
    obtain ⟨i, hi⟩ := argmaxFirst_total hM (fun i => mixWeight f.trans x.probs i j)
    unfold gaussianMixing
    rw [hi]
    exact ⟨_, rfl⟩
  choose g hg using hex
  refine ⟨⟨g, x.probs⟩, mixWeight f.trans x.probs, ?_, rfl, ?_, ?_, ?_, hg⟩
  · unfold Imm.interaction
    rw [if_neg (by rintro ⟨j, hj⟩; exact (hc j).ne' hj), seqFin_of hg]
    rfl
  · intro i j
    unfold mixWeight predProb
    have := hc j
    have := (hT i).1 j
    have := hmu.1 i
    positivity
  · intro j
    unfold mixWeight predProb
    simp only [mul_assoc, ← Finset.mul_sum]
    exact one_div_mul_cancel (hc j).ne'
  · intro i j
    unfold mixWeight predProb
    have := (hc j).ne'
    field_simp

/-- **C17 (zero probability).** If some predicted probability is zero the mixing weights are NaN. -/
theorem C17_interaction_nan (f : Imm V U n M) (x : Mixture V n M) (j : Fin M)
    (hj : ∑ i, f.trans i j * x.probs i = 0) : f.interaction x = .error .nan := by
  unfold Imm.interaction
  rw [if_pos ⟨j, hj⟩]

/-- **C17 (total expectation).** On vector states, the interaction step preserves the first two moments of the whole
mixture: the predicted-probability-weighted means and second moments after mixing equal those before. -/
theorem C17_interaction_moments (f : Imm (Vec n) U n M) (hops : f.ops = vecOps n) (hM : M ≠ 0)
    (hT : RowStochastic f.trans) (x : Mixture (Vec n) n M) (hmu : IsProb x.probs)
    (hc : ∀ j, 0 < ∑ i, f.trans i j * x.probs i) (x' : Mixture (Vec n) n M)
    (h : f.interaction x = .ok x') :
    ∑ j, (∑ i, f.trans i j * x.probs i) • (x'.states j).state.value
        = ∑ i, x.probs i • (x.states i).state.value ∧
    ∑ j, (∑ i, f.trans i j * x.probs i) • ((x'.states j).cov
        + vecMulVec (x'.states j).state.value (x'.states j).state.value)
        = ∑ i, x.probs i • ((x.states i).cov
        + vecMulVec (x.states i).state.value (x.states i).state.value) := by
  obtain ⟨x1, W, h1, _, hW0, hW1, hWb, hg⟩ := C17_interaction f hM hT x hmu hc
  rw [h] at h1
  cases h1
  have hmean : ∀ j, (x'.states j).state.value = ∑ i, W i j • (x.states i).state.value := by
    intro j
    obtain ⟨r, _, hr, hv, _⟩ := C20_mixing_vector hM (fun i => W i j) (hW1 j) x.states
    have := hg j
    rw [hops, hr] at this
    cases this
    exact hv
  have hcov : ∀ j, (x'.states j).cov + vecMulVec (x'.states j).state.value (x'.states j).state.value
      = ∑ i, W i j • ((x.states i).cov + vecMulVec (x.states i).state.value (x.states i).state.value) := by
    intro j
    obtain ⟨r, _, hr, hv, hC, _⟩ := C20_mixing_vector hM (fun i => W i j) (hW1 j) x.states
    have := hg j
    rw [hops, hr] at this
    cases this
    rw [hC]
    simp only [smul_add, Finset.sum_add_distrib, sub_vecMulVec, vecMulVec_sub, smul_sub,
      Finset.sum_sub_distrib]
    have e1 : ∑ i, W i j • vecMulVec (x'.states j).state.value (x.states i).state.value
        = vecMulVec (x'.states j).state.value (x'.states j).state.value := by
      conv_rhs => enter [2]; rw [hv]
      ext a b
      simp [Matrix.sum_apply, vecMulVec_apply, Finset.mul_sum, mul_left_comm]
    have e2 : ∑ i, W i j • vecMulVec (x.states i).state.value (x'.states j).state.value
        = vecMulVec (x'.states j).state.value (x'.states j).state.value := by
      conv_rhs => enter [1]; rw [hv]
      ext a b
      simp [Matrix.sum_apply, vecMulVec_apply, Finset.sum_mul, mul_assoc]
    have e3 : ∑ i, W i j • vecMulVec (x'.states j).state.value (x'.states j).state.value
        = vecMulVec (x'.states j).state.value (x'.states j).state.value := by
      rw [← Finset.sum_smul, hW1, one_smul]
    rw [e1, e2, e3]
    abel
  have hrow : ∀ i, ∑ j, f.trans i j * x.probs i = x.probs i := by
    intro i
    rw [← Finset.sum_mul, (hT i).2, one_mul]
  constructor
  · simp only [hmean, Finset.smul_sum, smul_smul]
    rw [Finset.sum_comm]
    refine Finset.sum_congr rfl fun i _ => ?_
    simp only [mul_comm _ (W i _), hWb]
    rw [← Finset.sum_smul, hrow]
  · simp only [hcov, Finset.smul_sum, smul_smul]
    rw [Finset.sum_comm]
    refine Finset.sum_congr rfl fun i _ => ?_
    simp only [mul_comm _ (W i _), hWb]
    rw [← Finset.sum_smul, hrow]

/-! ### C18, C19: model probabilities -/

theorem renormalize_prob (hM : M ≠ 0) (mu : Fin M → ℝ) (h : ∀ i, 0 ≤ mu i) : IsProb (renormalize mu) := by
  have key : ∀ v : Fin M → ℝ, (∀ i, 0 ≤ v i) → (0 < ∑ j, v j) → IsProb (fun i => v i / ∑ j, v j) := by
    intro v hv hs
    refine ⟨fun i => div_nonneg (hv i) hs.le, ?_⟩
    rw [← Finset.sum_div, div_self hs.ne']
  have hMp : (0 : ℝ) < M := by positivity
  unfold renormalize
  by_cases hc : ∀ i, |mu i| ≤ 1 / 10 ^ 8
  · rw [if_pos hc]
    refine key _ (fun _ => by positivity) ?_
    simp only [Finset.sum_const, Finset.card_univ, Fintype.card_fin, nsmul_eq_mul]
    positivity
  · rw [if_neg hc]
    refine key _ h ?_
    push Not at hc
    obtain ⟨i, hi⟩ := hc
    rw [abs_of_nonneg (h i)] at hi
    have : 0 < mu i := lt_trans (by norm_num) hi
    exact lt_of_lt_of_le this (Finset.single_le_sum (fun j _ => h j) (Finset.mem_univ i))

theorem renormalize_reset {mu : Fin M → ℝ} (h : ∀ i, |mu i| ≤ 1 / 10 ^ 8) (i : Fin M) :
    renormalize mu i = 1 / M := by
  have hM : (M : ℝ) ≠ 0 := by
    have := i.pos
    positivity
  unfold renormalize
  rw [if_pos h]
  simp only [Finset.sum_const, Finset.card_univ, Fintype.card_fin, nsmul_eq_mul]
  field_simp

/-- One IMM call. -/
inductive ImmOp (V U : Type) (n : ℕ) where
  | interaction
  | predict (u : Option (Inp U)) (dt : Option ℝ)
  | correct (y : Meas V n) (u : Option (Inp U))

/-- Run one IMM call. -/
noncomputable def Imm.step (f : Imm V U n M) (x : Mixture V n M) : ImmOp V U n → Except Err (Mixture V n M)
  | .interaction => f.interaction x
  | .predict u dt => f.predict x u dt
  | .correct y u => f.correct x y u

/-- likelihoods are nonnegative -/
theorem correctLik_nonneg {e : EkfEnv V U n} {x x' : SWC V n} {y : Meas V n} {u : Option (Inp U)} {l : ℝ}
    (h : correctLik e x y u = .ok (x', l)) : 0 ≤ l := by
  unfold correctLik at h
  obtain ⟨⟨x1, d⟩, _, h⟩ := bind_ok h
  rcases d with _ | d
  · cases h
  · cases h; exact gaussPdf_nonneg _ _

/-- **C18.** Over any history of IMM calls that do not raise, the model probabilities stay a probability
vector (nonnegative transition entries). -/
theorem C18_imm_probabilities (f : Imm V U n M) (hM : M ≠ 0) (hT : ∀ i j, 0 ≤ f.trans i j)
    (ops : List (ImmOp V U n)) (x : Mixture V n M) (hx : IsProb x.probs) (x' : Mixture V n M)
    (h : ops.foldlM f.step x = .ok x') : IsProb x'.probs := by
  induction ops generalizing x with
  | nil => cases h; exact hx
  | cons op ops ih =>
    rw [List.foldlM_cons] at h
    obtain ⟨x1, h1, h⟩ := bind_ok h
    refine ih x1 ?_ h
    cases op with
    | interaction =>
      unfold Imm.step Imm.interaction at h1
      simp only at h1
      split at h1
      · cases h1
      · obtain ⟨s, _, h1⟩ := bind_ok h1
        cases h1; exact hx
    | predict u dt =>
      unfold Imm.step Imm.predict at h1
      obtain ⟨s, _, h1⟩ := bind_ok h1
      cases h1; exact hx
    | correct y u =>
      unfold Imm.step Imm.correct at h1
      obtain ⟨r, hr, h1⟩ := bind_ok h1
      cases h1
      apply renormalize_prob hM
      intro i
      refine mul_nonneg (correctLik_nonneg (seqFin_ok hr i)) ?_
      exact Finset.sum_nonneg fun l _ => mul_nonneg (hT l i) (hx.1 l)

/-- One Gaussian sum filter call. -/
inductive GsfOp (V U : Type) (n : ℕ) where
  | predict (u : Option (Inp U)) (dt : Option ℝ)
  | correct (y : Meas V n) (u : Option (Inp U))

/-- Run one Gaussian sum filter call. -/
noncomputable def gsfStep (e : EkfEnv V U n) (x : Mixture V n M) : GsfOp V U n → Except Err (Mixture V n M)
  | .predict u dt => gsfPredict e x u dt
  | .correct y u => gsfCorrect e x y u

/-- **C18 (Gaussian sum filter).** The component weights stay a probability vector over any history. -/
theorem C18_gsf_probabilities (e : EkfEnv V U n) (hM : M ≠ 0) (ops : List (GsfOp V U n))
    (x : Mixture V n M) (hx : IsProb x.probs) (x' : Mixture V n M)
    (h : ops.foldlM (gsfStep e) x = .ok x') : IsProb x'.probs := by
  induction ops generalizing x with
  | nil => cases h; exact hx
  | cons op ops ih =>
    rw [List.foldlM_cons] at h
    obtain ⟨x1, h1, h⟩ := bind_ok h
    refine ih x1 ?_ h
    cases op with
    | predict u dt =>
      unfold gsfStep gsfPredict at h1
      obtain ⟨s, _, h1⟩ := bind_ok h1
      cases h1; exact hx
    | correct y u =>
      unfold gsfStep gsfCorrect at h1
      obtain ⟨r, hr, h1⟩ := bind_ok h1
      cases h1
      apply renormalize_prob hM
      intro i
      refine mul_nonneg (hx.1 i) ?_
      have := seqFin_ok hr i
      unfold gsfCorrectLik at this
      obtain ⟨⟨x1, d⟩, _, this⟩ := bind_ok this
      rcases d with _ | d
      · cases this
      · simp only at this
        split at this
        · have e := Except.ok.inj this
          rw [← e]; exact gaussPdf_nonneg _ _
        · cases this

/-- the likelihood `L i` of the innovation under model `i` and its corrected estimate, as a specification: what
`ExtendedKalmanFilter.correct` of that model reports. -/
def ModelLik (f : Imm V U n M) (x : Mixture V n M) (y : Meas V n) (u : Option (Inp U))
    (s : Fin M → SWC V n) (L : Fin M → ℝ) : Prop :=
  ∀ i, ∃ (m : ℕ) (z : Vec m) (S : Mat m m) (o : Bool),
    (f.kfs i).correctD (x.states i) y u none none = .ok (s i, some ⟨m, z, S, o⟩) ∧ L i = gaussPdf z S

theorem imm_correct_spec (f : Imm V U n M) (x : Mixture V n M) (y : Meas V n) (u : Option (Inp U))
    (x' : Mixture V n M) (h : f.correct x y u = .ok x') :
    ∃ L, ModelLik f x y u x'.states L ∧
      x'.probs = renormalize fun i => L i * ∑ l, f.trans l i * x.probs l := by
  unfold Imm.correct at h
  obtain ⟨r, hr, h⟩ := bind_ok h
  cases h
  refine ⟨fun i => (r i).2, ?_, rfl⟩
  intro i
  have := seqFin_ok hr i
  unfold correctLik at this
  obtain ⟨⟨x1, d⟩, hd, this⟩ := bind_ok this
  rcases d with _ | ⟨m, z, S, o⟩
  · cases this
  · have e := Except.ok.inj this
    refine ⟨m, z, S, o, ?_, ?_⟩
    · rw [hd]; simp [← e]
    · simp [← e]

/-- **C19.** If some product likelihood × predicted probability exceeds `1e-8`, the posterior odds follow
Bayes' rule: `p' i * (L j c j) = p' j * (L i c i)`, for all pairs of models. -/
theorem C19_imm_bayes (f : Imm V U n M) (x : Mixture V n M) (y : Meas V n) (u : Option (Inp U))
    (x' : Mixture V n M) (h : f.correct x y u = .ok x') :
    ∃ L, ModelLik f x y u x'.states L ∧
      ((∃ i, 1 / 10 ^ 8 < |L i * ∑ l, f.trans l i * x.probs l|) →
        ∀ i j, x'.probs i * (L j * ∑ l, f.trans l j * x.probs l)
          = x'.probs j * (L i * ∑ l, f.trans l i * x.probs l)) ∧
      ((∀ i, |L i * ∑ l, f.trans l i * x.probs l| ≤ 1 / 10 ^ 8) → ∀ i, x'.probs i = 1 / M) := by
  obtain ⟨L, hL, hp⟩ := imm_correct_spec f x y u x' h
  refine ⟨L, hL, ?_, ?_⟩
  · rintro ⟨i0, hi0⟩ i j
    rw [hp]
    unfold renormalize
    rw [if_neg (by push Not; exact ⟨i0, hi0⟩)]
    rw [div_mul_eq_mul_div, div_mul_eq_mul_div, mul_comm]
  · intro hall i
    rw [hp]
    exact renormalize_reset hall i

/-- **C19 (Gaussian sum filter).** The same for the Gaussian sum filter on scalar measurements. -/
theorem C19_gsf_bayes (e : EkfEnv V U n) (x : Mixture V n M) (y : Meas V n) (u : Option (Inp U))
    (x' : Mixture V n M) (h : gsfCorrect e x y u = .ok x') :
    ∃ L : Fin M → ℝ,
      (∀ i, ∃ (m : ℕ) (z : Vec m) (S : Mat m m) (o : Bool),
        e.correctD (x.states i) y u none none = .ok (x'.states i, some ⟨m, z, S, o⟩) ∧
          L i = gaussPdf z S) ∧
      ((∃ i, 1 / 10 ^ 8 < |x.probs i * L i|) →
        ∀ i j, x'.probs i * (x.probs j * L j) = x'.probs j * (x.probs i * L i)) ∧
      ((∀ i, |x.probs i * L i| ≤ 1 / 10 ^ 8) → ∀ i, x'.probs i = 1 / M) := by
  unfold gsfCorrect at h
  obtain ⟨r, hr, h⟩ := bind_ok h
  cases h
  refine ⟨fun i => (r i).2, ?_, ?_, ?_⟩
  · intro i
    have := seqFin_ok hr i
    unfold gsfCorrectLik at this
    obtain ⟨⟨x1, d⟩, hd, this⟩ := bind_ok this
    rcases d with _ | ⟨m, z, S, o⟩
    · cases this
    · simp only at this
      split at this
      · have e := Except.ok.inj this
        exact ⟨m, z, S, o, by rw [hd]; simp [← e], by simp [← e]⟩
      · cases this
  · rintro ⟨i0, hi0⟩ i j
    simp only
    unfold renormalize
    rw [if_neg (by push Not; exact ⟨i0, hi0⟩)]
    rw [div_mul_eq_mul_div, div_mul_eq_mul_div, mul_comm]
  · intro hall i
    exact renormalize_reset hall i

/-- **C19 (Gaussian sum filter, vector measurements).** The Gaussian sum filter refuses every measurement
with more than one component. -/
theorem C19_gsf_vector_refused (e : EkfEnv V U n) (hM : M ≠ 0) (x : Mixture V n M) (y : Meas V n)
    (u : Option (Inp U)) (hm : y.m ≠ 1) : ∀ x', gsfCorrect e x y u ≠ .ok x' := by
  intro x' h
  unfold gsfCorrect at h
  obtain ⟨r, hr, h⟩ := bind_ok h
  have := seqFin_ok hr ⟨0, Nat.pos_of_ne_zero hM⟩
  unfold gsfCorrectLik at this
  obtain ⟨⟨x1, d⟩, hd, this⟩ := bind_ok this
  rcases d with _ | d
  · cases this
  · simp only at this
    have hdm : d.m = y.m := by
      unfold EkfEnv.correctD at hd
      obtain ⟨xp, _, hd⟩ := bind_ok hd
      exact fuse_details_m hd
    rw [if_neg (by rw [hdm]; exact hm)] at this
    cases this

/-- scalar measurement with an uninformative noise variance `1e20` -/
noncomputable def vagueMeas : Meas (Vec 1) 1 :=
  linMeas (m := 1) 1 ((10 : ℝ) ^ 20 • (1 : Mat 1 1)) (fun _ => 0) (some 0)

/-- two identical models that never switch -/
noncomputable def imm2 : Imm (Vec 1) ℝ 1 2 := ⟨fun _ => env1, vecOps 1, 1⟩

/-- **C19 (the unrestricted claim is false).** Two models with identical estimates (hence identical likelihoods), a
transition matrix without switching and prior odds 3:1: Bayes' rule keeps 3:1, but after fusing an
uninformative measurement the filter reports 1:1. -/
theorem C19_small_likelihood_resets :
    ∃ x', imm2.correct ⟨fun _ => est1 0, ![3 / 4, 1 / 4]⟩ vagueMeas none = .ok x' ∧
      (∃ L : Fin 2 → ℝ, ModelLik imm2 ⟨fun _ => est1 0, ![3 / 4, 1 / 4]⟩ vagueMeas none x'.states L ∧
        0 < L 0 ∧ L 0 = L 1) ∧
      x'.probs 0 = 1 / 2 ∧ x'.probs 1 = 1 / 2 := by
  have hR : ((10 : ℝ) ^ 20 • (1 : Mat 1 1)).PosDef := PosDef.one.smul (by norm_num)
  have ha : env1.advance (est1 0) vagueMeas none = .ok (est1 0) := by
    unfold EkfEnv.advance
    simp [est1, vagueMeas, linMeas]
  set S1 : Mat 1 1 := (1 : Mat 1 1) * (1 : Mat 1 1) * (1 : Mat 1 1)ᵀ + (10 : ℝ) ^ 20 • (1 : Mat 1 1) with hS1
  have hd : (innovCov (est1 0) vagueMeas none).det ≠ 0 :=
    pd_det (innov_pd (PosDef.one (R := ℝ) (n := Fin 1)).posSemidef (1 : Mat 1 1) hR)
  have hf := fuse_noreject env1 (est1 0) vagueMeas none ((1 : Mat 1 1) *ᵥ (est1 0).state.value) rfl hd
  have hD : env1.correctD (est1 0) vagueMeas none none none = .ok (kalmanUpdate env1 (est1 0) vagueMeas none
      ((1 : Mat 1 1) *ᵥ (est1 0).state.value), some ⟨1, fun i => 0 - ((1 : Mat 1 1) *ᵥ (est1 0).state.value) i,
        S1, false⟩) := by
    unfold EkfEnv.correctD
    rw [ha]
    exact hf
  set l := gaussPdf (fun i => 0 - ((1 : Mat 1 1) *ᵥ (est1 0).state.value) i) S1 with hl
  set xk := kalmanUpdate env1 (est1 0) vagueMeas none ((1 : Mat 1 1) *ᵥ (est1 0).state.value)
  have hlik : ∀ i : Fin 2, correctLik (imm2.kfs i) (est1 0) vagueMeas none = .ok (xk, l) := by
    intro i
    unfold correctLik
    show (env1.correctD (est1 0) vagueMeas none none none >>= _) = _
    rw [hD]
    rfl
  have hdet : S1.det = 1 + 10 ^ 20 := by
    rw [hS1]
    simp
  have hlpos : 0 < l := gaussPdf_pos _ (by rw [hdet]; norm_num)
  have hlle : l ≤ 1 / 10 ^ 8 := by
    rw [hl]
    unfold gaussPdf
    rw [hdet]
    have hz : (fun i : Fin 1 => 0 - ((1 : Mat 1 1) *ᵥ (est1 0).state.value) i) = 0 := by
      funext i; simp [est1]
    rw [hz]
    simp only [zero_dotProduct, mul_zero, Real.exp_zero]
    refine one_div_le_one_div_of_le (by norm_num) ?_
    apply Real.le_sqrt_of_sq_le
    have := Real.two_le_pi
    norm_num at this ⊢
    nlinarith
  have hc : imm2.correct ⟨fun _ => est1 0, ![3 / 4, 1 / 4]⟩ vagueMeas none = .ok ⟨fun _ => xk,
      renormalize fun i => l * predProb imm2.trans ![3 / 4, 1 / 4] i⟩ := by
    unfold Imm.correct
    rw [seqFin_of (g := fun _ => (xk, l)) hlik]
    rfl
  refine ⟨_, hc, ⟨fun _ => l, ?_, hlpos, rfl⟩, ?_⟩
  · intro i
    exact ⟨1, _, _, false, hD, rfl⟩
  · have hall : ∀ i : Fin 2, |l * predProb imm2.trans ![3 / 4, 1 / 4] i| ≤ 1 / 10 ^ 8 := by
      intro i
      have hp : 0 ≤ predProb imm2.trans ![3 / 4, 1 / 4] i ∧ predProb imm2.trans ![3 / 4, 1 / 4] i ≤ 1 := by
        fin_cases i <;> simp [predProb, imm2, Matrix.one_apply] <;> norm_num
      rw [abs_of_nonneg (mul_nonneg hlpos.le hp.1)]
      calc l * _ ≤ l * 1 := mul_le_mul_of_nonneg_left hp.2 hlpos.le
        _ ≤ _ := by rw [mul_one]; exact hlle
    have h2 := fun i => renormalize_reset hall i
    norm_num at h2 ⊢
    exact h2

/-! ### C68: a one-model IMM is the underlying filter -/

/-- **C68.** An IMM with a single model (transition matrix `[1]`) on vector states: `interaction` returns the
mixture unchanged, `predict` and `correct` return exactly the single filter's results with probability one. -/
theorem C68_imm_single (kf : EkfEnv (Vec n) U n) (x : SWC (Vec n) n) :
    let f : Imm (Vec n) U n 1 := ⟨fun _ => kf, vecOps n, 1⟩
    let mix : SWC (Vec n) n → Mixture (Vec n) n 1 := fun s => ⟨fun _ => s, fun _ => 1⟩
    f.interaction (mix x) = .ok (mix x) ∧
    (∀ u dt x', kf.predict x u dt none = .ok x' → f.predict (mix x) u dt = .ok (mix x')) ∧
    (∀ y u x' d, kf.correctD x y u none none = .ok (x', some d) → f.correct (mix x) y u = .ok (mix x')) := by
  intro f mix
  refine ⟨?_, ?_, ?_⟩
  · unfold Imm.interaction
    have hp : predProb f.trans (mix x).probs 0 = 1 := by simp [predProb, f, mix]
    rw [if_neg (by rintro ⟨j, hj⟩; rw [Subsingleton.elim j 0, hp] at hj; norm_num at hj)]
    rw [seqFin_of (g := fun _ => x)]
    · rfl
    · intro j
      apply C20_mixing_identical
      · simp [f, vecOps]
      · simp [f, vecOps]
      · rfl
      · rfl
      · norm_num
      · rw [Subsingleton.elim j 0]
        simp [mixWeight, hp, f, mix]
  · intro u dt x' h
    unfold Imm.predict
    rw [seqFin_of (g := fun _ => x') (fun _ => h)]
    rfl
  · intro y u x' d h
    unfold Imm.correct
    rw [seqFin_of (g := fun _ => (x', gaussPdf d.z d.S))]
    · simp only [bind, Except.bind, pure, Except.pure]
      congr 2
      funext i
      unfold renormalize
      simp only [Finset.univ_unique, Finset.sum_singleton]
      rw [Subsingleton.elim i default]
      apply div_self
      split
      · norm_num
      · rename_i hc
        intro h0
        apply hc
        intro j
        simp only at h0
        rw [Subsingleton.elim j default, h0]
        norm_num
    · intro i
      unfold correctLik
      show (kf.correctD x y u none none >>= _) = _
      rw [h]
      rfl

/-- Non-vacuity of C17 (and of the moment theorem): a two-model filter that switches with probability 1/10. -/
example : ∃ x', (⟨fun _ => env1, vecOps 1, !![9 / 10, 1 / 10; 1 / 10, 9 / 10]⟩ :
    Imm (Vec 1) ℝ 1 2).interaction ⟨![est1 0, est1 1], ![1 / 4, 3 / 4]⟩ = .ok x' := by
  obtain ⟨x', _, h, _⟩ := C17_interaction (⟨fun _ => env1, vecOps 1, !![9 / 10, 1 / 10; 1 / 10, 9 / 10]⟩ :
    Imm (Vec 1) ℝ 1 2) (by norm_num)
    (by
      intro i
      refine ⟨?_, ?_⟩
      · intro j; fin_cases i <;> fin_cases j <;> norm_num
      · fin_cases i <;> norm_num [Fin.sum_univ_two])
    ⟨![est1 0, est1 1], ![1 / 4, 3 / 4]⟩
    ⟨by intro i; fin_cases i <;> norm_num, by norm_num [Fin.sum_univ_two]⟩
    (by intro j; fin_cases j <;> norm_num [Fin.sum_univ_two])
  exact ⟨x', h⟩

end Verif
