import Verif.Model.Integrators
import Verif.Model.Linear
import Verif.Lemmas.LinAlg
import Verif.Lemmas.Iekf
import Mathlib.Analysis.Calculus.Deriv.Pow
import Mathlib.Analysis.Calculus.Deriv.Mul
import Mathlib.Analysis.Calculus.Deriv.Add

/-!
C63: the integrator process models. C66: `StateWithCovariance`.
-/

namespace Verif

open Matrix

set_option linter.unusedVariables false

variable {d : ℕ}

/-! ### Constructors -/

/-- **C63.** The constructors accept exactly the square covariances, and raise `ValueError` on two-dimensional ones that are not
square. -/
theorem C63_ctor (r c : ℕ) :
    (r = c → integNew [r, c] = .ok r) ∧ (r ≠ c → integNew [r, c] = .error .valueError) ∧
    (r = c → integBiasNew [r, c] = .ok (r / 2)) ∧ (r ≠ c → integBiasNew [r, c] = .error .valueError) := by
  refine ⟨fun h => ?_, fun h => ?_, fun h => ?_, fun h => ?_⟩
  all_goals simp [integBiasNew, integNew, h]
  all_goals rfl

/-! ### Single integrator -/

theorem npAdd_same {a b : List ℝ} (h : a.length = b.length) : npAdd a b = .ok (List.zipWith (· + ·) a b) := by
  rw [npAdd, if_pos h]

/-- **C63.** `SingleIntegrator.evaluate` of a state and input of equal size is `x + dt u`, keeps the stamp, and is exactly
affine in the state: its Jacobian is the identity. -/
theorem C63_single_value (x u : Vec d) (s : Option ℝ) (dt : ℝ) :
    siEvaluate ⟨List.ofFn x, s⟩ (List.ofFn u) dt = .ok ⟨List.ofFn (x + dt • u), s⟩ := by
  have h : npAdd (List.ofFn x) ((List.ofFn u).map (dt * ·)) = .ok (List.ofFn (x + dt • u)) := by
    rw [npAdd_same (by simp)]
    congr 1
    apply List.ext_getElem <;> simp
  rw [siEvaluate]
  show (npAdd (List.ofFn x) ((List.ofFn u).map (dt * ·)) >>= _) = _
  rw [h]; rfl

/-- **C63.** The Jacobian of the single integrator is its exact linear part, and the noise on the input enters through `dt`. -/
theorem C63_single_jacobian (x u dx w : Vec d) (s : Option ℝ) (dt : ℝ) :
    siEvaluate ⟨List.ofFn (x + dx), s⟩ (List.ofFn (u + w)) dt
      = .ok ⟨List.ofFn ((x + dt • u) + siJacobian d *ᵥ dx + dt • w), s⟩ := by
  rw [C63_single_value]
  congr 3
  rw [siJacobian, one_mulVec]
  module

/-- **C63.** Flow property, for all sizes for which `evaluate` is defined: two steps of length `a` and `b` with a constant input
are one step of length `a + b`; and a step of length zero, when state and input have equal size, changes nothing. -/
theorem C63_single_flow (x : St (List ℝ)) (u : List ℝ) (a b : ℝ) :
    (siEvaluate x u a >>= fun y => siEvaluate y u b) = siEvaluate x u (a + b) ∧
    (x.value.length = u.length → siEvaluate x u 0 = .ok x) := by
  obtain ⟨x, s⟩ := x
  constructor
  · by_cases h : x.length = u.length
    · have e (c : ℝ) (z : List ℝ) (hz : z.length = u.length) : siEvaluate ⟨z, s⟩ u c
          = .ok ⟨List.zipWith (· + ·) z (u.map (c * ·)), s⟩ := by
        rw [siEvaluate]
        show (npAdd z (u.map (c * ·)) >>= _) = _
        rw [npAdd_same (by simp [hz])]; rfl
      rw [e a x h, e (a + b) x h]
      show siEvaluate ⟨List.zipWith (· + ·) x (u.map (a * ·)), s⟩ u b = _
      rw [e b _ (by simp [h])]
      congr 2
      apply List.ext_getElem
      · simp [h]
      · intro i h1 h2
        simp
        ring
    · by_cases hu : u.length = 1
      · obtain ⟨c, rfl⟩ := List.length_eq_one_iff.mp hu
        have e (t : ℝ) (z : List ℝ) (hz : z.length ≠ 1) : siEvaluate ⟨z, s⟩ [c] t
            = .ok ⟨z.map (· + t * c), s⟩ := by
          rw [siEvaluate]
          show (npAdd z [t * c] >>= _) = _
          rw [npAdd, if_neg (by simpa using hz), if_pos (by simp)]; rfl
        rw [e a x (by simpa using h), e (a + b) x (by simpa using h)]
        show siEvaluate ⟨x.map (· + a * c), s⟩ [c] b = _
        rw [e b _ (by simpa using h)]
        congr 2
        rw [List.map_map]
        apply List.map_congr_left
        intro y _
        simp only [Function.comp]
        ring
      · by_cases hx : x.length = 1
        · obtain ⟨c, rfl⟩ := List.length_eq_one_iff.mp hx
          have e1 (t : ℝ) : siEvaluate ⟨[c], s⟩ u t = .ok ⟨(u.map (t * ·)).map (c + ·), s⟩ := by
            rw [siEvaluate]
            show (npAdd [c] (u.map (t * ·)) >>= _) = _
            rw [npAdd, if_neg (by simpa using h), if_neg (by simpa using hu), if_pos (by simp)]; rfl
          rw [e1 a, e1 (a + b)]
          show siEvaluate ⟨(u.map (a * ·)).map (c + ·), s⟩ u b = _
          rw [siEvaluate]
          show (npAdd ((u.map (a * ·)).map (c + ·)) (u.map (b * ·)) >>= _) = _
          rw [npAdd_same (by simp)]
          show Except.ok _ = _
          congr 2
          apply List.ext_getElem
          · simp
          · intro i h1 h2
            simp
            ring
        · have e (t : ℝ) : siEvaluate ⟨x, s⟩ u t = .error .valueError := by
            rw [siEvaluate]
            show (npAdd x (u.map (t * ·)) >>= _) = _
            rw [npAdd, if_neg (by simpa using h), if_neg (by simpa using hu), if_neg hx]; rfl
          rw [e, e]; rfl
  · intro h
    rw [siEvaluate]
    show (npAdd x (u.map (0 * ·)) >>= _) = _
    rw [npAdd_same (by simpa using h)]
    show Except.ok _ = _
    congr 2
    apply List.ext_getElem
    · simpa using h.le
    · intro i h1 h2
      simp

/-- **C63.** The covariance of the single integrator is the noise `dt w` pushed through: positive semidefinite; and over two
intervals with independent noises it is smaller than over the joined interval, by exactly `2 a b Q`. -/
theorem C63_single_cov (Q : Mat d d) (hQ : Q.PosSemidef) (a b : ℝ) :
    (siCovariance Q a).PosSemidef ∧
    siCovariance Q (a + b) = siJacobian d * siCovariance Q a * (siJacobian d)ᵀ + siCovariance Q b + (2 * a * b) • Q := by
  constructor
  · exact hQ.smul (sq_nonneg a)
  · simp only [siCovariance, siJacobian, transpose_one, Matrix.one_mul, Matrix.mul_one]
    module

/-! ### Double integrator -/

theorem toVec_ofFn_eq (u : Vec d) : toVec d (List.ofFn u) = u := by
  funext i; simp [toVec]

theorem diEvaluate_ok {u : List ℝ} (h : d ≤ u.length) (x : St (Fin d ⊕ Fin d → ℝ)) (dt : ℝ) :
    diEvaluate x u dt = .ok { x with value := diA dt *ᵥ x.value + diL dt *ᵥ toVec d u } := by
  rw [diEvaluate, if_neg (by omega)]

theorem diA_inl (t : ℝ) (v : Fin d ⊕ Fin d → ℝ) (i : Fin d) : (diA t *ᵥ v) (.inl i) = v (.inl i) + t * v (.inr i) := by
  simp [diA, fromBlocks_mulVec, smul_mulVec]

theorem diA_inr (t : ℝ) (v : Fin d ⊕ Fin d → ℝ) (i : Fin d) : (diA t *ᵥ v) (.inr i) = v (.inr i) := by
  simp [diA, fromBlocks_mulVec]

theorem diL_inl (t : ℝ) (v : Vec d) (i : Fin d) : (diL t *ᵥ v) (.inl i) = 0.5 * t ^ 2 * v i := by
  simp [diL, fromRows_mulVec, smul_mulVec]

theorem diL_inr (t : ℝ) (v : Vec d) (i : Fin d) : (diL t *ᵥ v) (.inr i) = t * v i := by
  simp [diL, fromRows_mulVec, smul_mulVec]

theorem diA_add (a b : ℝ) : (diA b * diA a : Matrix (Fin d ⊕ Fin d) (Fin d ⊕ Fin d) ℝ) = diA (a + b) := by
  apply Matrix.toLin'.injective
  ext v i
  simp only [toLin'_apply', LinearMap.comp_apply, mulVecLin_apply, ← mulVec_mulVec]
  rcases i with i | i
  · simp only [diA_inl, diA_inr]; ring
  · simp only [diA_inr]

theorem diL_add (a b : ℝ) : (diA b * diL a + diL b : Matrix (Fin d ⊕ Fin d) (Fin d) ℝ) = diL (a + b) := by
  apply Matrix.toLin'.injective
  ext v i
  simp only [toLin'_apply', LinearMap.comp_apply, mulVecLin_apply, add_mulVec, ← mulVec_mulVec, Pi.add_apply]
  rcases i with i | i
  · simp only [diA_inl, diL_inl, diL_inr]; ring
  · simp only [diA_inr, diL_inr]; ring

/-- **C63.** `DoubleIntegrator.evaluate` raises exactly when the input has fewer than `dim` entries, and entries beyond `dim` are
ignored. -/
theorem C63_double_domain (x : St (Fin d ⊕ Fin d → ℝ)) (u : List ℝ) (dt : ℝ) :
    (u.length < d → diEvaluate x u dt = .error .valueError) ∧
    (d ≤ u.length → diEvaluate x u dt = diEvaluate x (u.take d) dt ∧ ∃ y : St (Fin d ⊕ Fin d → ℝ),
      diEvaluate x u dt = .ok y ∧ y.stamp = x.stamp) := by
  constructor
  · intro h; rw [diEvaluate, if_pos h]
  · intro h
    refine ⟨?_, _, diEvaluate_ok h x dt, rfl⟩
    rw [diEvaluate_ok h, diEvaluate_ok (by simpa using h)]
    have : toVec d u = toVec d (u.take d) := by
      funext i
      simp [toVec, List.getElem?_take_of_lt i.2]
    rw [this]

/-- **C63.** Flow property of the double integrator, wherever it is defined or not. -/
theorem C63_double_flow (x : St (Fin d ⊕ Fin d → ℝ)) (u : List ℝ) (a b : ℝ) :
    (diEvaluate x u a >>= fun y => diEvaluate y u b) = diEvaluate x u (a + b) ∧
    (d ≤ u.length → diEvaluate x u 0 = .ok x) := by
  by_cases h : d ≤ u.length
  · refine ⟨?_, fun _ => ?_⟩
    · rw [diEvaluate_ok h, diEvaluate_ok h]
      show diEvaluate _ u b = _
      rw [diEvaluate_ok h]
      congr 2
      simp only
      rw [mulVec_add, mulVec_mulVec, mulVec_mulVec, diA_add, add_assoc, ← add_mulVec, diL_add]
    · rw [diEvaluate_ok h]
      obtain ⟨x, s⟩ := x
      congr 2
      funext i
      rcases i with i | i
      · simp [diA_inl, diL_inl]
      · simp [diA_inr, diL_inr]
  · have e (z : St (Fin d ⊕ Fin d → ℝ)) (t : ℝ) : diEvaluate z u t = .error .valueError := by
      rw [diEvaluate, if_pos (by omega)]
    refine ⟨?_, fun h' => absurd h' h⟩
    rw [e, e]; rfl

/-- **C63.** The double integrator solves the documented differential equation: for a constant input the position is an
antiderivative of the velocity and the velocity one of the input, at all times, from the initial state. -/
theorem C63_double_ode (x : St (Fin d ⊕ Fin d → ℝ)) (u : Vec d) :
    ∃ y : ℝ → St (Fin d ⊕ Fin d → ℝ), (∀ t : ℝ, diEvaluate x (List.ofFn u) t = .ok (y t)) ∧ y 0 = x ∧
      ∀ (t : ℝ) (i : Fin d),
        HasDerivAt (fun τ : ℝ => (y τ).value (.inl i)) ((y t).value (.inr i)) t ∧
        HasDerivAt (fun τ : ℝ => (y τ).value (.inr i)) (u i) t := by
  refine ⟨fun t => { x with value := diA t *ᵥ x.value + diL t *ᵥ u }, fun t => ?_, ?_, fun t i => ⟨?_, ?_⟩⟩
  · rw [diEvaluate_ok (by simp), toVec_ofFn_eq]
  · have h := (C63_double_flow x (List.ofFn u) 0 0).2 (by simp)
    rw [diEvaluate_ok (by simp), toVec_ofFn_eq] at h
    injection h
  · simp only [Pi.add_apply, diA_inl, diL_inl, diA_inr, diL_inr]
    have h1 : HasDerivAt (fun τ : ℝ => x.value (.inl i) + τ * x.value (.inr i)) (x.value (.inr i)) t := by
      simpa using ((hasDerivAt_id t).mul_const (x.value (.inr i))).const_add (x.value (.inl i))
    have h2 : HasDerivAt (fun τ : ℝ => 0.5 * τ ^ 2 * u i) (t * u i) t := by
      have := (((hasDerivAt_pow 2 t).const_mul (0.5 : ℝ)).mul_const (u i))
      refine this.congr_deriv ?_
      simp only [Nat.cast_ofNat, Nat.add_one_sub_one, pow_one]
      ring
    exact h1.add h2
  · simp only [Pi.add_apply, diA_inr, diL_inr]
    simpa using ((hasDerivAt_id t).mul_const (u i)).const_add (x.value (.inr i))

/-- **C63.** The Jacobians of the double integrator are exact: a change `dx` of the state and `w` of the input change the result
by exactly `jacobian dx + input_jacobian w`. -/
theorem C63_double_jacobian (x : St (Fin d ⊕ Fin d → ℝ)) (u w : Vec d) (dx : Fin d ⊕ Fin d → ℝ) (dt : ℝ)
    (y : St (Fin d ⊕ Fin d → ℝ)) (h : diEvaluate x (List.ofFn u) dt = .ok y) :
    diEvaluate { x with value := x.value + dx } (List.ofFn (u + w)) dt
      = .ok { y with value := y.value + (diA dt *ᵥ dx + diL dt *ᵥ w) } := by
  rw [diEvaluate_ok (by simp), toVec_ofFn_eq] at h
  injection h with h
  subst h
  rw [diEvaluate_ok (by simp), toVec_ofFn_eq]
  congr 2
  simp only [mulVec_add]
  abel

/-- **C63.** The covariance of the double integrator is positive semidefinite. Over a joined interval it belongs to one noise
held over both parts: the covariances of the parts do not add up to it, the difference being the cross terms. -/
theorem C63_double_cov (Q : Mat d d) (hQ : Q.PosSemidef) (a b : ℝ) :
    (diCovariance Q a).PosSemidef ∧
    diCovariance Q (a + b) = diA b * diCovariance Q a * (diA b)ᵀ + diCovariance Q b
      + ((diA b * diL a : Matrix (Fin d ⊕ Fin d) (Fin d) ℝ) * Q * (diL b)ᵀ
        + (diL b : Matrix (Fin d ⊕ Fin d) (Fin d) ℝ) * Q * (diA b * diL a)ᵀ) ∧
    (0 < a → 0 < b → Q ≠ 0 →
      diCovariance Q (a + b) ≠ diA b * diCovariance Q a * (diA b)ᵀ + diCovariance Q b) := by
  have key : diCovariance Q (a + b) = diA b * diCovariance Q a * (diA b)ᵀ + diCovariance Q b
      + ((diA b * diL a : Matrix (Fin d ⊕ Fin d) (Fin d) ℝ) * Q * (diL b)ᵀ
        + (diL b : Matrix (Fin d ⊕ Fin d) (Fin d) ℝ) * Q * (diA b * diL a)ᵀ) := by
    simp only [diCovariance, ← diL_add a b, transpose_add, transpose_mul, Matrix.add_mul, Matrix.mul_add, Matrix.mul_assoc]
    abel
  refine ⟨psd_conj hQ _, key, fun ha hb hQ0 h => hQ0 ?_⟩
  rw [key, add_eq_left] at h
  have e1 : (diA b * diL a : Matrix (Fin d ⊕ Fin d) (Fin d) ℝ) = fromRows ((0.5 * a ^ 2 + b * a : ℝ) • 1) (a • 1) := by
    apply Matrix.toLin'.injective
    ext v i
    simp only [toLin'_apply', LinearMap.comp_apply, mulVecLin_apply, ← mulVec_mulVec]
    rcases i with i | i
    · simp only [diA_inl, diL_inl, diL_inr, fromRows_mulVec, smul_mulVec, one_mulVec, Sum.elim_inl, Pi.smul_apply, smul_eq_mul]
      ring
    · simp only [diA_inr, diL_inr, fromRows_mulVec, smul_mulVec, one_mulVec, Sum.elim_inr, Pi.smul_apply, smul_eq_mul]
  ext i j
  have := congrFun₂ h (.inr i) (.inr j)
  rw [e1] at this
  simp only [diL, transpose_fromRows, fromRows_mul, mul_fromCols] at this
  simp at this
  have h2 : a * b ≠ 0 := mul_ne_zero ha.ne' hb.ne'
  have : 2 * (a * b) * Q i j = 0 := by linarith
  simpa [h2, ha.ne', hb.ne'] using this

/-! ### Double integrator with bias -/

/-- The bias part of a state. -/
def dbBias (x : DbIdx d → ℝ) : Vec d := fun i => x (.inr i)

theorem bcastTo_ofFn (u : Vec d) : bcastTo d (List.ofFn u) = .ok u := by
  rw [bcastTo, if_pos (by simp), toVec_ofFn_eq]

/-- What `evaluate` returns on an input without a random walk. -/
theorem dbEvaluate_ok (x : St (DbIdx d → ℝ)) (u : Vec d) (dt : ℝ) :
    dbEvaluate x (List.ofFn u) dt = .ok { x with
      value := Sum.elim (diA dt *ᵥ (fun i => x.value (.inl i)) + diL dt *ᵥ (u - dbBias x.value)) (dbBias x.value) } := by
  rw [dbEvaluate]
  have h : (List.ofFn u).take d = List.ofFn u := List.take_of_length_le (by simp)
  rw [h, bcastTo_ofFn]
  show (dbWalk d (List.ofFn u) >>= _) = _
  rw [dbWalk, if_neg (by simp)]
  show Except.ok _ = _
  congr 3
  simp only [smul_zero, add_zero]
  rfl

/-- What `evaluate` returns on an input with a random walk. -/
theorem dbEvaluate_walk_ok (hd : 0 < d) (x : St (DbIdx d → ℝ)) (u w : Vec d) (dt : ℝ) :
    dbEvaluate x (List.ofFn u ++ List.ofFn w) dt = .ok { x with
      value := Sum.elim (diA dt *ᵥ (fun i => x.value (.inl i)) + diL dt *ᵥ (u - dbBias x.value)) (dbBias x.value + dt • w) } := by
  rw [dbEvaluate]
  have h : (List.ofFn u ++ List.ofFn w).take d = List.ofFn u := by
    rw [List.take_append_of_le_length (by simp), List.take_of_length_le (by simp)]
  have h2 : (List.ofFn u ++ List.ofFn w).drop d = List.ofFn w := by
    rw [List.drop_append_of_le_length (by simp), List.drop_of_length_le (by simp)]; rfl
  rw [h, bcastTo_ofFn]
  show (dbWalk d (List.ofFn u ++ List.ofFn w) >>= _) = _
  rw [dbWalk, if_pos (by simp; exact hd), h2, bcastTo_ofFn]
  rfl

/-- **C63.** Without a random walk in the input the double integrator with bias has the flow property and solves
`r' = v, v' = u - b, b' = 0`. -/
theorem C63_bias_flow (x : St (DbIdx d → ℝ)) (u : Vec d) :
    ∃ y : ℝ → St (DbIdx d → ℝ), (∀ t : ℝ, dbEvaluate x (List.ofFn u) t = .ok (y t)) ∧ y 0 = x ∧
      (∀ a b : ℝ, dbEvaluate (y a) (List.ofFn u) b = .ok (y (a + b))) ∧
      (∀ t : ℝ, (y t).stamp = x.stamp) ∧
      ∀ (t : ℝ) (i : Fin d),
        HasDerivAt (fun τ : ℝ => (y τ).value (.inl (.inl i))) ((y t).value (.inl (.inr i))) t ∧
        HasDerivAt (fun τ : ℝ => (y τ).value (.inl (.inr i))) (u i - (y t).value (.inr i)) t ∧
        HasDerivAt (fun τ : ℝ => (y τ).value (.inr i)) 0 t := by
  have hy := dbEvaluate_ok x u
  set y : ℝ → St (DbIdx d → ℝ) := fun t => { x with
      value := Sum.elim (diA t *ᵥ (fun i => x.value (.inl i)) + diL t *ᵥ (u - dbBias x.value)) (dbBias x.value) } with hyd
  obtain ⟨z, hz, hz0, hode⟩ := C63_double_ode ⟨fun i => x.value (.inl i), x.stamp⟩ (u - dbBias x.value)
  have hzy (t : ℝ) : z t = ⟨fun i => (y t).value (.inl i), x.stamp⟩ := by
    have := hz t
    rw [diEvaluate_ok (by simp), toVec_ofFn_eq] at this
    injection this with this
    rw [← this]
    rfl
  refine ⟨y, hy, ?_, fun a b => ?_, fun t => rfl, fun t i => ⟨?_, ?_, ?_⟩⟩
  · rw [hzy] at hz0
    injection hz0 with h0 _
    have : y 0 = ⟨(y 0).value, x.stamp⟩ := rfl
    rw [this]
    obtain ⟨xv, xs⟩ := x
    congr 1
    funext i
    rcases i with i | i
    · exact congrFun h0 i
    · rfl
  · rw [dbEvaluate_ok]
    have hf := (C63_double_flow ⟨fun i => x.value (.inl i), x.stamp⟩ (List.ofFn (u - dbBias x.value)) a b).1
    rw [hz a, hz (a + b)] at hf
    have hf : diEvaluate (z a) (List.ofFn (u - dbBias x.value)) b = .ok (z (a + b)) := hf
    rw [diEvaluate_ok (by simp), toVec_ofFn_eq, hzy, hzy] at hf
    injection hf with hf
    injection hf with hf _
    have e : y (a + b) = ⟨Sum.elim (fun i => (y (a + b)).value (.inl i)) (dbBias x.value), x.stamp⟩ := by
      have : (fun i => (y (a + b)).value (Sum.inl i)) = diA (a + b) *ᵥ (fun i => x.value (.inl i)) + diL (a + b) *ᵥ (u - dbBias x.value) := rfl
      rw [this]
    rw [e, ← hf]
    rfl
  · have := (hode t i).1
    simpa only [hzy] using this
  · have := (hode t i).2
    simp only [hzy] at this
    exact this
  · exact hasDerivAt_const t _

/-- **C63.** With a random walk in the input (which `evaluate` accepts) the bias moves by `dt w`, but the velocity is that of the
initial bias: the flow property fails for every nonzero walk and two nonzero intervals. -/
theorem C63_bias_walk (x : St (DbIdx d → ℝ)) (u w : Vec d) (hw : w ≠ 0) (a b : ℝ) (ha : a ≠ 0) (hb : b ≠ 0) :
    (dbEvaluate x (List.ofFn u ++ List.ofFn w) a >>= fun y => dbEvaluate y (List.ofFn u ++ List.ofFn w) b)
      ≠ dbEvaluate x (List.ofFn u ++ List.ofFn w) (a + b) := by
  have hd : 0 < d := by
    rcases Nat.eq_zero_or_pos d with h | h
    · subst h; exact absurd (Subsingleton.elim _ _) hw
    · exact h
  rw [dbEvaluate_walk_ok hd, dbEvaluate_walk_ok hd]
  show dbEvaluate _ _ b ≠ _
  rw [dbEvaluate_walk_ok hd]
  intro h
  injection h with h
  injection h with h _
  apply hw
  funext i
  have := congrFun h (.inl (.inr i))
  simp only [Sum.elim_inl, Sum.elim_inr, Pi.add_apply, diA_inr, diL_inr, dbBias, Pi.sub_apply, Pi.smul_apply, smul_eq_mul] at this
  have : a * b * w i = 0 := by linarith
  simpa [ha, hb] using this

/-- **C63.** The Jacobians of the double integrator with bias are exact, in the state and in the input with its random walk. -/
theorem C63_bias_jacobian (hd : 0 < d) (x : St (DbIdx d → ℝ)) (u w du dw : Vec d) (dx : DbIdx d → ℝ) (dt : ℝ)
    (y : St (DbIdx d → ℝ)) (h : dbEvaluate x (List.ofFn u ++ List.ofFn w) dt = .ok y) :
    dbEvaluate { x with value := x.value + dx } (List.ofFn (u + du) ++ List.ofFn (w + dw)) dt
      = .ok { y with value := y.value + (dbJacobian dt *ᵥ dx + dbL dt *ᵥ Sum.elim du dw) } := by
  rw [dbEvaluate_walk_ok hd] at h
  injection h with h
  subst h
  rw [dbEvaluate_walk_ok hd]
  congr 2
  have hb : dbBias (x.value + dx) = dbBias x.value + dbBias dx := rfl
  have hl : (fun i => (x.value + dx) (Sum.inl i)) = (fun i => x.value (.inl i)) + fun i => dx (.inl i) := rfl
  have e1 : dbJacobian dt *ᵥ dx = Sum.elim (diA dt *ᵥ (fun i => dx (.inl i)) - diL dt *ᵥ dbBias dx) (dbBias dx) := by
    rw [dbJacobian, fromBlocks_mulVec]
    congr 1
    · rw [neg_mulVec, sub_eq_add_neg]; rfl
    · simp [Function.comp_def]
      rfl
  have e2 : dbL dt *ᵥ Sum.elim du dw = Sum.elim (diL dt *ᵥ du) (dt • dw) := by
    rw [dbL, fromBlocks_mulVec]
    simp [smul_mulVec]
  simp only [e1, e2, hb, hl]
  funext i
  rcases i with i | i
  · simp only [Sum.elim_inl, Pi.add_apply, mulVec_add, mulVec_sub, Pi.sub_apply]
    ring
  · simp only [Sum.elim_inr, Pi.add_apply, Pi.smul_apply, smul_eq_mul]
    ring

/-- **C63.** The covariance of the double integrator with bias is positive semidefinite. -/
theorem C63_bias_cov (Q : Matrix (Fin d ⊕ Fin d) (Fin d ⊕ Fin d) ℝ) (hQ : Q.PosSemidef) (dt : ℝ) :
    (dbCovariance Q dt).PosSemidef := psd_conj hQ _

/-- **C63.** An input of one entry is silently applied to all axes (as is a single walk entry); other wrong sizes raise. -/
theorem C63_bias_broadcast (hd : 1 < d) (x : St (DbIdx d → ℝ)) (c dt : ℝ) (u : List ℝ) :
    dbEvaluate x [c] dt = dbEvaluate x (List.ofFn fun _ : Fin d => c) dt ∧
    (1 < u.length → u.length < d → dbEvaluate x u dt = .error .valueError) ∧
    (u.length = 0 → dbEvaluate x u dt = .error .valueError) ∧
    (d + 1 < u.length → u.length ≠ d + d → dbEvaluate x u dt = .error .valueError) := by
  refine ⟨?_, fun h1 h2 => ?_, fun h => ?_, fun h1 h2 => ?_⟩
  · rw [dbEvaluate_ok, dbEvaluate]
    have h : [c].take d = [c] := List.take_of_length_le (by simp; omega)
    have h2 : bcastTo d [c] = .ok fun _ => c := by
      rw [bcastTo, if_neg (by simp; omega), if_pos (by simp)]; rfl
    rw [h, h2]
    show (dbWalk d [c] >>= _) = _
    rw [dbWalk, if_neg (by simp; omega)]
    show Except.ok _ = _
    congr 3
    simp only [smul_zero, add_zero]
    rfl
  · rw [dbEvaluate]
    have : bcastTo d (u.take d) = .error .valueError := by
      rw [bcastTo, if_neg (by simp; omega), if_neg (by simp; omega)]
    rw [this]; rfl
  · rw [dbEvaluate]
    have : bcastTo d (u.take d) = .error .valueError := by
      rw [bcastTo, if_neg (by simp; omega), if_neg (by simp; omega)]
    rw [this]; rfl
  · rw [dbEvaluate]
    have : bcastTo d (u.take d) = .ok (toVec d (u.take d)) := by
      rw [bcastTo, if_pos (by simp; omega)]
    rw [this]
    show (dbWalk d u >>= _) = _
    rw [dbWalk, if_pos (by omega)]
    have : bcastTo d (u.drop d) = .error .valueError := by
      rw [bcastTo, if_neg (by simp; omega), if_neg (by simp; omega)]
    rw [this]; rfl

example : ∃ (x : St (DbIdx 1 → ℝ)) (u w : Vec 1), w ≠ 0 ∧ ∃ y, dbEvaluate x (List.ofFn u ++ List.ofFn w) 1 = .ok y :=
  ⟨⟨0, none⟩, 0, 1, one_ne_zero, _, dbEvaluate_walk_ok one_pos _ _ _ _⟩

example : (1 : Mat 2 2).PosSemidef ∧ (1 : Mat 2 2) ≠ 0 := ⟨Matrix.PosSemidef.one, one_ne_zero⟩

/-! ### `StateWithCovariance` -/

/-- **C66.** The constructor accepts exactly a square covariance of the size of the state; every other two-dimensional array is a
`ValueError`; a one-dimensional one is an `IndexError`. What it stores is what it was given. -/
theorem C66_ctor {V : Type} (dof : V → ℕ) (x : St V) (P : DMat) :
    (P.rows = P.cols ∧ P.rows = dof x.value → swcNew dof x P = .ok (x, P)) ∧
    (¬(P.rows = P.cols ∧ P.rows = dof x.value) → swcNew dof x P = .error .valueError) ∧
    (∀ n : ℕ, swcCheck [n] (dof x.value) = .error .indexError) := by
  refine ⟨fun h => ?_, fun h => ?_, fun n => rfl⟩
  · have : swcCheck [P.rows, P.cols] (dof x.value) = .ok () := by
      simp only [swcCheck]
      rw [if_neg (by simp [h.1]), if_neg (by simp [h.2])]
    rw [swcNew, this]; rfl
  · have : swcCheck [P.rows, P.cols] (dof x.value) = .error .valueError := by
      simp only [swcCheck]
      by_cases h1 : P.rows = P.cols
      · rw [if_neg (by simp [h1]), if_pos (fun h2 => h ⟨h1, h2⟩)]
      · rw [if_pos h1]
    rw [swcNew, this]; rfl

/-- **C66.** `symmetrize` on an object the constructor accepted: the result is symmetric, has the same size and state, is accepted
again, has the same quadratic form, and a second call changes nothing; a symmetric covariance is unchanged. -/
theorem C66_symmetrize {V : Type} (dof : V → ℕ) (x : St V) (P : DMat) (s : St V × DMat) (h : swcNew dof x P = .ok s) :
    (swcSymmetrize s).1 = x ∧
    (∀ i j : ℕ, (swcSymmetrize s).2.get i j = (swcSymmetrize s).2.get j i) ∧
    swcNew dof (swcSymmetrize s).1 (swcSymmetrize s).2 = .ok (swcSymmetrize s) ∧
    swcSymmetrize (swcSymmetrize s) = swcSymmetrize s ∧
    (∀ v : ℕ → ℝ, ∑ i ∈ Finset.range P.rows, ∑ j ∈ Finset.range P.rows, v i * (swcSymmetrize s).2.get i j * v j
      = ∑ i ∈ Finset.range P.rows, ∑ j ∈ Finset.range P.rows, v i * P.get i j * v j) ∧
    ((∀ i j : ℕ, P.get i j = P.get j i) → swcSymmetrize s = s) := by
  have hc : P.rows = P.cols ∧ P.rows = dof x.value := by
    by_contra hc
    rw [(C66_ctor dof x P).2.1 hc] at h
    cases h
  rw [(C66_ctor dof x P).1 hc] at h
  injection h with h
  subst h
  refine ⟨rfl, fun i j => ?_, ?_, ?_, fun v => ?_, fun hs => ?_⟩
  · simp only [swcSymmetrize]; ring
  · exact (C66_ctor dof _ _).1 hc
  · simp only [swcSymmetrize]
    congr 2
    funext i j
    norm_num
    ring
  · have e : ∑ i ∈ Finset.range P.rows, ∑ j ∈ Finset.range P.rows, v i * P.get j i * v j
        = ∑ i ∈ Finset.range P.rows, ∑ j ∈ Finset.range P.rows, v i * P.get i j * v j := by
      rw [Finset.sum_comm]
      refine Finset.sum_congr rfl fun i _ => Finset.sum_congr rfl fun j _ => ?_
      ring
    have e2 : ∑ i ∈ Finset.range P.rows, ∑ j ∈ Finset.range P.rows, v i * (swcSymmetrize (x, P)).2.get i j * v j
        = 0.5 * ∑ i ∈ Finset.range P.rows, ∑ j ∈ Finset.range P.rows, v i * P.get i j * v j
          + 0.5 * ∑ i ∈ Finset.range P.rows, ∑ j ∈ Finset.range P.rows, v i * P.get j i * v j := by
      simp only [Finset.mul_sum, ← Finset.sum_add_distrib, swcSymmetrize]
      refine Finset.sum_congr rfl fun i _ => Finset.sum_congr rfl fun j _ => ?_
      ring
    rw [e2, e]
    norm_num
    ring
  · simp only [swcSymmetrize]
    obtain ⟨r, c, g⟩ := P
    congr 2
    funext i j
    simp only at hs ⊢
    rw [hs i j]
    norm_num
    ring

/-- **C66.** `copy` of an accepted object is accepted and equal. -/
theorem C66_copy {V : Type} (dof : V → ℕ) (x : St V) (P : DMat) (s : St V × DMat) (h : swcNew dof x P = .ok s) :
    swcCopy dof s = .ok s := by
  have hc : P.rows = P.cols ∧ P.rows = dof x.value := by
    by_contra hc
    rw [(C66_ctor dof x P).2.1 hc] at h
    cases h
  rw [(C66_ctor dof x P).1 hc] at h
  injection h with h
  subst h
  exact (C66_ctor dof x P).1 hc

example : ∃ s : St (Vec 2) × DMat, swcNew (fun _ => 2) ⟨![1, 2], none⟩ ⟨2, 2, fun i j => i + 2 * j⟩ = .ok s :=
  ⟨_, (C66_ctor _ _ _).1 ⟨rfl, rfl⟩⟩

end Verif
