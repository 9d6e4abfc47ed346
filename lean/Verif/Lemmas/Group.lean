import Verif.Model.Group
import Verif.Props.ImuJac
import Mathlib.Analysis.SpecialFunctions.Trigonometric.Deriv

/-! Laws of the matrix Lie groups, proved for SO(2), SO(3), SE(2), SE(3), SE_2(3). -/

namespace Verif

open Matrix NormedSpace

set_option linter.unusedVariables false
set_option linter.unusedSectionVars false

/-- Specification of a matrix Lie group with members `mem` and bracket matrix `ad`. -/
structure MLG.Laws {ι κ : Type} [Fintype ι] [DecidableEq ι] [Fintype κ] [DecidableEq κ] (G : MLG ι κ)
    (mem : Matrix ι ι ℝ → Prop) (ad : (κ → ℝ) → Matrix κ κ ℝ) : Prop where
  wedge_add : ∀ ξ ζ, G.wedge (ξ + ζ) = G.wedge ξ + G.wedge ζ
  wedge_smul : ∀ (t : ℝ) ξ, G.wedge (t • ξ) = t • G.wedge ξ
  wedge_inj : ∀ ξ ζ, G.wedge ξ = G.wedge ζ → ξ = ζ
  bracket : ∀ ζ ξ, G.wedge ζ * G.wedge ξ - G.wedge ξ * G.wedge ζ = G.wedge (ad ζ *ᵥ ξ)
  leftJac : ∀ ξ, G.leftJac ξ = phiSer 1 (ad ξ)
  mem_one : mem 1
  mem_exp : ∀ ξ, mem (G.Exp ξ)
  mem_mul : ∀ X Y, mem X → mem Y → mem (X * Y)
  mem_inv : ∀ X, mem X → mem (G.inverse X)
  mul_inv : ∀ X, mem X → X * G.inverse X = 1
  adjoint : ∀ X, mem X → ∀ ξ, X * G.wedge ξ * G.inverse X = G.wedge (G.adjoint X *ᵥ ξ)

namespace MLG.Laws

variable {ι κ : Type} [Fintype ι] [DecidableEq ι] [Fintype κ] [DecidableEq κ] {G : MLG ι κ}
  {mem : Matrix ι ι ℝ → Prop} {ad : (κ → ℝ) → Matrix κ κ ℝ}

theorem wedge_zero (h : G.Laws mem ad) : G.wedge 0 = 0 := by
  have := h.wedge_smul 0 0
  simpa using this

theorem wedge_neg (h : G.Laws mem ad) (ξ : κ → ℝ) : G.wedge (-ξ) = -G.wedge ξ := by
  have := h.wedge_smul (-1) ξ
  simpa using this

/-- The algebra as a linear space of matrices. -/
def wedgeL (h : G.Laws mem ad) : (κ → ℝ) →ₗ[ℝ] Matrix ι ι ℝ where
  toFun := G.wedge
  map_add' := h.wedge_add
  map_smul' := h.wedge_smul

theorem ext_vec (h : G.Laws mem ad) {A B : Matrix κ κ ℝ} (e : ∀ ξ, G.wedge (A *ᵥ ξ) = G.wedge (B *ᵥ ξ)) : A = B := by
  ext i j
  have := congrFun (h.wedge_inj _ _ (e (Pi.single j 1))) i
  simpa using this

theorem ad_neg (h : G.Laws mem ad) (ζ : κ → ℝ) : ad (-ζ) = -ad ζ := by
  refine h.ext_vec fun ξ => ?_
  rw [← h.bracket, neg_mulVec, h.wedge_neg, h.wedge_neg, ← h.bracket]
  noncomm_ring

theorem ad_zero (h : G.Laws mem ad) : ad 0 = 0 := by
  refine h.ext_vec fun ξ => ?_
  rw [← h.bracket, h.wedge_zero, zero_mulVec, h.wedge_zero]
  simp

theorem Exp_zero (h : G.Laws mem ad) : G.Exp 0 = 1 := by
  unfold MLG.Exp
  rw [h.wedge_zero, exp_zero]

theorem inv_mul (h : G.Laws mem ad) {X : Matrix ι ι ℝ} (hX : mem X) : G.inverse X * X = 1 := mul_eq_one_comm.1 (h.mul_inv X hX)

theorem inv_unique (h : G.Laws mem ad) {X Y : Matrix ι ι ℝ} (hX : mem X) (e : X * Y = 1) : G.inverse X = Y := by
  calc G.inverse X = G.inverse X * (X * Y) := by rw [e, mul_one]
    _ = Y := by rw [← mul_assoc, h.inv_mul hX, one_mul]

theorem inv_eq (h : G.Laws mem ad) {X : Matrix ι ι ℝ} (hX : mem X) : X⁻¹ = G.inverse X := inv_eq_right_inv (h.mul_inv X hX)

theorem isUnit (h : G.Laws mem ad) {X : Matrix ι ι ℝ} (hX : mem X) : IsUnit X := isUnit_iff_exists_inv.2 ⟨_, h.mul_inv X hX⟩

theorem inv_inv (h : G.Laws mem ad) {X : Matrix ι ι ℝ} (hX : mem X) : G.inverse (G.inverse X) = X :=
  h.inv_unique (h.mem_inv X hX) (h.inv_mul hX)

theorem inv_one (h : G.Laws mem ad) : G.inverse 1 = 1 := h.inv_unique h.mem_one (one_mul 1)

theorem inv_mul_rev (h : G.Laws mem ad) {X Y : Matrix ι ι ℝ} (hX : mem X) (hY : mem Y) :
    G.inverse (X * Y) = G.inverse Y * G.inverse X := by
  refine h.inv_unique (h.mem_mul X Y hX hY) ?_
  rw [mul_assoc, ← mul_assoc Y, h.mul_inv Y hY, one_mul, h.mul_inv X hX]

theorem inv_exp (h : G.Laws mem ad) (ξ : κ → ℝ) : G.inverse (G.Exp ξ) = G.Exp (-ξ) := by
  refine h.inv_unique (h.mem_exp ξ) ?_
  unfold MLG.Exp
  rw [h.wedge_neg, ← Matrix.exp_add_of_commute _ _ (Commute.neg_right (Commute.refl (G.wedge ξ))), add_neg_cancel, exp_zero]

theorem adjoint_mul (h : G.Laws mem ad) {X Y : Matrix ι ι ℝ} (hX : mem X) (hY : mem Y) :
    G.adjoint (X * Y) = G.adjoint X * G.adjoint Y := by
  refine h.ext_vec fun ξ => ?_
  rw [← h.adjoint _ (h.mem_mul X Y hX hY), ← mulVec_mulVec, ← h.adjoint X hX, ← h.adjoint Y hY, h.inv_mul_rev hX hY]
  simp only [mul_assoc]

theorem adjoint_one (h : G.Laws mem ad) : G.adjoint 1 = 1 := by
  refine h.ext_vec fun ξ => ?_
  rw [← h.adjoint _ h.mem_one, h.inv_one, one_mulVec, one_mul, mul_one]

theorem adjoint_inv_mul (h : G.Laws mem ad) {X : Matrix ι ι ℝ} (hX : mem X) : G.adjoint (G.inverse X) * G.adjoint X = 1 := by
  rw [← h.adjoint_mul (h.mem_inv X hX) hX, h.inv_mul hX, h.adjoint_one]

theorem adjoint_mul_inv (h : G.Laws mem ad) {X : Matrix ι ι ℝ} (hX : mem X) : G.adjoint X * G.adjoint (G.inverse X) = 1 := by
  rw [← h.adjoint_mul hX (h.mem_inv X hX), h.mul_inv X hX, h.adjoint_one]

theorem Exp_conj (h : G.Laws mem ad) {X : Matrix ι ι ℝ} (hX : mem X) (ξ : κ → ℝ) :
    X * G.Exp ξ * G.inverse X = G.Exp (G.adjoint X *ᵥ ξ) := by
  unfold MLG.Exp
  rw [← h.adjoint X hX ξ, ← h.inv_eq hX, Matrix.exp_conj X _ (h.isUnit hX)]

/-- Moving a factor `Exp` from the left to the right. -/
theorem Exp_mul (h : G.Laws mem ad) {X : Matrix ι ι ℝ} (hX : mem X) (ξ : κ → ℝ) :
    G.Exp ξ * X = X * G.Exp (G.adjoint (G.inverse X) *ᵥ ξ) := by
  rw [← h.Exp_conj (h.mem_inv X hX), h.inv_inv hX, ← mul_assoc, ← mul_assoc, h.mul_inv X hX, one_mul]

theorem mul_Exp (h : G.Laws mem ad) {X : Matrix ι ι ℝ} (hX : mem X) (ξ : κ → ℝ) :
    X * G.Exp ξ = G.Exp (G.adjoint X *ᵥ ξ) * X := by
  rw [← h.Exp_conj hX, mul_assoc, h.inv_mul hX, mul_one]

theorem wedge_mul (h : G.Laws mem ad) {X : Matrix ι ι ℝ} (hX : mem X) (ξ : κ → ℝ) :
    G.wedge ξ * X = X * G.wedge (G.adjoint (G.inverse X) *ᵥ ξ) := by
  rw [← h.adjoint _ (h.mem_inv X hX), h.inv_inv hX, ← mul_assoc, ← mul_assoc, h.mul_inv X hX, one_mul]

theorem mul_wedge (h : G.Laws mem ad) {X : Matrix ι ι ℝ} (hX : mem X) (ξ : κ → ℝ) :
    X * G.wedge ξ = G.wedge (G.adjoint X *ᵥ ξ) * X := by
  rw [← h.adjoint X hX, mul_assoc, h.inv_mul hX, mul_one]

/-- The derivative of the group exponential. -/
theorem Exp_deriv (h : G.Laws mem ad) (ζ ξ : κ → ℝ) :
    HasMatDeriv (fun s : ℝ => G.Exp (ζ + s • ξ)) (G.Exp ζ * G.wedge (G.leftJac (-ζ) *ᵥ ξ)) 0 := by
  have hd := dexp_right (G.wedge ζ) h.wedgeL (ad ζ) (h.bracket ζ) ξ
  have e : ∀ s : ℝ, G.wedge ζ + s • h.wedgeL ξ = G.wedge (ζ + s • ξ) := by
    intro s
    rw [h.wedge_add, h.wedge_smul]
    rfl
  have hd' := hd.congr_fun e
  refine hd'.congr_deriv ?_
  rw [h.leftJac, h.ad_neg]
  rfl

theorem leftJac_zero (h : G.Laws mem ad) : G.leftJac 0 = 1 := by
  rw [h.leftJac, h.ad_zero, phi_at_zero]
  simp

theorem Exp_deriv_zero (h : G.Laws mem ad) (ξ : κ → ℝ) : HasMatDeriv (fun s : ℝ => G.Exp (s • ξ)) (G.wedge ξ) 0 := by
  have := h.Exp_deriv 0 ξ
  rw [neg_zero, h.leftJac_zero, one_mulVec, h.Exp_zero, one_mul] at this
  simpa using this

end MLG.Laws

/-! ### The groups -/

/-- The exponential of `[A B; 0 0]`. -/
theorem exp_col {ι κ : Type} [Fintype ι] [DecidableEq ι] [Fintype κ] [DecidableEq κ] (A : Matrix ι ι ℝ) (B : Matrix ι κ ℝ) :
    exp (fromBlocks A B 0 (0 : Matrix κ κ ℝ)) = fromBlocks (exp A) (phiSer 1 A * B) 0 1 := by
  ext i j
  have h := (hasSum_nat_add_iff' 1).2 (entry_hasSum (fromBlocks A B 0 (0 : Matrix κ κ ℝ)) i j)
  simp only [fromBlocks_pow_col] at h
  rcases i with i | i <;> rcases j with j | j
  · have h2 := (hasSum_nat_add_iff' 1).2 (entry_hasSum A i j)
    have := h.unique h2
    simp [Matrix.one_apply] at this ⊢
    linarith
  · have h2 := phi_entry 1 A (fun k => B k j) i
    have := h.unique (h2.congr_fun (by intro n; simp [Matrix.mul_apply, mulVec, dotProduct]))
    simp at this ⊢
    simp [Matrix.mul_apply, mulVec, dotProduct] at this ⊢
    linarith
  · simp only [fromBlocks_apply₂₁, fromBlocks_apply₂₂, Matrix.zero_apply, mul_zero] at h
    have := h.unique hasSum_zero
    simp at this ⊢
    linarith
  · simp only [fromBlocks_apply₂₁, fromBlocks_apply₂₂, Matrix.zero_apply, mul_zero] at h
    have := h.unique hasSum_zero
    simp [Matrix.one_apply] at this ⊢
    linarith

theorem so3_laws : so3.Laws IsRot skew where
  wedge_add := skew_add
  wedge_smul := skew_smul
  wedge_inj ξ ζ h := by
    have := congrArg vee h
    rwa [show so3.wedge ξ = skew ξ from rfl, show so3.wedge ζ = skew ζ from rfl, vee_skew, vee_skew] at this
  bracket := skew_bracket
  leftJac ξ := rfl
  mem_one := isRot_one
  mem_exp := so3Exp_isRot
  mem_mul X Y h h' := h.mul h'
  mem_inv X h := h.transpose
  mul_inv X h := h.1.right
  adjoint X h ξ := by
    show X * skew ξ * Xᵀ = skew (X *ᵥ ξ)
    rw [← h.skew, mul_assoc, h.1.right, mul_one]

/-- Specification: SE(3). -/
def IsSE3 (X : Pose) : Prop := ∃ C r, IsRot C ∧ X = mkPose C r

theorem se3_wedge (ξ : Fin 3 ⊕ Fin 3 → ℝ) :
    se3.wedge ξ = fromBlocks (skew (ξ ∘ .inl)) (.of fun i _ => ξ (.inr i)) 0 0 := rfl

theorem se3_laws : se3.Laws IsSE3 se3Ad where
  wedge_add ξ ζ := by
    rw [se3_wedge, se3_wedge, se3_wedge, fromBlocks_add]
    congr 1
    · rw [← skew_add]; rfl
    · simp
    · simp
  wedge_smul t ξ := by
    rw [se3_wedge, se3_wedge, fromBlocks_smul]
    congr 1
    · rw [← skew_smul]; rfl
    · simp
    · simp
  wedge_inj ξ ζ h := by
    rw [se3_wedge, se3_wedge, fromBlocks_inj] at h
    have h1 := congrArg vee h.1
    rw [vee_skew, vee_skew] at h1
    funext k
    rcases k with k | k
    · exact congrFun h1 k
    · exact congrFun (congrFun h.2.1 k) 0
  bracket ζ ξ := by
    rw [se3_wedge, se3_wedge, se3_wedge, fromBlocks_multiply, fromBlocks_multiply]
    have h1 : (se3Ad ζ *ᵥ ξ) ∘ Sum.inl = skew (ζ ∘ .inl) *ᵥ (ξ ∘ .inl) := by
      unfold se3Ad
      rw [fromBlocks_mulVec]
      simp
    have h2 : (se3Ad ζ *ᵥ ξ) ∘ Sum.inr = skew (ζ ∘ .inl) *ᵥ (ξ ∘ .inr) - skew (ξ ∘ .inl) *ᵥ (ζ ∘ .inr) := by
      unfold se3Ad
      rw [fromBlocks_mulVec, skew_mulVec_comm (ξ ∘ .inl)]
      simp [add_comm]
    rw [h1, ← skew_bracket]
    ext i j
    rcases i with i | i <;> rcases j with j | j
    · simp
    · have := congrFun h2 i
      simp only [Matrix.sub_apply, fromBlocks_apply₁₂, of_apply, Matrix.mul_zero, add_zero]
      rw [show (se3Ad ζ *ᵥ ξ) (Sum.inr i) = _ from this]
      simp [Matrix.mul_apply, mulVec, dotProduct]
    · simp
    · simp
  leftJac ξ := rfl
  mem_one := ⟨1, 0, isRot_one, mkPose_one.symm⟩
  mem_exp ξ := by
    unfold MLG.Exp
    rw [se3_wedge, exp_col]
    refine ⟨_, phiSer 1 (skew (ξ ∘ .inl)) *ᵥ (ξ ∘ .inr), so3Exp_isRot (ξ ∘ .inl), ?_⟩
    unfold mkPose
    congr 1
  mem_mul X Y hX hY := by
    obtain ⟨C, r, h, rfl⟩ := hX
    obtain ⟨D, s, h', rfl⟩ := hY
    exact ⟨_, _, h.mul h', mkPose_mul _ _ _ _⟩
  mem_inv X hX := by
    obtain ⟨C, r, h, rfl⟩ := hX
    exact ⟨_, _, h.transpose, rfl⟩
  mul_inv X hX := by
    obtain ⟨C, r, h, rfl⟩ := hX
    exact mul_se3Inv ⟨_, _, h.1, rfl⟩
  adjoint X hX ξ := by
    have key : X * se3.wedge ξ = se3.wedge (se3.adjoint X *ᵥ ξ) * X := by
      obtain ⟨C, r, h, rfl⟩ := hX
      have h1 : (se3.adjoint (mkPose C r) *ᵥ ξ) ∘ Sum.inl = C *ᵥ (ξ ∘ .inl) := by
        show (fromBlocks _ _ _ _ *ᵥ ξ) ∘ Sum.inl = _
        rw [fromBlocks_mulVec, mkPose_rot]
        simp
      have h2 : (se3.adjoint (mkPose C r) *ᵥ ξ) ∘ Sum.inr = (skew r * C) *ᵥ (ξ ∘ .inl) + C *ᵥ (ξ ∘ .inr) := by
        show (fromBlocks _ _ _ _ *ᵥ ξ) ∘ Sum.inr = _
        rw [fromBlocks_mulVec, mkPose_rot, mkPose_pos]
        simp
      rw [se3_wedge, se3_wedge, h1]
      unfold mkPose
      rw [fromBlocks_multiply, fromBlocks_multiply]
      congr 1
      · simp [h.skew]
      · ext i j
        have e := congrFun h2 i
        rw [← mulVec_mulVec, skew_mulVec_comm] at e
        simp only [Matrix.add_apply, of_apply, Matrix.mul_zero, add_zero, Matrix.mul_one]
        rw [show (se3.adjoint (fromBlocks C (of fun i _ => r i) 0 1) *ᵥ ξ) (Sum.inr i) = _ from e]
        simp [Matrix.mul_apply, mulVec, dotProduct]
      · simp
      · simp
    obtain ⟨C, r, h, rfl⟩ := hX
    rw [key, mul_assoc]
    show _ * (mkPose C r * se3Inv (mkPose C r)) = _
    rw [mul_se3Inv ⟨_, _, h.1, rfl⟩, mul_one]

theorem se23_wedge (ξ : Fin 3 × Fin 3 → ℝ) : se23.wedge ξ = se23Wedge fun i p => ξ (i, p) := rfl

theorem se23_laws : se23.Laws IsSE23 (fun ξ => (se23Ad fun i p => ξ (i, p)).flat) where
  wedge_add ξ ζ := se23WedgeL.map_add ξ ζ
  wedge_smul t ξ := se23WedgeL.map_smul t ξ
  wedge_inj ξ ζ h := by
    have h' : se23Wedge (fun i p => ξ (i, p)) = se23Wedge (fun i p => ζ (i, p)) := h
    rw [se23Wedge_ieGen, se23Wedge_ieGen] at h'
    unfold ieGen at h'
    rw [fromBlocks_inj] at h'
    have h1 := congrArg vee h'.1
    rw [vee_skew, vee_skew] at h1
    funext ⟨i, p⟩
    fin_cases i
    · exact congrFun h1 p
    · exact congrFun (congrFun h'.2.1 p) 0
    · exact congrFun (congrFun h'.2.1 p) 1
  bracket ζ ξ := by
    have hb := ie_bracket (fun i p => ζ (i, p)) (fun i p => ξ (i, p)) 0
    have ha : ieAd (fun i p => ζ (i, p)) 0 = se23Ad (fun i p => ζ (i, p)) := by
      unfold ieAd se23Ad
      simp
    have eζ := se23Wedge_ieGen (fun i p => ζ (i, p))
    rw [se23_wedge, se23_wedge, se23_wedge]
    rw [eζ]
    refine hb.trans ?_
    rw [ha]
    refine congrArg se23Wedge ?_
    funext i p
    rw [← Blk.flat_mulVec]
  leftJac ξ := rfl
  mem_one := ⟨1, 0, 0, isRot_one, mkIE_one.symm⟩
  mem_exp ξ := se23Exp_isSE23 (fun i p => ξ (i, p))
  mem_mul X Y hX hY := by
    obtain ⟨R, v, r, h, rfl⟩ := hX
    obtain ⟨S, w, q, h', rfl⟩ := hY
    rw [mkIE_mul, add_zero]
    exact ⟨_, _, _, h.mul h', rfl⟩
  mem_inv X hX := by
    obtain ⟨R, v, r, h, rfl⟩ := hX
    show IsSE23 (inverseIE3 (mkIE R v r 0))
    unfold inverseIE3
    simp only [mkIE_rot, mkIE_colA, mkIE_colB, mkIE_time, neg_zero]
    exact ⟨_, _, _, h.transpose, rfl⟩
  mul_inv X hX := hX.isIE.mul_inv
  adjoint X hX ξ := by
    have := C60_adjoint X hX.isIE (fun i p => ξ (i, p))
    rw [← se23Adjoint_eq hX] at this
    rw [se23_wedge, se23_wedge]
    refine this.trans ?_
    refine congrArg se23Wedge ?_
    funext i p
    rw [← Blk.flat_mulVec]
    rfl

/-! Planar groups. -/

/-- Specification: planar rotations. -/
def IsRot2 (R : Mat 2 2) : Prop := ∃ c s : ℝ, c ^ 2 + s ^ 2 = 1 ∧ R = !![c, -s; s, c]

theorem skew2_smul (t θ : ℝ) : skew2 (t * θ) = t • skew2 θ := by
  ext i j; fin_cases i <;> fin_cases j <;> simp [skew2]

theorem skew2_add (a b : ℝ) : skew2 (a + b) = skew2 a + skew2 b := by
  ext i j; fin_cases i <;> fin_cases j <;> simp [skew2] <;> ring

theorem exp_skew2 (θ : ℝ) : exp (skew2 θ) = !![Real.cos θ, -Real.sin θ; Real.sin θ, Real.cos θ] := by
  have hT : ∀ t : ℝ, HasMatDeriv (fun t : ℝ => (!![Real.cos (t * θ), -Real.sin (t * θ); Real.sin (t * θ), Real.cos (t * θ)] : Mat 2 2))
      (skew2 θ * !![Real.cos (t * θ), -Real.sin (t * θ); Real.sin (t * θ), Real.cos (t * θ)] +
        !![Real.cos (t * θ), -Real.sin (t * θ); Real.sin (t * θ), Real.cos (t * θ)] * 0) t := by
    intro t i j
    have hm : HasDerivAt (fun t : ℝ => t * θ) θ t := by simpa using (hasDerivAt_id t).mul_const θ
    have hc := hm.cos
    have hs := hm.sin
    fin_cases i <;> fin_cases j <;> simp [skew2, Matrix.mul_apply, Fin.sum_univ_two]
    · exact hc.congr_deriv (by ring)
    · exact hs.neg.congr_deriv (by ring)
    · exact hs.congr_deriv (by ring)
    · exact hc.congr_deriv (by ring)
  have := sandwich (skew2 θ) 0 _ hT 1
  have h1 : (!![(1 : ℝ), 0; 0, 1] : Mat 2 2) = 1 := by ext i j; fin_cases i <;> fin_cases j <;> rfl
  simp [exp_zero, h1] at this
  exact this.symm

theorem isRot2_exp (θ : ℝ) : IsRot2 (exp (skew2 θ)) := ⟨_, _, Real.cos_sq_add_sin_sq θ, exp_skew2 θ⟩

theorem isRot2_one : IsRot2 1 := ⟨1, 0, by norm_num, by ext i j; fin_cases i <;> fin_cases j <;> simp⟩

theorem IsRot2.mul {R S : Mat 2 2} (h : IsRot2 R) (h' : IsRot2 S) : IsRot2 (R * S) := by
  obtain ⟨c, s, e, rfl⟩ := h
  obtain ⟨c', s', e', rfl⟩ := h'
  refine ⟨c * c' - s * s', s * c' + c * s', ?_, ?_⟩
  · have : (c * c' - s * s') ^ 2 + (s * c' + c * s') ^ 2 = (c ^ 2 + s ^ 2) * (c' ^ 2 + s' ^ 2) := by ring
    rw [this, e, e', one_mul]
  · ext i j
    fin_cases i <;> fin_cases j <;> simp [Matrix.mul_apply, Fin.sum_univ_two] <;> ring

theorem IsRot2.transpose {R : Mat 2 2} (h : IsRot2 R) : IsRot2 Rᵀ := by
  obtain ⟨c, s, e, rfl⟩ := h
  exact ⟨c, -s, by rw [neg_sq, e], by ext i j; fin_cases i <;> fin_cases j <;> simp⟩

theorem IsRot2.right {R : Mat 2 2} (h : IsRot2 R) : R * Rᵀ = 1 := by
  obtain ⟨c, s, e, rfl⟩ := h
  ext i j
  fin_cases i <;> fin_cases j <;> simp [Matrix.mul_apply, Fin.sum_univ_two] <;> nlinarith

theorem IsRot2.comm {R : Mat 2 2} (h : IsRot2 R) (θ : ℝ) : R * skew2 θ = skew2 θ * R := by
  obtain ⟨c, s, e, rfl⟩ := h
  ext i j
  fin_cases i <;> fin_cases j <;> simp [skew2, Matrix.mul_apply, Fin.sum_univ_two] <;> ring

theorem skew2_comm (a b : ℝ) : skew2 a * skew2 b = skew2 b * skew2 a := by
  ext i j
  fin_cases i <;> fin_cases j <;> simp [skew2, Matrix.mul_apply, Fin.sum_univ_two] <;> ring

theorem so2_laws : so2.Laws IsRot2 (fun _ => 0) where
  wedge_add ξ ζ := skew2_add _ _
  wedge_smul t ξ := skew2_smul _ _
  wedge_inj ξ ζ h := by
    funext k
    have : k = 0 := Subsingleton.elim _ _
    subst this
    exact congrFun (congrFun h 1) 0
  bracket ζ ξ := by
    show skew2 _ * skew2 _ - skew2 _ * skew2 _ = skew2 _
    rw [skew2_comm, sub_self, zero_mulVec]
    ext i j; fin_cases i <;> fin_cases j <;> simp [skew2]
  leftJac ξ := by
    show (1 : Mat 1 1) = _
    rw [phi_at_zero]; simp
  mem_one := isRot2_one
  mem_exp ξ := isRot2_exp _
  mem_mul X Y h h' := h.mul h'
  mem_inv X h := h.transpose
  mul_inv X h := h.right
  adjoint X h ξ := by
    show X * skew2 (ξ 0) * Xᵀ = skew2 (((1 : Mat 1 1) *ᵥ ξ) 0)
    rw [h.comm, mul_assoc, h.right, mul_one, one_mulVec]

/-- Specification: SE(2). -/
def IsSE2 (X : Matrix (Fin 2 ⊕ Fin 1) (Fin 2 ⊕ Fin 1) ℝ) : Prop :=
  ∃ (C : Mat 2 2) (r : Matrix (Fin 2) (Fin 1) ℝ), IsRot2 C ∧ X = fromBlocks C r 0 1

theorem se2_wedge (ξ : Fin 1 ⊕ Fin 2 → ℝ) :
    se2.wedge ξ = fromBlocks (skew2 (ξ (.inl 0))) (.of fun i _ => ξ (.inr i)) 0 0 := rfl

theorem se2_mul_inv {C : Mat 2 2} (h : IsRot2 C) (r : Matrix (Fin 2) (Fin 1) ℝ) :
    (fromBlocks C r 0 (1 : Mat 1 1)) * se2.inverse (fromBlocks C r 0 (1 : Mat 1 1)) = 1 := by
  show fromBlocks C r 0 1 * fromBlocks (toBlocks₁₁ (fromBlocks C r 0 (1 : Mat 1 1)))ᵀ
    (-((toBlocks₁₁ (fromBlocks C r 0 (1 : Mat 1 1)))ᵀ * toBlocks₁₂ (fromBlocks C r 0 (1 : Mat 1 1)))) 0 1 = 1
  rw [toBlocks_fromBlocks₁₁, toBlocks_fromBlocks₁₂, fromBlocks_multiply, ← fromBlocks_one]
  congr 1
  · simp [h.right]
  · rw [Matrix.mul_neg, ← Matrix.mul_assoc, h.right]
    simp
  · simp
  · simp

theorem se2_laws : se2.Laws IsSE2 se2Ad where
  wedge_add ξ ζ := by
    rw [se2_wedge, se2_wedge, se2_wedge, fromBlocks_add]
    congr 1
    · rw [← skew2_add]; rfl
    · simp
    · simp
  wedge_smul t ξ := by
    rw [se2_wedge, se2_wedge, fromBlocks_smul]
    congr 1
    · rw [← skew2_smul]; rfl
    · simp
    · simp
  wedge_inj ξ ζ h := by
    rw [se2_wedge, se2_wedge, fromBlocks_inj] at h
    funext k
    rcases k with k | k
    · have : k = 0 := Subsingleton.elim _ _
      subst this
      exact congrFun (congrFun h.1 1) 0
    · exact congrFun (congrFun h.2.1 k) 0
  bracket ζ ξ := by
    rw [se2_wedge, se2_wedge, se2_wedge, fromBlocks_multiply, fromBlocks_multiply]
    ext i j
    rcases i with i | i <;> rcases j with j | j
    · simp [skew2_comm (ζ (.inl 0))]
      unfold se2Ad
      rw [fromBlocks_mulVec]
      fin_cases i <;> fin_cases j <;> simp [skew2]
    · have hj : j = 0 := Subsingleton.elim _ _
      subst hj
      have h2 : ∀ i, (se2Ad ζ *ᵥ ξ) (.inr i) =
          ![ζ (.inr 1), -ζ (.inr 0)] i * ξ (.inl 0) + (skew2 (ζ (.inl 0)) *ᵥ (ξ ∘ .inr)) i := by
        intro i
        unfold se2Ad
        rw [fromBlocks_mulVec]
        simp [mulVec, dotProduct]
      simp only [Matrix.sub_apply, fromBlocks_apply₁₂, of_apply, Matrix.mul_zero, add_zero, h2]
      fin_cases i <;> simp [skew2, Matrix.mul_apply, Fin.sum_univ_two, mulVec, dotProduct] <;> ring
    · simp
    · simp
  leftJac ξ := rfl
  mem_one := ⟨1, 0, isRot2_one, fromBlocks_one.symm⟩
  mem_exp ξ := by
    unfold MLG.Exp
    rw [se2_wedge, exp_col]
    exact ⟨_, _, isRot2_exp _, rfl⟩
  mem_mul X Y hX hY := by
    obtain ⟨C, r, h, rfl⟩ := hX
    obtain ⟨D, s, h', rfl⟩ := hY
    refine ⟨C * D, C * s + r, h.mul h', ?_⟩
    rw [fromBlocks_multiply]
    simp
  mem_inv X hX := by
    obtain ⟨C, r, h, rfl⟩ := hX
    exact ⟨_, _, h.transpose, rfl⟩
  mul_inv X hX := by
    obtain ⟨C, r, h, rfl⟩ := hX
    exact se2_mul_inv h r
  adjoint X hX ξ := by
    obtain ⟨C, r, h, rfl⟩ := hX
    have key : fromBlocks C r 0 1 * se2.wedge ξ = se2.wedge (se2.adjoint (fromBlocks C r 0 1) *ᵥ ξ) * fromBlocks C r 0 1 := by
      have h1 : (se2.adjoint (fromBlocks C r 0 1) *ᵥ ξ) (.inl 0) = ξ (.inl 0) := by
        show (fromBlocks _ _ _ _ *ᵥ ξ) (Sum.inl 0) = _
        rw [fromBlocks_mulVec]
        simp
      have h2 : ∀ i, (se2.adjoint (fromBlocks C r 0 1) *ᵥ ξ) (.inr i) =
          ![r 1 0, -r 0 0] i * ξ (.inl 0) + ∑ k, C i k * ξ (.inr k) := by
        intro i
        show (fromBlocks _ _ _ _ *ᵥ ξ) (Sum.inr i) = _
        rw [fromBlocks_mulVec, toBlocks_fromBlocks₁₁]
        simp [mulVec, dotProduct]
      rw [se2_wedge, se2_wedge, h1, fromBlocks_multiply, fromBlocks_multiply]
      congr 1
      · simp [h.comm]
      · ext i j
        have : j = 0 := Subsingleton.elim _ _
        subst this
        simp only [Matrix.mul_zero, add_zero, Matrix.mul_one, Matrix.add_apply, of_apply, h2]
        fin_cases i <;> simp [skew2, Matrix.mul_apply, Fin.sum_univ_two] <;> ring
      · simp
      · simp
    have hinv := se2_mul_inv h r
    rw [key, mul_assoc, hinv, mul_one]

end Verif
