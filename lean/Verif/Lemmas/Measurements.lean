import Verif.Model.Measurements
import Verif.Lemmas.Grad
import Verif.Props.Group
import Verif.Props.PreintImuJac

/-! What a perturbation does to the attitude, position, velocity of the state classes. -/

namespace Verif

open Matrix

set_option linter.unusedVariables false
set_option linter.unusedSectionVars false

/-- Specification of the attitude groups: skew symmetric matrices, and `odot` with `wedge(a) b = odot(b) a`. -/
structure AttGroup.Laws {α : Type} [Fintype α] {n : ℕ} (A : AttGroup α n) : Prop where
  skew : ∀ a, (A.wedge a)ᵀ = -A.wedge a
  odot : ∀ a b, A.wedge a *ᵥ b = A.odot b *ᵥ a

theorem so2Att_laws : so2Att.Laws where
  skew a := by ext i j; fin_cases i <;> fin_cases j <;> simp [so2Att, skew2]
  odot a b := by
    funext i
    fin_cases i <;> simp [so2Att, skew2, Matrix.mulVec, dotProduct, Fin.sum_univ_succ] <;> ring

theorem so3Att_laws : so3Att.Laws where
  skew a := skew_transpose a
  odot a b := by
    show Verif.skew a *ᵥ b = -Verif.skew b *ᵥ a
    rw [skew_mulVec_comm, neg_mulVec]

section

variable {S κ α : Type} [Fintype κ] [DecidableEq κ] [Fintype α] {n : ℕ}

/-- A state class with an attitude: `mem` are its valid states, `attP` the part of a perturbation that rotates. -/
structure AttLaws (A : AttGroup α n) (P : PoseOps S κ α n) (mem : S → Prop) where
  attP : (κ → ℝ) → α → ℝ
  surj : ∀ a, ∃ ξ, attP ξ = a
  att_zero : ∀ x, P.att (P.plus x 0) = P.att x
  dir_plus : ∀ x ξ, P.dir (P.plus x ξ) = P.dir x
  ortho : ∀ x, mem x → (P.att x)ᵀ * P.att x = 1
  att_right : ∀ x, mem x → P.dir x = .right → HasMD (fun ξ => P.att (P.plus x ξ)) (fun ξ => P.att x * A.wedge (attP ξ))
  att_left : ∀ x, mem x → P.dir x = .left → HasMD (fun ξ => P.att (P.plus x ξ)) (fun ξ => A.wedge (attP ξ) * P.att x)
  blocks_att : ∀ {μ : Type} (B : Matrix μ α ℝ), ∃ J : Matrix μ κ ℝ, P.blocks (some B) none none = .ok J ∧
    ∀ ξ, J *ᵥ ξ = B *ᵥ attP ξ

/-- A state class with attitude and position `r`. -/
structure PosLaws (A : AttGroup α n) (P : PoseOps S κ α n) (mem : S → Prop) extends AttLaws A P mem where
  r : S → Vec n
  pos_eq : ∀ x, P.pos x = .ok (r x)
  pos_zero : ∀ x, r (P.plus x 0) = r x
  posP : (κ → ℝ) → Vec n
  pos_right : ∀ x, mem x → P.dir x = .right → HasVD (fun ξ => r (P.plus x ξ)) (fun ξ => P.att x *ᵥ posP ξ)
  pos_left : ∀ x, mem x → P.dir x = .left → HasVD (fun ξ => r (P.plus x ξ)) (fun ξ => A.wedge (attP ξ) *ᵥ r x + posP ξ)
  blocks_pos : ∀ {μ : Type} (a : Option (Matrix μ α ℝ)) (p : Matrix μ (Fin n) ℝ), ∃ J : Matrix μ κ ℝ,
    P.blocks a (some p) none = .ok J ∧ ∀ ξ, J *ᵥ ξ = a.getD 0 *ᵥ attP ξ + p *ᵥ posP ξ

/-- A state class with attitude and velocity `v`. -/
structure VelLaws (A : AttGroup α n) (P : PoseOps S κ α n) (mem : S → Prop) extends AttLaws A P mem where
  v : S → Vec n
  vel_eq : ∀ x, P.vel x = .ok (v x)
  vel_zero : ∀ x, v (P.plus x 0) = v x
  velP : (κ → ℝ) → Vec n
  vel_right : ∀ x, mem x → P.dir x = .right → HasVD (fun ξ => v (P.plus x ξ)) (fun ξ => P.att x *ᵥ velP ξ)
  vel_left : ∀ x, mem x → P.dir x = .left → HasVD (fun ξ => v (P.plus x ξ)) (fun ξ => A.wedge (attP ξ) *ᵥ v x + velP ξ)
  blocks_vel : ∀ {μ : Type} (a : Option (Matrix μ α ℝ)) (p : Matrix μ (Fin n) ℝ), ∃ J : Matrix μ κ ℝ,
    P.blocks a none (some p) = .ok J ∧ ∀ ξ, J *ᵥ ξ = a.getD 0 *ᵥ attP ξ + p *ᵥ velP ξ

end

section

variable {ι κ : Type} [Fintype ι] [DecidableEq ι] [Fintype κ] [DecidableEq κ] {G : MLG ι κ} {mem : Matrix ι ι ℝ → Prop}
  {ad : (κ → ℝ) → Matrix κ κ ℝ}

theorem HasD.pull {κ' : Type} [Fintype κ'] [DecidableEq κ'] {f L : (κ → ℝ) → ℝ} (h : HasD f L) (π : κ → κ') :
    HasD (fun ξ : κ' → ℝ => f (fun k => ξ (π k))) (fun ξ => L (fun k => ξ (π k))) := by
  obtain ⟨f', hf, ef⟩ := h
  let p : (κ' → ℝ) →L[ℝ] (κ → ℝ) := ContinuousLinearMap.pi fun k => ContinuousLinearMap.proj (π k)
  have hp : HasFDerivAt (fun ξ : κ' → ℝ => (fun k => ξ (π k) : κ → ℝ)) p 0 := p.hasFDerivAt
  have hf' : HasFDerivAt f f' ((fun ξ : κ' → ℝ => (fun k => ξ (π k) : κ → ℝ)) 0) := hf
  exact ⟨_, hf'.comp (0 : κ' → ℝ) hp, fun ξ => ef _⟩

theorem GSt.hasMD_plus (h : G.Laws mem ad) (x : GSt ι) :
    HasMD (fun ξ => (x.plus G ξ).value) (fun ξ => G.tangent x.dir x.value ξ) := by
  obtain ⟨X, dir, s⟩ := x
  cases dir
  · refine ((HasMD.const X).mul h.hasMD_Exp).congr (fun ξ => rfl) (fun ξ => ?_)
    simp [MLG.tangent]
  · refine (h.hasMD_Exp.mul (HasMD.const X)).congr (fun ξ => rfl) (fun ξ => ?_)
    simp [MLG.tangent]

theorem GSt.plus_zero_value (h : G.Laws mem ad) (x : GSt ι) : (x.plus G 0).value = x.value := by
  obtain ⟨X, dir, s⟩ := x
  cases dir
  · show X * G.Exp 0 = X
    rw [h.Exp_zero, mul_one]
  · show G.Exp 0 * X = X
    rw [h.Exp_zero, one_mul]

theorem GSt.plus_dir (x : GSt ι) (ξ : κ → ℝ) : (x.plus G ξ).dir = x.dir := by
  obtain ⟨X, dir, s⟩ := x
  cases dir <;> rfl

theorem tangent_r {G : MLG ι κ} (X : Matrix ι ι ℝ) (ξ : κ → ℝ) : G.tangent .right X ξ = X * G.wedge ξ := rfl
theorem tangent_l {G : MLG ι κ} (X : Matrix ι ι ℝ) (ξ : κ → ℝ) : G.tangent .left X ξ = G.wedge ξ * X := rfl

end

/-! ### SO(3) -/

/-- `SO3State`. -/
noncomputable def so3State : AttLaws so3Att so3Ops (fun x => IsRot x.value) where
  attP ξ := ξ
  surj a := ⟨a, rfl⟩
  att_zero x := GSt.plus_zero_value so3_laws x
  dir_plus x ξ := GSt.plus_dir x ξ
  ortho x h := h.1
  att_right x h hd := (GSt.hasMD_plus so3_laws x).congr (fun ξ => rfl) (fun ξ => by
    have hd : x.dir = .right := hd
    rw [hd]; rfl)
  att_left x h hd := (GSt.hasMD_plus so3_laws x).congr (fun ξ => rfl) (fun ξ => by
    have hd : x.dir = .left := hd
    rw [hd]; rfl)
  blocks_att B := ⟨B, rfl, fun ξ => rfl⟩

/-! ### SE(3) -/

theorem fromCols_act {μ κ₁ κ₂ : Type} [Fintype κ₁] [Fintype κ₂] (a : Matrix μ κ₁ ℝ) (p : Matrix μ κ₂ ℝ) (ξ : κ₁ ⊕ κ₂ → ℝ) :
    fromCols a p *ᵥ ξ = a *ᵥ (fun k => ξ (.inl k)) + p *ᵥ (fun k => ξ (.inr k)) := by
  rw [fromCols_mulVec]; rfl

theorem se3_rot_r (X : Matrix (Fin 3 ⊕ Fin 1) (Fin 3 ⊕ Fin 1) ℝ) (ξ : Fin 3 ⊕ Fin 3 → ℝ) :
    (X * se3.wedge ξ).toBlocks₁₁ = X.toBlocks₁₁ * skew fun k => ξ (.inl k) := by
  conv_lhs => rw [← fromBlocks_toBlocks X, se3_wedge, fromBlocks_multiply, toBlocks_fromBlocks₁₁]
  simp; rfl

theorem se3_pos_r (X : Matrix (Fin 3 ⊕ Fin 1) (Fin 3 ⊕ Fin 1) ℝ) (ξ : Fin 3 ⊕ Fin 3 → ℝ) (i : Fin 3) :
    (X * se3.wedge ξ).toBlocks₁₂ i 0 = (X.toBlocks₁₁ *ᵥ fun k => ξ (.inr k)) i := by
  conv_lhs => rw [← fromBlocks_toBlocks X, se3_wedge, fromBlocks_multiply, toBlocks_fromBlocks₁₂]
  simp; rfl

theorem se3_rot_l (C : Mat 3 3) (r : Vec 3) (ξ : Fin 3 ⊕ Fin 3 → ℝ) :
    (se3.wedge ξ * mkPose C r).toBlocks₁₁ = (skew fun k => ξ (.inl k)) * C := by
  rw [mkPose, se3_wedge, fromBlocks_multiply, toBlocks_fromBlocks₁₁]
  simp; rfl

theorem se3_pos_l (C : Mat 3 3) (r : Vec 3) (ξ : Fin 3 ⊕ Fin 3 → ℝ) (i : Fin 3) :
    (se3.wedge ξ * mkPose C r).toBlocks₁₂ i 0 = ((skew fun k => ξ (.inl k)) *ᵥ r) i + ξ (.inr i) := by
  rw [mkPose, se3_wedge, fromBlocks_multiply, toBlocks_fromBlocks₁₂]
  simp [Matrix.mul_apply, Matrix.mulVec, dotProduct, Function.comp_def]

/-- `SE3State`. -/
noncomputable def se3State : PosLaws so3Att se3Ops (fun x => IsSE3 x.value) where
  attP ξ := fun k => ξ (.inl k)
  surj a := ⟨Sum.elim a 0, rfl⟩
  att_zero x := congrArg Pose.rot (GSt.plus_zero_value se3_laws x)
  dir_plus x ξ := GSt.plus_dir x ξ
  ortho x h := by
    obtain ⟨C, r, hC, e⟩ := h
    show (Pose.rot x.value)ᵀ * Pose.rot x.value = 1
    rw [e]; exact hC.1
  att_right x h hd := fun i j => ((GSt.hasMD_plus se3_laws x) (.inl i) (.inl j)).congr (fun ξ => rfl) (fun ξ => by
    have hd : x.dir = .right := hd
    rw [hd]
    exact congrFun₂ (se3_rot_r x.value ξ) i j)
  att_left x h hd := fun i j => ((GSt.hasMD_plus se3_laws x) (.inl i) (.inl j)).congr (fun ξ => rfl) (fun ξ => by
    have hd : x.dir = .left := hd
    obtain ⟨C, r, hC, e⟩ := h
    rw [hd]
    show (se3.wedge ξ * x.value).toBlocks₁₁ i j = ((skew fun k => ξ (.inl k)) * x.value.toBlocks₁₁) i j
    rw [e]
    exact congrFun₂ (se3_rot_l C r ξ) i j)
  blocks_att B := ⟨_, rfl, fun ξ => by rw [fromCols_act]; simp⟩
  r x := Pose.pos x.value
  pos_eq x := rfl
  pos_zero x := congrArg Pose.pos (GSt.plus_zero_value se3_laws x)
  posP ξ := fun k => ξ (.inr k)
  pos_right x h hd := fun i => ((GSt.hasMD_plus se3_laws x) (.inl i) (.inr 0)).congr (fun ξ => rfl) (fun ξ => by
    have hd : x.dir = .right := hd
    rw [hd]
    exact se3_pos_r x.value ξ i)
  pos_left x h hd := fun i => ((GSt.hasMD_plus se3_laws x) (.inl i) (.inr 0)).congr (fun ξ => rfl) (fun ξ => by
    have hd : x.dir = .left := hd
    obtain ⟨C, r, hC, e⟩ := h
    rw [hd]
    show (se3.wedge ξ * x.value).toBlocks₁₂ i 0 = ((skew fun k => ξ (.inl k)) *ᵥ Pose.pos x.value) i + ξ (.inr i)
    rw [e]
    exact se3_pos_l C r ξ i)
  blocks_pos a p := by
    refine ⟨fromCols (a.getD 0) p, ?_, fun ξ => fromCols_act _ _ _⟩
    cases a <;> rfl

/-! ### SE(2) -/

theorem se2_rot_r (X : Matrix (Fin 2 ⊕ Fin 1) (Fin 2 ⊕ Fin 1) ℝ) (ξ : Fin 1 ⊕ Fin 2 → ℝ) :
    (X * se2.wedge ξ).toBlocks₁₁ = X.toBlocks₁₁ * skew2 (ξ (.inl 0)) := by
  conv_lhs => rw [← fromBlocks_toBlocks X, se2_wedge, fromBlocks_multiply, toBlocks_fromBlocks₁₁]
  simp

theorem se2_pos_r (X : Matrix (Fin 2 ⊕ Fin 1) (Fin 2 ⊕ Fin 1) ℝ) (ξ : Fin 1 ⊕ Fin 2 → ℝ) (i : Fin 2) :
    (X * se2.wedge ξ).toBlocks₁₂ i 0 = (X.toBlocks₁₁ *ᵥ fun k => ξ (.inr k)) i := by
  conv_lhs => rw [← fromBlocks_toBlocks X, se2_wedge, fromBlocks_multiply, toBlocks_fromBlocks₁₂]
  simp; rfl

theorem se2_rot_l (C : Mat 2 2) (r : Matrix (Fin 2) (Fin 1) ℝ) (ξ : Fin 1 ⊕ Fin 2 → ℝ) :
    (se2.wedge ξ * fromBlocks C r 0 (1 : Mat 1 1)).toBlocks₁₁ = skew2 (ξ (.inl 0)) * C := by
  rw [se2_wedge, fromBlocks_multiply, toBlocks_fromBlocks₁₁]
  simp

theorem se2_pos_l (C : Mat 2 2) (r : Matrix (Fin 2) (Fin 1) ℝ) (ξ : Fin 1 ⊕ Fin 2 → ℝ) (i : Fin 2) :
    (se2.wedge ξ * fromBlocks C r 0 (1 : Mat 1 1)).toBlocks₁₂ i 0 = (skew2 (ξ (.inl 0)) *ᵥ fun i => r i 0) i + ξ (.inr i) := by
  rw [se2_wedge, fromBlocks_multiply, toBlocks_fromBlocks₁₂]
  simp [Matrix.mul_apply, Matrix.mulVec, dotProduct]

/-- `SE2State`. -/
noncomputable def se2State : PosLaws so2Att se2Ops (fun x => IsSE2 x.value) where
  attP ξ := fun k => ξ (.inl k)
  surj a := ⟨Sum.elim a 0, rfl⟩
  att_zero x := congrArg toBlocks₁₁ (GSt.plus_zero_value se2_laws x)
  dir_plus x ξ := GSt.plus_dir x ξ
  ortho x h := by
    obtain ⟨C, r, hC, e⟩ := h
    show x.value.toBlocks₁₁ᵀ * x.value.toBlocks₁₁ = 1
    rw [e, toBlocks_fromBlocks₁₁]
    exact mul_eq_one_comm.1 hC.right
  att_right x h hd := fun i j => ((GSt.hasMD_plus se2_laws x) (.inl i) (.inl j)).congr (fun ξ => rfl) (fun ξ => by
    have hd : x.dir = .right := hd
    rw [hd]
    exact congrFun₂ (se2_rot_r x.value ξ) i j)
  att_left x h hd := fun i j => ((GSt.hasMD_plus se2_laws x) (.inl i) (.inl j)).congr (fun ξ => rfl) (fun ξ => by
    have hd : x.dir = .left := hd
    obtain ⟨C, r, hC, e⟩ := h
    rw [hd]
    show (se2.wedge ξ * x.value).toBlocks₁₁ i j = (skew2 (ξ (.inl 0)) * x.value.toBlocks₁₁) i j
    rw [e]
    exact congrFun₂ (se2_rot_l C _ ξ) i j)
  blocks_att B := ⟨_, rfl, fun ξ => by rw [fromCols_act]; simp⟩
  r x := fun i => x.value (.inl i) (.inr 0)
  pos_eq x := rfl
  pos_zero x := by
    funext i
    exact congrFun₂ (GSt.plus_zero_value se2_laws x) _ _
  posP ξ := fun k => ξ (.inr k)
  pos_right x h hd := fun i => ((GSt.hasMD_plus se2_laws x) (.inl i) (.inr 0)).congr (fun ξ => rfl) (fun ξ => by
    have hd : x.dir = .right := hd
    rw [hd]
    exact se2_pos_r x.value ξ i)
  pos_left x h hd := fun i => ((GSt.hasMD_plus se2_laws x) (.inl i) (.inr 0)).congr (fun ξ => rfl) (fun ξ => by
    have hd : x.dir = .left := hd
    obtain ⟨C, r, hC, e⟩ := h
    rw [hd]
    show (se2.wedge ξ * x.value).toBlocks₁₂ i 0 = (skew2 (ξ (.inl 0)) *ᵥ fun i => x.value.toBlocks₁₂ i 0) i + ξ (.inr i)
    rw [e]
    exact se2_pos_l C _ ξ i)
  blocks_pos a p := by
    refine ⟨fromCols (a.getD 0) p, ?_, fun ξ => fromCols_act _ _ _⟩
    cases a <;> rfl

/-! ### SE_2(3) -/

theorem navCols_act {μ : Type} (a v p : Matrix μ (Fin 3) ℝ) (ξ : Fin 3 × Fin 3 → ℝ) :
    navCols a v p *ᵥ ξ = a *ᵥ (fun k => ξ (0, k)) + v *ᵥ (fun k => ξ (1, k)) + p *ᵥ (fun k => ξ (2, k)) := by
  funext i
  simp only [Matrix.mulVec, dotProduct, navCols, of_apply, Fintype.sum_prod_type, Pi.add_apply]
  rw [Fin.sum_univ_three]
  rfl

theorem rot_mul_wedge (X : EPose) (ξ : Fin 3 → Vec 3) : EPose.rot (X * se23Wedge ξ) = X.rot * skew (ξ 0) := by
  show (X * se23Wedge ξ).toBlocks₁₁ = X.toBlocks₁₁ * _
  conv_lhs => rw [← fromBlocks_toBlocks X, se23Wedge, fromBlocks_multiply, toBlocks_fromBlocks₁₁]
  simp

theorem colA_mul_wedge (X : EPose) (ξ : Fin 3 → Vec 3) : EPose.colA (X * se23Wedge ξ) = X.rot *ᵥ ξ 1 := by
  funext i
  show (X * se23Wedge ξ).toBlocks₁₂ i 0 = (X.toBlocks₁₁ *ᵥ ξ 1) i
  conv_lhs => rw [← fromBlocks_toBlocks X, se23Wedge, fromBlocks_multiply, toBlocks_fromBlocks₁₂]
  simp; rfl

theorem colB_mul_wedge (X : EPose) (ξ : Fin 3 → Vec 3) : EPose.colB (X * se23Wedge ξ) = X.rot *ᵥ ξ 2 := by
  funext i
  show (X * se23Wedge ξ).toBlocks₁₂ i 1 = (X.toBlocks₁₁ *ᵥ ξ 2) i
  conv_lhs => rw [← fromBlocks_toBlocks X, se23Wedge, fromBlocks_multiply, toBlocks_fromBlocks₁₂]
  simp; rfl

theorem rot_wedge_mul {X : EPose} (h : IsSE23 X) (ξ : Fin 3 → Vec 3) : EPose.rot (se23Wedge ξ * X) = skew (ξ 0) * X.rot := by
  obtain ⟨R, v, r, hR, rfl⟩ := h
  show (se23Wedge ξ * mkIE R v r 0).toBlocks₁₁ = _ * (mkIE R v r 0).toBlocks₁₁
  rw [mkIE, se23Wedge, fromBlocks_multiply, toBlocks_fromBlocks₁₁, toBlocks_fromBlocks₁₁]
  simp

theorem colA_wedge_mul {X : EPose} (h : IsSE23 X) (ξ : Fin 3 → Vec 3) :
    EPose.colA (se23Wedge ξ * X) = skew (ξ 0) *ᵥ X.colA + ξ 1 := by
  obtain ⟨R, v, r, hR, rfl⟩ := h
  funext i
  show (se23Wedge ξ * mkIE R v r 0).toBlocks₁₂ i 0 = (skew (ξ 0) *ᵥ fun i => (mkIE R v r 0).toBlocks₁₂ i 0) i + ξ 1 i
  rw [mkIE, se23Wedge, fromBlocks_multiply, toBlocks_fromBlocks₁₂, toBlocks_fromBlocks₁₂]
  simp [Matrix.mul_apply, Matrix.mulVec, dotProduct, Fin.sum_univ_succ]

theorem colB_wedge_mul {X : EPose} (h : IsSE23 X) (ξ : Fin 3 → Vec 3) :
    EPose.colB (se23Wedge ξ * X) = skew (ξ 0) *ᵥ X.colB + ξ 2 := by
  obtain ⟨R, v, r, hR, rfl⟩ := h
  funext i
  show (se23Wedge ξ * mkIE R v r 0).toBlocks₁₂ i 1 = (skew (ξ 0) *ᵥ fun i => (mkIE R v r 0).toBlocks₁₂ i 1) i + ξ 2 i
  rw [mkIE, se23Wedge, fromBlocks_multiply, toBlocks_fromBlocks₁₂, toBlocks_fromBlocks₁₂]
  simp [Matrix.mul_apply, Matrix.mulVec, dotProduct, Fin.sum_univ_succ]

theorem IsSE23.ortho {X : EPose} (h : IsSE23 X) : X.rotᵀ * X.rot = 1 := by
  obtain ⟨R, v, r, hR, rfl⟩ := h
  exact hR.1

/-- `SE23State`: attitude. -/
noncomputable def se23Att : AttLaws so3Att se23Ops (fun x => IsSE23 x.value) where
  attP ξ := fun k => ξ (0, k)
  surj a := ⟨fun k => a k.2, rfl⟩
  att_zero x := congrArg EPose.rot (GSt.plus_zero_value se23_laws x)
  dir_plus x ξ := GSt.plus_dir x ξ
  ortho x h := h.ortho
  att_right x h hd := fun i j => ((GSt.hasMD_plus se23_laws x) (.inl i) (.inl j)).congr (fun ξ => rfl) (fun ξ => by
    have hd : x.dir = .right := hd
    rw [hd]
    exact congrFun₂ (rot_mul_wedge x.value fun a p => ξ (a, p)) i j)
  att_left x h hd := fun i j => ((GSt.hasMD_plus se23_laws x) (.inl i) (.inl j)).congr (fun ξ => rfl) (fun ξ => by
    have hd : x.dir = .left := hd
    rw [hd]
    exact congrFun₂ (rot_wedge_mul h fun a p => ξ (a, p)) i j)
  blocks_att B := ⟨_, rfl, fun ξ => by rw [navCols_act]; simp⟩

/-- `SE23State`: position. -/
noncomputable def se23Pos : PosLaws so3Att se23Ops (fun x => IsSE23 x.value) where
  toAttLaws := se23Att
  r x := EPose.colB x.value
  pos_eq x := rfl
  pos_zero x := congrArg EPose.colB (GSt.plus_zero_value se23_laws x)
  posP ξ := fun k => ξ (2, k)
  pos_right x h hd := fun i => ((GSt.hasMD_plus se23_laws x) (.inl i) (.inr 1)).congr (fun ξ => rfl) (fun ξ => by
    have hd : x.dir = .right := hd
    rw [hd]
    exact congrFun (colB_mul_wedge x.value fun a p => ξ (a, p)) i)
  pos_left x h hd := fun i => ((GSt.hasMD_plus se23_laws x) (.inl i) (.inr 1)).congr (fun ξ => rfl) (fun ξ => by
    have hd : x.dir = .left := hd
    rw [hd]
    exact congrFun (colB_wedge_mul h fun a p => ξ (a, p)) i)
  blocks_pos a p := by
    refine ⟨navCols (a.getD 0) 0 p, ?_, fun ξ => ?_⟩
    · cases a <;> rfl
    · rw [navCols_act]; simp [se23Att]

/-- `SE23State`: velocity. -/
noncomputable def se23Vel : VelLaws so3Att se23Ops (fun x => IsSE23 x.value) where
  toAttLaws := se23Att
  v x := EPose.colA x.value
  vel_eq x := rfl
  vel_zero x := congrArg EPose.colA (GSt.plus_zero_value se23_laws x)
  velP ξ := fun k => ξ (1, k)
  vel_right x h hd := fun i => ((GSt.hasMD_plus se23_laws x) (.inl i) (.inr 0)).congr (fun ξ => rfl) (fun ξ => by
    have hd : x.dir = .right := hd
    rw [hd]
    exact congrFun (colA_mul_wedge x.value fun a p => ξ (a, p)) i)
  vel_left x h hd := fun i => ((GSt.hasMD_plus se23_laws x) (.inl i) (.inr 0)).congr (fun ξ => rfl) (fun ξ => by
    have hd : x.dir = .left := hd
    rw [hd]
    exact congrFun (colA_wedge_mul h fun a p => ξ (a, p)) i)
  blocks_vel a p := by
    refine ⟨navCols (a.getD 0) p 0, ?_, fun ξ => ?_⟩
    · cases a <;> rfl
    · rw [navCols_act]; simp [se23Att]

/-! ### IMU state -/

/-- The navigation state as a state of its own. -/
def ImuSt.nav (x : ImuSt) : GSt (Fin 3 ⊕ Fin 2) := ⟨x.pose, x.dir, x.stamp⟩

/-- The coordinates of the navigation state among those of the IMU state. -/
def navIdx (k : Fin 3 × Fin 3) : Fin 5 × Fin 3 := (Fin.castLE (by omega) k.1, k.2)

theorem imu_plus_nav (x : ImuSt) (ξ : Fin 5 × Fin 3 → ℝ) :
    (imuOps.plus x ξ).nav = x.nav.plus se23 (fun k => ξ (navIdx k)) := by
  have e : (![fun p => ξ (0, p), fun p => ξ (1, p), fun p => ξ (2, p)] : Fin 3 → Vec 3) = fun i p => ξ (navIdx (i, p)) := by
    funext i p; fin_cases i <;> rfl
  obtain ⟨T, b, dir, s⟩ := x
  cases dir
  · show (ImuSt.nav ⟨T * se23Exp ![fun p => ξ (0, p), fun p => ξ (1, p), fun p => ξ (2, p)], _, _, _⟩) = _
    rw [e]; rfl
  · show (ImuSt.nav ⟨se23Exp ![fun p => ξ (0, p), fun p => ξ (1, p), fun p => ξ (2, p)] * T, _, _, _⟩) = _
    rw [e]; rfl

theorem imuBlocks_act {μ : Type} (a v p : Matrix μ (Fin 3) ℝ) (ξ : Fin 5 × Fin 3 → ℝ) :
    ((.of fun i k => ![a, v, p, 0, 0] k.1 i k.2 : Matrix μ (Fin 5 × Fin 3) ℝ) *ᵥ ξ) =
      navCols a v p *ᵥ (fun k => ξ (navIdx k)) := by
  rw [navCols_act]
  funext i
  simp only [Matrix.mulVec, dotProduct, of_apply, Fintype.sum_prod_type, Pi.add_apply]
  rw [Fin.sum_univ_five]
  have z : ∀ k : Fin 5, ∑ p : Fin 3, (0 : Matrix μ (Fin 3) ℝ) i p * ξ (k, p) = 0 := fun k => by simp
  have z3 := z 3
  have z4 := z 4
  show _ + ∑ p : Fin 3, (0 : Matrix μ (Fin 3) ℝ) i p * ξ (3, p) + ∑ p : Fin 3, (0 : Matrix μ (Fin 3) ℝ) i p * ξ (4, p) = _
  rw [z3, z4, add_zero, add_zero]
  rfl

/-- A valid IMU state: the navigation state is in SE_2(3). -/
def IsImu (x : ImuSt) : Prop := IsSE23 x.pose

/-- `IMUState`: attitude. -/
noncomputable def imuAtt : AttLaws so3Att imuOps IsImu where
  attP ξ := fun k => ξ (0, k)
  surj a := ⟨fun k => a k.2, rfl⟩
  att_zero x := by
    show se23Ops.att (imuOps.plus x 0).nav = se23Ops.att x.nav
    rw [imu_plus_nav]
    exact se23Att.att_zero x.nav
  dir_plus x ξ := by
    show (imuOps.plus x ξ).nav.dir = x.nav.dir
    rw [imu_plus_nav]
    exact GSt.plus_dir _ _
  ortho x h := h.ortho
  att_right x h hd := fun i j => ((se23Att.att_right x.nav h hd i j).pull navIdx).congr (fun ξ => by
    show se23Ops.att (se23Ops.plus x.nav _) i j = se23Ops.att (imuOps.plus x ξ).nav i j
    rw [imu_plus_nav]; rfl) (fun ξ => rfl)
  att_left x h hd := fun i j => ((se23Att.att_left x.nav h hd i j).pull navIdx).congr (fun ξ => by
    show se23Ops.att (se23Ops.plus x.nav _) i j = se23Ops.att (imuOps.plus x ξ).nav i j
    rw [imu_plus_nav]; rfl) (fun ξ => rfl)
  blocks_att B := ⟨_, rfl, fun ξ => by
    show (.of fun i k => ![B, 0, 0, 0, 0] k.1 i k.2 : Matrix _ (Fin 5 × Fin 3) ℝ) *ᵥ ξ = _
    rw [imuBlocks_act, navCols_act]; simp; rfl⟩

/-- `IMUState`: position. -/
noncomputable def imuPos : PosLaws so3Att imuOps IsImu where
  toAttLaws := imuAtt
  r x := x.pose.colB
  pos_eq x := rfl
  pos_zero x := by
    show se23Pos.r (imuOps.plus x 0).nav = se23Pos.r x.nav
    rw [imu_plus_nav]
    exact se23Pos.pos_zero x.nav
  posP ξ := fun k => ξ (2, k)
  pos_right x h hd := fun i => ((se23Pos.pos_right x.nav h hd i).pull navIdx).congr (fun ξ => by
    show se23Pos.r (se23Ops.plus x.nav _) i = se23Pos.r (imuOps.plus x ξ).nav i
    rw [imu_plus_nav]; rfl) (fun ξ => rfl)
  pos_left x h hd := fun i => ((se23Pos.pos_left x.nav h hd i).pull navIdx).congr (fun ξ => by
    show se23Pos.r (se23Ops.plus x.nav _) i = se23Pos.r (imuOps.plus x ξ).nav i
    rw [imu_plus_nav]; rfl) (fun ξ => rfl)
  blocks_pos a p := by
    refine ⟨.of fun i k => ![a.getD 0, 0, p, 0, 0] k.1 i k.2, ?_, fun ξ => ?_⟩
    · cases a <;> rfl
    · rw [imuBlocks_act, navCols_act]; simp [imuAtt]; rfl

/-- `IMUState`: velocity. -/
noncomputable def imuVel : VelLaws so3Att imuOps IsImu where
  toAttLaws := imuAtt
  v x := x.pose.colA
  vel_eq x := rfl
  vel_zero x := by
    show se23Vel.v (imuOps.plus x 0).nav = se23Vel.v x.nav
    rw [imu_plus_nav]
    exact se23Vel.vel_zero x.nav
  velP ξ := fun k => ξ (1, k)
  vel_right x h hd := fun i => ((se23Vel.vel_right x.nav h hd i).pull navIdx).congr (fun ξ => by
    show se23Vel.v (se23Ops.plus x.nav _) i = se23Vel.v (imuOps.plus x ξ).nav i
    rw [imu_plus_nav]; rfl) (fun ξ => rfl)
  vel_left x h hd := fun i => ((se23Vel.vel_left x.nav h hd i).pull navIdx).congr (fun ξ => by
    show se23Vel.v (se23Ops.plus x.nav _) i = se23Vel.v (imuOps.plus x ξ).nav i
    rw [imu_plus_nav]; rfl) (fun ξ => rfl)
  blocks_vel a p := by
    refine ⟨.of fun i k => ![a.getD 0, p, 0, 0, 0] k.1 i k.2, ?_, fun ξ => ?_⟩
    · cases a <;> rfl
    · rw [imuBlocks_act, navCols_act]; simp [imuAtt]; rfl

end Verif
