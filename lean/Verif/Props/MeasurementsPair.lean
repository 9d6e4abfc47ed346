import Verif.Props.Measurements
import Mathlib.Analysis.Calculus.Deriv.Inv

/-! C64 for the models of two sub-states of a composite state: `RangePoseToPose`, `PointRelativePositionSLAM`,
`CameraProjection`. -/

namespace Verif

open Matrix

set_option linter.unusedVariables false
set_option linter.unusedSectionVars false

/-- A perturbation of two sub-states: the perturbation of the first, then that of the second (`composite.py:255-268`). -/
def pairPlus {S₁ S₂ κ₁ κ₂ : Type} (p₁ : S₁ → (κ₁ → ℝ) → S₁) (p₂ : S₂ → (κ₂ → ℝ) → S₂) (x : S₁ × S₂) (ξ : κ₁ ⊕ κ₂ → ℝ) : S₁ × S₂ :=
  (p₁ x.1 fun k => ξ (.inl k), p₂ x.2 fun k => ξ (.inr k))

/-- The two blocks side by side (`composite.py:293-307`). -/
def pairJac {μ κ₁ κ₂ : Type} (r : Except Err (Matrix μ κ₁ ℝ × Matrix μ κ₂ ℝ)) : Except Err (Matrix μ (κ₁ ⊕ κ₂) ℝ) :=
  r.map fun p => fromCols p.1 p.2

section

variable {κ κ' : Type} [Fintype κ] [DecidableEq κ] [Fintype κ'] [DecidableEq κ']

theorem HasVD.pull {μ : Type} {f L : (κ → ℝ) → μ → ℝ} (h : HasVD f L) (π : κ → κ') :
    HasVD (fun ξ : κ' → ℝ => f (fun k => ξ (π k))) (fun ξ => L (fun k => ξ (π k))) := fun i => (h i).pull π

theorem HasMD.pull {μ ν : Type} {f L : (κ → ℝ) → Matrix μ ν ℝ} (h : HasMD f L) (π : κ → κ') :
    HasMD (fun ξ : κ' → ℝ => f (fun k => ξ (π k))) (fun ξ => L (fun k => ξ (π k))) := fun i j => (h i j).pull π

theorem HasD.continuousAt {f L : (κ → ℝ) → ℝ} (h : HasD f L) : ContinuousAt f 0 := by
  obtain ⟨f', hf, _⟩ := h
  exact hf.continuousAt

theorem HasD.div {f g L M : (κ → ℝ) → ℝ} (h : HasD f L) (h' : HasD g M) (h0 : g 0 ≠ 0) :
    HasD (fun ξ => f ξ / g ξ) (fun ξ => L ξ / g 0 - f 0 * M ξ / g 0 ^ 2) := by
  refine (h.mul (h'.comp (hasDerivAt_inv h0))).congr (fun ξ => (div_eq_mul_inv _ _).symm) (fun ξ => ?_)
  field_simp
  ring

theorem hasVD_vec {m : ℕ} (p : Vec m) : HasVD (fun ξ => vecPlus p ξ) (fun ξ => ξ) := fun i =>
  ((HasD.const (p i)).add (HasD.proj i)).congr (fun ξ => rfl) (fun ξ => zero_add _)

end

section

variable {S₁ S₂ κ₁ κ₂ α : Type} [Fintype κ₁] [DecidableEq κ₁] [Fintype κ₂] [DecidableEq κ₂] [Fintype α] {n : ℕ} {A : AttGroup α n}
  {P₁ : PoseOps S₁ κ₁ α n} {P₂ : PoseOps S₂ κ₂ α n} {mem₁ : S₁ → Prop} {mem₂ : S₂ → Prop}

/-- `RangePoseToPose`, unless the two tags are at the same point. -/
theorem rpp_exact (hA : A.Laws) (L₁ : PosLaws A P₁ mem₁) (L₂ : PosLaws A P₂ mem₂) (t1 t2 : Vec n) {x : S₁ × S₂} (h1 : mem₁ x.1)
    (h2 : mem₂ x.2) (hne : P₁.att x.1 *ᵥ t1 + L₁.r x.1 ≠ P₂.att x.2 *ᵥ t2 + L₂.r x.2) :
    JacExact (pairPlus P₁.plus P₂.plus) (one1 fun x => rppEval P₁ P₂ t1 t2 x.1 x.2)
      (fun x => pairJac (rppJac A P₁ P₂ t1 t2 x.1 x.2)) x := by
  obtain ⟨T1, hT1, hB1⟩ := tag_laws hA L₁ t1 h1
  obtain ⟨T2, hT2, hB2⟩ := tag_laws hA L₂ t2 h2
  have h0 : P₁.att x.1 *ᵥ t1 + L₁.r x.1 - (P₂.att x.2 *ᵥ t2 + L₂.r x.2) ≠ 0 := sub_ne_zero.2 hne
  set v := P₁.att x.1 *ᵥ t1 + L₁.r x.1 - (P₂.att x.2 *ᵥ t2 + L₂.r x.2) with hv
  obtain ⟨J1, hJ1, eJ1⟩ := hB1 ((npNorm v)⁻¹ • v)
  obtain ⟨J2, hJ2, eJ2⟩ := hB2 (-((npNorm v)⁻¹ • v))
  refine ⟨fun ξ _ => npNorm (P₁.att (P₁.plus x.1 fun k => ξ (.inl k)) *ᵥ t1 + L₁.r (P₁.plus x.1 fun k => ξ (.inl k)) -
    (P₂.att (P₂.plus x.2 fun k => ξ (.inr k)) *ᵥ t2 + L₂.r (P₂.plus x.2 fun k => ξ (.inr k)))), fromCols J1 J2, fun ξ => ?_, ?_, ?_⟩
  · simp only [one1, rppEval, L₁.pos_eq, L₂.pos_eq]; rfl
  · have e : rppJac A P₁ P₂ t1 t2 x.1 x.2 = .ok (J1, J2) := by
      rw [rppJac, L₁.pos_eq, L₂.pos_eq]
      show npScale (npNorm v) v >>= _ = _
      rw [npScale, if_neg (npNorm_ne h0)]
      show tagBlocks A P₁ ((npNorm v)⁻¹ • v) t1 x.1 (L₁.r x.1) >>= _ = _
      rw [hJ1]
      show tagBlocks A P₂ (-((npNorm v)⁻¹ • v)) t2 x.2 (L₂.r x.2) >>= _ = _
      rw [hJ2]
      rfl
    show pairJac (rppJac A P₁ P₂ t1 t2 x.1 x.2) = _
    rw [e]; rfl
  · have hV := (hT1.pull (κ' := κ₁ ⊕ κ₂) Sum.inl).sub (hT2.pull (κ' := κ₁ ⊕ κ₂) Sum.inr)
    have e0 : P₁.att (P₁.plus x.1 fun k => (0 : κ₁ ⊕ κ₂ → ℝ) (.inl k)) *ᵥ t1 +
        L₁.r (P₁.plus x.1 fun k => (0 : κ₁ ⊕ κ₂ → ℝ) (.inl k)) -
        (P₂.att (P₂.plus x.2 fun k => (0 : κ₁ ⊕ κ₂ → ℝ) (.inr k)) *ᵥ t2 +
          L₂.r (P₂.plus x.2 fun k => (0 : κ₁ ⊕ κ₂ → ℝ) (.inr k))) = v := by
      show P₁.att (P₁.plus x.1 0) *ᵥ t1 + L₁.r (P₁.plus x.1 0) - (P₂.att (P₂.plus x.2 0) *ᵥ t2 + L₂.r (P₂.plus x.2 0)) = v
      rw [L₁.att_zero, L₁.pos_zero, L₂.att_zero, L₂.pos_zero]
    have hN := hV.norm (by rw [e0]; exact h0)
    refine HasVD.hasJac (fun _ => hN) fun ξ => ?_
    rw [fromCols_act, eJ1, eJ2, e0]
    funext i
    simp only [Pi.add_apply, dotProduct_sub, neg_dotProduct]
    ring

/-- When the two tags coincide the Jacobian is a division of zero by zero. -/
theorem rpp_nan (L₁ : PosLaws A P₁ mem₁) (L₂ : PosLaws A P₂ mem₂) (t1 t2 : Vec n) {x : S₁ × S₂}
    (he : P₁.att x.1 *ᵥ t1 + L₁.r x.1 = P₂.att x.2 *ᵥ t2 + L₂.r x.2) : rppJac A P₁ P₂ t1 t2 x.1 x.2 = .error .nan := by
  rw [rppJac, L₁.pos_eq, L₂.pos_eq]
  show npScale (npNorm (P₁.att x.1 *ᵥ t1 + L₁.r x.1 - (P₂.att x.2 *ᵥ t2 + L₂.r x.2))) _ >>= _ = _
  have : npNorm (P₁.att x.1 *ᵥ t1 + L₁.r x.1 - (P₂.att x.2 *ᵥ t2 + L₂.r x.2)) = 0 := by rw [he, sub_self]; simp [npNorm]
  rw [npScale, if_pos this]
  rfl

/-- The landmark relative to the pose, as a function of both: `C^T (p - r)`. -/
theorem rel_hasVD (hA : A.Laws) (L : PosLaws A P₁ mem₁) {x : S₁} (h : mem₁ x) (p : Vec n) :
    ∃ D : (κ₁ → ℝ) → Vec n, (∃ J, prpJac A P₁ p x = .ok J ∧ ∀ ξ, J *ᵥ ξ = D ξ) ∧
      HasVD (fun ξ : κ₁ ⊕ Fin n → ℝ => (P₁.att (P₁.plus x fun k => ξ (.inl k)))ᵀ *ᵥ
        (vecPlus p (fun k => ξ (.inr k)) - L.r (P₁.plus x fun k => ξ (.inl k))))
        (fun ξ => D (fun k => ξ (.inl k)) + (P₁.att x)ᵀ *ᵥ fun k => ξ (.inr k)) := by
  obtain ⟨y, J, hy, hJ, hD⟩ := prp_exact hA L p h
  have ey : ∀ ξ, y ξ = (P₁.att (P₁.plus x ξ))ᵀ *ᵥ (p - L.r (P₁.plus x ξ)) := by
    intro ξ
    have e := hy ξ
    rw [prpEval, L.pos_eq] at e
    injection e with e
    exact e.symm
  refine ⟨fun ξ => J *ᵥ ξ, ⟨J, hJ, fun ξ => rfl⟩, ?_⟩
  have hA' : ∃ W, HasMD (fun ξ => P₁.att (P₁.plus x ξ)) W := by
    cases hd : P₁.dir x with
    | right => exact ⟨_, L.att_right x h hd⟩
    | left => exact ⟨_, L.att_left x h hd⟩
  obtain ⟨W, hW⟩ := hA'
  have hp : HasVD (fun ξ : Fin n → ℝ => ξ) (fun ξ => ξ) := fun i => HasD.proj i
  have hsum := (hD.hasVD.pull (κ' := κ₁ ⊕ Fin n) Sum.inl).add
    ((hW.transpose.pull (κ' := κ₁ ⊕ Fin n) Sum.inl).mulVec (hp.pull (κ' := κ₁ ⊕ Fin n) Sum.inr))
  refine hsum.congr (fun ξ => ?_) (fun ξ => ?_)
  · show y _ + (P₁.att (P₁.plus x fun k => ξ (.inl k)))ᵀ *ᵥ (fun k => ξ (.inr k)) = _
    rw [ey, ← mulVec_add, vecPlus]
    congr 1
    abel
  · show J *ᵥ _ + ((W _)ᵀ *ᵥ (0 : Vec n) + (P₁.att (P₁.plus x 0))ᵀ *ᵥ _) = _
    rw [L.att_zero, mulVec_zero, zero_add]

/-- `PointRelativePositionSLAM` on the pose and the landmark. -/
theorem slam_exact (hA : A.Laws) (L : PosLaws A P₁ mem₁) {x : S₁ × Vec n} (h : mem₁ x.1) :
    JacExact (pairPlus P₁.plus vecPlus) (fun x => slamEval P₁ x.1 x.2) (fun x => pairJac (slamBlocks P₁ A x.1 x.2)) x := by
  obtain ⟨D, ⟨J, hJ, eJ⟩, hV⟩ := rel_hasVD hA L h x.2
  refine ⟨_, fromCols J (P₁.att x.1)ᵀ, fun ξ => ?_, ?_, hV.hasJac fun ξ => ?_⟩
  · show slamEval P₁ (P₁.plus x.1 fun k => ξ (.inl k)) (vecPlus x.2 fun k => ξ (.inr k)) = _
    rw [slamEval, prpEval, L.pos_eq]
    rfl
  · show pairJac (slamBlocks P₁ A x.1 x.2) = _
    rw [slamBlocks, hJ]; rfl
  · rw [fromCols_act, eJ]

end

section

variable {S κ : Type} [Fintype κ] [DecidableEq κ] {P : PoseOps S κ (Fin 3) 3} {mem : S → Prop}

/-- The landmark in the camera frame, as a function of both perturbations. -/
def camPoint (P : PoseOps S κ (Fin 3) 3) (L : PosLaws so3Att P mem) (c : Cam) (x : S × Vec 3) (ξ : κ ⊕ Fin 3 → ℝ) : Vec 3 :=
  camResolve c (P.att (P.plus x.1 fun k => ξ (.inl k))) (L.r (P.plus x.1 fun k => ξ (.inl k))) (vecPlus x.2 fun k => ξ (.inr k))

/-- The pinhole projection (`z ≠ 0`), as a vector. -/
noncomputable def pinhole (c : Cam) (q : Vec 3) : Vec 2 := ![c.fu * q 0 / q 2 + c.cu, c.fv * q 1 / q 2 + c.cv]

theorem project_pinhole (c : Cam) (q : Vec 3) (h : q 2 ≠ 0) : c.project (ravel3 q) = .ok [pinhole c q 0, pinhole c q 1] := by
  show (do
    let a ← npDiv (c.fu * q 0) (q 2)
    let b ← npDiv (c.fv * q 1) (q 2)
    return [a + c.cu, b + c.cv] : Except Err (List ℝ)) = _
  rw [npDiv, npDiv, if_neg h, if_neg h]
  rfl

/-- `CameraProjection` on right-perturbed poses: for landmarks off the camera plane the projection of the perturbed states is
computed for all small perturbations and the Jacobian is its derivative. -/
theorem cam_exact (L : PosLaws so3Att P mem) (c : Cam) {x : S × Vec 3} (h : mem x.1) (hd : P.dir x.1 = .right)
    (hz : camResolve c (P.att x.1) (L.r x.1) x.2 2 ≠ 0) :
    ∃ (y : (κ ⊕ Fin 3 → ℝ) → Vec 2) (J : Matrix (Fin 2) (κ ⊕ Fin 3) ℝ),
      (∀ᶠ ξ in nhds 0, camEval P c (pairPlus P.plus vecPlus x ξ).1 (pairPlus P.plus vecPlus x ξ).2 = .ok [y ξ 0, y ξ 1]) ∧
      pairJac (camJac P c x.1 x.2) = .ok J ∧ HasJac y J := by
  obtain ⟨D, ⟨Jp, hJp, eJp⟩, hV⟩ := rel_hasVD so3Att_laws L h x.2
  have hJp' : ∀ ξ, D ξ = skew ((P.att x.1)ᵀ *ᵥ (x.2 - L.r x.1)) *ᵥ L.attP ξ - L.posP ξ := by
    intro ξ
    obtain ⟨J', hJ', eJ'⟩ := L.blocks_pos (some (-so3Att.odot ((P.att x.1)ᵀ *ᵥ (x.2 - L.r x.1)))) (-1)
    have e : prpJac so3Att P x.2 x.1 = .ok J' := by
      simp only [prpJac, L.pos_eq, hd]; exact hJ'
    rw [hJp] at e
    injection e with e
    rw [← eJp, e, eJ']
    simp [so3Att, neg_mulVec, sub_eq_add_neg]
  -- the point in the camera frame
  have hq : HasVD (camPoint P L c x) (fun ξ => c.Tbc.rotᵀ *ᵥ (D (fun k => ξ (.inl k)) + (P.att x.1)ᵀ *ᵥ fun k => ξ (.inr k))) := by
    refine ((HasMD.const c.Tbc.rotᵀ).mulVec (hV.sub (HasVD.const c.Tbc.pos))).congr (fun ξ => rfl) (fun ξ => ?_)
    simp only [zero_mulVec, zero_add, sub_zero]
  have hq0 : camPoint P L c x 0 = camResolve c (P.att x.1) (L.r x.1) x.2 := by
    show camResolve c (P.att (P.plus x.1 0)) (L.r (P.plus x.1 0)) (vecPlus x.2 0) = _
    rw [L.att_zero, L.pos_zero, vecPlus, add_zero]
  have hz0 : camPoint P L c x 0 2 ≠ 0 := by rw [hq0]; exact hz
  set q := camResolve c (P.att x.1) (L.r x.1) x.2 with hqd
  set dg : Mat 2 3 := (1 / q 2) • !![c.fu, 0, -c.fu * q 0 / q 2; 0, c.fv, -c.fv * q 1 / q 2] with hdg
  obtain ⟨Jb, hJb, eJb⟩ := L.blocks_pos (some (dg * (c.Tbc.rotᵀ * skew ((P.att x.1)ᵀ *ᵥ (x.2 - L.r x.1))))) (dg * -c.Tbc.rotᵀ)
  refine ⟨fun ξ => pinhole c (camPoint P L c x ξ), fromCols Jb (dg * (c.Tbc.rotᵀ * (P.att x.1)ᵀ)), ?_, ?_, ?_⟩
  · have hc := (hq 2).continuousAt
    filter_upwards [hc.eventually_ne hz0] with ξ hξ
    show camEval P c (P.plus x.1 fun k => ξ (.inl k)) (vecPlus x.2 fun k => ξ (.inr k)) = _
    rw [camEval, L.pos_eq]
    exact project_pinhole c (camPoint P L c x ξ) hξ
  · have e : camJac P c x.1 x.2 = .ok (Jb, dg * (c.Tbc.rotᵀ * (P.att x.1)ᵀ)) := by
      simp only [camJac, hd, L.pos_eq]
      show projJac c q >>= _ = _
      rw [projJac, if_neg hz]
      show P.blocks (some (dg * (c.Tbc.rotᵀ * skew ((P.att x.1)ᵀ *ᵥ (x.2 - L.r x.1))))) (some (dg * -c.Tbc.rotᵀ)) none >>= _ = _
      rw [hJb]
      rfl
    rw [e]; rfl
  · have hy : HasVD (fun ξ => pinhole c (camPoint P L c x ξ))
        (fun ξ => dg *ᵥ (c.Tbc.rotᵀ *ᵥ (D (fun k => ξ (.inl k)) + (P.att x.1)ᵀ *ᵥ fun k => ξ (.inr k)))) := by
      intro i
      fin_cases i
      · refine (((((HasD.const c.fu).mul (hq 0)).div (hq 2) hz0).add (HasD.const c.cu))).congr (fun ξ => rfl) (fun ξ => ?_)
        rw [hq0]
        show _ = (dg *ᵥ _) 0
        simp only [hdg, Matrix.mulVec, dotProduct, Fin.sum_univ_three, Matrix.smul_apply]
        simp
        field_simp
        ring
      · refine (((((HasD.const c.fv).mul (hq 1)).div (hq 2) hz0).add (HasD.const c.cv))).congr (fun ξ => rfl) (fun ξ => ?_)
        rw [hq0]
        show _ = (dg *ᵥ _) 1
        simp only [hdg, Matrix.mulVec, dotProduct, Fin.sum_univ_three, Matrix.smul_apply]
        simp
        field_simp
        ring
    refine hy.hasJac fun ξ => ?_
    rw [fromCols_act, eJb, hJp']
    simp only [Option.getD_some, ← mulVec_mulVec, mulVec_add, mulVec_sub, neg_mulVec, mulVec_neg]
    abel

end

/-! ### The classes -/

/-- C64: `RangePoseToPose` between two poses of the classes `SE2State`; `SE3State`, `SE23State`, `IMUState` in any combination:
exact unless the tags coincide, where the Jacobian is not a number. -/
theorem C64_range_to_pose :
    (∀ (t1 t2 : Vec 2) (x : GSt (Fin 2 ⊕ Fin 1) × GSt (Fin 2 ⊕ Fin 1)), IsSE2 x.1.value → IsSE2 x.2.value →
      (rppEval se2Ops se2Ops t1 t2 x.1 x.2 ≠ .ok 0 → JacExact (pairPlus se2Ops.plus se2Ops.plus)
        (one1 fun x => rppEval se2Ops se2Ops t1 t2 x.1 x.2) (fun x => pairJac (rppJac so2Att se2Ops se2Ops t1 t2 x.1 x.2)) x) ∧
      (rppEval se2Ops se2Ops t1 t2 x.1 x.2 = .ok 0 → rppJac so2Att se2Ops se2Ops t1 t2 x.1 x.2 = .error .nan)) ∧
    ∀ {S₁ S₂ κ₁ κ₂ : Type} [Fintype κ₁] [DecidableEq κ₁] [Fintype κ₂] [DecidableEq κ₂] {P₁ : PoseOps S₁ κ₁ (Fin 3) 3}
      {P₂ : PoseOps S₂ κ₂ (Fin 3) 3} {mem₁ : S₁ → Prop} {mem₂ : S₂ → Prop} (_ : PosLaws so3Att P₁ mem₁) (_ : PosLaws so3Att P₂ mem₂)
      (t1 t2 : Vec 3) (x : S₁ × S₂), mem₁ x.1 → mem₂ x.2 →
      (rppEval P₁ P₂ t1 t2 x.1 x.2 ≠ .ok 0 → JacExact (pairPlus P₁.plus P₂.plus)
        (one1 fun x => rppEval P₁ P₂ t1 t2 x.1 x.2) (fun x => pairJac (rppJac so3Att P₁ P₂ t1 t2 x.1 x.2)) x) ∧
      (rppEval P₁ P₂ t1 t2 x.1 x.2 = .ok 0 → rppJac so3Att P₁ P₂ t1 t2 x.1 x.2 = .error .nan) := by
  have key : ∀ {α : Type} [Fintype α] {n : ℕ} {A : AttGroup α n} {S₁ S₂ κ₁ κ₂ : Type} [Fintype κ₁] [DecidableEq κ₁] [Fintype κ₂]
      [DecidableEq κ₂] {P₁ : PoseOps S₁ κ₁ α n} {P₂ : PoseOps S₂ κ₂ α n} {mem₁ : S₁ → Prop} {mem₂ : S₂ → Prop}
      (L₁ : PosLaws A P₁ mem₁) (L₂ : PosLaws A P₂ mem₂) (t1 t2 : Vec n) (x1 : S₁) (x2 : S₂),
      rppEval P₁ P₂ t1 t2 x1 x2 = .ok 0 ↔ P₁.att x1 *ᵥ t1 + L₁.r x1 = P₂.att x2 *ᵥ t2 + L₂.r x2 := by
    intro α _ n A S₁ S₂ κ₁ κ₂ _ _ _ _ P₁ P₂ m1 m2 L₁ L₂ t1 t2 x1 x2
    rw [rppEval, L₁.pos_eq, L₂.pos_eq]
    show Except.ok (npNorm (P₁.att x1 *ᵥ t1 + L₁.r x1 - (P₂.att x2 *ᵥ t2 + L₂.r x2))) = _ ↔ _
    constructor
    · intro e
      injection e with e
      by_contra hne
      exact npNorm_ne (sub_ne_zero.2 hne) e
    · intro e
      rw [e, sub_self]
      simp [npNorm]
  refine ⟨fun t1 t2 x h1 h2 => ⟨fun hne => ?_, fun he => ?_⟩,
    fun L₁ L₂ t1 t2 x h1 h2 => ⟨fun hne => ?_, fun he => ?_⟩⟩
  · exact rpp_exact so2Att_laws se2State se2State t1 t2 h1 h2 fun e => hne ((key se2State se2State t1 t2 x.1 x.2).2 e)
  · exact rpp_nan se2State se2State t1 t2 ((key se2State se2State t1 t2 x.1 x.2).1 he)
  · exact rpp_exact so3Att_laws L₁ L₂ t1 t2 h1 h2 fun e => hne ((key L₁ L₂ t1 t2 x.1 x.2).2 e)
  · exact rpp_nan L₁ L₂ t1 t2 ((key L₁ L₂ t1 t2 x.1 x.2).1 he)

/-- The pose classes with an attitude in `SO3` that `C64_range_to_pose` speaks of. -/
example : Nonempty (PosLaws so3Att se3Ops fun x => IsSE3 x.value) ∧ Nonempty (PosLaws so3Att se23Ops fun x => IsSE23 x.value) ∧
    Nonempty (PosLaws so3Att imuOps fun x => IsSE23 x.pose) := ⟨⟨se3State⟩, ⟨se23Pos⟩, ⟨imuPos⟩⟩

/-- Non-vacuity: two poses whose tags differ. -/
example : rppEval se3Ops se3Ops ![1, 0, 0] ![0, 0, 0] (pose1 .left) (pose1 .right) ≠ .ok 0 := by
  intro e
  have e : Except.ok (npNorm ((1 : Mat 3 3) *ᵥ ![1, 0, 0] + ![1, 2, 3] - ((1 : Mat 3 3) *ᵥ ![0, 0, 0] + ![1, 2, 3]))) = Except.ok (ε := Err) 0 := e
  injection e with e
  refine npNorm_ne (fun h => ?_) e
  have := congrFun h 0
  simp at this

/-- Non-vacuity: a landmark in front of a camera. -/
example : ∃ uv, camEval se3Ops (mkCam 400 400 320 240 640 480 1 none) (pose1 .right) ![1, 2, 5] = .ok uv := by
  refine ⟨_, project_pinhole _ (camResolve _ 1 ![1, 2, 3] ![1, 2, 5]) ?_⟩
  have h1 : (mkCam 400 400 320 240 640 480 1 none).Tbc = 1 := rfl
  have hr : Pose.rot 1 = 1 := by rw [← mkPose_one]; rfl
  have hp : Pose.pos 1 = 0 := by rw [← mkPose_one]; rfl
  simp [camResolve, h1, hr, hp]
  norm_num

/-- C64: `PointRelativePositionSLAM` on the pose and the landmark it names (the blocks; for their placement see C65). -/
theorem C64_slam :
    (∀ x : GSt (Fin 3 ⊕ Fin 1) × Vec 3, IsSE3 x.1.value → JacExact (pairPlus se3Ops.plus vecPlus)
      (fun x => slamEval se3Ops x.1 x.2) (fun x => pairJac (slamBlocks se3Ops so3Att x.1 x.2)) x) ∧
    (∀ x : GSt (Fin 3 ⊕ Fin 2) × Vec 3, IsSE23 x.1.value → JacExact (pairPlus se23Ops.plus vecPlus)
      (fun x => slamEval se23Ops x.1 x.2) (fun x => pairJac (slamBlocks se23Ops so3Att x.1 x.2)) x) ∧
    ∀ x : ImuSt × Vec 3, IsSE23 x.1.pose → JacExact (pairPlus imuOps.plus vecPlus)
      (fun x => slamEval imuOps x.1 x.2) (fun x => pairJac (slamBlocks imuOps so3Att x.1 x.2)) x :=
  ⟨fun x h => slam_exact so3Att_laws se3State h, fun x h => slam_exact so3Att_laws se23Pos h,
    fun x h => slam_exact so3Att_laws imuPos h⟩

/-- Specification: `CameraProjection` at `x`, on a right-perturbed pose: the projection is computed for all small perturbations
and the Jacobian is its derivative. -/
def CamExact {S κ : Type} [Fintype κ] [DecidableEq κ] (P : PoseOps S κ (Fin 3) 3) (c : Cam) (x : S × Vec 3) : Prop :=
  ∃ (y : (κ ⊕ Fin 3 → ℝ) → Vec 2) (J : Matrix (Fin 2) (κ ⊕ Fin 3) ℝ),
    (∀ᶠ ξ in nhds 0, camEval P c (P.plus x.1 fun k => ξ (.inl k)) (x.2 + fun k => ξ (.inr k)) = .ok [y ξ 0, y ξ 1]) ∧
    pairJac (camJac P c x.1 x.2) = .ok J ∧ HasJac y J

/-- C64: `CameraProjection` on right-perturbed poses of the classes `SE3State`, `SE23State`, `IMUState`, wherever the landmark
projects at all. Left-perturbed poses are refused. -/
theorem C64_camera (c : Cam) :
    (∀ (x : GSt (Fin 3 ⊕ Fin 1) × Vec 3) (uv : List ℝ), IsSE3 x.1.value → x.1.dir = .right → camEval se3Ops c x.1 x.2 = .ok uv →
      CamExact se3Ops c x) ∧
    (∀ (x : GSt (Fin 3 ⊕ Fin 2) × Vec 3) (uv : List ℝ), IsSE23 x.1.value → x.1.dir = .right → camEval se23Ops c x.1 x.2 = .ok uv →
      CamExact se23Ops c x) ∧
    (∀ (x : ImuSt × Vec 3) (uv : List ℝ), IsSE23 x.1.pose → x.1.dir = .right → camEval imuOps c x.1 x.2 = .ok uv →
      CamExact imuOps c x) ∧
    ∀ {S κ : Type} (P : PoseOps S κ (Fin 3) 3) (x : S) (p : Vec 3), P.dir x = .left → camJac P c x p = .error .notImplemented := by
  have key : ∀ {S κ : Type} [Fintype κ] [DecidableEq κ] {P : PoseOps S κ (Fin 3) 3} {mem : S → Prop} (L : PosLaws so3Att P mem)
      (x : S) (p : Vec 3) (uv : List ℝ), camEval P c x p = .ok uv → camResolve c (P.att x) (L.r x) p 2 ≠ 0 := by
    intro S κ _ _ P mem L x p uv h e
    rw [camEval, L.pos_eq] at h
    have h : (do
      let a ← npDiv (c.fu * camResolve c (P.att x) (L.r x) p 0) (camResolve c (P.att x) (L.r x) p 2)
      let b ← npDiv (c.fv * camResolve c (P.att x) (L.r x) p 1) (camResolve c (P.att x) (L.r x) p 2)
      return [a + c.cu, b + c.cv] : Except Err (List ℝ)) = .ok uv := h
    rw [npDiv, if_pos e] at h
    cases h
  refine ⟨fun x uv h hd hu => cam_exact se3State c h hd (key se3State _ _ _ hu),
    fun x uv h hd hu => cam_exact se23Pos c h hd (key se23Pos _ _ _ hu),
    fun x uv h hd hu => cam_exact imuPos c h hd (key imuPos _ _ _ hu), fun P x p hd => ?_⟩
  simp only [camJac, hd]

end Verif
