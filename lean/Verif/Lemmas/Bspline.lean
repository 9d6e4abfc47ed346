import Verif.Model.Bspline
import Verif.Lemmas.Lie
import Verif.Props.Mixture
import Mathlib.Tactic.NoncommRing
import Mathlib.Analysis.Calculus.Deriv.Add
import Mathlib.Analysis.Calculus.Deriv.Mul
import Mathlib.Analysis.Calculus.Deriv.Pow

/-! Helper lemmas about `Verif.Model.Bspline`. -/

namespace Verif

open Matrix NormedSpace Filter Topology

set_option linter.unusedVariables false
set_option linter.unusedSectionVars false

/-! ### Basis functions -/

theorem basis_deriv (t1 DT t : ℝ) (h : DT ≠ 0) :
    HasDerivAt (fun t => (basis ((t - t1) / DT)).1) (basisDot ((t - t1) / DT) DT).1 t ∧
    HasDerivAt (fun t => (basis ((t - t1) / DT)).2.1) (basisDot ((t - t1) / DT) DT).2.1 t ∧
    HasDerivAt (fun t => (basis ((t - t1) / DT)).2.2) (basisDot ((t - t1) / DT) DT).2.2 t := by
  have hu : HasDerivAt (fun t : ℝ => (t - t1) / DT) (1 / DT) t := ((hasDerivAt_id t).sub_const t1).div_const DT
  have h2 := hu.mul hu
  have h3 := h2.mul hu
  refine ⟨?_, ?_, ?_⟩
  · refine (((((hu.const_mul 3).const_add 5).sub (h2.const_mul 3)).add h3).const_mul (1 / 6)).congr_deriv ?_ |>.congr_of_eventuallyEq
      (Filter.Eventually.of_forall ?_)
    · simp only [basisDot, Pi.mul_apply]; field_simp; ring
    · intro s; simp only [basis, Pi.mul_apply, Pi.add_apply, Pi.sub_apply]; ring
  · refine (((((hu.const_mul 3).const_add 1).add (h2.const_mul 3)).sub (h3.const_mul 2)).const_mul (1 / 6)).congr_deriv ?_ |>.congr_of_eventuallyEq
      (Filter.Eventually.of_forall ?_)
    · simp only [basisDot, Pi.mul_apply]; field_simp; ring
    · intro s; simp only [basis, Pi.mul_apply, Pi.add_apply, Pi.sub_apply]; ring
  · refine (h3.const_mul (1 / 6)).congr_deriv ?_ |>.congr_of_eventuallyEq (Filter.Eventually.of_forall ?_)
    · simp only [basisDot, Pi.mul_apply]; field_simp; ring
    · intro s; simp only [basis, Pi.mul_apply]

theorem basisDot_deriv (t1 DT t : ℝ) (h : DT ≠ 0) :
    HasDerivAt (fun t => (basisDot ((t - t1) / DT) DT).1) (basisDdot ((t - t1) / DT) DT).1 t ∧
    HasDerivAt (fun t => (basisDot ((t - t1) / DT) DT).2.1) (basisDdot ((t - t1) / DT) DT).2.1 t ∧
    HasDerivAt (fun t => (basisDot ((t - t1) / DT) DT).2.2) (basisDdot ((t - t1) / DT) DT).2.2 t := by
  have hu : HasDerivAt (fun t : ℝ => (t - t1) / DT) (1 / DT) t := ((hasDerivAt_id t).sub_const t1).div_const DT
  have h2 := hu.mul hu
  refine ⟨?_, ?_, ?_⟩
  · refine ((((hu.const_mul 6).const_sub 3).add (h2.const_mul 3)).const_mul (1 / (6 * DT))).congr_deriv ?_ |>.congr_of_eventuallyEq
      (Filter.Eventually.of_forall ?_)
    · simp only [basisDdot]; field_simp; ring
    · intro s; simp only [basisDot, Pi.mul_apply, Pi.add_apply]; ring
  · refine ((((hu.const_mul 6).const_add 3).sub (h2.const_mul 6)).const_mul (1 / (6 * DT))).congr_deriv ?_ |>.congr_of_eventuallyEq
      (Filter.Eventually.of_forall ?_)
    · simp only [basisDdot]; field_simp; ring
    · intro s; simp only [basisDot, Pi.mul_apply, Pi.sub_apply]; ring
  · refine ((h2.const_mul 3).const_mul (1 / (6 * DT))).congr_deriv ?_ |>.congr_of_eventuallyEq (Filter.Eventually.of_forall ?_)
    · simp only [basisDdot]; field_simp; ring
    · intro s; simp only [basisDot, Pi.mul_apply]; ring

/-! ### One segment -/

/-- `segVals` from the three twists, the normalized time and the spacing. -/
noncomputable def segU (X0 : Pose) (w10 w21 w32 : Vec 6) (u DT : ℝ) : SegVals :=
  let b := basis u
  let bd := basisDot u DT
  let bdd := basisDdot u DT
  let A0 := se3Exp (b.1 • w10)
  let A1 := se3Exp (b.2.1 • w21)
  let A2 := se3Exp (b.2.2 • w32)
  let A0d := (bd.1 • se3Wedge w10) * A0
  let A1d := (bd.2.1 • se3Wedge w21) * A1
  let A2d := (bd.2.2 • se3Wedge w32) * A2
  let A0dd := (bd.1 • se3Wedge w10) * A0d + (bdd.1 • se3Wedge w10) * A0
  let A1dd := (bd.2.1 • se3Wedge w21) * A1d + (bdd.2.1 • se3Wedge w21) * A1
  let A2dd := (bd.2.2 • se3Wedge w32) * A2d + (bdd.2.2 • se3Wedge w32) * A2
  { pose := X0 * A0 * A1 * A2
    vel := X0 * (A0d * A1 * A2 + A0 * A1d * A2 + A0 * A1 * A2d)
    acc := X0 * (A0dd * A1 * A2 + A0 * A1dd * A2 + A0 * A1 * A2dd + (2 : ℝ) • A0d * A1d * A2
      + (2 : ℝ) • A0 * A1d * A2d + (2 : ℝ) • A0d * A1 * A2d) }

theorem segVals_eq (Log : Pose → Vec 6) (f : Four4 Pose) (t : ℝ) :
    segVals Log f t = segU f.p0.1 (relLog Log f.p0.1 f.p1.1) (relLog Log f.p1.1 f.p2.1) (relLog Log f.p2.1 f.p3.1)
      ((t - f.p1.2) / (f.p2.2 - f.p1.2)) (f.p2.2 - f.p1.2) := rfl

section Calculus

open scoped Matrix.Norms.Operator

theorem se3Exp_deriv {b : ℝ → ℝ} {bd t : ℝ} (hb : HasDerivAt b bd t) (w : Vec 6) :
    HasDerivAt (fun t => se3Exp (b t • w)) ((bd • se3Wedge w) * se3Exp (b t • w)) t := by
  unfold se3Exp
  simp only [se3Wedge_smul]
  have h := hasDerivAt_exp_smul_const' (𝕂 := ℝ) (se3Wedge w) (b t)
  have := h.scomp t hb
  rw [Matrix.smul_mul]
  exact this

theorem se3Exp_deriv2 {b bd : ℝ → ℝ} {bdd t : ℝ} (hb : HasDerivAt b (bd t) t) (hbd : HasDerivAt bd bdd t) (w : Vec 6) :
    HasDerivAt (fun t => (bd t • se3Wedge w) * se3Exp (b t • w))
      ((bd t • se3Wedge w) * ((bd t • se3Wedge w) * se3Exp (b t • w)) + (bdd • se3Wedge w) * se3Exp (b t • w)) t := by
  have h1 : HasDerivAt (fun t => bd t • se3Wedge w) (bdd • se3Wedge w) t := hbd.smul_const (se3Wedge w)
  refine (h1.mul (se3Exp_deriv hb w)).congr_deriv ?_
  rw [add_comm]

theorem prod3_deriv (P : Pose) {A0 A1 A2 : ℝ → Pose} {a0 a1 a2 : Pose} {t : ℝ} (h0 : HasDerivAt A0 a0 t)
    (h1 : HasDerivAt A1 a1 t) (h2 : HasDerivAt A2 a2 t) :
    HasDerivAt (fun t => P * A0 t * A1 t * A2 t) (P * (a0 * A1 t * A2 t + A0 t * a1 * A2 t + A0 t * A1 t * a2)) t := by
  refine (((h0.const_mul P).mul h1).mul h2).congr_deriv ?_
  simp only [Pi.mul_apply]
  noncomm_ring

theorem prod3_deriv2 (P : Pose) {A0 A1 A2 D0 D1 D2 : ℝ → Pose} {e0 e1 e2 : Pose} {t : ℝ} (h0 : HasDerivAt A0 (D0 t) t)
    (h1 : HasDerivAt A1 (D1 t) t) (h2 : HasDerivAt A2 (D2 t) t) (g0 : HasDerivAt D0 e0 t) (g1 : HasDerivAt D1 e1 t)
    (g2 : HasDerivAt D2 e2 t) :
    HasDerivAt (fun t => P * (D0 t * A1 t * A2 t + A0 t * D1 t * A2 t + A0 t * A1 t * D2 t))
      (P * (e0 * A1 t * A2 t + A0 t * e1 * A2 t + A0 t * A1 t * e2 + (2 : ℝ) • D0 t * D1 t * A2 t
      + (2 : ℝ) • A0 t * D1 t * D2 t + (2 : ℝ) • D0 t * A1 t * D2 t)) t := by
  refine (((((g0.mul h1).mul h2).add ((h0.mul g1).mul h2)).add ((h0.mul h1).mul g2)).const_mul P).congr_deriv ?_
  simp only [Pi.mul_apply, two_smul]
  noncomm_ring

theorem segU_deriv (X0 : Pose) (w10 w21 w32 : Vec 6) (t1 DT t : ℝ) (h : DT ≠ 0) :
    HasDerivAt (fun t => (segU X0 w10 w21 w32 ((t - t1) / DT) DT).pose) (segU X0 w10 w21 w32 ((t - t1) / DT) DT).vel t ∧
    HasDerivAt (fun t => (segU X0 w10 w21 w32 ((t - t1) / DT) DT).vel) (segU X0 w10 w21 w32 ((t - t1) / DT) DT).acc t := by
  obtain ⟨a0, a1, a2⟩ := basis_deriv t1 DT t h
  obtain ⟨d0, d1, d2⟩ := basisDot_deriv t1 DT t h
  constructor
  · exact prod3_deriv X0 (se3Exp_deriv a0 w10) (se3Exp_deriv a1 w21) (se3Exp_deriv a2 w32)
  · exact prod3_deriv2 X0 (D0 := fun t => ((basisDot ((t - t1) / DT) DT).1 • se3Wedge w10) * se3Exp ((basis ((t - t1) / DT)).1 • w10))
      (D1 := fun t => ((basisDot ((t - t1) / DT) DT).2.1 • se3Wedge w21) * se3Exp ((basis ((t - t1) / DT)).2.1 • w21))
      (D2 := fun t => ((basisDot ((t - t1) / DT) DT).2.2 • se3Wedge w32) * se3Exp ((basis ((t - t1) / DT)).2.2 • w32))
      (se3Exp_deriv a0 w10) (se3Exp_deriv a1 w21) (se3Exp_deriv a2 w32)
      (se3Exp_deriv2 (bd := fun t => (basisDot ((t - t1) / DT) DT).1) a0 d0 w10)
      (se3Exp_deriv2 (bd := fun t => (basisDot ((t - t1) / DT) DT).2.1) a1 d1 w21)
      (se3Exp_deriv2 (bd := fun t => (basisDot ((t - t1) / DT) DT).2.2) a2 d2 w32)

theorem segU_acc_continuous (X0 : Pose) (w10 w21 w32 : Vec 6) (t1 DT : ℝ) :
    Continuous (fun t => (segU X0 w10 w21 w32 ((t - t1) / DT) DT).acc) := by
  have hE : ∀ (b : ℝ → ℝ) (w : Vec 6), Continuous b → Continuous fun t => se3Exp (b t • w) := by
    intro b w hb
    unfold se3Exp
    simp only [se3Wedge_smul]
    exact NormedSpace.exp_continuous.comp (hb.smul continuous_const)
  have hb : Continuous fun t : ℝ => basis ((t - t1) / DT) := by unfold basis; fun_prop
  have hbd : Continuous fun t : ℝ => basisDot ((t - t1) / DT) DT := by unfold basisDot; fun_prop
  have hbdd : Continuous fun t : ℝ => basisDdot ((t - t1) / DT) DT := by unfold basisDdot; fun_prop
  have e0 := hE (fun t => (basis ((t - t1) / DT)).1) w10 (by fun_prop)
  have e1 := hE (fun t => (basis ((t - t1) / DT)).2.1) w21 (by fun_prop)
  have e2 := hE (fun t => (basis ((t - t1) / DT)).2.2) w32 (by fun_prop)
  unfold segU
  simp only
  fun_prop

/-- Values at the end of a segment and at the beginning of the next one. -/
theorem segU_match (X0 X1 : Pose) (w10 w21 w32 w43 : Vec 6) (DT : ℝ) (h : X0 * se3Exp w10 = X1) :
    segU X0 w10 w21 w32 1 DT = segU X1 w21 w32 w43 0 DT := by
  have b1 : basis 1 = (1, 5 / 6, 1 / 6) := by unfold basis; norm_num
  have b0 : basis 0 = (5 / 6, 1 / 6, 0) := by unfold basis; norm_num
  have d1 : basisDot 1 DT = (0, 1 / (6 * DT) * 3, 1 / (6 * DT) * 3) := by
    unfold basisDot; norm_num
  have d0 : basisDot 0 DT = (1 / (6 * DT) * 3, 1 / (6 * DT) * 3, 0) := by
    unfold basisDot; norm_num
  have e1 : basisDdot 1 DT = (0, 1 / (6 * DT * DT) * (-6), 1 / (6 * DT * DT) * 6) := by
    unfold basisDdot; norm_num
  have e0 : basisDdot 0 DT = (1 / (6 * DT * DT) * (-6), 1 / (6 * DT * DT) * 6, 0) := by
    unfold basisDdot; norm_num
  unfold segU
  rw [b1, b0, d1, d0, e1, e0]
  simp only [one_smul, zero_smul, se3Exp_zero, mul_one, zero_mul, mul_zero, zero_add, add_zero, smul_zero]
  rw [← h]
  generalize (1 / (6 * DT) * 3) • se3Wedge w21 = M1
  generalize (1 / (6 * DT) * 3) • se3Wedge w32 = M2
  generalize (1 / (6 * DT * DT) * (-6)) • se3Wedge w21 = N1
  generalize (1 / (6 * DT * DT) * 6) • se3Wedge w32 = N2
  generalize se3Exp ((5 / 6 : ℝ) • w21) = A1
  generalize se3Exp ((1 / 6 : ℝ) • w32) = A2
  simp only [two_smul]
  congr 1 <;> noncomm_ring

/-! ### Gluing -/

theorem glue_deriv {E : Type} [NormedAddCommGroup E] [NormedSpace ℝ E] {f g F : ℝ → E} {d : E} {s : ℝ}
    (hl : ∀ᶠ t in 𝓝[<] s, F t = f t) (hr : ∀ᶠ t in 𝓝[≥] s, F t = g t) (hfg : f s = g s)
    (hf : HasDerivAt f d s) (hg : HasDerivAt g d s) : HasDerivAt F d s := by
  have hs : F s = g s := hr.self_of_nhdsWithin (Set.mem_Ici.2 le_rfl)
  have h1 : HasDerivWithinAt F d (Set.Iio s) s := hf.hasDerivWithinAt.congr_of_eventuallyEq hl (by rw [hs, hfg])
  have h2 : HasDerivWithinAt F d (Set.Ici s) s := hg.hasDerivWithinAt.congr_of_eventuallyEq hr hs
  have := h1.union h2
  rw [Set.Iio_union_Ici] at this
  exact this.hasDerivAt Filter.univ_mem

theorem glue_cont {E : Type} [TopologicalSpace E] {f g F : ℝ → E} {s : ℝ}
    (hl : ∀ᶠ t in 𝓝[<] s, F t = f t) (hr : ∀ᶠ t in 𝓝[≥] s, F t = g t) (hfg : f s = g s)
    (hf : ContinuousAt f s) (hg : ContinuousAt g s) : ContinuousAt F s := by
  have hs : F s = g s := hr.self_of_nhdsWithin (Set.mem_Ici.2 le_rfl)
  have h1 : ContinuousWithinAt F (Set.Iio s) s := hf.continuousWithinAt.congr_of_eventuallyEq hl (by rw [hs, hfg])
  have h2 : ContinuousWithinAt F (Set.Ici s) s := hg.continuousWithinAt.congr_of_eventuallyEq hr hs
  have := h1.union h2
  rw [Set.Iio_union_Ici] at this
  exact continuousWithinAt_univ _ _ |>.1 this

/-- The number of the cell `[t0 + k dt, t0 + (k + 1) dt)` that contains `t`. -/
noncomputable def cell (t0 dt t : ℝ) : ℕ := ⌊(t - t0) / dt⌋₊

theorem cell_eq {t0 dt t : ℝ} (hdt : 0 < dt) {k : ℕ} (h1 : t0 + k * dt ≤ t) (h2 : t < t0 + (k + 1) * dt) :
    cell t0 dt t = k := by
  unfold cell
  have hk : (k : ℝ) ≤ (t - t0) / dt := by rw [le_div_iff₀ hdt]; linarith
  rw [Nat.floor_eq_iff (le_trans (Nat.cast_nonneg k) hk)]
  exact ⟨hk, by rw [div_lt_iff₀ hdt]; linarith⟩

theorem cell_spec {t0 dt t : ℝ} (hdt : 0 < dt) (h : t0 ≤ t) :
    t0 + cell t0 dt t * dt ≤ t ∧ t < t0 + (cell t0 dt t + 1) * dt := by
  have h0 : 0 ≤ (t - t0) / dt := div_nonneg (by linarith) hdt.le
  have h1 := Nat.floor_le h0
  have h2 := Nat.lt_floor_add_one ((t - t0) / dt)
  rw [le_div_iff₀ hdt] at h1
  rw [div_lt_iff₀ hdt] at h2
  unfold cell
  constructor <;> linarith

theorem cell_cases {t0 dt t : ℝ} (hdt : 0 < dt) (h : t0 + dt < t) :
    ∃ k : ℕ, 1 ≤ k ∧ cell t0 dt t = k ∧
      ((∀ᶠ s in 𝓝 t, cell t0 dt s = k) ∨
       (2 ≤ k ∧ t = t0 + k * dt ∧ (∀ᶠ s in 𝓝[<] t, cell t0 dt s = k - 1) ∧ ∀ᶠ s in 𝓝[≥] t, cell t0 dt s = k)) := by
  obtain ⟨h1, h2⟩ := cell_spec hdt (show t0 ≤ t by linarith)
  set k := cell t0 dt t with hk
  have hk1 : 1 ≤ k := by
    by_contra hc
    have : k = 0 := by omega
    rw [this] at h2
    simp at h2
    linarith
  refine ⟨k, hk1, rfl, ?_⟩
  rcases h1.lt_or_eq with hlt | heq
  · left
    filter_upwards [Ioo_mem_nhds hlt h2] with s hs
    exact cell_eq hdt hs.1.le hs.2
  · right
    have hk2 : 2 ≤ k := by
      by_contra hc
      have : k = 1 := by omega
      rw [this] at heq
      simp at heq
      linarith
    refine ⟨hk2, heq.symm, ?_, ?_⟩
    · have hc : ((k - 1 : ℕ) : ℝ) = k - 1 := by rw [Nat.cast_sub hk1]; simp
      have hlow : t0 + ((k : ℝ) - 1) * dt < t := by rw [← heq]; nlinarith
      filter_upwards [Ioo_mem_nhdsLT hlow] with s hs
      refine cell_eq hdt ?_ ?_
      · rw [hc]; exact hs.1.le
      · rw [hc]; rw [sub_add_cancel, heq]; exact hs.2
    · filter_upwards [Ico_mem_nhdsGE h2] with s hs
      refine cell_eq hdt ?_ hs.2
      rw [heq]; exact hs.1

/-- Gluing the pieces of a piecewise function on a uniform grid. -/
theorem glue_all {E : Type} [NormedAddCommGroup E] [NormedSpace ℝ E] {G H : ℕ → ℝ → E} {t0 dt : ℝ} {N : ℕ}
    (hdt : 0 < dt) (hG : ∀ k, 1 ≤ k → ∀ t, HasDerivAt (G k) (H k t) t)
    (hm : ∀ k : ℕ, 1 ≤ k → k < N → G k (t0 + (k + 1) * dt) = G (k + 1) (t0 + (k + 1) * dt))
    (hm' : ∀ k : ℕ, 1 ≤ k → k < N → H k (t0 + (k + 1) * dt) = H (k + 1) (t0 + (k + 1) * dt)) (t : ℝ) (ht : t0 + dt < t)
    (htN : cell t0 dt t ≤ N) :
    HasDerivAt (fun s => G (cell t0 dt s) s) (H (cell t0 dt t) t) t := by
  obtain ⟨k, hk, hc, h | ⟨hk2, hts, hl, hr⟩⟩ := cell_cases hdt ht
  · rw [hc]
    refine (hG k hk t).congr_of_eventuallyEq ?_
    filter_upwards [h] with s hs
    rw [hs]
  · rw [hc]
    obtain ⟨j, rfl⟩ : ∃ j, k = j + 1 := ⟨k - 1, by omega⟩
    have hj : 1 ≤ j := by omega
    have hjN : j < N := by omega
    have hcast : t = t0 + (j + 1) * dt := by rw [hts]; push_cast; ring
    refine glue_deriv (f := G j) (g := G (j + 1)) ?_ ?_ ?_ ?_ (hG (j + 1) (by omega) t)
    · filter_upwards [hl] with s hs
      rw [hs]; simp
    · filter_upwards [hr] with s hs
      rw [hs]
    · rw [hcast]; exact hm j hj hjN
    · rw [hcast, ← hm' j hj hjN]
      exact hG j hj _

theorem glue_all_cont {E : Type} [TopologicalSpace E] {G : ℕ → ℝ → E} {t0 dt : ℝ} {N : ℕ} (hdt : 0 < dt)
    (hG : ∀ k, 1 ≤ k → Continuous (G k))
    (hm : ∀ k : ℕ, 1 ≤ k → k < N → G k (t0 + (k + 1) * dt) = G (k + 1) (t0 + (k + 1) * dt)) (t : ℝ) (ht : t0 + dt < t)
    (htN : cell t0 dt t ≤ N) :
    ContinuousAt (fun s => G (cell t0 dt s) s) t := by
  obtain ⟨k, hk, hc, h | ⟨hk2, hts, hl, hr⟩⟩ := cell_cases hdt ht
  · refine ((hG k hk).continuousAt).congr ?_
    filter_upwards [h] with s hs
    rw [hs]
  · obtain ⟨j, rfl⟩ : ∃ j, k = j + 1 := ⟨k - 1, by omega⟩
    have hj : 1 ≤ j := by omega
    have hjN : j < N := by omega
    have hcast : t = t0 + (j + 1) * dt := by rw [hts]; push_cast; ring
    refine glue_cont (f := G j) (g := G (j + 1)) ?_ ?_ ?_ (hG j hj).continuousAt (hG (j + 1) (by omega)).continuousAt
    · filter_upwards [hl] with s hs
      rw [hs]; simp
    · filter_upwards [hr] with s hs
      rw [hs]
    · rw [hcast]; exact hm j hj hjN

end Calculus

end Verif
