import Mathlib.Analysis.SpecialFunctions.Trigonometric.Bounds
import Verif.Props.PoseTrack
import Verif.Props.Datasets
import Verif.Props.WorldFrame

/-!
C113: inertial navigation on perfect data.
-/

set_option linter.unusedSectionVars false
set_option linter.unusedVariables false

namespace Verif

open Matrix NormedSpace

/-! ### Trajectories that follow the model between given times -/

section General

variable {V U : Type} {n : ℕ}

/-- Specification: as `Follows`, but only for steps between times of the set `S`. -/
def FollowsAt (P : ProcModel V U n) (W : ℝ → V) (S : Set ℝ) : ℝ → List (StInp U) → Prop
  | τ, u :: u' :: us =>
    (∀ s ∈ S, ∀ t ∈ S, τ ≤ s → s ≤ t → t ≤ u'.stamp → (P.evaluate ⟨W s, some s⟩ ⟨u.value, some u.stamp⟩ (t - s)).value = W t) ∧
      FollowsAt P W S u'.stamp (u' :: us)
  | _, _ => True

theorem sound_corrects_at {P : ProcModel V U n} {W : ℝ → V} {S : Set ℝ} {okY : StMeas V n → Prop} (u : StInp U)
    (es : List (Ev (StInp U) (StMeas V n))) (T : ℝ) :
    ∀ (ys : List (StMeas V n)) (τ : ℝ), τ ∈ S → (∀ y ∈ ys, y.stamp ∈ S) →
      (∀ y ∈ ys, τ ≤ y.stamp ∧ y.stamp ≤ T ∧ okY y ∧ Distinguishable y.stamp τ) →
      ys.Pairwise (fun a c => a.stamp ≤ c.stamp) → (∀ y ∈ ys, ∀ z ∈ ys, Distinguishable y.stamp z.stamp) →
      (∀ s ∈ S, ∀ t ∈ S, τ ≤ s → s ≤ t → t ≤ T → (P.evaluate ⟨W s, some s⟩ ⟨u.value, some u.stamp⟩ (t - s)).value = W t) →
      (∀ τ', (τ' = τ ∨ ∃ y ∈ ys, τ' = y.stamp) → Sound P W okY τ' es) →
      Sound P W okY τ (ys.map (fun y => Ev.correct y u) ++ es)
  | [], τ, _, _, _, _, _, _, h => h τ (.inl rfl)
  | y :: ys, τ, hτ, hS, hy, hs, hd, hW, h => by
    obtain ⟨h1, h1', h2, h3⟩ := hy y (by simp)
    refine ⟨far h3 h1, hW τ hτ y.stamp (hS y (by simp)) (le_refl _) h1 h1', h2, ?_⟩
    refine sound_corrects_at u es T ys y.stamp (hS y (by simp)) (fun z hz => hS z (by simp [hz]))
      (fun z hz => ⟨(List.pairwise_cons.mp hs).1 z hz, (hy z (by simp [hz])).2.1,
        (hy z (by simp [hz])).2.2.1, hd z (by simp [hz]) y (by simp)⟩)
      (List.pairwise_cons.mp hs).2 (fun a ha c hc => hd a (by simp [ha]) c (by simp [hc]))
      (fun s hsS t htS hs hst ht => hW s hsS t htS (le_trans h1 hs) hst ht) (fun τ' ht => h τ' ?_)
    rcases ht with rfl | ⟨z, hz, rfl⟩
    · exact .inr ⟨y, by simp, rfl⟩
    · exact .inr ⟨z, by simp [hz], rfl⟩

theorem sound_schedule_at {P : ProcModel V U n} {W : ℝ → V} {S : Set ℝ} {okY : StMeas V n → Prop} {meas : List (StMeas V n)}
    (hl : ∀ y ∈ meas, okY y) (hS : ∀ y ∈ meas, y.stamp ∈ S)
    (hm : meas.Pairwise (fun a c => a.stamp ≤ c.stamp)) (hd : ∀ y ∈ meas, ∀ z ∈ meas, Distinguishable y.stamp z.stamp) :
    ∀ (us : List (StInp U)) (u : StInp U) (τ : ℝ) (first : Bool), τ ∈ S → (∀ v ∈ u :: us, v.stamp ∈ S) → τ ≤ u.stamp →
      (∀ y ∈ meas, Distinguishable y.stamp τ) →
      (first = true → ∀ y ∈ meas, τ ≤ y.stamp) → (u :: us).Pairwise (fun a c => a.stamp ≤ c.stamp) →
      (∀ v ∈ u :: us, ∀ y ∈ meas, Distinguishable y.stamp v.stamp) → FollowsAt P W S τ (u :: us) →
      Sound P W okY τ (schedule StInp.stamp StMeas.stamp first (u :: us) meas)
  | [], u, τ, first, hτ, hv, h1, h0, h2, h3, h4, h5 => trivial
  | u' :: us, u, τ, first, hτ, hv, h1, h0, h2, h3, h4, h5 => by
    have huu : u.stamp ≤ u'.stamp := (List.pairwise_cons.mp h3).1 u' (by simp)
    unfold schedule
    rw [List.append_assoc]
    refine sound_corrects_at u _ u'.stamp _ τ hτ (fun y hy => hS y (List.mem_filter.mp hy).1) (fun y hy => ?_) (hm.filter _)
      (fun y hy z hz => hd y (List.mem_filter.mp hy).1 z (List.mem_filter.mp hz).1) h5.1 (fun τ' ht => ?_)
    · obtain ⟨hy1, hy2⟩ := List.mem_filter.mp hy
      simp only [decide_eq_true_eq] at hy2
      refine ⟨?_, hy2.2.le, hl y hy1, h0 y hy1⟩
      rcases hy2.1 with hf | hf
      · exact h2 hf y hy1
      · exact le_trans h1 hf
    · have hlt : (τ ≤ τ' ∧ τ' ≤ u'.stamp) ∧ τ' ∈ S := by
        rcases ht with rfl | ⟨y, hy, rfl⟩
        · exact ⟨⟨le_refl _, by linarith⟩, hτ⟩
        · have hy2 := (List.mem_filter.mp hy).2
          simp only [decide_eq_true_eq] at hy2
          refine ⟨⟨?_, hy2.2.le⟩, hS y (List.mem_filter.mp hy).1⟩
          rcases hy2.1 with hf | hf
          · exact h2 hf y (List.mem_filter.mp hy).1
          · exact le_trans h1 hf
      have hu' : u'.stamp ∈ S := hv u' (by simp)
      exact ⟨hlt.1.2, h5.1 τ' hlt.2 _ hu' hlt.1.1 hlt.1.2 (le_refl _), sound_schedule_at hl hS hm hd us u' u'.stamp false hu'
        (fun v h => hv v (by simp at h; simp [h])) (le_refl _) (h4 u' (by simp))
        (fun h => (by cases h)) (List.pairwise_cons.mp h3).2 (fun v hv => h4 v (by simp at hv; simp [hv])) h5.2⟩

/-- The times of a run: the stamp of the initial estimate and those of the logs. -/
def logStamps (t0 : ℝ) (ins : List (StInp U)) (meas : List (StMeas V n)) : Set ℝ :=
  { s | s ∈ t0 :: (ins.map StInp.stamp ++ meas.map StMeas.stamp) }

/-- `PerfectLog`, with the model asked to follow the trajectory only between times of the run. -/
structure PerfectLogAt (P : ProcModel V U n) (W : ℝ → V) (t0 : ℝ) (ins : List (StInp U)) (meas : List (StMeas V n)) : Prop where
  ins_fresh : ins = [] ∨ ∃ u ∈ ins, t0 ≤ u.stamp
  meas_fresh : meas = [] ∨ ∃ y ∈ meas, t0 ≤ y.stamp
  follows : FollowsAt P W (logStamps t0 ins meas) t0 (retained StInp.stamp t0 ins)
  perfect : ∀ y ∈ meas, t0 ≤ y.stamp → Perfect W y
  apart : ∀ y ∈ meas, ∀ s ∈ t0 :: (ins.map StInp.stamp ++ meas.map StMeas.stamp), Distinguishable y.stamp s

theorem PerfectLogAt.sound {P : ProcModel V U n} {W : ℝ → V} {t0 : ℝ} {ins : List (StInp U)} {meas : List (StMeas V n)}
    (h : PerfectLogAt P W t0 ins meas) :
    Sound P W (fun y => Perfect W y ∧ y ∈ meas) t0
      (schedule StInp.stamp StMeas.stamp true (retained StInp.stamp t0 ins) (retained StMeas.stamp t0 meas)) := by
  have hr1 : ∀ u ∈ retained StInp.stamp t0 ins, t0 ≤ u.stamp ∧ u ∈ ins := by
    intro u hu
    unfold retained at hu
    obtain ⟨h1, h2⟩ := List.mem_filter.mp hu
    exact ⟨by simpa using h2, (sortByStamp_mem _).mp h1⟩
  have hr2 : ∀ y ∈ retained StMeas.stamp t0 meas, t0 ≤ y.stamp ∧ y ∈ meas := by
    intro u hu
    unfold retained at hu
    obtain ⟨h1, h2⟩ := List.mem_filter.mp hu
    exact ⟨by simpa using h2, (sortByStamp_mem _).mp h1⟩
  have hs1 : (retained StInp.stamp t0 ins).Pairwise (fun a c => a.stamp ≤ c.stamp) := (sortByStamp_sorted _ _).filter _ _
  have hs2 : (retained StMeas.stamp t0 meas).Pairwise (fun a c => a.stamp ≤ c.stamp) := (sortByStamp_sorted _ _).filter _ _
  have hm1 : ∀ z ∈ meas, z.stamp ∈ t0 :: (ins.map StInp.stamp ++ meas.map StMeas.stamp) := by
    intro z hz
    simp only [List.mem_cons, List.mem_append, List.mem_map]
    exact .inr (.inr ⟨z, hz, rfl⟩)
  have hm2 : ∀ z ∈ ins, z.stamp ∈ t0 :: (ins.map StInp.stamp ++ meas.map StMeas.stamp) := by
    intro z hz
    simp only [List.mem_cons, List.mem_append, List.mem_map]
    exact .inr (.inl ⟨z, hz, rfl⟩)
  have hf := h.follows
  cases hc : retained StInp.stamp t0 ins with
  | nil => exact trivial
  | cons u us =>
    rw [hc] at hs1 hr1 hf
    exact sound_schedule_at (S := logStamps t0 ins meas)
      (fun y hy => ⟨h.perfect y (hr2 y hy).2 (hr2 y hy).1, (hr2 y hy).2⟩) (fun y hy => hm1 y (hr2 y hy).2) hs2
      (fun y hy z hz => h.apart y (hr2 y hy).2 _ (hm1 z (hr2 z hz).2)) us u t0 true
      (show t0 ∈ t0 :: _ by simp) (fun v hv => hm2 v (hr1 v hv).2)
      (hr1 u (by simp)).1 (fun y hy => h.apart y (hr2 y hy).2 _ (by simp)) (fun _ y hy => (hr2 y hy).1) hs1
      (fun v hv y hy => h.apart y (hr2 y hy).2 _ (hm2 v (hr1 v hv).2)) hf

theorem ekf_on_log (e : EkfEnv V U n) (h0 : ∀ v, e.plus v 0 = v) (hQ : ∀ x u dt, 0 ≤ dt → (e.proc.covariance x u dt).PosSemidef)
    (W : ℝ → V) (t0 : ℝ) (x0 : SWC V n) (hx : x0.state = ⟨W t0, some t0⟩) (hP : x0.cov.PosSemidef)
    (ins : List (StInp U)) (meas : List (StMeas V n)) (hlog : PerfectLogAt e.proc W t0 ins meas)
    (hR : ∀ y ∈ meas, ∀ s, (y.meas.model.covariance s).PosDef) :
    ∃ rs, runFilter (ekfApi e) x0 ins meas = .ok rs ∧ ∀ r ∈ rs, ∃ τ, r.state = ⟨W τ, some τ⟩ ∧ r.cov.PosSemidef := by
  rw [C21_run_filter_schedule (ekfApi e) x0 t0 (by show x0.state.stamp = _; rw [hx]) ins meas hlog.ins_fresh hlog.meas_fresh]
  refine exec_sound (P := e.proc) (W := W) (okY := fun y => Perfect W y ∧ y ∈ meas) (f := ekfApi e)
    (fun τ x => x.state = ⟨W τ, some τ⟩ ∧ x.cov.PosSemidef) ?_ ?_ _ t0 x0 ⟨hx, hP⟩ hlog.sound
  · rintro τ t u x ⟨h1, h2⟩ ht hW
    obtain ⟨z, k1, k2, k3⟩ := ekf_predict_on hQ ⟨u.value, some u.stamp⟩ h1 h2 ht hW
    refine ⟨z, ?_, k2, k3⟩
    unfold predictTo
    rw [show (ekfApi e).xstamp x = some τ by show x.state.stamp = _; rw [h1]]
    exact k1
  · rintro τ u y x ⟨h1, h2⟩ hy hW ⟨hpf, hmem⟩
    rcases hy with hy | hy
    · subst hy
      obtain ⟨z, k1, k2, k3⟩ := ekf_fuse_on h0 h1 h2 hpf (hR y hmem) (some ⟨u.value, some u.stamp⟩)
      exact ⟨z, k1, k2, k3⟩
    · have hp : (0 : ℝ) < 1 / 10 ^ 11 := by positivity
      obtain ⟨x1, k1, k2, k3⟩ := ekf_predict_on hQ ⟨u.value, some u.stamp⟩ h1 h2 (by linarith) hW
      obtain ⟨z, k4, k5, k6⟩ := ekf_fuse_on h0 k2 k3 hpf (hR y hmem) (none : Option (Inp U))
      refine ⟨z, ?_, k5, k6⟩
      show e.correct x y.meas (some ⟨u.value, some u.stamp⟩) none none = _
      rw [C02_correct_eq_predict_then_correct e x y.meas ⟨u.value, some u.stamp⟩ none none τ y.stamp (by rw [h1]) y.hstamp hy, k1]
      exact k4

theorem iterated_on_log (f : IekfEnv V U n) (h0 : ∀ v, f.plus v 0 = v) (hmm : ∀ v, f.minus v v = 0) (lsFuel : ℕ)
    (W : ℝ → V) (t0 : ℝ) (x0 : SWC V n) (hx : x0.state = ⟨W t0, some t0⟩)
    (ins : List (StInp U)) (meas : List (StMeas V n)) (hlog : PerfectLogAt f.proc W t0 ins meas) (rs : List (SWC V n))
    (hrun : runFilter (iekfApi f lsFuel) x0 ins meas = .ok rs) : ∀ r ∈ rs, ∃ τ, r.state = ⟨W τ, some τ⟩ := by
  rw [C21_run_filter_schedule (iekfApi f lsFuel) x0 t0 (by show x0.state.stamp = _; rw [hx]) ins meas hlog.ins_fresh
    hlog.meas_fresh] at hrun
  have hpred : ∀ (τ t : ℝ) (u : Inp U) (x z : SWC V n), x.state = ⟨W τ, some τ⟩ → τ ≤ t →
      (f.proc.evaluate ⟨W τ, some τ⟩ u (t - τ)).value = W t → f.predict x (some u) (some (t - τ)) none = .ok z →
      z.state = ⟨W t, some t⟩ := by
    intro τ t u x z h1 ht hW h
    rw [predict_some_some f.toEkfEnv x u τ (t - τ) none (by rw [h1]) (by linarith)] at h
    cases h
    unfold EkfEnv.propagate
    simp only
    rw [h1, show τ + (t - τ) = t by ring, hW]
  refine exec_sound_of_ok (P := f.proc) (W := W) (okY := fun y => Perfect W y ∧ y ∈ meas) (f := iekfApi f lsFuel)
    (fun τ x => x.state = ⟨W τ, some τ⟩) ?_ ?_ _ t0 x0 rs hx hlog.sound hrun
  · intro τ t u x z h1 ht hW h
    unfold predictTo at h
    rw [show (iekfApi f lsFuel).xstamp x = some τ by show x.state.stamp = _; rw [h1]] at h
    exact hpred τ t ⟨u.value, some u.stamp⟩ x z h1 ht hW h
  · rintro τ u y x z h1 hy hW ⟨hpf, -⟩ h
    have h : f.correctI lsFuel x y.meas (some ⟨u.value, some u.stamp⟩) none none = .ok z := h
    unfold IekfEnv.correctI at h
    cases hc : f.correctT lsFuel x y.meas (some ⟨u.value, some u.stamp⟩) none none with
    | error e => rw [hc] at h; cases h
    | ok r =>
      rw [hc] at h
      cases h
      unfold IekfEnv.correctT at hc
      obtain ⟨xp, ha, hc⟩ := bind_ok hc
      have hxp : xp.state = ⟨W y.stamp, some y.stamp⟩ := by
        unfold IekfEnv.advanceI at ha
        simp only [h1, y.hstamp] at ha
        split at ha
        · cases ha
        · split at ha
          · rename_i hd
            exact hpred τ y.stamp ⟨u.value, some u.stamp⟩ x xp h1 (by linarith) hW ha
          · cases ha
            rcases hy with hy | hy
            · rw [h1, hy]
            · have : (0 : ℝ) < 1 / 10 ^ 11 := by positivity
              linarith
      have := iekf_fuse_on f h0 hmm lsFuel (by rw [hxp]; exact hpf) hc
      show r.1.state = _
      rw [this, hxp]

end General

/-! ### The truth -/

/-- Specification: on `[a, b]` the vehicle moves by the kinematics of an IMU with the reading `u`, the bias of the state being
removed: `Ċ = C (ω - b_g)^∧`, `v̇ = C (f - b_a) + g`, `ṙ = v`, with one-sided derivatives at the ends; the biases stay as they are. -/
structure ImuMoves (g : Vec 3) (T : ℝ → NavBias) (u : ImuVal) (a b : ℝ) : Prop where
  att : ∀ t ∈ Set.Icc a b, ∀ i j, HasDerivWithinAt (fun s => EPose.rot (T s).pose.1 i j)
    ((EPose.rot (T t).pose.1 * skew (u 0 - (T t).bg)) i j) (Set.Icc a b) t
  vel : ∀ t ∈ Set.Icc a b, ∀ i, HasDerivWithinAt (fun s => EPose.colA (T s).pose.1 i)
    ((EPose.rot (T t).pose.1 *ᵥ (u 1 - (T t).ba) + g) i) (Set.Icc a b) t
  pos : ∀ t ∈ Set.Icc a b, ∀ i, HasDerivWithinAt (fun s => EPose.colB (T s).pose.1 i) (EPose.colA (T t).pose.1 i) (Set.Icc a b) t
  bg : ∀ s ∈ Set.Icc a b, ∀ t ∈ Set.Icc a b, (T s).bg = (T t).bg
  ba : ∀ s ∈ Set.Icc a b, ∀ t ∈ Set.Icc a b, (T s).ba = (T t).ba
  walk : u 2 = 0 ∧ u 3 = 0

theorem two_sided {ι : Type} [Fintype ι] [DecidableEq ι] (A M : Matrix ι ι ℝ) {T : ℝ → Matrix ι ι ℝ} {a b : ℝ}
    (hT : ∀ t ∈ Set.Icc a b, ∀ i j, HasDerivWithinAt (fun s => T s i j) ((A * T t + T t * M) i j) (Set.Icc a b) t) {s t : ℝ}
    (hs : a ≤ s) (hst : s ≤ t) (ht : t ≤ b) : exp ((t - s) • A) * T s * exp ((t - s) • M) = T t := by
  have k1 : ∀ i j, ∀ x ∈ Set.Icc a b, HasDerivWithinAt (fun r => (T r * exp (r • -M)) i j) ((A * (T x * exp (x • -M))) i j) (Set.Icc a b) x := by
    intro i j x hx
    have h1 : HasDerivWithinAt (fun r => ∑ k, T r i k * exp (r • -M) k j)
        (∑ k, ((A * T x + T x * M) i k * exp (x • -M) k j + T x i k * (-M * exp (x • -M)) k j)) (Set.Icc a b) x :=
      HasDerivWithinAt.fun_sum fun k _ => (hT x hx i k).mul ((hasMatDeriv_exp' (-M) x k j).hasDerivWithinAt)
    have h2 : (∑ k, ((A * T x + T x * M) i k * exp (x • -M) k j + T x i k * (-M * exp (x • -M)) k j)) = (A * (T x * exp (x • -M))) i j := by
      rw [Finset.sum_add_distrib, ← Matrix.mul_apply, ← Matrix.mul_apply, ← Matrix.add_apply]
      congr 1
      congr 1
      rw [Matrix.add_mul, Matrix.neg_mul, Matrix.mul_neg, Matrix.mul_assoc, Matrix.mul_assoc, add_assoc, add_neg_cancel, add_zero]
    rw [h2] at h1
    exact h1
  have key : ∀ i j, ∀ x ∈ Set.Icc a b, HasDerivWithinAt (fun r => (exp (r • -A) * (T r * exp (r • -M))) i j) 0 (Set.Icc a b) x := by
    intro i j x hx
    have h1 : HasDerivWithinAt (fun r => ∑ k, exp (r • -A) i k * (T r * exp (r • -M)) k j)
        (∑ k, ((exp (x • -A) * -A) i k * (T x * exp (x • -M)) k j + exp (x • -A) i k * (A * (T x * exp (x • -M))) k j)) (Set.Icc a b) x :=
      HasDerivWithinAt.fun_sum fun k _ => ((hasMatDeriv_exp (-A) x i k).hasDerivWithinAt).mul (k1 k j x hx)
    have h2 : (∑ k, ((exp (x • -A) * -A) i k * (T x * exp (x • -M)) k j + exp (x • -A) i k * (A * (T x * exp (x • -M))) k j)) = 0 := by
      rw [Finset.sum_add_distrib, ← Matrix.mul_apply, ← Matrix.mul_apply, ← Matrix.add_apply, Matrix.mul_neg, Matrix.neg_mul,
        Matrix.mul_assoc, neg_add_cancel]
      rfl
    rw [h2] at h1
    exact h1
  have hc : ∀ x ∈ Set.Icc a b, exp (x • -A) * (T x * exp (x • -M)) = exp (a • -A) * (T a * exp (a • -M)) := by
    intro x hx
    ext i j
    refine constant_of_has_deriv_right_zero (f := fun r => (exp (r • -A) * (T r * exp (r • -M))) i j) (a := a) (b := b)
      (fun r hr => (key i j r hr).continuousWithinAt) (fun r hr => ?_) x hx
    exact (key i j r ⟨hr.1, hr.2.le⟩).mono_of_mem_nhdsWithin (Icc_mem_nhdsGE_of_mem hr)
  have hb : exp (s • -A) * (T s * exp (s • -M)) = exp (t • -A) * (T t * exp (t • -M)) :=
    (hc s ⟨hs, hst.trans ht⟩).trans (hc t ⟨hs.trans hst, ht⟩).symm
  have e1 : exp ((t - s) • M) = exp (s • -M) * exp (t • M) := by
    rw [← Matrix.exp_add_of_commute _ _ (((Commute.refl M).neg_left.smul_left s).smul_right t)]
    congr 1
    rw [sub_smul, smul_neg]
    abel
  have e2 : exp ((t - s) • A) = exp (t • A) * exp (s • -A) := by
    rw [← Matrix.exp_add_of_commute _ _ (((Commute.refl A).neg_right.smul_left t).smul_right s)]
    congr 1
    rw [sub_smul, smul_neg]
    abel
  have e3 : exp (t • A) * exp (t • -A) = 1 := by
    have := exp_inv (-A) t
    rwa [neg_neg] at this
  calc exp ((t - s) • A) * T s * exp ((t - s) • M)
      = exp (t • A) * (exp (s • -A) * (T s * exp (s • -M))) * exp (t • M) := by rw [e1, e2]; simp only [mul_assoc]
    _ = (exp (t • A) * exp (t • -A)) * T t * (exp (t • -M) * exp (t • M)) := by rw [hb]; simp only [mul_assoc]
    _ = T t := by rw [e3, exp_inv, one_mul, mul_one]

theorem se23_shape {X : EPose} (h : IsSE23 X) : X = mkIE X.rot X.colA X.colB 0 := by
  obtain ⟨R, v, r, -, rfl⟩ := h
  simp only [mkIE_rot, mkIE_colA, mkIE_colB]

/-- The matrix equation `Ṫ = G T + T M` of the kinematics. -/
theorem imu_generator (om acc g : Vec 3) (X : EPose) (h : IsSE23 X) :
    ieGen 0 g 0 (-1) * X + X * ieGen (skew om) acc 0 1 = fromBlocks (X.rot * skew om) (cols (X.rot *ᵥ acc + g) X.colA) 0 0 := by
  conv_lhs => rw [se23_shape h]
  unfold ieGen
  rw [mkIE_eq, fromBlocks_multiply, fromBlocks_multiply, fromBlocks_add, mul_cols, cols_mul, mul_cols, cols_mul, cols_add,
    cols_add, cols_add]
  congr 1
  · simp
  · simp [add_comm]
  · simp
  · ext i j; fin_cases i <;> fin_cases j <;> simp [Matrix.mul_apply, Fin.sum_univ_two]

/-- On an interval of constant reading, one step of the model over any part of it with an admissible angle is exact. -/
theorem imuMoves_step (tol : ℝ) (htol : 0 < tol) (g : Vec 3) (dir : Dir) (Q : Blk 4 4) {T : ℝ → NavBias} {u : ImuVal} {a b : ℝ}
    (hT : ImuMoves g T u a b) {s t : ℝ} (hs : a ≤ s) (hst : s ≤ t) (ht : t ≤ b) (hok : AngleOk tol (u 0 - (T s).bg) (t - s))
    (us : Option ℝ) : ((imuProc tol g dir Q).evaluate ⟨T s, some s⟩ ⟨u, us⟩ (t - s)).value = T t := by
  have hsI : s ∈ Set.Icc a b := ⟨hs, hst.trans ht⟩
  have htI : t ∈ Set.Icc a b := ⟨hs.trans hst, ht⟩
  have hm : gMatrix g (t - s) * (T s).pose.1 * uMatrix tol (u 0 - (T s).bg) (u 1 - (T s).ba) (t - s) = (T t).pose.1 := by
    rw [(C60_input tol htol _ _).1 _ hok, gMatrix_exp]
    refine two_sided (T := fun r => (T r).pose.1) _ _ (a := a) (b := b) (fun x hx i j => ?_) hs hst ht
    rw [imu_generator _ _ _ _ (T x).pose.2, hT.bg s hsI x hx, hT.ba s hsI x hx]
    have hsh : ∀ r, (T r).pose.1 = mkIE (EPose.rot (T r).pose.1) (EPose.colA (T r).pose.1) (EPose.colB (T r).pose.1) 0 :=
      fun r => se23_shape (T r).pose.2
    have hfun : (fun r => (T r).pose.1 i j) =
        fun r => (mkIE (EPose.rot (T r).pose.1) (EPose.colA (T r).pose.1) (EPose.colB (T r).pose.1) 0 : EPose) i j := by
      funext r
      exact congrFun (congrFun (hsh r) i) j
    rw [hfun]
    rcases i with i | i <;> rcases j with j | j
    · exact hT.att x hx i j
    · fin_cases j
      · exact hT.vel x hx i
      · exact hT.pos x hx i
    · exact hasDerivWithinAt_const _ _ _
    · exact hasDerivWithinAt_const _ _ _
  show NavBias.mk ⟨gMatrix g (t - s) * (T s).pose.1 * uMatrix tol (u 0 - (T s).bg) (u 1 - (T s).ba) (t - s), _⟩
    ((T s).bg + (t - s) • u 2) ((T s).ba + (t - s) • u 3) = T t
  have h1 := hT.bg s hsI t htI
  have h2 := hT.ba s hsI t htI
  simp only [hm, hT.walk.1, hT.walk.2, smul_zero, add_zero]
  have hx : ∀ (x : NavBias) (p : {X : EPose // IsSE23 X}) (b c : Vec 3), p.1 = x.pose.1 → b = x.bg → c = x.ba → NavBias.mk p b c = x := by
    rintro ⟨⟨X, hX⟩, b', c'⟩ ⟨Y, hY⟩ b c rfl rfl rfl
    rfl
  exact hx _ _ _ _ rfl h1 h2

/-! ### The runs -/

/-- Specification: each reading is that of the motion from its stamp (the first from `τ`) to the stamp of the next one, and
between times of `S` in that interval the vehicle does not turn or turns by at least `tol`. -/
def ImuDrives (tol : ℝ) (g : Vec 3) (T : ℝ → NavBias) (S : Set ℝ) : ℝ → List (StInp ImuVal) → Prop
  | τ, u :: u' :: us => ImuMoves g T u.value τ u'.stamp ∧
      (∀ s ∈ S, ∀ t ∈ S, τ ≤ s → s ≤ t → t ≤ u'.stamp → AngleOk tol (u.value 0 - (T s).bg) (t - s)) ∧
      ImuDrives tol g T S u'.stamp (u' :: us)
  | _, _ => True

/-- Specification: what the logs have to satisfy: some entry of each non-empty log is not older than the initial estimate;
the readings used are those of the motion; every measurement used has the value of its model at the true state (or the
model produces none); stamps are equal or more than 1e-11 apart. -/
structure ImuLog (tol : ℝ) (g : Vec 3) (T : ℝ → NavBias) (t0 : ℝ) (ins : List (StInp ImuVal)) (meas : List (StMeas NavBias 15)) :
    Prop where
  ins_fresh : ins = [] ∨ ∃ u ∈ ins, t0 ≤ u.stamp
  meas_fresh : meas = [] ∨ ∃ y ∈ meas, t0 ≤ y.stamp
  drives : ImuDrives tol g T (logStamps t0 ins meas) t0 (retained StInp.stamp t0 ins)
  perfect : ∀ y ∈ meas, t0 ≤ y.stamp → Perfect T y
  apart : ∀ y ∈ meas, ∀ s ∈ t0 :: (ins.map StInp.stamp ++ meas.map StMeas.stamp), Distinguishable y.stamp s

theorem imuDrives_follows (tol : ℝ) (htol : 0 < tol) (g : Vec 3) (dir : Dir) (Q : Blk 4 4) {T : ℝ → NavBias} {S : Set ℝ} :
    ∀ (us : List (StInp ImuVal)) (τ : ℝ), ImuDrives tol g T S τ us → FollowsAt (imuProc tol g dir Q) T S τ us
  | [], τ, hd => trivial
  | [u], τ, hd => trivial
  | u :: u' :: us, τ, hd =>
    ⟨fun s hs t ht h1 h2 h3 => imuMoves_step tol htol g dir Q hd.1 h1 h2 h3 (hd.2.1 s hs t ht h1 h2 h3) _,
      imuDrives_follows tol htol g dir Q (u' :: us) _ hd.2.2⟩

theorem ImuLog.perfectLogAt {tol : ℝ} (htol : 0 < tol) {g : Vec 3} (dir : Dir) (Q : Blk 4 4) {T : ℝ → NavBias} {t0 : ℝ}
    {ins : List (StInp ImuVal)} {meas : List (StMeas NavBias 15)} (hl : ImuLog tol g T t0 ins meas) :
    PerfectLogAt (imuProc tol g dir Q) T t0 ins meas :=
  ⟨hl.ins_fresh, hl.meas_fresh, imuDrives_follows tol htol g dir Q _ _ hl.drives, hl.perfect, hl.apart⟩

theorem navBias_plus_zero (dir : Dir) (v : NavBias) : v.plus dir 0 = v := by
  obtain ⟨⟨X, hX⟩, bg, ba⟩ := v
  have hz : (![fun p => (0 : Vec 15) (imuEqv (0, p)), fun p => (0 : Vec 15) (imuEqv (1, p)), fun p => (0 : Vec 15) (imuEqv (2, p))] :
      Fin 3 → Vec 3) = fun _ => 0 := by
    funext i p
    fin_cases i <;> rfl
  have hp : ((NavBias.toSt ⟨⟨X, hX⟩, bg, ba⟩ dir none).plus fun i p => (0 : Vec 15) (imuEqv (i, p))).pose = X := by
    show (ImuSt.plusNav ⟨X, some (bg, ba), dir, none⟩ _).pose = X
    rw [hz]
    cases dir
    · exact (congrArg (X * ·) se23Exp_zero).trans (mul_one _)
    · exact (congrArg (· * X) se23Exp_zero).trans (one_mul _)
  show NavBias.mk ⟨_, _⟩ _ _ = _
  have hb : ∀ (i : Fin 5) (b : Vec 3), (b + fun p => (0 : Vec 15) (imuEqv (i, p))) = b := fun i b => add_zero b
  simp only [hp, hb]

theorem imuProc_psd (tol : ℝ) (g : Vec 3) (dir : Dir) (Q : Blk 4 4) (hQ : Q.flat.PosSemidef) (x : St NavBias) (u : Inp ImuVal) (dt : ℝ) :
    ((imuProc tol g dir Q).covariance x u dt).PosSemidef := by
  obtain ⟨P, hP⟩ := imuCovariance_some tol g Q x.value dir x.stamp u.value u.stamp dt
  show (numbered imuEqv (((imuCovariance tol g Q (x.value.toSt dir x.stamp) (imuObj u.value u.stamp) dt).toOption.getD 0).flat)).PosSemidef
  rw [hP]
  exact numbered_psd imuEqv (C76_covariance_psd tol _ Q hQ _ _ dt P hP)

/-- **C113, the EKF.** A vehicle moves by the continuous-time kinematics of an IMU, with constant biases and readings held from
stamp to stamp (no step turning by an angle above zero and below the library's tolerance). Initialised at the true navigation
state and biases, and given the readings and perfect measurements of any kind, `run_filter` with an EKF raises nothing and every
estimate it returns is the true navigation state with the true biases at its stamp. -/
theorem C113_ekf (tol : ℝ) (htol : 0 < tol) (g : Vec 3) (dir : Dir) (Q : Blk 4 4) (hQ : Q.flat.PosSemidef) (rej : Bool) (chi : ℕ → ℝ)
    (T : ℝ → NavBias) (t0 : ℝ) (P0 : Mat 15 15) (hP : P0.PosSemidef) (ins : List (StInp ImuVal)) (meas : List (StMeas NavBias 15))
    (hlog : ImuLog tol g T t0 ins meas) (hR : ∀ y ∈ meas, ∀ s, (y.meas.model.covariance s).PosDef) :
    ∃ rs, runFilter (ekfApi (imuEkf tol g dir Q rej chi)) ⟨⟨T t0, some t0⟩, P0⟩ ins meas = .ok rs ∧
      ∀ r ∈ rs, ∃ τ, r.state = ⟨T τ, some τ⟩ ∧ r.cov.PosSemidef :=
  ekf_on_log (imuEkf tol g dir Q rej chi) (navBias_plus_zero dir) (fun x u dt _ => imuProc_psd tol g dir Q hQ x u dt) T t0
    ⟨⟨T t0, some t0⟩, P0⟩ rfl hP ins meas (hlog.perfectLogAt htol dir Q) hR

/-- **C113, the iterated filter.** The same for the iterated filter, with any difference of states that is zero between equal
ones, whenever `run_filter` returns. -/
theorem C113_iterated (tol : ℝ) (htol : 0 < tol) (g : Vec 3) (dir : Dir) (Q : Blk 4 4) (f : IekfEnv NavBias ImuVal 15)
    (hproc : f.proc = imuProc tol g dir Q) (hplus : f.plus = NavBias.plus dir) (hmm : ∀ v, f.minus v v = 0) (lsFuel : ℕ)
    (T : ℝ → NavBias) (t0 : ℝ) (P0 : Mat 15 15) (ins : List (StInp ImuVal)) (meas : List (StMeas NavBias 15))
    (hlog : ImuLog tol g T t0 ins meas) (rs : List (SWC NavBias 15))
    (hrun : runFilter (iekfApi f lsFuel) ⟨⟨T t0, some t0⟩, P0⟩ ins meas = .ok rs) : ∀ r ∈ rs, ∃ τ, r.state = ⟨T τ, some τ⟩ := by
  refine iterated_on_log f (fun v => by rw [hplus]; exact navBias_plus_zero dir v) hmm lsFuel T t0 ⟨⟨T t0, some t0⟩, P0⟩ rfl ins meas ?_ rs hrun
  rw [hproc]
  exact hlog.perfectLogAt htol dir Q

/-! ### Such motions exist -/

theorem exists_tol (om : Vec 3) (dt : ℝ) : ∃ tol, 0 < tol ∧ AngleOk tol om dt := by
  by_cases h : dt • om = 0
  · exact ⟨1, one_pos, .inl h⟩
  · refine ⟨npNorm (dt • om), ?_, .inr le_rfl⟩
    rcases (show 0 ≤ npNorm (dt • om) from Real.sqrt_nonneg _).lt_or_eq with h1 | h1
    · exact h1
    · exact absurd (npNorm_eq_zero h1.symm) h

/-- From every state, with every reading without walk, there is a motion. -/
theorem imuMoves_exists (g : Vec 3) (x0 : NavBias) (u : ImuVal) (hw : u 2 = 0 ∧ u 3 = 0) (a b : ℝ) :
    ∃ T : ℝ → NavBias, ImuMoves g T u a b ∧ T a = x0 ∧ ∀ t, (T t).bg = x0.bg ∧ (T t).ba = x0.ba := by
  set A : EPose := ieGen 0 g 0 (-1) with hA
  set M : EPose := ieGen (skew (u 0 - x0.bg)) (u 1 - x0.ba) 0 1 with hM
  let F : ℝ → EPose := fun t => exp ((t - a) • A) * x0.pose.1 * exp ((t - a) • M)
  have hmem : ∀ t, IsSE23 (F t) := by
    intro t
    obtain ⟨tol, h1, h2⟩ := exists_tol (u 0 - x0.bg) (t - a)
    have := C76_closed tol g (x0.toSt .right none) _ (imuObj u none) (t - a) x0.pose.2 rfl
    have e : F t = gMatrix g (t - a) * x0.pose.1 * uMatrix tol (u 0 - x0.bg) (u 1 - x0.ba) (t - a) := by
      simp only [F]
      rw [(C60_input tol h1 _ _).1 _ h2, gMatrix_exp]
    rw [e]
    exact this
  have hF : ∀ t, HasMatDeriv F (A * F t + F t * M) t := by
    intro t
    have h1 : HasMatDeriv (fun r => exp ((r - a) • A)) (A * exp ((t - a) • A)) t := by
      intro i j
      exact (hasMatDeriv_exp' A (t - a) i j).comp_sub_const t a
    have h2 : HasMatDeriv (fun r => exp ((r - a) • M)) (exp ((t - a) • M) * M) t := by
      intro i j
      exact (hasMatDeriv_exp M (t - a) i j).comp_sub_const t a
    refine ((h1.mul (hasMatDeriv_const _ t)).mul h2).congr_deriv ?_
    simp only [F]
    noncomm_ring
  have hd : ∀ t i j, HasDerivAt (fun s => F s i j)
      ((fromBlocks (EPose.rot (F t) * skew (u 0 - x0.bg)) (cols (EPose.rot (F t) *ᵥ (u 1 - x0.ba) + g) (EPose.colA (F t))) 0 0 : EPose) i j) t := by
    intro t i j
    have := hF t i j
    rwa [hA, hM, imu_generator _ _ _ _ (hmem t)] at this
  refine ⟨fun t => ⟨⟨F t, hmem t⟩, x0.bg, x0.ba⟩, ⟨?_, ?_, ?_, fun _ _ _ _ => rfl, fun _ _ _ _ => rfl, hw⟩, ?_, fun t => ⟨rfl, rfl⟩⟩
  · intro t _ i j
    exact (hd t (.inl i) (.inl j)).hasDerivWithinAt
  · intro t _ i
    exact (hd t (.inl i) (.inr 0)).hasDerivWithinAt
  · intro t _ i
    exact (hd t (.inl i) (.inr 1)).hasDerivWithinAt
  · obtain ⟨⟨X, hX⟩, bg, ba⟩ := x0
    have : F a = X := by simp [F, exp_zero]
    simp only [this]

theorem ImuMoves.mono {g : Vec 3} {T : ℝ → NavBias} {u : ImuVal} {a b c d : ℝ} (h : ImuMoves g T u a b) (hc : a ≤ c) (hd : d ≤ b) :
    ImuMoves g T u c d := by
  have hsub : Set.Icc c d ⊆ Set.Icc a b := Set.Icc_subset_Icc hc hd
  exact ⟨fun t ht i j => (h.att t (hsub ht) i j).mono hsub, fun t ht i => (h.vel t (hsub ht) i).mono hsub,
    fun t ht i => (h.pos t (hsub ht) i).mono hsub, fun s hs t ht => h.bg s (hsub hs) t (hsub ht),
    fun s hs t ht => h.ba s (hsub hs) t (hsub ht), h.walk⟩

/-- Non-vacuity of `ImuLog`: a vehicle that turns at 1 rad/s and accelerates, biased readings at 0, 1 and 2 s, and its
position measured at 0.5 s. -/
example (g acc : Vec 3) (x0 : NavBias) (R : Mat 3 3) (hR : R.PosDef) :
    ∃ (T : ℝ → NavBias) (u : ImuVal) (y : StMeas NavBias 15), T 0 = x0 ∧ u 0 - x0.bg = ![0, 0, 1] ∧ u 1 - x0.ba = acc ∧
      ImuLog (1 / 10 ^ 7) g T 0 [⟨u, 0⟩, ⟨u, 1⟩, ⟨u, 2⟩] [y] ∧
      (∀ s, (y.meas.model.covariance s).PosDef) ∧ y.stamp = 1 / 2 := by
  obtain ⟨T, hT, hT0, hb⟩ := imuMoves_exists g x0 ![x0.bg + ![0, 0, 1], x0.ba + acc, 0, 0] ⟨rfl, rfl⟩ 0 2
  set u : ImuVal := ![x0.bg + ![0, 0, 1], x0.ba + acc, 0, 0] with hu
  obtain ⟨v, hv⟩ : ∃ v, (gpsModel .right R).evaluate ⟨T (1 / 2), some (1 / 2)⟩ = some v := ⟨_, rfl⟩
  have hom : ∀ s, u 0 - (T s).bg = ![0, 0, 1] := fun s => by rw [(hb s).1]; simp [hu]
  refine ⟨T, u, ⟨⟨3, v, some (1 / 2), gpsModel .right R⟩, 1 / 2, rfl⟩, hT0, by simp [hu], by simp [hu], ?_, fun _ => hR, rfl⟩
  have hr : retained StInp.stamp 0 [(⟨u, 0⟩ : StInp ImuVal), ⟨u, 1⟩, ⟨u, 2⟩] = [⟨u, 0⟩, ⟨u, 1⟩, ⟨u, 2⟩] := by
    unfold retained
    rw [sortByStamp_of_sorted _ _ (by simp [TimeSorted])]
    simp
  have hang : ∀ s ∈ ([0, 0, 1, 2, 1 / 2] : List ℝ), ∀ t ∈ ([0, 0, 1, 2, 1 / 2] : List ℝ), s ≤ t → AngleOk (1 / 10 ^ 7) ![0, 0, 1] (t - s) := by
    intro s hs t ht hst
    have hn : ∀ d : ℝ, 0 ≤ d → npNorm (d • (![0, 0, 1] : Vec 3)) = d := by
      intro d hd
      have : (d • (![0, 0, 1] : Vec 3)) ⬝ᵥ (d • ![0, 0, 1]) = d ^ 2 := by simp [dotProduct, Fin.sum_univ_three]; ring
      unfold npNorm
      rw [this, Real.sqrt_sq hd]
    unfold AngleOk
    by_cases hd : t - s = 0
    · left; rw [hd, zero_smul]
    · right
      rw [hn _ (by linarith)]
      simp only [List.mem_cons, List.not_mem_nil, or_false] at hs ht
      rcases hs with rfl | rfl | rfl | rfl | rfl <;> rcases ht with rfl | rfl | rfl | rfl | rfl <;>
        first | (norm_num; done) | (exfalso; norm_num at hst; done) | (exfalso; norm_num at hd; done)
  refine ⟨Or.inr ⟨⟨u, 0⟩, by simp, le_rfl⟩, Or.inr ⟨_, List.mem_singleton.2 rfl, by norm_num⟩, ?_, ?_, ?_⟩
  · rw [hr]
    refine ⟨hT.mono le_rfl (by norm_num), fun s hs t ht _ hst _ => ?_, hT.mono (by norm_num) le_rfl, fun s hs t ht _ hst _ => ?_, trivial⟩
    · rw [hom]; exact hang s hs t ht hst
    · rw [hom]; exact hang s hs t ht hst
  · intro y hy _
    rw [List.mem_singleton] at hy
    subst hy
    exact Or.inl hv
  · intro y hy s hs
    rw [List.mem_singleton] at hy
    subst hy
    simp only [List.map_cons, List.map_nil, List.cons_append, List.nil_append, List.mem_cons, List.not_mem_nil, or_false] at hs
    unfold Distinguishable
    rcases hs with rfl | rfl | rfl | rfl | rfl <;> norm_num

/-! ### Turns below the tolerance -/

/-- What the model leaves out of the position (in the body frame, in units of `dt² / 2`) when it takes a turn by the angle `p`
about the unit vector `a` to be no turn. -/
noncomputable def leftOut (p : ℝ) (a acc : Vec 3) : Vec 3 :=
  (1 - 2 * ((1 - Real.cos p) / p ^ 2)) • (skew a *ᵥ (skew a *ᵥ acc)) + (2 * ((p - Real.sin p) / p ^ 2)) • (skew a *ᵥ acc)

theorem leftOut_sq (p : ℝ) (a acc : Vec 3) (ha : a ⬝ᵥ a = 1) : leftOut p a acc ⬝ᵥ leftOut p a acc =
    ((1 - 2 * ((1 - Real.cos p) / p ^ 2)) ^ 2 + (2 * ((p - Real.sin p) / p ^ 2)) ^ 2) * ((skew a *ᵥ acc) ⬝ᵥ (skew a *ᵥ acc)) := by
  unfold leftOut
  generalize 1 - 2 * ((1 - Real.cos p) / p ^ 2) = α
  generalize 2 * ((p - Real.sin p) / p ^ 2) = β
  have h1 : (skew a *ᵥ (skew a *ᵥ acc)) ⬝ᵥ (skew a *ᵥ (skew a *ᵥ acc)) = (a ⬝ᵥ a) * ((skew a *ᵥ acc) ⬝ᵥ (skew a *ᵥ acc)) := by
    simp only [skew_mulVec, dotProduct, Fin.sum_univ_three]
    simp
    ring
  have h2 : (skew a *ᵥ (skew a *ᵥ acc)) ⬝ᵥ (skew a *ᵥ acc) = 0 := by
    simp only [skew_mulVec, dotProduct, Fin.sum_univ_three]
    simp
    ring
  have h3 : (skew a *ᵥ acc) ⬝ᵥ (skew a *ᵥ (skew a *ᵥ acc)) = 0 := by rw [dotProduct_comm, h2]
  rw [ha, one_mul] at h1
  simp only [add_dotProduct, dotProduct_add, smul_dotProduct, dotProduct_smul, h1, h2, h3, smul_eq_mul]
  ring

theorem leftOut_bound (p : ℝ) (hp : 0 < p) (hp1 : p ≤ 1) (a acc : Vec 3) (ha : a ⬝ᵥ a = 1) :
    npNorm (leftOut p a acc) ≤ p * npNorm acc := by
  have hc := Real.cos_bound (x := p) (by rw [abs_of_pos hp]; exact hp1)
  have hs := Real.sin_bound (x := p) (by rw [abs_of_pos hp]; exact hp1)
  rw [abs_of_pos hp, abs_le] at hc hs
  have hp2 : 0 < p ^ 2 := by positivity
  have a1 : |1 - 2 * ((1 - Real.cos p) / p ^ 2)| ≤ p * (5 / 48) := by
    have e : 1 - 2 * ((1 - Real.cos p) / p ^ 2) = (2 * (Real.cos p - (1 - p ^ 2 / 2))) / p ^ 2 := by field_simp; ring
    rw [e, abs_div, abs_of_pos hp2, div_le_iff₀ hp2, abs_le]
    have h4 : p ^ 4 ≤ p ^ 3 := pow_le_pow_of_le_one hp.le hp1 (by norm_num)
    constructor <;> nlinarith [hc.1, hc.2]
  have b1 : |2 * ((p - Real.sin p) / p ^ 2)| ≤ p * (1 / 2) := by
    rw [← mul_div_assoc, abs_div, abs_of_pos hp2, div_le_iff₀ hp2, abs_le]
    have h4 : p ^ 4 ≤ p ^ 3 := pow_le_pow_of_le_one hp.le hp1 (by norm_num)
    have h3 : 0 < p ^ 3 := by positivity
    constructor <;> nlinarith [hs.1, hs.2]
  have a2 := sq_le_sq' (by linarith [(abs_le.mp a1).1]) (abs_le.mp a1).2
  have b2 := sq_le_sq' (by linarith [(abs_le.mp b1).1]) (abs_le.mp b1).2
  have hx : (skew a *ᵥ acc) ⬝ᵥ (skew a *ᵥ acc) ≤ acc ⬝ᵥ acc := by
    have : (skew a *ᵥ acc) ⬝ᵥ (skew a *ᵥ acc) = (a ⬝ᵥ a) * (acc ⬝ᵥ acc) - (a ⬝ᵥ acc) ^ 2 := by
      simp only [skew_mulVec, dotProduct, Fin.sum_univ_three]
      simp
      ring
    rw [this, ha, one_mul]
    nlinarith [sq_nonneg (a ⬝ᵥ acc)]
  have hx0 : 0 ≤ (skew a *ᵥ acc) ⬝ᵥ (skew a *ᵥ acc) := Finset.sum_nonneg fun i _ => mul_self_nonneg _
  have h0 : 0 ≤ npNorm acc := Real.sqrt_nonneg _
  refine le_of_sq_le_sq ?_ (mul_nonneg hp.le h0)
  rw [npNorm_sq, leftOut_sq p a acc ha, mul_pow p, npNorm_sq]
  refine mul_le_mul ?_ hx hx0 (by positivity)
  nlinarith

theorem leftOut_ne (p : ℝ) (hp : 0 < p) (a acc : Vec 3) (ha : a ⬝ᵥ a = 1) (h : skew a *ᵥ acc ≠ 0) : leftOut p a acc ≠ 0 := by
  intro h0
  have := leftOut_sq p a acc ha
  rw [h0, zero_dotProduct] at this
  have hs : 0 < 2 * ((p - Real.sin p) / p ^ 2) := by
    have := Real.sin_lt hp
    have : 0 < p - Real.sin p := by linarith
    positivity
  have hx : 0 ≤ (skew a *ᵥ acc) ⬝ᵥ (skew a *ᵥ acc) := Finset.sum_nonneg fun i _ => mul_self_nonneg _
  rcases hx.lt_or_eq with h1 | h1
  · have : 0 < ((1 - 2 * ((1 - Real.cos p) / p ^ 2)) ^ 2 + (2 * ((p - Real.sin p) / p ^ 2)) ^ 2) * ((skew a *ᵥ acc) ⬝ᵥ (skew a *ᵥ acc)) := by
      positivity
    linarith
  · exact h (dotProduct_self_eq_zero.1 h1.symm)

theorem npNorm_smul3 (c : ℝ) (v : Vec 3) : npNorm (c • v) = |c| * npNorm v := by
  unfold npNorm
  rw [smul_dotProduct, dotProduct_smul, smul_eq_mul, smul_eq_mul, ← mul_assoc, Real.sqrt_mul (mul_self_nonneg c), Real.sqrt_mul_self_eq_abs]

/-- **C113, turns below the tolerance.** In a step that turns the vehicle by an angle `p` above zero and below the tolerance (and
at most 1 rad), the model still gives the true attitude, velocity and biases; the position is off by at most `p |f| dt² / 2`,
where `f` is the specific force, and it is wrong whenever the vehicle does not turn about the direction of `f`. -/
theorem C113_small_turn (tol : ℝ) (g : Vec 3) (dir : Dir) (Q : Blk 4 4) {T : ℝ → NavBias} {u : ImuVal} {a b : ℝ}
    (hT : ImuMoves g T u a b) {s t : ℝ} (hs : a ≤ s) (hst : s ≤ t) (ht : t ≤ b)
    (h0 : 0 < npNorm ((t - s) • (u 0 - (T s).bg))) (h1 : npNorm ((t - s) • (u 0 - (T s).bg)) < tol)
    (h2 : npNorm ((t - s) • (u 0 - (T s).bg)) ≤ 1) (us : Option ℝ) :
    let y := ((imuProc tol g dir Q).evaluate ⟨T s, some s⟩ ⟨u, us⟩ (t - s)).value
    EPose.rot y.pose.1 = EPose.rot (T t).pose.1 ∧ EPose.colA y.pose.1 = EPose.colA (T t).pose.1 ∧ y.bg = (T t).bg ∧ y.ba = (T t).ba ∧
    npNorm (EPose.colB (T t).pose.1 - EPose.colB y.pose.1) ≤
      npNorm ((t - s) • (u 0 - (T s).bg)) * npNorm (u 1 - (T s).ba) * ((t - s) ^ 2 / 2) ∧
    (skew (u 0 - (T s).bg) *ᵥ (u 1 - (T s).ba) ≠ 0 → EPose.colB y.pose.1 ≠ EPose.colB (T t).pose.1) := by
  set om := u 0 - (T s).bg with hom
  set acc := u 1 - (T s).ba with hacc
  set p := npNorm ((t - s) • om) with hp
  have hdt : 0 < t - s := by
    rcases (sub_nonneg.mpr hst).lt_or_eq with h | h
    · exact h
    · rw [hp, ← h, zero_smul] at h0
      simp [npNorm] at h0
  have hx := imuMoves_step p h0 g dir Q hT hs hst ht (.inr le_rfl) us
  intro y
  -- the true state is the model with a smaller tolerance
  have hX : (T s).pose.1 = mkIE (EPose.rot (T s).pose.1) (EPose.colA (T s).pose.1) (EPose.colB (T s).pose.1) 0 := se23_shape (T s).pose.2
  set C := EPose.rot (T s).pose.1 with hC
  have hrot : IsRot C := by
    obtain ⟨R, v, r, hR, e⟩ := (T s).pose.2
    rw [hC, e]
    exact hR
  have form : ∀ τ : ℝ, gMatrix g (t - s) * (T s).pose.1 * uMatrix τ om acc (t - s) =
      mkIE (C * so3Exp ((t - s) • om)) (C *ᵥ (((t - s) • so3LeftJac ((t - s) • om)) *ᵥ acc) + (EPose.colA (T s).pose.1 + (t - s) • g))
        (C *ᵥ ((((t - s) ^ 2 / 2) • nMatrix τ ((t - s) • om)) *ᵥ acc) +
          ((t - s) • (EPose.colA (T s).pose.1 + (t - s) • g) + (EPose.colB (T s).pose.1 + ((-(1 / 2) * (t - s) ^ 2) • g)))) 0 := by
    intro τ
    rw [hX]
    unfold gMatrix uMatrix
    simp only
    rw [mkIE_mul, mkIE_mul]
    simp only [mkIE_colA, mkIE_colB, one_mul, one_mulVec, zero_smul, zero_add]
    congr 1
    ring
  have ey : y.pose.1 = _ := form tol
  have et : (T t).pose.1 = _ := (congrArg (fun z : NavBias => z.pose.1) hx).symm.trans (form p)
  have hbg : y.bg = (T t).bg := (show y.bg = ((imuProc p g dir Q).evaluate ⟨T s, some s⟩ ⟨u, us⟩ (t - s)).value.bg from rfl).trans
    (congrArg NavBias.bg hx)
  have hba : y.ba = (T t).ba := (show y.ba = ((imuProc p g dir Q).evaluate ⟨T s, some s⟩ ⟨u, us⟩ (t - s)).value.ba from rfl).trans
    (congrArg NavBias.ba hx)
  have ha : (p⁻¹ • ((t - s) • om)) ⬝ᵥ (p⁻¹ • ((t - s) • om)) = 1 := by
    rw [smul_dotProduct, dotProduct_smul, ← npNorm_sq, ← hp, smul_eq_mul, smul_eq_mul]
    field_simp
  have hN : (nMatrix p ((t - s) • om) - nMatrix tol ((t - s) • om)) *ᵥ acc = leftOut p (p⁻¹ • ((t - s) • om)) acc := by
    unfold nMatrix leftOut
    rw [if_neg (lt_irrefl _), if_pos h1]
    simp only
    rw [← hp, mulVec_mulVec, skew_sq, ha, ← smul_mulVec, ← smul_mulVec, ← add_mulVec]
    congr 1
    module
  have hdiff : EPose.colB (T t).pose.1 - EPose.colB y.pose.1 = ((t - s) ^ 2 / 2) • (C *ᵥ leftOut p (p⁻¹ • ((t - s) • om)) acc) := by
    rw [et, ey, mkIE_colB, mkIE_colB, ← hN, add_sub_add_right_eq_sub, ← mulVec_sub, ← sub_mulVec, ← smul_sub, smul_mulVec, mulVec_smul]
  have hiso : ∀ v : Vec 3, npNorm (C *ᵥ v) = npNorm v := fun v => npNorm_ortho hrot.1 v
  refine ⟨?_, ?_, hbg, hba, ?_, ?_⟩
  · rw [ey, et]; rfl
  · rw [ey, et]; rfl
  · rw [hdiff, npNorm_smul3, hiso, abs_of_nonneg (by positivity)]
    have := leftOut_bound p h0 h2 _ acc ha
    nlinarith [sq_nonneg (t - s)]
  · intro hne h
    rw [h, sub_self] at hdiff
    have h3 : leftOut p (p⁻¹ • ((t - s) • om)) acc = 0 := by
      apply npNorm_eq_zero
      have h4 : npNorm ((((t - s) ^ 2 / 2) • (C *ᵥ leftOut p (p⁻¹ • ((t - s) • om)) acc) : Vec 3)) = 0 := by
        rw [← hdiff]; simp [npNorm]
      rw [npNorm_smul3, hiso, abs_of_nonneg (by positivity)] at h4
      rcases mul_eq_zero.mp h4 with h5 | h5
      · have : 0 < (t - s) ^ 2 / 2 := by positivity
        linarith
      · exact h5
    refine leftOut_ne p h0 _ acc ha ?_ h3
    rw [skew_smul, skew_smul, smul_mulVec, smul_mulVec]
    exact smul_ne_zero (inv_ne_zero h0.ne') (smul_ne_zero hdt.ne' hne)

end Verif
