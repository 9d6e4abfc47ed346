import Verif.Props.AllFilters
import Verif.Props.Datagen
import Verif.Props.Ekf
import Verif.Lemmas.Iekf

/-!
C94: filters reproduce perfect data.
-/

set_option linter.unusedSectionVars false
set_option linter.unusedVariables false

namespace Verif

open Matrix

variable {V U : Type} {n nu : ℕ}

/-- Specification: the trajectory `W` follows the process model when the inputs `us` are held one after the other, the first from `τ`
on and each until the stamp of the next one: from any time of such an interval the model leads to the value of `W` at any later one. -/
def Follows (P : ProcModel V U n) (W : ℝ → V) : ℝ → List (StInp U) → Prop
  | τ, u :: u' :: us =>
    (∀ s t, τ ≤ s → s ≤ t → t ≤ u'.stamp → (P.evaluate ⟨W s, some s⟩ ⟨u.value, some u.stamp⟩ (t - s)).value = W t) ∧
      Follows P W u'.stamp (u' :: us)
  | _, _ => True

/-- Specification: the measurement has no error: its value is that of its model at the true state (or the model produces none there). -/
def Perfect (W : ℝ → V) (y : StMeas V n) : Prop :=
  y.meas.model.evaluate ⟨W y.stamp, some y.stamp⟩ = some y.meas.value ∨ y.meas.model.evaluate ⟨W y.stamp, some y.stamp⟩ = none

/-- The events go forward in time with distinguishable stamps, along the trajectory. -/
def Sound (P : ProcModel V U n) (W : ℝ → V) (okY : StMeas V n → Prop) : ℝ → List (Ev (StInp U) (StMeas V n)) → Prop
  | _, [] => True
  | τ, .record :: es => Sound P W okY τ es
  | τ, .predict u t :: es => τ ≤ t ∧ (P.evaluate ⟨W τ, some τ⟩ ⟨u.value, some u.stamp⟩ (t - τ)).value = W t ∧ Sound P W okY t es
  | τ, .correct y u :: es => (y.stamp = τ ∨ y.stamp - τ > 1 / 10 ^ 11) ∧
      (P.evaluate ⟨W τ, some τ⟩ ⟨u.value, some u.stamp⟩ (y.stamp - τ)).value = W y.stamp ∧ okY y ∧ Sound P W okY y.stamp es

theorem sound_corrects {P : ProcModel V U n} {W : ℝ → V} {okY : StMeas V n → Prop} (u : StInp U)
    (es : List (Ev (StInp U) (StMeas V n))) (T : ℝ) :
    ∀ (ys : List (StMeas V n)) (τ : ℝ), (∀ y ∈ ys, τ ≤ y.stamp ∧ y.stamp ≤ T ∧ okY y ∧ Distinguishable y.stamp τ) →
      ys.Pairwise (fun a c => a.stamp ≤ c.stamp) → (∀ y ∈ ys, ∀ z ∈ ys, Distinguishable y.stamp z.stamp) →
      (∀ s t, τ ≤ s → s ≤ t → t ≤ T → (P.evaluate ⟨W s, some s⟩ ⟨u.value, some u.stamp⟩ (t - s)).value = W t) →
      (∀ τ', (τ' = τ ∨ ∃ y ∈ ys, τ' = y.stamp) → Sound P W okY τ' es) →
      Sound P W okY τ (ys.map (fun y => Ev.correct y u) ++ es)
  | [], τ, _, _, _, _, h => h τ (.inl rfl)
  | y :: ys, τ, hy, hs, hd, hW, h => by
    obtain ⟨h1, h1', h2, h3⟩ := hy y (by simp)
    refine ⟨far h3 h1, hW τ y.stamp (le_refl _) h1 h1', h2, ?_⟩
    refine sound_corrects u es T ys y.stamp (fun z hz => ⟨(List.pairwise_cons.mp hs).1 z hz, (hy z (by simp [hz])).2.1,
        (hy z (by simp [hz])).2.2.1, hd z (by simp [hz]) y (by simp)⟩)
      (List.pairwise_cons.mp hs).2 (fun a ha c hc => hd a (by simp [ha]) c (by simp [hc]))
      (fun s t hs hst ht => hW s t (le_trans h1 hs) hst ht) (fun τ' ht => h τ' ?_)
    rcases ht with rfl | ⟨z, hz, rfl⟩
    · exact .inr ⟨y, by simp, rfl⟩
    · exact .inr ⟨z, by simp [hz], rfl⟩

theorem sound_schedule {P : ProcModel V U n} {W : ℝ → V} {okY : StMeas V n → Prop} {meas : List (StMeas V n)}
    (hl : ∀ y ∈ meas, okY y)
    (hm : meas.Pairwise (fun a c => a.stamp ≤ c.stamp)) (hd : ∀ y ∈ meas, ∀ z ∈ meas, Distinguishable y.stamp z.stamp) :
    ∀ (us : List (StInp U)) (u : StInp U) (τ : ℝ) (first : Bool), τ ≤ u.stamp → (∀ y ∈ meas, Distinguishable y.stamp τ) →
      (first = true → ∀ y ∈ meas, τ ≤ y.stamp) → (u :: us).Pairwise (fun a c => a.stamp ≤ c.stamp) →
      (∀ v ∈ u :: us, ∀ y ∈ meas, Distinguishable y.stamp v.stamp) → Follows P W τ (u :: us) →
      Sound P W okY τ (schedule StInp.stamp StMeas.stamp first (u :: us) meas)
  | [], u, τ, first, h1, h0, h2, h3, h4, h5 => trivial
  | u' :: us, u, τ, first, h1, h0, h2, h3, h4, h5 => by
    have huu : u.stamp ≤ u'.stamp := (List.pairwise_cons.mp h3).1 u' (by simp)
    unfold schedule
    rw [List.append_assoc]
    refine sound_corrects u _ u'.stamp _ τ (fun y hy => ?_) (hm.filter _)
      (fun y hy z hz => hd y (List.mem_filter.mp hy).1 z (List.mem_filter.mp hz).1) h5.1 (fun τ' ht => ?_)
    · obtain ⟨hy1, hy2⟩ := List.mem_filter.mp hy
      simp only [decide_eq_true_eq] at hy2
      refine ⟨?_, hy2.2.le, hl y hy1, h0 y hy1⟩
      rcases hy2.1 with hf | hf
      · exact h2 hf y hy1
      · exact le_trans h1 hf
    · have hlt : τ ≤ τ' ∧ τ' ≤ u'.stamp := by
        rcases ht with rfl | ⟨y, hy, rfl⟩
        · exact ⟨le_refl _, by linarith⟩
        · have hy2 := (List.mem_filter.mp hy).2
          simp only [decide_eq_true_eq] at hy2
          refine ⟨?_, hy2.2.le⟩
          rcases hy2.1 with hf | hf
          · exact h2 hf y (List.mem_filter.mp hy).1
          · exact le_trans h1 hf
      exact ⟨hlt.2, h5.1 τ' _ hlt.1 hlt.2 (le_refl _), sound_schedule hl hm hd us u' u'.stamp false (le_refl _) (h4 u' (by simp))
        (fun h => (by cases h)) (List.pairwise_cons.mp h3).2 (fun v hv => h4 v (by simp at hv; simp [hv])) h5.2⟩

/-- A filter that stays on the trajectory step by step gives a run on the trajectory. -/
theorem exec_sound {P : ProcModel V U n} {W : ℝ → V} {okY : StMeas V n → Prop} {X : Type} {f : FilterApi X (StInp U) (StMeas V n)}
    (R : ℝ → X → Prop)
    (hp : ∀ τ t u x, R τ x → τ ≤ t → (P.evaluate ⟨W τ, some τ⟩ ⟨u.value, some u.stamp⟩ (t - τ)).value = W t →
      ∃ z, predictTo f x u t = .ok z ∧ R t z)
    (hc : ∀ (τ : ℝ) (u : StInp U) (y : StMeas V n) (x : X), R τ x → (y.stamp = τ ∨ y.stamp - τ > 1 / 10 ^ 11) →
      (P.evaluate ⟨W τ, some τ⟩ ⟨u.value, some u.stamp⟩ (y.stamp - τ)).value = W y.stamp → okY y →
      ∃ z, f.correct x y u = .ok z ∧ R y.stamp z) :
    ∀ (es : List (Ev (StInp U) (StMeas V n))) (τ : ℝ) (x : X), R τ x → Sound P W okY τ es →
      ∃ rs, exec f es x = .ok rs ∧ ∀ r ∈ rs, ∃ t, R t r
  | [], τ, x, h, _ => ⟨[], rfl, by simp⟩
  | .record :: es, τ, x, h, hs => by
    obtain ⟨rs, h1, h3⟩ := exec_sound R hp hc es τ x h hs
    refine ⟨x :: rs, by unfold exec; rw [h1]; rfl, ?_⟩
    intro r hr
    rcases List.mem_cons.mp hr with rfl | hr
    · exact ⟨τ, h⟩
    · exact h3 r hr
  | .predict u t :: es, τ, x, h, hs => by
    obtain ⟨z, p1, p3⟩ := hp τ t u x h hs.1 hs.2.1
    obtain ⟨rs, h1, h3⟩ := exec_sound R hp hc es t z p3 hs.2.2
    exact ⟨rs, by unfold exec; rw [p1]; exact h1, h3⟩
  | .correct y u :: es, τ, x, h, hs => by
    obtain ⟨z, p1, p3⟩ := hc τ u y x h hs.1 hs.2.1 hs.2.2.1
    obtain ⟨rs, h1, h3⟩ := exec_sound R hp hc es y.stamp z p3 hs.2.2.2
    exact ⟨rs, by unfold exec; rw [p1]; exact h1, h3⟩

/-- The same when a step may raise. -/
theorem exec_sound_of_ok {P : ProcModel V U n} {W : ℝ → V} {okY : StMeas V n → Prop} {X : Type}
    {f : FilterApi X (StInp U) (StMeas V n)} (R : ℝ → X → Prop)
    (hp : ∀ τ t u x z, R τ x → τ ≤ t → (P.evaluate ⟨W τ, some τ⟩ ⟨u.value, some u.stamp⟩ (t - τ)).value = W t →
      predictTo f x u t = .ok z → R t z)
    (hc : ∀ (τ : ℝ) (u : StInp U) (y : StMeas V n) (x z : X), R τ x → (y.stamp = τ ∨ y.stamp - τ > 1 / 10 ^ 11) →
      (P.evaluate ⟨W τ, some τ⟩ ⟨u.value, some u.stamp⟩ (y.stamp - τ)).value = W y.stamp → okY y →
      f.correct x y u = .ok z → R y.stamp z) :
    ∀ (es : List (Ev (StInp U) (StMeas V n))) (τ : ℝ) (x : X) (rs : List X), R τ x → Sound P W okY τ es →
      exec f es x = .ok rs → ∀ r ∈ rs, ∃ t, R t r
  | [], τ, x, rs, h, _, he => by cases he; simp
  | .record :: es, τ, x, rs, h, hs, he => by
    unfold exec at he
    cases hr : exec f es x with
    | error e => rw [hr] at he; cases he
    | ok rs' =>
      rw [hr] at he
      cases he
      intro r hr'
      rcases List.mem_cons.mp hr' with rfl | hr'
      · exact ⟨τ, h⟩
      · exact exec_sound_of_ok R hp hc es τ x rs' h hs hr r hr'
  | .predict u t :: es, τ, x, rs, h, hs, he => by
    unfold exec at he
    cases hr : predictTo f x u t with
    | error e => rw [hr] at he; cases he
    | ok z =>
      rw [hr] at he
      exact exec_sound_of_ok R hp hc es t z rs (hp τ t u x z h hs.1 hs.2.1 hr) hs.2.2 he
  | .correct y u :: es, τ, x, rs, h, hs, he => by
    unfold exec at he
    cases hr : f.correct x y u with
    | error e => rw [hr] at he; cases he
    | ok z =>
      rw [hr] at he
      exact exec_sound_of_ok R hp hc es y.stamp z rs (hc τ u y x z h hs.1 hs.2.1 hs.2.2.1 hr) hs.2.2.2 he

/-- Perfect logs: some entry of each non-empty log is not older than the initial estimate; the trajectory follows the model under the
inputs that `run_filter` uses; the measurements it uses are perfect, with stamps equal to or distinguishable from all others. -/
structure PerfectLog (P : ProcModel V U n) (W : ℝ → V) (t0 : ℝ) (ins : List (StInp U)) (meas : List (StMeas V n)) : Prop where
  ins_fresh : ins = [] ∨ ∃ u ∈ ins, t0 ≤ u.stamp
  meas_fresh : meas = [] ∨ ∃ y ∈ meas, t0 ≤ y.stamp
  follows : Follows P W t0 (retained StInp.stamp t0 ins)
  perfect : ∀ y ∈ meas, t0 ≤ y.stamp → Perfect W y
  apart : ∀ y ∈ meas, ∀ s ∈ t0 :: (ins.map StInp.stamp ++ meas.map StMeas.stamp), Distinguishable y.stamp s

theorem PerfectLog.sound {P : ProcModel V U n} {W : ℝ → V} {t0 : ℝ} {ins : List (StInp U)} {meas : List (StMeas V n)}
    (h : PerfectLog P W t0 ins meas) :
    Sound P W (fun y => Perfect W y ∧ y ∈ meas) t0
      (schedule StInp.stamp StMeas.stamp true (retained StInp.stamp t0 ins) (retained StMeas.stamp t0 meas)) := by
  have hr1 : ∀ u ∈ retained StInp.stamp t0 ins, t0 ≤ u.stamp ∧ u ∈ ins := by
    intro u hu
    unfold retained at hu
    obtain ⟨h1, h2⟩ := List.mem_filter.mp hu
    exact ⟨by simpa using h2, (sortByStamp_mem _).mp h1⟩
  have hr2 : ∀ y ∈ retained StMeas.stamp t0 meas, t0 ≤ y.stamp ∧ y ∈ meas := by
    intro u hu
    unfold retained at hu
    obtain ⟨h1, h2⟩ := List.mem_filter.mp hu
    exact ⟨by simpa using h2, (sortByStamp_mem _).mp h1⟩
  have hs1 : (retained StInp.stamp t0 ins).Pairwise (fun a c => a.stamp ≤ c.stamp) := (sortByStamp_sorted _ _).filter _ _
  have hs2 : (retained StMeas.stamp t0 meas).Pairwise (fun a c => a.stamp ≤ c.stamp) := (sortByStamp_sorted _ _).filter _ _
  have hf := h.follows
  cases hc : retained StInp.stamp t0 ins with
  | nil => exact trivial
  | cons u us =>
    rw [hc] at hs1 hr1 hf
    refine sound_schedule (fun y hy => ⟨h.perfect y (hr2 y hy).2 (hr2 y hy).1, (hr2 y hy).2⟩) hs2
      (fun y hy z hz => h.apart y (hr2 y hy).2 _ ?_) us u t0 true
      (hr1 u (by simp)).1 (fun y hy => h.apart y (hr2 y hy).2 _ (by simp)) (fun _ y hy => (hr2 y hy).1) hs1
      (fun v hv y hy => h.apart y (hr2 y hy).2 _ ?_) hf
    · have := (hr2 z hz).2
      simp only [List.mem_cons, List.mem_append, List.mem_map]
      exact .inr (.inr ⟨z, this, rfl⟩)
    · have := (hr1 v hv).2
      simp only [List.mem_cons, List.mem_append, List.mem_map]
      exact .inr (.inl ⟨v, this, rfl⟩)

/-! ### Single steps -/

theorem ekf_predict_on {e : EkfEnv V U n} {W : ℝ → V} (hQ : ∀ x u dt, 0 ≤ dt → (e.proc.covariance x u dt).PosSemidef)
    {τ t : ℝ} {x : SWC V n} (u : Inp U) (hx : x.state = ⟨W τ, some τ⟩) (hP : x.cov.PosSemidef) (ht : τ ≤ t)
    (hW : (e.proc.evaluate ⟨W τ, some τ⟩ u (t - τ)).value = W t) :
    ∃ z, e.predict x (some u) (some (t - τ)) none = .ok z ∧ z.state = ⟨W t, some t⟩ ∧ z.cov.PosSemidef := by
  have hs : x.state.stamp = some τ := by rw [hx]
  have h1 := predict_some_some e x u τ (t - τ) none hs (by linarith)
  refine ⟨_, h1, ?_, predict_psd e hQ x _ _ _ _ hP h1⟩
  unfold EkfEnv.propagate
  simp only
  rw [hx, show τ + (t - τ) = t by ring, hW]

theorem ekf_fuse_on {e : EkfEnv V U n} {W : ℝ → V} (h0 : ∀ v, e.plus v 0 = v) {x : SWC V n} {y : StMeas V n}
    (hx : x.state = ⟨W y.stamp, some y.stamp⟩) (hP : x.cov.PosSemidef) (hy : Perfect W y)
    (hR : ∀ s, (y.meas.model.covariance s).PosDef) (u : Option (Inp U)) :
    ∃ z, e.correct x y.meas u none none = .ok z ∧ z.state = ⟨W y.stamp, some y.stamp⟩ ∧ z.cov.PosSemidef := by
  have hs : x.state.stamp = some y.stamp := by rw [hx]
  have e0 : ∀ v, e.correctD x y.meas v none none = e.fuse x y.meas none ((none : Option Bool).getD e.rejectOutliers) := fun v =>
    C06_no_predict e x y.meas v none none y.stamp y.stamp hs y.hstamp (by rw [sub_self]; exact neg_nonpos.mpr (by positivity))
      (by rw [sub_self]; positivity)
  have e1 : e.correct x y.meas u none none = e.correct x y.meas none none none := by
    unfold EkfEnv.correct
    rw [e0, e0]
  obtain ⟨z, hz⟩ := C67_correct_total e x y.meas none none hR hP (by
    intro tx ty h1 h2
    rw [hs] at h1; rw [y.hstamp] at h2
    cases h1; cases h2
    rw [sub_self]; exact neg_nonpos.mpr (by positivity))
  refine ⟨z, by rw [e1, hz], ?_⟩
  unfold EkfEnv.correct at hz
  rw [e0] at hz
  cases hd : e.fuse x y.meas none ((none : Option Bool).getD e.rejectOutliers) with
  | error err => rw [hd] at hz; cases hz
  | ok r =>
    obtain ⟨z', d⟩ := r
    rw [hd] at hz
    cases hz
    refine ⟨?_, (fuse_psd e x y.meas none _ (fun s => (hR s).posSemidef) hP z' d hd).1⟩
    show z'.state = _
    rcases fuse_cases e x y.meas none _ z' d hd with h | ⟨yc, h1, -, h3⟩
    · rw [h, hx]
    · rw [h3]
      rw [hx] at h1
      rcases hy with hy | hy
      · rw [hy] at h1
        cases h1
        unfold kalmanUpdate EkfEnv.plusSt
        simp only [sub_self]
        rw [show (fun _ => (0 : ℝ) : Vec y.meas.m) = 0 from rfl, Matrix.mulVec_zero, h0, hx]
      · rw [hy] at h1
        cases h1

/-- **C94, the EKF.** Initialised at the truth and given perfect data — inputs that drive the process model along the true trajectory
and measurements equal to their models' values on it — `run_filter` with an EKF raises nothing and every estimate it returns is the
true state at its stamp, whatever the (positive semidefinite) covariances, Jacobians, gates and stamps of the data. -/
theorem C94_ekf (e : EkfEnv V U n) (h0 : ∀ v, e.plus v 0 = v) (hQ : ∀ x u dt, 0 ≤ dt → (e.proc.covariance x u dt).PosSemidef)
    (W : ℝ → V) (t0 : ℝ) (x0 : SWC V n) (hx : x0.state = ⟨W t0, some t0⟩) (hP : x0.cov.PosSemidef)
    (ins : List (StInp U)) (meas : List (StMeas V n)) (hlog : PerfectLog e.proc W t0 ins meas)
    (hR : ∀ y ∈ meas, ∀ s, (y.meas.model.covariance s).PosDef) :
    ∃ rs, runFilter (ekfApi e) x0 ins meas = .ok rs ∧ ∀ r ∈ rs, ∃ τ, r.state = ⟨W τ, some τ⟩ ∧ r.cov.PosSemidef := by
  rw [C21_run_filter_schedule (ekfApi e) x0 t0 (by show x0.state.stamp = _; rw [hx]) ins meas hlog.ins_fresh hlog.meas_fresh]
  refine exec_sound (P := e.proc) (W := W) (okY := fun y => Perfect W y ∧ y ∈ meas) (f := ekfApi e)
    (fun τ x => x.state = ⟨W τ, some τ⟩ ∧ x.cov.PosSemidef) ?_ ?_ _ t0 x0 ⟨hx, hP⟩ hlog.sound
  · rintro τ t u x ⟨h1, h2⟩ ht hW
    obtain ⟨z, k1, k2, k3⟩ := ekf_predict_on hQ ⟨u.value, some u.stamp⟩ h1 h2 ht hW
    refine ⟨z, ?_, k2, k3⟩
    unfold predictTo
    rw [show (ekfApi e).xstamp x = some τ by show x.state.stamp = _; rw [h1]]
    exact k1
  · rintro τ u y x ⟨h1, h2⟩ hy hW ⟨hpf, hmem⟩
    rcases hy with hy | hy
    · subst hy
      obtain ⟨z, k1, k2, k3⟩ := ekf_fuse_on h0 h1 h2 hpf (hR y hmem) (some ⟨u.value, some u.stamp⟩)
      exact ⟨z, k1, k2, k3⟩
    · have hp : (0 : ℝ) < 1 / 10 ^ 11 := by positivity
      obtain ⟨x1, k1, k2, k3⟩ := ekf_predict_on hQ ⟨u.value, some u.stamp⟩ h1 h2 (by linarith) hW
      obtain ⟨z, k4, k5, k6⟩ := ekf_fuse_on h0 k2 k3 hpf (hR y hmem) (none : Option (Inp U))
      refine ⟨z, ?_, k5, k6⟩
      show e.correct x y.meas (some ⟨u.value, some u.stamp⟩) none none = _
      rw [C02_correct_eq_predict_then_correct e x y.meas ⟨u.value, some u.stamp⟩ none none τ y.stamp (by rw [h1]) y.hstamp hy, k1]
      exact k4


/-! ### The iterated filter -/

theorem gnDir_zero (f : IekfEnv V U n) (hmm : ∀ v, f.minus v v = 0) (x : SWC V n) (y : Meas V n) :
    gnDir f x y x.state y.value = 0 := by
  unfold gnDir
  simp only [hmm, sub_self, Matrix.mulVec_zero, neg_zero, zero_add, add_zero]
  rw [show (fun _ => (0 : ℝ) : Vec y.m) = 0 from rfl, Matrix.mulVec_zero]

theorem gnLoop_stays (f : IekfEnv V U n) (h0 : ∀ v, f.plus v 0 = v) (hmm : ∀ v, f.minus v v = 0) (lsFuel : ℕ) (x : SWC V n)
    (y : Meas V n) (rej : Bool) (hy : y.model.evaluate x.state = some y.value ∨ y.model.evaluate x.state = none) :
    ∀ (k : ℕ) (tr : List (St V)) (o : Bool) (xop : St V) (tr' : List (St V)),
      f.gnLoop lsFuel x y rej k x.state tr = .ok (o, xop, tr') → xop = x.state
  | 0, tr, o, xop, tr', h => by
    unfold IekfEnv.gnLoop at h
    cases h
    rfl
  | k + 1, tr, o, xop, tr', h => by
    unfold IekfEnv.gnLoop at h
    obtain ⟨g, hg, h⟩ := bind_ok h
    cases g with
    | outlier => cases h; rfl
    | stop => cases h; rfl
    | step xnew =>
      have hn : xnew = x.state := by
        obtain ⟨yc, h1, h2, h3⟩ := gnPass_step f lsFuel x y rej x.state xnew hg
        rcases hy with hy | hy
        · rw [hy] at h1
          cases h1
          rw [gnDir_zero f hmm] at h2 h3
          have hz : f.plusSt x.state 0 = x.state := by
            unfold EkfEnv.plusSt
            rw [h0]
          cases hl : f.lineSearch with
          | false => rw [h2 hl, hz]
          | true =>
            obtain ⟨a, yn, -, h4, -⟩ := h3 hl
            rw [h4, smul_zero, hz]
        · rw [hy] at h1; cases h1
      rw [hn] at h
      exact gnLoop_stays f h0 hmm lsFuel x y rej hy k _ o xop tr' h

theorem iekf_fuse_on (f : IekfEnv V U n) (h0 : ∀ v, f.plus v 0 = v) (hmm : ∀ v, f.minus v v = 0) (lsFuel : ℕ) {x : SWC V n}
    {y : Meas V n} (hy : y.model.evaluate x.state = some y.value ∨ y.model.evaluate x.state = none) {xj : Option (St V)} {rej : Bool}
    {z : SWC V n × List (St V)} (h : f.fuseI lsFuel x y xj rej = .ok z) : z.1.state = x.state := by
  unfold IekfEnv.fuseI at h
  split at h
  · cases h
  · obtain ⟨r, hr, h⟩ := bind_ok h
    obtain ⟨o, xop, tr⟩ := r
    obtain ⟨x', hx', h⟩ := bind_ok h
    cases h
    have hop := gnLoop_stays f h0 hmm lsFuel x y rej hy _ _ _ _ _ hr
    show x'.state = _
    unfold IekfEnv.conclude at hx'
    split at hx'
    · cases hx'; rfl
    · unfold IekfEnv.finish at hx'
      obtain ⟨Kt, -, hx'⟩ := bind_ok hx'
      cases hx'
      exact hop

/-- **C94, the iterated filter.** The same for the iterated filter, with or without line search, whenever `run_filter` returns. -/
theorem C94_iterated (f : IekfEnv V U n) (h0 : ∀ v, f.plus v 0 = v) (hmm : ∀ v, f.minus v v = 0) (lsFuel : ℕ)
    (W : ℝ → V) (t0 : ℝ) (x0 : SWC V n) (hx : x0.state = ⟨W t0, some t0⟩)
    (ins : List (StInp U)) (meas : List (StMeas V n)) (hlog : PerfectLog f.proc W t0 ins meas) (rs : List (SWC V n))
    (hrun : runFilter (iekfApi f lsFuel) x0 ins meas = .ok rs) : ∀ r ∈ rs, ∃ τ, r.state = ⟨W τ, some τ⟩ := by
  rw [C21_run_filter_schedule (iekfApi f lsFuel) x0 t0 (by show x0.state.stamp = _; rw [hx]) ins meas hlog.ins_fresh
    hlog.meas_fresh] at hrun
  have hpred : ∀ (τ t : ℝ) (u : Inp U) (x z : SWC V n), x.state = ⟨W τ, some τ⟩ → τ ≤ t →
      (f.proc.evaluate ⟨W τ, some τ⟩ u (t - τ)).value = W t → f.predict x (some u) (some (t - τ)) none = .ok z →
      z.state = ⟨W t, some t⟩ := by
    intro τ t u x z h1 ht hW h
    rw [predict_some_some f.toEkfEnv x u τ (t - τ) none (by rw [h1]) (by linarith)] at h
    cases h
    unfold EkfEnv.propagate
    simp only
    rw [h1, show τ + (t - τ) = t by ring, hW]
  refine exec_sound_of_ok (P := f.proc) (W := W) (okY := fun y => Perfect W y ∧ y ∈ meas) (f := iekfApi f lsFuel)
    (fun τ x => x.state = ⟨W τ, some τ⟩) ?_ ?_ _ t0 x0 rs hx hlog.sound hrun
  · intro τ t u x z h1 ht hW h
    unfold predictTo at h
    rw [show (iekfApi f lsFuel).xstamp x = some τ by show x.state.stamp = _; rw [h1]] at h
    exact hpred τ t ⟨u.value, some u.stamp⟩ x z h1 ht hW h
  · rintro τ u y x z h1 hy hW ⟨hpf, -⟩ h
    have h : f.correctI lsFuel x y.meas (some ⟨u.value, some u.stamp⟩) none none = .ok z := h
    unfold IekfEnv.correctI at h
    cases hc : f.correctT lsFuel x y.meas (some ⟨u.value, some u.stamp⟩) none none with
    | error e => rw [hc] at h; cases h
    | ok r =>
      rw [hc] at h
      cases h
      unfold IekfEnv.correctT at hc
      obtain ⟨xp, ha, hc⟩ := bind_ok hc
      have hxp : xp.state = ⟨W y.stamp, some y.stamp⟩ := by
        unfold IekfEnv.advanceI at ha
        simp only [h1, y.hstamp] at ha
        split at ha
        · cases ha
        · split at ha
          · rename_i hd
            exact hpred τ y.stamp ⟨u.value, some u.stamp⟩ x xp h1 (by linarith) hW ha
          · cases ha
            rcases hy with hy | hy
            · rw [h1, hy]
            · have : (0 : ℝ) < 1 / 10 ^ 11 := by positivity
              linarith
      have := iekf_fuse_on f h0 hmm lsFuel (by rw [hxp]; exact hpf) hc
      show r.1.state = _
      rw [this, hxp]

/-! ### Generated data -/

open Classical in
/-- The last of the generated samples not later than `t` (the first one if there is none). -/
noncomputable def sampleAt : List (V × ℝ) → ℝ → Option (V × ℝ)
  | [], _ => none
  | [x], _ => some x
  | x :: x' :: xs, t => if t < x'.2 then some x else sampleAt (x' :: xs) t


/-- Specification: the true state at any time between generated samples: the process model applied from the last sample not later than
that time, with the noiseless input of the interval. -/
noncomputable def trueAt (g : DataGen V U n nu) (x0 : V) (L : List (V × ℝ)) (t : ℝ) : V :=
  ((sampleAt L t).map fun x => truthAt g x t).getD x0

/-- What `run_filter` is given: the generated inputs, and the generated measurements that have a value. -/
def GenData.inputLog (D : GenData V U n) : List (StInp U) := D.inputs.map fun u => ⟨u.1, u.2⟩

def GenMeas.toMeas (d : GenMeas V n) : Option (StMeas V n) :=
  d.value.map fun v => ⟨⟨d.m, v, some d.stamp, d.model⟩, d.stamp, rfl⟩

def GenData.measLog (D : GenData V U n) : List (StMeas V n) := D.meas.filterMap GenMeas.toMeas

theorem sampleAt_eq : ∀ (L : List (V × ℝ)) (k : ℕ) (x x' : V × ℝ) (t : ℝ), (L.map Prod.snd).Pairwise (· < ·) → L[k]? = some x →
    L[k + 1]? = some x' → (k = 0 ∨ x.2 ≤ t) → t < x'.2 → sampleAt L t = some x
  | [], k, x, x', t, hs, h1, h2, h3, h4 => by simp at h1
  | [a], k, x, x', t, hs, h1, h2, h3, h4 => by simp at h2
  | a :: b :: L, 0, x, x', t, hs, h1, h2, h3, h4 => by
    simp at h1 h2
    subst h1 h2
    exact if_pos h4
  | a :: b :: L, k + 1, x, x', t, hs, h1, h2, h3, h4 => by
    have hx : x.2 ≤ t := by
      rcases h3 with h3 | h3
      · cases h3
      · exact h3
    have hmem : x ∈ b :: L := List.mem_of_getElem? (by simpa using h1)
    have hs' : ((b :: L).map Prod.snd).Pairwise (· < ·) := (List.pairwise_cons.mp hs).2
    have hb : b.2 ≤ x.2 := by
      rcases List.mem_cons.mp hmem with rfl | hm
      · exact le_refl _
      · exact ((List.pairwise_cons.mp hs').1 x.2 (List.mem_map_of_mem hm)).le
    have e : sampleAt (a :: b :: L) t = sampleAt (b :: L) t := if_neg (by linarith)
    rw [e]
    exact sampleAt_eq (b :: L) k x x' t hs' (by simpa using h1) (by simpa using h2) (.inr hx) h4

theorem follows_congr {P : ProcModel V U n} {W W' : ℝ → V} : ∀ (us : List (StInp U)) (τ : ℝ), (∀ t, τ ≤ t → W t = W' t) →
    (∀ u ∈ us, τ ≤ u.stamp) → us.Pairwise (fun a c => a.stamp ≤ c.stamp) → Follows P W' τ us → Follows P W τ us
  | [], τ, h, hu, hp, hf => trivial
  | [u], τ, h, hu, hp, hf => trivial
  | u :: u' :: us, τ, h, hu, hp, hf => by
    refine ⟨fun s t h1 h2 h3 => ?_, ?_⟩
    · rw [h s h1, h t (le_trans h1 h2)]
      exact hf.1 s t h1 h2 h3
    · have hτ := hu u' (by simp)
      refine follows_congr (u' :: us) u'.stamp (fun t ht => h t (le_trans hτ ht)) ?_ (List.pairwise_cons.mp hp).2 hf.2
      intro v hv
      rcases List.mem_cons.mp hv with rfl | hv
      · exact le_refl _
      · exact (List.pairwise_cons.mp (List.pairwise_cons.mp hp).2).1 v hv

theorem truthAt_flow {g : DataGen V U n nu} (hfl : IsFlow g.proc) (f : ℝ → V → U) (hraw : ∀ t v, g.inputFunc t v = .raw (f t v))
    (x : V × ℝ) (s t : ℝ) :
    (g.proc.evaluate ⟨truthAt g x s, some s⟩ ⟨f x.2 x.1, some x.2⟩ (t - s)).value = truthAt g x t := by
  unfold truthAt
  simp only [hraw, InputVal.toInput]
  have := hfl x.1 ⟨f x.2 x.1, some x.2⟩ x.2 (s - x.2) (t - s)
  rw [show x.2 + (s - x.2) = s by ring, show s - x.2 + (t - s) = t - x.2 by ring] at this
  exact this

theorem truthAt_self {g : DataGen V U n nu} (hz : ∀ v u s, (g.proc.evaluate ⟨v, some s⟩ u 0).value = v) (x : V × ℝ) :
    truthAt g x x.2 = x.1 := by
  unfold truthAt
  rw [sub_self, hz]

theorem trueAt_interval {g : DataGen V U n nu} (hz : ∀ v u s, (g.proc.evaluate ⟨v, some s⟩ u 0).value = v) (x0 : V) (a b : V × ℝ)
    (L : List (V × ℝ)) (hs : ((a :: b :: L).map Prod.snd).Pairwise (· < ·)) (hl : b.1 = truthAt g a b.2) (t : ℝ) (ht : t ≤ b.2) :
    trueAt g x0 (a :: b :: L) t = truthAt g a t := by
  rcases ht.lt_or_eq with h | h
  · unfold trueAt
    rw [show sampleAt (a :: b :: L) t = some a from if_pos h]
    rfl
  · have e : sampleAt (a :: b :: L) t = sampleAt (b :: L) t := if_neg (by linarith)
    have e2 : sampleAt (b :: L) t = some b := by
      cases L with
      | nil => rfl
      | cons c L =>
        have := (List.pairwise_cons.mp (List.pairwise_cons.mp hs).2).1 c.2 (by simp)
        exact if_pos (by linarith)
    unfold trueAt
    rw [e, e2]
    show truthAt g b t = _
    rw [h, truthAt_self hz, hl]

theorem follows_generated {g : DataGen V U n nu} (hfl : IsFlow g.proc) (hz : ∀ v u s, (g.proc.evaluate ⟨v, some s⟩ u 0).value = v)
    (f : ℝ → V → U) (hraw : ∀ t v, g.inputFunc t v = .raw (f t v)) (x0 : V) :
    ∀ (L : List (V × ℝ)) (a : V × ℝ), ((a :: L).map Prod.snd).Pairwise (· < ·) →
      (∀ (k : ℕ) (x x' : V × ℝ), (a :: L)[k]? = some x → (a :: L)[k + 1]? = some x' → x'.1 = truthAt g x x'.2) →
      Follows g.proc (trueAt g x0 (a :: L)) a.2 ((a :: L).map fun x => ⟨f x.2 x.1, x.2⟩)
  | [], a, hs, hl => trivial
  | b :: L, a, hs, hl => by
    have hs' := (List.pairwise_cons.mp hs).2
    refine ⟨fun s t h1 h2 h3 => ?_, ?_⟩
    · have hb := hl 0 a b rfl rfl
      rw [trueAt_interval hz x0 a b L hs hb s (le_trans h2 h3), trueAt_interval hz x0 a b L hs hb t h3]
      exact truthAt_flow hfl f hraw a s t
    · refine follows_congr _ _ (W' := trueAt g x0 (b :: L)) (fun t ht => ?_) ?_ ?_
        (follows_generated hfl hz f hraw x0 L b hs' (fun k x x' h1 h2 => hl (k + 1) x x' (by simpa using h1) (by simpa using h2)))
      · unfold trueAt
        rw [show sampleAt (a :: b :: L) t = sampleAt (b :: L) t from if_neg (by simp at ht; linarith)]
      · intro v hv
        obtain ⟨x, hx, rfl⟩ := List.mem_map.mp (show v ∈ (b :: L).map (fun x => (⟨f x.2 x.1, x.2⟩ : StInp U)) from hv)
        rcases List.mem_cons.mp hx with rfl | hx
        · exact le_refl _
        · exact ((List.pairwise_cons.mp hs').1 x.2 (List.mem_map_of_mem hx)).le
      · show ((b :: L).map fun x => (⟨f x.2 x.1, x.2⟩ : StInp U)).Pairwise (fun a c => a.stamp ≤ c.stamp)
        rw [List.pairwise_map]
        rw [List.pairwise_map] at hs'
        exact hs'.imp fun h => h.le

theorem follows_take {P : ProcModel V U n} {W : ℝ → V} : ∀ (us : List (StInp U)) (τ : ℝ), Follows P W τ us →
    Follows P W τ us.dropLast
  | [], τ, h => trivial
  | [u], τ, h => trivial
  | [u, u'], τ, h => trivial
  | u :: u' :: u'' :: us, τ, h => ⟨h.1, follows_take (u' :: u'' :: us) u'.stamp h.2⟩

/-- Generated data are perfect. -/
theorem generated_log {g : DataGen V U n nu} (hf : 0 < g.inputFreq) (hinfo : ∀ r ∈ g.info, 0 < r.freq ∧ 0 ≤ r.offset)
    (hfl : IsFlow g.proc) (hz : ∀ v u s, (g.proc.evaluate ⟨v, some s⟩ u 0).value = v)
    (f : ℝ → V → U) (hraw : ∀ t v, g.inputFunc t v = .raw (f t v)) {x0 : V} {start stop : ℝ} {D : GenData V U n}
    (h : g.generate x0 start stop none = .ok D) (h2 : 2 ≤ D.states.length) (hs : (D.states.map Prod.snd).Pairwise (· < ·))
    (hd : ∀ d ∈ D.meas, ∀ s ∈ D.states.map Prod.snd ++ D.meas.map GenMeas.stamp, Distinguishable d.stamp s)
    {t0 : ℝ} (ht0 : (D.states.map Prod.snd).head? = some t0) :
    PerfectLog g.proc (trueAt g x0 D.states) t0 D.inputLog D.measLog ∧ trueAt g x0 D.states t0 = x0 := by
  obtain ⟨c1, ⟨s0, c2⟩, c3⟩ := C56_stamps hf h
  obtain ⟨t0', tN, d1, d2, d3, -⟩ := C57_complete hf h
  rw [ht0] at d1
  cases d1
  obtain ⟨a, b, L, hL⟩ : ∃ a b L, D.states = a :: b :: L := by
    rcases hD : D.states with _ | ⟨a, _ | ⟨b, L⟩⟩
    · rw [hD] at h2; simp at h2
    · rw [hD] at h2; simp at h2
    · exact ⟨a, b, L, rfl⟩
  have ha : a = (x0, t0) := by
    rw [hL] at c2 ht0
    simp only [List.getElem?_cons_zero, Option.some.injEq] at c2
    simp only [List.map_cons, List.head?_cons, Option.some.injEq] at ht0
    rw [c2] at ht0 ⊢
    simp only at ht0
    rw [ht0]
  -- the inputs
  have hin : D.inputLog = (D.states.map fun x => (⟨f x.2 x.1, x.2⟩ : StInp U)).dropLast := by
    apply List.ext_getElem?
    intro k
    have hlen : ((D.states.map fun x => (⟨f x.2 x.1, x.2⟩ : StInp U)).dropLast).length = D.inputs.length := by
      simp; omega
    by_cases hk : k < D.inputs.length
    · have hk' : k < D.states.length := by omega
      have := C56_inputs hf hfl h f hraw k D.states[k] D.inputs[k] (List.getElem?_eq_getElem hk') (List.getElem?_eq_getElem hk)
      unfold GenData.inputLog
      rw [List.getElem?_dropLast, List.getElem?_map, List.getElem?_map, List.getElem?_eq_getElem hk, List.getElem?_eq_getElem hk']
      simp only [Option.map_some]
      rw [this.1, this.2.1 rfl, if_pos (by simp; omega)]
    · rw [List.getElem?_eq_none (l := D.inputLog) (by unfold GenData.inputLog; simp; omega), List.getElem?_eq_none (by rw [hlen]; omega)]
  have hstamp : ∀ u ∈ D.inputLog, t0 ≤ u.stamp ∧ u.stamp ∈ D.states.map Prod.snd := by
    intro u hu
    rw [hin] at hu
    have hu := List.mem_of_mem_dropLast hu
    simp only [List.mem_map] at hu
    obtain ⟨x, hx, rfl⟩ := hu
    refine ⟨?_, List.mem_map_of_mem hx⟩
    rw [hL] at hx hs
    rcases List.mem_cons.mp hx with rfl | hx
    · rw [ha]
    · have := (List.pairwise_cons.mp hs).1 x.2 (List.mem_map_of_mem hx)
      rw [ha] at this
      exact this.le
  have hsorted : D.inputLog.Pairwise (fun a c => a.stamp ≤ c.stamp) := by
    rw [hin]
    refine List.Pairwise.sublist (List.dropLast_sublist _) ?_
    rw [List.pairwise_map]
    rw [List.pairwise_map] at hs
    exact hs.imp fun h => h.le
  have hret : retained StInp.stamp t0 D.inputLog = D.inputLog := by
    unfold retained
    rw [sortByStamp_of_sorted _ _ hsorted, List.filter_eq_self]
    intro u hu
    simpa using (hstamp u hu).1
  have hbt : b.1 = truthAt g a b.2 := C56_truth hf hfl h 0 a b (by rw [hL]; rfl) (by rw [hL]; rfl)
  -- the measurements
  have hmem : ∀ y ∈ D.measLog, ∃ d ∈ D.meas, ∃ v, d.value = some v ∧ y = ⟨⟨d.m, v, some d.stamp, d.model⟩, d.stamp, rfl⟩ := by
    intro y hy
    unfold GenData.measLog at hy
    obtain ⟨d, hd1, hd2⟩ := List.mem_filterMap.mp hy
    unfold GenMeas.toMeas at hd2
    cases hv : d.value with
    | none => rw [hv] at hd2; cases hd2
    | some v =>
      rw [hv] at hd2
      cases hd2
      exact ⟨d, hd1, v, hv, rfl⟩
  have hlate : ∀ d ∈ D.meas, t0 ≤ d.stamp := by
    intro d hdm
    have : d.tag ∈ requestSpec g t0 tN := d3.mem_iff.mp (List.mem_map_of_mem hdm)
    unfold requestSpec at this
    simp only [List.mem_flatMap, List.mem_map] at this
    obtain ⟨r, hr, s, hs1, hs2⟩ := this
    have hst : d.stamp = s := (congrArg (fun z => z.2.2) hs2).symm
    rw [hst]
    unfold gridSpec at hs1
    simp only [List.mem_map] at hs1
    obtain ⟨i, -, rfl⟩ := hs1
    have hr0 : round12 t0 = t0 := by
      have : t0 ∈ gridSpec start stop g.inputFreq := by
        rw [← c1]; exact List.mem_of_mem_head? ht0
      unfold gridSpec at this
      simp only [List.mem_map] at this
      obtain ⟨j, -, rfl⟩ := this
      exact round12_idem _
    calc t0 = round12 t0 := hr0.symm
      _ ≤ _ := round12_mono (by
        have := (hinfo r hr).2
        have : (0 : ℝ) ≤ i / r.freq := div_nonneg (by positivity) (hinfo r hr).1.le
        linarith)
  refine ⟨⟨?_, ?_, ?_, ?_, ?_⟩, ?_⟩
  · cases hi : D.inputLog with
    | nil => exact .inl rfl
    | cons u us => exact .inr ⟨u, by simp, (hstamp u (by rw [hi]; simp)).1⟩
  · cases hi : D.measLog with
    | nil => exact .inl rfl
    | cons y ys =>
      refine .inr ⟨y, by simp, ?_⟩
      obtain ⟨d, hd1, v, -, rfl⟩ := hmem y (by rw [hi]; simp)
      exact hlate d hd1
  · rw [hret, hin]
    apply follows_take
    rw [show t0 = a.2 by rw [ha], hL]
    rw [hL] at hs
    refine follows_generated hfl hz f hraw x0 (b :: L) a hs (fun k x x' k1 k2 => ?_)
    exact C56_truth hf hfl h k x x' (by rw [hL]; exact k1) (by rw [hL]; exact k2)
  · intro y hy _
    obtain ⟨d, hd1, v, hv, rfl⟩ := hmem y hy
    obtain ⟨i, hi, hdi⟩ := List.mem_iff_getElem.mp hd1
    have := C57_values hf hfl h h2 tN d2 i d (by rw [List.getElem?_eq_getElem hi, hdi])
    rcases lt_or_ge d.stamp tN with hlt | hge
    · obtain ⟨k, x, x', yv, k1, k2, k3, k4, k5, k6, -⟩ := this.1 hlt
      left
      show d.model.evaluate ⟨trueAt g x0 D.states d.stamp, some d.stamp⟩ = some v
      have e : trueAt g x0 D.states d.stamp = truthAt g x d.stamp := by
        unfold trueAt
        rw [sampleAt_eq D.states k x x' d.stamp hs k1 k2 k3 k4]
        rfl
      rw [e, k5, ← k6 rfl, hv]
    · rw [this.2 hge] at hv
      cases hv
  · intro y hy s hs'
    obtain ⟨d, hd1, v, hv, rfl⟩ := hmem y hy
    refine hd d hd1 s ?_
    simp only [List.mem_cons, List.mem_append] at hs' ⊢
    rcases hs' with rfl | hs' | hs'
    · exact .inl (List.mem_of_mem_head? ht0)
    · obtain ⟨u, hu, rfl⟩ := List.mem_map.mp hs'
      exact .inl (hstamp u hu).2
    · obtain ⟨z, hz', rfl⟩ := List.mem_map.mp hs'
      obtain ⟨d', hd1', v', -, rfl⟩ := hmem z hz'
      exact .inr (List.mem_map_of_mem hd1')
  · rw [hL]
    rw [hL] at hs
    have hab : a.2 < b.2 := (List.pairwise_cons.mp hs).1 b.2 (by simp)
    have : t0 ≤ b.2 := by rw [ha] at hab; exact hab.le
    rw [trueAt_interval hz x0 a b L hs hbt t0 this]
    rw [show t0 = a.2 by rw [ha], truthAt_self hz, ha]


/-- **C94, the samples.** At the stamps of the generated states the true trajectory has their values. -/
theorem C94_samples {g : DataGen V U n nu} (hz : ∀ v u s, (g.proc.evaluate ⟨v, some s⟩ u 0).value = v) (x0 : V) :
    ∀ (L : List (V × ℝ)), (L.map Prod.snd).Pairwise (· < ·) → ∀ x ∈ L, trueAt g x0 L x.2 = x.1
  | [], hs, x, hx => by simp at hx
  | [a], hs, x, hx => by
    simp at hx
    subst hx
    exact truthAt_self hz x
  | a :: b :: L, hs, x, hx => by
    have hs' := (List.pairwise_cons.mp hs).2
    rcases List.mem_cons.mp hx with rfl | hx
    · have : x.2 < b.2 := (List.pairwise_cons.mp hs).1 b.2 (by simp)
      unfold trueAt
      rw [show sampleAt (x :: b :: L) x.2 = some x from if_pos this]
      exact truthAt_self hz x
    · have hb : b.2 ≤ x.2 := by
        rcases List.mem_cons.mp hx with rfl | hm
        · exact le_refl _
        · exact ((List.pairwise_cons.mp hs').1 x.2 (List.mem_map_of_mem hm)).le
      have ih := C94_samples hz x0 (b :: L) hs' x hx
      unfold trueAt at ih ⊢
      rw [show sampleAt (a :: b :: L) x.2 = sampleAt (b :: L) x.2 from if_neg (by linarith)]
      exact ih

/-- **C94, generator and filter.** Data that the `DataGenerator` produces without noise, given to `run_filter` with an EKF for the same
process model that starts at the generator's initial state, are followed exactly: the run succeeds and every estimate is the ground
truth at its stamp. -/
theorem C94_generated {g : DataGen V U n nu} (hf : 0 < g.inputFreq) (hinfo : ∀ r ∈ g.info, 0 < r.freq ∧ 0 ≤ r.offset)
    (hfl : IsFlow g.proc) (hz : ∀ v u s, (g.proc.evaluate ⟨v, some s⟩ u 0).value = v)
    (f : ℝ → V → U) (hraw : ∀ t v, g.inputFunc t v = .raw (f t v)) {x0 : V} {start stop : ℝ} {D : GenData V U n}
    (h : g.generate x0 start stop none = .ok D) (h2 : 2 ≤ D.states.length) (hs : (D.states.map Prod.snd).Pairwise (· < ·))
    (hd : ∀ d ∈ D.meas, ∀ s ∈ D.states.map Prod.snd ++ D.meas.map GenMeas.stamp, Distinguishable d.stamp s)
    {t0 : ℝ} (ht0 : (D.states.map Prod.snd).head? = some t0)
    (e : EkfEnv V U n) (he : e.proc = g.proc) (h0 : ∀ v, e.plus v 0 = v)
    (hQ : ∀ x u dt, 0 ≤ dt → (e.proc.covariance x u dt).PosSemidef) (hR : ∀ d ∈ D.meas, ∀ s, (d.model.covariance s).PosDef)
    (P0 : Mat n n) (hP : P0.PosSemidef) :
    ∃ rs, runFilter (ekfApi e) ⟨⟨x0, some t0⟩, P0⟩ D.inputLog D.measLog = .ok rs ∧
      ∀ r ∈ rs, ∃ τ, r.state = ⟨trueAt g x0 D.states τ, some τ⟩ ∧ r.cov.PosSemidef := by
  obtain ⟨hlog, hx⟩ := generated_log hf hinfo hfl hz f hraw h h2 hs hd ht0
  rw [← he] at hlog
  refine C94_ekf e h0 hQ (trueAt g x0 D.states) t0 ⟨⟨x0, some t0⟩, P0⟩ (by rw [hx]) hP D.inputLog D.measLog hlog ?_
  intro y hy
  unfold GenData.measLog at hy
  obtain ⟨d, hd1, hd2⟩ := List.mem_filterMap.mp hy
  unfold GenMeas.toMeas at hd2
  cases hv : d.value with
  | none => rw [hv] at hd2; cases hd2
  | some v =>
    rw [hv] at hd2
    cases hd2
    exact hR d hd1

/-- **C94, generator and iterated filter.** -/
theorem C94_generated_iterated {g : DataGen V U n nu} (hf : 0 < g.inputFreq) (hinfo : ∀ r ∈ g.info, 0 < r.freq ∧ 0 ≤ r.offset)
    (hfl : IsFlow g.proc) (hz : ∀ v u s, (g.proc.evaluate ⟨v, some s⟩ u 0).value = v)
    (f : ℝ → V → U) (hraw : ∀ t v, g.inputFunc t v = .raw (f t v)) {x0 : V} {start stop : ℝ} {D : GenData V U n}
    (h : g.generate x0 start stop none = .ok D) (h2 : 2 ≤ D.states.length) (hs : (D.states.map Prod.snd).Pairwise (· < ·))
    (hd : ∀ d ∈ D.meas, ∀ s ∈ D.states.map Prod.snd ++ D.meas.map GenMeas.stamp, Distinguishable d.stamp s)
    {t0 : ℝ} (ht0 : (D.states.map Prod.snd).head? = some t0)
    (e : IekfEnv V U n) (he : e.proc = g.proc) (h0 : ∀ v, e.plus v 0 = v) (hmm : ∀ v, e.minus v v = 0) (lsFuel : ℕ) (P0 : Mat n n)
    (rs : List (SWC V n)) (hrun : runFilter (iekfApi e lsFuel) ⟨⟨x0, some t0⟩, P0⟩ D.inputLog D.measLog = .ok rs) :
    ∀ r ∈ rs, ∃ τ, r.state = ⟨trueAt g x0 D.states τ, some τ⟩ := by
  obtain ⟨hlog, hx⟩ := generated_log hf hinfo hfl hz f hraw h h2 hs hd ht0
  rw [← he] at hlog
  exact C94_iterated e h0 hmm lsFuel (trueAt g x0 D.states) t0 ⟨⟨x0, some t0⟩, P0⟩ (by rw [hx]) D.inputLog D.measLog hlog rs hrun

/-! ### A case -/

theorem round12_two : round12 2 = 2 := round12_of_int (2 * 10 ^ 12) 2 (by norm_num)

theorem round12_32 : round12 (3 / 2) = 3 / 2 := round12_of_int 1500000000000 (3 / 2) (by norm_num)

theorem grid_three : stampGrid 0 3 (1 : ℝ) = .ok [0, 1, 2] := by
  rw [stampGrid_eq one_ne_zero, show (⌈((3 : ℝ) - 0) * 1⌉₊) = 3 by norm_num [Nat.ceil_eq_iff]]
  simp [List.range_succ, round12_zero, round12_one, round12_two]

theorem sorted2 {α : Type} (f : α → ℝ) (a b : α) (h : f a ≤ f b) : sortByStamp f [a, b] = [a, b] := sort2 f a b h

theorem noiseFree_requested (F : ℝ → ℝ → ℝ) :
    (scalarGen F [⟨1, idMeas, 1, 1 / 2⟩]).requested 0 2 = .ok [⟨1, idMeas, 1 / 2, none⟩, ⟨1, idMeas, 3 / 2, none⟩] := by
  unfold DataGen.requested
  simp only [scalarGen, List.mapM_cons, List.mapM_nil, reqMeas]
  rw [stampGrid_eq one_ne_zero, show (⌈((2 : ℝ) - (0 + 1 / 2)) * 1⌉₊) = 2 by
    rw [Nat.ceil_eq_iff two_ne_zero]; constructor <;> norm_num]
  simp only [ok_bindE, pure_bind, List.range_succ, List.range_zero, List.nil_append, List.cons_append, List.map_cons, List.map_nil]
  rw [show (0 : ℝ) + 1 / 2 + ((0 : ℕ) : ℝ) / 1 = 1 / 2 by norm_num, show (0 : ℝ) + 1 / 2 + ((1 : ℕ) : ℝ) / 1 = 3 / 2 by norm_num,
    round12_half, round12_32]
  exact congrArg Except.ok (sort2 _ _ _ (by norm_num))

theorem noiseFree_data :
    (scalarGen (fun x dt => x + dt) [⟨1, idMeas, 1, 1 / 2⟩]).generate 5 0 3 none =
      .ok ⟨[(5, 0), (6, 1), (7, 2)], [((), 0), ((), 1)],
        [⟨1, idMeas, 1 / 2, some fun _ => 5 + 1 / 2⟩, ⟨1, idMeas, 3 / 2, some fun _ => 5 + 3 / 2⟩]⟩ := by
  unfold DataGen.generate
  rw [show (scalarGen (fun x dt => x + dt) [⟨1, idMeas, 1, 1 / 2⟩]).inputFreq = 1 from rfl, grid_three, ok_bindE]
  simp only [List.getLast?_cons_cons, List.getLast?_singleton, Option.getD_some]
  rw [noiseFree_requested, ok_bindE]
  set G := scalarGen (fun x dt => x + dt) [⟨1, idMeas, 1, 1 / 2⟩] with hG
  have hmv : ∀ (v s t : ℝ) (u : Unit × ℝ), G.move (v, s) u t = (v + (t - s), t) := fun v s t u => rfl
  have hin : ∀ (t v : ℝ), (G.inputFunc t v).toInput t = ((), t) := fun t v => rfl
  have hms : ∀ (v t : ℝ), measureState (n := 1) idMeas ⟨v, some t⟩ none = .ok fun _ => v := fun v t => rfl
  have f1 : ∀ u, G.fill none 1 u [⟨1, idMeas, 1 / 2, none⟩, ⟨1, idMeas, 3 / 2, none⟩] 0 (5, 0) =
      .ok ((5 + (1 / 2 - 0), 1 / 2), [⟨1, idMeas, 1 / 2, some fun _ => 5 + (1 / 2 - 0)⟩], [⟨1, idMeas, 3 / 2, none⟩]) := by
    intro u
    unfold DataGen.fill
    rw [if_pos (by norm_num)]
    have f0 : ∀ j x, G.fill none 1 u [⟨1, idMeas, 3 / 2, none⟩] j x = .ok (x, [], [⟨1, idMeas, 3 / 2, none⟩]) :=
      fun j x => if_neg (by norm_num)
    simp only [f0]
    rfl
  have f2 : ∀ u v, G.fill none 2 u [⟨1, idMeas, 3 / 2, none⟩] 1 (v, 1) =
      .ok ((v + (3 / 2 - 1), 3 / 2), [⟨1, idMeas, 3 / 2, some fun _ => v + (3 / 2 - 1)⟩], []) := by
    intro u v
    unfold DataGen.fill
    rw [if_pos (by norm_num)]
    rfl
  have hl : G.loop none [1, 2] 0 0 (5, 0) [⟨1, idMeas, 1 / 2, none⟩, ⟨1, idMeas, 3 / 2, none⟩] 0 =
      .ok ([(5 + (1 / 2 - 0) + (1 - 1 / 2), 1), (5 + (1 / 2 - 0) + (1 - 1 / 2) + (3 / 2 - 1) + (2 - 3 / 2), 2)], [((), 0), ((), 1)],
        [⟨1, idMeas, 1 / 2, some fun _ => 5 + (1 / 2 - 0)⟩,
          ⟨1, idMeas, 3 / 2, some fun _ => 5 + (1 / 2 - 0) + (1 - 1 / 2) + (3 / 2 - 1)⟩], []) := by
    unfold DataGen.loop
    simp only [hin, f1, ok_bindE, DataGen.inputOut, hmv]
    unfold DataGen.loop
    simp only [hin, List.length_singleton, Nat.zero_add, f2, ok_bindE, DataGen.inputOut, hmv]
    unfold DataGen.loop
    rfl
  rw [hl, ok_bindE]
  simp only [pure, Except.pure, List.append_nil]
  rw [sort2 (Prod.snd : Unit × ℝ → ℝ) _ _ (by norm_num), sort2 (GenMeas.stamp (V := ℝ) (n := 1)) _ _ (by norm_num),
    sortByStamp_of_sorted (Prod.snd : ℝ × ℝ → ℝ) _ (by simp [TimeSorted])]
  norm_num

/-- The hypotheses of `C94_generated` hold for an integrator sampled at 0, 1, 2 with measurements at 1/2 and 3/2, and a scalar EKF. -/
example : ∃ rs, runFilter (ekfApi (⟨(scalarGen (fun x dt => x + dt) [⟨1, idMeas, 1, 1 / 2⟩]).proc, true, fun v d => v + d 0, fun _ => 6⟩ :
      EkfEnv ℝ Unit 1)) ⟨⟨5, some 0⟩, 1⟩ [⟨(), 0⟩, ⟨(), 1⟩]
      [⟨⟨1, fun _ => 5 + 1 / 2, some (1 / 2), idMeas⟩, 1 / 2, rfl⟩, ⟨⟨1, fun _ => 5 + 3 / 2, some (3 / 2), idMeas⟩, 3 / 2, rfl⟩] = .ok rs ∧
    ∀ r ∈ rs, r.cov.PosSemidef := by
  obtain ⟨rs, h1, h2⟩ := C94_generated (g := scalarGen (fun x dt => x + dt) [⟨1, idMeas, 1, 1 / 2⟩]) (by norm_num [scalarGen])
    (by simp [scalarGen]) (by intro v u s a b; simp only [scalarGen]; ring) (by intro v u s; simp [scalarGen]) (fun _ _ => ())
    (fun _ _ => rfl) noiseFree_data (by simp) (by simp) (by
      intro d hd s hs
      simp only [List.mem_cons, List.not_mem_nil, or_false] at hd
      simp only [List.map_cons, List.map_nil, List.cons_append, List.nil_append, List.mem_cons, List.not_mem_nil, or_false] at hs
      unfold Distinguishable
      rcases hd with rfl | rfl <;> rcases hs with rfl | rfl | rfl | rfl | rfl <;>
        first | (left; rfl) | (right; norm_num [abs_of_pos, abs_of_neg]))
    (t0 := 0) rfl ⟨(scalarGen (fun x dt => x + dt) [⟨1, idMeas, 1, 1 / 2⟩]).proc, true, fun v d => v + d 0, fun _ => 6⟩ rfl
    (by intro v; simp) (by intro x u dt _; exact PosSemidef.zero) (by
      intro d hd s
      simp only [List.mem_cons, List.not_mem_nil, or_false] at hd
      rcases hd with rfl | rfl <;> exact PosDef.one) 1 PosSemidef.one
  exact ⟨rs, h1, fun r hr => (h2 r hr).elim fun _ h => h.2⟩

end Verif
