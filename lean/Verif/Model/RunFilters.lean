import Verif.Model.RunFilter
import Verif.Model.Sigma

/-!
The iterated and the sigma point filters as `run_filter` drives them (`navlie/filters.py:1109-1174`).
-/

namespace Verif

variable {V U : Type} {n k : ℕ}

/-- A `SigmaPointKalmanFilter` (`filters.py:523-775`) driven by `run_filter` (`filters.py:1166, 1173`): `correct(x, y, u)` and
`predict(x, u, dt)` with inputs that carry their covariance, as the filter demands (`filters.py:602-609`). -/
noncomputable def spkfApi (f : SpkfEnv V U n k) : FilterApi (SWC V n) (StInp (U × Mat k k)) (StMeas V n) where
  correct x y u := f.correct x y.meas (some ⟨u.value.1, some u.stamp, some u.value.2⟩) none
  predict x u dt := f.predict x (some ⟨u.value.1, some u.stamp, some u.value.2⟩) (some dt) none
  xstamp x := x.state.stamp
  istamp u := u.stamp
  ystamp y := y.stamp

/-- An `IteratedKalmanFilter` (`filters.py:263-449`) driven by `run_filter`; it inherits `predict` from the EKF. `lsFuel` bounds the
passes of a single line search (running out is `diverges`). -/
noncomputable def iekfApi (f : IekfEnv V U n) (lsFuel : ℕ) : FilterApi (SWC V n) (StInp U) (StMeas V n) where
  correct x y u := f.correctI lsFuel x y.meas (some ⟨u.value, some u.stamp⟩) none none
  predict x u dt := f.predict x (some ⟨u.value, some u.stamp⟩) (some dt) none
  xstamp x := x.state.stamp
  istamp u := u.stamp
  ystamp y := y.stamp

/-- A `GaussianSumFilter` (`filters.py:982-1106`) driven by `run_gsf_filter` (`filters.py:1256-1318`), which is `run_filter` with a mixture
for the estimate; `x.stamp` is that of the first component (`lib/states.py:667-669`). -/
noncomputable def gsfApi {M : ℕ} (e : EkfEnv V U n) : FilterApi (Mixture V n (M + 1)) (StInp U) (StMeas V n) where
  correct x y u := gsfCorrect e x y.meas (some ⟨u.value, some u.stamp⟩)
  predict x u dt := gsfPredict e x (some ⟨u.value, some u.stamp⟩) (some dt)
  xstamp x := (x.states 0).state.stamp
  istamp u := u.stamp
  ystamp y := y.stamp

end Verif
