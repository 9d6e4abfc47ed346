import Verif.Model.Ekf
import Verif.Model.Imm
import Mathlib.Data.Real.Basic

/-!
The drivers `run_filter`, `run_imm_filter`, `run_gsf_filter` (`navlie/filters.py:1109-1318`),
over an abstract filter.
-/

namespace Verif

/-- The filter as the drivers see it: `correct(x, y, u)`, `predict(x, u, dt)`, the stamp of an estimate
(`None` possible) and the stamps of inputs and measurements (assumed present: sorting `None` raises). -/
structure FilterApi (X I Y : Type) where
  correct : X → Y → I → Except Err X
  predict : X → I → ℝ → Except Err X
  xstamp : X → Option ℝ
  istamp : I → ℝ
  ystamp : Y → ℝ

open Classical in
/-- `list.sort(key=lambda x: x.stamp)` (stable), `filters.py:1139-1140`. -/
noncomputable def sortByStamp {α : Type} (stamp : α → ℝ) (l : List α) : List α :=
  l.mergeSort fun a b => decide (stamp a ≤ stamp b)

open Classical in
/-- `filters.py:1143-1151`: cut the list at the first entry not older than `t0`; if there is no such
entry the `for` loop ends without cutting anything. -/
noncomputable def dropBefore {α : Type} (stamp : α → ℝ) (t0 : ℝ) (l : List α) : List α :=
  if ∃ a ∈ l, t0 ≤ stamp a then l.dropWhile fun a => decide (stamp a < t0) else l

variable {X I Y : Type}

open Classical in
/-- `filters.py:1162-1169`: the inner `while` loop. `rest` is `meas_data[meas_idx:]`; `y` is its head. Once
`meas_idx` reaches the end, `y` stays at the last measurement and the second conjunct ends the loop. -/
noncomputable def fuseWhile (f : FilterApi X I Y) (u : I) (tnext : ℝ) :
    List Y → X → Except Err (X × List Y)
  | [], x => .ok (x, [])
  | y :: rest, x =>
    if f.ystamp y < tnext then do
      let x' ← f.correct x y u
      fuseWhile f u tnext rest x'
    else .ok (x, y :: rest)

/-- `filters.py:1171-1173`: `x.stamp` is `None` only if the filter lost it (`None` arithmetic raises). -/
noncomputable def predictTo (f : FilterApi X I Y) (x : X) (u : I) (tnext : ℝ) : Except Err X :=
  match f.xstamp x with
  | none => .error .typeError
  | some t => f.predict x u (tnext - t)

/-- `filters.py:1157-1174`: the main loop over `k in range(len(input_data) - 1)`. -/
noncomputable def runLoop (f : FilterApi X I Y) : List I → List Y → X → Except Err (List X)
  | u :: u' :: us, rest, x => do
    let (x1, rest1) ← fuseWhile f u (f.istamp u') rest x
    let x2 ← predictTo f x1 u (f.istamp u')
    let rs ← runLoop f (u' :: us) rest1 x2
    return x1 :: rs
  | _, _, _ => .ok []

/-- `navlie/filters.py:1109-1174` (`run_filter`) and `1256-1318` (`run_gsf_filter`): the sort also happens in the
caller's lists, a side effect outside this model. -/
noncomputable def runFilter (f : FilterApi X I Y) (x0 : X) (inputs : List I) (meas : List Y) :
    Except Err (List X) :=
  match f.xstamp x0 with
  | none => .error .valueError
  | some t0 =>
    runLoop f (dropBefore f.istamp t0 (sortByStamp f.istamp inputs))
      (dropBefore f.ystamp t0 (sortByStamp f.ystamp meas)) x0

/-- `filters.py:1230-1252`: the main loop of `run_imm_filter`, which records BEFORE fusing the measurements of
the interval. `f.correct` stands for `interaction` followed by `correct` (lines 1241-1242). -/
noncomputable def runImmLoop (f : FilterApi X I Y) : List I → List Y → X → Except Err (List X)
  | u :: u' :: us, rest, x => do
    let (x1, rest1) ← fuseWhile f u (f.istamp u') rest x
    let x2 ← predictTo f x1 u (f.istamp u')
    let rs ← runImmLoop f (u' :: us) rest1 x2
    return x :: rs
  | _, _, _ => .ok []

/-- `navlie/filters.py:1180-1253` (`run_imm_filter`), `x0` the initial mixture (all components equal). -/
noncomputable def runImm (f : FilterApi X I Y) (x0 : X) (inputs : List I) (meas : List Y) :
    Except Err (List X) :=
  match f.xstamp x0 with
  | none => .error .valueError
  | some t0 =>
    runImmLoop f (dropBefore f.istamp t0 (sortByStamp f.istamp inputs))
      (dropBefore f.ystamp t0 (sortByStamp f.ystamp meas)) x0

variable {V U : Type} {n M : ℕ}

/-- An input with its stamp. -/
structure StInp (U : Type) where
  value : U
  stamp : ℝ

/-- A measurement with its stamp. -/
structure StMeas (V : Type) (n : ℕ) where
  meas : Meas V n
  stamp : ℝ
  hstamp : meas.stamp = some stamp

/-- An `ExtendedKalmanFilter` driven by `run_filter`. -/
noncomputable def ekfApi (e : EkfEnv V U n) : FilterApi (SWC V n) (StInp U) (StMeas V n) where
  correct x y u := e.correct x y.meas (some ⟨u.value, some u.stamp⟩) none none
  predict x u dt := e.predict x (some ⟨u.value, some u.stamp⟩) (some dt) none
  xstamp x := x.state.stamp
  istamp u := u.stamp
  ystamp y := y.stamp

/-- An `InteractingModelFilter` driven by `run_imm_filter` (at least one model). -/
noncomputable def immApi (f : Imm V U n (M + 1)) :
    FilterApi (Mixture V n (M + 1)) (StInp U) (StMeas V n) where
  correct x y u := do
    let x' ← f.interaction x
    f.correct x' y.meas (some ⟨u.value, some u.stamp⟩)
  predict x u dt := f.predict x (some ⟨u.value, some u.stamp⟩) (some dt)
  xstamp x := (x.states 0).state.stamp
  istamp u := u.stamp
  ystamp y := y.stamp

end Verif
