import Verif.Model.Results
import Verif.Model.RunFilter

/-!
Plots over time: `navlie/utils/plot.py:12-307`.

A plot is modelled by what is drawn on each axes, in the order of the calls. Colours, widths and transparencies are left out. NaN, which
matplotlib does not draw, is `none`. A call that raises may leave axes half drawn: this is kept for `plot_nees` (where it can happen
on axes of the caller by a documented argument) and left out for the others.
-/

namespace Verif

open Matrix

/-- The labels of lines: given by the caller, or one of the two of `plot_nees`. Simplification: a label of the caller is a text that does
not start with an underscore (these stay out of the legend) and is not one of the two others. -/
inductive PlotLabel where
  | user (s : String)
  | expected
  | conf (percent : ℤ)
  deriving DecidableEq

/-- The calls `ax.plot`, `ax.fill_between` and `ax.scatter`. -/
inductive Draw where
  | line (x : List ℝ) (y : List (Option ℝ)) (label : Option PlotLabel)
  | band (x : List ℝ) (upper lower : List (Option ℝ))
  | dots (x : List ℝ) (y : List (Option ℝ))

/-- The argument `axs`: `None`, an `Axes`, or an array of `Axes` (one-dimensional, or the order of `ravel("F")`). -/
inductive AxArg where
  | new
  | one
  | array (k : ℕ)

/-! ### `plot_error` -/

/-- A row of a `GaussianResultList` whose arrays `error` and `three_sigma` have `d` columns. -/
structure ErrRow (d : ℕ) where
  stamp : ℝ
  error : Vec d
  threeSigma : Vec d

/-- `plot.py:46-53`: the number of rows and columns of the new axes. -/
def errorGrid (d : ℕ) : ℕ × ℕ := (if d < 3 then d else 3, (d + 2) / 3)

/-- `plot.py:67-76`: what is drawn for component `i`. -/
noncomputable def errorPanel {d : ℕ} (rows : List (ErrRow d)) (bounds : Bool) (label : Option PlotLabel) (i : Fin d) : List Draw :=
  (if bounds then [Draw.band (rows.map ErrRow.stamp) (rows.map fun r => some (r.threeSigma i)) (rows.map fun r => some (-r.threeSigma i))]
    else []) ++ [Draw.line (rows.map ErrRow.stamp) (rows.map fun r => some (r.error i)) label]

/-- `plot.py:12-76` (`plot_error`): what is drawn on each axes, in the order of `axs.ravel("F")`. The arrays of an empty list of results
have one axis (`shape[1]` is an `IndexError`); `plt.subplots(1, 1)` returns an `Axes`, which has no `ravel`. -/
noncomputable def plotError {d : ℕ} (rows : List (ErrRow d)) (axs : AxArg) (bounds : Bool) (label : Option PlotLabel) :
    Except Err (List (List Draw)) := do
  if rows.isEmpty then .error .indexError
  let k ← match axs with
    | .new =>
      if d = 0 then Except.error Err.valueError
      else if d = 1 then Except.error Err.attributeError
      else Except.ok ((errorGrid d).1 * (errorGrid d).2)
    | .one => Except.error Err.attributeError
    | .array k => if k = 0 then Except.error Err.indexError else Except.ok k
  if k < d then .error .indexError
  return (List.finRange d).map (errorPanel rows bounds label) ++ List.replicate (k - d) []

/-! ### `plot_nees` -/

/-- The columns of a `GaussianResultList` (or `MonteCarloResult`) that `plot_nees` uses. -/
structure NeesRow where
  stamp : ℝ
  nees : ℝ
  dof : ℝ

/-- The labels in the legend of an axes. -/
def legendLabels (drawn : List Draw) : List PlotLabel :=
  drawn.filterMap fun d => match d with
    | .line _ _ l => l
    | _ => none

open Classical in
/-- `plot.py:79-155` (`plot_nees`) on an axes with the drawings `drawn`: the drawings afterwards, and the exception if one is raised.
`confidence_interval` is `None` or a number (0 is false); `ppf p d` is `chi2.ppf(p, df=d)`. -/
noncomputable def plotNees (ppf : ℝ → ℝ → ℝ) (trials : ℕ) (drawn : List Draw) (rows : List NeesRow) (label : Option PlotLabel)
    (conf : Option ℝ) (normalize : Bool) : List Draw × Option Err :=
  let s : NeesRow → ℝ := fun r => if normalize then r.dof else 1
  let existing := legendLabels drawn
  let st := rows.map NeesRow.stamp
  let expectedLabel := if PlotLabel.expected ∈ existing then none else some PlotLabel.expected
  let drawn := drawn ++ [Draw.line st (rows.map fun r => some (r.nees / s r)) label]
  match conf with
  | none => (drawn, none)
  | some c =>
    if c = 0 then (drawn, none)
    else
      let ci := PlotLabel.conf ⌊c * 100⌋
      let ciLabel := if ci ∈ existing then none else some ci
      let drawn := drawn ++ [Draw.line st (rows.map fun r => some (r.dof / s r)) expectedLabel]
      match neesUpperBound ppf trials (rows.map NeesRow.dof) c true with
      | .error e => (drawn, some e)
      | .ok up =>
        let drawn := drawn ++ [Draw.line st (List.zipWith (fun b r => some (b / s r)) up rows) ciLabel]
        match neesLowerBound ppf trials (rows.map NeesRow.dof) c with
        | .error e => (drawn, some e)
        | .ok lo => (drawn ++ [Draw.line st (List.zipWith (fun b r => some (b / s r)) lo rows) none], none)

/-! ### `plot_meas` -/

variable {S : Type}

/-- A measurement model as the plots use it: values and the diagonal of the covariance (`np.atleast_2d` of it). -/
structure PModel (S : Type) where
  evaluate : S → Option (List ℝ)
  variances : S → List ℝ

/-- A measurement as the plots use it: `np.ravel(value)`, its stamp and the identity of its model. -/
structure PMeas where
  value : List ℝ
  stamp : ℝ
  model : ℕ

open Classical in
/-- `scipy.interpolate.interp1d(x, indexes, "nearest", fill_value="extrapolate")` at `t`, for increasing `x`: the number of midpoints
between neighbours that lie below `t`. -/
noncomputable def nearestIdx (xs : List ℝ) (t : ℝ) : ℕ :=
  ((List.zipWith (fun b a => b / 2 + a / 2) xs.tail xs).filter fun m => decide (m < t)).length

/-- `plot.py:189-210`: the state that `nearest_state` leads to. `interp1d` sorts the stamps (stably), with their indexes. -/
noncomputable def nearestState (states : List (S × ℝ)) (t : ℝ) : Option S :=
  let L := sortByStamp Prod.snd states
  (L[nearestIdx (L.map Prod.snd) t]?).map Prod.fst

open Classical in
/-- `plot.py:203-216`: the row of the arrays `y_meas`, `y_true` and `three_sigma` of one measurement. Square roots of negative numbers
are NaN. -/
noncomputable def measRow (m : PModel S) (y : PMeas) (x : S) : List (Option ℝ) × List (Option ℝ) × List (Option ℝ) :=
  (y.value.map some,
    match m.evaluate x with
    | none => (y.value.map fun _ => none, y.value.map fun _ => none)
    | some v => (v.map some, (m.variances x).map fun r => if r < 0 then none else some (3 * Real.sqrt r)))

/-- `plot.py:203-216`: one pass of the loop over the measurements. -/
noncomputable def measRowAt (M : ℕ → PModel S) (states : List (S × ℝ)) (y : PMeas) :
    Except Err (List (Option ℝ) × List (Option ℝ) × List (Option ℝ)) :=
  match nearestState states y.stamp with
  | some x => .ok (measRow (M y.model) y x)
  | none => .error .valueError

/-- Addition of numbers that may be NaN. -/
noncomputable def nanAdd (a b : Option ℝ) : Option ℝ := a.bind fun x => b.map fun y => x + y

/-- Subtraction of numbers that may be NaN. -/
noncomputable def nanSub (a b : Option ℝ) : Option ℝ := a.bind fun x => b.map fun y => x - y

/-- `np.array(rows)`: rows of different lengths are a `ValueError` (numpy 1.24 or later). -/
def rect (rows : List (List (Option ℝ))) : Except Err Unit :=
  match rows with
  | [] => .ok ()
  | r :: rs => if rs.all fun q => q.length == r.length then .ok () else .error .valueError

/-- `a[:, i]`. -/
def column (rows : List (List (Option ℝ))) (i : ℕ) : Except Err (List (Option ℝ)) :=
  rows.mapM fun r => match r[i]? with
    | some v => Except.ok v
    | none => Except.error Err.indexError

/-- `plot.py:236-251`: what is drawn for component `i`. -/
noncomputable def measPanel (stamps : List ℝ) (meas truth sigma : List (List (Option ℝ))) (i : ℕ) : Except Err (List Draw) := do
  let y ← column meas i
  let v ← column truth i
  let s ← column sigma i
  return [.dots stamps y, .line stamps v (some (.user "Modelled")), .band stamps (List.zipWith nanAdd v s) (List.zipWith nanSub v s)]

/-- `plot.py:235-236`: the same on one of `k` axes. -/
noncomputable def measPanelOf (k : ℕ) (stamps : List ℝ) (meas truth sigma : List (List (Option ℝ))) (i : ℕ) : Except Err (List Draw) :=
  if k ≤ i then .error .indexError else measPanel stamps meas truth sigma i

/-- What `plot_meas` leaves behind: the caller's list of measurements, which it sorts in place, and the drawings on each axes. -/
structure MeasPlot where
  meas : List PMeas
  panels : List (List Draw)

/-- `plot.py:225-235`: the number of axes. -/
def measAxes (size : ℕ) : AxArg → Except Err ℕ
  | .new => if size = 0 then .error .valueError else .ok size
  | .one => .ok 1
  | .array k => if k = 0 then .error .indexError else .ok k

/-- `plot.py:158-251` (`plot_meas`). Not modelled: what `interp1d` raises for an empty list of states (here: `ValueError`). -/
noncomputable def plotMeas (M : ℕ → PModel S) (meas : List PMeas) (states : List (S × ℝ)) (axs : AxArg) : Except Err MeasPlot := do
  let ys := sortByStamp PMeas.stamp meas
  let rows ← ys.mapM (measRowAt M states)
  rect (rows.map fun r => r.1)
  rect (rows.map fun r => r.2.1)
  rect (rows.map fun r => r.2.2)
  match ys with
  | [] => .error .indexError
  | y :: _ =>
    let k ← measAxes y.value.length axs
    let panels ← (List.range y.value.length).mapM
      (measPanelOf k (ys.map PMeas.stamp) (rows.map fun r => r.1) (rows.map fun r => r.2.1) (rows.map fun r => r.2.2))
    return ⟨ys, panels ++ List.replicate (k - panels.length) []⟩

/-! ### `plot_meas_by_model` -/

/-- `plot.py:283-287`: append to the entry of a dictionary, or make a new one at the end. -/
def addMeas (y : PMeas) : List (ℕ × List PMeas) → List (ℕ × List PMeas)
  | [] => [(y.model, [y])]
  | (m, l) :: g => if m = y.model then (m, l ++ [y]) :: g else (m, l) :: addMeas y g

/-- `plot.py:281-287`. -/
def groupMeas (meas : List PMeas) : List (ℕ × List PMeas) := meas.foldl (fun g y => addMeas y g) []

/-- `plot.py:292-302`: the loop over the groups, from group `i` on. -/
noncomputable def plotGroups (M : ℕ → PModel S) (states : List (S × ℝ)) (given : Option ℕ) : ℕ → List (ℕ × List PMeas) →
    Except Err (List (ℕ × MeasPlot))
  | _, [] => .ok []
  | i, (m, l) :: gs => do
    let ax ← match given with
      | none => Except.ok AxArg.new
      | some k => if k ≤ i then Except.error Err.indexError else Except.ok AxArg.one
    let p ← plotMeas M l states ax
    let r ← plotGroups M states given (i + 1) gs
    return (m, p) :: r

/-- `plot.py:254-307` (`plot_meas_by_model`): the plots in the order of the groups. The function returns the figure of the last one: with
no measurements this is an `UnboundLocalError`. -/
noncomputable def plotMeasByModel (M : ℕ → PModel S) (meas : List PMeas) (states : List (S × ℝ)) (axs : AxArg) :
    Except Err (List (ℕ × MeasPlot)) := do
  let given ← match axs with
    | .new => Except.ok (none : Option ℕ)
    | .one => Except.error Err.attributeError
    | .array k => Except.ok (some k)
  let r ← plotGroups M states given 0 (groupMeas meas)
  if r.isEmpty then .error .unboundLocal
  return r

end Verif
