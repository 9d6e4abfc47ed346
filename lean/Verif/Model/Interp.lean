import Verif.Model.Stamps
import Verif.Model.Residuals
import Mathlib.Algebra.Order.Floor.Semiring
import Mathlib.Data.Real.Archimedean

/-!
`state_interp` (`navlie/utils/common.py:45-174`).
-/

namespace Verif

variable {V : Type} {n : ℕ}

open Classical in
/-- `np.interp(q, xp, [0, 1, ..., len(xp) - 1])` for `xp` in increasing order: below the range the first index, from the
last entry on the last index, otherwise linear between the last entry `xp[j] ≤ q` and the next. An empty `xp` is a
`ValueError`. -/
noncomputable def npInterpIdx (q : ℝ) (xp : List ℝ) : Except Err ℝ :=
  let j := (xp.takeWhile fun x => decide (x ≤ q)).length - 1
  match xp[0]?, xp[j]?, xp[j + 1]? with
  | some x0, some a, some b => .ok (if q < x0 then 0 else j + (q - a) / (b - a))
  | some x0, some _, none => .ok (if q < x0 then 0 else j)
  | _, _, _ => .error .valueError

open Classical in
/-- `common.py:113-133`: lower index, upper index and fraction for one query. A zero denominator gives NaN or infinity,
on which the loop raises `RuntimeError` (lines 146-147); so does a negative fraction. -/
noncomputable def interpCell (stamps : List ℝ) (q : ℝ) : Except Err (ℕ × ℕ × ℝ) := do
  let mid ← npInterpIdx q stamps
  let lo := ⌊mid⌋₊
  let up := if lo + 1 = stamps.length then stamps.length - 1 else lo + 1
  let t0 ← pyGet stamps 0
  let a ← pyGet stamps lo
  let b ← pyGet stamps up
  if q < t0 ∨ stamps.length ≤ lo + 1 then .ok (lo, up, 0)
  else if b - a = 0 ∨ (q - a) / (b - a) < 0 then .error .runtimeError
  else .ok (lo, up, (q - a) / (b - a))

/-- The stamps that the code works with: a sorted copy (`common.py:109-111`) — the states are not sorted. -/
noncomputable def interpStamps (states : List (V × ℝ)) : List ℝ := sortByStamp id (states.map Prod.snd)

/-- `common.py:113-152`: linear interpolation at one query. -/
noncomputable def interpLinear (o : StateOps V n) (states : List (V × ℝ)) (q : ℝ) : Except Err (V × ℝ) := do
  let c ← interpCell (interpStamps states) q
  let xl ← pyGet states c.1
  let xu ← pyGet states c.2.1
  return (o.plus xl.1 (c.2.2 • o.minus xu.1 xl.1), q)

/-- `common.py:154-164`: the nearest state at one query; its stamp is left as it is. -/
noncomputable def interpNearestState (states : List (V × ℝ)) (q : ℝ) : Except Err (V × ℝ) := do
  let i ← interpNearest (interpStamps states).zipIdx q
  pyGet states i

/-- An element of a list of queries. -/
inductive QItem where
  | num (t : ℝ)      -- a `float` or an `int`
  | stamped (t : ℝ)  -- an object with a `stamp`
  | other            -- anything else

/-- The argument `query_stamps`. -/
inductive QArg where
  | float (t : ℝ)
  | int (t : ℤ)
  | stamped (t : ℝ)
  | list (l : List QItem)

/-- `common.py:96-105`: the stamp of a list element. -/
def QItem.stamp : QItem → Except Err ℝ
  | .num t => .ok t
  | .stamped t => .ok t
  | .other => .error .typeError

/-- The argument `method`; any other name leaves `out` unbound. -/
inductive InterpMethod where
  | linear | nearest | other

/-- One interpolation, by method. -/
noncomputable def interpOne (o : StateOps V n) (m : InterpMethod) (states : List (V × ℝ)) (q : ℝ) :
    Except Err (V × ℝ) :=
  match m with
  | .linear => interpLinear o states q
  | .nearest => interpNearestState states q
  | .other => .error .unboundLocal

/-- The return value: a state or a list of states. -/
inductive InterpOut (V : Type) where
  | one (x : V × ℝ)
  | many (l : List (V × ℝ))

/-- `common.py:45-174` (`state_interp`). An `int` has no `copy` method (`AttributeError`, line 95); a single object with
a stamp is copied but cannot be enumerated (`TypeError`, line 96). -/
noncomputable def stateInterp (o : StateOps V n) (m : InterpMethod) (states : List (V × ℝ)) :
    QArg → Except Err (InterpOut V)
  | .float t => (interpOne o m states t).map .one
  | .int _ => .error .attributeError
  | .stamped _ => .error .typeError
  | .list l => do
    let qs ← l.mapM QItem.stamp
    let out ← qs.mapM (interpOne o m states)
    return .many out

end Verif
