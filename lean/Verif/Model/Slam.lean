import Verif.Model.Composite

/-!
How the measurement models of several sub-states address them in a composite state
(`navlie/lib/models.py:494-665, 792-883`).
-/

namespace Verif

variable {K L : Type} [DecidableEq K]

/-- `d[k] = B` for a Python dictionary as a list in insertion order: an existing key keeps its place. -/
def blockDictSet (d : List (K × DMat)) (k : K) (B : DMat) : List (K × DMat) :=
  if d.any (fun e => e.1 = k) then d.map (fun e => if e.1 = k then (k, B) else e) else d ++ [(k, B)]

/-- `models.py:521-529` (`PointRelativePositionSLAM.evaluate`), `614-617` (`CameraProjection.evaluate`), `826-836`
(`RangePoseToPose.evaluate`): both sub-states are looked up by id; `f` is the formula. -/
def twoEval {β : Type} (f : CState K L → CState K L → Except Err β) (i j : K) (l : List (CState K L)) : Except Err β := do
  let a ← getStateById l i
  let b ← getStateById l j
  f a b

/-- `models.py:619-654` (`CameraProjection.jacobian`), `838-880` (`RangePoseToPose.jacobian`): the two blocks are stored under
the two ids. -/
def twoJacobian (o : LeafOps L) (blocks : CState K L → CState K L → Except Err (DMat × DMat)) (i j : K) (l : List (CState K L)) :
    Except Err DMat := do
  let a ← getStateById l i
  let b ← getStateById l j
  let B ← blocks a b
  jacobianFromBlocks o l (blockDictSet (blockDictSet [] i B.1) j B.2)

/-- `models.py:531-560` (`PointRelativePositionSLAM.jacobian`): the sub-states are looked up by id, but the blocks are stored
under the ids of the FIRST and SECOND sub-state (lines 555-559). -/
def slamJacobian (o : LeafOps L) (blocks : CState K L → CState K L → Except Err (DMat × DMat)) (i j : K) (l : List (CState K L)) :
    Except Err DMat := do
  let a ← getStateById l i
  let b ← getStateById l j
  let B ← blocks a b
  let k0 ← pyGet (l.map CState.id) 0
  let k1 ← pyGet (l.map CState.id) 1
  jacobianFromBlocks o l (blockDictSet (blockDictSet [] k0 B.1) k1 B.2)

end Verif
