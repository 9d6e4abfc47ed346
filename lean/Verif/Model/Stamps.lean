import Verif.Model.RunFilter
import Verif.Model.Composite

/-!
Time stamp utilities of `navlie/utils/common.py`: `schedule_sequential_measurements`, `associate_stamps`,
`find_nearest_stamp_idx`, and `np.unique`.
-/

namespace Verif

/-- `common.py:260-288` (`schedule_sequential_measurements`) for `n` models: the offsets and the new frequency. An
empty list of models divides by zero (`ZeroDivisionError`); so does `freq = 0`. -/
noncomputable def scheduleSequential (n : ℕ) (freq : ℝ) : Except Err (List ℝ × ℝ) :=
  open Classical in
  if n = 0 ∨ freq = 0 then .error .zeroDivision
  else .ok ((List.range n).map fun i : ℕ => (i : ℝ) * (1 / freq), freq / n)

/-- `common.py:321-326`: all pairs closer than `max_difference`, as `(difference, idx_a, idx_b)`, `idx_a` outermost. -/
noncomputable def potentialMatches (as bs : List ℝ) (offset maxDiff : ℝ) : List (ℝ × ℕ × ℕ) :=
  as.zipIdx.flatMap fun a => bs.zipIdx.filterMap fun b =>
    open Classical in if |a.1 - (b.1 + offset)| < maxDiff then some (|a.1 - (b.1 + offset)|, a.2, b.2) else none

/-- Python's order of tuples. -/
def tupleLe (p q : ℝ × ℕ × ℕ) : Prop :=
  p.1 < q.1 ∨ (p.1 = q.1 ∧ (p.2.1 < q.2.1 ∨ (p.2.1 = q.2.1 ∧ p.2.2 ≤ q.2.2)))

/-- `common.py:331-335`: the greedy loop; `fs`, `ss` are `first_idxes`, `second_idxes`. -/
def greedyMatch : List (ℝ × ℕ × ℕ) → List ℕ → List ℕ → List (ℕ × ℕ)
  | [], _, _ => []
  | (_, a, b) :: l, fs, ss =>
    if a ∈ fs ∧ b ∈ ss then (a, b) :: greedyMatch l (fs.erase a) (ss.erase b) else greedyMatch l fs ss

/-- Python's order of pairs of integers. -/
def pairLe (p q : ℕ × ℕ) : Bool := decide (p.1 < q.1 ∨ (p.1 = q.1 ∧ p.2 ≤ q.2))

open Classical in
/-- `common.py:291-339` (`associate_stamps`). -/
noncomputable def associateStamps (as bs : List ℝ) (offset maxDiff : ℝ) : List (ℕ × ℕ) :=
  (greedyMatch ((potentialMatches as bs offset maxDiff).mergeSort fun p q => decide (tupleLe p q))
    (List.range as.length) (List.range bs.length)).mergeSort pairLe

open Classical in
/-- `scipy.interpolate.interp1d(x, y, "nearest", fill_value="extrapolate")` at one query: `x` is sorted together
with `y` (stable), the breakpoints are the midpoints, and `searchsorted(..., side="left")` counts the breakpoints
smaller than the query. -/
noncomputable def interpNearest (pts : List (ℝ × ℕ)) (q : ℝ) : Except Err ℕ :=
  let s := sortByStamp Prod.fst pts
  let mids := List.zipWith (fun a b => a / 2 + b / 2) (s.map Prod.fst) (s.tail.map Prod.fst)
  match s[(mids.takeWhile fun m => decide (m < q)).length]? with
  | some p => .ok p.2
  | none => .error .valueError

/-- `common.py:342-382` (`find_nearest_stamp_idx`), one query. An empty list of stamps raises. -/
noncomputable def findNearestIdx (stamps : List ℝ) (q : ℝ) : Except Err ℕ := interpNearest stamps.zipIdx q

open Classical in
/-- `np.unique`: the distinct entries in increasing order. -/
noncomputable def npUnique (l : List ℝ) : List ℝ := (sortByStamp id l).dedup

end Verif
