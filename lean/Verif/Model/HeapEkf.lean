import Verif.Model.Heap

/-!
`ExtendedKalmanFilter` (`navlie/filters.py:75-260`) and `run_filter` (`filters.py:1109-1174`) on the heap of
`Verif.Model.Heap`. Process and measurement models are arbitrary code: their methods receive a reference to a state
and may allocate, and even overwrite, objects.

Simplifications: inputs and measurements are values (the filters only read them), the matrices that models return are
values (the filters only compute new arrays from them), `evaluate_with_jacobian` is `evaluate` followed by `jacobian`
(`types.py:388` and `types.py:235`).
-/

namespace Verif.Heap

open Verif Matrix

/-- A process model (`types.py:261-451`): a method gets the heap and a reference to the state. -/
structure HProc (U : Type) (n : ℕ) where
  evaluate : Heap → Ref → Inp U → ℝ → Except Err (Ref × Heap)
  jacobian : Heap → Ref → Inp U → ℝ → Except Err (Mat n n × Heap)
  covariance : Heap → Ref → Inp U → ℝ → Except Err (Mat n n × Heap)

/-- A measurement (`types.py:454-509`) with its model (`types.py:186-258`). -/
structure HMeas (n : ℕ) where
  m : ℕ
  value : Vec m
  stamp : Option ℝ
  evaluate : Heap → Ref → Except Err (Option (Vec m) × Heap)
  jacobian : Heap → Ref → Except Err (Mat m n × Heap)
  covariance : Heap → Ref → Except Err (Mat m m × Heap)

/-- A filter object and what its code reads of the environment: the process model, `self.reject_outliers`,
`chi2.ppf`, the group operations behind `Exp` and `plus`, and the bound on the nesting of states. -/
structure HEkf (U : Type) (n : ℕ) where
  proc : HProc U n
  rejectOutliers : Bool
  chi2ppf99 : ℕ → ℝ
  Exp : LieCls → Arr → Arr
  P : LiePlus
  depth : ℕ

/-- An attribute that must hold an `n × n` array (products with another shape raise `ValueError`). -/
def readMat (n : ℕ) (h : Heap) (r : Ref) : Except Err (Mat n n) := do
  match ← readArr h r with
  | .vec _ => .error .valueError
  | .mat a b M =>
    if e : a = n ∧ b = n then .ok (M.submatrix (Fin.cast e.1.symm) (Fin.cast e.2.symm)) else .error .valueError

/-- `x.state = s` on a `StateWithCovariance`. -/
def setSwcState (h : Heap) (r s : Ref) : Except Err Heap :=
  match h[r]? with
  | some (.swc _ c) => .ok (h.set r (.swc s c))
  | _ => .error .attributeError

/-- `x.covariance = c` on a `StateWithCovariance`. -/
def setSwcCov (h : Heap) (r c : Ref) : Except Err Heap :=
  match h[r]? with
  | some (.swc s _) => .ok (h.set r (.swc s c))
  | _ => .error .attributeError

variable {U : Type} {n : ℕ}

/-- `filters.py:152-159`: the propagation into the copy `xn`, `xs` being `x.state` of the ORIGINAL estimate `x`. -/
noncomputable def HEkf.propagate (f : HEkf U n) (h : Heap) (x xn : Ref) (u : Inp U) (tkm1 dt : ℝ) (xj : Ref) :
    Except Err (Ref × Heap) := do
  let (Q, h1) ← f.proc.covariance h xj u dt                       -- 153
  let (xs, _) ← readSwc h1 x
  let (s', h2) ← f.proc.evaluate h1 xs u dt                       -- 154-156
  let (A, h3) ← f.proc.jacobian h2 xs u dt
  let h4 ← setSwcState h3 xn s'
  let (_, xc) ← readSwc h4 x
  let P ← readMat n h4 xc
  let (c1, h5) := alloc h4 (.arr (.mat n n (A * P * Aᵀ + Q)))     -- 157
  let h6 ← setSwcCov h5 xn c1
  let (c2, h7) := alloc h6 (.arr (.mat n n (symmetrize (A * P * Aᵀ + Q))))   -- 158
  let h8 ← setSwcCov h7 xn c2
  let (sn, _) ← readSwc h8 xn
  let h9 ← setStamp h8 sn (some (tkm1 + dt))                      -- 159
  return (xn, h9)

/-- `filters.py:94-166` (`ExtendedKalmanFilter.predict`), without the `details` dict. -/
noncomputable def HEkf.predict (f : HEkf U n) (h : Heap) (x : Ref) (u : Option (Inp U)) (dt : Option ℝ)
    (xjac : Option Ref) : Except Err (Ref × Heap) := do
  let (xn, h1) ← copySwc f.Exp f.depth h x                        -- 130
  let (xs, _) ← readSwc h1 x
  let st ← stampOf h1 xs
  let (tkm1, dt) ← predictTime st u dt                            -- 134-145
  match u with
  | none => .ok (xn, h1)
  | some u => f.propagate h1 x xn u tkm1 dt (xjac.getD xs)        -- 148-149

/-- `filters.py:208-226`: after `x = x.copy()`, load a missing stamp from the measurement, refuse or predict. -/
noncomputable def HEkf.advance (f : HEkf U n) (h : Heap) (x : Ref) (y : HMeas n) (u : Option (Inp U)) :
    Except Err (Ref × Heap) := do
  let (x1, h1) ← copySwc f.Exp f.depth h x                        -- 208
  let (s1, _) ← readSwc h1 x1
  let st ← stampOf h1 s1
  let h2 ← (match st with
    | none => setStamp h1 s1 y.stamp                              -- 210-211
    | some _ => .ok h1)
  match y.stamp with                                              -- 219
  | none => .ok (x1, h2)
  | some ty => do
    let (s2, _) ← readSwc h2 x1
    let st2 ← stampOf h2 s2
    match st2 with
    | none => .error .typeError
    | some tx =>
      if ty - tx < -(10 ^ 10 : ℝ) then .error .runtimeError
      else
        match u with
        | none => .ok (x1, h2)
        | some u => if ty - tx > (1 / 10 ^ 11 : ℝ) then f.predict h2 x1 (some u) (some (ty - tx)) none else .ok (x1, h2)

/-- `filters.py:245-252`: the correction itself, writing into the attributes of the estimate `x` (the copy). -/
noncomputable def HEkf.update (f : HEkf U n) (h : Heap) (x s : Ref) {m : ℕ} (G : Mat m n) (S : Mat m m) (z : Vec m)
    (P : Mat n n) : Except Err (Ref × Heap) := do
  let Kt ← solve Sᵀ (P * Gᵀ)ᵀ
  let (s', h1) ← plusState f.Exp f.P f.depth h s (List.ofFn (Ktᵀ *ᵥ z))
  let h2 ← setSwcState h1 x s'
  let (c1, h3) := alloc h2 (.arr (.mat n n ((1 - Ktᵀ * G) * P)))
  let h4 ← setSwcCov h3 x c1
  let (c2, h5) := alloc h4 (.arr (.mat n n (symmetrize ((1 - Ktᵀ * G) * P))))
  let h6 ← setSwcCov h5 x c2
  return (x, h6)

/-- `filters.py:228-252`: the fusion part of `correct`. -/
noncomputable def HEkf.fuse (f : HEkf U n) (h : Heap) (x : Ref) (y : HMeas n) (xjac : Option Ref) (reject : Bool) :
    Except Err (Ref × Heap) := do
  let (s, _) ← readSwc h x
  let (yc, h1) ← y.evaluate h s                                   -- 231
  match yc with
  | none => do
    let (_, h2) ← y.jacobian h1 s
    return (x, h2)
  | some yc => do
    let (G, h2) ← y.jacobian h1 s
    let (_, c) ← readSwc h2 x
    let P ← readMat n h2 c                                        -- 235
    let (R, h3) ← y.covariance h2 (xjac.getD s)                   -- 236
    let z : Vec y.m := fun i => y.value i - yc i
    let S := G * P * Gᵀ + R
    let outlier ← if reject then checkOutlier f.chi2ppf99 z S else Except.ok false
    if outlier then .ok (x, h3)
    else do
      let (s2, _) ← readSwc h3 x
      f.update h3 x s2 G S z P

/-- `filters.py:168-260` (`ExtendedKalmanFilter.correct`), without the `details` dict. -/
noncomputable def HEkf.correct (f : HEkf U n) (h : Heap) (x : Ref) (y : HMeas n) (u : Option (Inp U))
    (xjac : Option Ref) (reject : Option Bool) : Except Err (Ref × Heap) := do
  let (x1, h1) ← f.advance h x y u
  f.fuse h1 x1 y xjac (reject.getD f.rejectOutliers)

/-! ### `run_filter` -/

/-- A filter as `run_filter` sees it, on the heap. -/
structure HFilter (I Y : Type) where
  correct : Heap → Ref → Y → I → Except Err (Ref × Heap)
  predict : Heap → Ref → I → ℝ → Except Err (Ref × Heap)
  istamp : I → ℝ
  ystamp : Y → ℝ

/-- `x.stamp` of an estimate (`types.py:552-554`). -/
def swcStamp (h : Heap) (x : Ref) : Except Err (Option ℝ) := do
  let (s, _) ← readSwc h x
  stampOf h s

variable {I Y : Type}

open Classical in
/-- `filters.py:1162-1169`, as `Verif.fuseWhile`. -/
noncomputable def HFilter.fuseWhile (f : HFilter I Y) (u : I) (tnext : ℝ) :
    Heap → List Y → Ref → Except Err (Ref × List Y × Heap)
  | h, [], x => .ok (x, [], h)
  | h, y :: rest, x =>
    if f.ystamp y < tnext then do
      let (x', h') ← f.correct h x y u
      HFilter.fuseWhile f u tnext h' rest x'
    else .ok (x, y :: rest, h)

/-- `filters.py:1157-1174`: the references recorded in `results_list`, and the heap. -/
noncomputable def HFilter.runLoop (f : HFilter I Y) : Heap → List I → List Y → Ref → Except Err (List Ref × Heap)
  | h, u :: u' :: us, rest, x => do
    let (x1, rest1, h1) ← f.fuseWhile u (f.istamp u') h rest x
    let st ← swcStamp h1 x1
    match st with
    | none => .error .typeError
    | some t => do
      let (x2, h2) ← f.predict h1 x1 u (f.istamp u' - t)
      let (rs, h3) ← HFilter.runLoop f h2 (u' :: us) rest1 x2
      return (x1 :: rs, h3)
  | h, _, _, _ => .ok ([], h)

/-- `filters.py:1109-1174` (`run_filter`): `x0` and `P0` are the caller's state and covariance. The sorting also
happens in the caller's lists (1139-1140), which are not on the heap here. -/
noncomputable def HFilter.runFilter (f : HFilter I Y) (depth : ℕ) (h : Heap) (x0 P0 : Ref) (inputs : List I)
    (meas : List Y) : Except Err (List Ref × Heap) := do
  let (x, h1) ← newSwc depth h x0 P0                              -- 1134
  let st ← swcStamp h1 x
  match st with
  | none => .error .valueError                                    -- 1135-1136
  | some t0 =>
    f.runLoop h1 (dropBefore f.istamp t0 (sortByStamp f.istamp inputs))
      (dropBefore f.ystamp t0 (sortByStamp f.ystamp meas)) x

/-- A measurement with its stamp. -/
structure StHMeas (n : ℕ) where
  meas : HMeas n
  stamp : ℝ
  hstamp : meas.stamp = some stamp

/-- The filter object of `HEkf` driven by `run_filter`: `filter.correct(x, y, u)`, `filter.predict(x, u, dt)`
(`filters.py:1164`, `1173`). -/
noncomputable def HEkf.api (f : HEkf U n) : HFilter (StInp U) (StHMeas n) where
  correct h x y u := f.correct h x y.meas (some ⟨u.value, some u.stamp⟩) none none
  predict h x u dt := f.predict h x (some ⟨u.value, some u.stamp⟩) (some dt) none
  istamp u := u.stamp
  ystamp y := y.stamp

end Verif.Heap
