import Verif.Model.RunFilter
import Mathlib.Algebra.Order.Archimedean.Real.Basic
import Mathlib.Algebra.Order.Floor.Semiring

/-!
Data generation: `navlie/datagen.py`.
-/

namespace Verif

variable {V U : Type} {n nu : ℕ}

open Classical in
/-- `np.rint`: round to the nearest integer, ties to even. -/
noncomputable def rint (x : ℝ) : ℤ :=
  if Int.fract x < 1 / 2 then ⌊x⌋
  else if 1 / 2 < Int.fract x then ⌊x⌋ + 1
  else if Even ⌊x⌋ then ⌊x⌋ else ⌊x⌋ + 1

/-- `np.round(x, 12)`: scale, `rint`, scale back (exact arithmetic). -/
noncomputable def round12 (x : ℝ) : ℝ := (rint (x * 10 ^ 12) : ℝ) / 10 ^ 12

/-- `np.arange(a, b, step)`: `ceil((b - a) / step)` values `a + i * step` (exact arithmetic). -/
noncomputable def arange (a b step : ℝ) : List ℝ :=
  (List.range ⌈(b - a) / step⌉₊).map fun i : ℕ => a + (i : ℝ) * step

open Classical in
/-- `np.round(np.arange(a, b, 1 / freq), 12)` (`datagen.py:163-164`, `172-173`); a zero frequency (a Python number)
raises `ZeroDivisionError`. -/
noncomputable def stampGrid (a b freq : ℝ) : Except Err (List ℝ) :=
  if freq = 0 then .error .zeroDivision else .ok ((arange a b (1 / freq)).map round12)

/-- What `input_func(t, x)` returns: a raw value, or an object with its own stamp (`datagen.py:196-208`).
Simplification: the covariance attached to the input is omitted; a stamped object has a numeric stamp. -/
inductive InputVal (U : Type) where
  | raw (u : U)
  | stamped (u : U) (stamp : ℝ)

/-- `datagen.py:201-208`: a raw value becomes a `VectorInput` stamped with the sample time (`input_func` is called
twice with the same arguments, which is the same as once for a function), an object with a stamp is used as it is. -/
def InputVal.toInput (t : ℝ) : InputVal U → U × ℝ
  | .raw u => (u, t)
  | .stamped u s => (u, s)

/-- One entry of `_meas_model_info`: a measurement model with its frequency and offset. -/
structure MeasReq (V : Type) (n : ℕ) where
  m : ℕ
  model : MeasModel V n m
  freq : ℝ
  offset : ℝ

/-- A `Measurement` under construction: the value is `None` until filled (`datagen.py:174`). -/
structure GenMeas (V : Type) (n : ℕ) where
  m : ℕ
  model : MeasModel V n m
  stamp : ℝ
  value : Option (Vec m)

/-- The source of randomness: `randvec(Q)` for the `k`-th input, `randvec(R)` for the `j`-th measurement
(`utils/common.py:177-204`: `cholesky(cov) @ randn`, which raises when `cov` is not positive definite). The draws are
arbitrary functions of their position: each is used once. -/
structure NoiseSrc (nu : ℕ) where
  input : ℕ → Mat nu nu → Except Err (Vec nu)
  meas : ℕ → (m : ℕ) → Mat m m → Except Err (Vec m)

/-- A `DataGenerator` object: process model, input function, input covariance function, input frequency,
`_meas_model_info`. `uplus` is the input's `plus`. -/
structure DataGen (V U : Type) (n nu : ℕ) where
  proc : ProcModel V U n
  inputFunc : ℝ → V → InputVal U
  inputCov : ℝ → Mat nu nu
  inputFreq : ℝ
  info : List (MeasReq V n)
  uplus : U → Vec nu → U

/-- `datagen.py:119-134` (`add_measurement_model`). -/
def DataGen.addModel (g : DataGen V U n nu) (r : MeasReq V n) : DataGen V U n nu := { g with info := g.info ++ [r] }

/-- `datagen.py:278-287` for one state: `y.shape` of `None` raises `AttributeError`; noise is added when requested. -/
def measureState {m : ℕ} (model : MeasModel V n m) (x : St V) (noise : Option (Mat m m → Except Err (Vec m))) :
    Except Err (Vec m) :=
  match model.evaluate x with
  | none => .error .attributeError
  | some y =>
    match noise with
    | none => .ok y
    | some draw => do
      let w ← draw (model.covariance x)
      return y + w

/-- `datagen.py:244-296` (`generate_measurement`) for a list of states: one measurement per state with the state's
stamp. (For a single state the only element of the list is returned.) -/
def generateMeasurements {m : ℕ} (model : MeasModel V n m) (xs : List (St V))
    (noise : Option (ℕ → Mat m m → Except Err (Vec m))) : Except Err (List (Vec m × Option ℝ)) :=
  xs.zipIdx.mapM fun p => do
    let y ← measureState model p.1 (noise.map fun f => f p.2)
    return (y, p.1.stamp)

/-- `datagen.py:169-175`: the measurements requested by one model, without values. -/
noncomputable def reqMeas (t0 tN : ℝ) (r : MeasReq V n) : Except Err (List (GenMeas V n)) := do
  let stamps ← stampGrid (t0 + r.offset) tN r.freq
  return stamps.map fun s => { m := r.m, model := r.model, stamp := s, value := none }

/-- `self.process_model.evaluate(x.copy(), u, dt)` followed by `x.stamp = t` (`datagen.py:214-216`, `231-233`); the
value and the stamp of `x` are kept apart. -/
def DataGen.move (g : DataGen V U n nu) (x : V × ℝ) (u : U × ℝ) (t : ℝ) : V × ℝ :=
  ((g.proc.evaluate ⟨x.1, some x.2⟩ ⟨u.1, some u.2⟩ (t - x.2)).value, t)

open Classical in
/-- `datagen.py:211-228`: the loop over the measurements that are due before `tnext`. The list is `meas_list[meas_idx:]`,
`j` is `meas_idx`; the result is the state, the measurements filled here, and the rest. -/
noncomputable def DataGen.fill (g : DataGen V U n nu) (noise : Option (NoiseSrc nu)) (tnext : ℝ) (u : U × ℝ) :
    List (GenMeas V n) → ℕ → V × ℝ → Except Err ((V × ℝ) × List (GenMeas V n) × List (GenMeas V n))
  | [], _, x => .ok (x, [], [])
  | y :: ys, j, x =>
    if tnext > y.stamp then do
      let x' := g.move x u y.stamp
      let v ← measureState y.model ⟨x'.1, some x'.2⟩ (noise.map fun s => s.meas j y.m)
      let (x'', done, rest) ← g.fill noise tnext u ys (j + 1) x'
      return (x'', { y with value := some v } :: done, rest)
    else .ok (x, [], y :: ys)

/-- `datagen.py:236-237`: noise on the input, drawn with the covariance of the sample time. -/
def DataGen.inputOut (g : DataGen V U n nu) (noise : Option (NoiseSrc nu)) (k : ℕ) (t : ℝ) (u : U × ℝ) :
    Except Err (U × ℝ) :=
  match noise with
  | none => .ok u
  | some s => do
    let w ← s.input k (g.inputCov t)
    return (g.uplus u.1 w, u.2)

/-- `datagen.py:192-240`: the loop over the remaining sample times. The result holds the states and the inputs appended,
the measurements filled, and the measurements never reached. -/
noncomputable def DataGen.loop (g : DataGen V U n nu) (noise : Option (NoiseSrc nu)) :
    List ℝ → ℝ → ℕ → V × ℝ → List (GenMeas V n) → ℕ →
    Except Err (List (V × ℝ) × List (U × ℝ) × List (GenMeas V n) × List (GenMeas V n))
  | [], _, _, _, ys, _ => .ok ([], [], [], ys)
  | tnext :: ts, t, k, x, ys, j => do
    let u := (g.inputFunc t x.1).toInput t
    let (x', done, rest) ← g.fill noise tnext u ys j x
    let x'' := g.move x' u tnext
    let uo ← g.inputOut noise k t u
    let (xs, us, done', rest') ← g.loop noise ts tnext (k + 1) x'' rest (j + done.length)
    return (x'' :: xs, uo :: us, done ++ done', rest')

/-- `datagen.py:169-178`: all requested measurements, sorted by stamp (stable). -/
noncomputable def DataGen.requested (g : DataGen V U n nu) (t0 tN : ℝ) : Except Err (List (GenMeas V n)) := do
  let l ← g.info.mapM (reqMeas t0 tN)
  return sortByStamp GenMeas.stamp l.flatten

/-- What `generate` returns. -/
structure GenData (V U : Type) (n : ℕ) where
  states : List (V × ℝ)
  inputs : List (U × ℝ)
  meas : List (GenMeas V n)

/-- `datagen.py:136-241` (`generate`): an empty grid of times makes `times[0]` an `IndexError`. -/
noncomputable def DataGen.generate (g : DataGen V U n nu) (x0 : V) (start stop : ℝ) (noise : Option (NoiseSrc nu)) :
    Except Err (GenData V U n) := do
  let times ← stampGrid start stop g.inputFreq
  match times with
  | [] => .error .indexError
  | t0 :: ts => do
    let ys ← g.requested t0 (ts.getLast?.getD t0)
    let (xs, us, done, rest) ← g.loop noise ts t0 0 (x0, t0) ys 0
    return {
      states := sortByStamp Prod.snd ((x0, t0) :: xs)
      inputs := sortByStamp Prod.snd us
      meas := sortByStamp GenMeas.stamp (done ++ rest) }

/-! The constructor. -/

/-- The argument `input_covariance`. -/
inductive CovArg (nu : ℕ) where
  | callable (f : ℝ → Mat nu nu)
  | array (Q : Mat nu nu)
  | other

/-- `datagen.py:61-66`. -/
def CovArg.toFun {nu : ℕ} : CovArg nu → Except Err (ℝ → Mat nu nu)
  | .callable f => .ok f
  | .array Q => .ok fun _ => Q
  | .other => .error .valueError

/-- The argument `meas_freq_list`: absent, one number, or a list. -/
inductive FreqArg where
  | none
  | one (f : ℝ)
  | list (l : List ℝ)

/-- The argument `meas_offset_list`: absent, a float, a list, another object with a length (a tuple or an array), or an
object without (an `int`). -/
inductive OffsetArg where
  | none
  | float (o : ℝ)
  | list (l : List ℝ)
  | sized (len : ℕ)
  | unsized

/-- `datagen.py:84-89`: the frequencies used, `k` being the number of models. (`[None] * 0` when there is no model and no
frequency; a missing frequency with models has already been refused.) -/
def FreqArg.expand (k : ℕ) : FreqArg → List ℝ
  | .none => []
  | .one f => List.replicate k f
  | .list l => if l.length = 1 then (List.replicate k l).flatten else l

/-- `datagen.py:68-69`, `80-82`: the default for a missing or empty collection of offsets; `len` of a float or an int is a
`TypeError` (only evaluated when there are models). -/
def OffsetArg.default (k : ℕ) : OffsetArg → Except Err OffsetArg
  | .none => if k = 0 then .ok (.list []) else .ok (.list [0])
  | .float o => if k = 0 then .ok (.float o) else .error .typeError
  | .list l => if k ≠ 0 ∧ l.length = 0 then .ok (.list [0]) else .ok (.list l)
  | .sized l => if k ≠ 0 ∧ l = 0 then .ok (.list [0]) else .ok (.sized l)
  | .unsized => if k = 0 then .ok .unsized else .error .typeError

/-- `datagen.py:92-105`. -/
def OffsetArg.expand (k : ℕ) : OffsetArg → Except Err (List ℝ)
  | .float o => .ok (List.replicate k o)
  | .list l =>
    if l.length = 1 then .ok (List.replicate k l).flatten
    else if l.length = k then .ok l else .error .valueError
  | _ => .error .valueError

/-- `datagen.py:48-117` (`__init__`), what concerns the measurement models: the content of `_meas_model_info`. `zip` stops
at the shortest list. -/
def genInfo {M : Type} (models : List M) (freq : FreqArg) (offset : OffsetArg) : Except Err (List (M × ℝ × ℝ)) :=
  let k := models.length
  match freq, k with
  | .none, _ + 1 => .error .valueError
  | _, _ => do
    let o ← offset.default k
    let os ← o.expand k
    return models.zip ((freq.expand k).zip os)

/-- `datagen.py:95-97`: `meas_offset_list *= len(meas_model_list)` changes the list object of the caller: what the caller's
list contains after a successful construction. -/
def offsetListAfter {M : Type} (models : List M) (l : List ℝ) : List ℝ :=
  if l.length = 1 then (List.replicate models.length l).flatten else l

end Verif
