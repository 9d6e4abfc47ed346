import Verif.Model.Composite

/-!
Matrix Lie group states (`navlie/lib/states.py`). The group operations come from `pymlg` and are parameters.
-/

namespace Verif

/-- A `pymlg` matrix Lie group with `d` degrees of freedom and `N × N` elements: the operations navlie calls. -/
structure LieOps (N d : ℕ) where
  Exp : Vec d → Mat N N
  Log : Mat N N → Vec d
  inverse : Mat N N → Mat N N
  leftJac : Vec d → Mat d d
  rightJac : Vec d → Mat d d
  leftJacInv : Vec d → Mat d d
  rightJacInv : Vec d → Mat d d

/-- A numpy array given as `value`: 1-dimensional or 2-dimensional. -/
inductive Arr where
  | vec (l : List ℝ)
  | mat (r c : ℕ) (M : Matrix (Fin r) (Fin c) ℝ)

/-- `value.size` -/
def Arr.size : Arr → ℕ
  | .vec l => l.length
  | .mat r c _ => r * c

/-- `value.ravel()` (row-major). -/
def Arr.ravel : Arr → List ℝ
  | .vec l => l
  | .mat _ _ M => (List.ofFn fun i => List.ofFn (M i)).flatten

/-- A list of reals as a vector of length `d` (missing entries read as 0, only used on lists of length `d`). -/
def toVec (d : ℕ) (l : List ℝ) : Vec d := fun i => l.getD i 0

variable {N d : ℕ} {K : Type}

/-- `states.py:101-109`: what the constructor stores in `value`: a square matrix of some size. The size of a
matrix given directly is not compared with the group's. -/
def lieCtorValue (G : LieOps N d) (v : Arr) : Except Err (Σ k, Mat k k) :=
  if v.size = d then .ok ⟨N, G.Exp (toVec d v.ravel)⟩
  else
    match v with
    | .vec _ => .error .indexError
    | .mat r c M => if h : r = c then .ok ⟨r, M.submatrix id (Fin.cast h)⟩ else .error .valueError

/-- A `MatrixLieGroupState` (`states.py:58-119`) holding an `N × N` matrix. -/
structure LieState (N : ℕ) (K : Type) where
  value : Mat N N
  stamp : Option ℝ
  id : K
  direction : String

/-- `states.py:135-152` (`copy`): goes through the constructor again, which would apply `Exp` to a matrix having
as many entries as the group has degrees of freedom. The subclasses' constructors (e.g. 231-239) forward the same
arguments. -/
def lieCopy (G : LieOps N d) (x : LieState N K) : LieState N K :=
  if N * N = d then { x with value := G.Exp (toVec d (Arr.mat N N x.value).ravel) } else x

/-- `states.py:116-124` (`plus`). -/
def liePlus (G : LieOps N d) (x : LieState N K) (dx : Vec d) : Except Err (LieState N K) :=
  let new := lieCopy G x
  if x.direction = "right" then .ok { new with value := x.value * G.Exp dx }
  else if x.direction = "left" then .ok { new with value := G.Exp dx * x.value }
  else .error .valueError

/-- `states.py:126-133` (`minus`). -/
def lieMinus (G : LieOps N d) (y x : LieState N K) : Except Err (Vec d) :=
  if y.direction = "right" then .ok (G.Log (G.inverse x.value * y.value))
  else if y.direction = "left" then .ok (G.Log (y.value * G.inverse x.value))
  else .error .valueError

/-- `states.py:154-161` (`plus_jacobian`). -/
def liePlusJac (G : LieOps N d) (x : LieState N K) (dx : Vec d) : Except Err (Mat d d) :=
  if x.direction = "right" then .ok (G.rightJac dx)
  else if x.direction = "left" then .ok (G.leftJac dx)
  else .error .valueError

/-- `states.py:163-171` (`minus_jacobian`). -/
def lieMinusJac (G : LieOps N d) (y x : LieState N K) : Except Err (Mat d d) := do
  let dx ← lieMinus G y x
  if y.direction = "right" then .ok (G.rightJacInv dx)
  else if y.direction = "left" then .ok (G.leftJacInv dx)
  else .error .valueError

/-- `states.py:183-186` (`dot`). -/
def lieDot (G : LieOps N d) (x y : LieState N K) : LieState N K :=
  { lieCopy G x with value := x.value * y.value }

/-- The value part of a matrix Lie group state as an elementary state class inside composites
(`Verif.Model.Composite`); perturbations of a wrong size are outside the model of `pymlg` (`valueError`). -/
noncomputable def lieLeaf (G : LieOps N d) : LeafOps (LieState N K) where
  dof _ := d
  plus x dx := if dx.length = d then liePlus G x (toVec d dx) else .error .valueError
  minus y x := do
    let v ← lieMinus G y x
    return List.ofFn v
  plusJac x dx := do
    let J ← liePlusJac G x (toVec d dx)
    return ⟨d, d, fun i j => if h : i < d ∧ j < d then J ⟨i, h.1⟩ ⟨j, h.2⟩ else 0⟩
  minusJac y x := do
    let J ← lieMinusJac G y x
    return ⟨d, d, fun i j => if h : i < d ∧ j < d then J ⟨i, h.1⟩ ⟨j, h.2⟩ else 0⟩

/-! ### Component accessors -/

/-- The pose state classes. -/
inductive PoseClass where
  | SE2 | SE3 | SE23
  deriving DecidableEq

/-- The components of a pose state. -/
inductive PoseComp where
  | attitude | position | velocity
  deriving DecidableEq

/-- Spatial dimension. -/
def PoseClass.dim : PoseClass → ℕ
  | .SE2 => 2
  | .SE3 => 3
  | .SE23 => 3

/-- Size of the matrix stored. -/
def PoseClass.mdim : PoseClass → ℕ
  | .SE2 => 3
  | .SE3 => 4
  | .SE23 => 5

/-- The column of a vector component: `states.py:379-385` (SE2 position, column 2), `452-458` (SE3 position,
column 3), `590-604` (SE23 position, column 4; velocity, column 3). `none`: the base class property raises
`NotImplementedError` (`188-210`) or the component is not a vector. -/
def PoseClass.col : PoseClass → PoseComp → Option ℕ
  | .SE2, .position => some 2
  | .SE3, .position => some 3
  | .SE23, .position => some 4
  | .SE23, .velocity => some 3
  | _, _ => none

/-- `x.attitude` (`states.py:371-373, 444-446, 582-584`): `value[0:n, 0:n]`. -/
def getAttitude (c : PoseClass) (T : DMat) : DMat := T.block ⟨0, c.dim⟩ ⟨0, c.dim⟩

/-- `x.attitude = C` (`states.py:375-377, 448-450, 586-588`). -/
def setAttitude (c : PoseClass) (T C : DMat) : Except Err DMat := T.setBlock ⟨0, c.dim⟩ ⟨0, c.dim⟩ C

/-- `x.position` / `x.velocity` (1-dimensional): `value[0:n, col]`. -/
def getVector (c : PoseClass) (p : PoseComp) (T : DMat) : Except Err (List ℝ) :=
  match c.col p with
  | none => .error .notImplemented
  | some k => .ok ((List.range c.dim).map fun i => T.get i k)

/-- `x.position = r` / `x.velocity = r` for a 1-dimensional `r`, with numpy broadcasting of a length-1 array.
Assigning a property that has no setter is an `AttributeError`. -/
def setVector (c : PoseClass) (p : PoseComp) (T : DMat) (r : List ℝ) : Except Err DMat :=
  match c.col p with
  | none => .error .attributeError
  | some k =>
    if r.length = c.dim ∨ r.length = 1 then
      .ok ⟨T.rows, T.cols, fun i j =>
        if i < c.dim ∧ j = k then r.getD (if r.length = 1 then 0 else i) 0 else T.get i j⟩
    else .error .valueError

/-- `np.block([a, b])`: horizontal concatenation, `ValueError` if the numbers of rows differ. -/
def hcat (A B : DMat) : Except Err DMat :=
  if A.rows = B.rows then
    .ok ⟨A.rows, A.cols + B.cols, fun i j => if j < A.cols then A.get i j else B.get i (j - A.cols)⟩
  else .error .valueError

/-- The number of columns allotted to a component left out (`states.py:403-406, 468-471, 616-621`). -/
def PoseClass.width : PoseClass → PoseComp → ℕ
  | .SE2, .attitude => 1
  | .SE2, _ => 2
  | _, _ => 3

/-- The loop `for jac in [attitude, position(, velocity)]: if jac is not None: dim = jac.shape[0]`: the LAST
block given determines the number of rows; none at all leaves `dim` unbound. -/
def lastDim : List (Option DMat) → Option ℕ → Option ℕ
  | [], acc => acc
  | none :: l, acc => lastDim l acc
  | some J :: l, _ => lastDim l (some J.rows)

/-- `if blk is None: blk = np.zeros((dim, w))` -/
def blkOr (dim w : ℕ) (b : Option DMat) : DMat := b.getD (DMat.zeros dim w)

/-- `jacobian_from_blocks` of `SE2State` (`states.py:395-408`), `SE3State` (`460-473`), `SE23State` (`606-623`).
For SE2/SE3 there is no velocity argument (`TypeError` when passed). -/
def poseFromBlocks (c : PoseClass) (att pos vel : Option DMat) : Except Err DMat :=
  match c with
  | .SE23 =>
    match lastDim [att, pos, vel] none with
    | none => .error .unboundLocal
    | some dim => do
      let AV ← hcat (blkOr dim 3 att) (blkOr dim 3 vel)
      hcat AV (blkOr dim 3 pos)
  | c =>
    if vel.isSome then .error .typeError else
    match lastDim [att, pos] none with
    | none => .error .unboundLocal
    | some dim => hcat (blkOr dim (c.width .attitude) att) (blkOr dim (c.width .position) pos)

/-! ### `random` -/

/-- The concrete state classes. -/
inductive LieClass where
  | SO2State | SO3State | SE2State | SE3State | SE23State
  deriving DecidableEq

/-- Shape `N` of the group elements. -/
def LieClass.mdim : LieClass → ℕ
  | .SO2State => 2
  | .SO3State => 3
  | .SE2State => 3
  | .SE3State => 4
  | .SE23State => 5

/-- `dof` of the group. -/
def LieClass.dof : LieClass → ℕ
  | .SO2State => 1
  | .SO3State => 3
  | .SE2State => 3
  | .SE3State => 6
  | .SE23State => 9

/-- Class of the object returned by `cls.random()`: `states.py:249-253` (SO2), `337-341` (SO3), `410-414` (SE2),
`540-544` (SE3: returns `SE2State(SE2.random(), ...)`), `625-629` (SE23). -/
def LieClass.randomClass : LieClass → LieClass
  | .SO2State => .SO2State
  | .SO3State => .SO3State
  | .SE2State => .SE2State
  | .SE3State => .SE2State
  | .SE23State => .SE23State

end Verif
