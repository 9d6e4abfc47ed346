import Verif.Model.States
import Verif.Props.Composite
import Mathlib.Analysis.SpecialFunctions.Complex.Arg

/-!
Property theorems about `navlie/lib/states.py` (C32 - C34).
-/

namespace Verif

set_option linter.unusedVariables false
set_option linter.unusedSectionVars false

variable {N d : ℕ} {K : Type}

/-! ### C32 -/

/-- What is assumed of a `pymlg` group: `mem` is closed under product, inverse and `Exp`, `inverse` is a
two-sided inverse, `Log` inverts `Exp` on the perturbations `dom`, `Exp` inverts `Log` on the elements `near`
(close enough to the identity), and the Jacobian inverses are inverses. -/
structure LieLaws (G : LieOps N d) (mem : Mat N N → Prop) (dom : Vec d → Prop) (near : Mat N N → Prop) :
    Prop where
  mul_mem : ∀ X Y, mem X → mem Y → mem (X * Y)
  inv_mem : ∀ X, mem X → mem (G.inverse X)
  exp_mem : ∀ ξ, mem (G.Exp ξ)
  inv_mul : ∀ X, mem X → G.inverse X * X = 1
  mul_inv : ∀ X, mem X → X * G.inverse X = 1
  log_exp : ∀ ξ, dom ξ → G.Log (G.Exp ξ) = ξ
  exp_log : ∀ X, mem X → near X → G.Exp (G.Log X) = X
  left_jac : ∀ ξ, dom ξ → G.leftJacInv ξ * G.leftJac ξ = 1
  right_jac : ∀ ξ, dom ξ → G.rightJacInv ξ * G.rightJac ξ = 1

/-- The two perturbation conventions navlie knows. -/
def KnownDir (s : String) : Prop := s = "right" ∨ s = "left"

theorem right_ne_left : ¬ ("left" = "right") := by decide

/-- The relative element that `y.minus(x)` takes the logarithm of. -/
def relElem (G : LieOps N d) (dir : String) (y x : Mat N N) : Mat N N :=
  if dir = "right" then G.inverse x * y else y * G.inverse x

theorem lieCopy_eq (G : LieOps N d) (hN : N * N ≠ d) (x : LieState N K) : lieCopy G x = x := if_neg hN

/-- **C32.** `x.plus(dx).minus(x) = dx` in both directions, for every group element and every perturbation in the
injectivity domain of `Exp`; the new state is a group element with the same id, stamp and direction. -/
theorem C32_plus_minus {G : LieOps N d} {mem dom near} (hG : LieLaws G mem dom near) (hN : N * N ≠ d)
    (x : LieState N K) (hx : mem x.value) (hd : KnownDir x.direction) (dx : Vec d) :
    ∃ y, liePlus G x dx = .ok y ∧ mem y.value ∧ y.stamp = x.stamp ∧ y.id = x.id ∧ y.direction = x.direction ∧
      (dom dx → lieMinus G y x = .ok dx) := by
  unfold liePlus
  rw [lieCopy_eq G hN]
  rcases hd with h | h
  · rw [if_pos h]
    refine ⟨_, rfl, hG.mul_mem _ _ hx (hG.exp_mem _), rfl, rfl, rfl, fun hdx => ?_⟩
    unfold lieMinus
    rw [if_pos h]
    show Except.ok (G.Log (G.inverse x.value * (x.value * G.Exp dx))) = _
    rw [← mul_assoc, hG.inv_mul _ hx, one_mul, hG.log_exp _ hdx]
  · rw [if_neg (by rw [h]; exact right_ne_left), if_pos h]
    refine ⟨_, rfl, hG.mul_mem _ _ (hG.exp_mem _) hx, rfl, rfl, rfl, fun hdx => ?_⟩
    unfold lieMinus
    rw [if_neg (show ¬ (x.direction = "right") by rw [h]; exact right_ne_left), if_pos h]
    show Except.ok (G.Log (G.Exp dx * x.value * G.inverse x.value)) = _
    rw [mul_assoc, hG.mul_inv _ hx, mul_one, hG.log_exp _ hdx]

/-- **C32.** `x.plus(y.minus(x))` has exactly the value of `y`, whenever the relative element is one that `Exp`
after `Log` reproduces (both states using the same convention). -/
theorem C32_minus_plus {G : LieOps N d} {mem dom near} (hG : LieLaws G mem dom near) (hN : N * N ≠ d)
    (x y : LieState N K) (hx : mem x.value) (hy : mem y.value) (hd : KnownDir x.direction)
    (hdir : y.direction = x.direction) (hn : near (relElem G x.direction y.value x.value)) :
    ∃ dx, lieMinus G y x = .ok dx ∧ liePlus G x dx = .ok { x with value := y.value } := by
  unfold lieMinus liePlus
  rw [lieCopy_eq G hN, hdir]
  unfold relElem at hn
  rcases hd with h | h
  · rw [if_pos h] at hn
    rw [if_pos h]
    refine ⟨_, rfl, ?_⟩
    rw [if_pos h]
    show Except.ok { x with value := x.value * G.Exp (G.Log (G.inverse x.value * y.value)) } = _
    rw [hG.exp_log _ (hG.mul_mem _ _ (hG.inv_mem _ hx) hy) hn, ← mul_assoc, hG.mul_inv _ hx, one_mul]
  · have h' : ¬ (x.direction = "right") := by rw [h]; exact right_ne_left
    rw [if_neg h'] at hn
    rw [if_neg h', if_pos h]
    refine ⟨_, rfl, ?_⟩
    rw [if_neg h', if_pos h]
    show Except.ok { x with value := G.Exp (G.Log (y.value * G.inverse x.value)) * x.value } = _
    rw [hG.exp_log _ (hG.mul_mem _ _ hy (hG.inv_mem _ hx)) hn, mul_assoc, hG.inv_mul _ hx, mul_one]

/-- In a group, the inverse of a product. -/
theorem LieLaws.inverse_mul {G : LieOps N d} {mem dom near} (hG : LieLaws G mem dom near) {X Y : Mat N N}
    (hX : mem X) (hY : mem Y) : G.inverse (X * Y) = G.inverse Y * G.inverse X := by
  have h1 := hG.inv_mul _ (hG.mul_mem X Y hX hY)
  calc G.inverse (X * Y) = G.inverse (X * Y) * (X * (Y * G.inverse Y) * G.inverse X) := by
        rw [hG.mul_inv _ hY, mul_one, hG.mul_inv _ hX, mul_one]
    _ = (G.inverse (X * Y) * (X * Y)) * (G.inverse Y * G.inverse X) := by simp only [mul_assoc]
    _ = _ := by rw [h1, one_mul]

/-- **C32.** Invariance: with the right convention `minus` does not change when both states are multiplied on
the left by any group element; with the left convention, on the right. -/
theorem C32_minus_invariant {G : LieOps N d} {mem dom near} (hG : LieLaws G mem dom near)
    (x y : LieState N K) (A : Mat N N) (hx : mem x.value) (hA : mem A) :
    (y.direction = "right" →
      lieMinus G { y with value := A * y.value } { x with value := A * x.value } = lieMinus G y x) ∧
    (y.direction = "left" →
      lieMinus G { y with value := y.value * A } { x with value := x.value * A } = lieMinus G y x) := by
  refine ⟨fun h => ?_, fun h => ?_⟩
  · unfold lieMinus
    rw [if_pos h, if_pos h]
    show Except.ok (G.Log (G.inverse (A * x.value) * (A * y.value))) = _
    rw [hG.inverse_mul hA hx, mul_assoc, ← mul_assoc (G.inverse A), hG.inv_mul _ hA, one_mul]
  · have h' : ¬ (y.direction = "right") := by rw [h]; exact right_ne_left
    unfold lieMinus
    rw [if_neg h', if_pos h, if_neg h', if_pos h]
    show Except.ok (G.Log (y.value * A * G.inverse (x.value * A))) = _
    rw [hG.inverse_mul hx hA, mul_assoc, ← mul_assoc A, hG.mul_inv _ hA, one_mul]

/-- **C32.** Any other direction raises `ValueError` in all four operations. -/
theorem C32_bad_direction (G : LieOps N d) (x y : LieState N K) (dx : Vec d) (h : ¬ KnownDir x.direction) :
    liePlus G x dx = .error .valueError ∧ lieMinus G x y = .error .valueError ∧
    liePlusJac G x dx = .error .valueError ∧ lieMinusJac G x y = .error .valueError := by
  unfold KnownDir at h
  push Not at h
  have hm : lieMinus G x y = .error .valueError := by
    unfold lieMinus; rw [if_neg h.1, if_neg h.2]
  refine ⟨?_, hm, ?_, ?_⟩
  · unfold liePlus; rw [if_neg h.1, if_neg h.2]
  · unfold liePlusJac; rw [if_neg h.1, if_neg h.2]
  · unfold lieMinusJac; rw [hm]; rfl

/-- **C32.** The Jacobians match: that of `minus` at the perturbed state is the inverse of that of `plus`. -/
theorem C32_jacobians_inverse {G : LieOps N d} {mem dom near} (hG : LieLaws G mem dom near) (hN : N * N ≠ d)
    (x : LieState N K) (hx : mem x.value) (hd : KnownDir x.direction) (dx : Vec d) (hdx : dom dx) :
    ∃ y Jp Jm, liePlus G x dx = .ok y ∧ liePlusJac G x dx = .ok Jp ∧ lieMinusJac G y x = .ok Jm ∧
      Jm * Jp = 1 ∧ Jp * Jm = 1 := by
  obtain ⟨y, hy, -, -, -, hyd, hm⟩ := C32_plus_minus hG hN x hx hd dx
  refine ⟨y, ?_⟩
  unfold lieMinusJac
  rw [hm hdx]
  simp only [bind, Except.bind]
  rw [hyd]
  unfold liePlusJac
  rcases hd with h | h
  · rw [if_pos h, if_pos h]
    exact ⟨_, _, hy, rfl, rfl, hG.right_jac _ hdx, mul_eq_one_comm.1 (hG.right_jac _ hdx)⟩
  · have h' : ¬ (x.direction = "right") := by rw [h]; exact right_ne_left
    rw [if_neg h', if_pos h, if_neg h', if_pos h]
    exact ⟨_, _, hy, rfl, rfl, hG.left_jac _ hdx, mul_eq_one_comm.1 (hG.left_jac _ hdx)⟩

/-- **C32.** The constructor: a vector of `dof` numbers is exponential coordinates, a square matrix (with another
number of entries) is stored as it is, a rectangular one is a `ValueError`, a vector of another length an error. -/
theorem C32_constructor (G : LieOps N d) :
    (∀ ξ : Vec d, lieCtorValue G (.vec (List.ofFn ξ)) = .ok ⟨N, G.Exp ξ⟩) ∧
    (∀ (k : ℕ) (M : Mat k k), k * k ≠ d → lieCtorValue G (.mat k k M) = .ok ⟨k, M⟩) ∧
    (∀ (r c : ℕ) (M : Matrix (Fin r) (Fin c) ℝ), r * c ≠ d → r ≠ c →
      lieCtorValue G (.mat r c M) = .error .valueError) ∧
    (∀ l : List ℝ, l.length ≠ d → lieCtorValue G (.vec l) = .error .indexError) := by
  refine ⟨fun ξ => ?_, fun k M h => ?_, fun r c M h h' => ?_, fun l h => ?_⟩
  · unfold lieCtorValue
    rw [if_pos (by simp [Arr.size])]
    have : toVec d (Arr.vec (List.ofFn ξ)).ravel = ξ := by
      funext i; simp [toVec, Arr.ravel]
    rw [this]
  · unfold lieCtorValue
    rw [if_neg (by exact h)]; simp
  · unfold lieCtorValue
    rw [if_neg (by exact h)]; simp [h']
  · unfold lieCtorValue
    rw [if_neg (by exact h)]

theorem toVec_ofFn (v : Vec d) : toVec d (List.ofFn v) = v := by
  funext i; simp [toVec]

theorem ofFn_toVec (l : List ℝ) (h : l.length = d) : List.ofFn (toVec d l) = l := by
  subst h
  apply List.ext_getElem (by simp)
  intro i h1 h2
  simp [toVec, List.getD_eq_getElem?_getD, h2]

/-- **C25/C32.** Matrix Lie group states are elementary states in the sense of the composite theorems. -/
theorem lieLeaf_laws {G : LieOps N d} {mem dom near} (hG : LieLaws G mem dom near) (hN : N * N ≠ d) :
    LeafLaws (lieLeaf (K := K) G)
      (fun x dx => mem x.value ∧ KnownDir x.direction ∧ dom (toVec d dx))
      (fun x y => mem x.value ∧ mem y.value ∧ KnownDir x.direction ∧ y = { x with value := y.value } ∧
        near (relElem G x.direction y.value x.value)) where
  plus_minus := by
    rintro x dx hl ⟨hx, hd, hdx⟩
    obtain ⟨y, hy, -, -, -, -, hm⟩ := C32_plus_minus hG hN x hx hd (toVec d dx)
    refine ⟨y, ?_, rfl, ?_⟩
    · show (if dx.length = d then liePlus G x (toVec d dx) else .error .valueError) = _
      rw [if_pos (by exact hl), hy]
    · show (do let v ← lieMinus G y x; return List.ofFn v : Except Err (List ℝ)) = _
      rw [hm hdx]
      show Except.ok (List.ofFn (toVec d dx)) = _
      rw [ofFn_toVec (d := d) dx hl]
  minus_plus := by
    rintro x y ⟨hx, hy, hd, hxy, hn⟩
    have hdir : y.direction = x.direction := by rw [hxy]
    obtain ⟨dx, h1, h2⟩ := C32_minus_plus hG hN x y hx hy hd hdir hn
    refine ⟨List.ofFn dx, ?_, by simp [lieLeaf], rfl, ?_⟩
    · show (do let v ← lieMinus G y x; return List.ofFn v : Except Err (List ℝ)) = _
      rw [h1]; rfl
    · show (if (List.ofFn dx).length = d then liePlus G x (toVec d (List.ofFn dx)) else .error .valueError) = _
      rw [if_pos (by simp), toVec_ofFn, h2, ← hxy]

/-! #### A concrete group: SO(2) -/

/-- Rotation by `a`. -/
noncomputable def rot2 (a : ℝ) : Mat 2 2 := !![Real.cos a, -Real.sin a; Real.sin a, Real.cos a]

/-- SO(2) with `Log C = atan2(C[1,0], C[0,0])`. -/
noncomputable def so2Lie : LieOps 2 1 where
  Exp ξ := rot2 (ξ 0)
  Log C := fun _ => Complex.arg ⟨C 0 0, C 1 0⟩
  inverse C := C.transpose
  leftJac _ := 1
  rightJac _ := 1
  leftJacInv _ := 1
  rightJacInv _ := 1

theorem rot2_mul (a b : ℝ) : rot2 a * rot2 b = rot2 (a + b) := by
  unfold rot2
  rw [Real.cos_add, Real.sin_add]
  ext i j
  fin_cases i <;> fin_cases j <;> simp [Matrix.mul_apply, Fin.sum_univ_two] <;> ring

theorem rot2_transpose (a : ℝ) : (rot2 a).transpose = rot2 (-a) := by
  unfold rot2
  ext i j
  fin_cases i <;> fin_cases j <;> simp

theorem rot2_zero : rot2 0 = 1 := by
  unfold rot2
  ext i j
  fin_cases i <;> fin_cases j <;> simp

theorem so2Lie_log_rot (a : ℝ) (h : a ∈ Set.Ioc (-Real.pi) Real.pi) : so2Lie.Log (rot2 a) = fun _ => a := by
  funext _
  show Complex.arg ⟨Real.cos a, Real.sin a⟩ = a
  have : (⟨Real.cos a, Real.sin a⟩ : ℂ) = Complex.cos a + Complex.sin a * Complex.I := by
    apply Complex.ext <;> simp [← Complex.ofReal_cos, ← Complex.ofReal_sin]
  rw [this, Complex.arg_cos_add_sin_mul_I h]

/-- SO(2) satisfies the laws on the full interval `(-π, π]` and for every pair of elements. -/
theorem so2Lie_laws : LieLaws so2Lie (fun X => ∃ a, X = rot2 a) (fun ξ => ξ 0 ∈ Set.Ioc (-Real.pi) Real.pi)
    (fun _ => True) where
  mul_mem := by
    rintro X Y ⟨a, rfl⟩ ⟨b, rfl⟩
    exact ⟨a + b, rot2_mul a b⟩
  inv_mem := by
    rintro X ⟨a, rfl⟩
    exact ⟨-a, rot2_transpose a⟩
  exp_mem ξ := ⟨ξ 0, rfl⟩
  inv_mul := by
    rintro X ⟨a, rfl⟩
    show (rot2 a).transpose * rot2 a = 1
    rw [rot2_transpose, rot2_mul, neg_add_cancel, rot2_zero]
  mul_inv := by
    rintro X ⟨a, rfl⟩
    show rot2 a * (rot2 a).transpose = 1
    rw [rot2_transpose, rot2_mul, add_neg_cancel, rot2_zero]
  log_exp := by
    intro ξ h
    show so2Lie.Log (rot2 (ξ 0)) = ξ
    rw [so2Lie_log_rot _ h]
    funext i
    rw [Subsingleton.elim i 0]
  exp_log := by
    rintro X ⟨a, rfl⟩ -
    have hp := Real.two_pi_pos
    set b := toIocMod hp (-Real.pi) a with hb
    have hmem : b ∈ Set.Ioc (-Real.pi) Real.pi := by
      have := toIocMod_mem_Ioc hp (-Real.pi) a
      rwa [show -Real.pi + 2 * Real.pi = Real.pi by ring] at this
    have hab : a = b + (toIocDiv hp (-Real.pi) a : ℤ) * (2 * Real.pi) := by
      have := toIocMod_add_toIocDiv_zsmul hp (-Real.pi) a
      rw [zsmul_eq_mul] at this
      exact this.symm
    have hr : rot2 a = rot2 b := by
      rw [hab]
      unfold rot2
      rw [Real.cos_add_int_mul_two_pi, Real.sin_add_int_mul_two_pi]
    rw [hr, so2Lie_log_rot b hmem]
    rfl
  left_jac _ _ := one_mul 1
  right_jac _ _ := one_mul 1

/-- Non-vacuity of C32: an SO(2) state at 60 degrees, left convention, perturbed by 1 rad. -/
example : ∃ y, liePlus so2Lie (⟨rot2 (Real.pi / 3), some 2, "x", "left"⟩ : LieState 2 String) (fun _ => 1) = .ok y ∧
    y.stamp = some 2 ∧ y.id = "x" ∧
    lieMinus so2Lie y ⟨rot2 (Real.pi / 3), some 2, "x", "left"⟩ = .ok (fun _ => 1) := by
  obtain ⟨y, h1, -, h3, h4, -, h6⟩ := C32_plus_minus so2Lie_laws (by decide)
    (⟨rot2 (Real.pi / 3), some 2, "x", "left"⟩ : LieState 2 String) ⟨_, rfl⟩ (Or.inr rfl) (fun _ => 1)
  refine ⟨y, h1, h3, h4, h6 ⟨?_, ?_⟩⟩
  · have := Real.two_le_pi; show -Real.pi < 1; linarith
  · have := Real.two_le_pi; show (1 : ℝ) ≤ Real.pi; linarith

/-! ### C33 -/

/-- **C33.** Attitude: what is written is read back, the vector components and the bottom rows do not change. -/
theorem C33_attitude (c : PoseClass) (T C : DMat) (hT : T.rows = c.mdim ∧ T.cols = c.mdim)
    (hC : C.rows = c.dim ∧ C.cols = c.dim) :
    ∃ T', setAttitude c T C = .ok T' ∧ T'.rows = c.mdim ∧ T'.cols = c.mdim ∧ (getAttitude c T').Same C ∧
      (∀ p, getVector c p T' = getVector c p T) ∧
      (∀ i j, i < c.mdim → j < c.mdim → (c.dim ≤ i ∨ c.dim ≤ j) → T'.get i j = T.get i j) := by
  have hle : c.dim ≤ c.mdim := by cases c <;> decide
  have h1 : c.dim ≠ 1 := by cases c <;> decide
  have hlen : (⟨0, c.dim⟩ : Slice).len c.mdim = c.dim := by simp [Slice.len, hle]
  unfold setAttitude DMat.setBlock
  rw [hT.1, hT.2, hlen, if_pos ⟨Or.inl hC.1, Or.inl hC.2⟩]
  refine ⟨_, rfl, rfl, rfl, ?_, ?_, ?_⟩
  · refine ⟨?_, ?_, ?_⟩
    · show (⟨0, c.dim⟩ : Slice).len c.mdim = _
      rw [hlen, hC.1]
    · show (⟨0, c.dim⟩ : Slice).len c.mdim = _
      rw [hlen, hC.2]
    · intro i j hi hj
      have hi' : i < c.dim := by
        have : i < (⟨0, c.dim⟩ : Slice).len c.mdim := hi
        rwa [hlen] at this
      have hj' : j < c.dim := by
        have : j < (⟨0, c.dim⟩ : Slice).len c.mdim := hj
        rwa [hlen] at this
      simp [getAttitude, DMat.block, hi', hj', hC.1, hC.2, h1]
  · intro p
    unfold getVector
    cases hcol : c.col p with
    | none => rfl
    | some k =>
      have hk : c.dim ≤ k := by
        cases c <;> cases p <;> simp [PoseClass.col] at hcol <;> subst hcol <;> decide
      simp only [Except.ok.injEq]
      apply List.map_congr_left
      intro i _
      rw [if_neg (by omega)]
  · intro i j _ _ h
    show (if 0 ≤ i ∧ i < c.dim ∧ 0 ≤ j ∧ j < c.dim then _ else _) = _
    rw [if_neg (by omega)]

/-- **C33.** Position and velocity: what is written is read back; attitude, the other vector component and the
bottom rows do not change. -/
theorem C33_vector (c : PoseClass) (p : PoseComp) (k : ℕ) (hk : c.col p = some k) (T : DMat)
    (hT : T.rows = c.mdim ∧ T.cols = c.mdim) (r : List ℝ) (hr : r.length = c.dim) :
    ∃ T', setVector c p T r = .ok T' ∧ T'.rows = c.mdim ∧ T'.cols = c.mdim ∧ getVector c p T' = .ok r ∧
      (getAttitude c T').Same (getAttitude c T) ∧
      (∀ q, q ≠ p → getVector c q T' = getVector c q T) ∧
      (∀ i j, c.dim ≤ i → T'.get i j = T.get i j) := by
  have h1 : c.dim ≠ 1 := by cases c <;> decide
  have hle : c.dim ≤ c.mdim := by cases c <;> decide
  have hkd : c.dim ≤ k := by
    cases c <;> cases p <;> simp [PoseClass.col] at hk <;> subst hk <;> decide
  unfold setVector
  rw [hk]
  simp only []
  rw [if_pos (Or.inl hr)]
  refine ⟨_, rfl, hT.1, hT.2, ?_, ?_, ?_, ?_⟩
  · unfold getVector
    rw [hk]
    simp only [Except.ok.injEq]
    apply List.ext_getElem (by simp [hr])
    intro i h h'
    simp only [List.length_map, List.length_range] at h
    simp [h, hr, h1, List.getD_eq_getElem?_getD, h']
  · refine ⟨rfl, rfl, ?_⟩
    intro i j hi hj
    have hj' : j < (⟨0, c.dim⟩ : Slice).len T.cols := hj
    have : (⟨0, c.dim⟩ : Slice).len T.cols = c.dim := by simp [Slice.len, hT.2, hle]
    rw [this] at hj'
    show (if _ then _ else _) = _
    rw [if_neg (by simp; omega)]
    rfl
  · intro q hq
    unfold getVector
    cases hcol : c.col q with
    | none => rfl
    | some k' =>
      have hkk : k' ≠ k := by
        cases c <;> cases p <;> cases q <;> simp_all [PoseClass.col] <;> omega
      simp only [Except.ok.injEq]
      apply List.map_congr_left
      intro i _
      rw [if_neg (by omega)]
  · intro i j hi
    show (if _ then _ else _) = _
    rw [if_neg (by omega)]

/-- **C33.** Which components exist: position for all three classes, velocity only for SE_2(3). -/
theorem C33_components (c : PoseClass) (T : DMat) (r : List ℝ) :
    (∃ k, c.col .position = some k) ∧
    ((∃ k, c.col .velocity = some k) ↔ c = .SE23) ∧
    (c ≠ .SE23 → getVector c .velocity T = .error .notImplemented ∧
      setVector c .velocity T r = .error .attributeError) := by
  cases c <;> simp [PoseClass.col, getVector, setVector]

/-- A block is present with the given matrix, or absent and all zero, in the columns from `a` to `a + w`. -/
def BlockAt (J : DMat) (a w : ℕ) (b : Option DMat) : Prop :=
  ∀ i j, i < J.rows → j < w → J.get i (a + j) = match b with | some B => B.get i j | none => 0

/-- The blocks given have the same number of rows `dim` and the width of their component. -/
def BlocksFit (c : PoseClass) (dim : ℕ) (att pos vel : Option DMat) : Prop :=
  (∀ B ∈ att, B.rows = dim ∧ B.cols = c.width .attitude) ∧ (∀ B ∈ pos, B.rows = dim ∧ B.cols = c.width .position) ∧
  (∀ B ∈ vel, B.rows = dim ∧ B.cols = c.width .velocity) ∧ (att ≠ none ∨ pos ≠ none ∨ vel ≠ none)

theorem blkOr_shape (dim w : ℕ) (b : Option DMat) (h : ∀ B ∈ b, B.rows = dim ∧ B.cols = w) :
    (blkOr dim w b).rows = dim ∧ (blkOr dim w b).cols = w := by
  cases b with
  | none => exact ⟨rfl, rfl⟩
  | some B => exact h B rfl

theorem blkOr_get (dim w : ℕ) (b : Option DMat) (i j : ℕ) :
    (blkOr dim w b).get i j = match b with | some B => B.get i j | none => 0 := by
  cases b <;> rfl

theorem lastDim_fit : ∀ (l : List (Option DMat)) (dim : ℕ) (acc : Option ℕ), (∀ b ∈ l, ∀ B ∈ b, B.rows = dim) →
    (acc = none ∨ acc = some dim) → ((∃ b ∈ l, b ≠ none) ∨ acc = some dim) → lastDim l acc = some dim
  | [], dim, acc, h, hacc, hex => by
    rcases hex with ⟨b, hb, -⟩ | h
    · simp at hb
    · exact h
  | none :: l, dim, acc, h, hacc, hex => by
    refine lastDim_fit l dim acc (fun b hb => h b (List.mem_cons_of_mem _ hb)) hacc ?_
    rcases hex with ⟨b, hb, hn⟩ | h
    · rcases List.mem_cons.1 hb with rfl | hb
      · exact absurd rfl hn
      · exact Or.inl ⟨b, hb, hn⟩
    · exact Or.inr h
  | some J :: l, dim, acc, h, hacc, hex => by
    have hJ : J.rows = dim := h (some J) (List.mem_cons_self) J rfl
    show lastDim l (some J.rows) = _
    rw [hJ]
    exact lastDim_fit l dim _ (fun b hb => h b (List.mem_cons_of_mem _ hb)) (Or.inr rfl) (Or.inr rfl)

/-- **C33.** `jacobian_from_blocks` of SE2/SE3 states: the attitude block comes first, then position; a block
left out is zero. -/
theorem C33_from_blocks (c : PoseClass) (hc : c ≠ .SE23) (dim : ℕ) (att pos : Option DMat)
    (h : BlocksFit c dim att pos none) :
    ∃ J, poseFromBlocks c att pos none = .ok J ∧ J.rows = dim ∧
      J.cols = c.width .attitude + c.width .position ∧
      BlockAt J 0 (c.width .attitude) att ∧ BlockAt J (c.width .attitude) (c.width .position) pos := by
  obtain ⟨ha, hp, -, hne⟩ := h
  have hl : lastDim [att, pos] none = some dim := by
    apply lastDim_fit _ _ _ _ (Or.inl rfl)
    · rcases hne with h | h | h
      · exact Or.inl ⟨att, by simp, h⟩
      · exact Or.inl ⟨pos, by simp, h⟩
      · exact absurd rfl h
    · intro b hb B hB
      simp only [List.mem_cons, List.not_mem_nil, or_false] at hb
      rcases hb with rfl | rfl
      · exact (ha B hB).1
      · exact (hp B hB).1
  have e : poseFromBlocks c att pos none =
      hcat (blkOr dim (c.width .attitude) att) (blkOr dim (c.width .position) pos) := by
    unfold poseFromBlocks
    cases c with
    | SE23 => exact absurd rfl hc
    | SE2 => simp [hl]
    | SE3 => simp [hl]
  have sa := blkOr_shape dim _ att ha
  have sp := blkOr_shape dim _ pos hp
  rw [e]
  unfold hcat
  rw [if_pos (by rw [sa.1, sp.1])]
  refine ⟨_, rfl, sa.1, ?_, ?_, ?_⟩
  · show _ + _ = _
    rw [sa.2, sp.2]
  · intro i j _ hj
    show (if 0 + j < (blkOr dim _ att).cols then _ else _) = _
    rw [if_pos (by rw [sa.2]; omega), blkOr_get, Nat.zero_add]
  · intro i j _ hj
    show (if _ + j < (blkOr dim _ att).cols then _ else _) = _
    rw [if_neg (by rw [sa.2]; omega), blkOr_get, sa.2, Nat.add_sub_cancel_left]

/-- **C33.** `jacobian_from_blocks` of SE_2(3) states: attitude in columns 0-2, VELOCITY in 3-5, POSITION in 6-8 —
the order of the columns of the stored matrix, not of the arguments. -/
theorem C33_from_blocks_SE23 (dim : ℕ) (att pos vel : Option DMat) (h : BlocksFit .SE23 dim att pos vel) :
    ∃ J, poseFromBlocks .SE23 att pos vel = .ok J ∧ J.rows = dim ∧ J.cols = 9 ∧
      BlockAt J 0 3 att ∧ BlockAt J 3 3 vel ∧ BlockAt J 6 3 pos := by
  obtain ⟨ha, hp, hv, hne⟩ := h
  have hl : lastDim [att, pos, vel] none = some dim := by
    apply lastDim_fit _ _ _ _ (Or.inl rfl)
    · rcases hne with h | h | h
      · exact Or.inl ⟨att, by simp, h⟩
      · exact Or.inl ⟨pos, by simp, h⟩
      · exact Or.inl ⟨vel, by simp, h⟩
    · intro b hb B hB
      simp only [List.mem_cons, List.not_mem_nil, or_false] at hb
      rcases hb with rfl | rfl | rfl
      · exact (ha B hB).1
      · exact (hp B hB).1
      · exact (hv B hB).1
  have sa := blkOr_shape dim 3 att ha
  have sp := blkOr_shape dim 3 pos hp
  have sv := blkOr_shape dim 3 vel hv
  have h1 : hcat (blkOr dim 3 att) (blkOr dim 3 vel) = .ok ⟨dim, 6, fun i j =>
      if j < 3 then (blkOr dim 3 att).get i j else (blkOr dim 3 vel).get i (j - 3)⟩ := by
    unfold hcat
    rw [if_pos (by rw [sa.1, sv.1]), sa.1, sa.2, sv.2]
  unfold poseFromBlocks
  simp only [hl, h1, bind, Except.bind]
  unfold hcat
  rw [if_pos sp.1.symm]
  refine ⟨_, rfl, rfl, ?_, ?_, ?_, ?_⟩
  · show 6 + _ = 9
    rw [sp.2]
  · intro i j _ hj
    show (if 0 + j < 6 then (if 0 + j < 3 then _ else _) else _) = _
    rw [if_pos (by omega), if_pos (by omega), blkOr_get, Nat.zero_add]
  · intro i j _ hj
    show (if 3 + j < 6 then (if 3 + j < 3 then _ else _) else _) = _
    rw [if_pos (by omega), if_neg (by omega), blkOr_get, Nat.add_sub_cancel_left]
  · intro i j _ hj
    show (if 6 + j < 6 then _ else (blkOr dim 3 pos).get i (6 + j - 6)) = _
    rw [if_neg (by omega), blkOr_get, Nat.add_sub_cancel_left]

/-- **C33.** No block at all: `UnboundLocalError`. -/
theorem C33_from_no_blocks (c : PoseClass) : poseFromBlocks c none none none = .error .unboundLocal := by
  cases c <;> rfl

/-- Non-vacuity of C33: a 2-row Jacobian of an SE_2(3) state with only a position block. -/
example : BlocksFit .SE23 2 none (some ⟨2, 3, fun i j => i + j⟩) none := by
  refine ⟨by simp, ?_, by simp, Or.inr (Or.inl (by simp))⟩
  intro B hB
  cases hB
  exact ⟨rfl, rfl⟩

/-! ### C34 -/

/-- **C34.** `random` of every class except SE(3) returns a state of that class. -/
theorem C34_random (c : LieClass) (h : c ≠ .SE3State) : c.randomClass = c := by
  cases c <;> first | rfl | exact absurd rfl h

/-- **C34.** The claim is false for SE(3): the state returned is of another class, its value is 3 × 3 instead of
4 × 4 and it has 3 instead of 6 degrees of freedom. -/
theorem C34_random_SE3_wrong :
    LieClass.SE3State.randomClass ≠ .SE3State ∧
    LieClass.SE3State.randomClass.mdim ≠ LieClass.SE3State.mdim ∧
    LieClass.SE3State.randomClass.dof ≠ LieClass.SE3State.dof := by decide

end Verif
