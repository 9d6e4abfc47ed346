import Verif.Model.Alignment
import Verif.Lemmas.Imu
import Mathlib.Tactic

/-!
C116: trajectories and the package `evo` (`navlie/utils/alignment.py`).
-/

set_option linter.unusedVariables false

namespace Verif

open Matrix

variable {K : Type}

/-- What is assumed of the packages: quaternions represent rotations, the indexes that are associated are valid and as many on both sides,
and the alignment is by a rotation. -/
structure Evo.Ok (E : Evo) : Prop where
  quat : ∀ C, IsRot C → E.fromQuat (E.toQuat C) = C
  assoc : ∀ a b d o m, E.associate a b d o = .ok m → m.1.length = m.2.length ∧ (∀ i ∈ m.1, i < a.length) ∧ ∀ i ∈ m.2, i < b.length
  rot : ∀ a b s, IsRot (E.umeyama a b s).1

/-- The pose and the stamp of a state, without its id and direction. -/
def TrajState.bare (x : TrajState K) : TrajState K := ⟨x.attitude, x.position, x.stamp, none, false⟩

/-- A state moved by a rotation and a shift, after scaling its position. -/
def TrajState.moved (R : Mat 3 3) (b : Vec 3) (s : ℝ) (x : TrajState K) : TrajState K :=
  ⟨R * x.attitude, R *ᵥ (s • x.position) + b, x.stamp, none, false⟩

/-- **C116, round trip.** Converting states to an `evo` trajectory and back keeps poses and stamps, in order, and drops ids and directions. -/
theorem C116_round_trip (E : Evo) (h : E.Ok) (l : List (TrajState K)) (hl : ∀ x ∈ l, IsRot x.attitude) :
    fromEvo E (toEvo E l) = l.map TrajState.bare := by
  simp only [fromEvo, toEvo, List.map_map]
  refine List.map_congr_left fun x hx => ?_
  simp only [Function.comp, TrajState.bare, h.quat _ (hl x hx)]

theorem reduce_map {α β : Type} (f : α → β) (l : List α) (ids : List ℕ) :
    ids.filterMap (fun i => (l.map f)[i]?) = (ids.filterMap fun i => l[i]?).map f := by
  induction ids with
  | nil => rfl
  | cons i ids ih =>
    simp only [List.filterMap_cons, List.getElem?_map]
    cases l[i]? with
    | none => simpa using ih
    | some a => simpa using ih

theorem reduce_mem {α : Type} {l : List α} {ids : List ℕ} {x : α} (h : x ∈ ids.filterMap fun i => l[i]?) : x ∈ l := by
  obtain ⟨i, _, hi⟩ := List.mem_filterMap.mp h
  exact List.mem_of_getElem? hi

/-- The states at a list of indexes. -/
def pick {α : Type} (l : List α) (ids : List ℕ) : List α := ids.filterMap fun i => l[i]?

theorem pick_length {α : Type} (l : List α) : ∀ ids : List ℕ, (∀ i ∈ ids, i < l.length) → (pick l ids).length = ids.length
  | [], _ => rfl
  | i :: ids, h => by
    have hi := h i (by simp)
    have := pick_length l ids fun j hj => h j (by simp [hj])
    unfold pick at this ⊢
    rw [List.filterMap_cons, List.getElem?_eq_getElem hi]
    simpa using this

/-- **C116, association.** Without alignment the result consists of the associated states of both lists: as many of the reference as of the
estimate, the `k`-th of one associated with the `k`-th of the other, with their own poses and their own stamps; and the identity. If
nothing can be associated, the exception is passed on. -/
theorem C116_associate (E : Evo) (h : E.Ok) (ref est : List (TrajState K)) (hr : ∀ x ∈ ref, IsRot x.attitude) (he : ∀ x ∈ est, IsRot x.attitude)
    (d o : ℝ) (cs : Bool) (n : ℤ) :
    (∀ i j, E.associate (ref.map TrajState.stamp) (est.map TrajState.stamp) d o = .ok (i, j) →
      associateAndAlign E ref est d o false cs n = .ok ((pick ref i).map TrajState.bare, (pick est j).map TrajState.bare, (1, 0, 1)) ∧
      (pick ref i).length = i.length ∧ (pick est j).length = i.length) ∧
    ∀ e a, E.associate (ref.map TrajState.stamp) (est.map TrajState.stamp) d o = .error e → associateAndAlign E ref est d o a cs n = .error e := by
  have hs : ∀ l : List (TrajState K), (toEvo E l).map EvoRow.stamp = l.map TrajState.stamp := fun l => by
    simp [toEvo, Function.comp_def]
  have hp : ∀ (l : List (TrajState K)) (ids : List ℕ), (∀ x ∈ l, IsRot x.attitude) →
      fromEvo E (reduceToIds (toEvo E l) ids) = (pick l ids).map TrajState.bare := by
    intro l ids hl
    rw [← C116_round_trip E h (pick l ids) fun x hx => hl x (reduce_mem hx)]
    congr 1
    exact reduce_map _ _ _
  constructor
  · intro i j hij
    have hv := h.assoc _ _ _ _ _ hij
    simp only [List.length_map] at hv
    refine ⟨?_, pick_length _ _ hv.2.1, ?_⟩
    · simp only [associateAndAlign, hs, hij, ← hp _ _ hr, ← hp _ _ he]
      rfl
    · rw [pick_length _ _ hv.2.2]; exact hv.1.symm
  · intro e a h1
    simp only [associateAndAlign, hs, h1]
    rfl

/-- **C116, alignment.** With alignment the reference is as before and every associated estimate is moved by the rotation and the shift that
are returned, after scaling its position by the returned scale if `correct_scale` is set. The alignment is computed from the associated
positions (the first `n` of them unless `n` is -1). -/
theorem C116_align (E : Evo) (h : E.Ok) (ref est : List (TrajState K)) (hr : ∀ x ∈ ref, IsRot x.attitude) (he : ∀ x ∈ est, IsRot x.attitude)
    (d o : ℝ) (cs : Bool) (n : ℤ) (i j : List ℕ) (hij : E.associate (ref.map TrajState.stamp) (est.map TrajState.stamp) d o = .ok (i, j)) :
    ∃ R b s, associateAndAlign E ref est d o true cs n = .ok ((pick ref i).map TrajState.bare,
        (pick est j).map (TrajState.moved R b (if cs then s else 1)), (R, b, s)) ∧ IsRot R ∧
      (n = -1 → (R, b, s) = E.umeyama ((pick est j).map TrajState.position) ((pick ref i).map TrajState.position) cs) ∧
      (0 ≤ n → (R, b, s) = E.umeyama (((pick est j).take n.toNat).map TrajState.position) (((pick ref i).take n.toNat).map TrajState.position) cs) := by
  have hs : ∀ l : List (TrajState K), (toEvo E l).map EvoRow.stamp = l.map TrajState.stamp := fun l => by
    simp [toEvo, Function.comp_def]
  have hp : ∀ (l : List (TrajState K)) (ids : List ℕ), (∀ x ∈ l, IsRot x.attitude) →
      fromEvo E (reduceToIds (toEvo E l) ids) = (pick l ids).map TrajState.bare := by
    intro l ids hl
    rw [← C116_round_trip E h (pick l ids) fun x hx => hl x (reduce_mem hx)]
    congr 1
    exact reduce_map _ _ _
  have hred : ∀ (l : List (TrajState K)) (ids : List ℕ), reduceToIds (toEvo E l) ids = toEvo E (pick l ids) := fun l ids => reduce_map _ _ _
  have hxyz : ∀ l : List (TrajState K), (toEvo E l).map EvoRow.xyz = l.map TrajState.position := fun l => by
    simp [toEvo, Function.comp_def]
  have htake : ∀ (l : List (TrajState K)) (k : ℕ), ((toEvo E l).take k).map EvoRow.xyz = (l.take k).map TrajState.position := fun l k => by
    rw [List.map_take, hxyz, List.map_take]
  obtain ⟨R, b, s, hA⟩ : ∃ R b s, (evoAlign E (toEvo E (pick est j)) (toEvo E (pick ref i)) cs n).2 = (R, b, s) := ⟨_, _, _, rfl⟩
  have hA' : E.umeyama ((if n = -1 then toEvo E (pick est j) else (toEvo E (pick est j)).take n.toNat).map EvoRow.xyz)
      ((if n = -1 then toEvo E (pick ref i) else (toEvo E (pick ref i)).take n.toNat).map EvoRow.xyz) cs = (R, b, s) := hA
  have hR : IsRot R := by
    have h2 := h.rot ((if n = -1 then toEvo E (pick est j) else (toEvo E (pick est j)).take n.toNat).map EvoRow.xyz)
      ((if n = -1 then toEvo E (pick ref i) else (toEvo E (pick ref i)).take n.toNat).map EvoRow.xyz) cs
    rw [hA'] at h2
    exact h2
  have hm : fromEvo E (evoAlign E (toEvo E (pick est j)) (toEvo E (pick ref i)) cs n).1 =
      (pick est j).map (TrajState.moved (K := K) R b (if cs then s else 1)) := by
    have h3 : (evoAlign E (toEvo E (pick est j)) (toEvo E (pick ref i)) cs n).1 =
        (toEvo E (pick est j)).map (evoMove E R b (if cs then s else 1)) := by
      simp only [evoAlign, hA']
    rw [h3]
    simp only [fromEvo, toEvo, List.map_map]
    refine List.map_congr_left fun x hx => ?_
    have hx' := he x (reduce_mem hx)
    simp only [Function.comp, evoMove, TrajState.moved]
    rw [h.quat _ hx', h.quat _ (hR.mul hx')]
  refine ⟨R, b, s, ?_, hR, ?_, ?_⟩
  · have e1 : associateAndAlign E ref est d o true cs n = .ok (fromEvo E (reduceToIds (toEvo E ref) i),
        fromEvo E (evoAlign E (reduceToIds (toEvo E est) j) (reduceToIds (toEvo E ref) i) cs n).1,
        (evoAlign E (reduceToIds (toEvo E est) j) (reduceToIds (toEvo E ref) i) cs n).2) := by
      simp only [associateAndAlign, hs, hij]
      rfl
    rw [e1, hp _ _ hr, hred, hred, hm, hA]
  · intro hn
    rw [if_pos hn, if_pos hn, hxyz, hxyz] at hA'
    exact hA'.symm
  · intro hn
    rw [if_neg (by omega), if_neg (by omega), htake, htake] at hA'
    exact hA'.symm

/-- **C116, the shape of the trajectory is kept.** The relative attitudes of aligned estimates are those of the estimates, their relative
positions (in the frame of the first) are those of the estimates times the scale that was applied. -/
theorem C116_relative (R : Mat 3 3) (hR : IsRot R) (b : Vec 3) (s : ℝ) (x y : TrajState K) :
    ((x.moved R b s).attitude)ᵀ * (y.moved R b s).attitude = x.attitudeᵀ * y.attitude ∧
    ((x.moved R b s).attitude)ᵀ *ᵥ ((y.moved R b s).position - (x.moved R b s).position) = s • (x.attitudeᵀ *ᵥ (y.position - x.position)) := by
  have hO : Rᵀ * R = 1 := hR.1
  constructor
  · show (R * x.attitude)ᵀ * (R * y.attitude) = _
    rw [transpose_mul, Matrix.mul_assoc, ← Matrix.mul_assoc Rᵀ, hO, Matrix.one_mul]
  · show (R * x.attitude)ᵀ *ᵥ ((R *ᵥ (s • y.position) + b) - (R *ᵥ (s • x.position) + b)) = _
    have e : (R *ᵥ (s • y.position) + b) - (R *ᵥ (s • x.position) + b) = s • (R *ᵥ (y.position - x.position)) := by
      rw [mulVec_smul, mulVec_smul, mulVec_sub, smul_sub]; abel
    rw [e, mulVec_smul, transpose_mul, mulVec_mulVec, Matrix.mul_assoc, hO, Matrix.mul_one]

/-! ### Non-vacuity: quaternions do represent rotations -/

/-- The rotation of a unit quaternion (w, x, y, z): `SO3.from_quat` of `pymlg`. -/
def quatRot (q : Vec 4) : Mat 3 3 :=
  !![q 0 ^ 2 + q 1 ^ 2 - q 2 ^ 2 - q 3 ^ 2, 2 * (q 1 * q 2 - q 0 * q 3), 2 * (q 1 * q 3 + q 0 * q 2);
     2 * (q 1 * q 2 + q 0 * q 3), q 0 ^ 2 - q 1 ^ 2 + q 2 ^ 2 - q 3 ^ 2, 2 * (q 2 * q 3 - q 0 * q 1);
     2 * (q 1 * q 3 - q 0 * q 2), 2 * (q 2 * q 3 + q 0 * q 1), q 0 ^ 2 - q 1 ^ 2 - q 2 ^ 2 + q 3 ^ 2]

/-- Four times the products of the entries of the quaternion of a rotation. -/
def quatProd (C : Mat 3 3) : Mat 4 4 :=
  !![1 + C 0 0 + C 1 1 + C 2 2, C 2 1 - C 1 2, C 0 2 - C 2 0, C 1 0 - C 0 1;
     C 2 1 - C 1 2, 1 + C 0 0 - C 1 1 - C 2 2, C 0 1 + C 1 0, C 0 2 + C 2 0;
     C 0 2 - C 2 0, C 0 1 + C 1 0, 1 - C 0 0 + C 1 1 - C 2 2, C 1 2 + C 2 1;
     C 1 0 - C 0 1, C 0 2 + C 2 0, C 1 2 + C 2 1, 1 - C 0 0 - C 1 1 + C 2 2]

theorem quatProd_rank_one (C : Mat 3 3) (h : IsRot C) (i j k : Fin 4) : quatProd C i j * quatProd C i k = quatProd C i i * quatProd C j k := by
  obtain ⟨h1, h2⟩ := h
  have hr : C * Cᵀ = 1 := h1.right
  have hc : Cᵀ * C = 1 := h1
  have hadj : adjugate C = Cᵀ := by
    have := congrArg (fun M => M * adjugate C) hc
    simp only [Matrix.mul_assoc, Matrix.mul_adjugate, h2, one_smul, Matrix.mul_one, Matrix.one_mul] at this
    exact this.symm
  rw [adjugate_fin_three] at hadj
  have e := fun a b => congrFun (congrFun hadj a) b
  have r := fun a b => congrFun (congrFun hr a) b
  have c := fun a b => congrFun (congrFun hc a) b
  have e00 := e 0 0
  have e01 := e 0 1
  have e02 := e 0 2
  have e10 := e 1 0
  have e11 := e 1 1
  have e12 := e 1 2
  have e20 := e 2 0
  have e21 := e 2 1
  have e22 := e 2 2
  have r00 := r 0 0
  have r01 := r 0 1
  have r02 := r 0 2
  have r11 := r 1 1
  have r12 := r 1 2
  have r22 := r 2 2
  have c00 := c 0 0
  have c01 := c 0 1
  have c02 := c 0 2
  have c11 := c 1 1
  have c12 := c 1 2
  have c22 := c 2 2
  simp [Matrix.mul_apply, Fin.sum_univ_three] at e00 e01 e02 e10 e11 e12 e20 e21 e22 r00 r01 r02 r11 r12 r22 c00 c01 c02 c11 c12 c22
  clear e r c hadj hr hc h1 h2
  fin_cases i <;> fin_cases j <;> fin_cases k <;> simp [quatProd] <;>
    linarith [e00, e01, e02, e10, e11, e12, e20, e21, e22, r00, r01, r02, r11, r12, r22, c00, c01, c02, c11, c12, c22]

/-- Every rotation is that of a unit quaternion. -/
theorem exists_quat (C : Mat 3 3) (h : IsRot C) : ∃ q : Vec 4, q ⬝ᵥ q = 1 ∧ quatRot q = C := by
  obtain ⟨i, hi⟩ : ∃ i, 0 < quatProd C i i := by
    by_contra hn
    push Not at hn
    have h0 := hn 0
    have h1 := hn 1
    have h2 := hn 2
    have h3 := hn 3
    simp [quatProd] at h0 h1 h2 h3
    linarith
  have hs := Real.sqrt_pos.mpr hi
  have hss : Real.sqrt (quatProd C i i) * Real.sqrt (quatProd C i i) = quatProd C i i := Real.mul_self_sqrt hi.le
  let q : Vec 4 := fun j => quatProd C i j / (2 * Real.sqrt (quatProd C i i))
  have hq : ∀ j k, q j * q k = quatProd C j k / 4 := by
    intro j k
    show quatProd C i j / (2 * Real.sqrt (quatProd C i i)) * (quatProd C i k / (2 * Real.sqrt (quatProd C i i))) = _
    rw [div_mul_div_comm, quatProd_rank_one C h,
      show 2 * Real.sqrt (quatProd C i i) * (2 * Real.sqrt (quatProd C i i)) = 4 * quatProd C i i by linear_combination 4 * hss]
    field_simp
  refine ⟨q, ?_, ?_⟩
  · simp only [dotProduct, Fin.sum_univ_four, hq]
    simp [quatProd]
    ring
  · ext a b
    fin_cases a <;> fin_cases b <;> simp only [quatRot, pow_two, hq] <;> simp [quatProd] <;> ring

/-- Both signs of a quaternion are the same rotation. -/
theorem quatRot_neg (q : Vec 4) : quatRot (-q) = quatRot q := by
  ext a b
  fin_cases a <;> fin_cases b <;> simp [quatRot]

open Classical in
/-- Quaternions, association of equal indexes and no alignment at all. -/
noncomputable def plainEvo : Evo where
  toQuat C := if h : IsRot C then (exists_quat C h).choose else 0
  fromQuat := quatRot
  associate a b _ _ := .ok (List.range (min a.length b.length), List.range (min a.length b.length))
  umeyama _ _ _ := (1, 0, 1)

/-- The assumptions on the packages can be met. -/
theorem plainEvo_ok : plainEvo.Ok where
  quat C h := by
    simp only [plainEvo, dif_pos h]
    exact (exists_quat C h).choose_spec.2
  assoc a b d o m h := by
    cases h
    refine ⟨rfl, fun i hi => ?_, fun i hi => ?_⟩ <;> simp at hi <;> omega
  rot a b s := isRot_one

end Verif
