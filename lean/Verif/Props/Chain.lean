import Verif.Props.Attach
import Verif.Props.LeastSquaresLaw
import Verif.Props.BatchLinear
import Verif.Props.Residuals

/-!
C141: the posterior of one batch is the prior of the next.
-/

set_option linter.unusedVariables false
set_option linter.unusedSectionVars false
set_option linter.unusedSimpArgs false

namespace Verif

open Matrix

variable {K : Type} [DecidableEq K]

/-! ### Minimizing over all but some coordinates -/

/-- The weighted square `ζᵀ S⁻¹ ζ`. -/
noncomputable def maha {n : ℕ} (S : Mat n n) (ζ : Vec n) : ℝ := ζ ⬝ᵥ S⁻¹ *ᵥ ζ

/-- The rows of the identity selected by `f`. -/
def pickRows {n N : ℕ} (f : Fin n → Fin N) : Mat n N := fun i c => if f i = c then 1 else 0

theorem pickRows_mulVec {n N : ℕ} (f : Fin n → Fin N) (z : Vec N) : pickRows f *ᵥ z = fun i => z (f i) := by
  funext i
  show ∑ c, (if f i = c then (1 : ℝ) else 0) * z c = _
  simp

theorem pickRows_sandwich {n N : ℕ} (f : Fin n → Fin N) (M : Mat N N) : pickRows f * M * (pickRows f)ᵀ = M.submatrix f f := by
  ext i j
  have h1 : ∀ c, (pickRows f * M) i c = M (f i) c := by
    intro c
    show ∑ d, (if f i = d then (1 : ℝ) else 0) * M d c = _
    simp
  show ∑ c, (pickRows f * M) i c * (if f j = c then (1 : ℝ) else 0) = _
  simp [h1]

/-- The cost of the best completion of a partial displacement `ζ`: with `S` the block of the covariance, it is `ζᵀ S⁻¹ ζ`. -/
theorem section_min {m n N : ℕ} {H : Mat m N} (hd : (Hᵀ * H).det ≠ 0) (f : Fin n → Fin N) (hf : Function.Injective f) {S : Mat n n}
    (hS : S = ((Hᵀ * H)⁻¹).submatrix f f) :
    S.PosDef ∧ (∀ z : Vec N, maha S (fun i => z (f i)) ≤ z ⬝ᵥ (Hᵀ * H) *ᵥ z) ∧
    ∀ ζ : Vec n, ∃ z : Vec N, (fun i => z (f i)) = ζ ∧ z ⬝ᵥ (Hᵀ * H) *ᵥ z = maha S ζ ∧
      ∀ z', (fun i => z' (f i)) = ζ → z' ⬝ᵥ (Hᵀ * H) *ᵥ z' ≤ maha S ζ → z' = z := by
  have hpd : (Hᵀ * H).PosDef := gram_pd hd
  have hSpd : S.PosDef := by rw [hS]; exact hpd.inv.submatrix hf
  have hSu : IsUnit S.det := isUnit_iff_ne_zero.2 (pd_det hSpd)
  have hu : IsUnit (Hᵀ * H).det := isUnit_iff_ne_zero.2 hd
  have hSP : pickRows f * (Hᵀ * H)⁻¹ * (pickRows f)ᵀ = S := by rw [pickRows_sandwich, hS]
  have hquad : ∀ ζ : Vec n, ((pickRows f)ᵀ *ᵥ (S⁻¹ *ᵥ ζ)) ⬝ᵥ (Hᵀ * H)⁻¹ *ᵥ ((pickRows f)ᵀ *ᵥ (S⁻¹ *ᵥ ζ)) = maha S ζ := by
    intro ζ
    have e1 : ((pickRows f)ᵀ *ᵥ (S⁻¹ *ᵥ ζ)) ⬝ᵥ (Hᵀ * H)⁻¹ *ᵥ ((pickRows f)ᵀ *ᵥ (S⁻¹ *ᵥ ζ)) =
        (S⁻¹ *ᵥ ζ) ⬝ᵥ (pickRows f * (Hᵀ * H)⁻¹ * (pickRows f)ᵀ) *ᵥ (S⁻¹ *ᵥ ζ) := by
      rw [← mulVec_mulVec, ← mulVec_mulVec, dotProduct_mulVec (S⁻¹ *ᵥ ζ) (pickRows f), ← mulVec_transpose]
    rw [e1, hSP, mulVec_mulVec, mul_nonsing_inv _ hSu, one_mulVec, dotProduct_comm]
    rfl
  have hlin : ∀ (ζ : Vec n) (z : Vec N), ((pickRows f)ᵀ *ᵥ (S⁻¹ *ᵥ ζ)) ⬝ᵥ z = (S⁻¹ *ᵥ ζ) ⬝ᵥ fun i => z (f i) := by
    intro ζ z
    rw [← pickRows_mulVec f z, dotProduct_mulVec, ← mulVec_transpose]
  refine ⟨hSpd, fun z => ?_, fun ζ => ?_⟩
  · have h := square_bound hd ((pickRows f)ᵀ *ᵥ (S⁻¹ *ᵥ fun i => z (f i))) z
    rw [hquad, hlin] at h
    have e : (S⁻¹ *ᵥ fun i => z (f i)) ⬝ᵥ (fun i => z (f i)) = maha S fun i => z (f i) := dotProduct_comm _ _
    rw [e] at h
    linarith
  · obtain ⟨z, hz⟩ : ∃ z, z = (Hᵀ * H)⁻¹ *ᵥ ((pickRows f)ᵀ *ᵥ (S⁻¹ *ᵥ ζ)) := ⟨_, rfl⟩
    have hA : (Hᵀ * H) *ᵥ z = (pickRows f)ᵀ *ᵥ (S⁻¹ *ᵥ ζ) := by rw [hz, mulVec_mulVec, mul_nonsing_inv _ hu, one_mulVec]
    have hzf : (fun i => z (f i)) = ζ := by
      rw [← pickRows_mulVec f z, hz, mulVec_mulVec, mulVec_mulVec, hSP, mulVec_mulVec, mul_nonsing_inv _ hSu, one_mulVec]
    have hzq : z ⬝ᵥ (Hᵀ * H) *ᵥ z = maha S ζ := by
      rw [hA, dotProduct_comm, hlin, hzf, dotProduct_comm]
      rfl
    refine ⟨z, hzf, hzq, fun z' h1 h2 => ?_⟩
    have hcross : z' ⬝ᵥ (Hᵀ * H) *ᵥ z = maha S ζ := by
      rw [hA, dotProduct_comm, hlin, h1, dotProduct_comm]
      rfl
    have hcross' : z ⬝ᵥ (Hᵀ * H) *ᵥ z' = maha S ζ := by
      have : ((Hᵀ * H)ᵀ) = Hᵀ * H := by rw [transpose_mul, transpose_transpose]
      rw [dotProduct_mulVec, ← mulVec_transpose, this, dotProduct_comm, hcross]
    have hle : (z' - z) ⬝ᵥ (Hᵀ * H) *ᵥ (z' - z) ≤ 0 := by
      rw [mulVec_sub, dotProduct_sub, sub_dotProduct, sub_dotProduct, hcross, hcross', hzq]
      linarith
    by_contra hne
    have hpos := (Matrix.posDef_iff_dotProduct_mulVec.1 hpd).2 (sub_ne_zero.2 hne)
    simp only [star_trivial] at hpos
    linarith

/-! ### A linear problem that has been solved -/

theorem linear_solved {P P' : Prob K (List ℝ)} (hP : LinearProblem P) (hs : P.cfg.solver = "GN") (hit : 0 < P.cfg.maxIters)
    (h : P.solve vecVarOps = .ok P') :
    ∃ (P1 : Prob K (List ℝ)) (e : Vec P1.sizeErr) (H : Mat P1.sizeErr P1.sizeState) (c : ℝ) (δs : Vec P1.sizeState) (cf : ℝ),
      P.started vecVarOps = .ok P1 ∧ P1.linearize P.varsInit = .ok ⟨P1.sizeErr, P1.sizeState, e, H, c⟩ ∧
      SlicesFit P.constKeys P1.varSlices P1.sizeState P.varsInit ∧ (Hᵀ * H).det ≠ 0 ∧
      moveAll P.constKeys P1.varSlices δs P.varsInit = P'.vars ∧ totalCost P'.vars (P.residuals.zip P.losses) = .ok cf ∧
      ∀ d, totalCost (moveAll P.constKeys P1.varSlices d P.varsInit) (P.residuals.zip P.losses) =
        .ok (cf + 1 / 2 * ((d - δs) ⬝ᵥ (Hᵀ * H) *ᵥ (d - δs))) := by
  obtain ⟨P1, e, H, c, hP1, hL, ha, hfit, hcost⟩ := linear_coords hP
  obtain ⟨hshape, hconst, cf, hcf, hmin⟩ := C40_linear P P' hP hs hit h
  have hdP := linear_regular hs hit h hP1 hL
  obtain ⟨δs, hδs⟩ := move_surjective hP hP1 hshape hconst
  have hδmin : δs = gnDelta e H := by
    have h0 := hcost δs
    rw [hδs, hcf] at h0
    have h0 := Except.ok.inj h0
    have h1 := hcost (gnDelta e H)
    obtain ⟨a1, a2⟩ := moveAll_shape (const := P.constKeys) (sl := P1.varSlices) (gnDelta e H) P.varsInit
    obtain ⟨c1, k1, k2, -⟩ := hmin (moveAll P.constKeys P1.varSlices (gnDelta e H) P.varsInit) ⟨a1, a2⟩ (fun k hk => moveAll_const _ hk)
    rw [h1] at k1
    obtain rfl := Except.ok.inj k1
    have hpy := gnDelta_pythagoras e H hdP δs
    refine gnDelta_unique e H hdP δs (le_antisymm ?_ (dot_self_nonneg _))
    linarith
  refine ⟨P1, e, H, c, δs, cf, hP1, hL, hfit, hdP, hδs, hcf, fun d => ?_⟩
  rw [hcost d]
  congr 1
  have k2 := hcost δs
  rw [hδs, hcf] at k2
  have k2 := Except.ok.inj k2
  have p1 := gnDelta_pythagoras e H hdP d
  rw [← hδmin] at p1
  rw [gram_dot_eq, vecNorm_sq]
  linarith

/-- A linear problem with exactly one best assignment is solved by Gauss-Newton. -/
theorem linear_solve_of_unique {Q : Prob K (List ℝ)} (hQ : LinearProblem Q) (hs : Q.cfg.solver = "GN") (hit : 0 < Q.cfg.maxIters)
    (hfree : ∃ k x, Q.varsInit.lookup k = some x ∧ x ≠ [] ∧ k ∉ Q.constKeys) {V : List (K × List ℝ)} {c0 : ℝ} (hV : Allowed Q V)
    (hc0 : totalCost V (Q.residuals.zip Q.losses) = .ok c0)
    (hu : ∀ W c, Allowed Q W → totalCost W (Q.residuals.zip Q.losses) = .ok c → c ≤ c0 → W = V) :
    ∃ Q', Q.solve vecVarOps = .ok Q' ∧ Q'.vars = V := by
  obtain ⟨Q1, e', H', c', hQ1, hL', ha', hfit', hcost'⟩ := linear_coords hQ
  obtain ⟨w0, hw0⟩ := move_surjective hQ hQ1 hV.1 hV.2
  have hcf' := hcost' w0
  rw [hw0, hc0] at hcf'
  have hcf'' := Except.ok.inj hcf'
  have hdQ : (H'ᵀ * H').det ≠ 0 := by
    intro hd
    obtain ⟨w, hw, hwz⟩ := Matrix.exists_mulVec_eq_zero_iff.2 hd
    have hz : H' *ᵥ w = 0 := by
      have : vecNorm (H' *ᵥ w) ^ 2 = 0 := by rw [← gram_dot_eq, hwz, dotProduct_zero]
      exact vecNorm_zero_iff_zero (pow_eq_zero_iff two_ne_zero |>.1 this)
    have hc1 := hcost' (w0 + w)
    rw [mulVec_add, hz, add_zero, ← hcf''] at hc1
    have := hu _ _ ⟨moveAll_shape _ _, fun k hk => moveAll_const _ hk⟩ hc1 le_rfl
    rw [← hw0] at this
    have hinj := moveAll_inj hQ hQ1 (δ := w0 + w) (δ' := w0) this
    exact hw (by simpa using hinj)
  have hnQ : 0 < Q1.sizeState := by
    obtain ⟨k, x, f1, f2, f3⟩ := hfree
    obtain ⟨s, s1, s2, s3⟩ := hfit' (k, x) (mem_of_lookup f1) f3
    have : 0 < x.length := List.length_pos_iff.2 f2
    simp only at s2
    omega
  obtain ⟨Q', hQ'⟩ := C40_returns Q Q1 hQ hs hit hQ1 _ hL' hdQ hnQ
  obtain ⟨hshapeQ, hconstQ, cq, hcq, hminQ⟩ := C40_linear Q Q' hQ hs hit hQ'
  refine ⟨Q', hQ', ?_⟩
  obtain ⟨c1, k1, k2, -⟩ := hminQ _ hV.1 hV.2
  rw [hc0] at k1
  obtain rfl := Except.ok.inj k1
  exact hu _ _ ⟨hshapeQ, hconstQ⟩ hcq k2

/-! ### The cost with one variable given -/

/-- The value of a variable as a vector. -/
def vecOf (n : ℕ) (v : List (K × List ℝ)) (k : K) : Vec n := fun i => (valOf v k).getD i 0

/-- A matrix from a block. -/
def blockMat (n : ℕ) (C : DMat) : Mat n n := fun i j => C.get i j

theorem profile (P P' : Prob K (List ℝ)) (hP : LinearProblem P) (hs : P.cfg.solver = "GN") (hit : 0 < P.cfg.maxIters)
    (h : P.solve vecVarOps = .ok P') (hc : P.cov = none) {k : K} {x : List ℝ} (hx : P.varsInit.lookup k = some x) (hk : k ∉ P.constKeys) :
    ∃ (C : DMat) (cf : ℝ), (P'.getCovarianceBlock k k).map Prod.fst = .ok (some C) ∧ C.rows = x.length ∧ C.cols = x.length ∧
      (blockMat x.length C).PosDef ∧ totalCost P'.vars (P.residuals.zip P.losses) = .ok cf ∧
      (∀ v, Allowed P v → ∃ c, totalCost v (P.residuals.zip P.losses) = .ok c ∧
        cf + 1 / 2 * maha (blockMat x.length C) (vecOf x.length v k - vecOf x.length P'.vars k) ≤ c) ∧
      ∀ y : Vec x.length, ∃ v, Allowed P v ∧ vecOf x.length v k = y ∧
        totalCost v (P.residuals.zip P.losses) = .ok (cf + 1 / 2 * maha (blockMat x.length C) (y - vecOf x.length P'.vars k)) ∧
        ∀ v' c', Allowed P v' → totalCost v' (P.residuals.zip P.losses) = .ok c' → vecOf x.length v' k = y →
          c' ≤ cf + 1 / 2 * maha (blockMat x.length C) (y - vecOf x.length P'.vars k) → v' = v := by
  obtain ⟨P1, e, H, c, δs, cf, hP1, hL, hfit, hdP, hδs, hcf, hcost⟩ := linear_solved hP hs hit h
  obtain ⟨s, s1, s2, s3⟩ := hfit (k, x) (mem_of_lookup hx) hk
  simp only at s1 s2
  obtain ⟨f, hf⟩ : ∃ f : Fin x.length → Fin P1.sizeState, ∀ i, (f i : ℕ) = s.start + i := ⟨fun i => ⟨s.start + i, by have := i.2; omega⟩, fun _ => rfl⟩
  have hfi : Function.Injective f := fun i j hij => by
    have := congrArg Fin.val hij
    rw [hf, hf] at this
    exact Fin.ext (by omega)
  obtain ⟨C, hC⟩ : ∃ C, C = SqMat.block ⟨P1.sizeState, (Hᵀ * H)⁻¹⟩ s s := ⟨_, rfl⟩
  have hlen : s.len P1.sizeState = x.length := by unfold Slice.len; omega
  have hS : blockMat x.length C = ((Hᵀ * H)⁻¹).submatrix f f := by
    ext i j
    rw [hC]
    show (if h : _ then _ else _) = _
    have m1 : min s.start P1.sizeState = s.start := by omega
    have hi := i.2
    have hj := j.2
    simp only [m1]
    rw [dif_pos ⟨by omega, by omega⟩]
    have e1 : ∀ (i : Fin x.length) (hb : s.start + (i : ℕ) < P1.sizeState), (⟨s.start + i, hb⟩ : Fin P1.sizeState) = f i :=
      fun i hb => Fin.ext (hf i).symm
    rw [e1, e1]
    rfl
  obtain ⟨t1, t2, t3⟩ := section_min hdP f hfi hS
  have hvec : ∀ d : Vec P1.sizeState, vecOf x.length (moveAll P.constKeys P1.varSlices d P.varsInit) k - vecOf x.length P'.vars k = fun i => (d - δs) (f i) := by
    intro d
    funext i
    have hb : s.start + (i : ℕ) < P1.sizeState := by have := i.2; omega
    have m1 := moveAll_entry d hx hk s1 s2 s3 i.2 hb
    have m2 := moveAll_entry δs hx hk s1 s2 s3 i.2 hb
    rw [hδs] at m2
    have e1 : (⟨s.start + i, hb⟩ : Fin P1.sizeState) = f i := Fin.ext (hf i).symm
    rw [e1] at m1 m2
    show (valOf _ k).getD i 0 - (valOf _ k).getD i 0 = d (f i) - δs (f i)
    rw [m1, m2]
    ring
  refine ⟨C, cf, by rw [hC]; exact linear_cov hP hs hit hP1 h hc hL hdP s1 s1, by rw [hC]; exact hlen, by rw [hC]; exact hlen, t1, hcf, ?_, ?_⟩
  · rintro v ⟨v1, v2⟩
    obtain ⟨d, rfl⟩ := move_surjective hP hP1 v1 v2
    refine ⟨_, hcost d, ?_⟩
    rw [hvec d]
    have := t2 (d - δs)
    linarith
  · intro y
    obtain ⟨z, z1, z2, z3⟩ := t3 (y - vecOf x.length P'.vars k)
    have hz : vecOf x.length (moveAll P.constKeys P1.varSlices (δs + z) P.varsInit) k = y := by
      have := hvec (δs + z)
      rw [add_sub_cancel_left, z1] at this
      exact sub_left_injective this
    refine ⟨moveAll P.constKeys P1.varSlices (δs + z) P.varsInit, ⟨moveAll_shape _ _, fun k hk => moveAll_const _ hk⟩, hz, ?_, ?_⟩
    · rw [hcost, add_sub_cancel_left, z2]
    · rintro v' c' ⟨v1, v2⟩ hc' hy hle
      obtain ⟨d, rfl⟩ := move_surjective hP hP1 v1 v2
      rw [hcost d] at hc'
      obtain rfl := Except.ok.inj hc'
      have h1 := hvec d
      rw [hy] at h1
      have := z3 (d - δs) h1.symm (by linarith)
      rw [← this, add_sub_cancel]


/-! ### The two problems -/

/-- The prior `Lᵀ (x - x̂)` on a vector variable. -/
noncomputable def priorAt (k : K) {n : ℕ} (xhat : Vec n) (L : Mat n n) : Residual K (List ℝ) :=
  linRes [k] [DMat.ofMat Lᵀ] n fun a => if h : a < n then -((Lᵀ *ᵥ xhat) ⟨a, h⟩) else 0

theorem priorAt_norm (k : K) {n : ℕ} (xhat : Vec n) (L : Mat n n) (y : List ℝ) :
    ∃ E, (priorAt k xhat L).error [y] = .ok E ∧ E = List.ofFn (Lᵀ *ᵥ ((fun i : Fin n => y.getD i 0) - xhat)) ∧
      listNorm E ^ 2 = ((fun i : Fin n => y.getD i 0) - xhat) ⬝ᵥ (L * Lᵀ) *ᵥ ((fun i : Fin n => y.getD i 0) - xhat) := by
  have hE : linErr n (fun a => if h : a < n then -((Lᵀ *ᵥ xhat) ⟨a, h⟩) else 0) [DMat.ofMat Lᵀ] [y] =
      List.ofFn (Lᵀ *ᵥ ((fun i : Fin n => y.getD i 0) - xhat)) := by
    refine List.ext_getElem (by simp [linErr]) fun a h1 h2 => ?_
    have ha : a < n := by simpa using h2
    simp only [linErr, List.getElem_ofFn, List.getElem_map, List.getElem_range]
    rw [dif_pos ha]
    simp only [List.zip_cons_cons, List.zip_nil_right, List.map_cons, List.map_nil, List.sum_cons, List.sum_nil, add_zero]
    have e2 : (Lᵀ *ᵥ ((fun i : Fin n => y.getD i 0) - xhat)) ⟨a, ha⟩ = (Lᵀ *ᵥ fun i : Fin n => y.getD i 0) ⟨a, ha⟩ - (Lᵀ *ᵥ xhat) ⟨a, ha⟩ := by
      rw [mulVec_sub]; rfl
    refine Eq.trans ?_ e2.symm
    have : ∑ c ∈ Finset.range (DMat.ofMat Lᵀ).cols, (DMat.ofMat Lᵀ).get a c * y.getD c 0 = (Lᵀ *ᵥ fun i : Fin n => y.getD i 0) ⟨a, ha⟩ := by
      show ∑ c ∈ Finset.range n, _ = ∑ c : Fin n, Lᵀ ⟨a, ha⟩ c * y.getD c 0
      rw [Finset.sum_range]
      refine Finset.sum_congr rfl fun c _ => ?_
      congr 1
      show (if h : _ then _ else _) = _
      rw [dif_pos ⟨ha, c.2⟩]
    rw [this]
    ring
  refine ⟨_, rfl, hE, ?_⟩
  rw [hE, sq, listNorm_ofFn, ← mulVec_mulVec, dotProduct_mulVec _ L, ← mulVec_transpose]

/-- Both parts in one problem: the variables `V`, `cs` of them constant, and the residuals `rs` are added to `P`. -/
noncomputable def joined (P : Prob K (List ℝ)) (V : List (K × List ℝ)) (cs : List K) (rs : List (Residual K (List ℝ))) : Prob K (List ℝ) :=
  { P with varsInit := P.varsInit ++ V, constKeys := P.constKeys ++ cs, residuals := P.residuals ++ rs, losses := P.losses ++ rs.map fun _ => l2Loss }

/-- The second part alone: the variable `k`, started at `x0` and with the prior `r`, the variables `V` and the residuals `rs`. -/
noncomputable def continued (P : Prob K (List ℝ)) (k : K) (x0 : List ℝ) (r : Residual K (List ℝ)) (V : List (K × List ℝ)) (cs : List K)
    (rs : List (Residual K (List ℝ))) : Prob K (List ℝ) :=
  { P with varsInit := (k, x0) :: V, constKeys := cs, residuals := r :: rs, losses := l2Loss :: rs.map fun _ => l2Loss }

theorem totalCost_append {v : List (K × List ℝ)} : ∀ {l1 l2 : List (Residual K (List ℝ) × Loss)} {c1 c2 : ℝ}, totalCost v l1 = .ok c1 →
    totalCost v l2 = .ok c2 → totalCost v (l1 ++ l2) = .ok (c1 + c2)
  | [], l2, c1, c2, h1, h2 => by cases h1; rw [List.nil_append, h2, zero_add]
  | (q, ls) :: l, l2, c1, c2, h1, h2 => by
    unfold totalCost at h1
    obtain ⟨ys, g1, h1⟩ := bind_ok h1
    obtain ⟨E', g2, h1⟩ := bind_ok h1
    obtain ⟨c', g3, h1⟩ := bind_ok h1
    cases h1
    have ih := totalCost_append g3 h2
    rw [List.cons_append]
    unfold totalCost
    rw [g1, ok_bindE, g2, ok_bindE, ih]
    show Except.ok _ = Except.ok _
    congr 1
    ring

theorem totalCost_cons {v : List (K × List ℝ)} {r : Residual K (List ℝ)} {xs : List (List ℝ)} {E : List ℝ} {l : List (Residual K (List ℝ) × Loss)}
    {c : ℝ} (h : totalCost v l = .ok c) (h1 : lookupAll v r.keys = .ok xs) (h2 : r.error xs = .ok E) :
    totalCost v ((r, l2Loss) :: l) = .ok (1 / 2 * listNorm E ^ 2 + c) := by
  unfold totalCost
  rw [h1, ok_bindE, h2, ok_bindE, h]
  show Except.ok (l2Loss.loss (listNorm E) + c) = _
  congr 1
  simp only [l2Loss]
  ring

theorem lookup_append_left {S : Type} {v w : List (K × S)} {q : K} (h : q ∈ v.map Prod.fst) : (v ++ w).lookup q = v.lookup q := by
  induction v with
  | nil => simp at h
  | cons p v ih =>
    obtain ⟨p1, p2⟩ := p
    rw [List.cons_append]
    by_cases e : q = p1
    · subst e; rw [lookup_cons_self, lookup_cons_self]
    · rw [lookup_cons_ne _ _ e, lookup_cons_ne _ _ e]
      refine ih ?_
      rw [List.map_cons, List.mem_cons] at h
      exact h.resolve_left e

theorem lookup_append_right {S : Type} {v w : List (K × S)} {q : K} (h : q ∉ v.map Prod.fst) : (v ++ w).lookup q = w.lookup q := by
  induction v with
  | nil => rfl
  | cons p v ih =>
    obtain ⟨p1, p2⟩ := p
    rw [List.map_cons, List.mem_cons, not_or] at h
    rw [List.cons_append, lookup_cons_ne _ _ h.1, ih h.2]

theorem key_of_lookup {S : Type} {v : List (K × S)} {q : K} {x : S} (h : v.lookup q = some x) : q ∈ v.map Prod.fst :=
  List.mem_map.2 ⟨_, mem_of_lookup h, rfl⟩

theorem sameShape_append {v0 w0 v w : List (K × List ℝ)} (h1 : SameShape v0 v) (h2 : SameShape w0 w) : SameShape (v0 ++ w0) (v ++ w) :=
  ⟨by rw [List.map_append, List.map_append, h1.1, h2.1], by rw [List.map_append, List.map_append, h1.2, h2.2]⟩

theorem sameShape_split {v0 w0 V : List (K × List ℝ)} (h : SameShape (v0 ++ w0) V) : ∃ v w, V = v ++ w ∧ SameShape v0 v ∧ SameShape w0 w := by
  obtain ⟨h1, h2⟩ := h
  have hl : V.length = v0.length + w0.length := by
    have := congrArg List.length h1
    simpa using this
  refine ⟨V.take v0.length, V.drop v0.length, (List.take_append_drop _ _).symm, ?_⟩
  have e := (List.take_append_drop v0.length V).symm
  rw [e] at h1 h2
  rw [List.map_append, List.map_append] at h1 h2
  have hlen : (V.take v0.length).length = v0.length := by rw [List.length_take]; omega
  obtain ⟨a1, a2⟩ := List.append_inj h1 (by simpa using hlen)
  obtain ⟨b1, b2⟩ := List.append_inj h2 (by simpa using hlen)
  exact ⟨⟨a1, b1⟩, ⟨a2, b2⟩⟩

theorem sameShape_cons {k : K} {x0 : List ℝ} {V W : List (K × List ℝ)} (h : SameShape ((k, x0) :: V) W) :
    ∃ y w, W = (k, y) :: w ∧ y.length = x0.length ∧ SameShape V w := by
  obtain ⟨v, w, rfl, h1, h2⟩ := sameShape_split (v0 := [(k, x0)]) (w0 := V) h
  obtain ⟨v1, y, rfl, h3, h4⟩ := sameShape_snoc (v0 := []) h1
  have : v1 = [] := by simpa [SameShape] using h3.1
  subst this
  exact ⟨y, w, rfl, h4, h2⟩

theorem sameShape_cons_mk {k : K} {x0 y : List ℝ} {V w : List (K × List ℝ)} (h1 : y.length = x0.length) (h2 : SameShape V w) :
    SameShape ((k, x0) :: V) ((k, y) :: w) := sameShape_append (v0 := [(k, x0)]) (v := [(k, y)]) ⟨rfl, by simp [h1]⟩ h2

theorem vecOf_ofFn {n : ℕ} {v : List (K × List ℝ)} {k : K} {y : List ℝ} (h : v.lookup k = some y) (hy : y.length = n) :
    List.ofFn (vecOf n v k) = y := by
  refine List.ext_getElem (by rw [List.length_ofFn, hy]) fun i h1 h2 => ?_
  rw [List.getElem_ofFn]
  show (valOf v k).getD i 0 = _
  unfold valOf
  rw [h, Option.getD_some, List.getD_eq_getElem?_getD, List.getElem?_eq_getElem h2, Option.getD_some]


/-- The cost of a linear problem can be evaluated at any assignment of the right shape. -/
theorem linear_cost_ok {Q : Prob K (List ℝ)} (hQ : LinearProblem Q) {W : List (K × List ℝ)} (hW : SameShape Q.varsInit W) :
    ∀ (l : List (Residual K (List ℝ))), (∀ r ∈ l, r ∈ Q.residuals) → ∃ c, totalCost W (l.zip (l.map fun _ => l2Loss)) = .ok c
  | [], h => ⟨0, rfl⟩
  | r :: l, h => by
    obtain ⟨c, hc⟩ := linear_cost_ok hQ hW l fun r hr => h r (by simp [hr])
    obtain ⟨ks, Js, n, b, rfl, h2, h3, h4⟩ := hQ.residuals r (h r (by simp))
    obtain ⟨m1, m2, m3⟩ := linear_eval (b := b) hQ hW h3 h4
    exact ⟨_, totalCost_cons hc m1 m2⟩

theorem linear_keys {Q : Prob K (List ℝ)} (hQ : LinearProblem Q) {r : Residual K (List ℝ)} (hr : r ∈ Q.residuals) {q : K} (hq : q ∈ r.keys) :
    q ∈ Q.varsInit.map Prod.fst := by
  obtain ⟨ks, Js, n, b, rfl, h2, h3, h4⟩ := hQ.residuals r hr
  obtain ⟨t, ht, htq⟩ := List.getElem_of_mem hq
  have ht' : t < ks.length := ht
  obtain ⟨-, z, hz, -⟩ := h4 t q (Js[t]'(by omega)) (by rw [List.getElem?_eq_getElem ht']; exact congrArg some htq) (List.getElem?_eq_getElem _)
  exact key_of_lookup hz

/-- **C141.** A linear problem `P` is solved with Gauss-Newton; `k` is one of its free variables. More variables and residuals, which involve `k`
but no other variable of `P`, can be added to it (`joined`), or go into a problem of their own, in which the only trace of `P` is a prior on `k`:
its estimate and its covariance block (`continued`). The prior can be built. One of the two problems is solved if and only if the other is; they
return the same values of `k` and the new variables, and the same covariance blocks. -/
theorem C141_chain (P P' : Prob K (List ℝ)) (hP : LinearProblem P) (hs : P.cfg.solver = "GN") (hit : 0 < P.cfg.maxIters)
    (h : P.solve vecVarOps = .ok P') (hc : P.cov = none) (k : K) (x : List ℝ) (hx : P.varsInit.lookup k = some x) (hxn : x ≠ [])
    (hk : k ∉ P.constKeys) (hpc : ∀ q ∈ P.constKeys, q ∈ P.varsInit.map Prod.fst) (V : List (K × List ℝ)) (cs : List K)
    (hcs : ∀ q ∈ cs, q ∈ V.map Prod.fst) (rs : List (Residual K (List ℝ))) (hJ : LinearProblem (joined P V cs rs)) :
    ∃ (C : DMat) (L : Mat x.length x.length), (P'.getCovarianceBlock k k).map Prod.fst = .ok (some C) ∧
      sqrtInformation (blockMat x.length C) = .ok L ∧
      ∀ x0 : List ℝ, x0.length = x.length →
        LinearProblem (continued P k x0 (priorAt k (vecOf x.length P'.vars k) L) V cs rs) →
        ((∃ Q', (joined P V cs rs).solve vecVarOps = .ok Q') ↔
          ∃ R', (continued P k x0 (priorAt k (vecOf x.length P'.vars k) L) V cs rs).solve vecVarOps = .ok R') ∧
        ∀ Q' R', (joined P V cs rs).solve vecVarOps = .ok Q' →
          (continued P k x0 (priorAt k (vecOf x.length P'.vars k) L) V cs rs).solve vecVarOps = .ok R' →
          (∀ q, q = k ∨ q ∈ V.map Prod.fst → Q'.vars.lookup q = R'.vars.lookup q) ∧
          ∀ q1 q2, (q1 = k ∨ q1 ∈ V.map Prod.fst ∧ q1 ∉ cs) → (q2 = k ∨ q2 ∈ V.map Prod.fst ∧ q2 ∉ cs) →
            ∃ CQ CR : DMat, (Q'.getCovarianceBlock q1 q2).map Prod.fst = .ok (some CQ) ∧
              (R'.getCovarianceBlock q1 q2).map Prod.fst = .ok (some CR) ∧ CQ.Same CR := by
  obtain ⟨C, cf, hC, -, -, hSpd, hcf, hlow, hatt⟩ := profile P P' hP hs hit h hc hx hk
  obtain ⟨L, hL, hLL⟩ := sqrtInformation_pd hSpd
  refine ⟨C, L, hC, hL, fun x0 hx0 hR => ?_⟩
  obtain ⟨S, hS⟩ : ∃ S, S = blockMat x.length C := ⟨_, rfl⟩
  obtain ⟨xh, hxh⟩ : ∃ xh, xh = vecOf x.length P'.vars k := ⟨_, rfl⟩
  rw [← hS] at hlow hatt hLL
  rw [← hxh] at hlow hatt hR ⊢
  obtain ⟨pr, hpr⟩ : ∃ pr, pr = priorAt k xh L := ⟨_, rfl⟩
  have hprk : pr.keys = [k] := by rw [hpr]; rfl
  have hprn : ∀ y : List ℝ, ∃ E, pr.error [y] = .ok E ∧ listNorm E ^ 2 = maha S ((fun i : Fin x.length => y.getD i 0) - xh) := by
    intro y
    obtain ⟨E, h1, -, h2⟩ := priorAt_norm k xh L y
    refine ⟨E, by rw [hpr]; exact h1, ?_⟩
    rw [h2, hLL]
    rfl
  rw [← hpr] at hR ⊢
  clear hpr
  obtain ⟨Q, hQd⟩ : ∃ Q, Q = joined P V cs rs := ⟨_, rfl⟩
  obtain ⟨R, hRd⟩ : ∃ R, R = continued P k x0 pr V cs rs := ⟨_, rfl⟩
  rw [← hQd] at hJ ⊢
  rw [← hRd] at hR ⊢
  have q1 : Q.varsInit = P.varsInit ++ V := by rw [hQd]; rfl
  have q2 : Q.constKeys = P.constKeys ++ cs := by rw [hQd]; rfl
  have q3 : Q.residuals.zip Q.losses = P.residuals.zip P.losses ++ rs.zip (rs.map fun _ => l2Loss) := by
    rw [hQd]
    show (P.residuals ++ rs).zip (P.losses ++ _) = _
    rw [List.zip_append (by rw [hP.losses, List.length_map])]
  have q4 : Q.cfg = P.cfg := by rw [hQd]; rfl
  have q5 : Q.cov = none := by rw [hQd]; exact hc
  have r1 : R.varsInit = (k, x0) :: V := by rw [hRd]; rfl
  have r2 : R.constKeys = cs := by rw [hRd]; rfl
  have r3 : R.residuals.zip R.losses = (pr, l2Loss) :: rs.zip (rs.map fun _ => l2Loss) := by rw [hRd]; rfl
  have r3' : ∀ r ∈ rs, r ∈ R.residuals := by
    intro r hr
    rw [hRd]
    exact List.mem_cons_of_mem _ hr
  have r4 : R.cfg = P.cfg := by rw [hRd]; rfl
  have r5 : R.cov = none := by rw [hRd]; exact hc
  clear hQd hRd
  have hkP : k ∈ P.varsInit.map Prod.fst := key_of_lookup hx
  have hdisj : ∀ q, q ∈ V.map Prod.fst → q ∉ P.varsInit.map Prod.fst := by
    intro q hq hq'
    have := hJ.keys
    rw [q1, List.map_append, List.nodup_append] at this
    exact this.2.2 q hq' q hq rfl
  have hVk : ∀ q, q ∈ V.map Prod.fst → q ≠ k := fun q hq e => hdisj q hq (e ▸ hkP)
  have hkcs : k ∉ cs := fun hq => hVk k (hcs k hq) rfl
  -- assignments
  have aQ : ∀ W, Allowed Q W ↔ ∃ v b, W = v ++ b ∧ Allowed P v ∧ SameShape V b ∧ ∀ q ∈ cs, b.lookup q = V.lookup q := by
    intro W
    constructor
    · rintro ⟨h1, h2⟩
      rw [q1] at h1 h2
      rw [q2] at h2
      obtain ⟨v, b, rfl, h3, h4⟩ := sameShape_split h1
      refine ⟨v, b, rfl, ⟨h3, fun q hq => ?_⟩, h4, fun q hq => ?_⟩
      · have := h2 q (by simp [hq])
        rwa [lookup_append_left (by rw [h3.1]; exact hpc q hq), lookup_append_left (hpc q hq)] at this
      · have := h2 q (by simp [hq])
        rwa [lookup_append_right (by rw [h3.1]; exact hdisj q (hcs q hq)), lookup_append_right (hdisj q (hcs q hq))] at this
    · rintro ⟨v, b, rfl, ⟨h1, h2⟩, h3, h4⟩
      refine ⟨by rw [q1]; exact sameShape_append h1 h3, fun q hq => ?_⟩
      rw [q2] at hq
      rw [q1]
      rcases List.mem_append.1 hq with hq | hq
      · rw [lookup_append_left (by rw [h1.1]; exact hpc q hq), lookup_append_left (hpc q hq)]
        exact h2 q hq
      · rw [lookup_append_right (by rw [h1.1]; exact hdisj q (hcs q hq)), lookup_append_right (hdisj q (hcs q hq))]
        exact h4 q hq
  have aR : ∀ W, Allowed R W ↔ ∃ y b, W = (k, y) :: b ∧ y.length = x.length ∧ SameShape V b ∧ ∀ q ∈ cs, b.lookup q = V.lookup q := by
    intro W
    constructor
    · rintro ⟨h1, h2⟩
      rw [r1] at h1 h2
      rw [r2] at h2
      obtain ⟨y, b, rfl, h3, h4⟩ := sameShape_cons h1
      refine ⟨y, b, rfl, h3.trans hx0, h4, fun q hq => ?_⟩
      have := h2 q hq
      rwa [lookup_cons_ne _ _ (hVk q (hcs q hq)), lookup_cons_ne _ _ (hVk q (hcs q hq))] at this
    · rintro ⟨y, b, rfl, h1, h3, h4⟩
      refine ⟨by rw [r1]; exact sameShape_cons_mk (h1.trans hx0.symm) h3, fun q hq => ?_⟩
      rw [r2] at hq
      rw [r1, lookup_cons_ne _ _ (hVk q (hcs q hq)), lookup_cons_ne _ _ (hVk q (hcs q hq))]
      exact h4 q hq
  -- values of `k`
  have hval : ∀ v, SameShape P.varsInit v → ∃ y, v.lookup k = some y ∧ y.length = x.length ∧ vecOf x.length v k = fun i : Fin x.length => y.getD i 0 := by
    intro v hv
    obtain ⟨y, hy, hyl⟩ := hv.lookup hx
    refine ⟨y, hy, hyl, ?_⟩
    funext i
    show (valOf v k).getD i 0 = _
    unfold valOf
    rw [hy, Option.getD_some]
  have hinj : ∀ y y' : List ℝ, y.length = x.length → y'.length = x.length →
      (fun i : Fin x.length => y.getD i 0) = (fun i : Fin x.length => y'.getD i 0) → y = y' := by
    intro y y' h1 h2 he
    refine List.ext_getElem (h1.trans h2.symm) fun i i1 i2 => ?_
    have := congrFun he ⟨i, by omega⟩
    simp only at this
    rw [List.getD_eq_getElem?_getD, List.getD_eq_getElem?_getD, List.getElem?_eq_getElem i1, List.getElem?_eq_getElem i2] at this
    exact this
  -- costs
  have hlk : ∀ v b y, SameShape P.varsInit v → v.lookup k = some y → ∀ q, q = k ∨ q ∈ V.map Prod.fst →
      (v ++ b).lookup q = ((k, y) :: b).lookup q := by
    intro v b y hv hy q hq
    rcases hq with rfl | hq
    · rw [lookup_append_left (by rw [hv.1]; exact hkP), lookup_cons_self, hy]
    · rw [lookup_append_right (by rw [hv.1]; exact hdisj q hq), lookup_cons_ne _ _ (hVk q hq)]
  have cost2 : ∀ y b, y.length = x.length → SameShape V b → ∃ c2, totalCost ((k, y) :: b) (rs.zip (rs.map fun _ => l2Loss)) = .ok c2 ∧
      totalCost ((k, y) :: b) (R.residuals.zip R.losses) = .ok (1 / 2 * maha S ((fun i : Fin x.length => y.getD i 0) - xh) + c2) ∧
      ∀ v c1, SameShape P.varsInit v → v.lookup k = some y → totalCost v (P.residuals.zip P.losses) = .ok c1 →
        totalCost (v ++ b) (Q.residuals.zip Q.losses) = .ok (c1 + c2) := by
    intro y b hy hb
    obtain ⟨c2, hc2⟩ := linear_cost_ok hR (W := (k, y) :: b) (by rw [r1]; exact sameShape_cons_mk (hy.trans hx0.symm) hb) rs r3'
    refine ⟨c2, hc2, ?_, fun v c1 hv hvk hc1 => ?_⟩
    · obtain ⟨E, hE1, hE2⟩ := hprn y
      rw [r3, ← hE2]
      refine totalCost_cons hc2 ?_ hE1
      rw [hprk, lookupAll_of (fun q hq => ⟨y, by rw [List.mem_singleton.1 hq]; exact lookup_cons_self _ _ _⟩)]
      rw [List.map_cons, lookup_cons_self]
      rfl
    · rw [q3]
      refine totalCost_append ?_ ?_
      · rw [← hc1]
        refine totalCost_congr fun p hp q hq => lookup_append_left ?_
        rw [hv.1]
        exact linear_keys hP (List.of_mem_zip hp).1 hq
      · rw [← hc2]
        refine totalCost_congr fun p hp q hq => hlk v b y hv hvk q ?_
        have := linear_keys hR (r3' _ (List.of_mem_zip hp).1) hq
        rw [r1, List.map_cons, List.mem_cons] at this
        exact this
  have hsQ : Q.cfg.solver = "GN" := by rw [q4]; exact hs
  have hitQ : 0 < Q.cfg.maxIters := by rw [q4]; exact hit
  have hsR : R.cfg.solver = "GN" := by rw [r4]; exact hs
  have hitR : 0 < R.cfg.maxIters := by rw [r4]; exact hit
  -- what the two solutions are
  have hRQ : ∀ R', R.solve vecVarOps = .ok R' → ∃ Q' v b y m, Q.solve vecVarOps = .ok Q' ∧ Q'.vars = v ++ b ∧ R'.vars = (k, y) :: b ∧
      SameShape P.varsInit v ∧ v.lookup k = some y ∧ SameShape V b ∧
      totalCost R'.vars (R.residuals.zip R.losses) = .ok m ∧ totalCost Q'.vars (Q.residuals.zip Q.losses) = .ok (cf + m) := by
    intro R' hR'
    obtain ⟨s1, s2, m, hm, hmin⟩ := C40_linear R R' hR hsR hitR hR'
    obtain ⟨y, b, hRv, hy, hb, hbc⟩ := (aR R'.vars).1 ⟨s1, s2⟩
    obtain ⟨v, hv, hvy, hvc, hvu⟩ := hatt fun i => y.getD i 0
    obtain ⟨y', hy', hyl', hyv'⟩ := hval v hv.1
    have hyy : y' = y := hinj _ _ hyl' hy (hyv'.symm.trans hvy)
    subst hyy
    obtain ⟨c2, hc2, hcR, hcQ⟩ := cost2 y' b hy hb
    rw [hRv, hcR] at hm
    obtain rfl := (Except.ok.inj hm).symm
    have hcost := hcQ v _ hv.1 hy' hvc
    have hcost' : totalCost (v ++ b) (Q.residuals.zip Q.losses) = .ok (cf + (1 / 2 * maha S ((fun i : Fin x.length => y'.getD i 0) - xh) + c2)) := by
      rw [hcost, add_assoc]
    obtain ⟨Q', hQ', hQv⟩ := linear_solve_of_unique hJ hsQ hitQ ⟨k, x, by rw [q1, lookup_append_left hkP]; exact hx, hxn, by
      rw [q2, List.mem_append]; exact fun hh => hh.elim hk hkcs⟩ ((aQ _).2 ⟨v, b, rfl, hv, hb, hbc⟩) hcost' (by
      intro W c hW hWc hle
      obtain ⟨v2, b2, rfl, hv2, hb2, hbc2⟩ := (aQ W).1 hW
      obtain ⟨y2, hy2, hyl2, hyv2⟩ := hval v2 hv2.1
      obtain ⟨c1, hc1, hlow2⟩ := hlow v2 hv2
      rw [hyv2] at hlow2
      obtain ⟨c22, -, hcR2, hcQ2⟩ := cost2 y2 b2 hyl2 hb2
      rw [hcQ2 v2 c1 hv2.1 hy2 hc1] at hWc
      obtain rfl := Except.ok.inj hWc
      have hA2 : Allowed R ((k, y2) :: b2) := (aR _).2 ⟨y2, b2, rfl, hyl2, hb2, hbc2⟩
      obtain ⟨cc, g1, g2, g3⟩ := hmin ((k, y2) :: b2) hA2.1 hA2.2
      rw [hcR2] at g1
      obtain rfl := Except.ok.inj g1
      have hW' := g3 (le_antisymm (by linarith) g2)
      rw [hRv] at hW'
      simp only [List.cons.injEq, Prod.mk.injEq, true_and] at hW'
      obtain ⟨rfl, rfl⟩ := hW'
      rw [hcR] at hcR2
      have hcc := Except.ok.inj hcR2
      rw [hvu v2 c1 hv2 hc1 hyv2 (by linarith)])
    exact ⟨Q', v, b, y', _, hQ', hQv, hRv, hv.1, hy', hb, by rw [hRv, hcR], by rw [hQv]; exact hcost'⟩
  refine ⟨⟨?_, fun ⟨R', hR'⟩ => ?_⟩, fun Q' R' hQ' hR' => ?_⟩
  · rintro ⟨Q', hQ'⟩
    obtain ⟨s1, s2, m, hm, hmin⟩ := C40_linear Q Q' hJ hsQ hitQ hQ'
    obtain ⟨v, b, hQv, hv, hb, hbc⟩ := (aQ Q'.vars).1 ⟨s1, s2⟩
    obtain ⟨y, hy, hyl, hyv⟩ := hval v hv.1
    obtain ⟨c1, hc1, hlow1⟩ := hlow v hv
    rw [hyv] at hlow1
    obtain ⟨c2, -, hcR, hcQ⟩ := cost2 y b hyl hb
    have hcQ1 := hcQ v c1 hv.1 hy hc1
    rw [hQv, hcQ1] at hm
    obtain rfl := (Except.ok.inj hm).symm
    obtain ⟨R', hR', -⟩ := linear_solve_of_unique hR hsR hitR ⟨k, x0, by rw [r1]; exact lookup_cons_self _ _ _, by
      intro e; rw [e] at hx0; exact hxn (List.length_eq_zero_iff.1 hx0.symm), by rw [r2]; exact hkcs⟩
      ((aR _).2 ⟨y, b, rfl, hyl, hb, hbc⟩) hcR (by
      intro W c hW hWc hle
      obtain ⟨y2, b2, rfl, hyl2, hb2, hbc2⟩ := (aR W).1 hW
      obtain ⟨v2, hv2, hvy2, hvc2, -⟩ := hatt fun i => y2.getD i 0
      obtain ⟨y3, hy3, hyl3, hyv3⟩ := hval v2 hv2.1
      have hyy : y3 = y2 := hinj _ _ hyl3 hyl2 (hyv3.symm.trans hvy2)
      subst hyy
      obtain ⟨c22, -, hcR2, hcQ2⟩ := cost2 y3 b2 hyl2 hb2
      rw [hcR2] at hWc
      obtain rfl := Except.ok.inj hWc
      have hA2 : Allowed Q (v2 ++ b2) := (aQ _).2 ⟨v2, b2, rfl, hv2, hb2, hbc2⟩
      obtain ⟨cc, g1, g2, g3⟩ := hmin (v2 ++ b2) hA2.1 hA2.2
      rw [hcQ2 v2 _ hv2.1 hy3 hvc2] at g1
      obtain rfl := Except.ok.inj g1
      have hW' := g3 (le_antisymm (by linarith) g2)
      rw [hQv] at hW'
      have hln : v2.length = v.length := by
        have e1 := congrArg List.length hv2.1.1
        have e2 := congrArg List.length hv.1.1
        rw [List.length_map, List.length_map] at e1 e2
        omega
      obtain ⟨rfl, rfl⟩ := List.append_inj hW' hln
      rw [hy] at hy3
      rw [Option.some.inj hy3])
    exact ⟨R', hR'⟩
  · obtain ⟨Q', -, -, -, -, hQ', -⟩ := hRQ R' hR'
    exact ⟨Q', hQ'⟩
  · obtain ⟨Q'', v, b, y, m, hQ'', hQv, hRv, hv, hy, hb, hmR, hmQ⟩ := hRQ R' hR'
    rw [hQ'] at hQ''
    obtain rfl := Except.ok.inj hQ''
    refine ⟨fun q hq => by rw [hQv, hRv]; exact hlk v b y hv hy q hq, ?_⟩
    obtain ⟨CQ, hCQ, hCQv⟩ := C140_variance Q Q' hJ hsQ hitQ hQ' q5
    obtain ⟨CR, hCR, hCRv⟩ := C140_variance R R' hR hsR hitR hR' r5
    have hin : ∀ q, (q = k ∨ q ∈ V.map Prod.fst ∧ q ∉ cs) → (q = k ∨ q ∈ V.map Prod.fst) := fun q hq => hq.imp_right And.left
    have hsl : ∀ q, (q = k ∨ q ∈ V.map Prod.fst) → (valOf Q.varsInit q).length = (valOf R.varsInit q).length ∧
        (∃ z, Q.varsInit.lookup q = some z) ∧ ∃ z, R.varsInit.lookup q = some z := by
      intro q hq
      unfold valOf
      rw [q1, r1]
      rcases hq with rfl | hq
      · rw [lookup_append_left hkP, lookup_cons_self, hx]
        exact ⟨hx0.symm, ⟨_, rfl⟩, ⟨_, rfl⟩⟩
      · rw [lookup_append_right (hdisj q hq), lookup_cons_ne _ _ (hVk q hq)]
        obtain ⟨p, hp, hpq⟩ := List.mem_map.1 hq
        have hVn : (V.map Prod.fst).Nodup := by
          have := hJ.keys
          rw [q1, List.map_append, List.nodup_append] at this
          exact this.2.1
        have : V.lookup q = some p.2 := lookup_mem hVn (by rw [← hpq]; exact hp)
        exact ⟨rfl, ⟨_, this⟩, ⟨_, this⟩⟩
    have fQ : ∀ q, (q = k ∨ q ∈ V.map Prod.fst ∧ q ∉ cs) → IsFree Q q := by
      intro q hq
      refine ⟨(hsl q (hin q hq)).2.1, ?_⟩
      rw [q2, List.mem_append]
      rcases hq with rfl | ⟨hq, hq'⟩
      · exact fun hh => hh.elim hk hkcs
      · exact fun hh => hh.elim (fun h1 => hdisj q hq (hpc q h1)) hq'
    have fR : ∀ q, (q = k ∨ q ∈ V.map Prod.fst ∧ q ∉ cs) → IsFree R q := by
      intro q hq
      refine ⟨(hsl q (hin q hq)).2.2, ?_⟩
      rw [r2]
      rcases hq with rfl | ⟨hq, hq'⟩
      · exact hkcs
      · exact hq'
    have hvar : ∀ (F : List K) (W : K → ℕ → ℝ), (∀ q ∈ F, q = k ∨ q ∈ V.map Prod.fst ∧ q ∉ cs) → comboVar CR F W = comboVar CQ F W := by
      intro F W hF
      have gQ := hCQv F W fun q hq => fQ q (hF q hq)
      have gR := hCRv F W fun q hq => fR q (hF q hq)
      have hdiff : ∀ v2 b2 y2, SameShape P.varsInit v2 → v2.lookup k = some y2 →
          comboDiff F W (v2 ++ b2) Q'.vars = comboDiff F W ((k, y2) :: b2) R'.vars := by
        intro v2 b2 y2 hv2 hy2
        unfold comboDiff
        congr 1
        refine List.map_congr_left fun q hq => ?_
        have e1 : valOf Q'.vars q = valOf R'.vars q := by
          unfold valOf
          rw [hQv, hRv, hlk v b y hv hy q (hin q (hF q hq))]
        have e2 : valOf (v2 ++ b2) q = valOf ((k, y2) :: b2) q := by
          unfold valOf
          rw [hlk v2 b2 y2 hv2 hy2 q (hin q (hF q hq))]
        rw [e1, e2]
      refine le_antisymm ?_ ?_
      · obtain ⟨W2, c, c0, hW2, hWc, hc0, ht⟩ := gR.1
        rw [hmR] at hc0
        obtain rfl := Except.ok.inj hc0
        obtain ⟨y2, b2, rfl, hyl2, hb2, hbc2⟩ := (aR W2).1 hW2
        obtain ⟨v2, hv2, hvy2, hvc2, -⟩ := hatt fun i => y2.getD i 0
        obtain ⟨y3, hy3, hyl3, hyv3⟩ := hval v2 hv2.1
        have hyy : y3 = y2 := hinj _ _ hyl3 hyl2 (hyv3.symm.trans hvy2)
        subst hyy
        obtain ⟨c22, -, hcR2, hcQ2⟩ := cost2 y3 b2 hyl2 hb2
        rw [hcR2] at hWc
        obtain rfl := Except.ok.inj hWc
        refine gQ.2 ⟨v2 ++ b2, _, _, (aQ _).2 ⟨v2, b2, rfl, hv2, hb2, hbc2⟩, hcQ2 v2 _ hv2.1 hy3 hvc2, hmQ, ?_⟩
        rw [hdiff v2 b2 y3 hv2.1 hy3, ht]
        ring
      · obtain ⟨W2, c, c0, hW2, hWc, hc0, ht⟩ := gQ.1
        rw [hmQ] at hc0
        obtain rfl := Except.ok.inj hc0
        obtain ⟨v2, b2, rfl, hv2, hb2, hbc2⟩ := (aQ W2).1 hW2
        obtain ⟨y2, hy2, hyl2, hyv2⟩ := hval v2 hv2.1
        obtain ⟨c1, hc1, hlow2⟩ := hlow v2 hv2
        rw [hyv2] at hlow2
        obtain ⟨c22, -, hcR2, hcQ2⟩ := cost2 y2 b2 hyl2 hb2
        rw [hcQ2 v2 c1 hv2.1 hy2 hc1] at hWc
        obtain rfl := Except.ok.inj hWc
        have hle := gR.2 ⟨(k, y2) :: b2, _, _, (aR _).2 ⟨y2, b2, rfl, hyl2, hb2, hbc2⟩, hcR2, hmR, rfl⟩
        rw [hdiff v2 b2 y2 hv2.1 hy2] at ht
        rw [ht]
        linarith
    intro p1 p2 f1 f2
    obtain ⟨a1, a2, a3, a4⟩ := hCQ p1 p2 (fQ p1 f1) (fQ p2 f2)
    obtain ⟨b1, b2, b3, b4⟩ := hCR p1 p2 (fR p1 f1) (fR p2 f2)
    have hl1 := (hsl p1 (hin p1 f1)).1
    have hl2 := (hsl p2 (hin p2 f2)).1
    refine ⟨_, _, a1, b1, by rw [a2, b2, hl1], by rw [a3, b3, hl2], fun i j hi hj => ?_⟩
    refine (combo_entries (C := CQ) (C' := CR) (Ok := fun q => q = k ∨ q ∈ V.map Prod.fst ∧ q ∉ cs) (len := fun q => (valOf Q.varsInit q).length)
      (fun a b ha hb => (hCQ a b (fQ a ha) (fQ b hb)).2) (fun a b ha hb => ?_) hvar f1 f2 (by rw [← a2]; exact hi) (by rw [← a3]; exact hj)).symm
    obtain ⟨-, d2, d3, d4⟩ := hCR a b (fR a ha) (fR b hb)
    exact ⟨d2.trans (hsl a (hin a ha)).1.symm, d3.trans (hsl b (hin b hb)).1.symm, d4⟩


/-- `priorAt` is what `PriorResidual` computes for a vector state. -/
theorem priorAt_code (k : ℕ) {n : ℕ} (xhat : Vec n) (S L : Mat n n) (hL : sqrtInformation S = .ok L) (y : Vec n) (st : Option ℝ) :
    ∃ r, PriorRes.new xhat S = .ok r ∧
      (toResidual [k] (r.evaluate (vecStateOps n))).error [⟨y, st⟩] = (priorAt k xhat L).error [List.ofFn y] ∧
      (toResidual [k] (r.evaluate (vecStateOps n))).jacobians [⟨y, st⟩] [true] = .ok [some (DMat.ofMat Lᵀ)] ∧
      (priorAt k xhat L).jacobians [List.ofFn y] [true] = .ok [some (DMat.ofMat Lᵀ)] := by
  refine ⟨⟨xhat, L⟩, ?_, ?_, ?_, rfl⟩
  · unfold PriorRes.new
    rw [hL]
    rfl
  · obtain ⟨E, h1, h2, -⟩ := priorAt_norm k xhat L (List.ofFn y)
    rw [h1, h2]
    have : (fun i : Fin n => (List.ofFn y).getD i 0) = y := by
      funext i
      rw [List.getD_eq_getElem?_getD, List.getElem?_ofFn, dif_pos i.2, Option.getD_some]
    rw [this]
    rfl
  · show Except.ok [some (DMat.ofMat (Lᵀ * 1))] = _
    rw [Matrix.mul_one]

/-! ### A concrete case: `x - 1`, `x + y - 5`; then `z - y - 2` with `z` started at 7 -/

theorem joined_example : joined exProb2 [(3, [7])] [] [exRes140] = attach exProb2 3 [7] exRes140 := rfl

/-- Both problems are solved, and agree on `y` and `z`. -/
example : ∃ (P' Q' R' : Prob ℕ (List ℝ)) (L : Mat 1 1), exProb2.solve vecVarOps = .ok P' ∧
    (joined exProb2 [(3, [7])] [] [exRes140]).solve vecVarOps = .ok Q' ∧
    (continued exProb2 2 [50] (priorAt 2 (vecOf 1 P'.vars 2) L) [(3, [7])] [] [exRes140]).solve vecVarOps = .ok R' ∧
    Q'.vars.lookup 2 = R'.vars.lookup 2 ∧ Q'.vars.lookup 3 = R'.vars.lookup 3 := by
  obtain ⟨P', hP'⟩ := exProb2_solve
  obtain ⟨Q', y, E, hQ', -⟩ := C140_attach exProb2 P' exProb2_linear rfl (by decide) hP' 3 [7] (by simp) (by simp [exProb2]) [2] exRes140
    exAttach.1 exAttach.2
  rw [← joined_example] at hQ'
  obtain ⟨C, L, -, -, hmain⟩ := C141_chain exProb2 P' exProb2_linear rfl (by decide) hP' rfl 2 [0] rfl (by simp) (by simp [exProb2])
    (by simp [exProb2]) [(3, [7])] [] (by simp) [exRes140] (by rw [joined_example]; exact exAttach.1)
  obtain ⟨hiff, hall⟩ := hmain [50] rfl (by
    refine ⟨by simp [continued], rfl, fun r hr => ?_⟩
    have hr' : r = priorAt 2 (vecOf 1 P'.vars 2) L ∨ r = exRes140 := by simpa [continued] using hr
    rcases hr' with rfl | rfl
    · refine ⟨_, _, _, _, rfl, by simp, rfl, ?_⟩
      intro t k J h1 h2
      cases t with
      | succ t => simp at h1
      | zero =>
        simp only [List.getElem?_cons_zero, Option.some.injEq] at h1 h2
        subst h1 h2
        exact ⟨rfl, [50], rfl, rfl⟩
    · refine ⟨_, _, _, _, rfl, by simp, rfl, ?_⟩
      intro t k J h1 h2
      match t with
      | 0 =>
        simp only [List.getElem?_cons_zero, Option.some.injEq] at h1 h2
        subst h1 h2
        exact ⟨rfl, [7], rfl, rfl⟩
      | 1 =>
        simp only [List.getElem?_cons_zero, List.getElem?_cons_succ, Option.some.injEq] at h1 h2
        subst h1 h2
        exact ⟨rfl, [50], rfl, rfl⟩
      | t + 2 => simp at h1)
  obtain ⟨R', hR'⟩ := hiff.1 ⟨Q', hQ'⟩
  obtain ⟨hv, -⟩ := hall Q' R' hQ' hR'
  exact ⟨P', Q', R', L, hP', hQ', hR', hv 2 (Or.inl rfl), hv 3 (Or.inr (by simp))⟩

end Verif
