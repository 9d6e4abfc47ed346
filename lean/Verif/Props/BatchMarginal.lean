import Verif.Props.BatchLinear2
import Verif.Props.LinearTotal
import Verif.Lemmas.Marginal

/-!
C89: with linear models, `BatchEstimator` returns the exact marginals of the batch problem.
-/

namespace Verif

set_option linter.unusedVariables false
set_option linter.unusedSectionVars false

open Matrix

variable {U : Type} {n : ℕ}

/-! ### Marginals of a positive definite form -/

/-- The smallest value of `δᵀ M δ` over all `δ` with a given restriction. -/
theorem form_marginal {N : ℕ} {M : Mat N N} (hM : M.PosDef) (ι : Fin n → Fin N) (hι : Function.Injective ι) :
    (M⁻¹.submatrix ι ι).PosDef ∧
    (∀ δ : Vec N, mahal (M⁻¹.submatrix ι ι) (fun i => δ (ι i)) ≤ δ ⬝ᵥ M *ᵥ δ) ∧
    ∀ w : Vec n, ∃ δ : Vec N, (fun i => δ (ι i)) = w ∧ δ ⬝ᵥ M *ᵥ δ = mahal (M⁻¹.submatrix ι ι) w := by
  classical
  have hMd := unit_of_det (pd_det hM)
  have hMs : Mᵀ = M := psd_symm hM.posSemidef
  have hMi : M⁻¹.PosDef := hM.inv
  have hSpd : (M⁻¹.submatrix ι ι).PosDef := hMi.submatrix hι
  set S : Mat n n := M⁻¹.submatrix ι ι with hS
  have hSd := unit_of_det (pd_det hSpd)
  have hSis : S⁻¹ᵀ = S⁻¹ := psd_symm hSpd.inv.posSemidef
  let up : Vec n → Vec N := fun z p => ∑ i, if ι i = p then z i else 0
  have hup : ∀ (z : Vec n) (η : Vec N), η ⬝ᵥ up z = (fun i => η (ι i)) ⬝ᵥ z := by
    intro z η
    show ∑ p, η p * ∑ i, (if ι i = p then z i else 0) = ∑ i, η (ι i) * z i
    simp only [Finset.mul_sum]
    rw [Finset.sum_comm]
    refine Finset.sum_congr rfl fun i _ => ?_
    simp
  have hres : ∀ (z : Vec n), (fun i => (M⁻¹ *ᵥ up z) (ι i)) = S *ᵥ z := by
    intro z
    funext i
    show M⁻¹ (ι i) ⬝ᵥ up z = S i ⬝ᵥ z
    rw [hup]
    rfl
  have hval : ∀ z : Vec n, (M⁻¹ *ᵥ up z) ⬝ᵥ M *ᵥ (M⁻¹ *ᵥ up z) = z ⬝ᵥ S *ᵥ z := by
    intro z
    rw [mulVec_mulVec, mul_nonsing_inv _ hMd, one_mulVec, hup, hres, dotProduct_comm]
  have hopt : ∀ w : Vec n, (fun i => (M⁻¹ *ᵥ up (S⁻¹ *ᵥ w)) (ι i)) = w := by
    intro w
    rw [hres, mulVec_mulVec, mul_nonsing_inv _ hSd, one_mulVec]
  have hoptv : ∀ w : Vec n, (M⁻¹ *ᵥ up (S⁻¹ *ᵥ w)) ⬝ᵥ M *ᵥ (M⁻¹ *ᵥ up (S⁻¹ *ᵥ w)) = mahal S w := by
    intro w
    rw [hval, mulVec_mulVec, mul_nonsing_inv _ hSd, one_mulVec, dotProduct_comm]
    rfl
  refine ⟨hSpd, fun η => ?_, fun w => ⟨_, hopt w, hoptv w⟩⟩
  rw [← hoptv]
  set z := S⁻¹ *ᵥ (fun i => η (ι i)) with hz
  set η0 := M⁻¹ *ᵥ up z with h0
  have hx : (η - η0) ⬝ᵥ M *ᵥ η0 = 0 := by
    rw [h0, mulVec_mulVec, mul_nonsing_inv _ hMd, one_mulVec, hup]
    have : (fun i => (η - η0) (ι i)) = 0 := by
      funext i
      show η (ι i) - η0 (ι i) = 0
      have c : η0 (ι i) = η (ι i) := congrFun (hopt fun i => η (ι i)) i
      rw [c, sub_self]
    rw [this, zero_dotProduct]
  have hx' : η0 ⬝ᵥ M *ᵥ (η - η0) = 0 := by
    rw [dotProduct_mulVec, ← mulVec_transpose, hMs, dotProduct_comm]
    exact hx
  have hpos : 0 ≤ (η - η0) ⬝ᵥ M *ᵥ (η - η0) := by
    have := hM.posSemidef.dotProduct_mulVec_nonneg (η - η0)
    simpa using this
  have hsplit : η ⬝ᵥ M *ᵥ η = η0 ⬝ᵥ M *ᵥ η0 + (η - η0) ⬝ᵥ M *ᵥ (η - η0) := by
    conv_lhs => rw [show η = η0 + (η - η0) by abel]
    rw [mulVec_add, add_dotProduct, dotProduct_add, dotProduct_add, hx, hx']
    ring
  rw [hsplit]
  linarith

/-- A marginal determines its mean and covariance. -/
theorem marginal_unique {G G' : Mat n n} (hG : G.PosDef) (hG' : G'.PosDef) {c c' : ℝ} {x x' : Vec n}
    (h : ∀ v, c + mahal G (v - x) = c' + mahal G' (v - x')) : x = x' ∧ G = G' := by
  have h1 := h x
  have h2 := h x'
  rw [sub_self, mahal_zero] at h1 h2
  have p1 := mahal_nonneg hG (x' - x)
  have p2 := mahal_nonneg hG' (x - x')
  have hx : x = x' := by
    by_contra hne
    have := mahal_pos hG' (sub_ne_zero.2 hne)
    linarith
  subst hx
  refine ⟨rfl, ?_⟩
  have hc : c = c' := by simpa [mahal_zero] using h1
  have hi : G⁻¹ = G'⁻¹ := by
    refine symm_ext (psd_symm hG.inv.posSemidef) (psd_symm hG'.inv.posSemidef) fun z => ?_
    have := h (z + x)
    rw [hc, add_sub_cancel_right] at this
    unfold mahal at this
    linarith
  rw [← Matrix.nonsing_inv_nonsing_inv G (unit_of_det (pd_det hG)), hi,
    Matrix.nonsing_inv_nonsing_inv G' (unit_of_det (pd_det hG'))]

/-! ### Stacked vectors -/

/-- Block number `k` of a stacked vector. -/
def blockOf {M : ℕ} (δ : Vec M) (k : ℕ) : Vec n := fun i => if h : k * n + i < M then δ ⟨k * n + i, h⟩ else 0

theorem block_lt {N k : ℕ} (hk : k < N) (i : Fin n) : k * n + i < N * n := by
  have : (k + 1) * n ≤ N * n := Nat.mul_le_mul_right n hk
  have := i.2
  rw [Nat.add_mul] at *
  omega

theorem blockOf_apply {N k : ℕ} (hk : k < N) (δ : Vec (N * n)) (i : Fin n) :
    blockOf δ k i = δ ⟨k * n + i, block_lt hk i⟩ := dif_pos _

theorem blockOf_ext {N : ℕ} {δ δ' : Vec (N * n)} (h : ∀ k < N, (blockOf δ k : Vec n) = blockOf δ' k) : δ = δ' := by
  funext p
  rcases Nat.eq_zero_or_pos n with rfl | hn
  · exact absurd p.2 (by simp)
  have hk : p.1 / n < N := Nat.div_lt_of_lt_mul (lt_of_lt_of_eq p.2 (Nat.mul_comm N n))
  have hi : p.1 % n < n := Nat.mod_lt _ hn
  have := congrFun (h _ hk) ⟨p.1 % n, hi⟩
  rw [blockOf_apply hk, blockOf_apply hk] at this
  have e : (⟨p.1 / n * n + p.1 % n, block_lt hk ⟨_, hi⟩⟩ : Fin (N * n)) = p := by
    apply Fin.ext
    exact Nat.div_add_mod' p.1 n
  simpa only [e] using this

/-- The stacked vector with given blocks. -/
def stackOf (N : ℕ) (D : ℕ → Vec n) : Vec (N * n) := fun p =>
  if h : p.1 % n < n then D (p.1 / n) ⟨p.1 % n, h⟩ else 0

theorem blockOf_stackOf {N k : ℕ} (hk : k < N) (D : ℕ → Vec n) : blockOf (stackOf N D) k = D k := by
  funext i
  rw [blockOf_apply hk]
  have hn : 0 < n := i.pos
  show (if h : (k * n + i) % n < n then _ else _) = _
  have h1 : (k * n + i.1) % n = i.1 := by
    rw [Nat.mul_comm, Nat.mul_add_mod, Nat.mod_eq_of_lt i.2]
  have h2 : (k * n + i.1) / n = k := by
    rw [Nat.mul_comm, Nat.mul_add_div hn, Nat.div_eq_of_lt i.2, Nat.add_zero]
  rw [dif_pos (Nat.mod_lt _ hn)]
  simp only [h1, h2]

/-! ### Slices of the stacked problem -/

theorem pre_replicate (N k : ℕ) (h : k ≤ N) : pre (List.replicate N n) k = k * n := by
  unfold pre
  rw [List.take_replicate, List.sum_replicate, Nat.min_eq_left h, smul_eq_mul]

theorem freeVars_nil {S : Type} (v : List (ℕ × S)) : freeVars [] v = v := by
  unfold freeVars
  refine List.filter_eq_self.2 fun p _ => ?_
  simp

theorem assign_slices {N : ℕ} {X0 : ℕ → Vec n} {P P1 : Prob ℕ (List ℝ)} (h : P.started vecVarOps = .ok P1)
    (hc : P.constKeys = []) (hv : P.varsInit = assign N X0) :
    P1.sizeState = N * n ∧ ∀ k < N, P1.varSlices.lookup k = some ⟨k * n, k * n + n⟩ := by
  obtain ⟨-, h2, h3⟩ := started_slices h
  obtain ⟨c1, c2⟩ := colSlices_spec (o := vecVarOps) (const := P.constKeys) P.varsInit 0 P.varSlices
    (by rw [hv, assign_keys]; exact List.nodup_range)
  simp only [Nat.zero_add] at c1 c2
  rw [← h3] at c1
  rw [← h2] at c2
  have hd : freeDofs vecVarOps P.constKeys P.varsInit = List.replicate N n := by
    unfold freeDofs
    rw [hc, freeVars_nil, hv]
    unfold assign
    rw [List.map_map]
    refine List.eq_replicate_iff.2 ⟨by simp, fun d hd => ?_⟩
    obtain ⟨k, -, rfl⟩ := List.mem_map.1 hd
    simp [vecVarOps]
  refine ⟨by rw [c1, hd, List.sum_replicate, smul_eq_mul], fun k hk => ?_⟩
  rw [c2 k k (List.ofFn (X0 k)) (by
    rw [hc, freeVars_nil, hv]
    unfold assign
    rw [List.getElem?_map, List.getElem?_range hk]
    rfl), hd, pre_replicate _ _ hk.le, pre_replicate _ _ hk, Nat.succ_mul]

theorem move_assign {N : ℕ} {X0 : ℕ → Vec n} {sl : List (ℕ × Slice)}
    (hs : ∀ k < N, sl.lookup k = some ⟨k * n, k * n + n⟩) {M : ℕ} (δ : Vec M) :
    moveAll [] sl δ (assign N X0) = assign N fun k => X0 k + blockOf δ k := by
  unfold moveAll assign
  rw [List.map_map]
  refine List.map_congr_left fun k hk => ?_
  have hk' := List.mem_range.1 hk
  have e : ((fun p : ℕ × List ℝ => if p.1 ∈ ([] : List ℕ) then p else
      (p.1, moveVec δ ((sl.lookup p.1).getD ⟨0, 0⟩).start p.2)) ∘ fun k => (k, List.ofFn (X0 k))) k =
      (k, moveVec δ ((sl.lookup k).getD ⟨0, 0⟩).start (List.ofFn (X0 k))) := by
    simp [Function.comp]
  rw [e]
  rw [hs k hk']
  congr 1
  show moveVec δ (k * n) (List.ofFn (X0 k)) = _
  refine List.ext_getElem (by simp [moveVec]) fun c h1 h2 => ?_
  have h3 : c < (List.ofFn (X0 k)).length := by simpa using h2
  rw [moveVec_get _ _ _ _ _ h3]
  simp only [List.getElem_ofFn, Pi.add_apply]
  rfl

theorem assign_inj {N : ℕ} {X X' : ℕ → Vec n} (h : assign N X = assign N X') : ∀ k < N, X k = X' k := by
  intro k hk
  have := congrArg (List.lookup k) h
  rw [assign_lookup X hk, assign_lookup X' hk] at this
  exact List.ofFn_injective (Option.some.inj this)

theorem assign_congr {N : ℕ} {X X' : ℕ → Vec n} (h : ∀ k < N, X k = X' k) : assign N X = assign N X' := by
  unfold assign
  refine List.map_congr_left fun k hk => ?_
  rw [h k (List.mem_range.1 hk)]

/-! ### Solving a stacked linear problem -/

/-- A linear least squares problem over `N` vectors of dimension `n`: if its cost is half of `F` and `F` determines all
variables, Gauss-Newton returns the minimizer, and `F` is its minimal value plus the form of the information matrix. -/
theorem stacked_solve {N : ℕ} {X0 : ℕ → Vec n} {P : Prob ℕ (List ℝ)} (hP : LinearProblem P) (hs : P.cfg.solver = "GN")
    (hit : 0 < P.cfg.maxIters) (hc : P.constKeys = []) (hv : P.varsInit = assign N X0) (hn : 0 < n) (hN : 0 < N)
    {F : (ℕ → Vec n) → ℝ}
    (hF : ∀ X : ℕ → Vec n, totalCost (assign N X) (P.residuals.zip P.losses) = .ok (1 / 2 * F X))
    (hdet : ∀ D : ℕ → Vec n, (∃ K, ∀ s : ℝ, F (fun k => X0 k + s • D k) ≤ K) → ∀ k < N, D k = 0) :
    ∃ (P' : Prob ℕ (List ℝ)) (Xs : ℕ → Vec n) (M : Mat (N * n) (N * n)), P.solve vecVarOps = .ok P' ∧
      P'.vars = assign N Xs ∧ M.PosDef ∧ P'.info = some ⟨N * n, M⟩ ∧ P'.cov = P.cov ∧
      (∀ k < N, P'.varSlices.lookup k = some ⟨k * n, k * n + n⟩) ∧
      ∀ δ : Vec (N * n), F (fun k => Xs k + blockOf δ k) = F Xs + δ ⬝ᵥ M *ᵥ δ := by
  obtain ⟨P1, ⟨m, sz, e, H, c⟩, h1, h2, h3⟩ := C40_total P hP hs hit
  obtain ⟨hsz, hsl⟩ := assign_slices h1 hc hv
  obtain ⟨e1, e2, e3, e4, e5, e6, -, -⟩ := started_fields h1
  obtain ⟨hm, hn'⟩ := linearize_shape h2
  simp only at hm hn'
  rw [hsz] at hn'
  subst hm hn'
  have haff : AffineProb vecVarOps P1 P.varsInit P1.sizeErr (N * n) e H := by
    have key : ∀ (sz : ℕ) (H : Mat P1.sizeErr sz), P1.sizeState = sz →
        P1.linearize P.varsInit = .ok ⟨P1.sizeErr, sz, e, H, c⟩ →
        AffineProb vecVarOps P1 P.varsInit P1.sizeErr sz e H := by
      intro sz H hsz h2
      subst hsz
      exact linear_affine hP h1 h2
    exact key _ H hsz h2
  have hfit := linear_fit hP h1
  rw [hsz] at hfit
  have hmove : ∀ δ : Vec (N * n), F (fun k => X0 k + blockOf δ k) = (e + H *ᵥ δ) ⬝ᵥ (e + H *ᵥ δ) := by
    intro δ
    have hl := haff.lin δ _ (correct_vec δ hfit)
    have hcost := linearize_cost hl
    rw [e3, hc, hv, move_assign hsl, e4, e5, hF] at hcost
    have := Except.ok.inj hcost
    linarith
  have hinj : Function.Injective H.mulVec := by
    intro a a' haa
    refine sub_eq_zero.1 (blockOf_ext fun k hk => ?_)
    have hz : H *ᵥ (a - a') = 0 := by
      rw [mulVec_sub]; exact sub_eq_zero.2 haa
    have := hdet (fun k => blockOf (a - a') k) ⟨e ⬝ᵥ e, fun s => ?_⟩ k hk
    · rw [this]
      funext i
      rw [blockOf_apply hk]
      rfl
    · have h4 := hmove (s • (a - a'))
      rw [mulVec_smul, hz, smul_zero, add_zero] at h4
      rw [← h4]
      refine le_of_eq (congrArg F (funext fun k => ?_))
      congr 1
      funext i
      show s * (if h : _ then _ else _) = if h : _ then _ else _
      split
      · rfl
      · simp
  have hpd : (Hᵀ * H).PosDef := by
    have := Matrix.PosDef.conjTranspose_mul_self H hinj
    rwa [conjTranspose_eq_transpose_of_trivial] at this
  obtain ⟨P', hP'⟩ := h3 (pd_det hpd) (Nat.mul_pos hN hn)
  obtain ⟨i1, i2, i3, -⟩ := C40_information vecVarOps P P1 P' hs h1 hP' _ _ e H haff
  obtain ⟨c1, -, cf, c2, c3⟩ := C40_linear P P' hP hs hit hP'
  set δs := gnDelta e H with hδs
  have hnorm := gnDelta_normal e H (pd_det hpd)
  rw [← hδs] at hnorm
  have hquad : ∀ δ : Vec (N * n), F (fun k => X0 k + blockOf (δs + δ) k) =
      F (fun k => X0 k + blockOf δs k) + δ ⬝ᵥ (Hᵀ * H) *ᵥ δ := by
    intro δ
    rw [hmove, hmove]
    have a1 : e + H *ᵥ (δs + δ) = (e + H *ᵥ δs) + H *ᵥ δ := by rw [mulVec_add]; abel
    have a2 : (H *ᵥ δ) ⬝ᵥ (e + H *ᵥ δs) = 0 := by
      rw [← vecMul_transpose, ← dotProduct_mulVec, hnorm, dotProduct_zero]
    have a3 : (e + H *ᵥ δs) ⬝ᵥ (H *ᵥ δ) = 0 := by rw [dotProduct_comm]; exact a2
    have a4 : (H *ᵥ δ) ⬝ᵥ (H *ᵥ δ) = δ ⬝ᵥ (Hᵀ * H) *ᵥ δ := by
      rw [← mulVec_mulVec]
      conv_lhs => lhs; rw [← vecMul_transpose]
      rw [← dotProduct_mulVec]
    rw [a1]
    generalize e + H *ᵥ δs = q at a2 a3 ⊢
    rw [add_dotProduct, dotProduct_add, dotProduct_add, a2, a3, a4]
    ring
  have hblock : ∀ (δ δ' : Vec (N * n)) (k : ℕ), (blockOf (δ + δ') k : Vec n) = blockOf δ k + blockOf δ' k := by
    intro δ δ' k
    funext i
    by_cases h : k * n + i.1 < N * n
    · simp only [blockOf, dif_pos h, Pi.add_apply]
    · simp only [blockOf, dif_neg h, Pi.add_apply, add_zero]
  refine ⟨P', fun k => X0 k + blockOf δs k, Hᵀ * H, hP', ?_, hpd, i1, i3, fun k hk => by rw [i2]; exact hsl k hk,
    fun δ => ?_⟩
  · obtain ⟨δ', hδ'⟩ := move_surjective hP h1 c1 (fun k hk => by rw [hc] at hk; cases hk)
    rw [hc, hv, move_assign hsl] at hδ'
    obtain ⟨c', g1, g2, g3⟩ := c3 (assign N fun k => X0 k + blockOf δs k) (by rw [hv]; exact assign_shape _ _ _)
      (fun k hk => by rw [hc] at hk; cases hk)
    refine (g3 ?_).symm
    rw [← hδ', hF] at c2
    rw [hF] at g1
    have f1 := Except.ok.inj c2
    have f2 := Except.ok.inj g1
    have hbl : ∀ k < N, (blockOf (stackOf N fun k => (blockOf δ' k : Vec n)) k : Vec n) = blockOf δ' k :=
      fun k hk => blockOf_stackOf hk _
    have hq := hquad ((stackOf N fun k => (blockOf δ' k : Vec n)) - δs)
    have he : F (fun k => X0 k + blockOf (δs + ((stackOf N fun k => (blockOf δ' k : Vec n)) - δs)) k) =
        F (fun k => X0 k + blockOf δ' k) := by
      have t1 := hF (fun k => X0 k + blockOf (δs + ((stackOf N fun k => (blockOf δ' k : Vec n)) - δs)) k)
      rw [assign_congr (X' := fun k => X0 k + blockOf δ' k) (fun k hk => by
        rw [add_sub_cancel, hbl k hk]), hF] at t1
      have := Except.ok.inj t1
      linarith
    rw [he] at hq
    have hp := hpd.posSemidef.dotProduct_mulVec_nonneg ((stackOf N fun k => (blockOf δ' k : Vec n)) - δs)
    rw [star_trivial] at hp
    linarith
  · rw [← hquad]
    congr 1
    funext k
    rw [hblock, add_assoc]

end Verif
