import Verif.Props.Assembly

/-!
One Gauss-Newton step solves a linear least squares problem (C40).
-/

namespace Verif

set_option linter.unusedVariables false
set_option linter.unusedSectionVars false

open Matrix

variable {K S : Type} [DecidableEq K]

/-- The problem is affine around `v0`: moving by `δ` and then by `δ'` is moving by `δ + δ'`, the stacked error is
`e + H δ`, the stacked Jacobian is constant and the cost is half the squared norm of the error. -/
structure AffineProb (o : VarOps S) (P : Prob K S) (v0 : List (K × S)) (m n : ℕ) (e : Vec m) (H : Mat m n) : Prop where
  zero : correctStates o P.constKeys P.varSlices (List.ofFn (0 : Vec n)) v0 = .ok v0
  add : ∀ (δ δ' : Vec n) v, correctStates o P.constKeys P.varSlices (List.ofFn δ) v0 = .ok v →
    correctStates o P.constKeys P.varSlices (List.ofFn δ') v =
      correctStates o P.constKeys P.varSlices (List.ofFn (δ + δ')) v0
  lin : ∀ (δ : Vec n) v, correctStates o P.constKeys P.varSlices (List.ofFn δ) v0 = .ok v →
    P.linearize v = .ok ⟨m, n, e + H *ᵥ δ, H, 1 / 2 * ((e + H *ᵥ δ) ⬝ᵥ (e + H *ᵥ δ))⟩

/-- The Gauss-Newton step of an affine problem. -/
noncomputable def gnDelta {m n : ℕ} (e : Vec m) (H : Mat m n) : Vec n := (Hᵀ * H)⁻¹ *ᵥ (-(Hᵀ *ᵥ e))

theorem gnDelta_normal {m n : ℕ} (e : Vec m) (H : Mat m n) (hd : (Hᵀ * H).det ≠ 0) :
    Hᵀ *ᵥ (e + H *ᵥ gnDelta e H) = 0 := by
  have hu : IsUnit (Hᵀ * H).det := isUnit_iff_ne_zero.2 hd
  unfold gnDelta
  rw [Matrix.mulVec_add, Matrix.mulVec_mulVec, Matrix.mulVec_mulVec, Matrix.mul_nonsing_inv _ hu,
    Matrix.one_mulVec, add_neg_cancel]

/-- Pythagoras: the squared error at any other `δ` is larger by `‖H (δ - δ*)‖²`. -/
theorem gnDelta_pythagoras {m n : ℕ} (e : Vec m) (H : Mat m n) (hd : (Hᵀ * H).det ≠ 0) (δ : Vec n) :
    (e + H *ᵥ δ) ⬝ᵥ (e + H *ᵥ δ) = (e + H *ᵥ gnDelta e H) ⬝ᵥ (e + H *ᵥ gnDelta e H) +
      (H *ᵥ (δ - gnDelta e H)) ⬝ᵥ (H *ᵥ (δ - gnDelta e H)) := by
  obtain ⟨r, hr⟩ : ∃ r, r = e + H *ᵥ gnDelta e H := ⟨_, rfl⟩
  rw [← hr]
  have hz : Hᵀ *ᵥ r = 0 := by rw [hr]; exact gnDelta_normal e H hd
  have he : e + H *ᵥ δ = r + H *ᵥ (δ - gnDelta e H) := by
    rw [hr, Matrix.mulVec_sub]; abel
  have hx : r ⬝ᵥ (H *ᵥ (δ - gnDelta e H)) = 0 := by
    rw [Matrix.dotProduct_mulVec, ← Matrix.mulVec_transpose, hz, zero_dotProduct]
  have hx' : (H *ᵥ (δ - gnDelta e H)) ⬝ᵥ r = 0 := by rw [dotProduct_comm]; exact hx
  rw [he, add_dotProduct, dotProduct_add, dotProduct_add, hx, hx']
  ring

theorem gnDelta_unique {m n : ℕ} (e : Vec m) (H : Mat m n) (hd : (Hᵀ * H).det ≠ 0) (δ : Vec n)
    (h : (H *ᵥ (δ - gnDelta e H)) ⬝ᵥ (H *ᵥ (δ - gnDelta e H)) = 0) : δ = gnDelta e H := by
  have h0 : H *ᵥ (δ - gnDelta e H) = 0 := dotProduct_self_eq_zero.1 h
  have h1 : (Hᵀ * H) *ᵥ (δ - gnDelta e H) = 0 := by rw [← Matrix.mulVec_mulVec, h0, Matrix.mulVec_zero]
  have hu : IsUnit (Hᵀ * H).det := isUnit_iff_ne_zero.2 hd
  have h2 := congrArg (fun w => (Hᵀ * H)⁻¹ *ᵥ w) h1
  simp only [Matrix.mulVec_mulVec, Matrix.nonsing_inv_mul _ hu, Matrix.one_mulVec, Matrix.mulVec_zero] at h2
  exact sub_eq_zero.1 h2

/-- One pass at the solution changes nothing. -/
theorem gnStep_fixed {o : VarOps S} {P : Prob K S} {v0 v : List (K × S)} {m n : ℕ} {e : Vec m} {H : Mat m n}
    (ha : AffineProb o P v0 m n e H) (hd : (Hᵀ * H).det ≠ 0)
    (hv : correctStates o P.constKeys P.varSlices (List.ofFn (gnDelta e H)) v0 = .ok v)
    {s : LoopState K S} (hs : s.vars = v ∧ P.linearize v = .ok s.lin) {r : LoopState K S × Bool}
    (h : gnStep o P s = .ok r) : r.1.vars = v ∧ P.linearize v = .ok r.1.lin := by
  obtain ⟨hs1, hs2⟩ := hs
  have hl := ha.lin _ v hv
  have hlin : s.lin = ⟨m, n, e + H *ᵥ gnDelta e H, H,
      1 / 2 * ((e + H *ᵥ gnDelta e H) ⬝ᵥ (e + H *ᵥ gnDelta e H))⟩ := by rw [hl] at hs2; exact (Except.ok.inj hs2).symm
  unfold gnStep at h
  split at h
  · cases h; exact ⟨hs1, hs2⟩
  · obtain ⟨δ, h1, h⟩ := bind_ok h
    obtain ⟨w, h2, h⟩ := bind_ok h
    obtain ⟨L', h3, h⟩ := bind_ok h
    obtain ⟨g, h4, h⟩ := bind_ok h
    cases h
    show w = v ∧ P.linearize v = .ok L'
    have hw : w = v := by
      clear hs2 hl h3 h4
      obtain ⟨sv, sl, _, _, _, _, _, _, _⟩ := s
      simp only at hs1 hlin h1 h2
      subst hs1 hlin
      unfold spsolve at h1
      split at h1
      · cases h1
      · cases h1
        have hb : (Lin.mk m n (e + H *ᵥ gnDelta e H) H (1 / 2 * ((e + H *ᵥ gnDelta e H) ⬝ᵥ
            (e + H *ᵥ gnDelta e H)))).b = 0 := gnDelta_normal e H hd
        rw [hb, neg_zero, Matrix.mulVec_zero] at h2
        have := ha.add _ 0 sv hv
        rw [add_zero, hv] at this
        have h2' : correctStates o P.constKeys P.varSlices (List.ofFn (0 : Vec n)) sv = .ok w := h2
        rw [this] at h2'
        exact (Except.ok.inj h2').symm
    subst hw
    exact ⟨rfl, h3⟩

/-- **C40.** On an affine problem whose information matrix is invertible, Gauss-Newton with any positive number of
iterations, from any initial point: the variables it returns are the ones after exactly one step; they have the
smallest total cost of all points reachable by moving the variables, strictly smaller than at any other of them. -/
theorem C40_gn_affine (o : VarOps S) (P P1 P' : Prob K S) (hs : P.cfg.solver = "GN") (hit : 0 < P.cfg.maxIters)
    (hP1 : P.started o = .ok P1) (h : P.solve o = .ok P')
    (m n : ℕ) (e : Vec m) (H : Mat m n) (ha : AffineProb o P1 P.varsInit m n e H) (hd : (Hᵀ * H).det ≠ 0) :
    correctStates o P1.constKeys P1.varSlices (List.ofFn (gnDelta e H)) P.varsInit = .ok P'.vars ∧
    ∃ cf, totalCost P'.vars (P.residuals.zip P.losses) = .ok cf ∧
      ∀ (δ : Vec n) v, correctStates o P1.constKeys P1.varSlices (List.ofFn δ) P.varsInit = .ok v →
        ∃ c, totalCost v (P.residuals.zip P.losses) = .ok c ∧ cf ≤ c ∧ (c = cf → v = P'.vars) := by
  obtain ⟨e1, e2, e3, e4, e5, e6, -, -⟩ := started_fields hP1
  obtain ⟨P1', hP1', h⟩ := solve_GN hs h
  rw [hP1] at hP1'
  obtain rfl : P1 = P1' := Except.ok.inj hP1'
  unfold solveGN at h
  obtain ⟨L, h2, h⟩ := bind_ok h
  obtain ⟨s, h3, h⟩ := bind_ok h
  obtain ⟨Lf, h4, h⟩ := bind_ok h
  have hL := ha.lin 0 _ ha.zero
  rw [Matrix.mulVec_zero, add_zero] at hL
  rw [e6, hL] at h2
  have hL' := (Except.ok.inj h2).symm
  have hvars : correctStates o P1.constKeys P1.varSlices (List.ofFn (gnDelta e H)) P.varsInit = .ok s.vars := by
    obtain ⟨N, hN⟩ : ∃ N, P1.cfg.maxIters = N + 1 := ⟨P1.cfg.maxIters - 1, by rw [e1]; omega⟩
    rw [hN] at h3
    unfold iterLoop at h3
    obtain ⟨r, hr, h3⟩ := bind_ok h3
    subst hL'
    unfold gnStep at hr
    rw [if_neg (by simp [isConverged])] at hr
    obtain ⟨δ, g1, hr⟩ := bind_ok hr
    obtain ⟨w, g2, hr⟩ := bind_ok hr
    obtain ⟨L', g3, hr⟩ := bind_ok hr
    obtain ⟨g, g4, hr⟩ := bind_ok hr
    cases hr
    simp only [Bool.false_eq_true, if_false] at h3
    unfold spsolve at g1
    split at g1
    · cases g1
    · cases g1
      rw [e6] at g2
      have hw : correctStates o P1.constKeys P1.varSlices (List.ofFn (gnDelta e H)) P.varsInit = .ok w := g2
      have hinv := iterLoop_inv (fun s : LoopState K S => s.vars = w ∧ P1.linearize w = .ok s.lin)
        (fun s r hs hr => gnStep_fixed ha hd hw hs hr) _ _ _ ⟨rfl, g3⟩ h3
      rw [hinv.1]; exact hw
  have hP'v : P'.vars = s.vars := by
    split at h
    · cases h
    · cases h; rfl
  rw [hP'v]
  have hlf := ha.lin _ _ hvars
  refine ⟨hvars, 1 / 2 * ((e + H *ᵥ gnDelta e H) ⬝ᵥ (e + H *ᵥ gnDelta e H)), ?_, ?_⟩
  · have := linearize_cost hlf
    rwa [e4, e5] at this
  · intro δ v hv
    have hlv := ha.lin _ _ hv
    have hpy := gnDelta_pythagoras e H hd δ
    have hnn : 0 ≤ (H *ᵥ (δ - gnDelta e H)) ⬝ᵥ (H *ᵥ (δ - gnDelta e H)) :=
      Finset.sum_nonneg fun i _ => mul_self_nonneg _
    refine ⟨1 / 2 * ((e + H *ᵥ δ) ⬝ᵥ (e + H *ᵥ δ)), ?_, ?_, ?_⟩
    · have := linearize_cost hlv
      rwa [e4, e5] at this
    · show 1 / 2 * _ ≤ 1 / 2 * _
      rw [hpy]; linarith
    · intro hc
      have hc' : 1 / 2 * ((e + H *ᵥ δ) ⬝ᵥ (e + H *ᵥ δ)) =
        1 / 2 * ((e + H *ᵥ gnDelta e H) ⬝ᵥ (e + H *ᵥ gnDelta e H)) := hc
      have := gnDelta_unique e H hd δ (by linarith)
      subst this
      rw [hv] at hvars
      exact Except.ok.inj hvars

end Verif
