import Verif.Props.GaussNoise
import Verif.Props.BatchObjective

/-!
Least squares with random data (Gauss-Markov): for an objective that is a sum of squared residuals, weighted by the inverse
covariances of white noises, the minimiser is an affine function of the data, and its error is a combination of the noises whose
covariance is that of the marginal of the objective.
-/

set_option linter.unusedSectionVars false
set_option linter.unusedVariables false

namespace Verif

open Matrix MeasureTheory ProbabilityTheory

variable {Ω : Type} {n : ℕ} {U : Type}

/-- A term `|B X - d|` of an objective, weighted by the inverse of `S`; the data `d` are random. -/
structure LTerm (Ω : Type) (n : ℕ) where
  m : ℕ
  B : (ℕ → Vec n) →ₗ[ℝ] Vec m
  S : Mat m m
  d : Ω → Vec m

/-- The residual of the term at the true trajectory. -/
def LTerm.noise (T : LTerm Ω n) (Z : Ω → ℕ → Vec n) : Noise Ω := ⟨T.m, fun ω => T.B (Z ω) - T.d ω, T.S⟩

noncomputable def quadObj (ts : List (LTerm Ω n)) (ω : Ω) (X : ℕ → Vec n) : ℝ := (ts.map fun T => mahal T.S (T.B X - T.d ω)).sum

noncomputable def bilF (ts : List (LTerm Ω n)) (D E : ℕ → Vec n) : ℝ := (ts.map fun T => T.B D ⬝ᵥ T.S⁻¹ *ᵥ T.B E).sum

noncomputable def linF (ts : List (LTerm Ω n)) (ω : Ω) (D X : ℕ → Vec n) : ℝ :=
  (ts.map fun T => T.B D ⬝ᵥ T.S⁻¹ *ᵥ (T.B X - T.d ω)).sum

theorem dot_symm {m : ℕ} {S : Mat m m} (hS : S.PosDef) (v w : Vec m) : v ⬝ᵥ S⁻¹ *ᵥ w = w ⬝ᵥ S⁻¹ *ᵥ v := by
  have h : (S⁻¹)ᵀ = S⁻¹ := by rw [transpose_nonsing_inv, psd_symm hS.posSemidef]
  rw [dotProduct_mulVec, ← mulVec_transpose, h, dotProduct_comm]

theorem bilF_symm : ∀ {ts : List (LTerm Ω n)}, (∀ T ∈ ts, T.S.PosDef) → ∀ D E, bilF ts D E = bilF ts E D
  | [], _, D, E => rfl
  | T :: ts, hS, D, E => by
    have ih := bilF_symm (ts := ts) (fun T' h => hS T' (by simp [h])) D E
    simp only [bilF, List.map_cons, List.sum_cons] at ih ⊢
    rw [ih, dot_symm (hS T (by simp))]

theorem bilF_smul (ts : List (LTerm Ω n)) (s : ℝ) (D E : ℕ → Vec n) : bilF ts D (s • E) = s * bilF ts D E := by
  induction ts with
  | nil => simp [bilF]
  | cons T ts ih =>
    simp only [bilF, List.map_cons, List.sum_cons] at ih ⊢
    rw [ih, map_smul, mulVec_smul, dotProduct_smul, smul_eq_mul]
    ring

theorem linF_smul (ts : List (LTerm Ω n)) (ω : Ω) (s : ℝ) (D X : ℕ → Vec n) : linF ts ω (s • D) X = s * linF ts ω D X := by
  induction ts with
  | nil => simp [linF]
  | cons T ts ih =>
    simp only [linF, List.map_cons, List.sum_cons] at ih ⊢
    rw [ih, map_smul, smul_dotProduct, smul_eq_mul]
    ring

theorem linF_add (ts : List (LTerm Ω n)) (ω : Ω) (D X E : ℕ → Vec n) : linF ts ω D (X + E) = linF ts ω D X + bilF ts D E := by
  induction ts with
  | nil => simp [linF, bilF]
  | cons T ts ih =>
    simp only [linF, bilF, List.map_cons, List.sum_cons] at ih ⊢
    rw [ih, map_add, add_sub_right_comm, mulVec_add, dotProduct_add]
    ring

theorem quadObj_add : ∀ {ts : List (LTerm Ω n)}, (∀ T ∈ ts, T.S.PosDef) → ∀ ω X D,
    quadObj ts ω (X + D) = quadObj ts ω X + 2 * linF ts ω D X + bilF ts D D
  | [], _, ω, X, D => by simp [quadObj, linF, bilF]
  | T :: ts, hS, ω, X, D => by
    have ih := quadObj_add (ts := ts) (fun T' h => hS T' (by simp [h])) ω X D
    simp only [quadObj, linF, bilF, List.map_cons, List.sum_cons, mahal] at ih ⊢
    have hT := dot_symm (hS T (by simp)) (T.B X - T.d ω) (T.B D)
    rw [ih, map_add, add_sub_right_comm, mulVec_add, dotProduct_add, add_dotProduct, add_dotProduct, hT]
    ring

theorem quad_zero {a b : ℝ} (h : ∀ s : ℝ, 0 ≤ 2 * s * a + s ^ 2 * b) : a = 0 := by
  by_contra ha
  have hb : 0 < |b| + 1 := by positivity
  have h1 := h (-a / (|b| + 1))
  have e : 2 * (-a / (|b| + 1)) * a + (-a / (|b| + 1)) ^ 2 * b = a ^ 2 / (|b| + 1) ^ 2 * (b - 2 * (|b| + 1)) := by
    field_simp
    ring
  rw [e] at h1
  have h2 : b - 2 * (|b| + 1) < 0 := by linarith [le_abs_self b, abs_nonneg b]
  have h3 : 0 < a ^ 2 / (|b| + 1) ^ 2 := by positivity
  nlinarith

/-- The direction `D` along which the objective grows least when component `k` moves along `v`. -/
def Profile (ts : List (LTerm Ω n)) (k : ℕ) (G : Mat n n) (v : Vec n) (D : ℕ → Vec n) : Prop :=
  D k = v ∧ ∀ E : ℕ → Vec n, bilF ts D E = v ⬝ᵥ G⁻¹ *ᵥ E k

theorem marginal_facts {ts : List (LTerm Ω n)} (hS : ∀ T ∈ ts, T.S.PosDef) {ω : Ω} {k : ℕ} {x : Vec n} {G : Mat n n}
    (h : MarginalAt (quadObj ts ω) k x G) :
    (∀ v, ∃ D, Profile ts k G v D) ∧ ∀ v D, Profile ts k G v D → ∀ X : ℕ → Vec n, v ⬝ᵥ G⁻¹ *ᵥ (X k - x) = linF ts ω D X := by
  obtain ⟨hG, c, hc⟩ := h
  obtain ⟨Xh, hk, hF⟩ := (hc x).1
  have m0 : mahal G (0 : Vec n) = 0 := by simp [mahal]
  rw [sub_self, m0, add_zero] at hF
  have hlow : ∀ X, c + mahal G (X k - x) ≤ quadObj ts ω X := fun X => (hc (X k)).2 ⟨X, rfl, rfl⟩
  have hmn : ∀ v, 0 ≤ mahal G v := fun v => mahal_nonneg hG v
  have hlin : ∀ D, linF ts ω D Xh = 0 := by
    intro D
    refine quad_zero (b := bilF ts D D) fun s => ?_
    have h1 := hlow (Xh + s • D)
    rw [quadObj_add hS, linF_smul, bilF_smul, bilF_symm hS, bilF_smul, ← hF] at h1
    have := hmn ((Xh + s • D) k - x)
    nlinarith
  have hval : ∀ D, quadObj ts ω (Xh + D) = c + bilF ts D D := by
    intro D
    rw [quadObj_add hS, hlin, ← hF]
    ring
  have hge : ∀ D : ℕ → Vec n, mahal G (D k) ≤ bilF ts D D := by
    intro D
    have h1 := hlow (Xh + D)
    rw [hval, Pi.add_apply, hk, add_sub_cancel_left] at h1
    linarith
  refine ⟨fun v => ?_, ?_⟩
  · obtain ⟨X, h1, h2⟩ := (hc (x + v)).1
    have hDk : (X - Xh) k = v := by rw [Pi.sub_apply, h1, hk, add_sub_cancel_left]
    have hD : bilF ts (X - Xh) (X - Xh) = mahal G v := by
      have := hval (X - Xh)
      rw [add_sub_cancel, ← h2, add_sub_cancel_left] at this
      linarith
    refine ⟨X - Xh, hDk, fun E => ?_⟩
    have : bilF ts (X - Xh) E - v ⬝ᵥ G⁻¹ *ᵥ E k = 0 := by
      refine quad_zero (b := bilF ts E E - mahal G (E k)) fun s => ?_
      have h3 := hge ((X - Xh) + s • E)
      have e1 : bilF ts ((X - Xh) + s • E) ((X - Xh) + s • E)
          = bilF ts (X - Xh) (X - Xh) + 2 * s * bilF ts (X - Xh) E + s ^ 2 * bilF ts E E := by
        have l1 := linF_add ts ω
        have b1 : ∀ D Y E : ℕ → Vec n, bilF ts D (Y + E) = bilF ts D Y + bilF ts D E := by
          intro D Y E
          have a1 := l1 D 0 (Y + E)
          have a2 := l1 D (0 + Y) E
          have a3 := l1 D 0 Y
          rw [← add_assoc] at a1
          linarith
        rw [b1, bilF_smul, bilF_symm hS _ (X - Xh), b1, bilF_symm hS _ E, b1, bilF_smul, bilF_smul, bilF_symm hS E (X - Xh)]
        ring
      have e2 : mahal G (((X - Xh) + s • E) k) = mahal G v + 2 * s * (v ⬝ᵥ G⁻¹ *ᵥ E k) + s ^ 2 * mahal G (E k) := by
        rw [Pi.add_apply, hDk, Pi.smul_apply]
        unfold mahal
        rw [mulVec_add, mulVec_smul, dotProduct_add, add_dotProduct, add_dotProduct, dotProduct_smul, dotProduct_smul, smul_dotProduct,
          smul_dotProduct, dot_symm hG (E k) v]
        simp only [smul_eq_mul]
        ring
      rw [e1, e2, hD] at h3
      nlinarith
    linarith
  · intro v D hD X
    have h1 := linF_add ts ω D Xh (X - Xh)
    rw [add_sub_cancel, hlin, zero_add, hD.2, Pi.sub_apply, hk] at h1
    exact h1.symm

/-- The covariance of the marginal does not depend on the data. -/
theorem marginal_const {ts : List (LTerm Ω n)} (hS : ∀ T ∈ ts, T.S.PosDef) {ω ω' : Ω} {k : ℕ} {x x' : Vec n} {G G' : Mat n n}
    (h : MarginalAt (quadObj ts ω) k x G) (h' : MarginalAt (quadObj ts ω') k x' G') : G = G' := by
  obtain ⟨h1, h2⟩ := marginal_facts hS h
  obtain ⟨h1', h2'⟩ := marginal_facts hS h'
  have e : G⁻¹ = G'⁻¹ := by
    ext i j
    obtain ⟨D, d1, d2⟩ := h1 (Pi.single i 1)
    obtain ⟨E, e1, e2⟩ := h1' (Pi.single j 1)
    have a := d2 E
    have b := e2 D
    rw [bilF_symm hS, b, e1, d1, dot_symm h'.1] at a
    simpa using a.symm
  rw [← Matrix.nonsing_inv_nonsing_inv G (unit_of_det (pd_det h.1)), e, Matrix.nonsing_inv_nonsing_inv G' (unit_of_det (pd_det h'.1))]

/-! ### White noise -/

variable [MeasurableSpace Ω] {μ : Measure Ω}

/-- A combination of the residuals of the terms at the truth. -/
noncomputable def combine (ts : List (LTerm Ω n)) (Z : Ω → ℕ → Vec n) {q : ℕ} (W : (T : LTerm Ω n) → Mat q T.m) (ω : Ω) : Vec q :=
  (ts.map fun T => W T *ᵥ (T.B (Z ω) - T.d ω)).sum

theorem combine_moments [IsProbabilityMeasure μ] (Z : Ω → ℕ → Vec n) {q : ℕ} (W : (T : LTerm Ω n) → Mat q T.m) :
    ∀ {ts : List (LTerm Ω n)}, White μ CovRel.exact (ts.map fun T => T.noise Z) →
      SqInt μ (combine ts Z W) ∧ rvMean μ (combine ts Z W) = 0 ∧
      (∀ {p : ℕ} (V : Ω → Vec p), SqInt μ V → (∀ T ∈ ts, rvCross μ (fun ω => T.B (Z ω) - T.d ω) V = 0) →
        rvCross μ (combine ts Z W) V = 0) ∧
      (∀ T ∈ ts, rvCross μ (combine ts Z W) (fun ω => T.B (Z ω) - T.d ω) = W T * T.S) ∧
      rvCross μ (combine ts Z W) (combine ts Z W) = (ts.map fun T => W T * T.S * (W T)ᵀ).sum
  | [], h => by
    have e : combine ([] : List (LTerm Ω n)) Z W = fun _ => 0 := by funext ω; simp [combine]
    rw [e]
    refine ⟨SqInt.const 0, ?_, ?_, by simp, ?_⟩
    · funext i; simp [rvMean]
    · intro p V hV hT
      ext i j; simp [rvCross]
    · ext i j; simp [rvCross]
  | T :: ts, h => by
    have hw : White μ CovRel.exact (ts.map fun T => T.noise Z) :=
      ⟨fun η hη => h.sq η (by simp only [List.map_cons, List.mem_cons]; exact .inr hη),
        fun η hη => h.mean η (by simp only [List.map_cons, List.mem_cons]; exact .inr hη),
        fun η hη => h.cov η (by simp only [List.map_cons, List.mem_cons]; exact .inr hη), (List.pairwise_cons.1 h.uncorr).2⟩
    obtain ⟨i1, i2, i3, i4, i5⟩ := combine_moments Z W hw
    obtain ⟨N, hN⟩ : ∃ N : Ω → Vec T.m, N = fun ω => T.B (Z ω) - T.d ω := ⟨_, rfl⟩
    have hs : SqInt μ N := by subst hN; exact h.sq (T.noise Z) (by simp)
    have hm : rvMean μ N = 0 := by subst hN; exact h.mean (T.noise Z) (by simp)
    have hc : rvCross μ N N = T.S := by subst hN; exact h.cov (T.noise Z) (by simp)
    have hu : ∀ T' ∈ ts, rvCross μ N (fun ω => T'.B (Z ω) - T'.d ω) = 0 := fun T' hT' => by
      subst hN; exact (List.pairwise_cons.1 h.uncorr).1 _ (List.mem_map.2 ⟨T', hT', rfl⟩)
    have e : combine (T :: ts) Z W = fun ω => W T *ᵥ N ω + combine ts Z W ω := by
      subst hN
      funext ω
      simp only [combine, List.map_cons, List.sum_cons]
    have hx : rvCross μ (combine ts Z W) N = 0 := i3 _ hs fun T' hT' => by
      rw [rvCross_symm, hu T' hT', transpose_zero]
    rw [e]
    refine ⟨(hs.mulVec _).add i1, ?_, ?_, ?_, ?_⟩
    · rw [rvMean_add (hs.mulVec _) i1, rvMean_mulVec hs, hm, i2]
      simp
    · intro p V hV hT
      have hT0 := hT T (by simp)
      rw [← hN] at hT0
      rw [rvCross_add_left (hs.mulVec _) i1 hV, rvCross_mulVec_left hs hV, hT0, i3 V hV fun T' h' => hT T' (by simp [h'])]
      simp
    · intro T' hT'
      rcases List.mem_cons.1 hT' with hT' | hT'
      · subst hT'
        rw [← hN, rvCross_add_left (hs.mulVec _) i1 hs, rvCross_mulVec_left hs hs, hc, hx, add_zero]
      · have hs' : SqInt μ (fun ω => T'.B (Z ω) - T'.d ω) := hw.sq (T'.noise Z) (List.mem_map.2 ⟨T', hT', rfl⟩)
        rw [rvCross_add_left (hs.mulVec _) i1 hs', rvCross_mulVec_left hs hs', hu T' hT', i4 T' hT']
        simp
    · have h0 : rvCross μ N (combine ts Z W) = 0 := by rw [rvCross_symm, hx, transpose_zero]
      have e2 : (fun ω => W T *ᵥ N ω + combine ts Z W ω)
          = fun ω => W T *ᵥ N ω + (1 : Mat q q) *ᵥ combine ts Z W ω := by
        funext ω; rw [one_mulVec]
      rw [e2, rvCross_comb hs i1 h0, hc, i5]
      simp

/-- The rows of the weight of a term: the directions `D i`, weighted by the inverse of the covariance. -/
noncomputable def scoreW (D : Fin n → ℕ → Vec n) (T : LTerm Ω n) : Mat n T.m := Matrix.of fun i => T.S⁻¹ *ᵥ T.B (D i)

theorem combine_score {ts : List (LTerm Ω n)} (hS : ∀ T ∈ ts, T.S.PosDef) (D : Fin n → ℕ → Vec n) (Z : Ω → ℕ → Vec n) (ω : Ω) (i : Fin n) :
    combine ts Z (scoreW D) ω i = linF ts ω (D i) (Z ω) := by
  induction ts with
  | nil => simp [combine, linF]
  | cons T ts ih =>
    have ih := ih fun T' h => hS T' (by simp [h])
    simp only [combine, linF, List.map_cons, List.sum_cons, Pi.add_apply] at ih ⊢
    rw [ih]
    congr 1
    show (T.S⁻¹ *ᵥ T.B (D i)) ⬝ᵥ (T.B (Z ω) - T.d ω) = _
    rw [dotProduct_comm, dot_symm (hS T (by simp))]

/-- Gauss-Markov: the error of the marginal of a weighted least squares problem with white noise of the modelled covariances. -/
theorem gauss_markov [IsProbabilityMeasure μ] {ts : List (LTerm Ω n)} (hS : ∀ T ∈ ts, T.S.PosDef) (Z : Ω → ℕ → Vec n)
    (hw : White μ CovRel.exact (ts.map fun T => T.noise Z)) {k : ℕ} {x : Ω → Vec n} {G : Mat n n}
    (h : ∀ ω, MarginalAt (quadObj ts ω) k (x ω) G) (hne : Nonempty Ω) :
    ∃ D : Fin n → ℕ → Vec n,
      (∀ ω, Z ω k - x ω = G *ᵥ combine ts Z (scoreW D) ω) ∧
      (∀ ω, x ω = G *ᵥ (ts.map fun T => scoreW D T *ᵥ T.d ω).sum) ∧
      SqInt μ (combine ts Z (scoreW D)) ∧ rvMean μ (combine ts Z (scoreW D)) = 0 ∧
      SqInt μ (fun ω => Z ω k - x ω) ∧ rvMean μ (fun ω => Z ω k - x ω) = 0 ∧
      rvCross μ (fun ω => Z ω k - x ω) (fun ω => Z ω k - x ω) = G ∧
      ∀ T ∈ ts, ∀ i, (fun j => rvCross μ (combine ts Z (scoreW D)) (fun ω => T.B (Z ω) - T.d ω) i j) = T.B (D i) := by
  have hG := (h hne.some).1
  have hGu := unit_of_det (pd_det hG)
  choose D hD using fun i : Fin n => (marginal_facts hS (h hne.some)).1 (Pi.single i 1)
  have key : ∀ ω (X : ℕ → Vec n), X k - x ω = G *ᵥ fun i => linF ts ω (D i) X := by
    intro ω X
    have e : (fun i => linF ts ω (D i) X) = G⁻¹ *ᵥ (X k - x ω) := by
      funext i
      rw [← (marginal_facts hS (h ω)).2 _ _ (hD i) X]
      simp
    rw [e, mulVec_mulVec, Matrix.mul_nonsing_inv _ hGu, one_mulVec]
  have e1 : ∀ ω, Z ω k - x ω = G *ᵥ combine ts Z (scoreW D) ω := by
    intro ω
    rw [key ω (Z ω)]
    congr 1
    funext i
    rw [combine_score hS]
  obtain ⟨m1, m2, m3, m4, m5⟩ := combine_moments Z (scoreW D) hw
  have e2 : (fun ω => Z ω k - x ω) = fun ω => G *ᵥ combine ts Z (scoreW D) ω := funext e1
  refine ⟨D, e1, ?_, m1, m2, ?_, ?_, ?_, ?_⟩
  · intro ω
    have h0 := key ω 0
    have e3 : (fun i => linF ts ω (D i) 0) = -(ts.map fun T => scoreW D T *ᵥ T.d ω).sum := by
      clear h0 e2 m1 m2 m3 m4 m5 e1 key hD hw h
      funext i
      induction ts with
      | nil => simp [linF]
      | cons T ts ih =>
        have ih := ih fun T' h => hS T' (by simp [h])
        simp only [linF, List.map_cons, List.sum_cons, Pi.neg_apply, Pi.add_apply, map_zero, zero_sub] at ih ⊢
        rw [ih]
        have : T.B (D i) ⬝ᵥ T.S⁻¹ *ᵥ -T.d ω = -((scoreW D T *ᵥ T.d ω) i) := by
          show _ = -((T.S⁻¹ *ᵥ T.B (D i)) ⬝ᵥ T.d ω)
          rw [mulVec_neg, dotProduct_neg, dotProduct_comm (T.S⁻¹ *ᵥ T.B (D i)), dot_symm (hS T (by simp))]
        rw [this]
        ring
    rw [e3, mulVec_neg, Pi.zero_apply, zero_sub, neg_inj] at h0
    exact h0
  · rw [e2]; exact m1.mulVec G
  · rw [e2, rvMean_mulVec m1, m2, mulVec_zero]
  · have hsum : (ts.map fun T => scoreW D T * T.S * (scoreW D T)ᵀ).sum = G⁻¹ := by
      have a : ∀ i j, (ts.map fun T => scoreW D T * T.S * (scoreW D T)ᵀ).sum i j = bilF ts (D i) (D j) := by
        intro i j
        clear e2 m1 m2 m3 m4 m5 e1 key hD hw h
        induction ts with
        | nil => simp [bilF]
        | cons T ts ih =>
          have ih := ih fun T' h => hS T' (by simp [h])
          simp only [bilF, List.map_cons, List.sum_cons, Matrix.add_apply] at ih ⊢
          rw [ih]
          congr 1
          have hT := hS T (by simp)
          have b1 : T.S *ᵥ (T.S⁻¹ *ᵥ T.B (D j)) = T.B (D j) := by
            rw [mulVec_mulVec, Matrix.mul_nonsing_inv _ (unit_of_det (pd_det hT)), one_mulVec]
          have b2 : (scoreW D T * T.S * (scoreW D T)ᵀ) i j = (T.S⁻¹ *ᵥ T.B (D i)) ⬝ᵥ (T.S *ᵥ (T.S⁻¹ *ᵥ T.B (D j))) := by
            rw [Matrix.mul_assoc]
            rfl
          rw [b2, b1, dotProduct_comm, dot_symm hT]
      ext i j
      rw [a, (hD i).2, (hD j).1]
      simp
    rw [e2, rvCross_mulVec_left m1 (m1.mulVec G), rvCross_mulVec_right m1 m1, m5, hsum, Matrix.mul_nonsing_inv_cancel_left _ _ hGu,
      psd_symm hG.posSemidef]
  · intro T hT i
    rw [m4 T hT]
    funext j
    have hTS := hS T hT
    show ((T.S⁻¹ *ᵥ T.B (D i)) ᵥ* T.S) j = _
    rw [← mulVec_transpose, psd_symm hTS.posSemidef, mulVec_mulVec, Matrix.mul_nonsing_inv _ (unit_of_det (pd_det hTS)), one_mulVec]

end Verif
