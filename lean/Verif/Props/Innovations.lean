import Verif.Props.FalseAlarm
import Verif.Props.BatchCostLaw

/-!
C130: the innovations of a run. Their normalised squares add up to the cost of the best trajectory; on a linear system with white
noise they are white, and with Gaussian noise the sum has the chi-square distribution.
-/

set_option linter.unusedSectionVars false
set_option linter.unusedVariables false

namespace Verif

open Matrix MeasureTheory ProbabilityTheory

variable {Ω : Type} {n : ℕ} {U : Type}

/-! ### Specification: the details reported by a run -/

/-- The normalised innovation squared of the details of a correction. -/
noncomputable def nis (d : CorrectDetails) : ℝ := d.z ⬝ᵥ d.S⁻¹ *ᵥ d.z

/-- Performing the events with the filter `e` from the estimate `x` on, the corrections (called with `output_details=True`) report
the details `ds`, in this order, and the estimate at the end is `r`. `f` reads the measurement object off an entry of the log. -/
def Reports {Y : Type} (f : Y → StMeas (Vec n) n) (e : EkfEnv (Vec n) U n) :
    List (Ev (StInp U) Y) → SWC (Vec n) n → List CorrectDetails → SWC (Vec n) n → Prop
  | [], x, ds, r => ds = [] ∧ r = x
  | .record :: es, x, ds, r => Reports f e es x ds r
  | .predict u t :: es, x, ds, r => ∃ x', predictTo (ekfApi e) x u t = .ok x' ∧ Reports f e es x' ds r
  | .correct y u :: es, x, ds, r => ∃ x' d ds', e.correctD x (f y).meas (some ⟨u.value, some u.stamp⟩) none none = .ok (x', some d) ∧
      ds = d :: ds' ∧ Reports f e es x' ds' r

/-! ### Single corrections, with their details -/

section steps
variable (A : Inp U → ℝ → Mat n n) (b : Inp U → ℝ → Vec n) (Q : Inp U → ℝ → Mat n n) (chi : ℕ → ℝ)

theorem lin_laterD {x : SWC (Vec n) n} {τ : ℝ} (u : StInp U) {m : ℕ} (C : Mat m n) {R : Mat m m} (v : Vec m) (s : ℝ) (hR : R.PosDef)
    (hx : x.state.stamp = some τ) (hP : x.cov.PosSemidef)
    (hQ : (Q ⟨u.value, some u.stamp⟩ (s - τ)).PosSemidef) (hlt : s - τ > 1 / 10 ^ 11) :
    (linFilter A b Q chi).correctD x (linMeas C R v (some s)) (some ⟨u.value, some u.stamp⟩) none none
      = .ok (linPost C R v s (linPred A b Q ⟨u.value, some u.stamp⟩ τ s x),
          some ⟨m, v - C *ᵥ (linPred A b Q ⟨u.value, some u.stamp⟩ τ s x).state.value,
            C * (linPred A b Q ⟨u.value, some u.stamp⟩ τ s x).cov * Cᵀ + R, false⟩) := by
  have h0 : (0 : ℝ) < 1 / 10 ^ 11 := by positivity
  have hp := psd_step_predict A b Q chi u hx (by linarith : τ ≤ s) hP hQ
  unfold predictTo at hp
  rw [show (ekfApi (linFilter A b Q chi)).xstamp x = some τ from hx] at hp
  have hp' : (linFilter A b Q chi).predict x (some ⟨u.value, some u.stamp⟩) (some (s - τ)) none
      = .ok (linPred A b Q ⟨u.value, some u.stamp⟩ τ s x) := hp
  have ha : (linFilter A b Q chi).advance x (linMeas C R v (some s)) (some ⟨u.value, some u.stamp⟩)
      = .ok (linPred A b Q ⟨u.value, some u.stamp⟩ τ s x) := by
    unfold EkfEnv.advance
    simp only [hx, linMeas]
    rw [if_neg (not_lt.mpr (le_trans (by norm_num : (-(10 ^ 10) : ℝ) ≤ 0) (by linarith))), if_pos hlt]
    exact hp'
  have ha' : (linFilter A b Q chi).advance (linPred A b Q ⟨u.value, some u.stamp⟩ τ s x) (linMeas C R v (some s)) none
      = .ok (linPred A b Q ⟨u.value, some u.stamp⟩ τ s x) := by
    unfold EkfEnv.advance
    simp only [linMeas, linPred]
    rw [if_neg (by rw [sub_self]; norm_num)]
  rw [← psd_step_hereD A b Q chi none C v s hR (x := linPred A b Q ⟨u.value, some u.stamp⟩ τ s x) (τ := s) rfl
    (psd_add (psd_conj hP _) hQ) (le_refl _) (by rw [sub_self]; exact not_lt.mpr h0.le)]
  unfold EkfEnv.correctD
  rw [ha, ha']

/-- A correction in a run reports its details. -/
theorem correct_of_correctD {x x' : SWC (Vec n) n} {e : EkfEnv (Vec n) U n} {y : StMeas (Vec n) n} {u : StInp U} {d : CorrectDetails}
    (h : e.correctD x y.meas (some ⟨u.value, some u.stamp⟩) none none = .ok (x', some d)) : (ekfApi e).correct x y u = .ok x' := by
  show (e.correctD x y.meas (some ⟨u.value, some u.stamp⟩) none none).map Prod.fst = _
  rw [h]
  rfl

/-! ### The sum of the normalised innovations is the least cost -/

theorem measure_sum (e : EkfEnv (Vec n) U n) {x x' : SWC (Vec n) n} {y : StMeas (Vec n) n}
    {C : Mat y.meas.m n} {R : Mat y.meas.m y.meas.m} (hP : x.cov.PosDef) (hR : R.PosDef)
    (hy : y.meas.model = linMeasModel C R)
    (hx' : x'.state.value = x.state.value + kGain x.cov C R *ᵥ (y.meas.value - C *ᵥ x.state.value))
    (hP' : x'.cov = kCov x.cov C R) {k : ℕ} {τ : ℝ} {es : List (Ev (StInp U) (StMeas (Vec n) n))} {v : Vec n} {J : ℝ}
    (h : IsLeast {J | ∃ X : ℕ → Vec n, X (lastIdx k τ es) = v ∧ J = batchCost e x' k τ es X} J) :
    IsLeast {J | ∃ X : ℕ → Vec n, X (lastIdx k τ es) = v ∧
      J = mahal x.cov (X k - x.state.value) + (measTerm X k y + chainCost e X k τ es)}
      (mahal (C * x.cov * Cᵀ + R) (y.meas.value - C *ᵥ x.state.value) + J) := by
  obtain ⟨⟨X, hX, hJ⟩, hlow⟩ := h
  constructor
  · refine ⟨X, hX, ?_⟩
    rw [← add_assoc, marginal_correct hP hR hy hx' hP' X k]
    unfold batchCost at hJ
    linarith
  · rintro J ⟨X', hX', rfl⟩
    have := hlow ⟨X', hX', rfl⟩
    rw [← add_assoc (mahal x.cov _), marginal_correct hP hR hy hx' hP' X' k]
    unfold batchCost at this
    linarith

/-- C130 for any list of events that goes forward in time. -/
theorem C130_events (hQ : ∀ u dt, 0 < dt → (Q u dt).PosDef) :
    ∀ (es : List (Ev (StInp U) (StMeas (Vec n) n))) (x : SWC (Vec n) n) (k : ℕ) (τ : ℝ), x.cov.PosDef →
      x.state.stamp = some τ → Forward τ es →
      ∃ ds r, Reports id (linFilter A b Q chi) es x ds r ∧ r.cov.PosDef ∧ (∀ d ∈ ds, d.S.PosDef) ∧
        ∀ v : Vec n, IsLeast {J | ∃ X : ℕ → Vec n, X (lastIdx k τ es) = v ∧ J = batchCost (linFilter A b Q chi) x k τ es X}
          ((ds.map nis).sum + mahal r.cov (v - r.state.value))
  | [], x, k, τ, hP, hx, hf => by
    refine ⟨[], x, ⟨rfl, rfl⟩, hP, by simp, fun v => ⟨⟨fun _ => v, rfl, by simp [batchCost, chainCost]⟩, ?_⟩⟩
    rintro J ⟨X, hX, rfl⟩
    have : X k = v := hX
    simp [batchCost, chainCost, this]
  | .record :: es, x, k, τ, hP, hx, hf => C130_events hQ es x k τ hP hx hf
  | .predict u t :: es, x, k, τ, hP, hx, hf => by
    obtain ⟨ht, hf⟩ := hf
    obtain ⟨x', p1, p2, p3, p4, p5⟩ := lin_predict A b Q chi u hx ht hP hQ
    obtain ⟨ds, r, e1, e2, e4, e3⟩ := C130_events hQ es x' (k + 1) t p3 p2 hf
    refine ⟨ds, r, ⟨x', p1, e1⟩, e2, e4, fun v => ?_⟩
    exact marginal_predict (linFilter A b Q chi) hP (hQ _ _ (by linarith)) (fun _ => rfl) (fun _ => rfl) p4 p5
      (fun X => chainCost (linFilter A b Q chi) X (k + 1) t es) _ (lastIdx_le es (k + 1) t)
      (fun X X' h => chainCost_congr _ es _ _ X X' h) (e3 v)
  | .correct y u :: es, x, k, τ, hP, hx, hf => by
    obtain ⟨ht, ⟨C, R, hR, hy⟩, hf⟩ := hf
    obtain ⟨⟨m, w, st, mdl⟩, s, hst⟩ := y
    simp only at hy C R hst ht hf hR
    subst hy hst
    by_cases hlt : s - τ > 1 / 10 ^ 11
    · rw [if_pos hlt] at hf
      have hty : τ < s := by
        have : (0 : ℝ) < 1 / 10 ^ 11 := by positivity
        linarith
      have hq := hQ ⟨u.value, some u.stamp⟩ (s - τ) (by linarith)
      have hP1 : (linPred A b Q ⟨u.value, some u.stamp⟩ τ s x).cov.PosDef := innov_pd hP.posSemidef _ hq
      have hD := lin_laterD A b Q chi u C w s hR hx hP.posSemidef hq.posSemidef hlt
      obtain ⟨ds, r, e1, e2, e4, e3⟩ := C130_events hQ es (linPost C R w s (linPred A b Q ⟨u.value, some u.stamp⟩ τ s x)) (k + 1) s
        (by
          show (kCov _ C R).PosDef
          rw [kCov_info hP1 C hR]
          exact (info_pd hP1 C hR).inv) rfl hf
      refine ⟨_, r, ⟨_, _, ds, hD, rfl, e1⟩, e2, ?_, fun v => ?_⟩
      · intro d hd
        rcases List.mem_cons.mp hd with rfl | hd
        · exact innov_pd hP1.posSemidef C hR
        · exact e4 d hd
      have h1 := measure_sum (y := ⟨⟨m, w, some s, linMeasModel C R⟩, s, rfl⟩) (linFilter A b Q chi) hP1 hR rfl rfl rfl (e3 v)
      have := marginal_predict (linFilter A b Q chi) hP hq (fun _ => rfl) (fun _ => rfl) rfl rfl
        (fun X => measTerm X (k + 1) ⟨⟨m, w, some s, linMeasModel C R⟩, s, rfl⟩ + chainCost (linFilter A b Q chi) X (k + 1) s es) _
        (lastIdx_le es (k + 1) s)
        (fun X X' h => by
          rw [chainCost_congr _ es _ _ X X' h]
          unfold measTerm
          rw [h (k + 1) (le_refl _)]) h1
      unfold batchCost
      unfold lastIdx chainCost
      simp only [if_pos hlt]
      rw [List.map_cons, List.sum_cons, add_assoc]
      exact this
    · rw [if_neg hlt] at hf
      have hD := psd_step_hereD A b Q chi (some ⟨u.value, some u.stamp⟩) C w s hR hx hP.posSemidef ht hlt
      obtain ⟨ds, r, e1, e2, e4, e3⟩ := C130_events hQ es (linPost C R w τ x) k τ
        (by
          show (kCov _ C R).PosDef
          rw [kCov_info hP C hR]
          exact (info_pd hP C hR).inv) rfl hf
      refine ⟨_, r, ⟨_, _, ds, hD, rfl, e1⟩, e2, ?_, fun v => ?_⟩
      · intro d hd
        rcases List.mem_cons.mp hd with rfl | hd
        · exact innov_pd hP.posSemidef C hR
        · exact e4 d hd
      have h1 := measure_sum (y := ⟨⟨m, w, some s, linMeasModel C R⟩, s, rfl⟩) (linFilter A b Q chi) hP hR rfl rfl rfl (e3 v)
      unfold batchCost
      unfold lastIdx chainCost
      simp only [if_neg hlt]
      rw [List.map_cons, List.sum_cons, add_assoc]
      exact h1

theorem forward_prefix : ∀ (pre post : List (Ev (StInp U) (StMeas (Vec n) n))) (τ : ℝ), Forward τ (pre ++ post) → Forward τ pre
  | [], post, τ, h => trivial
  | .record :: pre, post, τ, h => forward_prefix pre post τ h
  | .predict u t :: pre, post, τ, h => ⟨h.1, forward_prefix pre post t h.2⟩
  | .correct y u :: pre, post, τ, h => ⟨h.1, h.2.1, forward_prefix pre post _ h.2.2⟩

/-- The events of a run go forward in time. -/
theorem run_forward {t0 : ℝ} {ins : List (StInp U)} {meas : List (StMeas (Vec n) n)}
    (hd : (ins.map StInp.stamp).Nodup) (hl : ∀ y ∈ meas, LinearMeas y) :
    Forward t0 (schedule StInp.stamp StMeas.stamp true (retained StInp.stamp t0 ins) (retained StMeas.stamp t0 meas)) := by
  have hr1 : ∀ u ∈ retained StInp.stamp t0 ins, t0 ≤ u.stamp := by
    intro u hu
    unfold retained at hu
    simpa using (List.mem_filter.mp hu).2
  have hr2 : ∀ y ∈ retained StMeas.stamp t0 meas, t0 ≤ y.stamp := by
    intro u hu
    unfold retained at hu
    simpa using (List.mem_filter.mp hu).2
  have hl2 : ∀ y ∈ retained StMeas.stamp t0 meas, LinearMeas y := by
    intro y hy
    unfold retained at hy
    exact hl y ((sortByStamp_mem _).mp (List.mem_filter.mp hy).1)
  have hs1 : (retained StInp.stamp t0 ins).Pairwise (fun a c => a.stamp < c.stamp) := by
    have h1 : (sortByStamp StInp.stamp ins).Pairwise (fun a c : StInp U => a.stamp ≤ c.stamp) :=
      sortByStamp_sorted _ _
    have h2 : ((sortByStamp StInp.stamp ins).map StInp.stamp).Nodup :=
      ((sortByStamp_perm StInp.stamp ins).map _).nodup_iff.mpr hd
    rw [List.Nodup, List.pairwise_map] at h2
    unfold retained
    exact ((h1.and h2).imp (fun h => lt_of_le_of_ne h.1 h.2)).filter _
  have hs2 : (retained StMeas.stamp t0 meas).Pairwise (fun a c => a.stamp ≤ c.stamp) :=
    (sortByStamp_sorted _ _).filter _ _
  cases hc : retained StInp.stamp t0 ins with
  | nil => exact trivial
  | cons u us =>
    rw [hc] at hs1
    exact forward_schedule hl2 hs2 us u t0 true (hr1 u (by rw [hc]; simp)) (fun _ => hr2) hs1

/-- The estimate at the end of a list of events is the one that the run records there. -/
theorem reports_recorded {e : EkfEnv (Vec n) U n} {Y : Type} {f : Y → StMeas (Vec n) n} {a : FilterApi (SWC (Vec n) n) (StInp U) Y}
    (hp : ∀ x u t, predictTo a x u t = predictTo (ekfApi e) x u t) (hc : ∀ x y u, a.correct x y u = (ekfApi e).correct x (f y) u) :
    ∀ (pre post : List (Ev (StInp U) Y)) {x r : SWC (Vec n) n} {ds : List CorrectDetails} {rs : List (SWC (Vec n) n)},
      Reports f e pre x ds r → exec a (pre ++ .record :: post) x = .ok rs → rs[recorded pre]? = some r
  | [], post, x, r, ds, rs, h, hr => by
    obtain ⟨-, rfl⟩ := h
    obtain ⟨rs', h1, h2⟩ := bind_ok (show (exec a post r).bind (fun rs' => .ok (r :: rs')) = .ok rs from hr)
    cases h2
    rfl
  | .record :: pre, post, x, r, ds, rs, h, hr => by
    obtain ⟨rs', h1, h2⟩ := bind_ok (show (exec a (pre ++ .record :: post) x).bind (fun rs' => .ok (x :: rs')) = .ok rs from hr)
    cases h2
    exact reports_recorded hp hc pre post h h1
  | .predict u t :: pre, post, x, r, ds, rs, ⟨x', h1, h2⟩, hr => by
    refine reports_recorded hp hc pre post h2 ?_
    have hr' : (predictTo a x u t).bind (fun x' => exec a (pre ++ .record :: post) x') = .ok rs := hr
    rw [hp, h1] at hr'
    exact hr'
  | .correct y u :: pre, post, x, r, ds, rs, ⟨x', d, ds', h1, h3, h2⟩, hr => by
    refine reports_recorded hp hc pre post h2 ?_
    have hr' : (a.correct x y u).bind (fun x' => exec a (pre ++ .record :: post) x') = .ok rs := hr
    rw [hc, correct_of_correctD h1] at hr'
    exact hr'

/-- C130: with linear models, at every estimate that `run_filter` records, the normalised innovations squared that the corrections
reported until then add up to the cost of the best trajectory for the prior, the inputs and the measurements until then. -/
theorem C130_cost (hQ : ∀ u dt, 0 < dt → (Q u dt).PosDef) (x0 : SWC (Vec n) n) (t0 : ℝ) (hP : x0.cov.PosDef)
    (hx : x0.state.stamp = some t0) (ins : List (StInp U)) (meas : List (StMeas (Vec n) n))
    (hi : ins = [] ∨ ∃ u ∈ ins, t0 ≤ u.stamp) (hm : meas = [] ∨ ∃ y ∈ meas, t0 ≤ y.stamp)
    (hd : (ins.map StInp.stamp).Nodup) (hl : ∀ y ∈ meas, LinearMeas y) :
    ∃ rs, runFilter (ekfApi (linFilter A b Q chi)) x0 ins meas = .ok rs ∧
      ∀ (j : ℕ) (r : SWC (Vec n) n), rs[j]? = some r → ∃ pre post ds,
        schedule StInp.stamp StMeas.stamp true (retained StInp.stamp t0 ins) (retained StMeas.stamp t0 meas)
          = pre ++ Ev.record :: post ∧
        recorded pre = j ∧ Reports id (linFilter A b Q chi) pre x0 ds r ∧
        (∀ v : Vec n, IsLeast {J | ∃ X : ℕ → Vec n, X (lastIdx 0 t0 pre) = v ∧ J = batchCost (linFilter A b Q chi) x0 0 t0 pre X}
          ((ds.map nis).sum + mahal r.cov (v - r.state.value))) ∧
        IsLeast (Set.range (batchCost (linFilter A b Q chi) x0 0 t0 pre)) (ds.map nis).sum := by
  have hfw := run_forward (t0 := t0) hd hl
  obtain ⟨rs, e1, -, e3⟩ := C88_run_filter A b Q chi hQ x0 t0 hP hx ins meas hi hm hd hl
  refine ⟨rs, e1, fun j r hr => ?_⟩
  obtain ⟨pre, post, h1, h2, -⟩ := e3 j r hr
  rw [C21_run_filter_schedule (ekfApi (linFilter A b Q chi)) x0 t0 hx ins meas hi hm] at e1
  have e1' : exec (ekfApi (linFilter A b Q chi))
    (schedule StInp.stamp StMeas.stamp true (retained StInp.stamp t0 ins) (retained StMeas.stamp t0 meas)) x0 = .ok rs := e1
  rw [h1] at hfw e1'
  obtain ⟨ds, r', g1, g2, -, g3⟩ := C130_events A b Q chi hQ pre x0 0 t0 hP hx (forward_prefix pre _ t0 hfw)
  have h4 := reports_recorded (f := id) (fun _ _ _ => rfl) (fun _ _ _ => rfl) pre post g1 e1'
  rw [h2, hr] at h4
  cases h4
  refine ⟨pre, post, ds, h1, h2, g1, g3, ?_⟩
  constructor
  · obtain ⟨⟨X, -, hJ⟩, -⟩ := g3 r.state.value
    rw [sub_self, mahal_zero, add_zero] at hJ
    exact ⟨X, hJ.symm⟩
  · rintro _ ⟨X, rfl⟩
    have := (g3 (X (lastIdx 0 t0 pre))).2 ⟨X, rfl, rfl⟩
    have := mahal_nonneg g2 (X (lastIdx 0 t0 pre) - r.state.value)
    linarith

end steps

/-! ### The innovations are white -/

variable [MeasurableSpace Ω] {μ : Measure Ω}

/-- The details that a correction with the innovation `η` reports in the outcome `ω`. -/
def Noise.details (η : Noise Ω) (ω : Ω) : CorrectDetails := ⟨η.dim, η.val ω, η.cov, false⟩

section run
variable [IsProbabilityMeasure μ]
variable (A : Inp U → ℝ → Mat n n) (b : Inp U → ℝ → Vec n) (Q : Inp U → ℝ → Mat n n) (chi : ℕ → ℝ) (X : ℝ → Ω → Vec n)

theorem innov_events (G : Submodule ℝ (Ω → ℝ)) (hG1 : (fun _ => (1 : ℝ)) ∈ G) (hQ : ∀ u dt, 0 ≤ dt → (Q u dt).PosSemidef) :
    ∀ (es : List (Ev (StInp U) (RMeas Ω n))) (x : Ω → SWC (Vec n) n) (P : Mat n n) (τ : ℝ) (D : Submodule ℝ (Ω → ℝ)), P.PosSemidef →
      (∀ ω, (x ω).cov = P) → (∀ ω, (x ω).state.stamp = some τ) → ForwardR τ es →
      White μ CovRel.exact (⟨n, fun ω => X τ ω - (x ω).state.value, P⟩ :: noises A b Q X τ es) →
      (fun _ => (1 : ℝ)) ∈ D → (∀ i, (fun ω => (x ω).state.value i) ∈ D) →
      Ahead μ D (⟨n, fun ω => X τ ω - (x ω).state.value, P⟩ :: noises A b Q X τ es) →
      (∀ i, (fun ω => X τ ω i) ∈ G) → (∀ η ∈ noises A b Q X τ es, ∀ j, (fun ω => η.val ω j) ∈ G) → D ≤ G →
      ∃ (l : List (Noise Ω)) (r : Ω → SWC (Vec n) n),
        (∀ ω, Reports (·.at ω) (linFilter A b Q chi) es (x ω) (l.map (·.details ω)) (r ω)) ∧
        l.map Noise.dim = (fused es).map RMeas.m ∧ (∀ η ∈ l, η.cov.PosDef) ∧ White μ CovRel.exact l ∧ Ahead μ D l ∧
        ∀ η ∈ l, ∀ j, (fun ω => η.val ω j) ∈ G
  | [], x, P, τ, D, hP, hc, hs, hf, hw, h1, hx, ha, hXG, hnG, hDG =>
    ⟨[], x, fun ω => ⟨rfl, rfl⟩, rfl, by simp, ⟨by simp, by simp, by simp, List.Pairwise.nil⟩, fun η hη => (by simp at hη), by simp⟩
  | .record :: es, x, P, τ, D, hP, hc, hs, hf, hw, h1, hx, ha, hXG, hnG, hDG =>
    innov_events G hG1 hQ es x P τ D hP hc hs hf hw h1 hx ha hXG hnG hDG
  | .predict u t :: es, x, P, τ, D, hP, hc, hs, hf, hw, h1, hx, ha, hXG, hnG, hDG => by
    have hq' := hQ ⟨u.value, some u.stamp⟩ (t - τ) (by linarith [hf.1])
    have hx' : ∀ i, (fun ω => (linPred A b Q ⟨u.value, some u.stamp⟩ τ t (x ω)).state.value i) ∈ D := by
      intro i
      have e : (fun ω => (linPred A b Q ⟨u.value, some u.stamp⟩ τ t (x ω)).state.value i)
          = (fun ω => (A ⟨u.value, some u.stamp⟩ (t - τ) *ᵥ (x ω).state.value) i)
            + (b ⟨u.value, some u.stamp⟩ (t - τ) i) • (fun _ => (1 : ℝ)) := by
        funext ω
        simp [linPred]
      rw [e]
      exact D.add_mem (mem_mulVec hx _ i) (D.smul_mem _ h1)
    obtain ⟨l, r, g1, g2⟩ := innov_events G hG1 hQ es (fun ω => linPred A b Q ⟨u.value, some u.stamp⟩ τ t (x ω)) _ t D
      (psd_add (psd_conj hP _) hq') (fun ω => by simp only [linPred, hc]) (fun ω => rfl) hf.2
      (white_predict A b Q X hc hw) h1 hx' (ahead_predict A b Q X ha)
      (mem_proc A b Q X hG1 hXG (hnG (procNoise A b Q X u τ t) (by simp [noises]))) (fun η hη => hnG η (by simp [noises, hη])) hDG
    exact ⟨l, r, fun ω => ⟨_, psd_step_predict A b Q chi u (hs ω) hf.1 (by rw [hc]; exact hP) hq', g1 ω⟩, g2⟩
  | .correct y u :: es, x, P, τ, D, hP, hc, hs, hf, hw, h1, hx, ha, hXG, hnG, hDG => by
    obtain ⟨ht, hR, hf⟩ := hf
    unfold noises at hw ha hnG
    have hDy := (addData_le (D := D) (S := addData D y) (y := y)).mp (le_refl _)
    have hD1 : (fun _ => (1 : ℝ)) ∈ addData D y := hDy.1 h1
    have core : ∀ (x : Ω → SWC (Vec n) n) (P : Mat n n) (s : ℝ), P.PosSemidef → (∀ ω, (x ω).cov = P) →
        ForwardR s es →
        White μ CovRel.exact (⟨n, fun ω => X s ω - (x ω).state.value, P⟩ :: measNoise X s y :: noises A b Q X s es) →
        (∀ i, (fun ω => (x ω).state.value i) ∈ D) →
        Ahead μ D (⟨n, fun ω => X s ω - (x ω).state.value, P⟩ :: measNoise X s y :: noises A b Q X s es) →
        (∀ i, (fun ω => X s ω i) ∈ G) → (∀ j, (fun ω => (measNoise X s y).val ω j) ∈ G) →
        (∀ η ∈ noises A b Q X s es, ∀ j, (fun ω => η.val ω j) ∈ G) →
        ∃ (l : List (Noise Ω)) (r : Ω → SWC (Vec n) n),
          (∀ ω, Reports (·.at ω) (linFilter A b Q chi) es (linPost y.C y.R (y.value ω) s (x ω)) (l.map (·.details ω)) (r ω)) ∧
          l.map Noise.dim = (fused es).map RMeas.m ∧
          (∀ η ∈ (⟨y.m, fun ω => y.value ω - y.C *ᵥ (x ω).state.value, y.C * P * y.Cᵀ + y.R⟩ :: l : List (Noise Ω)), η.cov.PosDef) ∧
          White μ CovRel.exact (⟨y.m, fun ω => y.value ω - y.C *ᵥ (x ω).state.value, y.C * P * y.Cᵀ + y.R⟩ :: l) ∧
          Ahead μ D (⟨y.m, fun ω => y.value ω - y.C *ᵥ (x ω).state.value, y.C * P * y.Cᵀ + y.R⟩ :: l) ∧
          ∀ η ∈ (⟨y.m, fun ω => y.value ω - y.C *ᵥ (x ω).state.value, y.C * P * y.Cᵀ + y.R⟩ :: l : List (Noise Ω)),
            ∀ j, (fun ω => η.val ω j) ∈ G := by
      intro x P s hP hc hf hw hx ha hXG hvG hnG
      have hyG := mem_meas X hXG hvG
      obtain ⟨k1, k2⟩ := ahead_correct X hP hc hR hx hw ha
      obtain ⟨hz, z0, zc, zo, zD⟩ := innov_facts X hx hw ha
      have hADG : addData D y ≤ G := addData_le.mpr ⟨hDG, hyG⟩
      obtain ⟨l, r, g1, g2, g3, g4, g5, g6⟩ := innov_events G hG1 hQ es (fun ω => linPost y.C y.R (y.value ω) s (x ω)) _ s (addData D y)
        (kCov_psd hP y.C hR) (fun ω => by simp only [linPost, hc]) (fun ω => rfl) hf
        (white_correct X hP hc hR hw) hD1 k2 k1 hXG hnG hADG
      refine ⟨l, r, g1, g2, ?_, ⟨?_, ?_, ?_, ?_⟩, ?_, ?_⟩
      · exact List.forall_mem_cons.mpr ⟨innov_pd hP y.C hR, g3⟩
      · exact List.forall_mem_cons.mpr ⟨hz, g4.sq⟩
      · exact List.forall_mem_cons.mpr ⟨z0, g4.mean⟩
      · exact List.forall_mem_cons.mpr ⟨zc, g4.cov⟩
      · refine List.pairwise_cons.mpr ⟨fun η hη => ?_, g4.uncorr⟩
        obtain ⟨hη1, hη2⟩ := g5 η hη
        refine rvCross_comm_zero ?_
        ext i j
        exact (hη2 (zD j)).2 i
      · exact List.forall_mem_cons.mpr ⟨⟨hz, zo⟩, fun η hη => by
          obtain ⟨q1, q2⟩ := g5 η hη
          exact ⟨q1, le_trans hDy.1 q2⟩⟩
      · exact List.forall_mem_cons.mpr ⟨fun j => hADG (zD j), g6⟩
    by_cases hlt : y.stamp - τ > 1 / 10 ^ 11
    · rw [if_pos hlt] at hf hw ha hnG
      have h0 : (0 : ℝ) < 1 / 10 ^ 11 := by positivity
      have hq' := hQ ⟨u.value, some u.stamp⟩ (y.stamp - τ) (by linarith)
      have hP1 := psd_add (psd_conj hP (A ⟨u.value, some u.stamp⟩ (y.stamp - τ))) hq'
      have hx' : ∀ i, (fun ω => (linPred A b Q ⟨u.value, some u.stamp⟩ τ y.stamp (x ω)).state.value i) ∈ D := by
        intro i
        have e : (fun ω => (linPred A b Q ⟨u.value, some u.stamp⟩ τ y.stamp (x ω)).state.value i)
            = (fun ω => (A ⟨u.value, some u.stamp⟩ (y.stamp - τ) *ᵥ (x ω).state.value) i)
              + (b ⟨u.value, some u.stamp⟩ (y.stamp - τ) i) • (fun _ => (1 : ℝ)) := by
          funext ω
          simp [linPred]
        rw [e]
        exact D.add_mem (mem_mulVec hx _ i) (D.smul_mem _ h1)
      obtain ⟨l, r, g1, g2, g3⟩ := core (fun ω => linPred A b Q ⟨u.value, some u.stamp⟩ τ y.stamp (x ω)) _ y.stamp hP1
        (fun ω => by simp only [linPred, hc]) hf
        (white_predict A b Q X hc hw) hx' (ahead_predict A b Q X ha)
        (mem_proc A b Q X hG1 hXG (hnG (procNoise A b Q X u τ y.stamp) (by simp))) (hnG (measNoise X y.stamp y) (by simp))
        (fun η hη => hnG η (by simp [hη]))
      refine ⟨_, r, fun ω => ?_, ?_, g3⟩
      · have hD := lin_laterD A b Q chi u y.C (y.value ω) y.stamp hR (hs ω) (by rw [hc]; exact hP) hq' hlt
        have hc2 : (linPred A b Q ⟨u.value, some u.stamp⟩ τ y.stamp (x ω)).cov = A ⟨u.value, some u.stamp⟩ (y.stamp - τ) * P *
            (A ⟨u.value, some u.stamp⟩ (y.stamp - τ))ᵀ + Q ⟨u.value, some u.stamp⟩ (y.stamp - τ) := by simp only [linPred, hc]
        refine ⟨_, _, l.map (·.details ω), hD, ?_, g1 ω⟩
        rw [List.map_cons, hc2]
        rfl
      · rw [List.map_cons, g2]
        rfl
    · rw [if_neg hlt] at hf hw ha hnG
      obtain ⟨l, r, g1, g2, g3⟩ := core x P τ hP hc hf hw hx ha hXG (hnG (measNoise X τ y) (by simp)) (fun η hη => hnG η (by simp [hη]))
      refine ⟨_, r, fun ω => ?_, ?_, g3⟩
      · have hD := psd_step_hereD A b Q chi (some ⟨u.value, some u.stamp⟩) y.C (y.value ω) y.stamp hR (hs ω) (by rw [hc]; exact hP) ht hlt
        refine ⟨_, _, l.map (·.details ω), hD, ?_, g1 ω⟩
        rw [List.map_cons, hc]
        rfl
      · rw [List.map_cons, g2]
        rfl

/-- What the corrections of a run report does not depend on how the run is recorded: the run itself is the run of `run_filter`. -/
theorem reports_run {e : EkfEnv (Vec n) U n} {ω : Ω} : ∀ (es : List (Ev (StInp U) (RMeas Ω n))) {x r : SWC (Vec n) n}
    {ds : List CorrectDetails}, Reports (·.at ω) e es x ds r → ∃ rs, exec (randApi e ω) es x = .ok rs
  | [], x, r, ds, h => ⟨[], rfl⟩
  | .record :: es, x, r, ds, h => by
    obtain ⟨rs, h1⟩ := reports_run es h
    refine ⟨x :: rs, ?_⟩
    unfold exec
    rw [h1]
    rfl
  | .predict u t :: es, x, r, ds, ⟨x', h1, h2⟩ => by
    obtain ⟨rs, h3⟩ := reports_run es h2
    refine ⟨rs, ?_⟩
    unfold exec
    rw [show predictTo (randApi e ω) x u t = .ok x' from h1]
    exact h3
  | .correct y u :: es, x, r, ds, ⟨x', d, ds', h1, h4, h2⟩ => by
    obtain ⟨rs, h3⟩ := reports_run es h2
    refine ⟨rs, ?_⟩
    unfold exec
    rw [show (randApi e ω).correct x y u = .ok x' from correct_of_correctD h1]
    exact h3

/-- C130: on a linear system with white noise, the innovations that the corrections of a run report, one for each measurement fused,
have mean zero and the covariance reported with them, and are uncorrelated with each other. With jointly Gaussian noise, they are
jointly Gaussian. -/
theorem C130_white (hQ : ∀ u dt, 0 ≤ dt → (Q u dt).PosSemidef) (x0 : Vec n) (t0 : ℝ) (P0 : Mat n n)
    (hP : P0.PosSemidef) (ins : List (StInp U)) (meas : List (RMeas Ω n)) (hR : ∀ y ∈ meas, y.R.PosDef)
    (hw : White μ CovRel.exact (⟨n, fun ω => X t0 ω - x0, P0⟩ :: noises A b Q X t0 (runEvents t0 ins meas))) :
    ∃ (l : List (Noise Ω)) (r : Ω → SWC (Vec n) n),
      (∀ ω, Reports (·.at ω) (linFilter A b Q chi) (runEvents t0 ins meas) ⟨⟨x0, some t0⟩, P0⟩ (l.map (·.details ω)) (r ω)) ∧
      l.map Noise.dim = (fused (runEvents t0 ins meas)).map RMeas.m ∧ (∀ η ∈ l, η.cov.PosDef) ∧ White μ CovRel.exact l ∧
      (JointlyGaussian μ (⟨n, fun ω => X t0 ω - x0, P0⟩ :: noises A b Q X t0 (runEvents t0 ins meas)) → JointlyGaussian μ l) := by
  have hone : ∀ {m : ℕ} {V : Ω → Vec m} (hV : SqInt μ V), rvMean μ V = 0 →
      Submodule.span ℝ {fun _ => (1 : ℝ)} ≤ orthSub μ V hV := by
    intro m V hV h0
    rw [Submodule.span_le]
    rintro g rfl
    refine ⟨memLp_const _, fun i => ?_⟩
    simp only [mul_one]
    exact congrFun h0 i
  have hcon : ∀ i, (fun _ : Ω => x0 i) ∈ Submodule.span ℝ {fun _ : Ω => (1 : ℝ)} := fun i => by
    have e : (fun _ : Ω => x0 i) = x0 i • fun _ : Ω => (1 : ℝ) := by funext ω; simp
    rw [e]
    exact Submodule.smul_mem _ _ (Submodule.subset_span rfl)
  have hDG : Submodule.span ℝ {fun _ : Ω => (1 : ℝ)}
      ≤ noiseSpace (⟨n, fun ω => X t0 ω - x0, P0⟩ :: noises A b Q X t0 (runEvents t0 ins meas)) := le_sup_right
  obtain ⟨l, r, g1, g2, g3, g4, -, g6⟩ := innov_events A b Q chi X _ (noiseSpace_one
        (⟨n, fun ω => X t0 ω - x0, P0⟩ :: noises A b Q X t0 (runEvents t0 ins meas))) hQ (runEvents t0 ins meas)
      (fun ω => ⟨⟨x0, some t0⟩, P0⟩) P0 t0
      (Submodule.span ℝ {fun _ => (1 : ℝ)}) hP (fun _ => rfl) (fun _ => rfl) (runEvents_forward hR) hw
      (Submodule.subset_span rfl) hcon
      (fun η hη => ⟨hw.sq η hη, hone _ (hw.mean η hη)⟩)
      (fun i => by
        have e : (fun ω => X t0 ω i) = (fun ω => (X t0 ω - x0) i) + fun _ => x0 i := by
          funext ω; simp
        rw [e]
        exact Submodule.add_mem _ (noiseSpace_mem (η := ⟨n, fun ω => X t0 ω - x0, P0⟩) (by simp) i) (hDG (hcon i)))
      (fun η hη j => noiseSpace_mem (by simp [hη]) j) hDG
  refine ⟨l, r, g1, g2, g3, g4, fun hg g hgm => noiseSpace_gauss hg g ?_⟩
  have : noiseSpan l ≤ noiseSpace (⟨n, fun ω => X t0 ω - x0, P0⟩ :: noises A b Q X t0 (runEvents t0 ins meas)) := by
    unfold noiseSpan
    rw [Submodule.span_le]
    rintro _ ⟨η, hη, j, rfl⟩
    exact g6 η hη j
  exact this hgm

/-- The run whose corrections these are is the run of `run_filter`: it does not raise, and where it records an estimate, that is the
estimate after the corrections until then. -/
theorem C130_run {e : EkfEnv (Vec n) U n} (x0 : SWC (Vec n) n) {t0 : ℝ} (hx : x0.state.stamp = some t0) (ins : List (StInp U))
    (meas : List (RMeas Ω n)) (hi : ins = [] ∨ ∃ u ∈ ins, t0 ≤ u.stamp) (hm : meas = [] ∨ ∃ y ∈ meas, t0 ≤ y.stamp) (ω : Ω)
    {ds : List CorrectDetails} {r : SWC (Vec n) n} (h : Reports (·.at ω) e (runEvents t0 ins meas) x0 ds r) :
    ∃ rs, runFilter (ekfApi e) x0 ins (meas.map (·.at ω)) = .ok rs ∧
      ∀ pre post ds' r', runEvents t0 ins meas = pre ++ .record :: post → Reports (·.at ω) e pre x0 ds' r' → rs[recorded pre]? = some r' := by
  rw [run_rand, C21_run_filter_schedule (randApi e ω) x0 t0 hx ins meas hi hm]
  obtain ⟨rs, h1⟩ := reports_run _ h
  refine ⟨rs, h1, fun pre post ds' r' h2 h3 => ?_⟩
  rw [h2] at h1
  exact reports_recorded (f := (·.at ω)) (a := randApi e ω) (fun _ _ _ => rfl) (fun _ _ _ => rfl) pre post h3 h1

end run

/-! ### The law of the sum -/

/-- White jointly Gaussian noise of invertible covariances: the normalised squares add up to a chi-square variable with as many
degrees of freedom as there are components. -/
theorem C130_chi2 [IsProbabilityMeasure μ] : ∀ (l : List (Noise Ω)), White μ CovRel.exact l → JointlyGaussian μ l →
    (∀ η ∈ l, η.cov.PosDef) → μ.map (fun ω => (l.map fun η => nis (η.details ω)).sum) = chi2 (l.map Noise.dim).sum
  | [], hw, hg, hp => by
    have e : (fun z : Vec 0 => z ⬝ᵥ z) = fun _ => 0 := by
      funext z
      simp
    simp only [List.map_nil, List.sum_nil]
    unfold chi2
    rw [e, Measure.map_const, Measure.map_const]
    simp
  | η :: l, hw, hg, hp => by
    have hg' : JointlyGaussian μ l := fun g hgm => hg g (Submodule.span_mono (by
      rintro _ ⟨ζ, hζ, j, rfl⟩
      exact ⟨ζ, by simp [hζ], j, rfl⟩) hgm)
    have ih := C130_chi2 l hw.tail hg' fun ζ hζ => hp ζ (by simp [hζ])
    have hS := hp η (by simp)
    have hG := noiseSpace_gauss hg
    have hη : ∀ j, (fun ω => η.val ω j) ∈ noiseSpace (η :: l) := fun j => noiseSpace_mem (by simp) j
    have hlaw := quad_chi2 hS (gauss_law hG hη (hw.mean η (by simp)) (hw.cov η (by simp)))
    have hi : IndepFun η.val (fun ω (p : Σ i : Fin l.length, Fin (l.get i).dim) => (l.get p.1).val ω p.2) μ :=
      gauss_indep hG (Z := fun j ω => η.val ω j) (W := fun (p : Σ i : Fin l.length, Fin (l.get i).dim) ω => (l.get p.1).val ω p.2) hη
        (fun p => noiseSpace_mem (List.mem_cons_of_mem _ (List.get_mem _ _)) p.2)
        (fun j => congrFun (hw.mean η (by simp)) j)
        (fun i p => congrFun (congrFun ((List.pairwise_cons.mp hw.uncorr).1 (l.get p.1) (List.get_mem _ _)) i) p.2)
    have hm1 : Measurable fun v : Vec η.dim => v ⬝ᵥ η.cov⁻¹ *ᵥ v := by
      unfold dotProduct mulVec dotProduct
      fun_prop
    have hm2 : Measurable fun v : (Σ i : Fin l.length, Fin (l.get i).dim) → ℝ =>
        ∑ i : Fin l.length, (fun j => v ⟨i, j⟩) ⬝ᵥ (l.get i).cov⁻¹ *ᵥ (fun j => v ⟨i, j⟩) := by
      unfold dotProduct mulVec dotProduct
      fun_prop
    have h2 := hi.comp hm1 hm2
    have e2 : ((fun v : (Σ i : Fin l.length, Fin (l.get i).dim) → ℝ =>
        ∑ i : Fin l.length, (fun j => v ⟨i, j⟩) ⬝ᵥ (l.get i).cov⁻¹ *ᵥ (fun j => v ⟨i, j⟩)) ∘
        fun ω p => (l.get p.1).val ω p.2) = fun ω => (l.map fun η => nis (η.details ω)).sum := by
      funext ω
      rw [list_sum_get]
      rfl
    rw [e2] at h2
    have h2 : IndepFun (fun ω => η.val ω ⬝ᵥ η.cov⁻¹ *ᵥ η.val ω) (fun ω => (l.map fun η => nis (η.details ω)).sum) μ := h2
    have e : (fun ω => ((η :: l).map fun η => nis (η.details ω)).sum)
        = (fun ω => η.val ω ⬝ᵥ η.cov⁻¹ *ᵥ η.val ω) + fun ω => (l.map fun η => nis (η.details ω)).sum := by
      funext ω
      simp only [List.map_cons, List.sum_cons, Pi.add_apply]
      rfl
    rw [e, h2.map_add_eq_map_conv_map₀ (aemeasurable_of_law hlaw) (aemeasurable_of_law ih), ih, hlaw, chi2_conv, List.map_cons, List.sum_cons]

/-- C130: on a linear system with white Gaussian noise, the normalised innovations squared of a run add up to a chi-square variable
with as many degrees of freedom as measurement components were fused; so a consistency test with the bound `ppf p` fails a run of a
correct filter with probability `1 - p`. -/
theorem C130_nis [IsProbabilityMeasure μ] (A : Inp U → ℝ → Mat n n) (b : Inp U → ℝ → Vec n) (Q : Inp U → ℝ → Mat n n) (chi : ℕ → ℝ)
    (X : ℝ → Ω → Vec n) (hQ : ∀ u dt, 0 ≤ dt → (Q u dt).PosSemidef) (x0 : Vec n) (t0 : ℝ) (P0 : Mat n n)
    (hP : P0.PosSemidef) (ins : List (StInp U)) (meas : List (RMeas Ω n)) (hR : ∀ y ∈ meas, y.R.PosDef)
    (hw : White μ CovRel.exact (⟨n, fun ω => X t0 ω - x0, P0⟩ :: noises A b Q X t0 (runEvents t0 ins meas)))
    (hg : JointlyGaussian μ (⟨n, fun ω => X t0 ω - x0, P0⟩ :: noises A b Q X t0 (runEvents t0 ins meas))) :
    ∃ (ds : Ω → List CorrectDetails) (r : Ω → SWC (Vec n) n),
      (∀ ω, Reports (·.at ω) (linFilter A b Q chi) (runEvents t0 ins meas) ⟨⟨x0, some t0⟩, P0⟩ (ds ω) (r ω)) ∧
      μ.map (fun ω => ((ds ω).map nis).sum) = chi2 ((fused (runEvents t0 ins meas)).map RMeas.m).sum ∧
      ∀ {ppf : ℝ → ℝ → ℝ}, IsPpf ppf → 0 < ((fused (runEvents t0 ins meas)).map RMeas.m).sum → ∀ {p : ℝ}, 0 < p → p < 1 →
        μ {ω | ((ds ω).map nis).sum > ppf p (((fused (runEvents t0 ins meas)).map RMeas.m).sum : ℕ)} = ENNReal.ofReal (1 - p) := by
  obtain ⟨l, r, g1, g2, g3, g4, g5⟩ := C130_white A b Q chi X hQ x0 t0 P0 hP ins meas hR hw
  have h := C130_chi2 l g4 (g5 hg) g3
  rw [g2] at h
  have e : (fun ω => ((l.map (·.details ω)).map nis).sum) = fun ω => (l.map fun η => nis (η.details ω)).sum := by
    funext ω
    rw [List.map_map]
    rfl
  refine ⟨fun ω => l.map (·.details ω), r, g1, by rw [e]; exact h, fun hq hk p h0 h1 => ?_⟩
  rw [← chi2_above hq hk h0 h1, ← law_apply h measurableSet_Ioi]
  congr 1
  ext ω
  show ((l.map (·.details ω)).map nis).sum > _ ↔ (l.map fun η => nis (η.details ω)).sum ∈ Set.Ioi _
  rw [List.map_map]
  rfl

/-! ### Examples -/

/-- The hypotheses of `C130_cost` are met by a run with three inputs and a measurement between the first two: at the second estimate
that is recorded, the only normalised innovation squared is the least cost. -/
example : ∃ rs, runFilter (ekfApi (linFilter (fun (_ : Inp (Vec 1)) _ => (1 : Mat 1 1)) (fun u dt => dt • u.value)
    (fun _ dt => if 0 < dt then (1 : Mat 1 1) else 0) (fun _ => 0))) ⟨⟨0, some 0⟩, 1⟩ [⟨1, 0⟩, ⟨1, 1⟩, ⟨0, 2⟩]
    [exMeas88] = .ok rs := by
  have h := C130_cost (n := 1) (fun (_ : Inp (Vec 1)) _ => (1 : Mat 1 1)) (fun u dt => dt • u.value)
    (fun _ dt => if 0 < dt then (1 : Mat 1 1) else 0) (fun _ => 0)
    (fun u dt hdt => by simp only [if_pos hdt]; exact Matrix.PosDef.one) ⟨⟨0, some 0⟩, 1⟩ 0 Matrix.PosDef.one rfl
    [⟨1, 0⟩, ⟨1, 1⟩, ⟨0, 2⟩] [exMeas88]
    (.inr ⟨⟨1, 0⟩, by simp, le_refl _⟩) (.inr ⟨exMeas88, by simp, by norm_num [exMeas88]⟩) (by norm_num)
    (fun y hy => by
      rw [List.mem_singleton.mp hy]
      exact ⟨(1 : Mat 1 1), (1 : Mat 1 1), Matrix.PosDef.one, rfl⟩)
  obtain ⟨rs, h1, _⟩ := h
  exact ⟨rs, h1⟩

/-- The hypotheses of `C130_white` and `C130_nis` hold for the random log of `GaussNoise.lean`, with one innovation of one component. -/
example : ∃ (ds : Vec 4 → List CorrectDetails) (r : Vec 4 → SWC (Vec 1) 1),
    (∀ ω, Reports (·.at ω) (linFilter (U := Unit) (fun _ _ => 1) (fun _ _ => 0) (fun _ _ => 1) (fun _ => 0))
      (runEvents 0 [⟨(), 0⟩, ⟨(), 1⟩] [walkMeas]) ⟨⟨0, some 0⟩, 1⟩ (ds ω) (r ω)) ∧
    (normal (1 : Mat 4 4)).map (fun ω => ((ds ω).map nis).sum) = chi2 1 := by
  obtain ⟨ds, r, h1, h2, -⟩ := C130_nis (U := Unit) (μ := normal (1 : Mat 4 4)) (fun _ _ => 1) (fun _ _ => 0) (fun _ _ => 1) (fun _ => 0)
    walkTruth (fun _ _ _ => PosSemidef.one) (fun _ => 0) 0 1 PosSemidef.one [⟨(), 0⟩, ⟨(), 1⟩] [walkMeas]
    (fun y hy => by rw [List.mem_singleton.mp hy]; exact PosDef.one) walk_white walk_gauss
  refine ⟨ds, r, h1, ?_⟩
  have e : ((fused (runEvents (U := Unit) 0 [⟨(), 0⟩, ⟨(), 1⟩] [walkMeas])).map RMeas.m).sum = 1 := by
    rw [walk_events]
    rfl
  rw [e] at h2
  exact h2

end Verif
