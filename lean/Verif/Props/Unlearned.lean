import Verif.Lemmas.FilterSim
import Verif.Props.FilterBatch

/-!
C124: what the measurements cannot see the filter does not learn.

An uncertainty `D t` (a symmetric matrix for each time) is *unseen* when every process Jacobian `A` carries it along, `A (D t) Aᵀ =
D (t + dt)`, and every measurement Jacobian `G` vanishes on it, `G (D t) = 0`. `widen` adds it to the covariance of an estimate and
moves the estimate by `act`.
-/

namespace Verif

open Matrix

set_option linter.unusedVariables false
set_option linter.unusedSectionVars false

variable {V U : Type} {n k : ℕ}

/-- The motions `act t` of the states and the uncertainty `D t` go unnoticed by the process model: moving and propagating commute, the
Jacobian and the covariance do not depend on the motion, and the Jacobian carries the
uncertainty along. -/
structure UnseenProcess (p : ProcModel V U n) (act : ℝ → V → V) (D : ℝ → Mat n n) : Prop where
  evaluate : ∀ v t u dt, 0 ≤ dt → (p.evaluate ⟨act t v, some t⟩ u dt).value = act (t + dt) (p.evaluate ⟨v, some t⟩ u dt).value
  jacobian : ∀ v t u dt, 0 ≤ dt → p.jacobian ⟨act t v, some t⟩ u dt = p.jacobian ⟨v, some t⟩ u dt
  covariance : ∀ v t u dt, 0 ≤ dt → p.covariance ⟨act t v, some t⟩ u dt = p.covariance ⟨v, some t⟩ u dt
  dirs : ∀ v t u dt, 0 ≤ dt → p.jacobian ⟨v, some t⟩ u dt * D t * (p.jacobian ⟨v, some t⟩ u dt)ᵀ = D (t + dt)

/-- The same for a measurement model: predicted measurement, Jacobian and covariance do not depend on the motion, and the Jacobian
vanishes on the uncertainty. -/
structure UnseenBy {m : ℕ} (g : MeasModel V n m) (act : ℝ → V → V) (D : ℝ → Mat n n) : Prop where
  evaluate : ∀ v t, g.evaluate ⟨act t v, some t⟩ = g.evaluate ⟨v, some t⟩
  jacobian : ∀ v t, g.jacobian ⟨act t v, some t⟩ = g.jacobian ⟨v, some t⟩
  covariance : ∀ v t, g.covariance ⟨act t v, some t⟩ = g.covariance ⟨v, some t⟩
  dirs : ∀ v t, g.jacobian ⟨v, some t⟩ * D t = 0

/-- The estimate moved by `act`, with the uncertainty `D` of its time added. -/
noncomputable def widen (act : ℝ → V → V) (D : ℝ → Mat n n) (x : SWC V n) : SWC V n :=
  ⟨⟨act (x.state.stamp.getD 0) x.state.value, x.state.stamp⟩,
    x.cov + D (x.state.stamp.getD 0)⟩

theorem symmetrize_add {P D : Mat n n} (hD : Dᵀ = D) : symmetrize (P + D) = symmetrize P + D := by
  unfold symmetrize
  rw [transpose_add, hD]
  have : P + D + (Pᵀ + D) = P + Pᵀ + (2 : ℝ) • D := by
    rw [two_smul]
    abel
  rw [this, smul_add, smul_smul]
  norm_num

section ekf
variable {e : EkfEnv V U n} {act : ℝ → V → V} {D : ℝ → Mat n n}

theorem widen_propagate (hp : UnseenProcess e.proc act D) (hD : ∀ t, (D t)ᵀ = D t) {v : V} {t dt : ℝ} (hdt : 0 ≤ dt) {P : Mat n n} (u : Inp U) :
    e.propagate (widen act D ⟨⟨v, some t⟩, P⟩) u t dt (widen act D ⟨⟨v, some t⟩, P⟩).state
      = widen act D (e.propagate ⟨⟨v, some t⟩, P⟩ u t dt ⟨v, some t⟩) := by
  have h1 := hp.evaluate v t u dt hdt
  have h2 := hp.jacobian v t u dt hdt
  have h3 := hp.covariance v t u dt hdt
  have h4 := hp.dirs v t u dt hdt
  unfold widen EkfEnv.propagate
  simp only [Option.getD_some, h1, h2, h3]
  congr 1
  rw [← symmetrize_add (hD _)]
  congr 1
  rw [Matrix.mul_add, Matrix.add_mul, h4]
  abel

theorem widen_fuse (hc : ∀ v t dx, e.plus (act t v) dx = act t (e.plus v dx)) (hD : ∀ t, (D t)ᵀ = D t) {y : Meas V n}
    (hy : UnseenBy y.model act D) {v : V} {t : ℝ} {P : Mat n n} (rej : Bool) :
    e.fuse (widen act D ⟨⟨v, some t⟩, P⟩) y none rej
      = (e.fuse ⟨⟨v, some t⟩, P⟩ y none rej).map fun r => (widen act D r.1, r.2) := by
  have h1 := hy.evaluate v t
  have h2 := hy.jacobian v t
  have h3 := hy.covariance v t
  have h4 := hy.dirs v t
  have h5 : (D t) * (y.model.jacobian ⟨v, some t⟩)ᵀ = 0 := by
    rw [← hD t, ← transpose_mul, h4, transpose_zero]
  have hPG : (P + D t) * (y.model.jacobian ⟨v, some t⟩)ᵀ = P * (y.model.jacobian ⟨v, some t⟩)ᵀ := by
    rw [Matrix.add_mul, h5, add_zero]
  have hS : y.model.jacobian ⟨v, some t⟩ * (P + D t) * (y.model.jacobian ⟨v, some t⟩)ᵀ
      = y.model.jacobian ⟨v, some t⟩ * P * (y.model.jacobian ⟨v, some t⟩)ᵀ := by
    rw [Matrix.mul_assoc, hPG, ← Matrix.mul_assoc]
  unfold EkfEnv.fuse
  simp only [widen, Option.getD_some, Option.getD_none, h1, h2, h3, hS, hPG]
  cases y.model.evaluate ⟨v, some t⟩ with
  | none => rfl
  | some yc =>
    dsimp only
    generalize hz : (fun i => y.value i - yc i) = z
    generalize hSS : y.model.jacobian ⟨v, some t⟩ * P * (y.model.jacobian ⟨v, some t⟩)ᵀ + y.model.covariance ⟨v, some t⟩ = S
    have hcov : ∀ Kt : Matrix (Fin y.m) (Fin n) ℝ, symmetrize ((1 - Ktᵀ * y.model.jacobian ⟨v, some t⟩) * (P + D t))
        = symmetrize ((1 - Ktᵀ * y.model.jacobian ⟨v, some t⟩) * P) + D t := by
      intro Kt
      rw [← symmetrize_add (hD _)]
      congr 1
      rw [Matrix.mul_add, Matrix.sub_mul 1 (Ktᵀ * _) (D t), Matrix.mul_assoc Ktᵀ _ (D t), h4,
        Matrix.mul_zero, sub_zero, Matrix.one_mul]
    simp only [EkfEnv.plusSt, hc, hcov]
    cases rej
    · show (solve Sᵀ (P * (y.model.jacobian ⟨v, some t⟩)ᵀ)ᵀ >>= _) = Except.map _ (solve Sᵀ (P * (y.model.jacobian ⟨v, some t⟩)ᵀ)ᵀ >>= _)
      cases solve Sᵀ (P * (y.model.jacobian ⟨v, some t⟩)ᵀ)ᵀ <;> rfl
    · simp only [if_true]
      cases checkOutlier e.chi2ppf99 z S with
      | error er => rfl
      | ok b =>
        cases b
        · show (solve Sᵀ (P * (y.model.jacobian ⟨v, some t⟩)ᵀ)ᵀ >>= _) = Except.map _ (solve Sᵀ (P * (y.model.jacobian ⟨v, some t⟩)ᵀ)ᵀ >>= _)
          cases solve Sᵀ (P * (y.model.jacobian ⟨v, some t⟩)ᵀ)ᵀ <;> rfl
        · rfl

theorem propagate_stamp (x : SWC V n) (u : Inp U) (t dt : ℝ) (xj : St V) : (e.propagate x u t dt xj).state.stamp = some (t + dt) := rfl

theorem widen_predict (hp : UnseenProcess e.proc act D) (hD : ∀ t, (D t)ᵀ = D t) {x : SWC V n} {t : ℝ} (hx : x.state.stamp = some t) (u : Inp U)
    (dt : ℝ) :
    e.predict (widen act D x) (some u) (some dt) none = (e.predict x (some u) (some dt) none).map (widen act D) := by
  obtain ⟨⟨v, s⟩, P⟩ := x
  obtain rfl : s = some t := hx
  by_cases h : dt < 0
  · simp [EkfEnv.predict, predictTime, widen, h, bind, Except.bind, Except.map]
  · have := widen_propagate hp hD (v := v) (t := t) (not_lt.mp h) (P := P) u
    simp only [EkfEnv.predict, predictTime, widen, h, bind, Except.bind, Except.map, if_false, Option.getD_none, Option.getD_some] at this ⊢
    rw [this]

theorem predict_stamped {x : SWC V n} {t : ℝ} (hx : x.state.stamp = some t) {u : Inp U} {dt : ℝ} {x' : SWC V n}
    (h : e.predict x (some u) (some dt) none = .ok x') : ∃ t, x'.state.stamp = some t := by
  obtain ⟨t', d, _, _, ⟨h1, _⟩ | ⟨u', _, rfl⟩⟩ := predict_cases e x (some u) (some dt) none x' h
  · simp at h1
  · exact ⟨_, rfl⟩

theorem widen_advance (hp : UnseenProcess e.proc act D) (hD : ∀ t, (D t)ᵀ = D t) {x : SWC V n} {t : ℝ} (hx : x.state.stamp = some t) (y : Meas V n)
    (u : Inp U) :
    e.advance (widen act D x) y (some u) = (e.advance x y (some u)).map (widen act D) := by
  have hx' : (widen act D x).state.stamp = some t := hx
  unfold EkfEnv.advance
  simp only [hx, hx']
  cases y.stamp with
  | none => rfl
  | some ty =>
    dsimp only
    split_ifs with h1 h2
    · rfl
    · exact widen_predict hp hD hx u _
    · rfl

theorem advance_stamped {x : SWC V n} {t : ℝ} (hx : x.state.stamp = some t) {y : Meas V n} {u : Inp U} {x' : SWC V n}
    (h : e.advance x y (some u) = .ok x') : ∃ t, x'.state.stamp = some t := by
  unfold EkfEnv.advance at h
  simp only [hx] at h
  cases hy : y.stamp with
  | none =>
    rw [hy] at h
    obtain rfl : x = x' := by simpa using h
    exact ⟨t, hx⟩
  | some ty =>
    rw [hy] at h
    dsimp only at h
    split_ifs at h with h1 h2
    · exact predict_stamped hx h
    · obtain rfl : x = x' := by simpa using h
      exact ⟨t, hx⟩

theorem fuse_stamp {x : SWC V n} {y : Meas V n} {rej : Bool} {r : SWC V n × Option CorrectDetails}
    (h : e.fuse x y none rej = .ok r) : r.1.state.stamp = x.state.stamp := by
  obtain ⟨x', d⟩ := r
  rcases fuse_cases e x y none rej x' d h with rfl | ⟨yc, _, hd, rfl⟩
  · rfl
  · rfl

theorem widen_correct (hp : UnseenProcess e.proc act D) (hc : ∀ v t dx, e.plus (act t v) dx = act t (e.plus v dx)) (hD : ∀ t, (D t)ᵀ = D t)
    {x : SWC V n} {t : ℝ} (hx : x.state.stamp = some t) {y : Meas V n} (hy : UnseenBy y.model act D) (u : Inp U) :
    e.correct (widen act D x) y (some u) none none = (e.correct x y (some u) none none).map (widen act D) := by
  unfold EkfEnv.correct EkfEnv.correctD
  rw [widen_advance hp hD hx y u]
  cases h : e.advance x y (some u) with
  | error er => rfl
  | ok x1 =>
    obtain ⟨t1, h1⟩ := advance_stamped hx h
    obtain ⟨⟨v, s⟩, P⟩ := x1
    obtain rfl : s = some t1 := h1
    show Except.map Prod.fst (e.fuse (widen act D ⟨⟨v, some t1⟩, P⟩) y none _) = Except.map _ (Except.map Prod.fst (e.fuse _ y none _))
    rw [widen_fuse hc hD hy]
    cases e.fuse ⟨⟨v, some t1⟩, P⟩ y none (none.getD e.rejectOutliers) <;> rfl

theorem correct_stamped {x : SWC V n} {t : ℝ} (hx : x.state.stamp = some t) {y : Meas V n} {u : Inp U} {x' : SWC V n}
    (h : e.correct x y (some u) none none = .ok x') : ∃ t, x'.state.stamp = some t := by
  unfold EkfEnv.correct EkfEnv.correctD at h
  cases h1 : e.advance x y (some u) with
  | error er => rw [h1] at h; simp [bind, Except.bind, Except.map] at h
  | ok x1 =>
    rw [h1] at h
    obtain ⟨t1, h2⟩ := advance_stamped hx h1
    change Except.map Prod.fst (e.fuse x1 y none _) = _ at h
    cases h3 : e.fuse x1 y none ((none : Option Bool).getD e.rejectOutliers) with
    | error er => rw [h3] at h; simp [Except.map] at h
    | ok r =>
      rw [h3] at h
      obtain rfl : r.1 = x' := by simpa [Except.map] using h
      exact ⟨t1, (fuse_stamp h3).trans h2⟩

theorem exrel_map {α : Type} {R : α → Prop} {g : α → α} {a : Except Err α} (h : ∀ x, a = .ok x → R x) :
    ExRel (fun x x' => x' = g x ∧ R x) a (a.map g) := by
  cases a with
  | error e => rfl
  | ok x => exact ⟨rfl, h x rfl⟩

theorem exrel_self {α : Type} {R : α → Prop} {a : Except Err α} (h : ∀ x, a = .ok x → R x) :
    ExRel (fun x x' => x' = x ∧ R x) a a := by
  cases a with
  | error e => rfl
  | ok x => exact ⟨rfl, h x rfl⟩

theorem widen_sim (hp : UnseenProcess e.proc act D) (hc : ∀ v t dx, e.plus (act t v) dx = act t (e.plus v dx)) (hD : ∀ t, (D t)ᵀ = D t) :
    FilterSim (ekfApi e) (ekfApi e) 0 (fun x x' => x' = widen act D x ∧ ∃ t, x.state.stamp = some t) Eq
      (fun y y' => y' = y ∧ UnseenBy y.meas.model act D) := by
  refine ⟨?_, ?_, ?_, ?_, ?_⟩
  · rintro x _ ⟨rfl, t, ht⟩
    show x.state.stamp = (x.state.stamp).map (· + 0)
    cases x.state.stamp <;> simp
  · rintro u _ rfl
    exact (add_zero _).symm
  · rintro y _ ⟨rfl, _⟩
    exact (add_zero _).symm
  · rintro x _ u _ dt ⟨rfl, t, ht⟩ rfl
    show ExRel _ (e.predict x _ _ none) (e.predict (widen act D x) _ _ none)
    rw [widen_predict hp hD ht]
    exact exrel_map fun x' h => predict_stamped ht h
  · rintro x _ u _ y _ ⟨rfl, t, ht⟩ rfl ⟨rfl, hy⟩
    show ExRel _ (e.correct x _ _ none none) (e.correct (widen act D x) _ _ none none)
    rw [widen_correct hp hc hD ht hy]
    exact exrel_map fun x' h => correct_stamped ht h

/-- C124: adding unseen uncertainty to the initial estimate, and moving it by an unseen motion, does not change what
`run_filter` makes of the data: every reported estimate is moved in the same way and has the same uncertainty added, carried along by
the process model, and nothing else changes. -/
theorem C124_run (hp : UnseenProcess e.proc act D) (hc : ∀ v t dx, e.plus (act t v) dx = act t (e.plus v dx)) (hD : ∀ t, (D t)ᵀ = D t)
    (x0 : SWC V n) (ins : List (StInp U)) (meas : List (StMeas V n)) (hm : ∀ y ∈ meas, UnseenBy y.meas.model act D) :
    runFilter (ekfApi e) (widen act D x0) ins meas = (runFilter (ekfApi e) x0 ins meas).map (List.map (widen act D)) := by
  cases ht : x0.state.stamp with
  | none =>
    have h1 : (ekfApi e).xstamp x0 = none := ht
    have h2 : (ekfApi e).xstamp (widen act D x0) = none := ht
    unfold runFilter
    rw [h1, h2]
    rfl
  | some t0 =>
    have hi : List.Forall₂ Eq ins ins := List.forall₂_same.mpr fun _ _ => rfl
    have hy : List.Forall₂ (fun y y' => y' = y ∧ UnseenBy y.meas.model act D) meas meas := List.forall₂_same.mpr fun y hy => ⟨rfl, hm y hy⟩
    have := (widen_sim hp hc hD).runFilter (x0 := x0) ⟨rfl, t0, ht⟩ hi hy
    revert this
    cases runFilter (ekfApi e) x0 ins meas with
    | error er =>
      cases runFilter (ekfApi e) (widen act D x0) ins meas with
      | error er' => rintro rfl; rfl
      | ok rs => exact False.elim
    | ok rs =>
      cases runFilter (ekfApi e) (widen act D x0) ins meas with
      | error er' => exact False.elim
      | ok rs' =>
        intro h
        show Except.ok rs' = Except.ok (rs.map _)
        congr 1
        change List.Forall₂ _ rs rs' at h
        induction h with
        | nil => rfl
        | cons h1 _ ih => rw [List.map_cons, ih, h1.1]

/-- C124: along what it cannot see the filter never becomes more certain than it was: if the initial covariance exceeds the unseen
uncertainty, so does every reported one. -/
theorem C124_never_learned (hp : UnseenProcess e.proc (fun _ v => v) D) (hD : ∀ t, (D t)ᵀ = D t)
    (hQ : ∀ x u dt, 0 ≤ dt → (e.proc.covariance x u dt).PosSemidef) (v : V) (t0 : ℝ) (P0 : Mat n n) (hP : (P0 - D t0).PosSemidef)
    (ins : List (StInp U)) (meas : List (StMeas V n)) (hm : ∀ y ∈ meas, UnseenBy y.meas.model (fun _ v => v) D)
    (hR : ∀ y ∈ meas, ∀ s, (y.meas.model.covariance s).PosSemidef) (rs : List (SWC V n))
    (h : runFilter (ekfApi e) ⟨⟨v, some t0⟩, P0⟩ ins meas = .ok rs) :
    ∀ r ∈ rs, ∃ t, r.state.stamp = some t ∧ (r.cov - D t).PosSemidef := by
  have h0 : (⟨⟨v, some t0⟩, P0⟩ : SWC V n) = widen (fun _ v => v) D ⟨⟨v, some t0⟩, P0 - D t0⟩ := by
    unfold widen
    simp
  rw [h0, C124_run hp (fun _ _ _ => rfl) hD _ ins meas hm] at h
  have hsim : FilterSim (ekfApi e) (ekfApi e) 0 (fun x x' => x' = x ∧ (∃ t, x.state.stamp = some t) ∧ x.cov.PosSemidef) Eq
      (fun y y' => y' = y ∧ ∀ s, (y.meas.model.covariance s).PosSemidef) := by
    refine ⟨?_, ?_, ?_, ?_, ?_⟩
    · rintro _ x ⟨rfl, -⟩
      show x.state.stamp = (x.state.stamp).map (· + 0)
      cases x.state.stamp <;> simp
    · rintro u _ rfl
      exact (add_zero _).symm
    · rintro y _ ⟨rfl, _⟩
      exact (add_zero _).symm
    · rintro _ x u _ dt ⟨rfl, ⟨t, ht⟩, hx⟩ rfl
      show ExRel _ (e.predict x _ _ none) (e.predict x _ _ none)
      exact exrel_self (R := fun x : SWC V n => (∃ t, x.state.stamp = some t) ∧ x.cov.PosSemidef)
        (a := e.predict x (some ⟨u.value, some u.stamp⟩) (some dt) none) fun x' h => ⟨predict_stamped ht h, predict_psd e hQ x _ _ _ x' hx h⟩
    · rintro _ x u _ _ y ⟨rfl, ⟨t, ht⟩, hx⟩ rfl ⟨rfl, hy⟩
      show ExRel _ (e.correct x _ _ none none) (e.correct x _ _ none none)
      exact exrel_self (R := fun x : SWC V n => (∃ t, x.state.stamp = some t) ∧ x.cov.PosSemidef)
        (a := e.correct x y.meas (some ⟨u.value, some u.stamp⟩) none none) fun x' h => ⟨correct_stamped ht h, by
          refine C01_ekf_history_psd e hQ [.correct y.meas (some ⟨u.value, some u.stamp⟩) none none] ?_ x hx x' ?_
          · intro y' u' xj rj hmem s
            rw [List.mem_singleton] at hmem
            cases hmem
            exact hy s
          · show (e.correct x y.meas _ none none >>= pure) = _
            rw [h]
            rfl⟩
  have hi : List.Forall₂ Eq ins ins := List.forall₂_same.mpr fun _ _ => rfl
  have hy : List.Forall₂ (fun y y' => y' = y ∧ ∀ s, (y.meas.model.covariance s).PosSemidef) meas meas :=
    List.forall₂_same.mpr fun y hy => ⟨rfl, hR y hy⟩
  have hrun := hsim.runFilter (x0 := ⟨⟨v, some t0⟩, P0 - D t0⟩) ⟨rfl, ⟨t0, rfl⟩, hP⟩ hi hy
  cases h1 : runFilter (ekfApi e) ⟨⟨v, some t0⟩, P0 - D t0⟩ ins meas with
  | error er => rw [h1] at h; simp [Except.map] at h
  | ok rs' =>
    rw [h1] at h
    rw [h1] at hrun
    obtain rfl : rs'.map (widen (fun _ v => v) D) = rs := by simpa [Except.map] using h
    change List.Forall₂ _ rs' rs' at hrun
    rw [List.forall₂_same] at hrun
    intro r hr
    obtain ⟨x, hx, rfl⟩ := List.mem_map.mp hr
    obtain ⟨-, ⟨t, ht⟩, hpsd⟩ := hrun x hx
    refine ⟨t, ht, ?_⟩
    unfold widen
    rw [ht]
    simpa using hpsd

end ekf

/-! ### Linear systems -/

/-- C124 for linear systems. Let the columns of `N t` be directions of the state that the system carries along, `A (N t) = N (t + dt)`,
and that no measurement sees, `C (N t) = 0`. Then a filter initialised elsewhere along these directions and less certain of them reports
the same estimates, moved along the directions by as much and less certain by as much. -/
theorem C124_linear (A : Inp U → ℝ → Mat n n) (b : Inp U → ℝ → Vec n) (Q : Inp U → ℝ → Mat n n) (rej : Bool) (chi : ℕ → ℝ)
    (N : ℝ → Mat n k) (hA : ∀ u t dt, 0 ≤ dt → A u dt * N t = N (t + dt)) (a : Vec k) (W : Mat k k) (hW : Wᵀ = W)
    (x0 : Vec n) (t0 : ℝ) (P0 : Mat n n) (ins : List (StInp U)) (meas : List (StMeas (Vec n) n))
    (hm : ∀ y ∈ meas, ∃ (m : ℕ) (C : Mat m n) (R : Mat m m) (v : Vec m) (s : ℝ),
      y = ⟨linMeas C R v (some s), s, rfl⟩ ∧ ∀ t, C * N t = 0) :
    runFilter (ekfApi (vecEnv (linProcModel A b Q) rej chi)) ⟨⟨x0 + N t0 *ᵥ a, some t0⟩, P0 + N t0 * W * (N t0)ᵀ⟩ ins meas
      = (runFilter (ekfApi (vecEnv (linProcModel A b Q) rej chi)) ⟨⟨x0, some t0⟩, P0⟩ ins meas).map
          (List.map (widen (fun t v => v + N t *ᵥ a) (fun t => N t * W * (N t)ᵀ))) := by
  refine C124_run (e := vecEnv (linProcModel A b Q) rej chi) (act := fun t v => v + N t *ᵥ a) (D := fun t => N t * W * (N t)ᵀ)
    ⟨?_, fun _ _ _ _ _ => rfl, fun _ _ _ _ _ => rfl, ?_⟩ (fun v t dx => add_right_comm _ _ _) (fun t => ?_) ⟨⟨x0, some t0⟩, P0⟩ ins meas ?_
  · intro v t u dt hdt
    show A u dt *ᵥ (v + N t *ᵥ a) + b u dt = A u dt *ᵥ v + b u dt + N (t + dt) *ᵥ a
    rw [mulVec_add, mulVec_mulVec, hA u t dt hdt]
    abel
  · intro v t u dt hdt
    show A u dt * (N t * W * (N t)ᵀ) * (A u dt)ᵀ = N (t + dt) * W * (N (t + dt))ᵀ
    rw [← hA u t dt hdt, transpose_mul]
    simp only [Matrix.mul_assoc]
  · rw [transpose_mul, transpose_mul, transpose_transpose, hW, Matrix.mul_assoc]
  · intro y hy
    obtain ⟨m, C, R, v, s, rfl, hC⟩ := hm y hy
    refine ⟨fun v t => ?_, fun _ _ => rfl, fun _ _ => rfl, fun v t => ?_⟩
    · show some (C *ᵥ (v + N t *ᵥ a)) = some (C *ᵥ v)
      rw [mulVec_add, mulVec_mulVec, hC, zero_mulVec, add_zero]
    · show C * (N t * W * (N t)ᵀ) = 0
      rw [Matrix.mul_assoc, ← Matrix.mul_assoc, hC, Matrix.zero_mul]

/-- C124's hypotheses are met: a vehicle with position and velocity whose velocity only is measured. -/
example (x0 : Vec 2) (ins : List (StInp Unit)) (z : Vec 1) :
    runFilter (ekfApi (vecEnv (linProcModel (fun _ dt => !![1, dt; 0, 1]) (fun _ _ => 0) (fun _ _ => 1)) true fun _ => 4))
        ⟨⟨x0 + !![1; 0] *ᵥ ![7], some 0⟩, 1 + (!![1; 0] : Mat 2 1) * (!![9] : Mat 1 1) * (!![1; 0] : Mat 2 1)ᵀ⟩ ins [⟨linMeas !![0, 1] 1 z (some 1), 1, rfl⟩]
      = (runFilter (ekfApi (vecEnv (linProcModel (fun _ dt => !![1, dt; 0, 1]) (fun _ _ => 0) (fun _ _ => 1)) true fun _ => 4))
          ⟨⟨x0, some 0⟩, 1⟩ ins [⟨linMeas !![0, 1] 1 z (some 1), 1, rfl⟩]).map
          (List.map (widen (fun _ v => v + !![1; 0] *ᵥ ![7]) (fun _ => (!![1; 0] : Mat 2 1) * (!![9] : Mat 1 1) * (!![1; 0] : Mat 2 1)ᵀ))) := by
  refine C124_linear (n := 2) (k := 1) (fun _ dt => !![1, dt; 0, 1]) (fun _ _ => 0) (fun _ _ => 1) true (fun _ => 4) (fun _ => !![1; 0])
    (fun u t dt _ => ?_) ![7] !![9] ?_ x0 0 1 ins _ fun y hy => ?_
  · ext i j
    fin_cases i <;> fin_cases j <;> simp
  · ext i j
    fin_cases i
    fin_cases j
    rfl
  · rw [List.mem_singleton.mp hy]
    refine ⟨1, !![0, 1], 1, z, 1, rfl, fun t => ?_⟩
    ext i j
    fin_cases i
    fin_cases j
    simp

/-- A nonlinear model meets them too: two positions on a line and the square of their distance; their common motion goes unseen. -/
example : UnseenBy (n := 2) (m := 1) ⟨fun x : St (Vec 2) => some fun _ => (x.value 0 - x.value 1) ^ 2,
      fun x : St (Vec 2) => !![2 * (x.value 0 - x.value 1), -(2 * (x.value 0 - x.value 1))], fun _ => 1⟩
    (fun _ v => v + fun _ => 5) (fun _ => !![3, 3; 3, 3]) ∧
    UnseenProcess (U := Unit) (linProcModel (n := 2) (fun _ _ => 1) (fun _ dt => ![dt, -dt]) (fun _ _ => 1)) (fun _ v => v + fun _ => 5)
      (fun _ => !![3, 3; 3, 3]) := by
  constructor
  · refine ⟨fun v t => ?_, fun v t => ?_, fun _ _ => rfl, fun v t => ?_⟩
    · simp
    · simp
    · ext i j
      fin_cases i
      fin_cases j <;> simp [mul_apply] <;> ring
  · refine ⟨fun v t u dt _ => ?_, fun _ _ _ _ _ => rfl, fun _ _ _ _ _ => rfl, fun v t u dt _ => ?_⟩
    · show (1 : Mat 2 2) *ᵥ (v + fun _ => 5) + _ = (1 : Mat 2 2) *ᵥ v + _ + _
      rw [one_mulVec, one_mulVec]
      exact add_right_comm _ _ _
    · show (1 : Mat 2 2) * _ * (1 : Mat 2 2)ᵀ = _
      rw [transpose_one, Matrix.mul_one, Matrix.one_mul]

end Verif
