import Verif.Props.BatchEqualsFilter
import Verif.Lemmas.Still

/-!
C102: `BatchEstimator.solve` on data without noise.
-/

namespace Verif

set_option linter.unusedVariables false
set_option linter.unusedSectionVars false

open Matrix

variable {V U : Type} {n : ℕ}

/-! ### Specification -/

/-- Specification: the state at the stamp of `u'`, one step of the process model after the state `x` at the stamp of
`u`. -/
noncomputable def reckon (f : ProcModel V U n) (x : St V) (u u' : StInp U) : St V :=
  ⟨(f.evaluate x ⟨u.value, some u.stamp⟩ (u'.stamp - u.stamp)).value, some u'.stamp⟩

/-- Specification: dead reckoning, one state for each input. -/
noncomputable def deadReckon (f : ProcModel V U n) : St V → List (StInp U) → List (St V)
  | _, [] => []
  | x, [_] => [x]
  | x, u :: u' :: us => x :: deadReckon f (reckon f x u u') (u' :: us)

/-- Specification: the process terms of an error trajectory `D`, linearized at the dead reckoning from `x`. -/
noncomputable def errProc (f : ProcModel V U n) (D : ℕ → Vec n) : ℕ → St V → List (StInp U) → ℝ
  | k, x, u :: u' :: us =>
    mahal (f.covariance x ⟨u.value, some u.stamp⟩ (u'.stamp - u.stamp))
      (D (k + 1) - f.jacobian x ⟨u.value, some u.stamp⟩ (u'.stamp - u.stamp) *ᵥ D k)
      + errProc f D (k + 1) (reckon f x u u') (u' :: us)
  | _, _, _ => 0

/-- Specification: the term of a measurement of state number `k`, linearized at the true state. -/
noncomputable def errMeas (D : ℕ → Vec n) (T : List (St V)) (k : ℕ) (y : StMeas V n) : ℝ :=
  match T[k]? with
  | none => 0
  | some x => mahal (y.meas.model.covariance x) (y.meas.model.jacobian x *ᵥ D k)

open Classical in
/-- Specification: twice the negative logarithm (up to a constant) of the posterior of the errors `D 0`, `D 1`, ... of
the states, linearized at the dead reckoned trajectory: prior, process terms, measurement terms, without data. -/
noncomputable def errorObjective (f : ProcModel V U n) (x0 : St V) (P0 : Mat n n) (us : List (StInp U))
    (meas : List (StMeas V n)) (D : ℕ → Vec n) : ℝ :=
  mahal P0 (D 0) + errProc f D 0 x0 us +
    (meas.map fun y => errMeas D (deadReckon f x0 us) ((us.map StInp.stamp).idxOf y.stamp) y).sum

/-- Specification: `y` is what its model returns for the state of the trajectory `T` at its stamp, and the covariance of
the model there is positive definite. -/
def TrueMeas (us : List (StInp U)) (T : List (St V)) (y : StMeas V n) : Prop :=
  ∃ (k : ℕ) (u : StInp U) (x : St V), us[k]? = some u ∧ T[k]? = some x ∧ u.stamp = y.stamp ∧
    y.meas.model.evaluate x = some y.meas.value ∧ (y.meas.model.covariance x).PosDef

/-! ### Dead reckoning -/

theorem deadReckon_length (f : ProcModel V U n) : ∀ (us : List (StInp U)) (x : St V),
    (deadReckon f x us).length = us.length
  | [], x => rfl
  | [_], x => rfl
  | u :: u' :: us, x => by
    show (x :: deadReckon f (reckon f x u u') (u' :: us)).length = _
    rw [List.length_cons, deadReckon_length f (u' :: us)]
    rfl

theorem deadReckon_stamps (f : ProcModel V U n) : ∀ (us : List (StInp U)) (x : St V),
    (∀ u, us.head? = some u → x.stamp = some u.stamp) →
    (deadReckon f x us).map St.stamp = us.map fun u => some u.stamp
  | [], x, h => rfl
  | [u], x, h => by
    show [x.stamp] = [some u.stamp]
    rw [h u rfl]
  | u :: u' :: us, x, h => by
    show (x :: deadReckon f (reckon f x u u') (u' :: us)).map St.stamp = _
    rw [List.map_cons, deadReckon_stamps f (u' :: us) _ (fun v hv => by
      simp only [List.head?_cons, Option.some.injEq] at hv
      rw [← hv]; rfl), h u rfl]
    rfl

theorem deadReckon_head (f : ProcModel V U n) (u : StInp U) (us : List (StInp U)) (x : St V) :
    (deadReckon f x (u :: us))[0]? = some x := by
  cases us <;> rfl

/-- Propagation over the stamps of the inputs is dead reckoning. -/
theorem propagate_reckon {f : ProcModel V U n} (hf : KeepsStamp f) : ∀ (us pre : List (StInp U)) (u : StInp U)
    (x : St V) (xs : List (St V)), x.stamp = some u.stamp →
    batchPropagate f (pre ++ u :: us) ((pre ++ u :: us).map StInp.stamp) (us.map StInp.stamp) pre.length x = .ok xs →
    x :: xs = deadReckon f x (u :: us)
  | [], pre, u, x, xs, hx, h => by
    simp only [List.map_nil, batchPropagate] at h
    cases h
    rfl
  | u' :: us, pre, u, x, xs, hx, h => by
    rw [List.map_cons] at h
    unfold batchPropagate at h
    obtain ⟨w, h1, h⟩ := bind_ok h
    rw [stampDiff_ok hx, ok_bindE] at h
    obtain ⟨-, h2, h⟩ := bind_ok h
    rw [batchAdvance_ok hf hx, ok_bindE] at h
    obtain ⟨nxt, h3, h⟩ := bind_ok h
    obtain ⟨rest, h4, h⟩ := bind_ok h
    cases h
    have e1 : w = u := by
      have := pyGet_iff.1 h1
      rw [List.getElem?_append_right (le_refl _), Nat.sub_self] at this
      simpa using this.symm
    have e2 : nxt = u'.stamp := by
      have := pyGet_iff.1 h3
      rw [List.getElem?_map, List.getElem?_append_right (Nat.le_succ _)] at this
      simpa using this.symm
    subst e1 e2
    have e3 : batchNextIdx u'.stamp u'.stamp pre.length = (pre ++ [w]).length := by
      unfold batchNextIdx
      rw [if_neg (lt_irrefl _)]
      simp
    rw [e3] at h4
    have ee : pre ++ w :: u' :: us = (pre ++ [w]) ++ u' :: us := by simp
    rw [ee] at h4
    have hx' : (⟨(f.evaluate x ⟨w.value, some w.stamp⟩ (u'.stamp - w.stamp)).value,
        some (w.stamp + (u'.stamp - w.stamp))⟩ : St V) = reckon f x w u' := by
      unfold reckon
      congr 2
      ring
    rw [hx'] at h4 ⊢
    have ih := propagate_reckon hf us (pre ++ [w]) u' (reckon f x w u') rest rfl h4
    show x :: reckon f x w u' :: rest = x :: deadReckon f (reckon f x w u') (u' :: us)
    rw [ih]

open Classical in
/-- The graph that the estimator builds when all measurements are at stamps of inputs. -/
theorem graph_form (f : ProcModel V U n) (hf : KeepsStamp f) (rnd : ℝ → ℝ) (x0 : St V) (t0 : ℝ)
    (h0 : x0.stamp = some t0) (P0 : Mat n n) (inputs : List (StInp U)) (meas : List (StMeas V n))
    (us : List (StInp U)) (hperm : us.Perm inputs) (hsort : us.Pairwise (fun a c => a.stamp < c.stamp))
    (h2 : 2 ≤ us.length) (hfirst : ∀ u, us.head? = some u → u.stamp = t0)
    (hr : ∀ u ∈ inputs, rnd u.stamp = u.stamp) (hm : ∀ y ∈ meas, ∃ u ∈ us, u.stamp = y.stamp) :
    batchGraph f rnd x0 P0 inputs meas = .ok ⟨deadReckon f x0 us, .prior 0 x0.value P0 :: procFactors 0 us ++
      (sortByStamp StMeas.stamp meas).map fun y => .meas ((us.map StInp.stamp).idxOf y.stamp) y⟩ := by
  have hle : ∀ u ∈ us, t0 ≤ u.stamp := by
    cases us with
    | nil => simp
    | cons u us =>
      have h := hfirst u rfl
      intro v hv
      rcases List.mem_cons.1 hv with rfl | hv
      · exact h.symm.le
      · rw [← h]; exact ((List.pairwise_cons.1 hsort).1 v hv).le
  have hru : ∀ u ∈ us, rnd u.stamp = u.stamp := fun u hu => hr u (hperm.mem_iff.1 hu)
  have hus : batchUsed StInp.stamp t0 inputs = us := by
    rw [batchUsed_all _ _ _ fun u hu => hle u (hperm.mem_iff.2 hu), sort_eq hperm hsort]
  have hys : batchUsed StMeas.stamp t0 meas = sortByStamp StMeas.stamp meas :=
    batchUsed_all _ _ _ fun y hy => by
      obtain ⟨u, hu, h⟩ := hm y hy
      rw [← h]; exact hle u hu
  set ys := sortByStamp StMeas.stamp meas with hysd
  have hyp : ys.Perm meas := sortByStamp_perm _ _
  have hym : ∀ y ∈ ys, ∃ u ∈ us, u.stamp = y.stamp := fun y hy => hm y (hyp.mem_iff.1 hy)
  have hst : batchStamps rnd us ys = us.map StInp.stamp := stamps_eq hsort hru hym
  have hss : (us.map StInp.stamp).Pairwise (· < ·) := by rw [List.pairwise_map]; exact hsort
  have hrs : us.map (fun u => rnd u.stamp) = us.map StInp.stamp := List.map_congr_left fun u hu => hru u hu
  obtain ⟨g, hg⟩ := C46_succeeds f hf rnd x0 t0 h0 P0 inputs meas us hus.symm ys hys.symm h2
    (by rw [hrs]; exact hss)
    ⟨fun u hu => by rw [hru u hu]; exact hle u hu, fun y hy => by
      obtain ⟨u, hu, h⟩ := hym y hy
      rw [← h, hru u hu]; exact hle u hu⟩
    (fun y hy => by
      obtain ⟨u, hu, h⟩ := hym y hy
      exact ⟨u, hu, by rw [h]⟩)
  rw [hg]
  obtain ⟨s0, ss, xs, ps, ms, g1, g2, g3, g4, rfl⟩ := batchGraph_parts h0 hg
  rw [hus, hys, hst] at g1
  rw [hus] at g3 g2
  rw [hys] at g4
  rw [← g1] at g3 g4
  have hps := batchProcess_idx hss us 0 ps (by simp) g3
  have hms := batchMeas_idx hss ys ms (fun y hy => by
    obtain ⟨u, hu, h⟩ := hym y hy
    exact List.mem_map.2 ⟨u, hu, h⟩) g4
  rw [hrs] at g2
  cases us with
  | nil => simp at h2
  | cons u us =>
    have e : ss = us.map StInp.stamp := by
      simp only [List.map_cons, List.cons.injEq] at g1
      exact g1.2.symm
    rw [e] at g2
    have hd := propagate_reckon hf us [] u x0 xs (by rw [h0, hfirst u rfl]) g2
    rw [hd, hps, hms]

/-! ### The linear problem of the errors -/

/-- The transition matrix at the true state; the inputs of the linear problem carry the true state. -/
def errA (f : ProcModel V U n) : Inp (U × V) → ℝ → Mat n n := fun u dt =>
  f.jacobian ⟨u.value.2, u.stamp⟩ ⟨u.value.1, u.stamp⟩ dt

/-- The covariance at the true state. -/
def errQ (f : ProcModel V U n) : Inp (U × V) → ℝ → Mat n n := fun u dt =>
  f.covariance ⟨u.value.2, u.stamp⟩ ⟨u.value.1, u.stamp⟩ dt

/-- The linear process model of the errors. -/
def errModel (f : ProcModel V U n) : ProcModel (Vec n) (U × V) n := linProcModel (errA f) (fun _ _ => 0) (errQ f)

/-- The inputs of the linear problem. -/
noncomputable def errInputs (f : ProcModel V U n) : St V → List (StInp U) → List (StInp (U × V))
  | _, [] => []
  | x, [u] => [⟨(u.value, x.value), u.stamp⟩]
  | x, u :: u' :: us => ⟨(u.value, x.value), u.stamp⟩ :: errInputs f (reckon f x u u') (u' :: us)

/-- The measurement of the linear problem that stands for the measurement `y` of the state `x`: zero, with the Jacobian
and the covariance at `x`. -/
def linY (x : St V) (y : StMeas V n) : StMeas (Vec n) n :=
  ⟨linMeas (y.meas.model.jacobian x) (y.meas.model.covariance x) 0 (some y.stamp), y.stamp, rfl⟩

open Classical in
/-- The measurement of the linear problem that stands for `y`. -/
noncomputable def errY (us : List (StInp U)) (T : List (St V)) (x0 : St V) (y : StMeas V n) : StMeas (Vec n) n :=
  linY ((T[(us.map StInp.stamp).idxOf y.stamp]?).getD x0) y

theorem errInputs_stamps (f : ProcModel V U n) : ∀ (us : List (StInp U)) (x : St V),
    (errInputs f x us).map StInp.stamp = us.map StInp.stamp
  | [], x => rfl
  | [_], x => rfl
  | u :: u' :: us, x => by
    show (⟨(u.value, x.value), u.stamp⟩ :: errInputs f (reckon f x u u') (u' :: us) : List (StInp (U × V))).map _ = _
    rw [List.map_cons, errInputs_stamps f (u' :: us)]
    rfl

theorem errInputs_head (f : ProcModel V U n) (u : StInp U) (us : List (StInp U)) (x : St V) :
    ∃ l, errInputs f x (u :: us) = ⟨(u.value, x.value), u.stamp⟩ :: l := by
  cases us with
  | nil => exact ⟨[], rfl⟩
  | cons u' us => exact ⟨errInputs f (reckon f x u u') (u' :: us), rfl⟩

/-- Dead reckoning of the errors: all zero. -/
theorem deadReckon_zero (f : ProcModel V U n) : ∀ (us : List (StInp (U × V))) (t : ℝ),
    (∀ u, us.head? = some u → u.stamp = t) →
    deadReckon (errModel f) ⟨0, some t⟩ us = us.map fun u => ⟨0, some u.stamp⟩
  | [], t, h => rfl
  | [u], t, h => by
    show [(⟨0, some t⟩ : St (Vec n))] = [⟨0, some u.stamp⟩]
    rw [h u rfl]
  | u :: u' :: us, t, h => by
    have e : reckon (errModel f) ⟨0, some t⟩ u u' = ⟨0, some u'.stamp⟩ := by
      unfold reckon
      congr 1
      show errA f _ _ *ᵥ (0 : Vec n) + 0 = 0
      rw [mulVec_zero, add_zero]
    show (⟨0, some t⟩ : St (Vec n)) :: deadReckon (errModel f) (reckon (errModel f) ⟨0, some t⟩ u u') (u' :: us) = _
    rw [e, deadReckon_zero f (u' :: us) u'.stamp (fun v hv => by
      simp only [List.head?_cons, Option.some.injEq] at hv
      rw [← hv])]
    simp only [List.map_cons, h u rfl]

/-- The process terms of the linear problem. -/
theorem errProc_eq (f : ProcModel V U n) (D : ℕ → Vec n) : ∀ (us : List (StInp U)) (k : ℕ) (x : St V),
    (∀ u, us.head? = some u → x.stamp = some u.stamp) →
    procCost (errA f) (fun _ _ => 0) (errQ f) D k (errInputs f x us) = errProc f D k x us
  | [], k, x, h => rfl
  | [_], k, x, h => rfl
  | u :: u' :: us, k, x, h => by
    have ih := errProc_eq f D (u' :: us) (k + 1) (reckon f x u u') (fun v hv => by
      simp only [List.head?_cons, Option.some.injEq] at hv
      rw [← hv]; rfl)
    obtain ⟨l, hl⟩ := errInputs_head f u' us (reckon f x u u')
    have hx : (⟨x.value, some u.stamp⟩ : St V) = x := by rw [← h u rfl]
    have e : errInputs f x (u :: u' :: us) =
      ⟨(u.value, x.value), u.stamp⟩ :: errInputs f (reckon f x u u') (u' :: us) := rfl
    rw [hl] at ih
    rw [e, hl]
    show mahal (f.covariance ⟨x.value, some u.stamp⟩ ⟨u.value, some u.stamp⟩ (u'.stamp - u.stamp))
      (D (k + 1) - (f.jacobian ⟨x.value, some u.stamp⟩ ⟨u.value, some u.stamp⟩ (u'.stamp - u.stamp) *ᵥ D k + 0)) +
      procCost (errA f) (fun _ _ => 0) (errQ f) D (k + 1) _ = _
    rw [ih, hx, add_zero]
    rfl

theorem measTerm_linY (D : ℕ → Vec n) (k : ℕ) (x : St V) (y : StMeas V n) :
    measTerm D k (linY x y) = mahal (y.meas.model.covariance x) (y.meas.model.jacobian x *ᵥ D k) := by
  show mahal (y.meas.model.covariance x) (0 - y.meas.model.jacobian x *ᵥ D k) = _
  rw [zero_sub]
  unfold mahal
  rw [mulVec_neg, neg_dotProduct, dotProduct_neg, neg_neg]

/-! ### Corresponding factors -/

/-- The relation between the variables: a zero error, and the true state. -/
def ErrRel (T : List (St V)) (k : ℕ) (z : St (Vec n)) (x : St V) : Prop := T[k]? = some x ∧ z = ⟨0, x.stamp⟩

/-- Corresponding factors. -/
def FacRel (f : ProcModel V U n) (T : List (St V)) : BFactor (Vec n) (U × V) n → BFactor V U n → Prop
  | .prior k z P', .prior k' x0 P => k = k' ∧ z = 0 ∧ P' = P ∧ ∃ s, T[k]? = some ⟨x0, s⟩
  | .process k1 k2 w, .process k1' k2' u => k1 = k1' ∧ k2 = k2' ∧ ∃ v u'', w = ⟨(u.value, v), u.stamp⟩ ∧
      T[k1]? = some ⟨v, some u.stamp⟩ ∧ T[k2]? = some (reckon f ⟨v, some u.stamp⟩ u u'')
  | .meas k y', .meas k' y => k = k' ∧ ∃ x, T[k]? = some x ∧ y.meas.model.evaluate x = some y.meas.value ∧ y' = linY x y
  | _, _ => False

/-- What residuals and Jacobians of a state class satisfy at zero difference. -/
structure ZeroLaws (o : StateOps V n) : Prop where
  plus : ∀ v, o.plus v 0 = v
  minus : ∀ v, o.minus v v = 0
  minusJac : ∀ v, o.minusJac v v = 1

theorem fac_res {o : StateOps V n} (ho : ZeroLaws o) {f : ProcModel V U n} {T : List (St V)}
    {fac' : BFactor (Vec n) (U × V) n} {fac : BFactor V U n} (h : FacRel f T fac' fac) {r' : Residual ℕ (St (Vec n))}
    (hr : fac'.residual (vecStateOps n) (errModel f) = .ok r') :
    ∃ r, fac.residual o f = .ok r ∧ ResRel (ErrRel T) r' r ∧
      ∀ xs xs' err, StatesRel (ErrRel T) r'.keys xs xs' → r'.error xs = .ok err → ∀ z ∈ err, z = 0 := by
  cases fac' with
  | prior k z P' =>
    cases fac with
    | process => exact h.elim
    | meas => exact h.elim
    | prior k' x0 P =>
      obtain ⟨rfl, rfl, rfl, s, hs⟩ := h
      simp only [BFactor.residual, PriorRes.new] at hr ⊢
      cases hL : sqrtInformation P' with
      | error e => rw [hL] at hr; cases hr
      | ok L =>
        rw [hL] at hr
        cases hr
        have key : ∀ xs xs', StatesRel (ErrRel (n := n) T) [k] xs xs' → xs = [⟨0, s⟩] ∧ xs' = [⟨x0, s⟩] := by
          intro xs xs' hx
          obtain ⟨a, a', rfl, rfl, h1, h2⟩ := statesRel_one hx
          rw [hs] at h1
          obtain rfl := Option.some.inj h1
          exact ⟨by rw [h2], rfl⟩
        refine ⟨_, rfl, ⟨rfl, ?_, ?_⟩, ?_⟩
        · intro xs xs' hx
          obtain ⟨rfl, rfl⟩ := key xs xs' hx
          show Except.ok (List.ofFn (Lᵀ *ᵥ ((0 : Vec n) - 0))) = Except.ok (List.ofFn (Lᵀ *ᵥ o.minus x0 x0))
          rw [ho.minus, sub_zero]
        · intro xs xs' fl hx hfl
          obtain ⟨rfl, rfl⟩ := key xs xs' hx
          obtain ⟨a, rfl⟩ := bools_one hfl
          show Except.ok [Option.map DMat.ofMat (whenAsked a (Lᵀ * (1 : Mat n n)))] =
            Except.ok [Option.map DMat.ofMat (whenAsked a (Lᵀ * o.minusJac x0 x0))]
          rw [ho.minusJac]
        · intro xs xs' err hx he
          obtain ⟨rfl, rfl⟩ := key xs xs' hx
          have : err = List.ofFn (Lᵀ *ᵥ ((0 : Vec n) - 0)) := (Except.ok.inj he).symm
          rw [this, sub_zero, mulVec_zero]
          simp [List.mem_ofFn]
  | process k1 k2 w =>
    cases fac with
    | prior => exact h.elim
    | meas => exact h.elim
    | process k1' k2' u =>
      obtain ⟨rfl, rfl, v, u'', rfl, h1, h2⟩ := h
      cases hr
      have key : ∀ xs xs', StatesRel (ErrRel (n := n) T) [k1, k2] xs xs' → xs = [⟨0, some u.stamp⟩, ⟨0, some u''.stamp⟩] ∧
          xs' = [⟨v, some u.stamp⟩, reckon f ⟨v, some u.stamp⟩ u u''] := by
        intro xs xs' hx
        obtain ⟨a, c, a', c', rfl, rfl, ⟨g1, g2⟩, ⟨g3, g4⟩⟩ := statesRel_two hx
        rw [h1] at g1
        rw [h2] at g3
        obtain rfl := Option.some.inj g1
        obtain rfl := Option.some.inj g3
        exact ⟨by rw [g2, g4]; rfl, rfl⟩
      set dt := u''.stamp - u.stamp with hdt
      have hev : ∀ cj, processResidual (vecStateOps n) (errModel f) ⟨(u.value, v), some u.stamp⟩
          [⟨0, some u.stamp⟩, ⟨0, some u''.stamp⟩] cj =
          processResidual o f ⟨u.value, some u.stamp⟩ [⟨v, some u.stamp⟩, reckon f ⟨v, some u.stamp⟩ u u''] cj ∧
          ∀ out, processResidual (vecStateOps n) (errModel f) ⟨(u.value, v), some u.stamp⟩
          [⟨0, some u.stamp⟩, ⟨0, some u''.stamp⟩] cj = .ok out → out.error = 0 := by
        intro cj
        have hs : sqrtInformation ((errModel f).covariance (⟨0, some u.stamp⟩ : St (Vec n)) ⟨(u.value, v), some u.stamp⟩ dt) =
            sqrtInformation (f.covariance ⟨v, some u.stamp⟩ ⟨u.value, some u.stamp⟩ dt) := rfl
        unfold processResidual
        simp only [pyGet, List.getElem?_cons_zero, List.getElem?_cons_succ, bind, Except.bind, stampDiff, reckon,
          ← hdt]
        rw [hs]
        cases hL : sqrtInformation (f.covariance ⟨v, some u.stamp⟩ ⟨u.value, some u.stamp⟩ dt) with
        | error e => exact ⟨rfl, fun out ho => by cases ho⟩
        | ok L =>
          have e1 : (vecStateOps n).minus 0
              ((errModel f).evaluate (⟨0, some u.stamp⟩ : St (Vec n)) ⟨(u.value, v), some u.stamp⟩ dt).value = 0 := by
            show (0 : Vec n) - (errA f _ _ *ᵥ (0 : Vec n) + 0) = 0
            rw [mulVec_zero, add_zero, sub_zero]
          simp only [e1, ho.minus, ho.minusJac]
          have e2 : (vecStateOps n).minusJac 0
              ((errModel f).evaluate (⟨0, some u.stamp⟩ : St (Vec n)) ⟨(u.value, v), some u.stamp⟩ dt).value = 1 := rfl
          have e3 : (errModel f).jacobian (⟨0, some u.stamp⟩ : St (Vec n)) ⟨(u.value, v), some u.stamp⟩ dt =
            f.jacobian ⟨v, some u.stamp⟩ ⟨u.value, some u.stamp⟩ dt := rfl
          simp only [e2, e3]
          refine ⟨rfl, fun out hout => ?_⟩
          split at hout
          · obtain ⟨f0, -, hout⟩ := bind_ok hout
            obtain ⟨f1, -, hout⟩ := bind_ok hout
            cases hout
            simp only [mulVec_zero]
          · cases hout
            simp only [mulVec_zero]
      refine ⟨_, rfl, ⟨rfl, ?_, ?_⟩, ?_⟩
      · intro xs xs' hx
        obtain ⟨rfl, rfl⟩ := key xs xs' hx
        show (processResidual _ _ _ _ none).map _ = (processResidual _ _ _ _ none).map _
        rw [(hev none).1]
      · intro xs xs' fl hx hfl
        obtain ⟨rfl, rfl⟩ := key xs xs' hx
        show (processResidual _ _ _ _ (some fl)).map _ = (processResidual _ _ _ _ (some fl)).map _
        rw [(hev (some fl)).1]
      · intro xs xs' err hx he
        obtain ⟨rfl, rfl⟩ := key xs xs' hx
        have he' : (processResidual (vecStateOps n) (errModel f) ⟨(u.value, v), some u.stamp⟩
          [⟨0, some u.stamp⟩, ⟨0, some u''.stamp⟩] none).map (fun r => List.ofFn r.error) = .ok err := he
        cases ho' : processResidual (vecStateOps n) (errModel f) ⟨(u.value, v), some u.stamp⟩
          [⟨0, some u.stamp⟩, ⟨0, some u''.stamp⟩] none with
        | error e => rw [ho'] at he'; cases he'
        | ok out =>
          rw [ho'] at he'
          have : err = List.ofFn out.error := (Except.ok.inj he').symm
          rw [this, (hev none).2 out ho']
          simp [List.mem_ofFn]
  | meas k y' =>
    cases fac with
    | prior => exact h.elim
    | process => exact h.elim
    | meas k' y =>
      obtain ⟨rfl, x, h1, h2, rfl⟩ := h
      cases hr
      have key : ∀ xs xs', StatesRel (ErrRel (n := n) T) [k] xs xs' → xs = [⟨0, x.stamp⟩] ∧ xs' = [x] := by
        intro xs xs' hx
        obtain ⟨a, a', rfl, rfl, g1, g2⟩ := statesRel_one hx
        rw [h1] at g1
        obtain rfl := Option.some.inj g1
        exact ⟨by rw [g2], rfl⟩
      obtain ⟨⟨m, value, stamp, model⟩, ys, hst⟩ := y
      simp only at h2 hst
      have hev : ∀ cj, measurementResidual (linY x ⟨⟨m, value, stamp, model⟩, ys, hst⟩).meas [⟨0, x.stamp⟩] cj =
          measurementResidual ⟨m, value, stamp, model⟩ [x] cj ∧
          ∀ out, measurementResidual (linY x ⟨⟨m, value, stamp, model⟩, ys, hst⟩).meas [⟨0, x.stamp⟩] cj = .ok out →
            out.error = 0 := by
        intro cj
        unfold measurementResidual
        simp only [pyGet, List.getElem?_cons_zero, bind, Except.bind, linY, linMeas, linMeasModel, h2, mulVec_zero]
        cases hL : sqrtInformation (model.covariance x) with
        | error e => exact ⟨rfl, fun out ho => by cases ho⟩
        | ok L =>
          have e1 : (fun i => (0 : Vec m) i - (0 : Vec m) i) = 0 := by funext i; simp
          have e2 : (fun i => value i - value i) = (0 : Vec m) := by funext i; simp
          simp only [e1, e2]
          refine ⟨rfl, fun out hout => ?_⟩
          split at hout
          · obtain ⟨f0, -, hout⟩ := bind_ok hout
            cases hout
            exact (mulVec_zero (Lᵀ : Mat m m) : Lᵀ *ᵥ (0 : Vec m) = 0)
          · cases hout
            exact (mulVec_zero (Lᵀ : Mat m m) : Lᵀ *ᵥ (0 : Vec m) = 0)
      refine ⟨_, rfl, ⟨rfl, ?_, ?_⟩, ?_⟩
      · intro xs xs' hx
        obtain ⟨rfl, rfl⟩ := key xs xs' hx
        exact congrArg (Except.map _) (hev none).1
      · intro xs xs' fl hx hfl
        obtain ⟨rfl, rfl⟩ := key xs xs' hx
        exact congrArg (Except.map _) (hev (some fl)).1
      · intro xs xs' err hx he
        obtain ⟨rfl, rfl⟩ := key xs xs' hx
        have he' : (measurementResidual (linY x ⟨⟨m, value, stamp, model⟩, ys, hst⟩).meas [⟨0, x.stamp⟩] none).map
          (fun r => List.ofFn r.error) = .ok err := he
        cases ho' : measurementResidual (linY x ⟨⟨m, value, stamp, model⟩, ys, hst⟩).meas [⟨0, x.stamp⟩] none with
        | error e => rw [ho'] at he'; cases he'
        | ok out =>
          rw [ho'] at he'
          have : err = List.ofFn out.error := (Except.ok.inj he').symm
          rw [this, (hev none).2 out ho']
          simp [List.mem_ofFn]

end Verif
