import Verif.Props.PerfectBatch2

/-!
C103: on data without noise the extended Kalman filter and the batch estimator agree, for nonlinear models too.
-/

namespace Verif

set_option linter.unusedVariables false
set_option linter.unusedSectionVars false

open Matrix

variable {V U : Type} {n : ℕ}

/-- The Kalman filter of the errors. -/
noncomputable abbrev errFilter (f : ProcModel V U n) (chi : ℕ → ℝ) : EkfEnv (Vec n) (U × V) n :=
  linFilter (errA f) (fun _ _ => 0) (errQ f) chi

/-- One correction at the stamp of the state. -/
theorem correct_rel {e : EkfEnv V U n} (h0 : ∀ v, e.plus v 0 = v) (hchi : e.rejectOutliers = true → ∀ m, 0 ≤ e.chi2ppf99 m)
    {chi : ℕ → ℝ} {x : St V} {P : Mat n n} {y : StMeas V n} (hx : x.stamp = some y.stamp)
    (hy : y.meas.model.evaluate x = some y.meas.value) {u : Inp U} {u' : Inp (U × V)} {z : SWC (Vec n) n}
    (h : (errFilter e.proc chi).correct ⟨⟨0, some y.stamp⟩, P⟩ (linY x y).meas (some u') none none = .ok z) :
    z.state = ⟨0, some y.stamp⟩ ∧ e.correct ⟨x, P⟩ y.meas (some u) none none = .ok ⟨x, z.cov⟩ := by
  have e1 : ∀ (w : EkfEnv (Vec n) (U × V) n), w.correctD ⟨⟨0, some y.stamp⟩, P⟩ (linY x y).meas (some u') none none =
      w.fuse ⟨⟨0, some y.stamp⟩, P⟩ (linY x y).meas none w.rejectOutliers := fun w =>
    C06_no_predict w _ _ _ none none y.stamp y.stamp rfl rfl (by rw [sub_self]; exact neg_nonpos.mpr (by positivity))
      (by rw [sub_self]; positivity)
  have e2 : e.correctD ⟨x, P⟩ y.meas (some u) none none = e.fuse ⟨x, P⟩ y.meas none e.rejectOutliers :=
    C06_no_predict e ⟨x, P⟩ y.meas _ none none y.stamp y.stamp hx y.hstamp
      (by rw [sub_self]; exact neg_nonpos.mpr (by positivity)) (by rw [sub_self]; positivity)
  have hS : innovCov (⟨⟨0, some y.stamp⟩, P⟩ : SWC (Vec n) n) (linY x y).meas none = innovCov ⟨x, P⟩ y.meas none := rfl
  have hev : (linY x y).meas.model.evaluate (⟨0, some y.stamp⟩ : St (Vec n)) = some (0 : Vec y.meas.m) := by
    show some (y.meas.model.jacobian x *ᵥ (0 : Vec n)) = _
    rw [mulVec_zero]
  unfold EkfEnv.correct at h ⊢
  rw [e1] at h
  rw [e2]
  by_cases hd : (innovCov (⟨x, P⟩ : SWC V n) y.meas none).det = 0
  · rw [fuse_singular _ _ _ _ _ _ hev (by rw [hS]; exact hd)] at h
    cases h
  · have h' : (errFilter e.proc chi).fuse ⟨⟨0, some y.stamp⟩, P⟩ (linY x y).meas none false = _ :=
      fuse_noreject (errFilter e.proc chi) ⟨⟨0, some y.stamp⟩, P⟩ (linY x y).meas none 0 hev (by rw [hS]; exact hd)
    rw [show (errFilter e.proc chi).rejectOutliers = false from rfl, h'] at h
    have hz : kalmanUpdate (errFilter e.proc chi) ⟨⟨0, some y.stamp⟩, P⟩ (linY x y).meas none 0 = z := Except.ok.inj h
    have hv : (fun i => y.meas.value i - y.meas.value i) = (0 : Vec y.meas.m) := funext fun i => sub_self _
    have hf : e.fuse ⟨x, P⟩ y.meas none e.rejectOutliers = e.fuse ⟨x, P⟩ y.meas none false := by
      cases hr : e.rejectOutliers with
      | false => rfl
      | true =>
        rw [fuse_reject e _ _ _ _ hy hd, hv, if_neg]
        rw [zero_dotProduct]
        exact not_lt.2 (hchi hr _)
    rw [hf, fuse_noreject e _ _ _ _ hy hd, ← hz]
    refine ⟨?_, ?_⟩
    · have kz : ∀ K : Mat n y.meas.m, K *ᵥ (fun i => (0 : Vec y.meas.m) i - (0 : Vec y.meas.m) i) = 0 := fun K => by
        rw [show (fun i => (0 : Vec y.meas.m) i - (0 : Vec y.meas.m) i) = 0 from funext fun i => sub_self _, mulVec_zero]
      exact congrArg (fun v : Vec n => (⟨v, some y.stamp⟩ : St (Vec n)))
        ((congrArg (fun w => (0 : Vec n) + w) (kz _)).trans (add_zero 0))
    · show Except.ok (kalmanUpdate e ⟨x, P⟩ y.meas none y.meas.value) = _
      have kz : ∀ K : Mat n y.meas.m, e.plusSt x (K *ᵥ (fun i => y.meas.value i - y.meas.value i)) = x := fun K => by
        rw [hv, mulVec_zero]
        unfold EkfEnv.plusSt
        rw [h0]
      exact congrArg Except.ok (congrArg (fun s => (⟨s, _⟩ : SWC V n)) (kz _))

/-- A measurement of the dead reckoned trajectory, and the one of the linear problem. -/
def MeasPair (f : ProcModel V U n) (x : St V) (us : List (StInp U)) (y' : StMeas (Vec n) n) (y : StMeas V n) : Prop :=
  ∃ (k : ℕ) (u : StInp U) (xk : St V), us[k]? = some u ∧ (deadReckon f x us)[k]? = some xk ∧ u.stamp = y.stamp ∧
    y.meas.model.evaluate xk = some y.meas.value ∧ y' = linY xk y

theorem pair_stamp {f : ProcModel V U n} {x : St V} {us : List (StInp U)} {y' : StMeas (Vec n) n} {y : StMeas V n}
    (h : MeasPair f x us y' y) : y'.stamp = y.stamp := by
  obtain ⟨k, u, xk, -, -, -, -, rfl⟩ := h
  rfl

/-- The measurements of one interval. -/
theorem fuseWhile_rel {e : EkfEnv V U n} (h0 : ∀ v, e.plus v 0 = v)
    (hchi : e.rejectOutliers = true → ∀ m, 0 ≤ e.chi2ppf99 m) {chi : ℕ → ℝ} {x : St V} {u u2 : StInp U} {us : List (StInp U)}
    (hx : x.stamp = some u.stamp) (hsort : (u :: u2 :: us).Pairwise (fun a c => a.stamp < c.stamp)) {v : StInp (U × V)} :
    ∀ {rest' : List (StMeas (Vec n) n)} {rest : List (StMeas V n)} {P : Mat n n} {z : SWC (Vec n) n}
      {r' : List (StMeas (Vec n) n)},
      List.Forall₂ (MeasPair e.proc x (u :: u2 :: us)) rest' rest → rest.Pairwise (fun a c => a.stamp ≤ c.stamp) →
      fuseWhile (ekfApi (errFilter e.proc chi)) v u2.stamp rest' ⟨⟨0, some u.stamp⟩, P⟩ = .ok (z, r') →
      z.state = ⟨0, some u.stamp⟩ ∧ ∃ r, fuseWhile (ekfApi e) u u2.stamp rest ⟨x, P⟩ = .ok (⟨x, z.cov⟩, r) ∧
        List.Forall₂ (MeasPair e.proc (reckon e.proc x u u2) (u2 :: us)) r' r ∧ r.Pairwise (fun a c => a.stamp ≤ c.stamp)
  | [], [], P, z, r', .nil, hs, h => by
    simp only [fuseWhile] at h ⊢
    cases h
    exact ⟨rfl, [], rfl, .nil, .nil⟩
  | y' :: rest', y :: rest, P, z, r', .cons hy hr, hs, h => by
    have est := pair_stamp hy
    unfold fuseWhile at h ⊢
    change (if y'.stamp < u2.stamp then _ else _) = _ at h
    rw [est] at h
    by_cases hlt : y.stamp < u2.stamp
    · rw [if_pos hlt] at h
      obtain ⟨z1, h1, h2⟩ := bind_ok h
      clear h
      obtain ⟨k, w, xk, q1, q2, q3, q4, rfl⟩ := hy
      have hk : k = 0 := by
        cases k with
        | zero => rfl
        | succ k =>
          exfalso
          rw [List.getElem?_cons_succ] at q1
          have hm := List.mem_of_getElem? q1
          have : u2.stamp ≤ w.stamp := by
            rcases List.mem_cons.1 hm with rfl | hm
            · exact le_refl _
            · exact ((List.pairwise_cons.1 (List.pairwise_cons.1 hsort).2).1 w hm).le
          rw [q3] at this
          exact absurd hlt (not_lt.2 this)
      subst hk
      obtain rfl : u = w := by simpa using q1
      obtain rfl : x = xk := by
        rw [deadReckon_head] at q2
        exact Option.some.inj q2
      rw [q3] at h1 hx
      obtain ⟨s1, s2⟩ := correct_rel (u := ⟨u.value, some u.stamp⟩) h0 hchi hx q4 h1
      have hz1 : z1 = ⟨⟨0, some u.stamp⟩, z1.cov⟩ := by
        obtain ⟨zs, zc⟩ := z1
        simp only at s1
        rw [s1, q3]
      rw [hz1] at h2
      rw [← q3] at hx
      obtain ⟨t1, r, t2, t3, t4⟩ := fuseWhile_rel h0 hchi hx hsort hr (List.pairwise_cons.1 hs).2 h2
      refine ⟨t1, r, ?_, t3, t4⟩
      rw [show (ekfApi e).ystamp y = y.stamp from rfl, if_pos hlt]
      show ((ekfApi e).correct ⟨x, P⟩ y u >>= _) = _
      rw [show (ekfApi e).correct ⟨x, P⟩ y u = .ok ⟨x, z1.cov⟩ from s2, ok_bindE]
      exact t2
    · rw [if_neg hlt] at h
      cases h
      refine ⟨rfl, y :: rest, ?_, ?_, hs⟩
      · rw [show (ekfApi e).ystamp y = y.stamp from rfl, if_neg hlt]
      · have key : ∀ {a' a}, MeasPair e.proc x (u :: u2 :: us) a' a → ¬ a.stamp < u2.stamp →
            MeasPair e.proc (reckon e.proc x u u2) (u2 :: us) a' a := by
          rintro a' a ⟨k, w, xk, q1, q2, q3, q4, q5⟩ hn
          cases k with
          | zero =>
            obtain rfl : u = w := by simpa using q1
            exfalso
            rw [← q3] at hn
            exact hn ((List.pairwise_cons.1 hsort).1 u2 (by simp))
          | succ k => exact ⟨k, w, xk, q1, q2, q3, q4, q5⟩
        refine .cons (key hy hlt) ?_
        have hall : ∀ a ∈ rest, ¬ a.stamp < u2.stamp := fun a ha hla =>
          hlt (lt_of_le_of_lt ((List.pairwise_cons.1 hs).1 a ha) hla)
        clear hs est
        induction hr with
        | nil => exact .nil
        | cons h1 h2 ih => exact .cons (key h1 (hall _ (by simp))) (ih fun a ha => hall a (by simp [ha]))

/-- The whole run. -/
theorem runLoop_rel {e : EkfEnv V U n} (h0 : ∀ v, e.plus v 0 = v)
    (hchi : e.rejectOutliers = true → ∀ m, 0 ≤ e.chi2ppf99 m) {chi : ℕ → ℝ} : ∀ (us : List (StInp U)) (x : St V)
    (t : ℝ) (P : Mat n n) (rest' : List (StMeas (Vec n) n)) (rest : List (StMeas V n)) (rs' : List (SWC (Vec n) n)),
    x.stamp = some t → (∀ u, us.head? = some u → u.stamp = t) → us.Pairwise (fun a c => a.stamp < c.stamp) →
    List.Forall₂ (MeasPair e.proc x us) rest' rest → rest.Pairwise (fun a c => a.stamp ≤ c.stamp) →
    runLoop (ekfApi (errFilter e.proc chi)) (errInputs e.proc x us) rest' ⟨⟨0, some t⟩, P⟩ = .ok rs' →
    ∃ rs, runLoop (ekfApi e) us rest ⟨x, P⟩ = .ok rs ∧ rs.map SWC.state = (deadReckon e.proc x us).dropLast ∧
      rs.map SWC.cov = rs'.map SWC.cov
  | [], x, t, P, rest', rest, rs', hx, hf, hs, hr, ho, h => by
    simp only [errInputs, runLoop] at h
    cases h
    exact ⟨[], by simp only [runLoop], rfl, rfl⟩
  | [u], x, t, P, rest', rest, rs', hx, hf, hs, hr, ho, h => by
    simp only [errInputs, runLoop] at h
    cases h
    exact ⟨[], by simp only [runLoop], rfl, rfl⟩
  | u :: u2 :: us, x, t, P, rest', rest, rs', hx, hf, hs, hr, ho, h => by
    obtain rfl := hf u rfl
    obtain ⟨l, hl⟩ := errInputs_head e.proc u2 us (reckon e.proc x u u2)
    have ee : errInputs e.proc x (u :: u2 :: us) =
      ⟨(u.value, x.value), u.stamp⟩ :: errInputs e.proc (reckon e.proc x u u2) (u2 :: us) := rfl
    rw [ee, hl] at h
    unfold runLoop at h
    obtain ⟨⟨z1, r1'⟩, h1, h⟩ := bind_ok h
    obtain ⟨z2, h2, h⟩ := bind_ok h
    obtain ⟨rs1', h3, h⟩ := bind_ok h
    cases h
    obtain ⟨a1, r1, a2, a3, a4⟩ := fuseWhile_rel h0 hchi hx hs hr ho h1
    obtain ⟨zs, zc⟩ := z1
    simp only at a1 a2 h2
    subst a1
    have hd : 0 ≤ u2.stamp - u.stamp := by
      have := (List.pairwise_cons.1 hs).1 u2 (by simp)
      linarith
    have hp : (errFilter e.proc chi).predict ⟨⟨0, some u.stamp⟩, zc⟩ (some ⟨(u.value, x.value), some u.stamp⟩)
        (some (u2.stamp - u.stamp)) none = .ok z2 := h2
    rw [predict_some_some _ _ _ u.stamp _ none rfl hd] at hp
    have hq : e.predict ⟨x, zc⟩ (some ⟨u.value, some u.stamp⟩) (some (u2.stamp - u.stamp)) none = _ :=
      predict_some_some e ⟨x, zc⟩ _ u.stamp _ none hx hd
    have hxx : (⟨x.value, some u.stamp⟩ : St V) = x := by rw [← hx]
    have hz2 : z2 = ⟨⟨0, some u2.stamp⟩, (e.propagate ⟨x, zc⟩ ⟨u.value, some u.stamp⟩ u.stamp (u2.stamp - u.stamp) x).cov⟩ := by
      rw [← Except.ok.inj hp]
      show (⟨⟨errA e.proc ⟨(u.value, x.value), some u.stamp⟩ (u2.stamp - u.stamp) *ᵥ (0 : Vec n) + 0,
        some (u.stamp + (u2.stamp - u.stamp))⟩, symmetrize (
          e.proc.jacobian ⟨x.value, some u.stamp⟩ ⟨u.value, some u.stamp⟩ (u2.stamp - u.stamp) * zc *
          (e.proc.jacobian ⟨x.value, some u.stamp⟩ ⟨u.value, some u.stamp⟩ (u2.stamp - u.stamp))ᵀ +
          e.proc.covariance ⟨x.value, some u.stamp⟩ ⟨u.value, some u.stamp⟩ (u2.stamp - u.stamp))⟩ : SWC (Vec n) n) = _
      rw [mulVec_zero, add_zero, add_sub_cancel, hxx]
      rfl
    have hx2 : e.propagate ⟨x, zc⟩ ⟨u.value, some u.stamp⟩ u.stamp (u2.stamp - u.stamp) x =
        ⟨reckon e.proc x u u2, (e.propagate ⟨x, zc⟩ ⟨u.value, some u.stamp⟩ u.stamp (u2.stamp - u.stamp) x).cov⟩ := by
      unfold EkfEnv.propagate reckon
      simp only
      rw [add_sub_cancel]
    rw [hz2, ← hl] at h3
    obtain ⟨rs, b1, b2, b3⟩ := runLoop_rel h0 hchi (u2 :: us) (reckon e.proc x u u2) u2.stamp _ r1' r1 rs1' rfl
      (fun v hv => by simp only [List.head?_cons, Option.some.injEq] at hv; rw [← hv]) (List.pairwise_cons.1 hs).2 a3 a4 h3
    refine ⟨⟨x, zc⟩ :: rs, ?_, ?_, ?_⟩
    · unfold runLoop
      show (fuseWhile (ekfApi e) u u2.stamp rest ⟨x, P⟩ >>= _) = _
      rw [a2, ok_bindE]
      show (predictTo (ekfApi e) ⟨x, zc⟩ u u2.stamp >>= _) = _
      have hpt : predictTo (ekfApi e) ⟨x, zc⟩ u u2.stamp = .ok
          (e.propagate ⟨x, zc⟩ ⟨u.value, some u.stamp⟩ u.stamp (u2.stamp - u.stamp) x) := by
        unfold predictTo
        rw [show (ekfApi e).xstamp ⟨x, zc⟩ = some u.stamp from hx]
        exact hq
      rw [hpt, ok_bindE, hx2, b1, ok_bindE]
      rfl
    · show x :: rs.map SWC.state = (x :: deadReckon e.proc (reckon e.proc x u u2) (u2 :: us)).dropLast
      have hne : deadReckon e.proc (reckon e.proc x u u2) (u2 :: us) ≠ [] := by
        intro hh
        have := congrArg List.length hh
        rw [deadReckon_length] at this
        simp at this
      rw [b2, List.dropLast_cons_of_ne_nil hne]
    · show zc :: rs.map SWC.cov = zc :: rs1'.map SWC.cov
      rw [b3]

theorem dropBefore_all {α : Type} (stamp : α → ℝ) (t0 : ℝ) (l : List α) (h : ∀ a ∈ l, t0 ≤ stamp a) :
    dropBefore stamp t0 l = l := by
  unfold dropBefore
  split
  · cases l with
    | nil => rfl
    | cons a l =>
      rw [List.dropWhile_cons_of_neg]
      simpa using h a (by simp)
  · rfl

/-- **C103.** Data without noise, and no measurement at the last input: `run_filter` around the extended Kalman filter
(with or without the outlier test) and `BatchEstimator.solve` both succeed, for any state class and any process and
measurement models. The estimates of the filter are the dead reckoned states up to the last but one, those of the batch
estimator are all of them; and the last covariance of the filter is the covariance of the batch estimator for that
state. -/
theorem C103_filter_eq_batch (o : StateOps V n) (ho : ZeroLaws o) (e : EkfEnv V U n) (he : e.plus = o.plus)
    (hchi : e.rejectOutliers = true → ∀ m, 0 ≤ e.chi2ppf99 m) (hf : KeepsStamp e.proc)
    (hQ : ∀ x u dt, 0 < dt → (e.proc.covariance x u dt).PosDef) (hn : 0 < n) (rnd : ℝ → ℝ) (cfg : ProbCfg)
    (hc : GoodSolver cfg) (x0 : St V) (t0 : ℝ) (h0 : x0.stamp = some t0) (P0 : Mat n n) (hP0 : P0.PosDef)
    (inputs : List (StInp U)) (meas : List (StMeas V n)) (us : List (StInp U)) (hperm : us.Perm inputs)
    (hsort : us.Pairwise (fun a c => a.stamp < c.stamp)) (h2 : 2 ≤ us.length)
    (hfirst : ∀ u, us.head? = some u → u.stamp = t0) (hr : ∀ u ∈ inputs, rnd u.stamp = u.stamp)
    (hm : ∀ y ∈ meas, TrueMeas us (deadReckon e.proc x0 us) y ∧ ∃ u ∈ us.dropLast, u.stamp = y.stamp) :
    ∃ rs res r C, runFilter (ekfApi e) ⟨x0, P0⟩ inputs meas = .ok rs ∧
      batchSolve o e.proc rnd cfg x0 P0 inputs meas = .ok res ∧
      rs.map SWC.state = (deadReckon e.proc x0 us).dropLast ∧ res.map Prod.fst = deadReckon e.proc x0 us ∧
      rs.getLast? = some r ∧ res[us.length - 2]? = some (r.state, C) ∧ Holds C r.cov := by
  classical
  set T := deadReckon e.proc x0 us with hT
  obtain ⟨res, res', c1, c2, c3, c4, c5⟩ := perfect_core o ho e.proc hf hQ hn rnd cfg hc x0 t0 h0 P0 hP0 inputs meas us
    hperm hsort h2 hfirst hr (fun y hy => (hm y hy).1)
  obtain ⟨hsort', hfirst', hr', hm'⟩ := err_setup e.proc rnd x0 t0 inputs meas us hperm hsort h2 hfirst hr
    (fun y hy => (hm y hy).1)
  have hst : (errInputs e.proc x0 us).map StInp.stamp = us.map StInp.stamp := errInputs_stamps e.proc us x0
  have hl' : (errInputs e.proc x0 us).length = us.length := by simpa using congrArg List.length hst
  obtain ⟨rs', res'', r', x', C, d1, d2, d3, d4, d5, d6, d7, d8⟩ := C90_filter_eq_batch (errA e.proc) (fun _ _ => 0)
    (errQ e.proc) (fun _ => 0) (fun u dt hdt => hQ _ _ dt hdt) hn rnd ⟨"GN", 1, none, none, none, 1⟩ rfl one_pos
    ⟨0, some t0⟩ t0 rfl P0 hP0 _ (meas.map (errY us T x0)) _ (List.Perm.refl _) hsort' (by omega) hfirst' hr'
    (fun y hy => ⟨(hm' y hy).1, by
      obtain ⟨z, hz, rfl⟩ := List.mem_map.1 hy
      obtain ⟨-, u, hu, huz⟩ := hm z hz
      have h1 : u.stamp ∈ (errInputs e.proc x0 us).dropLast.map StInp.stamp := by
        rw [List.map_dropLast, hst, ← List.map_dropLast]
        exact List.mem_map.2 ⟨u, hu, rfl⟩
      obtain ⟨w, hw, hwu⟩ := List.mem_map.1 h1
      exact ⟨w, hw, hwu.trans huz⟩⟩)
  obtain rfl : res'' = res' := Except.ok.inj (d2.symm.trans c3)
  have hle : ∀ u ∈ us, t0 ≤ u.stamp := by
    cases us with
    | nil => simp
    | cons u us =>
      have h := hfirst u rfl
      intro v hv
      rcases List.mem_cons.1 hv with rfl | hv
      · exact h.symm.le
      · rw [← h]; exact ((List.pairwise_cons.1 hsort).1 v hv).le
  have hle' : ∀ u ∈ errInputs e.proc x0 us, t0 ≤ u.stamp := by
    intro u hu
    have : u.stamp ∈ us.map StInp.stamp := by rw [← hst]; exact List.mem_map.2 ⟨u, hu, rfl⟩
    obtain ⟨w, hw, h⟩ := List.mem_map.1 this
    rw [← h]
    exact hle w hw
  have hym : ∀ y ∈ meas, t0 ≤ y.stamp := fun y hy => by
    obtain ⟨-, u, hu, h⟩ := hm y hy
    rw [← h]; exact hle u (List.dropLast_subset _ hu)
  have hym' : ∀ y ∈ meas.map (errY us T x0), t0 ≤ y.stamp := fun y hy => by
    obtain ⟨z, hz, rfl⟩ := List.mem_map.1 hy
    exact hym z hz
  have hyst : sortByStamp StMeas.stamp (meas.map (errY us T x0)) = (sortByStamp StMeas.stamp meas).map (errY us T x0) :=
    (sortByStamp_map (errY us T x0) StMeas.stamp meas).symm
  -- the run of the linear filter
  have d1' : runLoop (ekfApi (errFilter e.proc fun _ => 0)) (errInputs e.proc x0 us)
      ((sortByStamp StMeas.stamp meas).map (errY us T x0)) ⟨⟨0, some t0⟩, P0⟩ = .ok rs' := by
    rw [← d1]
    show _ = runLoop _ (dropBefore StInp.stamp t0 (sortByStamp StInp.stamp (errInputs e.proc x0 us)))
      (dropBefore StMeas.stamp t0 (sortByStamp StMeas.stamp (meas.map (errY us T x0)))) _
    rw [sort_eq (List.Perm.refl _) hsort', dropBefore_all _ _ _ hle', dropBefore_all _ _ _ (fun a ha =>
      hym' a ((sortByStamp_mem StMeas.stamp).1 ha)), hyst]
  obtain ⟨rs, f1, f2, f3⟩ := runLoop_rel (e := e) (by rw [he]; exact ho.plus) hchi us x0 t0 P0
    ((sortByStamp StMeas.stamp meas).map (errY us T x0)) (sortByStamp StMeas.stamp meas) rs' h0 hfirst hsort
    (by
      have key : ∀ l : List (StMeas V n), (∀ y ∈ l, TrueMeas us T y) →
          List.Forall₂ (MeasPair e.proc x0 us) (l.map (errY us T x0)) l := by
        intro l hl
        induction l with
        | nil => exact .nil
        | cons y l ih =>
          refine .cons ?_ (ih fun z hz => hl z (by simp [hz]))
          obtain ⟨x, e1, e2, e3⟩ := true_state hsort (hl y (by simp))
          obtain ⟨k, u, xk, q1, q2, q3, q4, -⟩ := hl y (by simp)
          have hmem : y.stamp ∈ us.map StInp.stamp := List.mem_map.2 ⟨u, List.mem_of_getElem? q1, q3⟩
          have hlt := List.idxOf_lt_length_of_mem hmem
          have hlt' : (us.map StInp.stamp).idxOf y.stamp < us.length := by simpa using hlt
          refine ⟨(us.map StInp.stamp).idxOf y.stamp, us[(us.map StInp.stamp).idxOf y.stamp], x,
            List.getElem?_eq_getElem hlt', e1, ?_, e2, ?_⟩
          · have : (us.map StInp.stamp)[(us.map StInp.stamp).idxOf y.stamp] = y.stamp := List.getElem_idxOf hlt
            rw [List.getElem_map] at this
            exact this
          · show linY _ y = _
            rw [e1]
            rfl
      exact key _ fun y hy => (hm y ((sortByStamp_mem StMeas.stamp).1 hy)).1)
    (sortByStamp_sorted StMeas.stamp meas) d1'
  have hrun : runFilter (ekfApi e) ⟨x0, P0⟩ inputs meas = .ok rs := by
    rw [← f1]
    unfold runFilter
    rw [show (ekfApi e).xstamp ⟨x0, P0⟩ = some t0 from h0]
    show runLoop _ (dropBefore StInp.stamp t0 (sortByStamp StInp.stamp inputs))
      (dropBefore StMeas.stamp t0 (sortByStamp StMeas.stamp meas)) _ = _
    rw [sort_eq hperm hsort, dropBefore_all _ _ _ hle, dropBefore_all _ _ _ (fun a ha =>
      hym a ((sortByStamp_mem StMeas.stamp).1 ha))]
  have hlen : rs.length = us.length - 1 := by
    have := congrArg List.length f2
    rw [List.length_map, List.length_dropLast, deadReckon_length] at this
    exact this
  have hpos : us.length - 2 < rs.length := by omega
  have hTl : T.length = us.length := deadReckon_length e.proc us x0
  have hres : (res.map Prod.fst).length = us.length := by rw [c2, hTl]
  rw [List.length_map] at hres
  have hlt : us.length - 2 < res.length := by omega
  have g1 : rs.getLast? = some rs[us.length - 2] := by
    rw [List.getLast?_eq_getElem?, hlen, show us.length - 1 - 1 = us.length - 2 by omega, List.getElem?_eq_getElem]
  have g2 : (res[us.length - 2]).1 = (rs[us.length - 2]).state := by
    have a1 : (res.map Prod.fst)[us.length - 2]? = some (res[us.length - 2]).1 := by
      rw [List.getElem?_map, List.getElem?_eq_getElem hlt]; rfl
    have a2 : (rs.map SWC.state)[us.length - 2]? = some (rs[us.length - 2]).state := by
      rw [List.getElem?_map, List.getElem?_eq_getElem hpos]; rfl
    rw [c2] at a1
    rw [f2, List.getElem?_dropLast, if_pos (by rw [← hT, hTl]; omega), ← hT, a1] at a2
    exact Option.some.inj a2
  have g3 : (res[us.length - 2]).2 = C := by
    have a1 : (res.map Prod.snd)[us.length - 2]? = some (res[us.length - 2]).2 := by
      rw [List.getElem?_map, List.getElem?_eq_getElem hlt]; rfl
    rw [hl'] at d6
    rw [c5, List.getElem?_map, d6] at a1
    exact (Option.some.inj a1).symm
  have g4 : (rs[us.length - 2]).cov = r'.cov := by
    have a1 : (rs.map SWC.cov)[us.length - 2]? = some (rs[us.length - 2]).cov := by
      rw [List.getElem?_map, List.getElem?_eq_getElem hpos]; rfl
    have hlr : rs'.length = us.length - 1 := by omega
    rw [f3, List.getElem?_map] at a1
    rw [List.getLast?_eq_getElem?, hlr, show us.length - 1 - 1 = us.length - 2 by omega] at d5
    rw [d5] at a1
    exact (Option.some.inj a1).symm
  refine ⟨rs, res, rs[us.length - 2], C, hrun, c1, f2, c2, g1, ?_, ?_⟩
  · rw [List.getElem?_eq_getElem hlt, ← g2, ← g3]
  · rw [g4]
    exact d8

/-- The hypotheses of `C103_filter_eq_batch` are met: the nonlinear models of the example of C102, three inputs, the
outlier test on. -/
example : ∃ rs res r C, runFilter (ekfApi ⟨exProc102, true, fun x d => x + d, fun _ => 6⟩) ⟨⟨fun _ => 1, some 0⟩, 1⟩
      [⟨(), 1⟩, ⟨(), 0⟩, ⟨(), 2⟩] [exMeas102] = .ok rs ∧
    batchSolve (vecStateOps 1) exProc102 id ⟨"LM", 5, none, none, none, 1⟩ ⟨fun _ => 1, some 0⟩ 1
      [⟨(), 1⟩, ⟨(), 0⟩, ⟨(), 2⟩] [exMeas102] = .ok res ∧ rs.getLast? = some r ∧ res[1]? = some (r.state, C) ∧
    Holds C r.cov := by
  have hT : deadReckon exProc102 ⟨fun _ => 1, some 0⟩ [⟨(), 0⟩, ⟨(), 1⟩, ⟨(), 2⟩] =
      [⟨fun _ => 1, some 0⟩, ⟨fun _ => 2, some 1⟩, ⟨fun _ => 6, some 2⟩] := by
    simp only [deadReckon, reckon, exProc102]
    norm_num
  obtain ⟨rs, res, r, C, h1, h2, -, -, h3, h4, h5⟩ := C103_filter_eq_batch (vecStateOps 1)
    ⟨fun v => add_zero v, fun v => sub_self v, fun v => rfl⟩ ⟨exProc102, true, fun x d => x + d, fun _ => 6⟩ rfl
    (fun _ _ => by norm_num) (fun _ _ _ => rfl) (fun _ _ _ _ => Matrix.PosDef.one) one_pos id
    ⟨"LM", 5, none, none, none, 1⟩ (.inr ⟨rfl, zero_le_one⟩) ⟨fun _ => 1, some 0⟩ 0 rfl 1 Matrix.PosDef.one
    [⟨(), 1⟩, ⟨(), 0⟩, ⟨(), 2⟩] [exMeas102] [⟨(), 0⟩, ⟨(), 1⟩, ⟨(), 2⟩] (List.Perm.swap _ _ _) (by norm_num) (by simp)
    (fun u hu => by
      simp only [List.head?_cons, Option.some.injEq] at hu
      rw [← hu]) (fun u _ => rfl)
    (fun y hy => by
      rw [List.mem_singleton.mp hy, hT]
      refine ⟨⟨1, ⟨(), 1⟩, ⟨fun _ => 2, some 1⟩, rfl, rfl, rfl, ?_, Matrix.PosDef.one⟩, ⟨(), 1⟩, by simp, rfl⟩
      show some (fun i : Fin 1 => (2 : ℝ) ^ 2) = some (fun _ => 4)
      norm_num)
  exact ⟨rs, res, r, C, h1, h2, h3, h4, h5⟩

end Verif
