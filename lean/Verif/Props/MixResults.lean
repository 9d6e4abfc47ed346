import Verif.Model.MixResults
import Verif.Model.RunFilters
import Verif.Props.Results
import Verif.Props.Imm
import Verif.Props.RunFilter
import Verif.Props.Order

/-!
Property theorems: multiple-model filters keep one clock, the evaluation of mixtures, Monte Carlo experiments (C98).
-/

namespace Verif

open Matrix

set_option linter.unusedVariables false
set_option linter.unusedSectionVars false

variable {V U : Type} {n M : ℕ}

/-! ### One clock -/

/-- Specification: all modes of the mixture have the stamp `t`. -/
def SameClock (x : Mixture V n M) (t : ℝ) : Prop := ∀ i, (x.states i).state.stamp = some t

/-- What a filter with a clock does with it. -/
structure ClockLaws {X I Y : Type} (f : FilterApi X I Y) (C : X → ℝ → Prop) : Prop where
  stamp : ∀ x t, C x t → f.xstamp x = some t
  predict : ∀ x u dt t x', C x t → f.predict x u dt = .ok x' → 0 ≤ dt ∧ C x' (t + dt)
  correct : ∀ x y u t x', C x t → f.correct x y u = .ok x' → ∃ t', C x' t' ∧ t ≤ t' ∧ (t' = t ∨ t' = f.ystamp y)

section Loops

variable {X I Y : Type} {f : FilterApi X I Y} {C : X → ℝ → Prop}

theorem fuseWhile_clock (L : ClockLaws f C) (u : I) (tn : ℝ) : ∀ (rest : List Y) (x : X) (t : ℝ), C x t → ∀ (x1 : X) (rest1 : List Y),
    fuseWhile f u tn rest x = .ok (x1, rest1) → ∃ s, C x1 s ∧ t ≤ s
  | [], x, t, hx, x1, rest1, h => by cases h; exact ⟨t, hx, le_refl _⟩
  | y :: rest, x, t, hx, x1, rest1, h => by
    unfold fuseWhile at h
    split at h
    · obtain ⟨x', h1, h2⟩ := bind_ok h
      obtain ⟨t', h3, h4, -⟩ := L.correct _ _ _ _ _ hx h1
      obtain ⟨s, h5, h6⟩ := fuseWhile_clock L u tn rest x' t' h3 x1 rest1 h2
      exact ⟨s, h5, h4.trans h6⟩
    · cases h; exact ⟨t, hx, le_refl _⟩

theorem predictTo_clock (L : ClockLaws f C) {x x' : X} {t tn : ℝ} {u : I} (hx : C x t) (h : predictTo f x u tn = .ok x') :
    t ≤ tn ∧ C x' tn := by
  unfold predictTo at h
  rw [L.stamp _ _ hx] at h
  obtain ⟨h1, h2⟩ := L.predict _ _ _ _ _ hx h
  refine ⟨by linarith, ?_⟩
  rwa [show t + (tn - t) = tn by ring] at h2

theorem runImmLoop_clock (L : ClockLaws f C) : ∀ (us : List I) (u : I) (rest : List Y) (x : X) (t : ℝ), C x t → ∀ rs : List X,
    runImmLoop f (u :: us) rest x = .ok rs → rs.length = us.length ∧
      ∀ (k : ℕ) (r : X), rs[k]? = some r → (k = 0 → r = x) ∧ ∀ v, k ≠ 0 → (u :: us)[k]? = some v → C r (f.istamp v)
  | [], u, rest, x, t, hx, rs, h => by
    have e : runImmLoop f [u] rest x = .ok [] := rfl
    rw [e] at h
    cases h
    exact ⟨rfl, by simp⟩
  | u' :: us, u, rest, x, t, hx, rs, h => by
    unfold runImmLoop at h
    obtain ⟨⟨x1, rest1⟩, h1, h⟩ := bind_ok h
    obtain ⟨x2, h2, h⟩ := bind_ok h
    obtain ⟨rs', h3, h⟩ := bind_ok h
    cases h
    obtain ⟨s, hs, -⟩ := fuseWhile_clock L u _ _ _ _ hx _ _ h1
    obtain ⟨-, hx2⟩ := predictTo_clock L hs h2
    obtain ⟨i1, i2⟩ := runImmLoop_clock L us u' rest1 x2 _ hx2 rs' h3
    refine ⟨by simp [i1], fun k r hr => ?_⟩
    match k, hr with
    | 0, hr =>
      simp only [List.getElem?_cons_zero, Option.some.injEq] at hr
      exact ⟨fun _ => hr.symm, fun v hv => absurd rfl hv⟩
    | k + 1, hr =>
      rw [List.getElem?_cons_succ] at hr
      obtain ⟨j1, j2⟩ := i2 k r hr
      refine ⟨fun hk => absurd hk (by omega), fun v _ hv => ?_⟩
      rw [List.getElem?_cons_succ] at hv
      by_cases hk : k = 0
      · subst hk
        rw [j1 rfl]
        simp only [List.getElem?_cons_zero, Option.some.injEq] at hv
        rw [← hv]
        exact hx2
      · exact j2 v hk hv

theorem runLoop_clock (L : ClockLaws f C) : ∀ (us : List I) (u : I) (rest : List Y) (x : X) (t : ℝ), C x t → ∀ rs : List X,
    runLoop f (u :: us) rest x = .ok rs → rs.length = us.length ∧
      ∀ (k : ℕ) (r : X), rs[k]? = some r → ∃ s, C r s ∧ (k = 0 → t ≤ s) ∧ (∀ v, k ≠ 0 → (u :: us)[k]? = some v → f.istamp v ≤ s) ∧
        ∀ v, (u :: us)[k + 1]? = some v → s ≤ f.istamp v
  | [], u, rest, x, t, hx, rs, h => by
    have e : runLoop f [u] rest x = .ok [] := rfl
    rw [e] at h
    cases h
    exact ⟨rfl, by simp⟩
  | u' :: us, u, rest, x, t, hx, rs, h => by
    unfold runLoop at h
    obtain ⟨⟨x1, rest1⟩, h1, h⟩ := bind_ok h
    obtain ⟨x2, h2, h⟩ := bind_ok h
    obtain ⟨rs', h3, h⟩ := bind_ok h
    cases h
    obtain ⟨s, hs, hts⟩ := fuseWhile_clock L u _ _ _ _ hx _ _ h1
    obtain ⟨hsn, hx2⟩ := predictTo_clock L hs h2
    obtain ⟨i1, i2⟩ := runLoop_clock L us u' rest1 x2 _ hx2 rs' h3
    refine ⟨by simp [i1], fun k r hr => ?_⟩
    match k, hr with
    | 0, hr =>
      simp only [List.getElem?_cons_zero, Option.some.injEq] at hr
      subst hr
      refine ⟨s, hs, fun _ => hts, fun v hv => absurd rfl hv, fun v hv => ?_⟩
      simp only [List.getElem?_cons_succ, List.getElem?_cons_zero, Option.some.injEq] at hv
      rw [← hv]
      exact hsn
    | k + 1, hr =>
      rw [List.getElem?_cons_succ] at hr
      obtain ⟨s', j1, j2, j3, j4⟩ := i2 k r hr
      refine ⟨s', j1, fun hk => absurd hk (by omega), fun v _ hv => ?_, fun v hv => j4 v (by rwa [List.getElem?_cons_succ] at hv)⟩
      rw [List.getElem?_cons_succ] at hv
      by_cases hk : k = 0
      · subst hk
        simp only [List.getElem?_cons_zero, Option.some.injEq] at hv
        rw [← hv]
        exact j2 rfl
      · exact j3 v hk hv

end Loops

theorem predict_same {e : EkfEnv V U n} {x x' : SWC V n} {u : StInp U} {dt t : ℝ} (hx : x.state.stamp = some t)
    (h : e.predict x (some ⟨u.value, some u.stamp⟩) (some dt) none = .ok x') : 0 ≤ dt ∧ x'.state.stamp = some (t + dt) :=
  (ekf_stampLaws e).predict x u dt t x' hx h

theorem correctD_same {e : EkfEnv V U n} {x x' : SWC V n} {y : StMeas V n} {u : StInp U} {t : ℝ} {d : Option CorrectDetails}
    (hx : x.state.stamp = some t) (h : e.correctD x y.meas (some ⟨u.value, some u.stamp⟩) none none = .ok (x', d)) :
    x'.state.stamp = some (if y.stamp - t > 1 / 10 ^ 11 then y.stamp else t) := by
  have h' : e.correct x y.meas (some ⟨u.value, some u.stamp⟩) none none = .ok x' := by
    unfold EkfEnv.correct
    rw [h]
    rfl
  have h1 := C06_stamp e x y.meas _ _ _ x' h'
  rw [hx, y.hstamp] at h1
  rw [h1]
  simp only [stampAfter, Option.isSome]
  split <;> rfl

theorem clock_moved {t s : ℝ} : t ≤ (if s - t > 1 / 10 ^ 11 then s else t) ∧
    ((if s - t > 1 / 10 ^ 11 then s else t) = t ∨ (if s - t > 1 / 10 ^ 11 then s else t) = s) := by
  by_cases h : s - t > 1 / 10 ^ 11
  · simp only [if_pos h]
    have : (0 : ℝ) ≤ 1 / 10 ^ 11 := by positivity
    exact ⟨by linarith, by simp⟩
  · simp only [if_neg h]
    exact ⟨le_refl _, by simp⟩

/-- Mixing modes with one clock keeps it. -/
theorem mixing_clock {ops : ManifoldOps V n} {w : Fin M → ℝ} {xs : Fin M → SWC V n} {t : ℝ} (hx : ∀ i, (xs i).state.stamp = some t)
    {r : SWC V n} (h : gaussianMixing ops w xs = .ok r) : r.state.stamp = some t := by
  unfold gaussianMixing at h
  obtain ⟨i, hi, h⟩ := bind_ok h
  cases h
  exact hx i

theorem imm_clock (f : Imm V U n (M + 1)) : ClockLaws (immApi f) SameClock where
  stamp x t h := h 0
  predict x u dt t x' hx h := by
    have h' : f.predict x (some ⟨u.value, some u.stamp⟩) (some dt) = .ok x' := h
    unfold Imm.predict at h'
    obtain ⟨s, h1, h'⟩ := bind_ok h'
    cases h'
    have h2 := seqFin_ok h1
    exact ⟨(predict_same (hx 0) (h2 0)).1, fun i => (predict_same (hx i) (h2 i)).2⟩
  correct x y u t x' hx h := by
    obtain ⟨xm, h1, h2⟩ := bind_ok h
    have hm : SameClock xm t := by
      unfold Imm.interaction at h1
      split at h1
      · cases h1
      · obtain ⟨ms, h3, h1⟩ := bind_ok h1
        cases h1
        exact fun j => mixing_clock hx (seqFin_ok h3 j)
    unfold Imm.correct at h2
    obtain ⟨r, h3, h2⟩ := bind_ok h2
    cases h2
    refine ⟨_, fun i => ?_, (clock_moved (s := y.stamp)).1, (clock_moved (s := y.stamp)).2⟩
    have h4 := seqFin_ok h3 i
    unfold correctLik at h4
    obtain ⟨⟨z, d⟩, h5, h4⟩ := bind_ok h4
    cases d with
    | none => cases h4
    | some d =>
      have h6 : (z, gaussPdf d.z d.S) = r i := Except.ok.inj h4
      show (r i).1.state.stamp = _
      rw [← h6]
      exact correctD_same (hm i) h5

theorem gsf_clock (e : EkfEnv V U n) : ClockLaws (gsfApi (M := M) e) SameClock where
  stamp x t h := h 0
  predict x u dt t x' hx h := by
    have h' : gsfPredict e x (some ⟨u.value, some u.stamp⟩) (some dt) = .ok x' := h
    unfold gsfPredict at h'
    obtain ⟨s, h1, h'⟩ := bind_ok h'
    cases h'
    have h2 := seqFin_ok h1
    exact ⟨(predict_same (hx 0) (h2 0)).1, fun i => (predict_same (hx i) (h2 i)).2⟩
  correct x y u t x' hx h2 := by
    have h2' : gsfCorrect e x y.meas (some ⟨u.value, some u.stamp⟩) = .ok x' := h2
    unfold gsfCorrect at h2'
    obtain ⟨r, h3, h2'⟩ := bind_ok h2'
    cases h2'
    refine ⟨_, fun i => ?_, (clock_moved (s := y.stamp)).1, (clock_moved (s := y.stamp)).2⟩
    have h4 := seqFin_ok h3 i
    unfold gsfCorrectLik at h4
    obtain ⟨⟨z, d⟩, h5, h4⟩ := bind_ok h4
    cases d with
    | none => cases h4
    | some d =>
      simp only at h4
      split at h4
      · have h6 : (z, gaussPdf d.z d.S) = r i := Except.ok.inj h4
        show (r i).1.state.stamp = _
        rw [← h6]
        exact correctD_same (hx i) h5
      · cases h4

/-- **C98, IMM.** `run_imm_filter` returns one mixture for each interval between retained inputs; all modes of a mixture have the same
stamp: the initial one for the first, that of retained input `k` for mixture `k`. -/
theorem C98_imm_clock (f : Imm V U n (M + 1)) (x0 : Mixture V n (M + 1)) (t0 : ℝ) (hx : SameClock x0 t0) (ins : List (StInp U))
    (meas : List (StMeas V n)) (hi : ins = [] ∨ ∃ u ∈ ins, t0 ≤ u.stamp) (rs : List (Mixture V n (M + 1)))
    (h : runImm (immApi f) x0 ins meas = .ok rs) :
    rs.length = (retained StInp.stamp t0 ins).length - 1 ∧
    ∀ (k : ℕ) (r : Mixture V n (M + 1)), rs[k]? = some r → (k = 0 → r = x0) ∧
      ∀ v, k ≠ 0 → (retained StInp.stamp t0 ins)[k]? = some v → SameClock r v.stamp := by
  have e : runImm (immApi f) x0 ins meas = runImmLoop (immApi f) (dropBefore (immApi f).istamp t0 (sortByStamp (immApi f).istamp ins))
      (dropBefore (immApi f).ystamp t0 (sortByStamp (immApi f).ystamp meas)) x0 := by
    unfold runImm
    rw [(imm_clock f).stamp x0 t0 hx]
  rw [e] at h
  have e1 : dropBefore (immApi f).istamp t0 (sortByStamp (immApi f).istamp ins) = retained StInp.stamp t0 ins := dropBefore_fresh _ _ _ hi
  rw [e1] at h
  generalize retained StInp.stamp t0 ins = l at h
  cases l with
  | nil =>
    have : rs = [] := (Except.ok.inj h).symm
    subst this
    simp
  | cons u us =>
    obtain ⟨i1, i2⟩ := runImmLoop_clock (imm_clock f) us u _ x0 t0 hx rs h
    exact ⟨by simp [i1], i2⟩

/-- **C98, Gaussian sum.** `run_gsf_filter` likewise: all components of estimate `k` have one stamp, between retained input `k` (the initial
stamp for the first) and input `k + 1`. -/
theorem C98_gsf_clock (e : EkfEnv V U n) (x0 : Mixture V n (M + 1)) (t0 : ℝ) (hx : SameClock x0 t0) (ins : List (StInp U))
    (meas : List (StMeas V n)) (hi : ins = [] ∨ ∃ u ∈ ins, t0 ≤ u.stamp) (rs : List (Mixture V n (M + 1)))
    (h : runFilter (gsfApi e) x0 ins meas = .ok rs) :
    rs.length = (retained StInp.stamp t0 ins).length - 1 ∧
    ∀ (k : ℕ) (r : Mixture V n (M + 1)), rs[k]? = some r → ∃ s, SameClock r s ∧ (k = 0 → t0 ≤ s) ∧
      (∀ v, k ≠ 0 → (retained StInp.stamp t0 ins)[k]? = some v → v.stamp ≤ s) ∧
      ∀ v, (retained StInp.stamp t0 ins)[k + 1]? = some v → s ≤ v.stamp := by
  have e' : runFilter (gsfApi e) x0 ins meas = runLoop (gsfApi e) (dropBefore (gsfApi (M := M) e).istamp t0
      (sortByStamp (gsfApi (M := M) e).istamp ins)) (dropBefore (gsfApi (M := M) e).ystamp t0 (sortByStamp (gsfApi (M := M) e).ystamp meas)) x0 := by
    unfold runFilter
    rw [(gsf_clock e).stamp x0 t0 hx]
  rw [e'] at h
  have e1 : dropBefore (gsfApi (M := M) e).istamp t0 (sortByStamp (gsfApi (M := M) e).istamp ins) = retained StInp.stamp t0 ins :=
    dropBefore_fresh _ _ _ hi
  rw [e1] at h
  generalize retained StInp.stamp t0 ins = l at h
  cases l with
  | nil =>
    have : rs = [] := (Except.ok.inj h).symm
    subst this
    simp
  | cons u us =>
    obtain ⟨i1, i2⟩ := runLoop_clock (gsf_clock e) us u _ x0 t0 hx rs h
    exact ⟨by simp [i1], i2⟩

/-! ### Results of mixtures -/

/-- What a mixture result is. -/
theorem mixtureResult_ok {o : StateOps V n} {ops : ManifoldOps V n} {x : Mixture V n M} {truth : V} {r : MResult V n M}
    (h : mixtureResult o ops x truth = .ok r) : r.probs = x.probs ∧ ∃ g i, gaussianMixing ops x.probs x.states = .ok g ∧
      gaussianResult o g.state g.cov truth = .ok r.res ∧ r.res.stamp = (x.states i).state.stamp ∧ ∀ j, x.probs j ≤ x.probs i := by
  unfold mixtureResult at h
  obtain ⟨g, h1, h⟩ := bind_ok h
  obtain ⟨q, h2, h⟩ := bind_ok h
  cases h
  have h1' := h1
  unfold gaussianMixing at h1'
  obtain ⟨i, hi, h1'⟩ := bind_ok h1'
  refine ⟨rfl, g, i, h1, h2, ?_, (argmaxFirst_spec hi).1⟩
  show q.stamp = _
  rw [(gaussianResult_ok h2).2.1]
  cases h1'
  rfl

/-- **C98, one result per mixture.** `MixtureResultList.from_estimates` gives one result for each mixture, in order, with its model
probabilities; mixture `i` is compared with the truth at the stamp of its FIRST mode, while the stamp of the result is that of its most
probable mode. -/
theorem C98_from_estimates (o : StateOps V n) (ops : ManifoldOps V n) (m : InterpMethod) (ests : List (Mixture V n (M + 1)))
    (truths : List (V × ℝ)) (rs : List (MResult V n (M + 1))) (h : mixtureFromEstimates o ops m ests truths = .ok rs) :
    rs.length = ests.length ∧ ∀ (i : ℕ) (r : MResult V n (M + 1)), rs[i]? = some r →
      ∃ x t y j, ests[i]? = some x ∧ (x.states 0).state.stamp = some t ∧ interpOne o m truths t = .ok y ∧
        mixtureResult o ops x y.1 = .ok r ∧ r.probs = x.probs ∧ r.res.stateTrue = y.1 ∧
        r.res.stamp = (x.states j).state.stamp ∧ ∀ l, x.probs l ≤ x.probs j := by
  unfold mixtureFromEstimates at h
  obtain ⟨out, h1, h⟩ := bind_ok h
  obtain ⟨ts, rfl, hlen, hq⟩ := C50_queries o m truths _ out h1
  simp only [InterpOut.toList] at h
  obtain ⟨h2, h3⟩ := mapM_get h
  rw [List.length_map] at hlen
  rw [List.length_zip, hlen, Nat.min_self] at h2
  refine ⟨h2, fun i r hr => ?_⟩
  obtain ⟨p, hp, hg⟩ := h3 i r hr
  rw [List.getElem?_zip_eq_some] at hp
  obtain ⟨hp1, hp2⟩ := hp
  obtain ⟨t, y, ht, hy, hint⟩ := hq i (stampItem (p.1.states 0).state.stamp) (by rw [List.getElem?_map, hp1]; rfl)
  rw [hp2] at hy
  cases hy
  have hst : (p.1.states 0).state.stamp = some t := by
    cases hs : (p.1.states 0).state.stamp with
    | none => rw [hs] at ht; cases ht
    | some t' => rw [hs] at ht; cases ht; rfl
  obtain ⟨k1, g, j, k2, k3, k4, k5⟩ := mixtureResult_ok hg
  refine ⟨p.1, t, p.2, j, hp1, hst, ?_, hg, k1, ?_, k4, k5⟩
  · have : (interpOne o m truths t).map InterpOut.one = .ok (.one p.2) := hint
    cases hi : interpOne o m truths t with
    | error e => rw [hi] at this; cases this
    | ok v => rw [hi] at this; cases this; rfl
  · unfold gaussianResult at k3
    obtain ⟨_, _, k3⟩ := bind_ok k3
    obtain ⟨_, _, k3⟩ := bind_ok k3
    obtain ⟨_, _, k3⟩ := bind_ok k3
    obtain ⟨_, _, k3⟩ := bind_ok k3
    obtain ⟨_, _, k3⟩ := bind_ok k3
    rw [← Except.ok.inj k3]

/-- **C98, evaluation of a run.** For the mixtures that `run_imm_filter` returns the two stamps agree: result `k` is the comparison with the
truth at its own stamp. -/
theorem C98_evaluated_run (f : Imm V U n (M + 1)) (x0 : Mixture V n (M + 1)) (t0 : ℝ) (hx : SameClock x0 t0) (ins : List (StInp U))
    (meas : List (StMeas V n)) (hi : ins = [] ∨ ∃ u ∈ ins, t0 ≤ u.stamp) (ms : List (Mixture V n (M + 1)))
    (h : runImm (immApi f) x0 ins meas = .ok ms) (o : StateOps V n) (ops : ManifoldOps V n) (m : InterpMethod) (truths : List (V × ℝ))
    (rs : List (MResult V n (M + 1))) (hr : mixtureFromEstimates o ops m ms truths = .ok rs) :
    rs.length = ms.length ∧ ∀ (k : ℕ) (r : MResult V n (M + 1)), rs[k]? = some r →
      ∃ t y, r.res.stamp = some t ∧ interpOne o m truths t = .ok y ∧ r.res.stateTrue = y.1 := by
  obtain ⟨c1, c2⟩ := C98_imm_clock f x0 t0 hx ins meas hi ms h
  obtain ⟨e1, e2⟩ := C98_from_estimates o ops m ms truths rs hr
  refine ⟨e1, fun k r hk => ?_⟩
  obtain ⟨x, t, y, j, g1, g2, g3, g4, g5, g6, g7, g8⟩ := e2 k r hk
  refine ⟨t, y, ?_, g3, g6⟩
  obtain ⟨a1, a2⟩ := c2 k x g1
  have hsame : ∃ s, SameClock x s := by
    by_cases hk0 : k = 0
    · exact ⟨t0, by rw [a1 hk0]; exact hx⟩
    · have hlt : k < ms.length := (List.getElem?_eq_some_iff.1 g1).1
      have hlt' : k < (retained StInp.stamp t0 ins).length := by omega
      exact ⟨_, a2 _ hk0 (List.getElem?_eq_getElem hlt')⟩
  obtain ⟨s, hs⟩ := hsame
  rw [hs 0] at g2
  rw [g7, hs j, g2]

/-- **C98, agreeing modes.** If all modes hold the same estimate, the result is that of this estimate alone. -/
theorem C98_identical (o : StateOps V n) (ops : ManifoldOps V n) (x : SWC V n) (hminus : ops.minus x.state.value x.state.value = 0)
    (hplus : ops.plus x.state.value 0 = x.state.value) (hJ : ops.minusJac x.state.value x.state.value = 1)
    (hJ' : ops.plusJac x.state.value 0 = 1) (hM : M ≠ 0) (w : Fin M → ℝ) (hw : ∑ i, w i = 1) (truth : V) :
    mixtureResult o ops ⟨fun _ => x, w⟩ truth = (gaussianResult o x.state x.cov truth).map fun r => ⟨r, w⟩ := by
  unfold mixtureResult
  show (gaussianMixing ops w (fun _ => x) >>= _) = _
  rw [C20_mixing_identical ops x hminus hplus hJ hJ' hM w hw, ok_bindE]
  show (gaussianResult o x.state x.cov truth >>= _) = _
  cases gaussianResult o x.state x.cov truth <;> rfl

/-- **C98, a certain mode.** If one mode has probability one (the others zero), the result is that of this mode alone. -/
theorem C98_certain (o : StateOps V n) (ops : ManifoldOps V n) (xs : Fin M → SWC V n) (i : Fin M)
    (hminus : ops.minus (xs i).state.value (xs i).state.value = 0) (hplus : ops.plus (xs i).state.value 0 = (xs i).state.value)
    (hJ : ops.minusJac (xs i).state.value (xs i).state.value = 1) (hJ' : ops.plusJac (xs i).state.value 0 = 1) (truth : V) :
    mixtureResult o ops ⟨xs, Pi.single i 1⟩ truth =
      (gaussianResult o (xs i).state (xs i).cov truth).map fun r => ⟨r, Pi.single i 1⟩ := by
  have hmix : gaussianMixing ops (Pi.single i 1) xs = .ok (xs i) := by
    obtain ⟨j, hj⟩ := argmaxFirst_total (fun h => by subst h; exact i.elim0) (Pi.single i (1 : ℝ) : Fin M → ℝ)
    have hji : j = i := by
      by_contra hne
      have := (argmaxFirst_spec hj).1 i
      rw [Pi.single_eq_same, Pi.single_eq_of_ne hne] at this
      linarith
    subst hji
    unfold gaussianMixing
    rw [hj, ok_bindE]
    have hm : mixVec (Pi.single j (1 : ℝ) : Fin M → ℝ) (fun l => ops.minus (xs l).state.value (xs j).state.value)
        (fun l => ops.minusJac (xs l).state.value (xs j).state.value * (xs l).cov *
          (ops.minusJac (xs l).state.value (xs j).state.value)ᵀ) = (0, (xs j).cov) := by
      have h1 : ∑ l, (Pi.single j (1 : ℝ) : Fin M → ℝ) l • ops.minus (xs l).state.value (xs j).state.value = 0 := by
        rw [Finset.sum_eq_single j (fun l _ hl => by rw [Pi.single_eq_of_ne hl, zero_smul]) (by simp), hminus, smul_zero]
      unfold mixVec
      simp only [h1]
      congr 1
      rw [Finset.sum_eq_single j (fun l _ hl => by rw [Pi.single_eq_of_ne hl, zero_smul, zero_smul, add_zero]) (by simp),
        Pi.single_eq_same, hJ, hminus]
      simp
    show Except.ok (mixAbout ops (xs j).state (Pi.single j 1) xs) = _
    unfold mixAbout
    simp only [hm, hJ', hplus, Matrix.one_mul, transpose_one, Matrix.mul_one]
  unfold mixtureResult
  show (gaussianMixing ops (Pi.single i 1) xs >>= _) = _
  rw [hmix, ok_bindE]
  show (gaussianResult o (xs i).state (xs i).cov truth >>= _) = _
  cases gaussianResult o (xs i).state (xs i).cov truth <;> rfl

theorem sq_mean_le (w : Fin M → ℝ) (hw : ∀ i, 0 ≤ w i) (hs : ∑ i, w i = 1) (a : Fin M → ℝ) :
    (∑ i, w i * a i) ^ 2 ≤ ∑ i, w i * a i ^ 2 := by
  have h1 : 0 ≤ ∑ i, w i * (a i - ∑ j, w j * a j) ^ 2 := Finset.sum_nonneg fun i _ => mul_nonneg (hw i) (sq_nonneg _)
  have h2 : ∑ i, w i * (a i - ∑ j, w j * a j) ^ 2 = ∑ i, w i * a i ^ 2 - (∑ i, w i * a i) ^ 2 := by
    have e : ∀ i, w i * (a i - ∑ j, w j * a j) ^ 2 =
        w i * a i ^ 2 - 2 * (∑ j, w j * a j) * (w i * a i) + w i * (∑ j, w j * a j) ^ 2 := fun i => by ring
    simp only [e, Finset.sum_add_distrib, Finset.sum_sub_distrib, ← Finset.mul_sum, ← Finset.sum_mul, hs]
    ring
  linarith

/-- **C98, vector states.** The error of a mixture is the average of the errors of its modes, its covariance their average covariance plus
the spread of the means, and its squared error is at most the average squared error of the modes. -/
theorem C98_vector (o : StateOps (Vec n) n) (ho : ∀ a b, o.minus a b = a - b) (x : Mixture (Vec n) n M) (hw : ∀ i, 0 ≤ x.probs i)
    (hs : ∑ i, x.probs i = 1) (truth : Vec n) (r : MResult (Vec n) n M) (h : mixtureResult o (vecOps n) x truth = .ok r) :
    r.res.error = ∑ i, x.probs i • (truth - (x.states i).state.value) ∧
    r.res.covariance = ∑ i, x.probs i • ((x.states i).cov +
      vecMulVec ((x.states i).state.value - r.res.state) ((x.states i).state.value - r.res.state)) ∧
    r.res.ees ≤ ∑ i, x.probs i * ∑ l, (truth l - (x.states i).state.value l) ^ 2 := by
  have hM : M ≠ 0 := by rintro rfl; simp at hs
  obtain ⟨-, g, -, h1, h2, -, -⟩ := mixtureResult_ok h
  obtain ⟨q, i, k1, k2, k3, -, -, -⟩ := C20_mixing_vector hM x.probs hs x.states
  rw [h1] at k1
  cases k1
  obtain ⟨-, -, g1, g2, g3, -⟩ := gaussianResult_ok h2
  have hst : r.res.state = g.state.value := by
    unfold gaussianResult at h2
    obtain ⟨_, _, h2⟩ := bind_ok h2
    obtain ⟨_, _, h2⟩ := bind_ok h2
    obtain ⟨_, _, h2⟩ := bind_ok h2
    obtain ⟨_, _, h2⟩ := bind_ok h2
    obtain ⟨_, _, h2⟩ := bind_ok h2
    rw [← Except.ok.inj h2]
  have herr : r.res.error = ∑ i, x.probs i • (truth - (x.states i).state.value) := by
    rw [g2, ho, k2]
    simp only [smul_sub, Finset.sum_sub_distrib, ← Finset.sum_smul, hs, one_smul]
  refine ⟨herr, ?_, ?_⟩
  · rw [g1, k3, hst]
  · rw [g3, herr]
    simp only [Finset.sum_apply, Pi.smul_apply, Pi.sub_apply, smul_eq_mul, Finset.mul_sum]
    rw [Finset.sum_comm (s := Finset.univ (α := Fin M))]
    refine Finset.sum_le_sum fun l _ => ?_
    exact sq_mean_le x.probs hw hs (fun i => truth l - (x.states i).state.value l)

/-- Two models and inputs at 0, 1: the run returns one mixture, with one clock. -/
example : ∃ rs, runImm (immApi (⟨fun _ => env1, vecOps 1, !![9 / 10, 1 / 10; 1 / 10, 9 / 10]⟩ : Imm (Vec 1) ℝ 1 2))
    ⟨fun _ => est1 0, fun _ => 1 / 2⟩ [⟨0, 1⟩, ⟨0, 0⟩] [] = .ok rs ∧ rs.length = 1 := by
  set f : Imm (Vec 1) ℝ 1 2 := ⟨fun _ => env1, vecOps 1, !![9 / 10, 1 / 10; 1 / 10, 9 / 10]⟩
  set x0 : Mixture (Vec 1) 1 2 := ⟨fun _ => est1 0, fun _ => 1 / 2⟩
  have hp : f.predict x0 (some ⟨0, some 0⟩) (some (1 - 0)) =
      .ok ⟨fun _ => env1.propagate (est1 0) ⟨0, some 0⟩ 0 (1 - 0) (est1 0).state, fun _ => 1 / 2⟩ := by
    unfold Imm.predict
    have e : seqFin 2 (fun i => (f.kfs i).predict (x0.states i) (some ⟨0, some 0⟩) (some (1 - 0)) none) =
        .ok fun _ => env1.propagate (est1 0) ⟨0, some 0⟩ 0 (1 - 0) (est1 0).state :=
      seqFin_of fun _ => predict_some_some env1 (est1 0) _ 0 _ none rfl (by norm_num)
    rw [e]
    rfl
  have h1 : SameLog (immApi f).istamp [⟨0, 1⟩, ⟨0, 0⟩] [⟨0, 0⟩, ⟨0, 1⟩] :=
    sameLog_of_perm (List.Perm.swap _ _ _) (by simp [immApi])
  have h2 : runImm (immApi f) x0 [⟨0, 0⟩, ⟨0, 1⟩] [] = .ok [x0] := by
    show runImmLoop _ (dropBefore _ 0 (sortByStamp _ _)) (dropBefore _ 0 (sortByStamp _ _)) _ = _
    rw [sortByStamp_of_sorted _ _ (by simp [TimeSorted, immApi]), sortByStamp_of_sorted _ _ (by simp [TimeSorted])]
    have d1 : dropBefore (immApi f).istamp 0 [⟨0, 0⟩, ⟨0, 1⟩] = [⟨0, 0⟩, ⟨0, 1⟩] := by
      unfold dropBefore
      rw [if_pos ⟨⟨0, 0⟩, by simp, by simp [immApi]⟩]
      simp [immApi]
    have d2 : dropBefore (immApi f).ystamp 0 [] = [] := by
      unfold dropBefore
      simp
    rw [d1, d2]
    show (f.predict x0 (some ⟨0, some 0⟩) (some (1 - 0)) >>= _) = _
    rw [hp]
    rfl
  refine ⟨[x0], ?_, rfl⟩
  rw [← h2]
  exact (C97_run_imm (immApi f) x0 _ _ [] [] h1 (fun _ => rfl)).symm

/-- Two modes at 0 with unit covariances, compared with the truth 2: the result exists. -/
example (o : StateOps (Vec 1) 1) : ∃ r, mixtureResult o (vecOps 1) (⟨fun _ => est1 0, fun _ => 1 / 2⟩ : Mixture (Vec 1) 1 2) (fun _ => 2) = .ok r := by
  obtain ⟨r, h, -⟩ := C54_result o (est1 0).state (est1 0).cov (fun _ => 2) (one_pd 1) one_pos
  refine ⟨⟨r, fun _ => 1 / 2⟩, ?_⟩
  rw [C98_identical o (vecOps 1) (est1 0) (by simp [vecOps]) (by simp [vecOps]) rfl rfl (by norm_num) _ (by simp), h]
  rfl

/-! ### Monte Carlo experiments -/

section MonteCarlo

variable {α : Type}

theorem jobs_ok {trial : ℕ → Except Err α} : ∀ {done : List ℕ} {slots out : List (Option α)}, done.Nodup →
    done.foldlM (jobDone trial) slots = .ok out → out.length = slots.length ∧ (∀ i ∈ done, ∃ r, trial i = .ok r ∧
      (i < slots.length → out[i]? = some (some r))) ∧ ∀ i, i ∉ done → out[i]? = slots[i]?
  | [], slots, out, hn, h => by
    cases h
    exact ⟨rfl, by simp, fun _ _ => rfl⟩
  | j :: done, slots, out, hn, h => by
    rw [List.foldlM_cons] at h
    obtain ⟨s1, h1, h⟩ := bind_ok h
    unfold jobDone at h1
    obtain ⟨r, hr, h1⟩ := bind_ok h1
    cases h1
    obtain ⟨hj, hn'⟩ := List.nodup_cons.1 hn
    obtain ⟨i1, i2, i3⟩ := jobs_ok hn' h
    rw [List.length_set] at i1 i2
    refine ⟨i1, fun i hi => ?_, fun i hi => ?_⟩
    · rcases List.mem_cons.1 hi with rfl | hi
      · refine ⟨r, hr, fun hlt => ?_⟩
        rw [i3 i hj, List.getElem?_set_self hlt]
      · exact i2 i hi
    · rw [List.mem_cons, not_or] at hi
      rw [i3 i hi.2, List.getElem?_set_ne (Ne.symm hi.1)]

theorem jobs_run {trial : ℕ → Except Err α} : ∀ (done : List ℕ) (slots : List (Option α)), (∀ i ∈ done, ∃ r, trial i = .ok r) →
    ∃ out, done.foldlM (jobDone trial) slots = .ok out
  | [], slots, h => ⟨slots, rfl⟩
  | j :: done, slots, h => by
    obtain ⟨r, hr⟩ := h j (by simp)
    obtain ⟨out, ho⟩ := jobs_run done (slots.set j (some r)) fun i hi => h i (by simp [hi])
    refine ⟨out, ?_⟩
    rw [List.foldlM_cons]
    show (jobDone trial slots j >>= _) = _
    have : jobDone trial slots j = .ok (slots.set j (some r)) := by unfold jobDone; rw [hr]; rfl
    rw [this, ok_bindE]
    exact ho

theorem slots_mapM : ∀ (l : List (Option α)) (l' : List α), l = l'.map some → l.mapM slotValue = .ok l'
  | _, [], rfl => rfl
  | _, a :: l', rfl => by
    rw [List.map_cons, List.mapM_cons, slots_mapM (l'.map some) l' rfl]
    rfl

/-- **C98, schedules.** Whatever the order in which the jobs finish: the experiment returns the results of the trials `0, …, num - 1` in this
order, if all of them return. -/
theorem C98_parallel (num : ℕ) (done : List ℕ) (hd : done.Perm (List.range num)) (trial : ℕ → Except Err α) (rs : List α) :
    parallel num done trial = .ok rs ↔ rs.length = num ∧ ∀ i r, rs[i]? = some r → trial i = .ok r := by
  have hnd : done.Nodup := hd.nodup_iff.2 List.nodup_range
  have key : ∀ out, done.foldlM (jobDone trial) (List.replicate num none) = .ok out →
      ∃ l : List α, out = l.map some ∧ l.length = num ∧ ∀ i r, l[i]? = some r → trial i = .ok r := by
    intro out ho
    obtain ⟨o1, o2, o3⟩ := jobs_ok hnd ho
    rw [List.length_replicate] at o1 o2
    have hall : ∀ i (hi : i < num), ∃ r, trial i = .ok r ∧ out[i]? = some (some r) := by
      intro i hi
      obtain ⟨r, h1, h2⟩ := o2 i (hd.mem_iff.2 (List.mem_range.2 hi))
      exact ⟨r, h1, h2 hi⟩
    choose g hg1 hg2 using hall
    refine ⟨List.ofFn fun i : Fin num => g i i.2, ?_, by simp, fun i r hr => ?_⟩
    · refine List.ext_getElem? fun i => ?_
      by_cases hi : i < num
      · rw [hg2 i hi, List.getElem?_map, List.getElem?_eq_getElem (by simpa using hi)]
        simp
      · rw [List.getElem?_eq_none (by omega), List.getElem?_eq_none (by simp; omega)]
    · have hi : i < num := by
        have := (List.getElem?_eq_some_iff.1 hr).1
        simpa using this
      rw [List.getElem?_eq_getElem (by simpa using hi)] at hr
      simp only [List.getElem_ofFn, Option.some.injEq] at hr
      rw [← hr]
      exact hg1 i hi
  constructor
  · intro h
    unfold parallel at h
    obtain ⟨out, ho, h⟩ := bind_ok h
    obtain ⟨l, e1, e2, e3⟩ := key out ho
    rw [slots_mapM out l e1] at h
    cases h
    exact ⟨e2, e3⟩
  · rintro ⟨h1, h2⟩
    have hok : ∀ i ∈ done, ∃ r, trial i = .ok r := by
      intro i hi
      have hi' : i < rs.length := by rw [h1]; exact List.mem_range.1 (hd.mem_iff.1 hi)
      exact ⟨rs[i], h2 i _ (List.getElem?_eq_getElem hi')⟩
    obtain ⟨out, ho⟩ := jobs_run done (List.replicate num none) hok
    obtain ⟨l, e1, e2, e3⟩ := key out ho
    have : l = rs := by
      refine List.ext_getElem? fun i => ?_
      by_cases hi : i < num
      · have a1 := List.getElem?_eq_getElem (l := l) (i := i) (by omega)
        have a2 := List.getElem?_eq_getElem (l := rs) (i := i) (by omega)
        have b1 := e3 i _ a1
        have b2 := h2 i _ a2
        rw [b1] at b2
        rw [a1, a2, Except.ok.inj b2]
      · rw [List.getElem?_eq_none (by omega), List.getElem?_eq_none (by omega)]
    unfold parallel
    rw [ho, ok_bindE, slots_mapM out l e1, this]

/-- **C98, schedules.** So the result of a Monte Carlo experiment does not depend on the number of jobs. -/
theorem C98_schedules (dof num : ℕ) (done done' : List ℕ) (hd : done.Perm (List.range num)) (hd' : done'.Perm (List.range num))
    (trial : ℕ → Except Err Trial) (r : MonteCarlo) (h : monteCarlo dof num done trial = .ok r) : monteCarlo dof num done' trial = .ok r := by
  unfold monteCarlo at h ⊢
  obtain ⟨ts, h1, h⟩ := bind_ok h
  rw [(C98_parallel num done' hd' trial ts).2 ((C98_parallel num done hd trial ts).1 h1), ok_bindE]
  exact h

theorem mapM_entries {α β : Type} {g : α → Except Err β} : ∀ {l : List α} {r : List β}, l.mapM g = .ok r →
    r.length = l.length ∧ ∀ (j : ℕ) (b : β), r[j]? = some b → ∃ a, l[j]? = some a ∧ g a = .ok b
  | [], r, h => by
    cases h
    exact ⟨rfl, fun j b hb => by simp at hb⟩
  | a :: l, r, h => by
    rw [List.mapM_cons] at h
    obtain ⟨b, h1, h⟩ := bind_ok h
    obtain ⟨bs, h2, h⟩ := bind_ok h
    cases h
    obtain ⟨g1, g2⟩ := mapM_entries h2
    refine ⟨by simp [g1], fun j c hc => ?_⟩
    cases j with
    | zero =>
      simp only [List.getElem?_cons_zero, Option.some.injEq] at hc
      exact ⟨a, rfl, by rw [← hc]; exact h1⟩
    | succ j =>
      rw [List.getElem?_cons_succ] at hc
      exact g2 j c hc

/-- **C98, averages.** Whatever the order in which the jobs finish: at each time step, `average_nees` and `average_ees` are the means over
all `num` trials, `total_rmse` is the root of the mean squared error over all trials, and `rmse` the same for each component. -/
theorem C98_averages (dof num : ℕ) (done : List ℕ) (hd : done.Perm (List.range num)) (trial : ℕ → Except Err Trial) (r : MonteCarlo)
    (h : monteCarlo dof num done trial = .ok r) :
    ∃ ts : List Trial, ts.length = num ∧ (∀ (i : ℕ) (t : Trial), ts[i]? = some t → trial i = .ok t) ∧ 0 < num ∧
      (∀ t ∈ ts, t.nees.length = r.averageNees.length ∧ t.ees.length = r.averageEes.length) ∧
      (∀ (k : ℕ) (a : ℝ), r.averageNees[k]? = some a → a = (ts.map fun t => t.nees.getD k 0).sum / num) ∧
      (∀ (k : ℕ) (a : ℝ), r.averageEes[k]? = some a → a = (ts.map fun t => t.ees.getD k 0).sum / num) ∧
      r.totalRmse = r.averageEes.map Real.sqrt ∧ r.rmse.length = dof ∧
      ∀ (j : ℕ) (l : List ℝ), r.rmse[j]? = some l → ∀ (k : ℕ) (a : ℝ), l[k]? = some a →
        a = Real.sqrt ((ts.map fun t => ((t.error.getD j []).getD k 0) ^ 2).sum / num) := by
  unfold monteCarlo at h
  obtain ⟨ts, h1, h⟩ := bind_ok h
  obtain ⟨e1, e2⟩ := (C98_parallel num done hd trial ts).1 h1
  unfold monteCarloResult at h
  obtain ⟨an, g1, h⟩ := bind_ok h
  obtain ⟨ae, g2, h⟩ := bind_ok h
  obtain ⟨ms, g3, h⟩ := bind_ok h
  cases h
  obtain ⟨n1, n2, n3⟩ := columnAverage_ok g1
  obtain ⟨m1, m2, m3⟩ := columnAverage_ok g2
  obtain ⟨q1, q2⟩ := mapM_entries g3
  simp only [List.length_map, List.map_map, e1] at n3 m3
  refine ⟨ts, e1, e2, ?_, fun t ht => ⟨n2 _ (List.mem_map.2 ⟨t, ht, rfl⟩), m2 _ (List.mem_map.2 ⟨t, ht, rfl⟩)⟩, n3, m3, rfl,
    by simpa using q1, ?_⟩
  · rw [← e1]
    exact List.length_pos_iff.2 fun hc => n1 (by rw [hc]; rfl)
  · intro j l hl k a ha
    rw [List.getElem?_map] at hl
    cases hm : ms[j]? with
    | none => rw [hm] at hl; cases hl
    | some c =>
      rw [hm] at hl
      obtain rfl := Option.some.inj hl
      obtain ⟨j', w1, w2⟩ := q2 j c hm
      obtain rfl : j = j' := by
        have := List.getElem?_eq_some_iff.1 w1
        obtain ⟨hh, w⟩ := this
        simpa using w
      rw [List.getElem?_map] at ha
      cases hc : c[k]? with
      | none => rw [hc] at ha; cases ha
      | some z =>
        rw [hc] at ha
        obtain rfl := Option.some.inj ha
        obtain ⟨-, c2, c3⟩ := columnAverage_ok w2
        rw [c3 k z hc]
        simp only [List.length_map, List.map_map, e1]
        congr 3
        refine List.map_congr_left fun t _ => ?_
        simp only [Function.comp, List.getD_eq_getElem?_getD, List.getElem?_map]
        cases (t.error[j]?.getD [])[k]? <;> simp

/-- Two trials with one time step, the second finishing first. -/
example : ∃ r, monteCarlo 1 2 [1, 0] (fun i => .ok ⟨[i], [i], [[i]]⟩) = .ok r ∧ r.averageNees = [1 / 2] ∧
    r.rmse = [[Real.sqrt (1 / 2)]] := by
  refine ⟨_, rfl, ?_, ?_⟩ <;> simp

/-- **C98, no trials.** An experiment without trials raises `IndexError`. -/
theorem C98_no_trials (dof : ℕ) (trial : ℕ → Except Err Trial) : monteCarlo dof 0 [] trial = .error .indexError := rfl

theorem columnAverage_perm {rows rows' : List (List ℝ)} (h : rows.Perm rows') : columnAverage rows' = columnAverage rows := by
  have key : ∀ (q : List ℝ) (qs : List (List ℝ)) (L : ℕ), (q :: qs).Perm rows → (∀ r ∈ rows, r.length = L) →
      columnAverage (q :: qs) = .ok ((List.range L).map fun t => (rows.map fun r => r.getD t 0).sum / (rows.length : ℝ)) := by
    intro q qs L hp hL
    have hq : q.length = L := hL q (hp.mem_iff.1 (by simp))
    simp only [columnAverage]
    rw [if_pos (by
      rw [List.all_eq_true]
      intro r hr
      simp [hq, hL r (hp.mem_iff.1 (by simp [hr]))]), hq]
    congr 1
    refine List.map_congr_left fun t _ => ?_
    rw [(hp.map _).sum_eq, hp.length_eq]
  have bad : ∀ (q : List ℝ) (qs : List (List ℝ)), (q :: qs).Perm rows → (¬ ∃ L, ∀ r ∈ rows, r.length = L) →
      columnAverage (q :: qs) = .error .valueError := by
    intro q qs hp hL
    simp only [columnAverage]
    rw [if_neg]
    intro hall
    rw [List.all_eq_true] at hall
    refine hL ⟨q.length, fun r hr => ?_⟩
    rcases List.mem_cons.1 (hp.mem_iff.2 hr) with rfl | hr
    · rfl
    · simpa using hall r hr
  cases rows with
  | nil => rw [List.nil_perm.1 h]
  | cons a l =>
    cases rows' with
    | nil => exact absurd h.symm (by simp)
    | cons a' l' =>
      by_cases hL : ∃ L, ∀ r ∈ a :: l, r.length = L
      · obtain ⟨L, hL⟩ := hL
        rw [key a' l' L h.symm hL, key a l L (List.Perm.refl _) hL]
      · rw [bad a' l' h.symm hL, bad a l (List.Perm.refl _) hL]

/-- **C98, order of the trials.** The averages do not depend on the order of the trials. -/
theorem C98_trial_order (dof : ℕ) (ts ts' : List Trial) (h : ts.Perm ts') : monteCarloResult dof ts' = monteCarloResult dof ts := by
  unfold monteCarloResult
  rw [columnAverage_perm (h.map Trial.nees), columnAverage_perm (h.map Trial.ees)]
  have e : (fun j => columnAverage (ts'.map fun t => (t.error.getD j []).map fun e => e ^ 2)) =
      fun j => columnAverage (ts.map fun t => (t.error.getD j []).map fun e => e ^ 2) := by
    funext j
    exact columnAverage_perm (h.map _)
  rw [e]

/-- Three trials, the last finishing first. -/
example : parallel 3 [2, 0, 1] (fun i => .ok (i * i) : ℕ → Except Err ℕ) = .ok [0, 1, 4] := rfl

end MonteCarlo

end Verif
