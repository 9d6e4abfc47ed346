import Verif.Props.PerfectBatch
import Verif.Props.Datasets

/-!
C102: `BatchEstimator.solve` on data without noise.
-/

namespace Verif

set_option linter.unusedVariables false
set_option linter.unusedSectionVars false

open Matrix

variable {V U : Type} {n : ℕ}

/-! ### The problem -/

theorem problem_form {o : StateOps V n} {f : ProcModel V U n} {cfg : ProbCfg} {g : BatchGraph V U n}
    {rs : List (Residual ℕ (St V))} (h : g.factors.mapM (BFactor.residual o f) = .ok rs) :
    g.problem o f cfg = .ok { (Prob.new cfg : Prob ℕ (St V)) with
      varsInit := g.vars.zipIdx.map (fun p => (p.2, p.1)), residuals := rs, losses := rs.map fun _ => l2Loss } := by
  unfold BatchGraph.problem
  rw [h]
  show Except.ok _ = _
  rw [addVariables_fold _ _ _ (by simp [Prob.new]), addResiduals_fold]
  simp [Prob.new]

theorem facs_res {o : StateOps V n} (ho : ZeroLaws o) {f : ProcModel V U n} {T : List (St V)} :
    ∀ {fs' : List (BFactor (Vec n) (U × V) n)} {fs : List (BFactor V U n)} {rs' : List (Residual ℕ (St (Vec n)))},
      List.Forall₂ (FacRel f T) fs' fs → fs'.mapM (BFactor.residual (vecStateOps n) (errModel f)) = .ok rs' →
      ∃ rs, fs.mapM (BFactor.residual o f) = .ok rs ∧ List.Forall₂ (ResRel (ErrRel T)) rs' rs ∧
        ∀ r' ∈ rs', ∀ xs xs' err, StatesRel (ErrRel T) r'.keys xs xs' → r'.error xs = .ok err → ∀ z ∈ err, z = 0
  | [], _, rs', .nil, h => by
    cases h
    exact ⟨[], rfl, .nil, fun r hr => by cases hr⟩
  | a' :: fs', a :: fs, rs', .cons ha hs, h => by
    rw [List.mapM_cons] at h
    obtain ⟨r', h1, h⟩ := bind_ok h
    obtain ⟨rr', h2, h⟩ := bind_ok h
    cases h
    obtain ⟨r, g1, g2, g3⟩ := fac_res ho ha h1
    obtain ⟨rr, k1, k2, k3⟩ := facs_res ho hs h2
    refine ⟨r :: rr, ?_, .cons g2 k2, fun q hq => ?_⟩
    · rw [List.mapM_cons, g1, ok_bindE, k1, ok_bindE]
      rfl
    · rcases List.mem_cons.1 hq with rfl | hq
      · exact g3
      · exact k3 q hq

theorem procFactors_rel (f : ProcModel V U n) (T : List (St V)) : ∀ (us : List (StInp U)) (k : ℕ) (x : St V),
    (∀ u, us.head? = some u → x.stamp = some u.stamp) → (∀ i, T[k + i]? = (deadReckon f x us)[i]?) →
    List.Forall₂ (FacRel f T) (procFactors k (errInputs f x us)) (procFactors k us)
  | [], k, x, hx, hT => .nil
  | [_], k, x, hx, hT => .nil
  | u :: u' :: us, k, x, hx, hT => by
    obtain ⟨l, hl⟩ := errInputs_head f u' us (reckon f x u u')
    have e : errInputs f x (u :: u' :: us) =
      ⟨(u.value, x.value), u.stamp⟩ :: errInputs f (reckon f x u u') (u' :: us) := rfl
    have hx0 : (⟨x.value, some u.stamp⟩ : St V) = x := by rw [← hx u rfl]
    have ih := procFactors_rel f T (u' :: us) (k + 1) (reckon f x u u') (fun v hv => by
      simp only [List.head?_cons, Option.some.injEq] at hv
      rw [← hv]; rfl) (fun i => by
      rw [show k + 1 + i = k + (i + 1) by omega, hT (i + 1)]
      rfl)
    rw [hl] at ih
    rw [e, hl]
    refine .cons ⟨rfl, rfl, x.value, u', rfl, ?_, ?_⟩ ih
    · have := hT 0
      rw [Nat.add_zero] at this
      rw [this, hx0]
      rfl
    · have := hT 1
      rw [this, hx0]
      show (deadReckon f (reckon f x u u') (u' :: us))[0]? = _
      exact deadReckon_head f u' us _

/-- Slices of variables with `n` degrees of freedom each. -/
theorem uniform_slices {o : StateOps V n} {T : List (St V)} {P P1 : Prob ℕ (St V)} (h : P.started o.varOps = .ok P1)
    (hc : P.constKeys = []) (hv : P.varsInit = T.zipIdx.map fun p => (p.2, p.1)) :
    P1.sizeState = T.length * n ∧ ∀ k < T.length, P1.varSlices.lookup k = some ⟨k * n, k * n + n⟩ := by
  obtain ⟨-, h2, h3⟩ := started_slices h
  have hk : (P.varsInit.map Prod.fst) = List.range T.length := by
    rw [hv, List.map_map]
    have : (Prod.fst ∘ fun p : St V × ℕ => (p.2, p.1)) = Prod.snd := rfl
    rw [this, List.zipIdx_map_snd, List.range_eq_range']
  obtain ⟨c1, c2⟩ := colSlices_spec (o := o.varOps) (const := P.constKeys) P.varsInit 0 P.varSlices
    (by rw [hk]; exact List.nodup_range)
  simp only [Nat.zero_add] at c1 c2
  rw [← h3] at c1
  rw [← h2] at c2
  have hd : freeDofs o.varOps P.constKeys P.varsInit = List.replicate T.length n := by
    unfold freeDofs
    rw [hc, freeVars_nil, hv, List.map_map]
    refine List.eq_replicate_iff.2 ⟨by simp, fun d hd => ?_⟩
    obtain ⟨k, -, rfl⟩ := List.mem_map.1 hd
    rfl
  refine ⟨by rw [c1, hd, List.sum_replicate, smul_eq_mul], fun k hk => ?_⟩
  rw [c2 k k T[k] (by
    rw [hc, freeVars_nil, hv, List.getElem?_map, List.getElem?_zipIdx, List.getElem?_eq_getElem hk]
    simp), hd, pre_replicate _ _ hk.le, pre_replicate _ _ hk, Nat.succ_mul]

theorem zeroStep_uniform {o : StateOps V n} (ho : ∀ v, o.plus v 0 = v) {T : List (St V)} {P1 : Prob ℕ (St V)} {N : ℕ}
    (hN : N = T.length * n) (hs : ∀ k < T.length, P1.varSlices.lookup k = some ⟨k * n, k * n + n⟩)
    (hk : ∀ p ∈ P1.vars, p.1 < T.length) : ZeroStep o.varOps P1 N P1.vars := by
  intro p hp hc
  have hlt := hk p hp
  refine ⟨_, hs p.1 hlt, ?_⟩
  have hlen : (((List.ofFn (0 : Vec N)).drop (p.1 * n)).take (p.1 * n + n - p.1 * n)).length = n := by
    have h1 : p.1 * n + n ≤ T.length * n := by
      have : (p.1 + 1) * n ≤ T.length * n := Nat.mul_le_mul_right n hlt
      rwa [Nat.add_mul, Nat.one_mul] at this
    simp only [List.length_take, List.length_drop, List.length_ofFn]
    omega
  show (if (((List.ofFn (0 : Vec N)).drop (p.1 * n)).take (p.1 * n + n - p.1 * n)).length = n then _ else _) = _
  rw [if_pos hlen]
  have : (fun i : Fin n => (((List.ofFn (0 : Vec N)).drop (p.1 * n)).take (p.1 * n + n - p.1 * n)).getD i 0) = 0 := by
    funext i
    rw [List.getD_eq_getElem?_getD]
    cases hq : (((List.ofFn (0 : Vec N)).drop (p.1 * n)).take (p.1 * n + n - p.1 * n))[i.1]? with
    | none => rfl
    | some z =>
      have hz : z ∈ List.ofFn (0 : Vec N) := List.drop_subset _ _ (List.take_subset _ _ (List.mem_of_getElem? hq))
      obtain ⟨j, rfl⟩ := List.mem_ofFn.1 hz
      rfl
  rw [this, ho]

/-- The settings: Gauss-Newton with at least one iteration, or Levenberg-Marquardt. -/
def GoodSolver (cfg : ProbCfg) : Prop := (cfg.solver = "GN" ∧ 0 < cfg.maxIters) ∨ (cfg.solver = "LM" ∧ 0 ≤ cfg.tau)

/-- Corresponding graphs, of which the linear one is solved: the other one is solved too, its variables stay as they are
and its covariance blocks are those of the linear one. -/
theorem graph_still {o : StateOps V n} (ho : ZeroLaws o) {f : ProcModel V U n} (hn : 0 < n) {g' : BatchGraph (Vec n) (U × V) n}
    {g : BatchGraph V U n} (hne : 0 < g.vars.length) (hvars : g'.vars = g.vars.map fun x => ⟨0, x.stamp⟩)
    (hfac : List.Forall₂ (FacRel f g.vars) g'.factors g.factors) {cfg cfg' : ProbCfg} (hc : GoodSolver cfg)
    (hs' : cfg'.solver = "GN") (hit' : 0 < cfg'.maxIters) {Q Q' : Prob ℕ (St (Vec n))}
    (h1 : g'.problem (vecStateOps n) (errModel f) cfg' = .ok Q) (h2 : Q.solve (vecStateOps n).varOps = .ok Q')
    {res' : List (St (Vec n) × DMat)} (h3 : batchResults Q' Q'.vars = .ok res') :
    ∃ P P' res, g.problem o f cfg = .ok P ∧ P.solve o.varOps = .ok P' ∧ batchResults P' P'.vars = .ok res ∧
      res.map Prod.fst = g.vars ∧ res'.map Prod.fst = g'.vars ∧ res.map Prod.snd = res'.map Prod.snd := by
  have h1' := h1
  unfold BatchGraph.problem at h1'
  obtain ⟨rs', hrs', -⟩ := bind_ok h1'
  obtain ⟨rs, q1, q2, q3⟩ := facs_res ho hfac hrs'
  rw [problem_form hrs'] at h1
  obtain rfl := Except.ok.inj h1
  set Q : Prob ℕ (St (Vec n)) := { (Prob.new cfg' : Prob ℕ (St (Vec n))) with
      varsInit := g'.vars.zipIdx.map (fun p => (p.2, p.1)), residuals := rs', losses := rs'.map fun _ => l2Loss } with hQ
  set P : Prob ℕ (St V) := { (Prob.new cfg : Prob ℕ (St V)) with
      varsInit := g.vars.zipIdx.map (fun p => (p.2, p.1)), residuals := rs, losses := rs.map fun _ => l2Loss } with hP
  have hlen : g'.vars.length = g.vars.length := by rw [hvars, List.length_map]
  have hvr : VarsRel (ErrRel g.vars) Q.varsInit P.varsInit := by
    refine List.forall₂_iff_get.2 ⟨by simp [hQ, hP, hlen], fun i hi1 hi2 => ?_⟩
    have hi : i < g.vars.length := by simpa [hP] using hi2
    simp only [List.get_eq_getElem]
    simp only [hQ, hP, List.getElem_map, List.getElem_zipIdx, Nat.zero_add, hvars]
    refine ⟨trivial, List.getElem?_eq_getElem hi, rfl⟩
  have hrel : ProbRel (ErrRel g.vars) Q { P with cfg := cfg' } := by
    refine ⟨rfl, hvr, rfl, q2, ?_, .nil, rfl, rfl, rfl, rfl, rfl, rfl⟩
    show rs'.map _ = rs.map _
    rw [List.map_const', List.map_const', q2.length_eq]
  obtain ⟨Q1, s1, s2⟩ := solve_GN hs' h2
  obtain ⟨a1, a2, a3, a4, a5, a6, a7, a8⟩ := started_fields s1
  -- the linear problem
  obtain ⟨L, hL, -⟩ := bind_ok s2
  obtain ⟨z1, z2⟩ := uniform_slices s1 rfl rfl
  have hLn : L.n = g.vars.length * n := by rw [(linearize_shape hL).2, z1, hlen]
  have hLn0 : 0 < L.n := by rw [hLn]; exact Nat.mul_pos hne hn
  -- the other problem, with the settings of the linear one
  let oe : VarOps (St (Vec n)) := ⟨fun _ => n, fun _ _ => .error .valueError⟩
  have hoe : OpsRel (ErrRel g.vars) oe o.varOps := ⟨fun _ _ _ _ => rfl, fun _ _ _ _ _ _ h => by cases h⟩
  have s1' : Q.started oe = .ok Q1 :=
    (started_dof (o := oe) (o' := (vecStateOps n).varOps) (fun _ => rfl) Q).trans s1
  obtain ⟨P1', t1, t2⟩ := started_sim hoe hrel s1'
  have t3 : P.started o.varOps = .ok { P1' with cfg := cfg } := by
    have := started_cfg cfg t1
    exact this
  obtain ⟨b1, b2, b3, b4, b5, b6, b7, b8⟩ := started_fields t3
  have hLP : ({ P1' with cfg := cfg } : Prob ℕ (St V)).linearize P1'.vars = .ok L := by
    rw [linearize_cfg]
    exact linearize_sim t2 t2.vars hL
  have hLe : L.e = 0 := by
    refine linearize_zero (v := Q1.vars) (fun r' hr' xs err hxs herr => ?_) hL
    rw [a4] at hr'
    obtain ⟨xs', -, hxs'⟩ := lookupAll_sim t2.vars hxs
    exact q3 r' hr' xs xs' err hxs' herr
  have hkeyQ : ∀ p ∈ Q1.vars, p.1 < g'.vars.length := by
    rw [a6]
    intro p hp
    obtain ⟨⟨x, i⟩, hx, rfl⟩ := List.mem_map.1 hp
    have := (List.mem_zipIdx hx).2.1
    simpa using this
  have hkeyP : ∀ p ∈ P1'.vars, p.1 < g.vars.length := by
    intro p hp
    have b6' : P1'.vars = P.varsInit := b6
    rw [b6'] at hp
    obtain ⟨⟨x, i⟩, hx, rfl⟩ := List.mem_map.1 hp
    have := (List.mem_zipIdx hx).2.1
    simpa using this
  have hdet : L.A.det ≠ 0 := by
    intro hd
    rw [gn_still_singular hL (by rw [a1]; exact hit') hd] at s2
    cases s2
  have hQs := gn_still (o := (vecStateOps n).varOps) hL hLe hLn0 (by rw [a1]; exact hit') hdet
    (zeroStep_uniform (fun v => add_zero v) (by rw [hLn, hlen]) z2 hkeyQ)
  rw [hQs] at s2
  obtain rfl := Except.ok.inj s2
  have zP : ∀ k < g.vars.length, P1'.varSlices.lookup k = some ⟨k * n, k * n + n⟩ := by
    intro k hk
    rw [← t2.varSlices]
    exact z2 k (by rw [hlen]; exact hk)
  have hzP : ZeroStep o.varOps ({ P1' with cfg := cfg } : Prob ℕ (St V)) L.n P1'.vars :=
    zeroStep_uniform (P1 := ({ P1' with cfg := cfg } : Prob ℕ (St V))) ho.plus hLn zP hkeyP
  obtain ⟨ch, hsol⟩ : ∃ ch, P.solve o.varOps =
      .ok { P1' with cfg := cfg, costHistory := ch, info := some ⟨L.n, L.A⟩ } := by
    rcases hc with ⟨c1, c2⟩ | ⟨c1, c2⟩
    · have := gn_still (o := o.varOps) (P := { P1' with cfg := cfg }) hLP hLe hLn0 c2 hdet hzP
      refine ⟨[L.cost, L.cost, L.cost], ?_⟩
      unfold Prob.solve
      have e : (({ P with vars := P.varsInit } : Prob ℕ (St V)).computeSize o.varOps) = .ok { P1' with cfg := cfg } := t3
      rw [e]
      show (if cfg.solver = "GN" then _ else _) = _
      rw [if_pos c1]
      exact this
    · have := lm_still (o := o.varOps) (P := { P1' with cfg := cfg }) hLP hLe hLn0 c2 hdet hzP
      refine ⟨[L.cost, L.cost], ?_⟩
      unfold Prob.solve
      have e : (({ P with vars := P.varsInit } : Prob ℕ (St V)).computeSize o.varOps) = .ok { P1' with cfg := cfg } := t3
      rw [e]
      show (if cfg.solver = "GN" then _ else if cfg.solver = "LM" then _ else _) = _
      rw [if_neg (by rw [c1]; decide), if_pos c1]
      exact this
  have hr1 := batchResults_eq (A := ⟨L.n, L.A⟩) hdet Q1.vars
    { Q1 with costHistory := [L.cost, L.cost, L.cost], info := some ⟨L.n, L.A⟩ } rfl (.inl a8)
    (fun p hp => ⟨_, z2 p.1 (hkeyQ p hp)⟩)
  have hr2 := batchResults_eq (A := ⟨L.n, L.A⟩) hdet P1'.vars
    { P1' with cfg := cfg, costHistory := ch, info := some ⟨L.n, L.A⟩ } rfl (.inl b8)
    (fun p hp => ⟨_, zP p.1 (hkeyP p hp)⟩)
  have hr1' : res' = _ := (Except.ok.inj (hr1.symm.trans h3)).symm
  refine ⟨P, _, _, problem_form q1, hsol, hr2, ?_, ?_, ?_⟩
  · rw [List.map_map]
    have b6' : P1'.vars = P.varsInit := b6
    rw [b6', hP]
    simp only [List.map_map]
    exact List.zipIdx_map_fst 0 g.vars
  · rw [hr1', List.map_map, a6, hQ]
    simp only [List.map_map]
    exact List.zipIdx_map_fst 0 g'.vars
  · rw [hr1', List.map_map, List.map_map]
    have hkeys : Q1.vars.map Prod.fst = P1'.vars.map Prod.fst := by
      have b6' : P1'.vars = P.varsInit := b6
      rw [a6, b6', hQ, hP]
      simp only [List.map_map]
      have e1 : (Prod.fst ∘ fun p : St (Vec n) × ℕ => (p.2, p.1)) = Prod.snd := rfl
      have e2 : (Prod.fst ∘ fun p : St V × ℕ => (p.2, p.1)) = Prod.snd := rfl
      rw [e1, e2, List.zipIdx_map_snd, List.zipIdx_map_snd, hlen]
    have hsl : Q1.varSlices = P1'.varSlices := t2.varSlices
    have e3 : ∀ {S : Type} (l : List (ℕ × S)), l.map (Prod.snd ∘ fun p : ℕ × S => (p.2, SqMat.block ⟨L.n, L.A⁻¹⟩
        ((List.lookup p.1 P1'.varSlices).getD ⟨0, 0⟩) ((List.lookup p.1 P1'.varSlices).getD ⟨0, 0⟩))) =
        (l.map Prod.fst).map fun k => SqMat.block ⟨L.n, L.A⁻¹⟩ ((List.lookup k P1'.varSlices).getD ⟨0, 0⟩)
          ((List.lookup k P1'.varSlices).getD ⟨0, 0⟩) := by
      intro S l
      rw [List.map_map]
      rfl
    show P1'.vars.map _ = Q1.vars.map (Prod.snd ∘ fun p : ℕ × St (Vec n) => (p.2, SqMat.block ⟨L.n, L.A⁻¹⟩
        ((List.lookup p.1 Q1.varSlices).getD ⟨0, 0⟩) ((List.lookup p.1 Q1.varSlices).getD ⟨0, 0⟩)))
    rw [hsl, e3, e3, hkeys]

/-! ### C102 -/

open Classical in
theorem true_state {us : List (StInp U)} (hsort : us.Pairwise (fun a c => a.stamp < c.stamp)) {T : List (St V)}
    {y : StMeas V n} (h : TrueMeas us T y) : ∃ x, T[(us.map StInp.stamp).idxOf y.stamp]? = some x ∧
      y.meas.model.evaluate x = some y.meas.value ∧ (y.meas.model.covariance x).PosDef := by
  obtain ⟨k, u, x, h1, h2, h3, h4, h5⟩ := h
  refine ⟨x, ?_, h4, h5⟩
  have hss : (us.map StInp.stamp).Pairwise (· < ·) := by rw [List.pairwise_map]; exact hsort
  have hk : (us.map StInp.stamp)[k]? = some y.stamp := by rw [List.getElem?_map, h1, ← h3]; rfl
  have := sorted_index hss hk (k' := (us.map StInp.stamp).idxOf y.stamp) (by
    have hy := List.mem_of_getElem? hk
    rw [List.getElem?_eq_getElem (List.idxOf_lt_length_of_mem hy)]
    simp)
  rw [← this]
  exact h2

open Classical in
/-- The linear problem of the errors is well posed: stamps and measurements. -/
theorem err_setup (f : ProcModel V U n) (rnd : ℝ → ℝ) (x0 : St V) (t0 : ℝ) (inputs : List (StInp U))
    (meas : List (StMeas V n)) (us : List (StInp U)) (hperm : us.Perm inputs)
    (hsort : us.Pairwise (fun a c => a.stamp < c.stamp)) (h2 : 2 ≤ us.length)
    (hfirst : ∀ u, us.head? = some u → u.stamp = t0) (hr : ∀ u ∈ inputs, rnd u.stamp = u.stamp)
    (hm : ∀ y ∈ meas, TrueMeas us (deadReckon f x0 us) y) :
    (errInputs f x0 us).Pairwise (fun a c => a.stamp < c.stamp) ∧
    (∀ u, (errInputs f x0 us).head? = some u → u.stamp = t0) ∧ (∀ u ∈ errInputs f x0 us, rnd u.stamp = u.stamp) ∧
    ∀ y ∈ meas.map (errY us (deadReckon f x0 us) x0), LinearMeas y ∧ ∃ u ∈ errInputs f x0 us, u.stamp = y.stamp := by
  classical
  set T := deadReckon f x0 us with hT
  have hmu : ∀ y ∈ meas, ∃ u ∈ us, u.stamp = y.stamp := fun y hy => by
    obtain ⟨k, u, x, e1, -, e3, -, -⟩ := hm y hy
    exact ⟨u, List.mem_of_getElem? e1, e3⟩
  -- the linear problem
  set us' := errInputs f x0 us with hus'
  have hst : us'.map StInp.stamp = us.map StInp.stamp := errInputs_stamps f us x0
  have hl' : us'.length = us.length := by simpa using congrArg List.length hst
  have hsort' : us'.Pairwise (fun a c => a.stamp < c.stamp) := by
    have : (us'.map StInp.stamp).Pairwise (· < ·) := by rw [hst, List.pairwise_map]; exact hsort
    rwa [List.pairwise_map] at this
  have hfirst' : ∀ u, us'.head? = some u → u.stamp = t0 := by
    intro u hu
    cases us with
    | nil => simp at h2
    | cons w ws =>
      obtain ⟨l, hl⟩ := errInputs_head f w ws x0
      rw [hus', hl] at hu
      simp only [List.head?_cons, Option.some.injEq] at hu
      rw [← hu]
      exact hfirst w rfl
  have hmem' : ∀ u' ∈ us', ∃ u ∈ us, u.stamp = u'.stamp := by
    intro u' hu'
    have : u'.stamp ∈ us.map StInp.stamp := by rw [← hst]; exact List.mem_map.2 ⟨u', hu', rfl⟩
    obtain ⟨u, h1, h2⟩ := List.mem_map.1 this
    exact ⟨u, h1, h2⟩
  have hmem : ∀ u ∈ us, ∃ u' ∈ us', u'.stamp = u.stamp := by
    intro u hu
    have : u.stamp ∈ us'.map StInp.stamp := by rw [hst]; exact List.mem_map.2 ⟨u, hu, rfl⟩
    obtain ⟨u, h1, h2⟩ := List.mem_map.1 this
    exact ⟨u, h1, h2⟩
  have hr' : ∀ u ∈ us', rnd u.stamp = u.stamp := by
    intro u hu
    obtain ⟨w, h1, h2⟩ := hmem' u hu
    rw [← h2]
    exact hr w (hperm.mem_iff.1 h1)
  set meas' := meas.map (errY us T x0) with hmeas'
  have hm' : ∀ y ∈ meas', LinearMeas y ∧ ∃ u ∈ us', u.stamp = y.stamp := by
    intro y hy
    obtain ⟨z, hz, rfl⟩ := List.mem_map.1 hy
    obtain ⟨x, e1, e2, e3⟩ := true_state hsort (hm z hz)
    constructor
    · refine ⟨z.meas.model.jacobian x, z.meas.model.covariance x, e3, ?_⟩
      show linMeasModel _ _ = _
      rw [e1]
      rfl
    · obtain ⟨u, hu, h⟩ := hmu z hz
      obtain ⟨u', hu', h'⟩ := hmem u hu
      exact ⟨u', hu', h'.trans h⟩
  exact ⟨hsort', hfirst', hr', hm'⟩

open Classical in
/-- The batch solution and that of the linear problem of the errors. -/
theorem perfect_core (o : StateOps V n) (ho : ZeroLaws o) (f : ProcModel V U n) (hf : KeepsStamp f)
    (hQ : ∀ x u dt, 0 < dt → (f.covariance x u dt).PosDef) (hn : 0 < n) (rnd : ℝ → ℝ) (cfg : ProbCfg) (hc : GoodSolver cfg)
    (x0 : St V) (t0 : ℝ) (h0 : x0.stamp = some t0) (P0 : Mat n n) (hP0 : P0.PosDef) (inputs : List (StInp U))
    (meas : List (StMeas V n)) (us : List (StInp U)) (hperm : us.Perm inputs)
    (hsort : us.Pairwise (fun a c => a.stamp < c.stamp)) (h2 : 2 ≤ us.length)
    (hfirst : ∀ u, us.head? = some u → u.stamp = t0) (hr : ∀ u ∈ inputs, rnd u.stamp = u.stamp)
    (hm : ∀ y ∈ meas, TrueMeas us (deadReckon f x0 us) y) :
    ∃ res res', batchSolve o f rnd cfg x0 P0 inputs meas = .ok res ∧ res.map Prod.fst = deadReckon f x0 us ∧
      batchSolve (vecStateOps n) (errModel f) rnd ⟨"GN", 1, none, none, none, 1⟩ ⟨0, some t0⟩ P0 (errInputs f x0 us)
        (meas.map (errY us (deadReckon f x0 us) x0)) = .ok res' ∧ (∀ p ∈ res', p.1.value = 0) ∧
      res.map Prod.snd = res'.map Prod.snd := by
  classical
  set T := deadReckon f x0 us with hT
  have hmu : ∀ y ∈ meas, ∃ u ∈ us, u.stamp = y.stamp := fun y hy => by
    obtain ⟨k, u, x, e1, -, e3, -, -⟩ := hm y hy
    exact ⟨u, List.mem_of_getElem? e1, e3⟩
  have hx0 : ∀ u, us.head? = some u → x0.stamp = some u.stamp := fun u hu => by rw [h0, hfirst u hu]
  have hg := graph_form f hf rnd x0 t0 h0 P0 inputs meas us hperm hsort h2 hfirst hr hmu
  -- the linear problem
  set us' := errInputs f x0 us with hus'
  have hst : us'.map StInp.stamp = us.map StInp.stamp := errInputs_stamps f us x0
  have hl' : us'.length = us.length := by simpa using congrArg List.length hst
  have hsort' : us'.Pairwise (fun a c => a.stamp < c.stamp) := by
    have : (us'.map StInp.stamp).Pairwise (· < ·) := by rw [hst, List.pairwise_map]; exact hsort
    rwa [List.pairwise_map] at this
  have hfirst' : ∀ u, us'.head? = some u → u.stamp = t0 := by
    intro u hu
    cases us with
    | nil => simp at h2
    | cons w ws =>
      obtain ⟨l, hl⟩ := errInputs_head f w ws x0
      rw [hus', hl] at hu
      simp only [List.head?_cons, Option.some.injEq] at hu
      rw [← hu]
      exact hfirst w rfl
  have hmem' : ∀ u' ∈ us', ∃ u ∈ us, u.stamp = u'.stamp := by
    intro u' hu'
    have : u'.stamp ∈ us.map StInp.stamp := by rw [← hst]; exact List.mem_map.2 ⟨u', hu', rfl⟩
    obtain ⟨u, h1, h2⟩ := List.mem_map.1 this
    exact ⟨u, h1, h2⟩
  have hmem : ∀ u ∈ us, ∃ u' ∈ us', u'.stamp = u.stamp := by
    intro u hu
    have : u.stamp ∈ us'.map StInp.stamp := by rw [hst]; exact List.mem_map.2 ⟨u, hu, rfl⟩
    obtain ⟨u, h1, h2⟩ := List.mem_map.1 this
    exact ⟨u, h1, h2⟩
  have hr' : ∀ u ∈ us', rnd u.stamp = u.stamp := by
    intro u hu
    obtain ⟨w, h1, h2⟩ := hmem' u hu
    rw [← h2]
    exact hr w (hperm.mem_iff.1 h1)
  set meas' := meas.map (errY us T x0) with hmeas'
  have hm' : ∀ y ∈ meas', LinearMeas y ∧ ∃ u ∈ us', u.stamp = y.stamp := by
    intro y hy
    obtain ⟨z, hz, rfl⟩ := List.mem_map.1 hy
    obtain ⟨x, e1, e2, e3⟩ := true_state hsort (hm z hz)
    constructor
    · refine ⟨z.meas.model.jacobian x, z.meas.model.covariance x, e3, ?_⟩
      show linMeasModel _ _ = _
      rw [e1]
      rfl
    · obtain ⟨u, hu, h⟩ := hmu z hz
      obtain ⟨u', hu', h'⟩ := hmem u hu
      exact ⟨u', hu', h'.trans h⟩
  obtain ⟨res', b1, b2, b3⟩ := C89_marginals (errA f) (fun _ _ => 0) (errQ f) (fun u dt hdt => hQ _ _ dt hdt) hn rnd
    ⟨"GN", 1, none, none, none, 1⟩ rfl one_pos ⟨0, some t0⟩ t0 rfl P0 hP0 us' meas' us' (List.Perm.refl _) hsort'
    (by omega) hfirst' hr' hm'
  have hg' := graph_form (errModel f) (fun _ _ _ => rfl) rnd ⟨0, some t0⟩ t0 rfl P0 us' meas' us' (List.Perm.refl _) hsort'
    (by omega) hfirst' hr' (fun y hy => (hm' y hy).2)
  have b0 := b1
  unfold batchSolve at b1
  obtain ⟨g', c1, b1⟩ := bind_ok b1
  have hgg : g' = _ := (Except.ok.inj (hg'.symm.trans c1)).symm
  subst hgg
  obtain ⟨Q, c2, b1⟩ := bind_ok b1
  obtain ⟨Q', c3, c4⟩ := bind_ok b1
  have hTs := deadReckon_stamps f us x0 hx0
  have hvars : deadReckon (errModel f) ⟨0, some t0⟩ us' = T.map fun x => (⟨0, x.stamp⟩ : St (Vec n)) := by
    rw [deadReckon_zero f us' t0 hfirst']
    have e1 : us'.map (fun u => (⟨0, some u.stamp⟩ : St (Vec n))) = (us'.map StInp.stamp).map fun t => ⟨0, some t⟩ := by
      rw [List.map_map]; rfl
    have e2 : T.map (fun x => (⟨0, x.stamp⟩ : St (Vec n))) = (T.map St.stamp).map fun t => ⟨0, t⟩ := by
      rw [List.map_map]; rfl
    rw [e1, e2, hst, hTs, List.map_map, List.map_map]
    rfl
  have hyst : sortByStamp StMeas.stamp meas' = (sortByStamp StMeas.stamp meas).map (errY us T x0) :=
    (sortByStamp_map (errY us T x0) StMeas.stamp meas).symm
  have hfac : List.Forall₂ (FacRel f T)
      (.prior 0 (0 : Vec n) P0 :: procFactors 0 us' ++ (sortByStamp StMeas.stamp meas').map fun y =>
        (.meas ((us'.map StInp.stamp).idxOf y.stamp) y : BFactor (Vec n) (U × V) n))
      (.prior 0 x0.value P0 :: procFactors 0 us ++ (sortByStamp StMeas.stamp meas).map fun y =>
        (.meas ((us.map StInp.stamp).idxOf y.stamp) y : BFactor V U n)) := by
    refine List.rel_append (.cons ⟨rfl, rfl, rfl, x0.stamp, ?_⟩ (procFactors_rel f T us 0 x0 hx0 (fun i => by
      rw [Nat.zero_add]))) ?_
    rotate_left
    · have : T[0]? = some x0 := by
        rw [hT]
        clear_value T us'
        cases us with
        | nil => simp at h2
        | cons w ws => exact deadReckon_head f w ws x0
      exact this
    · rw [hyst, List.map_map, hst]
      have key : ∀ l : List (StMeas V n), (∀ y ∈ l, TrueMeas us T y) → List.Forall₂ (FacRel f T)
          (l.map ((fun y => (.meas ((us.map StInp.stamp).idxOf y.stamp) y : BFactor (Vec n) (U × V) n)) ∘ errY us T x0))
          (l.map fun y => (.meas ((us.map StInp.stamp).idxOf y.stamp) y : BFactor V U n)) := by
        intro l hl
        induction l with
        | nil => exact .nil
        | cons y l ih =>
          refine .cons ?_ (ih fun z hz => hl z (by simp [hz]))
          obtain ⟨x, e1, e2, e3⟩ := true_state hsort (hl y (by simp))
          refine ⟨rfl, x, e1, e2, ?_⟩
          show linY _ y = _
          rw [e1]
          rfl
      exact key _ fun y hy => hm y ((sortByStamp_mem StMeas.stamp).1 hy)
  obtain ⟨P, P', res, d1, d2, d3, d4, d5, d6⟩ := graph_still ho hn (f := f)
    (g' := ⟨deadReckon (errModel f) ⟨0, some t0⟩ us', .prior 0 (0 : Vec n) P0 :: procFactors 0 us' ++
      (sortByStamp StMeas.stamp meas').map fun y =>
        (.meas ((us'.map StInp.stamp).idxOf y.stamp) y : BFactor (Vec n) (U × V) n)⟩)
    (g := ⟨T, .prior 0 x0.value P0 :: procFactors 0 us ++
      (sortByStamp StMeas.stamp meas).map fun y => (.meas ((us.map StInp.stamp).idxOf y.stamp) y : BFactor V U n)⟩)
    (by
      show 0 < T.length
      rw [hT, deadReckon_length]
      omega) hvars hfac hc (cfg' := ⟨"GN", 1, none, none, none, 1⟩) rfl one_pos (Q := Q) c2 c3 c4
  refine ⟨res, res', ?_, d4, b0, fun p hp => ?_, d6⟩
  · unfold batchSolve
    rw [hg, ok_bindE, d1, ok_bindE, d2, ok_bindE]
    exact d3
  · have e2 : p.1 ∈ res'.map Prod.fst := List.mem_map.2 ⟨p, hp, rfl⟩
    rw [d5] at e2
    have e3 : p.1 ∈ deadReckon (errModel f) ⟨0, some t0⟩ us' := e2
    rw [hvars] at e3
    obtain ⟨x, -, hx⟩ := List.mem_map.1 e3
    rw [← hx]

open Classical in
theorem errObjective_eq (f : ProcModel V U n) (x0 : St V) (t0 : ℝ) (h0 : x0.stamp = some t0) (P0 : Mat n n)
    (meas : List (StMeas V n)) (us : List (StInp U)) (hsort : us.Pairwise (fun a c => a.stamp < c.stamp))
    (hfirst : ∀ u, us.head? = some u → u.stamp = t0) (hm : ∀ y ∈ meas, TrueMeas us (deadReckon f x0 us) y) :
    batchObjective (errA f) (fun _ _ => 0) (errQ f) (0 : Vec n) P0 (errInputs f x0 us)
      (meas.map (errY us (deadReckon f x0 us) x0)) = errorObjective f x0 P0 us meas := by
  have hx0 : ∀ u, us.head? = some u → x0.stamp = some u.stamp := fun u hu => by rw [h0, hfirst u hu]
  have hst : (errInputs f x0 us).map StInp.stamp = us.map StInp.stamp := errInputs_stamps f us x0
  funext D
  unfold batchObjective errorObjective
  rw [sub_zero, errProc_eq f D us 0 x0 hx0, hst, List.map_map]
  congr 2
  refine List.map_congr_left fun y hy => ?_
  obtain ⟨x, e1, e2, e3⟩ := true_state hsort (hm y hy)
  show measTerm D _ (linY _ y) = errMeas D (deadReckon f x0 us) _ y
  rw [measTerm_linY]
  unfold errMeas
  show mahal (y.meas.model.covariance (((deadReckon f x0 us)[(us.map StInp.stamp).idxOf y.stamp]?).getD x0))
    (y.meas.model.jacobian (((deadReckon f x0 us)[(us.map StInp.stamp).idxOf y.stamp]?).getD x0) *ᵥ
      D ((us.map StInp.stamp).idxOf y.stamp)) = _
  rw [e1]
  rfl

/-- **C102.** Data without noise: any state class and process model (whose `evaluate` keeps the stamp), inputs with
distinct stamps that begin at the stamp of the prior, measurements at stamps of inputs that equal the output of their
model at the dead reckoned state, positive definite covariances. `BatchEstimator.solve`, with Gauss-Newton or
Levenberg-Marquardt, does not raise; it returns exactly the dead reckoned trajectory, and the covariance of each state is
that of the marginal of the error objective linearized at that trajectory. -/
theorem C102_exact (o : StateOps V n) (ho : ZeroLaws o) (f : ProcModel V U n) (hf : KeepsStamp f)
    (hQ : ∀ x u dt, 0 < dt → (f.covariance x u dt).PosDef) (hn : 0 < n) (rnd : ℝ → ℝ) (cfg : ProbCfg) (hc : GoodSolver cfg)
    (x0 : St V) (t0 : ℝ) (h0 : x0.stamp = some t0) (P0 : Mat n n) (hP0 : P0.PosDef) (inputs : List (StInp U))
    (meas : List (StMeas V n)) (us : List (StInp U)) (hperm : us.Perm inputs)
    (hsort : us.Pairwise (fun a c => a.stamp < c.stamp)) (h2 : 2 ≤ us.length)
    (hfirst : ∀ u, us.head? = some u → u.stamp = t0) (hr : ∀ u ∈ inputs, rnd u.stamp = u.stamp)
    (hm : ∀ y ∈ meas, TrueMeas us (deadReckon f x0 us) y) :
    ∃ res, batchSolve o f rnd cfg x0 P0 inputs meas = .ok res ∧ res.map Prod.fst = deadReckon f x0 us ∧
      ∀ (k : ℕ) (x : St V) (C : DMat), res[k]? = some (x, C) →
        ∃ G, Holds C G ∧ MarginalAt (errorObjective f x0 P0 us meas) k 0 G := by
  obtain ⟨res, res', c1, c2, c3, c4, c5⟩ := perfect_core o ho f hf hQ hn rnd cfg hc x0 t0 h0 P0 hP0 inputs meas us hperm
    hsort h2 hfirst hr hm
  obtain ⟨hsort', hfirst', hr', hm'⟩ := err_setup f rnd x0 t0 inputs meas us hperm hsort h2 hfirst hr hm
  have hl' : (errInputs f x0 us).length = us.length := by
    simpa using congrArg List.length (errInputs_stamps f us x0)
  obtain ⟨res'', b1, b2, b3⟩ := C89_marginals (errA f) (fun _ _ => 0) (errQ f) (fun u dt hdt => hQ _ _ dt hdt) hn rnd
    ⟨"GN", 1, none, none, none, 1⟩ rfl one_pos ⟨0, some t0⟩ t0 rfl P0 hP0 _ _ _ (List.Perm.refl _) hsort'
    (by omega) hfirst' hr' hm'
  obtain rfl : res'' = res' := Except.ok.inj (b1.symm.trans c3)
  refine ⟨res, c1, c2, fun k x C hk => ?_⟩
  have e1 : (res.map Prod.snd)[k]? = some C := by rw [List.getElem?_map, hk]; rfl
  rw [c5, List.getElem?_map] at e1
  cases hk' : res''[k]? with
  | none => rw [hk'] at e1; cases e1
  | some q =>
    obtain ⟨z, C'⟩ := q
    rw [hk'] at e1
    obtain rfl : C' = C := by simpa using e1
    obtain ⟨-, G, w1, w2⟩ := b3 k z C' hk'
    have hz : z.value = 0 := c4 _ (List.mem_of_getElem? hk')
    refine ⟨G, w1, ?_⟩
    rw [hz, errObjective_eq f x0 t0 h0 P0 meas us hsort hfirst hm] at w2
    exact w2

/-! ### Problems without error -/

section

variable {K S : Type} [DecidableEq K]

/-- **C102** (any problem). If every residual is zero at the initial variables (and the information matrix there is
invertible, and adding a zero step changes nothing), Gauss-Newton with at least one iteration and Levenberg-Marquardt
return the initial variables; the cost history is that of one step, and of no step at all. -/
theorem C102_problem (o : VarOps S) (P P1 : Prob K S) (h : P.started o = .ok P1) (L : Lin)
    (hL : P1.linearize P.varsInit = .ok L) (hn : 0 < L.n) (hd : L.A.det ≠ 0)
    (hr : ∀ r ∈ P.residuals, ∀ xs err, lookupAll P.varsInit r.keys = .ok xs → r.error xs = .ok err → ∀ z ∈ err, z = 0)
    (hz : ZeroStep o P1 L.n P.varsInit) :
    (P.cfg.solver = "GN" → 0 < P.cfg.maxIters → ∃ P', P.solve o = .ok P' ∧ P'.vars = P.varsInit ∧
      P'.costHistory = [L.cost, L.cost, L.cost]) ∧
    (P.cfg.solver = "LM" → 0 ≤ P.cfg.tau → ∃ P', P.solve o = .ok P' ∧ P'.vars = P.varsInit ∧
      P'.costHistory = [L.cost, L.cost]) := by
  obtain ⟨a1, a2, a3, a4, a5, a6, a7, a8⟩ := started_fields h
  have hL' : P1.linearize P1.vars = .ok L := by rw [a6]; exact hL
  have he : L.e = 0 := linearize_zero (v := P.varsInit) (by rw [a4]; exact hr) hL
  rw [← a6] at hz
  constructor
  · intro hs hit
    have := gn_still (o := o) hL' he hn (by rw [a1]; exact hit) hd hz
    refine ⟨{ P1 with costHistory := [L.cost, L.cost, L.cost], info := some ⟨L.n, L.A⟩ }, ?_, a6, rfl⟩
    unfold Prob.solve
    have e : (({ P with vars := P.varsInit } : Prob K S).computeSize o) = .ok P1 := h
    rw [e]
    show (if P.cfg.solver = "GN" then _ else _) = _
    rw [if_pos hs]
    exact this
  · intro hs htau
    have := lm_still (o := o) hL' he hn (by rw [a1]; exact htau) hd hz
    refine ⟨{ P1 with costHistory := [L.cost, L.cost], info := some ⟨L.n, L.A⟩ }, ?_, a6, rfl⟩
    unfold Prob.solve
    have e : (({ P with vars := P.varsInit } : Prob K S).computeSize o) = .ok P1 := h
    rw [e]
    show (if P.cfg.solver = "GN" then _ else if P.cfg.solver = "LM" then _ else _) = _
    rw [if_neg (by rw [hs]; decide), if_pos hs]
    exact this

/-- **C102** (Levenberg-Marquardt does not notice). From such a point the damping loop never tests positive for
convergence: after `k` iterations nothing has changed except the damping parameter, which has been multiplied by
`nu^k * 2^(k*(k-1)/2)` (`2^(k*(k+1)/2)` from the initial `nu = 2`). -/
theorem C102_lm_runs_on (o : VarOps S) (P : Prob K S) (L : Lin) (hL : P.linearize P.vars = .ok L) (hn : 0 < L.n)
    (hd : L.A.det ≠ 0)
    (hr : ∀ r ∈ P.residuals, ∀ xs err, lookupAll P.vars r.keys = .ok xs → r.error xs = .ok err → ∀ z ∈ err, z = 0)
    (hz : ZeroStep o P L.n P.vars) (k : ℕ) (mx : ℝ) (hmx : npMax (fun j => L.A j j) = .ok mx) (htau : 0 ≤ P.cfg.tau) :
    ∃ s, iterLoop (lmStep o P) k (lmStart P L mx) = .ok s ∧ s.vars = P.vars ∧ s.costs = [L.cost] ∧ s.deltaCost = none ∧
      s.mu = P.cfg.tau * mx * 2 ^ (k * (k + 1) / 2) := by
  obtain ⟨g', d', mu', nu', h1, h2⟩ := lm_loop_still (o := o) hL (linearize_zero hr hL) hn hd hz k none 10
    (P.cfg.tau * mx) 2 (lmStart_inv hL hmx htau).mu (by norm_num)
  refine ⟨_, h1, rfl, rfl, rfl, ?_⟩
  show mu' = _
  rw [h2, mul_assoc, ← pow_add]
  congr 2
  cases k with
  | zero => rfl
  | succ j =>
    rw [Nat.add_sub_cancel, show (j + 1) * (j + 1 + 1) = (j + 1) * j + (j + 1) * 2 by ring,
      Nat.add_mul_div_right _ _ (by norm_num)]
    omega

end

/-! ### The hypotheses are met -/

/-- A nonlinear process: `x + dt x²`. -/
noncomputable def exProc102 : ProcModel (Vec 1) Unit 1 where
  evaluate x _ dt := ⟨fun i => x.value i + dt * x.value i ^ 2, x.stamp⟩
  jacobian x _ dt := !![1 + 2 * dt * x.value 0]
  covariance _ _ _ := 1

/-- A nonlinear measurement, `x²`, at time 1: the true state is 2. -/
noncomputable def exMeas102 : StMeas (Vec 1) 1 :=
  ⟨⟨1, fun _ => 4, some 1, ⟨fun x => some fun i => x.value i ^ 2, fun x => !![2 * x.value 0], fun _ => 1⟩⟩, 1, rfl⟩

/-- The hypotheses of `C102_exact` are met, for both solvers: two unsorted inputs, one measurement, everything
nonlinear. -/
theorem exBatch102 (solver : String) (hs : solver = "GN" ∨ solver = "LM") :
    ∃ res, batchSolve (vecStateOps 1) exProc102 id ⟨solver, 5, none, none, none, 1⟩ ⟨fun _ => 1, some 0⟩ 1
      [⟨(), 1⟩, ⟨(), 0⟩] [exMeas102] = .ok res ∧
      res.map Prod.fst = [⟨fun _ => 1, some 0⟩, ⟨fun _ => 2, some 1⟩] := by
  have hT : deadReckon exProc102 ⟨fun _ => 1, some 0⟩ [⟨(), 0⟩, ⟨(), 1⟩] =
      [⟨fun _ => 1, some 0⟩, ⟨fun _ => 2, some 1⟩] := by
    simp only [deadReckon, reckon, exProc102]
    norm_num
  obtain ⟨res, h1, h2, -⟩ := C102_exact (vecStateOps 1) ⟨fun v => add_zero v, fun v => sub_self v, fun v => rfl⟩ exProc102
    (fun _ _ _ => rfl) (fun _ _ _ _ => Matrix.PosDef.one) one_pos id ⟨solver, 5, none, none, none, 1⟩
    (by
      rcases hs with rfl | rfl
      · exact .inl ⟨rfl, by norm_num⟩
      · exact .inr ⟨rfl, zero_le_one⟩) ⟨fun _ => 1, some 0⟩ 0 rfl 1 Matrix.PosDef.one [⟨(), 1⟩, ⟨(), 0⟩] [exMeas102]
    [⟨(), 0⟩, ⟨(), 1⟩] (List.Perm.swap _ _ _) (by norm_num) (by simp)
    (fun u hu => by
      simp only [List.head?_cons, Option.some.injEq] at hu
      rw [← hu]) (fun u _ => rfl)
    (fun y hy => by
      rw [List.mem_singleton.mp hy, hT]
      refine ⟨1, ⟨(), 1⟩, ⟨fun _ => 2, some 1⟩, rfl, rfl, rfl, ?_, Matrix.PosDef.one⟩
      show some (fun i : Fin 1 => (2 : ℝ) ^ 2) = some (fun _ => 4)
      norm_num)
  exact ⟨res, h1, h2.trans hT⟩

end Verif
