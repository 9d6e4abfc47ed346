import Verif.Lemmas.RobustLoop

/-!
C137: gross outliers with a robust loss have no influence.
-/

set_option linter.unusedVariables false
set_option linter.unusedSectionVars false
set_option linter.unusedSimpArgs false

namespace Verif

open Matrix

variable {K : Type} [DecidableEq K]

/-! ### The pieces of a linear problem -/

/-- `ks` are distinct keys of variables, and the Jacobians `Js`, one for each, have `n` rows and as many columns as the variable. -/
structure Fits (v0 : List (K × List ℝ)) (ks : List K) (Js : List DMat) (n : ℕ) : Prop where
  nodup : ks.Nodup
  length : Js.length = ks.length
  shape : ∀ (t : ℕ) (k : K) (J : DMat), ks[t]? = some k → Js[t]? = some J → J.rows = n ∧ ∃ x, v0.lookup k = some x ∧ J.cols = x.length

theorem lin_parts {m n : ℕ} {e e' : Vec m} {H H' : Mat m n} {c c' : ℝ} (h : Lin.mk m n e H c = ⟨m, n, e', H', c'⟩) : e = e' ∧ H = H' := by
  cases h
  exact ⟨rfl, rfl⟩

theorem rows_of_linear {P P1 : Prob K (List ℝ)} (hn : (P.varsInit.map Prod.fst).Nodup) (h : P.started vecVarOps = .ok P1)
    (hf : P.varSlices = []) {ks : List K} {Js : List DMat} {n : ℕ} (hfit : Fits P.varsInit ks Js n) (b : ℕ → ℝ) :
    ∃ (e : Vec n) (D : DMat), placeJacs P1.varSlices ⟨0, n⟩ 1 ks (linJacs P.constKeys ks Js) (DMat.zeros n P1.sizeState) = .ok D ∧
      ∀ δ : Vec P1.sizeState, ∃ a, localAsm P.constKeys P1.varSlices P1.sizeState (moveAll P.constKeys P1.varSlices δ P.varsInit)
          (linRes ks Js n b, l2Loss) n = .ok a ∧ a.H = D ∧
        ∀ q : Fin n, a.e q = e q + ∑ c : Fin P1.sizeState, D.get q c * δ c := by
  obtain ⟨Q, hQ⟩ : ∃ Q : Prob K (List ℝ), Q = { P with residuals := [linRes ks Js n b], losses := [l2Loss] } := ⟨_, rfl⟩
  have hlin : LinearProblem Q := by
    subst hQ
    refine ⟨hn, rfl, fun r hr => ?_⟩
    rw [List.mem_singleton.mp hr]
    exact ⟨ks, Js, n, b, rfl, hfit.nodup, hfit.length, hfit.shape⟩
  obtain ⟨Q1, h1⟩ := linear_started hlin
  obtain ⟨a1, a2, a3⟩ := started_slices h
  obtain ⟨b1, b2, b3⟩ := started_slices h1
  have hvs : P1.varSlices = Q1.varSlices := by rw [a2, b2, hQ]
  have hN : P1.sizeState = Q1.sizeState := by rw [a3, b3, hQ]
  have hv0 : P.varsInit = Q.varsInit := by rw [hQ]
  have hc0 : P.constKeys = Q.constKeys := by rw [hQ]
  have hres : Q.residuals = [linRes ks Js n b] := by rw [hQ]
  have hlos : Q.losses = [l2Loss] := by rw [hQ]
  have hfq : Q.varSlices = [] := by rw [hQ]; exact hf
  rw [hv0] at hfit hn
  rw [hvs, hN, hv0, hc0]
  clear hvs hN hv0 hc0 a1 a2 a3 hQ h
  obtain ⟨e1, e2, e3, e4, e5, e6, -, -⟩ := started_fields h1
  obtain ⟨T, -, -⟩ := started_table h1 hfq hn
  obtain ⟨L, hL⟩ := linear_linearize hlin h1
  obtain ⟨m, N, eL, HL, cL⟩ := L
  obtain ⟨hm, hn'⟩ := linearize_shape hL
  simp only at hm hn'
  subst hm hn'
  have haff := linear_affine hlin h1 hL
  have hsl := linear_fit hlin h1
  have hsz : Q1.sizeErr = n ∧ Q1.resSlices = [⟨0, n⟩] := by
    obtain ⟨m1, m2, m3⟩ := linear_eval (b := b) hlin ⟨rfl, rfl⟩ hfit.length hfit.shape (v := Q.varsInit)
    rw [hres] at b1
    unfold rowSlices at b1
    rw [m1, ok_bindE, m2, ok_bindE, m3] at b1
    have := Except.ok.inj b1
    rw [Prod.mk.injEq] at this
    exact ⟨by rw [← this.2, Nat.zero_add], by rw [← this.1, Nat.zero_add]⟩
  have hR : Reserved Q1 0 0 [((linRes ks Js n b, l2Loss), n)] := ⟨by rw [hsz.2, Nat.zero_add]; rfl, by
    show 0 + n = _
    rw [hsz.1, Nat.zero_add]⟩
  have hzip : Q1.residuals.zip Q1.losses = [(linRes ks Js n b, l2Loss)] := by rw [e4, e5, hres, hlos]; rfl
  have hrow : ∀ δ : Vec Q1.sizeState, ∃ a, localAsm Q.constKeys Q1.varSlices Q1.sizeState (moveAll Q.constKeys Q1.varSlices δ Q.varsInit)
      (linRes ks Js n b, l2Loss) n = .ok a ∧ placeJacs Q1.varSlices ⟨0, n⟩ 1 ks (linJacs Q.constKeys ks Js) (DMat.zeros n Q1.sizeState) = .ok a.H ∧
      (∀ (q : Fin Q1.sizeErr), a.e q = eL q + ∑ c, HL q c * δ c) ∧ ∀ (q : Fin Q1.sizeErr) (c : Fin Q1.sizeState), a.H.get q c = HL q c := by
    intro δ
    have hl := haff.lin δ _ (correct_vec δ hsl)
    rw [e3] at hl
    unfold Prob.linearize at hl
    obtain ⟨a0, k1, hl⟩ := bind_ok hl
    rw [hzip] at k1
    obtain ⟨as, k2⟩ := asmLoop_locals (n := Q1.sizeState) (l := [((linRes ks Js n b, l2Loss), n)]) T.fits hR rfl rfl (fun _ _ _ => rfl) k1
    cases k2 with
    | @cons _ _ x _ _ hx _ =>
      rw [e3] at hx
      obtain ⟨a1, s1, -, -, -, -, s6, -⟩ := asm_step (n := Q1.sizeState) T.fits hR (a := ⟨fun _ => 0, DMat.zeros Q1.sizeErr Q1.sizeState, 0⟩) rfl rfl
        (fun _ _ _ => rfl) (by rw [e3]; exact hx)
      rw [s1 []] at k1
      cases k1
      obtain ⟨q1, q2⟩ := lin_parts (Except.ok.inj hl)
      refine ⟨x, hx, ?_, fun q => ?_, fun q c => ?_⟩
      · unfold localAsm at hx
        obtain ⟨xs, z1, hx⟩ := bind_ok hx
        obtain ⟨err, z2, hx⟩ := bind_ok hx
        obtain ⟨jacs, z3, hx⟩ := bind_ok hx
        obtain ⟨e, z4, hx⟩ := bind_ok hx
        obtain ⟨H, z5, hx⟩ := bind_ok hx
        cases hx
        have hw : Real.sqrt (l2Loss.weight (listNorm err)) = 1 := Real.sqrt_one
        rw [hw] at z5
        cases z3
        exact z5
      · have hq : q.1 < n := hsz.1 ▸ q.2
        have := (s6 q.1 hq).1
        rw [Nat.zero_add] at this
        rw [← this]
        exact congrFun q1 q
      · have hq : q.1 < n := hsz.1 ▸ q.2
        have := (s6 q.1 hq).2 c c.2
        rw [Nat.zero_add] at this
        rw [← this]
        exact congrFun (congrFun q2 q) c
  obtain ⟨a0, -, w2, -, w4⟩ := hrow 0
  refine ⟨fun q => eL ⟨q, hsz.1.symm ▸ q.2⟩, a0.H, w2, fun δ => ?_⟩
  obtain ⟨a, v1, v2, v3, -⟩ := hrow δ
  have hH : a.H = a0.H := by rw [v2] at w2; exact Except.ok.inj w2
  refine ⟨a, v1, hH, fun q => ?_⟩
  rw [v3 ⟨q, hsz.1.symm ▸ q.2⟩]
  congr 1
  refine Finset.sum_congr rfl fun c _ => ?_
  rw [← w4 ⟨q, hsz.1.symm ▸ q.2⟩ c]

/-- A linear residual is a piece; its matrix does not depend on the data `b`. -/
theorem linear_piece {P P1 : Prob K (List ℝ)} (hn : (P.varsInit.map Prod.fst).Nodup) (h : P.started vecVarOps = .ok P1)
    (hf : P.varSlices = []) {ks : List K} {Js : List DMat} {n : ℕ} (hfit : Fits P.varsInit ks Js n) :
    ∃ H : Mat n P1.sizeState, ∀ (b : ℕ → ℝ) (ls : Loss), ∃ e : Vec n,
      IsPiece P.constKeys P1.varSlices P1.sizeState P.varsInit (linRes ks Js n b, ls) ⟨n, e, H, ls⟩ := by
  obtain ⟨-, D, hD, -⟩ := rows_of_linear hn h hf hfit fun _ => 0
  refine ⟨fun q c => D.get q c, fun b ls => ?_⟩
  obtain ⟨e, D', hD', hr⟩ := rows_of_linear hn h hf hfit b
  obtain rfl : D' = D := by rw [hD] at hD'; exact (Except.ok.inj hD').symm
  refine ⟨e, rfl, fun δ xs err h1 h2 => ?_, fun δ => ?_⟩
  · cases h2
    simp [linErr]
  · obtain ⟨a, k1, k2, k3⟩ := hr δ
    refine ⟨a, k1, fun q => k3 q, fun q c => by rw [k2]⟩

theorem IsPiece.norm {const : List K} {vs : List (K × Slice)} {n : ℕ} {v0 : List (K × List ℝ)}
    {rl : Residual K (List ℝ) × Loss} {p : Piece n} (h : IsPiece const vs n v0 rl p) (δ : Vec n) :
    ∃ xs err, lookupAll (moveAll const vs δ v0) rl.1.keys = .ok xs ∧ rl.1.error xs = .ok err ∧ listNorm err = vecNorm (p.res δ) := by
  obtain ⟨a, h1, h2, -⟩ := h.rows δ
  obtain ⟨err, a', k1, k2, -⟩ := local_scale (ls := rl.2) h1 (h.len δ)
  unfold localAsm at h1
  obtain ⟨xs, m1, h1⟩ := bind_ok h1
  obtain ⟨err', m2, h1⟩ := bind_ok h1
  obtain ⟨jacs, m3, h1⟩ := bind_ok h1
  obtain ⟨e, m4, h1⟩ := bind_ok h1
  obtain ⟨H, m5, h1⟩ := bind_ok h1
  cases h1
  have m1 : lookupAll (moveAll const vs δ v0) rl.1.keys = .ok xs := m1
  have m2 : rl.1.error xs = .ok err' := m2
  have hl := h.len δ xs err' m1 m2
  refine ⟨xs, err', m1, m2, ?_⟩
  have hw : Real.sqrt (l2Loss.weight (listNorm err')) = 1 := Real.sqrt_one
  rw [hw] at m4
  obtain ⟨e1, f1, f2⟩ := setSeg_whole (ℓ := p.m) (v := err'.map (1 * ·)) (by simpa using hl)
  rw [f1] at m4
  cases m4
  refine listNorm_fin hl fun q => ?_
  rw [← h2 q]
  show e q = _
  rw [f2 q q.2, List.getD_eq_getElem?_getD, List.getD_eq_getElem?_getD, List.getElem?_map, List.getElem?_eq_getElem (by omega)]
  show 1 * _ = _
  rw [one_mul]
  rfl

/-! ### The property -/

/-- A sensor: the residual of a measurement `b` is `b + Σ J x`, over the variables `keys`; `scale` is the scale of its Cauchy loss. -/
structure RobustSensor (K : Type) where
  keys : List K
  jacs : List DMat
  rows : ℕ
  scale : ℝ

/-- The residual of the measurement `b`. -/
noncomputable def RobustSensor.res (s : RobustSensor K) (b : ℕ → ℝ) : Residual K (List ℝ) := linRes s.keys s.jacs s.rows b

/-- Its size at the variables `v`. -/
noncomputable def RobustSensor.miss (s : RobustSensor K) (b : ℕ → ℝ) (v : List (K × List ℝ)) : ℝ :=
  listNorm (linErr s.rows b s.jacs (s.keys.map (valOf v)))

/-- One `add_residual(residual, CauchyLoss(scale))` for every measurement in the list. -/
noncomputable def addOutliers (P : Prob K (List ℝ)) (l : List (RobustSensor K × (ℕ → ℝ))) : Prob K (List ℝ) :=
  l.foldl (fun Q x => Q.addResidual (x.1.res x.2) (cauchyLoss x.1.scale)) P

theorem addOutliers_eq : ∀ (l : List (RobustSensor K × (ℕ → ℝ))) (P : Prob K (List ℝ)),
    addOutliers P l = { P with residuals := P.residuals ++ l.map fun x => x.1.res x.2, losses := P.losses ++ l.map fun x => cauchyLoss x.1.scale }
  | [], P => by simp [addOutliers]
  | x :: l, P => by
    have ih := addOutliers_eq l (P.addResidual (x.1.res x.2) (cauchyLoss x.1.scale))
    have e : addOutliers P (x :: l) = addOutliers (P.addResidual (x.1.res x.2) (cauchyLoss x.1.scale)) l := rfl
    rw [e, ih]
    simp [Prob.addResidual]

theorem lookupAll_vals {v : List (K × List ℝ)} : ∀ {ks : List K} {xs : List (List ℝ)}, lookupAll v ks = .ok xs → xs = ks.map (valOf v)
  | [], xs, h => by cases h; rfl
  | k :: ks, xs, h => by
    unfold lookupAll at h
    obtain ⟨x, h1, h⟩ := bind_ok h
    obtain ⟨ys, h2, h⟩ := bind_ok h
    cases h
    rw [lookupAll_vals h2, List.map_cons]
    congr 1
    unfold valOf
    rw [dictGet_ok.1 h1]
    rfl

theorem outliers_started {P P1 : Prob K (List ℝ)} (hP : LinearProblem P) (h1 : P.started vecVarOps = .ok P1)
    {l : List (RobustSensor K × (ℕ → ℝ))} (hl : ∀ x ∈ l, Fits P.varsInit x.1.keys x.1.jacs x.1.rows) :
    ∃ Q1, (addOutliers P l).started vecVarOps = .ok Q1 ∧ Q1.varSlices = P1.varSlices ∧ Q1.sizeState = P1.sizeState := by
  rw [addOutliers_eq]
  obtain ⟨rs, hrs⟩ : ∃ rs, rs = P.residuals ++ l.map fun x => x.1.res x.2 := ⟨_, rfl⟩
  rw [← hrs]
  obtain ⟨Q, hQ⟩ : ∃ Q : Prob K (List ℝ), Q = { P with residuals := rs, losses := rs.map fun _ => l2Loss } := ⟨_, rfl⟩
  have hQv : Q.varsInit = P.varsInit := by rw [hQ]
  have hQr : Q.residuals = rs := by rw [hQ]
  have hlin : LinearProblem Q := by
    refine ⟨by rw [hQv]; exact hP.keys, by rw [hQ], fun r hr => ?_⟩
    rw [hQr, hrs] at hr
    rw [hQv]
    rcases List.mem_append.1 hr with hr | hr
    · exact hP.residuals r hr
    · obtain ⟨x, hx, rfl⟩ := List.mem_map.1 hr
      exact ⟨_, _, _, _, rfl, (hl x hx).nodup, (hl x hx).length, (hl x hx).shape⟩
  obtain ⟨⟨sl, m⟩, ht⟩ := linear_rowSlices hlin Q.residuals 0 fun r hr => hr
  rw [hQv, hQr] at ht
  obtain ⟨Q1, k1⟩ : ∃ Q1, ({ P with residuals := rs, losses := P.losses ++ l.map fun x => cauchyLoss x.1.scale } : Prob K (List ℝ)).started
      vecVarOps = .ok Q1 := by
    unfold Prob.started Prob.computeSize
    simp only [ht, ok_bindE]
    exact ⟨_, rfl⟩
  refine ⟨Q1, k1, ?_, ?_⟩
  · rw [(started_slices k1).2.1, (started_slices h1).2.1]
  · rw [(started_slices k1).2.2, (started_slices h1).2.2]

/-- What is needed of the estimates: with `T` large enough the pieces are quiet. -/
theorem outs_quiet {ι : Type} {n : ℕ} {l : List ι} {pc : ι → Piece n} {sc : ι → ℝ} {δs : Vec n} {B T : ℝ} (hB : 0 ≤ B) (hT : 0 < T)
    (hpc : ∀ x ∈ l, (pc x).loss = cauchyLoss (sc x) ∧ sc x ≠ 0 ∧ T ≤ vecNorm ((pc x).res δs) ∧ 2 * (frob (pc x).H * B) ≤ T)
    (g : ι → ℝ) (hg : ∀ x ∈ l, 0 ≤ g x) (δ : Vec n) (hδ : vecNorm (δ - δs) ≤ B) :
    (l.map fun x => (pc x).w δ * (g x * vecNorm ((pc x).res δs))).sum ≤ (l.map fun x => 4 * sc x ^ 2 * g x).sum / T := by
  rw [div_eq_mul_inv, ← List.sum_map_mul_right]
  refine List.sum_le_sum fun x hx => ?_
  obtain ⟨h1, h2, h3, h4⟩ := hpc x hx
  have ht : 0 < vecNorm ((pc x).res δs) := hT.trans_le h3
  have hr : vecNorm ((pc x).res δs) / 2 ≤ vecNorm ((pc x).res δ) := by
    have e1 := (pc x).res_move δs δ
    have e2 := vecNorm_add ((pc x).res δ) ((pc x).H *ᵥ (δs - δ))
    rw [← e1] at e2
    have e3 := norm_mulVec_le (pc x).H (δs - δ)
    rw [vecNorm_sub δs δ] at e3
    have e4 := mul_le_mul_of_nonneg_left hδ (frob_nonneg (pc x).H)
    linarith
  have hc := cauchy_small h2 ht hr
  have hw : (pc x).w δ = (cauchyLoss (sc x)).weight (vecNorm ((pc x).res δ)) := by unfold Piece.w; rw [h1]
  rw [← hw] at hc
  have hle : 4 * sc x ^ 2 / vecNorm ((pc x).res δs) ≤ 4 * sc x ^ 2 * T⁻¹ := by
    rw [div_eq_mul_inv]
    exact mul_le_mul_of_nonneg_left (inv_anti₀ hT h3) (by positivity)
  calc (pc x).w δ * (g x * vecNorm ((pc x).res δs)) = ((pc x).w δ * vecNorm ((pc x).res δs)) * g x := by ring
    _ ≤ (4 * sc x ^ 2 * T⁻¹) * g x := mul_le_mul_of_nonneg_right (hc.trans hle) (hg x hx)
    _ = _ := by ring

/-- The problem without the outliers: its normal equations, in the coordinates `δ` of the free variables. -/
theorem base_normal {P P1 P' : Prob K (List ℝ)} (hP : LinearProblem P) (hs : P.cfg.solver = "GN") (hit : 0 < P.cfg.maxIters)
    (hf : P.varSlices = []) (hP1 : P.started vecVarOps = .ok P1) (h : P.solve vecVarOps = .ok P') :
    ∃ (A0 : Mat P1.sizeState P1.sizeState) (δs : Vec P1.sizeState) (l : ℝ) (ps : List (Piece P1.sizeState)),
      0 < P1.sizeState ∧ 0 < l ∧ (∀ v, l * vecNorm v ^ 2 ≤ v ⬝ᵥ A0 *ᵥ v) ∧ P'.vars = moveAll P.constKeys P1.varSlices δs P.varsInit ∧
      P'.info = some ⟨P1.sizeState, A0⟩ ∧ P'.varSlices = P1.varSlices ∧ P'.cov = P.cov ∧
      List.Forall₂ (fun rl p => IsPiece P.constKeys P1.varSlices P1.sizeState P.varsInit rl p) (P.residuals.zip P.losses) ps ∧
      ∀ δ, (ps.map fun p => p.A δ).sum = A0 ∧ (ps.map fun p => p.b δ).sum = A0 *ᵥ (δ - δs) := by
  obtain ⟨e1, e2, e3, e4, e5, e6, -, -⟩ := started_fields hP1
  obtain ⟨P1', hP1', h'⟩ := solve_GN hs h
  rw [hP1] at hP1'
  obtain rfl : P1 = P1' := Except.ok.inj hP1'
  unfold solveGN at h'
  obtain ⟨L, h2, h'⟩ := bind_ok h'
  obtain ⟨s, h3, h'⟩ := bind_ok h'
  clear h'
  rw [e6] at h2 h3
  obtain ⟨m, n, e, H, c⟩ := L
  obtain ⟨hm, hn⟩ := linearize_shape h2
  simp only at hm hn
  subst hm hn
  have haff := linear_affine hP hP1 h2
  have hdn : (Hᵀ * H).det ≠ 0 ∧ 0 < P1.sizeState := by
    obtain ⟨N, hN⟩ : ∃ N, P1.cfg.maxIters = N + 1 := ⟨P1.cfg.maxIters - 1, by rw [e1]; omega⟩
    rw [hN] at h3
    unfold iterLoop at h3
    obtain ⟨r, hr, h3⟩ := bind_ok h3
    unfold gnStep at hr
    rw [if_neg (by simp [isConverged])] at hr
    obtain ⟨δ, g1, hr⟩ := bind_ok hr
    obtain ⟨w, g2, hr⟩ := bind_ok hr
    obtain ⟨L', g3, hr⟩ := bind_ok hr
    obtain ⟨g, g4, hr⟩ := bind_ok hr
    refine ⟨(spsolve_ok g1).1, ?_⟩
    have := (linearize_shape g3).2
    rw [← this]
    unfold Lin.gradNorm npMax at g4
    split at g4
    · assumption
    · cases g4
  obtain ⟨hd, hn⟩ := hdn
  obtain ⟨hfin, -⟩ := C40_gn_affine vecVarOps P P1 P' hs hit hP1 h _ _ e H haff hd
  obtain ⟨hi, hv, hcv, -⟩ := C40_information vecVarOps P P1 P' hs hP1 h _ _ e H haff
  have hfit := linear_fit hP hP1
  obtain ⟨l, hl, hlow⟩ := gram_lower hd
  have hpieces : ∀ rs : List (Residual K (List ℝ)), (∀ r ∈ rs, r ∈ P.residuals) → ∃ ps : List (Piece P1.sizeState),
      List.Forall₂ (fun rl p => IsPiece P.constKeys P1.varSlices P1.sizeState P.varsInit rl p) (rs.zip (rs.map fun _ => l2Loss)) ps := by
    intro rs
    induction rs with
    | nil => exact fun _ => ⟨[], .nil⟩
    | cons r rs ih =>
      intro hrs
      obtain ⟨ps, hps⟩ := ih fun r hr => hrs r (List.mem_cons_of_mem _ hr)
      obtain ⟨ks, Js, n, b, rfl, q1, q2, q3⟩ := hP.residuals r (hrs r List.mem_cons_self)
      obtain ⟨M, hM⟩ := linear_piece hP.keys hP1 hf (⟨q1, q2, q3⟩ : Fits P.varsInit ks Js n)
      obtain ⟨e, he⟩ := hM b l2Loss
      exact ⟨_, .cons he hps⟩
  obtain ⟨ps, hps⟩ := hpieces P.residuals fun r hr => hr
  rw [← hP.losses] at hps
  have hw : ∀ rl ∈ P.residuals.zip P.losses, ∀ x, 0 ≤ rl.2.weight x := by
    intro rl hrl x
    have := (List.of_mem_zip hrl).2
    rw [hP.losses, List.mem_map] at this
    obtain ⟨r, -, hr⟩ := this
    rw [← hr]
    exact zero_le_one
  refine ⟨Hᵀ * H, gnDelta e H, l, ps, hn, hl, hlow, ?_, hi, hv, hcv, hps, fun δ => ?_⟩
  · rw [correct_vec _ hfit, e3] at hfin
    exact (Except.ok.inj hfin).symm
  · obtain ⟨m, e', H', c', k1, k2, k3⟩ := pieces_linearize hP1 hf hP.keys (by rw [hP.losses, List.length_map]) hps hw δ
    have := haff.lin δ _ (correct_vec δ hfit)
    rw [e3, k1] at this
    have := Except.ok.inj this
    rw [← k2, ← k3]
    obtain ⟨rfl, -, he', hH', -⟩ := Lin.mk.inj this
    have he' := eq_of_heq he'
    have hH' := eq_of_heq hH'
    refine ⟨by rw [hH'], ?_⟩
    rw [he', hH']
    have hz := gnDelta_normal e H hd
    have : e + H *ᵥ δ = (e + H *ᵥ gnDelta e H) + H *ᵥ (δ - gnDelta e H) := by rw [mulVec_sub]; abel
    rw [this, mulVec_add, hz, zero_add, mulVec_mulVec]

/-- The variables and the covariances of two solved problems are the same up to `ε`. -/
structure CloseTo (ε : ℝ) (P' Q' : Prob K (List ℝ)) : Prop where
  shape : SameShape P'.vars Q'.vars
  vars : ∀ (k : K) (c : ℕ), |(valOf Q'.vars k).getD c 0 - (valOf P'.vars k).getD c 0| ≤ ε
  cov : ∀ (k1 k2 : K) (D : DMat) (P'' : Prob K (List ℝ)), P'.getCovarianceBlock k1 k2 = .ok (some D, P'') →
    ∃ D' Q'', Q'.getCovarianceBlock k1 k2 = .ok (some D', Q'') ∧ D'.rows = D.rows ∧ D'.cols = D.cols ∧
      ∀ i j, |D'.get i j - D.get i j| ≤ ε

theorem moveAll_close {n : ℕ} {const : List K} {vs : List (K × Slice)} {v0 : List (K × List ℝ)} (hfit : SlicesFit const vs n v0)
    (hn : (v0.map Prod.fst).Nodup) {δ δ' : Vec n} {ε : ℝ} (hε : 0 ≤ ε) (h : vecNorm (δ' - δ) ≤ ε) (k : K) (c : ℕ) :
    |(valOf (moveAll const vs δ' v0) k).getD c 0 - (valOf (moveAll const vs δ v0) k).getD c 0| ≤ ε := by
  unfold valOf
  rw [moveAll_lookup, moveAll_lookup]
  cases hx : v0.lookup k with
  | none => simpa using hε
  | some x =>
    simp only [Option.map_some, Option.getD_some]
    by_cases hk : k ∈ const
    · rw [if_pos hk, if_pos hk, sub_self, abs_zero]; exact hε
    · rw [if_neg hk, if_neg hk]
      obtain ⟨s, h1, h2, h3⟩ := hfit (k, x) (mem_of_lookup hx) hk
      rw [h1, Option.getD_some]
      by_cases hc : c < x.length
      · have hlen : ∀ δ : Vec n, (moveVec δ s.start x).length = x.length := fun δ => by simp [moveVec]
        rw [List.getD_eq_getElem?_getD, List.getD_eq_getElem?_getD, List.getElem?_eq_getElem (by rw [hlen]; exact hc),
          List.getElem?_eq_getElem (by rw [hlen]; exact hc), Option.getD_some, Option.getD_some]
        rw [moveVec_get _ _ _ _ _ hc, moveVec_get _ _ _ _ _ hc]
        have hb : s.start + c < n := by have : s.stop = s.start + x.length := h2; omega
        rw [dif_pos hb, dif_pos hb, add_sub_add_left_eq_sub]
        exact (entry_le_norm (δ' - δ) ⟨s.start + c, hb⟩).trans h
      · have hlen : ∀ δ : Vec n, (moveVec δ s.start x).length = x.length := fun δ => by simp [moveVec]
        rw [List.getD_eq_getElem?_getD, List.getD_eq_getElem?_getD, List.getElem?_eq_none (by rw [hlen]; omega),
          List.getElem?_eq_none (by rw [hlen]; omega), sub_self, abs_zero]
        exact hε

theorem cov_close {P' Q' : Prob K (List ℝ)} {n : ℕ} {A0 A1 : Mat n n} {ε : ℝ} (hε : 0 ≤ ε) (h0 : A0.det ≠ 0) (h1 : A1.det ≠ 0)
    (i0 : P'.info = some ⟨n, A0⟩) (i1 : Q'.info = some ⟨n, A1⟩) (c0 : P'.cov = none) (c1 : Q'.cov = none)
    (hs : Q'.varSlices = P'.varSlices) (h : ∀ i j, |A1⁻¹ i j - A0⁻¹ i j| ≤ ε)
    (k1 k2 : K) (D : DMat) (P'' : Prob K (List ℝ)) (hD : P'.getCovarianceBlock k1 k2 = .ok (some D, P'')) :
    ∃ D' Q'', Q'.getCovarianceBlock k1 k2 = .ok (some D', Q'') ∧ D'.rows = D.rows ∧ D'.cols = D.cols ∧
      ∀ i j, |D'.get i j - D.get i j| ≤ ε := by
  cases e1 : P'.varSlices.lookup k1 with
  | none =>
    obtain ⟨R, hR⟩ := C41_unknown_key P' k1 k2 (Or.inl e1)
    rw [hR] at hD
    cases hD
  | some s1 =>
    cases e2 : P'.varSlices.lookup k2 with
    | none =>
      obtain ⟨R, hR⟩ := C41_unknown_key P' k1 k2 (Or.inr e2)
      rw [hR] at hD
      cases hD
    | some s2 =>
      rw [C41_first_query P' ⟨n, A0⟩ i0 h0 c0 k1 k2 s1 s2 e1 e2] at hD
      cases hD
      refine ⟨_, _, C41_first_query Q' ⟨n, A1⟩ i1 h1 c1 k1 k2 s1 s2 (by rw [hs]; exact e1) (by rw [hs]; exact e2), rfl, rfl, fun i j => ?_⟩
      show |(if hh : _ then _ else _) - (if hh : _ then _ else _)| ≤ ε
      split
      · exact h _ _
      · rw [sub_self, abs_zero]; exact hε

theorem pieces_solve {Q Q1 : Prob K (List ℝ)} (hs : Q.cfg.solver = "GN") (hit : 0 < Q.cfg.maxIters) (h : Q.started vecVarOps = .ok Q1)
    (hf : Q.varSlices = []) (hk : (Q.varsInit.map Prod.fst).Nodup) (hlen : Q.losses.length = Q.residuals.length)
    {vs : List (K × Slice)} {n : ℕ} (hvs : Q1.varSlices = vs) (hn : Q1.sizeState = n) {A0 : Mat n n} {ps outs : List (Piece n)} {δs : Vec n}
    {l B η : ℝ} (hp : List.Forall₂ (fun rl p => IsPiece Q.constKeys vs n Q.varsInit rl p) (Q.residuals.zip Q.losses) (ps ++ outs))
    (hw : ∀ rl ∈ Q.residuals.zip Q.losses, ∀ x, 0 ≤ rl.2.weight x)
    (hsum : ∀ δ, (ps.map fun p => p.A δ).sum = A0 ∧ (ps.map fun p => p.b δ).sum = A0 *ᵥ (δ - δs))
    (hl : 0 < l) (hA0 : ∀ v, l * vecNorm v ^ 2 ≤ v ⬝ᵥ A0 *ᵥ v)
    (hwo : ∀ p ∈ outs, ∀ x, 0 ≤ p.loss.weight x) (hq : Quiet outs δs B (l * η)) (hη : η ≤ B) (hB : vecNorm δs ≤ B) (hn0 : 0 < n)
    (hfit : SlicesFit Q.constKeys vs n Q.varsInit) :
    ∃ (Q' : Prob K (List ℝ)) (δ' δp : Vec n), Q.solve vecVarOps = .ok Q' ∧
      Q'.vars = moveAll Q.constKeys vs δ' Q.varsInit ∧ vecNorm (δ' - δs) ≤ η ∧ vecNorm (δp - δs) ≤ B ∧
      Q'.info = some ⟨n, A0 + (outs.map fun p => p.A δp).sum⟩ ∧ Q'.varSlices = vs ∧ Q'.cov = Q.cov := by
  subst hvs hn
  obtain ⟨e1, e2, e3, -⟩ := started_fields h
  rw [← e3] at hfit ⊢
  refine robust_solve hs hit h hl hA0 hwo hq hη hB hn0 hfit fun δ => ?_
  obtain ⟨m, e, H, c, k1, k2, k3⟩ := pieces_linearize h hf hk hlen hp hw δ
  rw [← e3] at k1
  refine ⟨m, e, H, c, k1, ?_, ?_⟩
  · rw [k2, List.map_append, List.sum_append, (hsum δ).1]
  · rw [k3, List.map_append, List.sum_append, (hsum δ).2]

/-- The pieces of the outliers. -/
theorem outlier_pieces {P P1 : Prob K (List ℝ)} (hP : LinearProblem P) (hf : P.varSlices = []) (hP1 : P.started vecVarOps = .ok P1) :
    ∃ F : RobustSensor K → ℝ × ℝ × ℝ, (∀ s, 0 ≤ (F s).1 ∧ 0 ≤ (F s).2.1 ∧ 0 ≤ (F s).2.2) ∧
      ∃ pc : RobustSensor K × (ℕ → ℝ) → Piece P1.sizeState, ∀ x, (frob (pc x).H = (F x.1).1 ∧ 4 * x.1.scale ^ 2 * frob (pc x).H = (F x.1).2.1 ∧
          4 * x.1.scale ^ 2 * (frob (pc x).Hᵀ * frob (pc x).H) = (F x.1).2.2) ∧
        (pc x).loss = cauchyLoss x.1.scale ∧ (Fits P.varsInit x.1.keys x.1.jacs x.1.rows →
          IsPiece P.constKeys P1.varSlices P1.sizeState P.varsInit (x.1.res x.2, cauchyLoss x.1.scale) (pc x)) := by
  have h1 : ∀ s : RobustSensor K, ∃ H : Mat s.rows P1.sizeState, Fits P.varsInit s.keys s.jacs s.rows → ∀ (b : ℕ → ℝ) (ls : Loss), ∃ e : Vec s.rows,
      IsPiece P.constKeys P1.varSlices P1.sizeState P.varsInit (linRes s.keys s.jacs s.rows b, ls) ⟨s.rows, e, H, ls⟩ := by
    intro s
    by_cases hs : Fits P.varsInit s.keys s.jacs s.rows
    · obtain ⟨H, hH⟩ := linear_piece hP.keys hP1 hf hs
      exact ⟨H, fun _ => hH⟩
    · exact ⟨0, fun h => absurd h hs⟩
  choose H hH using h1
  have h2 : ∀ x : RobustSensor K × (ℕ → ℝ), ∃ e : Vec x.1.rows, Fits P.varsInit x.1.keys x.1.jacs x.1.rows →
      IsPiece P.constKeys P1.varSlices P1.sizeState P.varsInit (x.1.res x.2, cauchyLoss x.1.scale)
        ⟨x.1.rows, e, H x.1, cauchyLoss x.1.scale⟩ := by
    intro x
    by_cases hs : Fits P.varsInit x.1.keys x.1.jacs x.1.rows
    · obtain ⟨e, he⟩ := hH x.1 hs x.2 (cauchyLoss x.1.scale)
      exact ⟨e, fun _ => he⟩
    · exact ⟨0, fun h => absurd h hs⟩
  choose e he using h2
  refine ⟨fun s => (frob (H s), 4 * s.scale ^ 2 * frob (H s), 4 * s.scale ^ 2 * (frob (H s)ᵀ * frob (H s))), fun s => ?_,
    fun x => ⟨x.1.rows, e x, H x.1, cauchyLoss x.1.scale⟩, fun x => ⟨⟨rfl, rfl, rfl⟩, rfl, he x⟩⟩
  have := frob_nonneg (H s)
  have := frob_nonneg (H s)ᵀ
  exact ⟨by positivity, by positivity, by positivity⟩

/-- **C137.** A linear problem with a unique solution, and any number of extra measurements with a Cauchy loss: however small `ε`, there is
a distance `T`, the same for all measurements of those sensors, such that if every one of them misses the estimate of the problem without
them by at least `T`, Gauss-Newton on the whole problem returns that same estimate, with the same covariances, up to `ε`. Gross outliers
are ignored altogether. -/
theorem C137_outliers (P P' : Prob K (List ℝ)) (hP : LinearProblem P) (hs : P.cfg.solver = "GN") (hit : 0 < P.cfg.maxIters)
    (hf : P.varSlices = []) (hc : P.cov = none) (h : P.solve vecVarOps = .ok P') (sensors : List (RobustSensor K))
    (hsen : ∀ s ∈ sensors, s.scale ≠ 0 ∧ Fits P.varsInit s.keys s.jacs s.rows) (ε : ℝ) (hε : 0 < ε) :
    ∃ T : ℝ, ∀ l : List (RobustSensor K × (ℕ → ℝ)), l.map Prod.fst = sensors → (∀ x ∈ l, T ≤ x.1.miss x.2 P'.vars) →
      ∃ Q', (addOutliers P l).solve vecVarOps = .ok Q' ∧ CloseTo ε P' Q' := by
  obtain ⟨P1, hP1⟩ := linear_started hP
  obtain ⟨A0, δs, lam, ps, hn, hlam, hA0, hv', hi', hvs', hcv', hps, hsum⟩ := base_normal hP hs hit hf hP1 h
  obtain ⟨F, hF, pc, hpc⟩ := outlier_pieces hP hf hP1
  have hfit := linear_fit hP hP1
  obtain ⟨e1, e2, e3, e4, e5, e6, -, -⟩ := started_fields hP1
  rw [e3] at hfit
  obtain ⟨B, hB⟩ : ∃ B, B = vecNorm δs + ε := ⟨_, rfl⟩
  have hδs := vecNorm_nonneg δs
  have hB0 : 0 ≤ B := by linarith
  have hsum0 : ∀ g : RobustSensor K → ℝ, (∀ s, 0 ≤ g s) → 0 ≤ (sensors.map g).sum := fun g hg => by
    refine List.sum_nonneg fun x hx => ?_
    obtain ⟨s, -, rfl⟩ := List.mem_map.1 hx
    exact hg s
  have q0 := hsum0 (fun s => (F s).1) fun s => (hF s).1
  have q1 := hsum0 (fun s => (F s).2.1) fun s => (hF s).2.1
  have q2 := hsum0 (fun s => (F s).2.2) fun s => (hF s).2.2
  obtain ⟨T, hT⟩ : ∃ T, T = 1 + 2 * ((sensors.map fun s => (F s).1).sum * B) + (sensors.map fun s => (F s).2.1).sum / (lam * ε) +
    (sensors.map fun s => (F s).2.2).sum / (lam ^ 2 * ε) := ⟨_, rfl⟩
  have r0 : 0 ≤ 2 * ((sensors.map fun s => (F s).1).sum * B) := by positivity
  have r1 : 0 ≤ (sensors.map fun s => (F s).2.1).sum / (lam * ε) := by positivity
  have r2 : 0 ≤ (sensors.map fun s => (F s).2.2).sum / (lam ^ 2 * ε) := by positivity
  refine ⟨T, fun l hl hmiss => ?_⟩
  have hT1 : 1 ≤ T := by linarith
  have hT0 : 0 < T := by linarith
  have hmem : ∀ x ∈ l, x.1.scale ≠ 0 ∧ Fits P.varsInit x.1.keys x.1.jacs x.1.rows := fun x hx =>
    hsen x.1 (by rw [← hl]; exact List.mem_map_of_mem hx)
  obtain ⟨Q1, hQ1, hQs, hQn⟩ := outliers_started (l := l) hP hP1 fun x hx => (hmem x hx).2
  have hQeq := addOutliers_eq l P
  obtain ⟨Q, hQ⟩ : ∃ Q, Q = addOutliers P l := ⟨_, rfl⟩
  rw [← hQ] at hQ1 hQeq ⊢
  have w1 : Q.varsInit = P.varsInit := by rw [hQeq]
  have w2 : Q.constKeys = P.constKeys := by rw [hQeq]
  have w3 : Q.cfg = P.cfg := by rw [hQeq]
  have w4 : Q.varSlices = [] := by rw [hQeq]; exact hf
  have w5 : Q.cov = none := by rw [hQeq]; exact hc
  have w6 : Q.residuals = P.residuals ++ l.map fun x => x.1.res x.2 := by rw [hQeq]
  have w7 : Q.losses = P.losses ++ l.map fun x => cauchyLoss x.1.scale := by rw [hQeq]
  clear hQeq hQ
  obtain ⟨f1, f2, f3, f4, f5, f6, -, -⟩ := started_fields hQ1
  obtain ⟨nQ, hnQ⟩ : ∃ nQ, nQ = P1.sizeState := ⟨_, rfl⟩
  have hout : ∀ x ∈ l, (pc x).loss = cauchyLoss x.1.scale ∧ x.1.scale ≠ 0 ∧ T ≤ vecNorm ((pc x).res δs) ∧ 2 * (frob (pc x).H * B) ≤ T := by
    intro x hx
    obtain ⟨hsc, hfx⟩ := hmem x hx
    obtain ⟨⟨g1, g2, g3⟩, g4, g5⟩ := hpc x
    refine ⟨g4, hsc, ?_, ?_⟩
    · obtain ⟨xs, err, z1, z2, z3⟩ := (g5 hfx).norm δs
      rw [← hv'] at z1
      have z1' := lookupAll_vals z1
      cases z2
      rw [← z3, z1']
      exact hmiss x hx
    · rw [g1]
      have : (F x.1).1 ≤ (sensors.map fun s => (F s).1).sum := by
        refine List.single_le_sum (fun y hy => ?_) _ (List.mem_map_of_mem (f := fun s => (F s).1) (by rw [← hl]; exact List.mem_map_of_mem hx))
        obtain ⟨s, -, rfl⟩ := List.mem_map.1 hy
        exact (hF s).1
      have := mul_le_mul_of_nonneg_right this hB0
      linarith
  have hsumF : ∀ g : RobustSensor K → ℝ, (l.map fun x => g x.1).sum = (sensors.map g).sum := fun g => by rw [← hl, List.map_map]; rfl
  have hquiet : Quiet (l.map pc) δs B (lam * ε) := by
    intro δ hδ
    rw [List.map_map]
    refine (outs_quiet (sc := fun x => x.1.scale) hB0 hT0 hout (fun x => frob (pc x).H) (fun x _ => frob_nonneg _) δ hδ).trans ?_
    have : (l.map fun x => 4 * x.1.scale ^ 2 * frob (pc x).H) = l.map fun x => (F x.1).2.1 :=
      List.map_congr_left fun x _ => (hpc x).1.2.1
    rw [this, hsumF fun s => (F s).2.1, div_le_iff₀ hT0]
    have : (sensors.map fun s => (F s).2.1).sum = lam * ε * ((sensors.map fun s => (F s).2.1).sum / (lam * ε)) := by field_simp
    rw [this]
    exact mul_le_mul_of_nonneg_left (by linarith) (by positivity)
  have hwpos : ∀ p ∈ l.map pc, ∀ x, 0 ≤ p.loss.weight x := by
    intro p hp x
    obtain ⟨y, hy, rfl⟩ := List.mem_map.1 hp
    rw [(hpc y).2.1]
    exact (cauchy_weight_pos _ _).le
  have hcovq : ∀ δ : Vec P1.sizeState, vecNorm (δ - δs) ≤ B →
      ((l.map pc).map fun p => p.w δ * (frob p.Hᵀ * frob p.H)).sum ≤ lam ^ 2 * ε := by
    intro δ hδ
    rw [List.map_map]
    have hle : (l.map ((fun p => p.w δ * (frob p.Hᵀ * frob p.H)) ∘ pc)).sum ≤
        (l.map fun x => (pc x).w δ * ((frob (pc x).Hᵀ * frob (pc x).H) * vecNorm ((pc x).res δs))).sum := by
      refine List.sum_le_sum fun x hx => ?_
      have a1 : 0 ≤ frob (pc x).Hᵀ * frob (pc x).H := mul_nonneg (frob_nonneg _) (frob_nonneg _)
      have a2 : 0 ≤ (pc x).w δ := hwpos _ (List.mem_map_of_mem hx) _
      refine mul_le_mul_of_nonneg_left ?_ a2
      exact le_mul_of_one_le_right a1 (hT1.trans (hout x hx).2.2.1)
    refine hle.trans ((outs_quiet (sc := fun x => x.1.scale) hB0 hT0 hout (fun x => frob (pc x).Hᵀ * frob (pc x).H)
      (fun x _ => mul_nonneg (frob_nonneg _) (frob_nonneg _)) δ hδ).trans ?_)
    have : (l.map fun x => 4 * x.1.scale ^ 2 * (frob (pc x).Hᵀ * frob (pc x).H)) = l.map fun x => (F x.1).2.2 :=
      List.map_congr_left fun x _ => (hpc x).1.2.2
    rw [this, hsumF fun s => (F s).2.2, div_le_iff₀ hT0]
    have : (sensors.map fun s => (F s).2.2).sum = lam ^ 2 * ε * ((sensors.map fun s => (F s).2.2).sum / (lam ^ 2 * ε)) := by field_simp
    rw [this]
    exact mul_le_mul_of_nonneg_left (by linarith) (by positivity)
  have hforall : List.Forall₂ (fun rl p => IsPiece P.constKeys P1.varSlices P1.sizeState P.varsInit rl p) (Q.residuals.zip Q.losses)
      (ps ++ l.map pc) := by
    rw [w6, w7, List.zip_append (by rw [hP.losses, List.length_map])]
    refine List.rel_append hps ?_
    have : ∀ l' : List (RobustSensor K × (ℕ → ℝ)), (∀ x ∈ l', x ∈ l) →
        List.Forall₂ (fun rl p => IsPiece P.constKeys P1.varSlices P1.sizeState P.varsInit rl p)
          ((l'.map fun x => x.1.res x.2).zip (l'.map fun x => cauchyLoss x.1.scale)) (l'.map pc) := by
      intro l'
      induction l' with
      | nil => exact fun _ => .nil
      | cons x l' ih =>
        intro hx
        exact .cons ((hpc x).2.2 (hmem x (hx x List.mem_cons_self)).2) (ih fun y hy => hx y (List.mem_cons_of_mem _ hy))
    exact this l fun x hx => hx
  have hwq : ∀ rl ∈ Q.residuals.zip Q.losses, ∀ x, 0 ≤ rl.2.weight x := by
    intro rl hrl x
    have := (List.of_mem_zip hrl).2
    rw [w7] at this
    rcases List.mem_append.1 this with h0 | h0
    · rw [hP.losses, List.mem_map] at h0
      obtain ⟨r, -, hr⟩ := h0
      rw [← hr]
      exact zero_le_one
    · obtain ⟨y, -, hy⟩ := List.mem_map.1 h0
      rw [← hy]
      exact (cauchy_weight_pos _ _).le
  rw [← w1, ← w2] at hforall
  obtain ⟨Q', δ', δp, s1, s2, s3, s4, s5, s6, s7⟩ := pieces_solve (by rw [w3]; exact hs) (by rw [w3]; exact hit) hQ1 w4 (by rw [w1]; exact hP.keys)
    (by rw [w6, w7, hP.losses]; simp) hQs hQn hforall hwq hsum hlam hA0 hwpos hquiet (by linarith) (by linarith) hn
    (by rw [w1, w2]; exact hfit)
  rw [w1, w2] at s2
  refine ⟨Q', s1, ?_, fun k c => ?_, ?_⟩
  · rw [s2, hv']
    obtain ⟨a1, a2⟩ := moveAll_shape (const := P.constKeys) (sl := P1.varSlices) δ' P.varsInit
    obtain ⟨b1, b2⟩ := moveAll_shape (const := P.constKeys) (sl := P1.varSlices) δs P.varsInit
    exact ⟨a1.trans b1.symm, a2.trans b2.symm⟩
  · rw [s2, hv']
    exact moveAll_close hfit hP.keys hε.le s3 k c
  · refine cov_close hε.le (det_of_lower hlam hA0) (det_of_lower hlam (robust_lower hA0 _ δp fun p hp => hwpos p hp _)) hi' s5 (hcv'.trans hc)
      (s7.trans w5) (s6.trans hvs'.symm) fun i j => ?_
    have := (inv_close hlam hA0 (l.map pc) δp (fun p hp => hwpos p hp _) i j).trans (hcovq δp s4)
    exact le_of_mul_le_mul_left this (by positivity)

/-! ### A concrete case: `2 x - 6`, and one outlier `x + b` -/

/-- A sensor for the variable of `exProb`. -/
def exSensor : RobustSensor ℕ := ⟨[7], [⟨1, 1, fun _ _ => 1⟩], 1, 1⟩

theorem exSensor_fits : Fits exProb.varsInit exSensor.keys exSensor.jacs exSensor.rows := by
  refine ⟨by simp [exSensor], rfl, ?_⟩
  intro t k J h1 h2
  cases t with
  | succ t => simp [exSensor] at h1
  | zero =>
    simp only [exSensor, List.getElem?_cons_zero, Option.some.injEq] at h1 h2
    subst h1 h2
    exact ⟨rfl, [0], rfl, rfl⟩

/-- However large `M`, there is an outlier larger than `M` that is ignored up to `1/100`. -/
example (M : ℝ) : ∃ P' Q' b, exProb.solve vecVarOps = .ok P' ∧ M ≤ b ∧
    (addOutliers exProb [(exSensor, fun _ => b)]).solve vecVarOps = .ok Q' ∧ CloseTo (1 / 100) P' Q' := by
  obtain ⟨P1, L, h1, h2, h3, h4⟩ := exProb_linearize
  obtain ⟨P', hP'⟩ := C40_returns exProb P1 exProb_linear rfl (by decide) h1 L h2 h3 h4
  obtain ⟨T, hT⟩ := C137_outliers exProb P' exProb_linear rfl (by decide) rfl rfl hP' [exSensor]
    (fun s hs => by rw [List.mem_singleton.1 hs]; exact ⟨one_ne_zero, exSensor_fits⟩) (1 / 100) (by norm_num)
  obtain ⟨x, hx⟩ : ∃ x, x = (valOf P'.vars 7).getD 0 0 := ⟨_, rfl⟩
  obtain ⟨Q', hQ, hc⟩ := hT [(exSensor, fun _ => |M| + |T| + |x|)] rfl (by
    intro y hy
    rw [List.mem_singleton.1 hy]
    have : exSensor.miss (fun _ => |M| + |T| + |x|) P'.vars = |(|M| + |T| + |x|) + x| := by
      unfold RobustSensor.miss exSensor listNorm linErr
      rw [hx]
      simp [Real.sqrt_mul_self_eq_abs]
    show T ≤ exSensor.miss _ _
    rw [this]
    refine le_trans ?_ (le_abs_self _)
    have := neg_abs_le x
    have := le_abs_self T
    have := abs_nonneg M
    linarith)
  refine ⟨P', Q', _, hP', ?_, hQ, hc⟩
  have := le_abs_self M
  have := abs_nonneg T
  have := abs_nonneg x
  linarith

end Verif
