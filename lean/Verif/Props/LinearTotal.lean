import Verif.Props.LinearProblem

/-!
A linear least squares problem can always be set up and linearized (strengthens the hypotheses of C40).
-/

namespace Verif

set_option linter.unusedVariables false
set_option linter.unusedSectionVars false

open Matrix

variable {K : Type} [DecidableEq K]

theorem linear_rowSlices {P : Prob K (List ℝ)} (hP : LinearProblem P) : ∀ (rs : List (Residual K (List ℝ))) (i : ℕ),
    (∀ r ∈ rs, r ∈ P.residuals) → ∃ t, rowSlices P.varsInit rs i = .ok t
  | [], i, h => ⟨_, rfl⟩
  | r :: rs, i, h => by
    obtain ⟨ks, Js, n, b, rfl, hnd, hlen, hsh⟩ := hP.residuals r (h r (by simp))
    obtain ⟨l1, l2, l3⟩ := linear_eval (b := b) hP ⟨rfl, rfl⟩ hlen hsh (v := P.varsInit)
    obtain ⟨⟨sl, tot⟩, ht⟩ := linear_rowSlices hP rs (i + (linErr n b Js (ks.map (valOf P.varsInit))).length)
      fun r hr => h r (by simp [hr])
    refine ⟨(⟨i, i + (linErr n b Js (ks.map (valOf P.varsInit))).length⟩ :: sl, tot), ?_⟩
    unfold rowSlices
    simp only [l1, l2, ht, bind, Except.bind]
    rfl

/-- Setting up succeeds. -/
theorem linear_started {P : Prob K (List ℝ)} (hP : LinearProblem P) : ∃ P1, P.started vecVarOps = .ok P1 := by
  obtain ⟨⟨sl, m⟩, ht⟩ := linear_rowSlices hP P.residuals 0 fun r hr => hr
  unfold Prob.started Prob.computeSize
  have ht' : rowSlices (({ P with vars := P.varsInit } : Prob K (List ℝ)).vars)
    (({ P with vars := P.varsInit } : Prob K (List ℝ)).residuals) 0 = .ok (sl, m) := ht
  rw [ht']
  exact ⟨_, rfl⟩

theorem linear_placeJacs {P P1 : Prob K (List ℝ)} (hP : LinearProblem P) (h : P.started vecVarOps = .ok P1)
    {s : Slice} {w : ℝ} {n : ℕ} : ∀ {ks : List K} {Js : List DMat} (H : DMat), s.len H.rows = n →
      H.cols = P1.sizeState →
      Js.length = ks.length → (∀ (t : ℕ) (k : K) (J : DMat), ks[t]? = some k → Js[t]? = some J →
        J.rows = n ∧ ∃ x, P.varsInit.lookup k = some x ∧ J.cols = x.length) →
      ∃ H', placeJacs P1.varSlices s w ks (linJacs P.constKeys ks Js) H = .ok H'
  | [], Js, H, h1, h2, h3, h4 => ⟨H, rfl⟩
  | k :: ks, [], H, h1, h2, h3, h4 => by simp at h3
  | k :: ks, J :: Js, H, h1, h2, h3, h4 => by
    obtain ⟨hr, x, hx, hc⟩ := h4 0 k J rfl rfl
    have h4' : ∀ (t : ℕ) (q : K) (J : DMat), ks[t]? = some q → Js[t]? = some J →
        J.rows = n ∧ ∃ x, P.varsInit.lookup q = some x ∧ J.cols = x.length :=
      fun t q J a c => h4 (t + 1) q J (by simpa using a) (by simpa using c)
    obtain ⟨e1, e2, e3, e4, e5, e6, -, -⟩ := started_fields h
    by_cases hk : k ∈ P.constKeys
    · obtain ⟨H', hH'⟩ := linear_placeJacs hP h (s := s) (w := w) (n := n) (ks := ks) (Js := Js) H h1 h2
        (by simpa using h3) h4'
      refine ⟨H', ?_⟩
      have e : linJacs P.constKeys (k :: ks) (J :: Js) = none :: linJacs P.constKeys ks Js := by
        simp [linJacs, hk]
      rw [e]
      unfold placeJacs
      exact hH'
    · obtain ⟨cs, c1, c2, c3⟩ := linear_fit hP h (k, x) (mem_of_lookup hx) (by rw [e3]; exact hk)
      simp only at c1 c2
      have e : linJacs P.constKeys (k :: ks) (J :: Js) = some J :: linJacs P.constKeys ks Js := by
        simp [linJacs, hk]
      obtain ⟨H1, hH1⟩ : ∃ H1, H.setBlock s cs (J.scale w) = .ok H1 := by
        refine ⟨_, if_pos ⟨.inl ?_, .inl ?_⟩⟩
        · show J.rows = _
          rw [hr, h1]
        · show J.cols = _
          unfold Slice.len
          rw [hc, h2]
          omega
      obtain ⟨f1, f2, -⟩ := setBlock_frame hH1
      obtain ⟨H', hH'⟩ := linear_placeJacs hP h (s := s) (w := w) (n := n) (ks := ks) (Js := Js) H1 (by rw [f1]; exact h1)
        (by rw [f2]; exact h2) (by simpa using h3) h4'
      refine ⟨H', ?_⟩
      rw [e]
      unfold placeJacs
      rw [dictGet_ok.2 c1]
      show (H.setBlock s cs (J.scale w) >>= _) = _
      rw [hH1]
      exact hH'

theorem linear_asmLoop {P P1 : Prob K (List ℝ)} (hP : LinearProblem P) (h : P.started vecVarOps = .ok P1) :
    ∀ (rs : List (Residual K (List ℝ))) (i : ℕ) (a : Asm), P.residuals.drop i = rs →
      a.H.rows = P1.sizeErr → a.H.cols = P1.sizeState →
      ∃ a', asmLoop P1 P.varsInit i (rs.zip (rs.map fun _ => l2Loss)) a = .ok a'
  | [], i, a, hd, h1, h2 => ⟨a, rfl⟩
  | r :: rs, i, a, hd, h1, h2 => by
    have hi : i < P.residuals.length := by
      by_contra hc
      rw [List.drop_eq_nil_of_le (by omega)] at hd
      cases hd
    have hir : P.residuals[i]? = some r := by
      have := congrArg (fun l => l[0]?) hd
      simpa using this
    have hd' : P.residuals.drop (i + 1) = rs := by
      have := congrArg List.tail hd
      simpa using this
    obtain ⟨ks, Js, n, b, rfl, hnd, hlen, hsh⟩ := hP.residuals r (List.mem_of_getElem? hir)
    obtain ⟨l1, l2, l3⟩ := linear_eval (b := b) hP ⟨rfl, rfl⟩ hlen hsh (v := P.varsInit)
    obtain ⟨e1, e2, e3, e4, e5, e6, -, -⟩ := started_fields h
    obtain ⟨hrow, -, -⟩ := started_slices h
    obtain ⟨sizes, ⟨hl, hs⟩, hlen2, htot, hsl⟩ := rowSlices_spec hrow
    simp only [Nat.zero_add] at htot hsl
    obtain ⟨xs0, e0, g1, g2, g3⟩ := hs i _ hir
    rw [l1] at g1; cases g1
    rw [l2] at g2
    injection g2 with g2
    rw [← g2, l3] at g3
    obtain ⟨hisz, hval⟩ := List.getElem?_eq_some_iff.1 g3
    have hp1 : pre sizes (i + 1) = pre sizes i + n := by rw [pre_succ sizes i hisz, hval]
    have hp2 := pre_le_sum sizes (i + 1)
    have hln : (⟨pre sizes i, pre sizes (i + 1)⟩ : Slice).len P1.sizeErr = n := by
      unfold Slice.len
      simp only
      omega
    have hw : Real.sqrt (l2Loss.weight (listNorm (linErr n b Js (ks.map (valOf P.varsInit))))) = 1 := by
      simp [l2Loss]
    obtain ⟨e', he'⟩ : ∃ e', setSeg P1.sizeErr a.e ⟨pre sizes i, pre sizes (i + 1)⟩
        ((linErr n b Js (ks.map (valOf P.varsInit))).map
          (Real.sqrt (l2Loss.weight (listNorm (linErr n b Js (ks.map (valOf P.varsInit))))) * ·)) = .ok e' := by
      refine ⟨_, if_pos (.inl ?_)⟩
      rw [List.length_map, l3, hln]
    obtain ⟨H', hH'⟩ := linear_placeJacs hP h (s := ⟨pre sizes i, pre sizes (i + 1)⟩)
      (w := Real.sqrt (l2Loss.weight (listNorm (linErr n b Js (ks.map (valOf P.varsInit))))))
      a.H (by rw [h1]; exact hln) h2 hlen hsh
    obtain ⟨p1, p2, -⟩ := placeJacs_frame hH'
    obtain ⟨a', ha'⟩ := linear_asmLoop hP h rs (i + 1)
      ⟨e', H', a.cost + l2Loss.loss (listNorm (linErr n b Js (ks.map (valOf P.varsInit))))⟩ hd'
      (by show H'.rows = _; rw [p1, h1]) (by show H'.cols = _; rw [p2, h2])
    refine ⟨a', ?_⟩
    rw [List.map_cons, List.zip_cons_cons]
    have j1 : (linRes ks Js n b).jacobians (ks.map (valOf P.varsInit))
        ((linRes ks Js n b).keys.map fun k => !(P1.constKeys.contains k)) = .ok (linJacs P.constKeys ks Js) := by
      rw [e3]; rfl
    have hH2 : placeJacs P1.varSlices ⟨pre sizes i, pre sizes (i + 1)⟩
        (Real.sqrt (l2Loss.weight (listNorm (linErr n b Js (ks.map (valOf P.varsInit)))))) (linRes ks Js n b).keys
        (linJacs P.constKeys ks Js) a.H = .ok H' := hH'
    have hpg : pyGet P1.resSlices i = .ok ⟨pre sizes i, pre sizes (i + 1)⟩ := by
      unfold pyGet; rw [hsl i hi]
    unfold asmLoop
    simp only [l1, l2, j1, hpg, he', hH2, bind, Except.bind]
    exact ha'

/-- Linearizing at the initial point succeeds. -/
theorem linear_linearize {P P1 : Prob K (List ℝ)} (hP : LinearProblem P) (h : P.started vecVarOps = .ok P1) :
    ∃ L, P1.linearize P.varsInit = .ok L := by
  obtain ⟨e1, e2, e3, e4, e5, e6, -, -⟩ := started_fields h
  obtain ⟨a', ha'⟩ := linear_asmLoop hP h P.residuals 0 ⟨fun _ => 0, DMat.zeros P1.sizeErr P1.sizeState, 0⟩ rfl rfl rfl
  unfold Prob.linearize
  rw [e4, e5, hP.losses, ha']
  exact ⟨_, rfl⟩

/-- **C40.** Gauss-Newton on a linear least squares problem returns whenever the information matrix is invertible and
there is at least one free component. -/
theorem C40_total (P : Prob K (List ℝ)) (hP : LinearProblem P) (hs : P.cfg.solver = "GN")
    (hit : 0 < P.cfg.maxIters) :
    ∃ P1 L, P.started vecVarOps = .ok P1 ∧ P1.linearize P.varsInit = .ok L ∧
      (L.A.det ≠ 0 → 0 < L.n → ∃ P', P.solve vecVarOps = .ok P') := by
  obtain ⟨P1, h1⟩ := linear_started hP
  obtain ⟨L, h2⟩ := linear_linearize hP h1
  exact ⟨P1, L, h1, h2, fun hd hn => C40_returns P P1 hP hs hit h1 L h2 hd hn⟩

example : ∃ P1 L, exProb.started vecVarOps = .ok P1 ∧ P1.linearize exProb.varsInit = .ok L := by
  obtain ⟨P1, L, h1, h2, -⟩ := C40_total exProb exProb_linear rfl (by decide)
  exact ⟨P1, L, h1, h2⟩

end Verif
