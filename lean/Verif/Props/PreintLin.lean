import Verif.Model.Preint
import Mathlib.Tactic.NoncommRing
import Mathlib.Tactic.Module

/-!
Preintegration of linear models (`navlie/lib/preintegration.py:629-908`): C61 and C62.
-/

namespace Verif

open Matrix

set_option linter.unusedVariables false
set_option linter.unusedSectionVars false

variable {n m : ℕ}

/-- Specification: the documented process model `x_k = A x_{k-1} + B (u - b)`, the bias staying constant, one step per input: the
state, the product of the Jacobians of state and bias, and the covariance with noise on the input (first block of `Q`) and on the
bias walk (second block). -/
noncomputable def linStepsB (A : Vec m → ℝ → Mat n n) (B : Vec m → ℝ → Matrix (Fin n) (Fin m) ℝ)
    (Q : Matrix (Fin m ⊕ Fin m) (Fin m ⊕ Fin m) ℝ) (b : Vec m)
    (s : Vec n × Matrix (Fin n ⊕ Fin m) (Fin n ⊕ Fin m) ℝ × Matrix (Fin n ⊕ Fin m) (Fin n ⊕ Fin m) ℝ) (l : List (VIn (Fin m))) :
    Vec n × Matrix (Fin n ⊕ Fin m) (Fin n ⊕ Fin m) ℝ × Matrix (Fin n ⊕ Fin m) (Fin n ⊕ Fin m) ℝ :=
  l.foldl (fun s i =>
    let F : Matrix (Fin n ⊕ Fin m) (Fin n ⊕ Fin m) ℝ := fromBlocks (A (i.u - b) i.dt) (-B (i.u - b) i.dt) 0 1
    let L : Matrix (Fin n ⊕ Fin m) (Fin m ⊕ Fin m) ℝ := fromBlocks (B (i.u - b) i.dt) 0 0 (i.dt • 1)
    (A (i.u - b) i.dt *ᵥ s.1 + B (i.u - b) i.dt *ᵥ (i.u - b), F * s.2.1, F * s.2.2 * Fᵀ + L * Q * Lᵀ)) s

/-- The same without a bias. -/
noncomputable def linStepsN (A : Vec m → ℝ → Mat n n) (B : Vec m → ℝ → Matrix (Fin n) (Fin m) ℝ) (Q : Mat m m)
    (s : Vec n × Mat n n × Mat n n) (l : List (VIn (Fin m))) : Vec n × Mat n n × Mat n n :=
  l.foldl (fun s i =>
    (A i.u i.dt *ᵥ s.1 + B i.u i.dt *ᵥ i.u, A i.u i.dt * s.2.1,
      A i.u i.dt * s.2.2 * (A i.u i.dt)ᵀ + B i.u i.dt * Q * (B i.u i.dt)ᵀ)) s

theorem incStamps_ok {s : Option (ℝ × ℝ)} {t : Option ℝ} (dt : ℝ) (h : s = none → t.isSome) : ∃ p, incStamps s t dt = .ok p := by
  cases s with
  | some p => exact ⟨_, rfl⟩
  | none =>
    obtain ⟨t', ht⟩ := Option.isSome_iff_exists.1 (h rfl)
    rw [ht]; exact ⟨_, rfl⟩

/-- The mutable parts of an increment. -/
structure LinOk (A : Vec m → ℝ → Mat n n) (B : Vec m → ℝ → Matrix (Fin n) (Fin m) ℝ) (Q : Matrix (Fin m ⊕ Fin m) (Fin m ⊕ Fin m) ℝ)
    (β : Option (Vec m)) (r : LinInc n m) : Prop where
  A : r.stateMatrix = A
  B : r.inputMatrix = B
  Q : r.Q = Q
  bias : r.bias = β
  newBias : r.newBias = β

theorem linOk_new (A : Vec m → ℝ → Mat n n) (B : Vec m → ℝ → Matrix (Fin n) (Fin m) ℝ) (Q : Matrix (Fin m ⊕ Fin m) (Fin m ⊕ Fin m) ℝ)
    (bias : Option (Vec m)) : LinOk A B Q bias (linNew Q A B bias) := ⟨rfl, rfl, rfl, rfl, rfl⟩

/-- The prediction with an increment, read from its parts. -/
noncomputable def linPreB (r : LinInc n m) (x : Vec n) (P : Matrix (Fin n ⊕ Fin m) (Fin n ⊕ Fin m) ℝ) :
    Vec n × Matrix (Fin n ⊕ Fin m) (Fin n ⊕ Fin m) ℝ × Matrix (Fin n ⊕ Fin m) (Fin n ⊕ Fin m) ℝ :=
  let F : Matrix (Fin n ⊕ Fin m) (Fin n ⊕ Fin m) ℝ := fromBlocks r.a (r.jac.getD 0) 0 1
  (r.a *ᵥ x + r.du, F, F * P * Fᵀ + r.covB)

/-- The prediction with an increment without bias. -/
noncomputable def linPreN (r : LinInc n m) (x : Vec n) (P : Mat n n) : Vec n × Mat n n × Mat n n :=
  (r.a *ᵥ x + r.du, r.a, r.a * P * r.aᵀ + r.covN)

theorem lin_allB {A : Vec m → ℝ → Mat n n} {B : Vec m → ℝ → Matrix (Fin n) (Fin m) ℝ} {Q : Matrix (Fin m ⊕ Fin m) (Fin m ⊕ Fin m) ℝ}
    {b : Vec m} (l : List (VIn (Fin m))) : ∀ r : LinInc n m, LinOk A B Q (some b) r →
    (r.stamps = none → ∀ i ∈ l.head?, i.stamp.isSome) →
    ∃ r', r.incrementAll l = .ok r' ∧ LinOk A B Q (some b) r' ∧ ∀ x P, linPreB r' x P = linStepsB A B Q b (linPreB r x P) l := by
  induction l with
  | nil => intro r hr _; exact ⟨r, rfl, hr, fun _ _ => rfl⟩
  | cons i l ih =>
    intro r hr hst
    obtain ⟨p, hp⟩ := incStamps_ok i.dt (s := r.stamps) (t := i.stamp) (fun e => hst e i (by simp))
    have hu : r.unbiased i.u = i.u - b := by unfold LinInc.unbiased; rw [hr.bias]
    have hb : r.bias.isSome = true := by rw [hr.bias]; rfl
    have e : ∃ r1, r.increment i.u i.stamp i.dt = .ok r1 ∧ LinOk A B Q (some b) r1 ∧ r1.stamps = some p ∧
        r1.a = A (i.u - b) i.dt * r.a ∧ r1.du = A (i.u - b) i.dt *ᵥ r.du + B (i.u - b) i.dt *ᵥ (i.u - b) ∧
        r1.jac = some (A (i.u - b) i.dt * r.jac.getD 0 - B (i.u - b) i.dt) ∧
        r1.covB = fromBlocks (A (i.u - b) i.dt) (-B (i.u - b) i.dt) 0 1 * r.covB *
          (fromBlocks (A (i.u - b) i.dt) (-B (i.u - b) i.dt) 0 1)ᵀ +
          fromBlocks (B (i.u - b) i.dt) 0 0 (i.dt • 1) * Q * (fromBlocks (B (i.u - b) i.dt) 0 0 (i.dt • 1))ᵀ := by
      unfold LinInc.increment
      rw [hp]
      refine ⟨_, rfl, ⟨hr.A, hr.B, hr.Q, hr.bias, hr.newBias⟩, rfl, ?_, ?_, ?_, ?_⟩
      · simp only [hu, hr.A]
      · simp only [hu, hr.A, hr.B]
      · simp only [hu, hr.A, hr.B]
      · simp only [hb, if_true, hu, hr.A, hr.B, hr.Q]
    obtain ⟨r1, h1, hr1, hst1, ha, hdu, hj, hc⟩ := e
    obtain ⟨r', h2, hr', hp'⟩ := ih r1 hr1 (fun e => by rw [hst1] at e; simp at e)
    refine ⟨r', ?_, hr', fun x P => ?_⟩
    · show (r.increment i.u i.stamp i.dt >>= fun r1 => r1.incrementAll l) = _
      rw [h1]; exact h2
    · rw [hp' x P]
      have hstep : linPreB r1 x P = linStepsB A B Q b (linPreB r x P) [i] := by
        unfold linStepsB
        simp only [List.foldl]
        unfold linPreB
        simp only [Prod.mk.injEq]
        have hF : (fromBlocks r1.a (r1.jac.getD 0) 0 1 : Matrix (Fin n ⊕ Fin m) (Fin n ⊕ Fin m) ℝ) =
            fromBlocks (A (i.u - b) i.dt) (-B (i.u - b) i.dt) 0 1 * fromBlocks r.a (r.jac.getD 0) 0 1 := by
          rw [fromBlocks_multiply, ha, hj]
          simp [sub_eq_add_neg]
        refine ⟨?_, hF, ?_⟩
        · rw [ha, hdu, mulVec_add, mulVec_mulVec, add_assoc]
        · rw [hF, hc, transpose_mul]
          noncomm_ring
      rw [hstep]
      rfl

theorem lin_allN {A : Vec m → ℝ → Mat n n} {B : Vec m → ℝ → Matrix (Fin n) (Fin m) ℝ} {Q : Matrix (Fin m ⊕ Fin m) (Fin m ⊕ Fin m) ℝ}
    (l : List (VIn (Fin m))) : ∀ r : LinInc n m, LinOk A B Q none r →
    (r.stamps = none → ∀ i ∈ l.head?, i.stamp.isSome) →
    ∃ r', r.incrementAll l = .ok r' ∧ LinOk A B Q none r' ∧ ∀ x P, linPreN r' x P = linStepsN A B Q.toBlocks₁₁ (linPreN r x P) l := by
  induction l with
  | nil => intro r hr _; exact ⟨r, rfl, hr, fun _ _ => rfl⟩
  | cons i l ih =>
    intro r hr hst
    obtain ⟨p, hp⟩ := incStamps_ok i.dt (s := r.stamps) (t := i.stamp) (fun e => hst e i (by simp))
    have hu : r.unbiased i.u = i.u := by unfold LinInc.unbiased; rw [hr.bias]
    have hb : r.bias.isSome = false := by rw [hr.bias]; rfl
    have e : ∃ r1, r.increment i.u i.stamp i.dt = .ok r1 ∧ LinOk A B Q none r1 ∧ r1.stamps = some p ∧
        r1.a = A i.u i.dt * r.a ∧ r1.du = A i.u i.dt *ᵥ r.du + B i.u i.dt *ᵥ i.u ∧
        r1.covN = A i.u i.dt * r.covN * (A i.u i.dt)ᵀ + B i.u i.dt * Q.toBlocks₁₁ * (B i.u i.dt)ᵀ := by
      unfold LinInc.increment
      rw [hp]
      refine ⟨_, rfl, ⟨hr.A, hr.B, hr.Q, hr.bias, hr.newBias⟩, rfl, ?_, ?_, ?_⟩
      · simp only [hu, hr.A]
      · simp only [hu, hr.A, hr.B]
      · simp only [hb, if_false, hu, hr.A, hr.B, hr.Q, Bool.false_eq_true]
    obtain ⟨r1, h1, hr1, hst1, ha, hdu, hc⟩ := e
    obtain ⟨r', h2, hr', hp'⟩ := ih r1 hr1 (fun e => by rw [hst1] at e; simp at e)
    refine ⟨r', ?_, hr', fun x P => ?_⟩
    · show (r.increment i.u i.stamp i.dt >>= fun r1 => r1.incrementAll l) = _
      rw [h1]; exact h2
    · rw [hp' x P]
      have hstep : linPreN r1 x P = linStepsN A B Q.toBlocks₁₁ (linPreN r x P) [i] := by
        unfold linStepsN
        simp only [List.foldl]
        unfold linPreN
        simp only [Prod.mk.injEq]
        refine ⟨?_, ha, ?_⟩
        · rw [ha, hdu, mulVec_add, mulVec_mulVec, add_assoc]
        · rw [ha, hc, transpose_mul]
          noncomm_ring
      rw [hstep]
      rfl

theorem readValue_same {r : LinInc n m} (h : r.newBias = r.bias) : r.readValue = ((r.a, r.du), r) := by
  obtain ⟨a, du, bias, newBias, jac, cN, cB, Q, A, B, st⟩ := r
  simp only at h
  subst h
  cases newBias with
  | none => rfl
  | some b => simp [LinInc.readValue]

theorem readValue_some {r : LinInc n m} {b b' : Vec m} (h : r.bias = some b) (h' : r.newBias = some b') :
    r.readValue = ((r.a, r.du + r.jac.getD 0 *ᵥ (b' - b)), { r with du := r.du + r.jac.getD 0 *ᵥ (b' - b) }) := by
  obtain ⟨a, du, bias, newBias, jac, cN, cB, Q, A, B, st⟩ := r
  simp only at h h'
  subst h h'
  rfl

/-- C61, linear models with a bias: predicting with a preintegrated increment is predicting step by step. The Jacobian is the
product of the step Jacobians of state and bias, and the predicted covariance is the same for every prior covariance. -/
theorem C61_linear (A : Vec m → ℝ → Mat n n) (B : Vec m → ℝ → Matrix (Fin n) (Fin m) ℝ) (Q : Matrix (Fin m ⊕ Fin m) (Fin m ⊕ Fin m) ℝ)
    (b : Vec m) (l : List (VIn (Fin m))) (hl : ∀ i ∈ l.head?, i.stamp.isSome) (x : Vec n) (xb : Vec m)
    (P : Matrix (Fin n ⊕ Fin m) (Fin n ⊕ Fin m) ℝ) :
    ∃ r, (linNew Q A B (some b)).incrementAll l = .ok r ∧
      linEvaluate (x, xb) r = (((linStepsB A B Q b (x, 1, P) l).1, xb), r) ∧
      linJacobianB r = ((linStepsB A B Q b (x, 1, P) l).2.1, r) ∧
      (linJacobianB r).1 * P * (linJacobianB r).1ᵀ + linCovarianceB r = (linStepsB A B Q b (x, 1, P) l).2.2 := by
  obtain ⟨r, h1, hr, hp⟩ := lin_allB (n := n) (A := A) (B := B) (Q := Q) (b := b) l _ (linOk_new A B Q (some b)) (fun _ => hl)
  have h0 : linPreB (linNew Q A B (some b)) x P = (x, 1, P) := by
    unfold linPreB linNew
    simp [fromBlocks_one]
  have hrd := readValue_same (r := r) (by rw [hr.newBias, hr.bias])
  have e := hp x P
  rw [h0] at e
  refine ⟨r, h1, ?_, ?_, ?_⟩
  · unfold linEvaluate
    rw [hrd]
    simp only [hrd]
    rw [← e]; rfl
  · unfold linJacobianB
    rw [hrd, ← e]; rfl
  · unfold linJacobianB linCovarianceB
    rw [hrd, ← e]; rfl

/-- C61, linear models without a bias. -/
theorem C61_linear_no_bias (A : Vec m → ℝ → Mat n n) (B : Vec m → ℝ → Matrix (Fin n) (Fin m) ℝ)
    (Q : Matrix (Fin m ⊕ Fin m) (Fin m ⊕ Fin m) ℝ) (l : List (VIn (Fin m))) (hl : ∀ i ∈ l.head?, i.stamp.isSome) (x : Vec n)
    (xb : Vec m) (P : Mat n n) :
    ∃ r, (linNew Q A B none).incrementAll l = .ok r ∧
      linEvaluate (x, xb) r = (((linStepsN A B Q.toBlocks₁₁ (x, 1, P) l).1, xb), r) ∧
      linJacobianN r = ((linStepsN A B Q.toBlocks₁₁ (x, 1, P) l).2.1, r) ∧
      (linJacobianN r).1 * P * (linJacobianN r).1ᵀ + linCovarianceN r = (linStepsN A B Q.toBlocks₁₁ (x, 1, P) l).2.2 := by
  obtain ⟨r, h1, hr, hp⟩ := lin_allN (n := n) (A := A) (B := B) (Q := Q) l _ (linOk_new A B Q none) (fun _ => hl)
  have h0 : linPreN (linNew Q A B none) x P = (x, 1, P) := by
    unfold linPreN linNew
    simp
  have hrd := readValue_same (r := r) (by rw [hr.newBias, hr.bias])
  have e := hp x P
  rw [h0] at e
  refine ⟨r, h1, ?_, ?_, ?_⟩
  · unfold linEvaluate
    rw [hrd]
    simp only [hrd]
    rw [← e]; rfl
  · unfold linJacobianN
    rw [hrd, ← e]; rfl
  · unfold linJacobianN linCovarianceN
    rw [hrd, ← e]; rfl

/-! ### C62: correcting a linear increment for a new bias -/

theorem lin_bias {A : ℝ → Mat n n} {B : ℝ → Matrix (Fin n) (Fin m) ℝ} {Q : Matrix (Fin m ⊕ Fin m) (Fin m ⊕ Fin m) ℝ} {b b' : Vec m}
    (l : List (VIn (Fin m))) : ∀ r q : LinInc n m, LinOk (fun _ => A) (fun _ => B) Q (some b) r →
    LinOk (fun _ => A) (fun _ => B) Q (some b') q →
    (r.stamps = none → ∀ i ∈ l.head?, i.stamp.isSome) → r.stamps = q.stamps → r.a = q.a →
    q.du = r.du + r.jac.getD 0 *ᵥ (b' - b) →
    ∃ r' q', r.incrementAll l = .ok r' ∧ q.incrementAll l = .ok q' ∧ LinOk (fun _ => A) (fun _ => B) Q (some b) r' ∧
      LinOk (fun _ => A) (fun _ => B) Q (some b') q' ∧ r'.a = q'.a ∧ q'.du = r'.du + r'.jac.getD 0 *ᵥ (b' - b) := by
  induction l with
  | nil => intro r q hr hq _ _ ha hd; exact ⟨r, q, rfl, rfl, hr, hq, ha, hd⟩
  | cons i l ih =>
    intro r q hr hq hst hs ha hd
    obtain ⟨p, hp⟩ := incStamps_ok i.dt (s := r.stamps) (t := i.stamp) (fun e => hst e i (by simp))
    have key : ∀ (c : Vec m) (r : LinInc n m), LinOk (fun _ => A) (fun _ => B) Q (some c) r → incStamps r.stamps i.stamp i.dt = .ok p →
        ∃ r1, r.increment i.u i.stamp i.dt = .ok r1 ∧ LinOk (fun _ => A) (fun _ => B) Q (some c) r1 ∧ r1.stamps = some p ∧
        r1.a = A i.dt * r.a ∧ r1.du = A i.dt *ᵥ r.du + B i.dt *ᵥ (i.u - c) ∧ r1.jac = some (A i.dt * r.jac.getD 0 - B i.dt) := by
      intro c r hr hp
      have hu : r.unbiased i.u = i.u - c := by unfold LinInc.unbiased; rw [hr.bias]
      unfold LinInc.increment
      rw [hp]
      refine ⟨_, rfl, ⟨hr.A, hr.B, hr.Q, hr.bias, hr.newBias⟩, rfl, ?_, ?_, ?_⟩
      · simp only [hu, hr.A]
      · simp only [hu, hr.A, hr.B]
      · simp only [hu, hr.A, hr.B]
    obtain ⟨r1, h1, hr1, hst1, ha1, hd1, hj1⟩ := key b r hr hp
    obtain ⟨q1, h2, hq1, hst2, ha2, hd2, hj2⟩ := key b' q hq (by rw [← hs]; exact hp)
    obtain ⟨r', q', e1, e2, e3, e4, e5, e6⟩ := ih r1 q1 hr1 hq1 (fun e => by rw [hst1] at e; simp at e) (by rw [hst1, hst2])
      (by rw [ha1, ha2, ha])
      (by
        rw [hd2, hd, hd1, hj1, Option.getD_some, sub_mulVec, ← mulVec_mulVec, mulVec_add, mulVec_sub (B i.dt) b' b,
          mulVec_sub (B i.dt) i.u b, mulVec_sub (B i.dt) i.u b']
        abel)
    refine ⟨r', q', ?_, ?_, e3, e4, e5, e6⟩
    · show (r.increment i.u i.stamp i.dt >>= fun r1 => r1.incrementAll l) = _
      rw [h1]; exact e1
    · show (q.increment i.u i.stamp i.dt >>= fun r1 => r1.incrementAll l) = _
      rw [h2]; exact e2

/-- `k` reads of the property `value` in a row: what the last one returns, and the increment afterwards. -/
def LinInc.reads (r : LinInc n m) : ℕ → LinInc n m
  | 0 => r
  | k + 1 => (r.reads k).readValue.2

/-- C62: when the matrices do not depend on the input, the *first* read of `value` after `update_bias` is exactly what preintegrating
the same inputs with the new bias gives. -/
theorem C62_first_read (A : ℝ → Mat n n) (B : ℝ → Matrix (Fin n) (Fin m) ℝ) (Q : Matrix (Fin m ⊕ Fin m) (Fin m ⊕ Fin m) ℝ)
    (b b' : Vec m) (l : List (VIn (Fin m))) (hl : ∀ i ∈ l.head?, i.stamp.isSome) :
    ∃ r q r', (linNew Q (fun _ => A) (fun _ => B) (some b)).incrementAll l = .ok r ∧
      (linNew Q (fun _ => A) (fun _ => B) (some b')).incrementAll l = .ok q ∧ r.updateBias b' = .ok r' ∧
      r'.readValue.1 = q.readValue.1 := by
  obtain ⟨r, q, h1, h2, hr, hq, ha, hd⟩ := lin_bias (A := A) (B := B) (Q := Q) (b := b) (b' := b') l
    (linNew Q (fun _ => A) (fun _ => B) (some b)) (linNew Q (fun _ => A) (fun _ => B) (some b')) (linOk_new _ _ Q _)
    (linOk_new _ _ Q _) (fun _ => hl) rfl rfl (by simp [linNew])
  refine ⟨r, q, { r with newBias := some b' }, h1, h2, ?_, ?_⟩
  · unfold LinInc.updateBias; rw [hr.bias]
  · rw [readValue_same (r := q) (by rw [hq.newBias, hq.bias])]
    unfold LinInc.readValue
    simp only [hr.bias]
    rw [ha, hd]

/-- C62 is false for every later read: each read of the property adds the correction again, so the `k`-th read is off by `k - 1`
corrections. -/
theorem C62_later_reads (r : LinInc n m) (b b' : Vec m) (hb : r.bias = some b) (hb' : r.newBias = some b') (k : ℕ) :
    (r.reads k).readValue.1 = (r.a, r.du + ((k : ℝ) + 1) • (r.jac.getD 0 *ᵥ (b' - b))) := by
  have key : ∀ k : ℕ, (r.reads k).bias = some b ∧ (r.reads k).newBias = some b' ∧ (r.reads k).jac = r.jac ∧ (r.reads k).a = r.a ∧
      (r.reads k).du = r.du + (k : ℝ) • (r.jac.getD 0 *ᵥ (b' - b)) := by
    intro k
    induction k with
    | zero => exact ⟨hb, hb', rfl, rfl, by simp [LinInc.reads]⟩
    | succ k ih =>
      obtain ⟨h1, h2, h3, h4, h5⟩ := ih
      have e : (r.reads (k + 1)) = { r.reads k with du := (r.reads k).du + (r.reads k).jac.getD 0 *ᵥ (b' - b) } := by
        show (r.reads k).readValue.2 = _
        rw [readValue_some h1 h2]
      rw [e]
      refine ⟨h1, h2, h3, h4, ?_⟩
      show (r.reads k).du + (r.reads k).jac.getD 0 *ᵥ (b' - b) = _
      rw [h3, h5]
      push_cast
      module
  obtain ⟨h1, h2, h3, h4, h5⟩ := key k
  rw [readValue_some h1 h2]
  simp only [h3, h4, h5]
  congr 1
  module

/-- C62: predicting with an increment whose bias was updated reads `value` twice, so it applies the correction twice — and once
more per earlier read. The prediction is that of preintegration with the new bias only if the correction is zero. -/
theorem C62_evaluate_wrong (A : ℝ → Mat n n) (B : ℝ → Matrix (Fin n) (Fin m) ℝ) (Q : Matrix (Fin m ⊕ Fin m) (Fin m ⊕ Fin m) ℝ)
    (b b' : Vec m) (l : List (VIn (Fin m))) (hl : ∀ i ∈ l.head?, i.stamp.isSome) (x : Vec n) (xb : Vec m) :
    ∃ r q r', (linNew Q (fun _ => A) (fun _ => B) (some b)).incrementAll l = .ok r ∧
      (linNew Q (fun _ => A) (fun _ => B) (some b')).incrementAll l = .ok q ∧ r.updateBias b' = .ok r' ∧
      ∀ k : ℕ, (linEvaluate (x, xb) (r'.reads k)).1.1 =
        (linEvaluate (x, xb) q).1.1 + ((k : ℝ) + 1) • (r.jac.getD 0 *ᵥ (b' - b)) := by
  obtain ⟨r, q, h1, h2, hr, hq, ha, hd⟩ := lin_bias (A := A) (B := B) (Q := Q) (b := b) (b' := b') l
    (linNew Q (fun _ => A) (fun _ => B) (some b)) (linNew Q (fun _ => A) (fun _ => B) (some b')) (linOk_new _ _ Q _)
    (linOk_new _ _ Q _) (fun _ => hl) rfl rfl (by simp [linNew])
  refine ⟨r, q, { r with newBias := some b' }, h1, h2, ?_, fun k => ?_⟩
  · unfold LinInc.updateBias; rw [hr.bias]
  · have hk := C62_later_reads { r with newBias := some b' } b b' hr.bias rfl k
    have hk1 := C62_later_reads { r with newBias := some b' } b b' hr.bias rfl (k + 1)
    have hq' := readValue_same (r := q) (by rw [hq.newBias, hq.bias])
    unfold linEvaluate
    rw [hq']
    simp only [hq']
    rw [hk, show (LinInc.readValue (LinInc.reads { r with newBias := some b' } k)).2 =
      LinInc.reads { r with newBias := some b' } (k + 1) from rfl, hk1, ← ha, hd]
    push_cast
    module

/-- C62: the correction is not zero in general: one second with `B = 1`. -/
example : ∃ r, (linNew (n := 1) (m := 1) 1 (fun _ _ => 1) (fun _ _ => 1) (some 0)).incrementAll [⟨0, some 0, 1⟩] = .ok r ∧
    r.jac.getD 0 *ᵥ (1 - 0 : Vec 1) ≠ 0 := by
  refine ⟨_, rfl, ?_⟩
  intro e
  have e' : ((1 : Matrix (Fin 1) (Fin 1) ℝ) * 0 - 1) *ᵥ (1 - 0 : Vec 1) = 0 := e
  rw [Matrix.mul_zero, zero_sub, neg_mulVec, one_mulVec, sub_zero] at e'
  have h0 : -(1 : ℝ) = 0 := congrFun e' 0
  norm_num at h0

/-- C62: an increment without a bias refuses `update_bias`, and cannot be copied (nor perturbed) before its first input. -/
theorem C62_no_bias (A : Vec m → ℝ → Mat n n) (B : Vec m → ℝ → Matrix (Fin n) (Fin m) ℝ) (Q : Matrix (Fin m ⊕ Fin m) (Fin m ⊕ Fin m) ℝ)
    (b' : Vec m) (w : Vec n) :
    (linNew Q A B none).updateBias b' = .error .valueError ∧ (linNew Q A B none).copy = .error .attributeError ∧
    (linNew Q A B none).plus w = .error .attributeError := ⟨rfl, rfl, rfl⟩

/-- C62: a copy is independent of the original and equal to it; adding noise moves the prediction by the noise, whose covariance is
the increment's. -/
theorem C62_copy (A : Vec m → ℝ → Mat n n) (B : Vec m → ℝ → Matrix (Fin n) (Fin m) ℝ) (Q : Matrix (Fin m ⊕ Fin m) (Fin m ⊕ Fin m) ℝ)
    (b : Vec m) (l : List (VIn (Fin m))) (hl : ∀ i ∈ l.head?, i.stamp.isSome) (w x : Vec n) (xb : Vec m) :
    ∃ r r', (linNew Q A B (some b)).incrementAll l = .ok r ∧ r.plus w = .ok r' ∧
      (linEvaluate (x, xb) r').1.1 = (linEvaluate (x, xb) r).1.1 + w := by
  obtain ⟨r, h1, hr, hp⟩ := lin_allB (n := n) (A := A) (B := B) (Q := Q) (b := b) l _ (linOk_new A B Q (some b)) (fun _ => hl)
  have hj : ∀ (l : List (VIn (Fin m))) (r r' : LinInc n m), r.incrementAll l = .ok r' → r.jac.isSome → r'.jac.isSome := by
    intro l
    induction l with
    | nil => intro r r' e h; cases e; exact h
    | cons i l ih =>
      intro r r' e h
      have e' : (r.increment i.u i.stamp i.dt >>= fun r1 => r1.incrementAll l) = .ok r' := e
      cases e1 : r.increment i.u i.stamp i.dt with
      | error er => rw [e1] at e'; cases e'
      | ok r1 =>
        rw [e1] at e'
        refine ih r1 r' e' ?_
        unfold LinInc.increment at e1
        cases e2 : incStamps r.stamps i.stamp i.dt with
        | error er => rw [e2] at e1; cases e1
        | ok s => rw [e2] at e1; cases e1; rfl
  obtain ⟨J, hJ⟩ := Option.isSome_iff_exists.1 (hj l _ r h1 rfl)
  have hsame : r.newBias = r.bias := by rw [hr.newBias, hr.bias]
  refine ⟨r, _, h1, by unfold LinInc.plus LinInc.copy; rw [hJ]; rfl, ?_⟩
  have hrd := readValue_same (r := r) hsame
  unfold linEvaluate
  rw [hrd]
  simp only [hrd]
  have e2 : ∀ r2 : LinInc n m, r2.newBias = r2.bias → r2.a = r.a → r2.du = r.du + w →
      r2.readValue.1.1 *ᵥ x + r2.readValue.2.readValue.1.2 = r.a *ᵥ x + r.du + w := by
    intro r2 hs ha hd
    rw [readValue_same hs]
    simp only [readValue_same hs]
    rw [ha, hd, add_assoc]
  refine e2 _ ?_ rfl rfl
  exact hsame

end Verif
