import Verif.Model.Problem
import Verif.Lemmas.Iekf
import Verif.Lemmas.Composite

/-!
Lemmas about the least squares problem (`Verif.Model.Problem`).
-/

namespace Verif

set_option linter.unusedVariables false
set_option linter.unusedSectionVars false

open Matrix

variable {K S : Type} [DecidableEq K]

theorem dictGet_ok {α : Type} {d : List (K × α)} {k : K} {a : α} :
    dictGet d k = .ok a ↔ d.lookup k = some a := by
  unfold dictGet
  cases d.lookup k with
  | none => simp
  | some b => simp

theorem lookup_cons_self {α : Type} (k : K) (a : α) (l : List (K × α)) :
    ((k, a) :: l).lookup k = some a := by simp [List.lookup]

theorem lookup_cons_ne {α : Type} {k k' : K} (a : α) (l : List (K × α)) (h : k' ≠ k) :
    ((k, a) :: l).lookup k' = l.lookup k' := by
  have : (k' == k) = false := by simpa using h
  simp [List.lookup, this]

theorem lookup_map_set {α : Type} (k : K) (a : α) (k' : K) : ∀ (d : List (K × α)),
    (d.map fun p => if p.1 = k then (k, a) else p).lookup k' =
      if k' = k then (if (d.lookup k).isSome then some a else none) else d.lookup k'
  | [] => by simp
  | (q, b) :: l => by
    have ih := lookup_map_set k a k' l
    rw [List.map_cons]
    by_cases hq : q = k
    · subst hq
      simp only [if_true]
      by_cases hk : k' = q
      · subst hk; simp [List.lookup]
      · rw [lookup_cons_ne _ _ hk, lookup_cons_ne _ _ hk, ih, if_neg hk, if_neg hk]
    · simp only [if_neg hq]
      by_cases hk : k' = q
      · subst hk
        rw [lookup_cons_self, if_neg hq, lookup_cons_self]
      · rw [lookup_cons_ne _ _ hk, lookup_cons_ne _ _ hk, ih]
        by_cases hkk : k' = k
        · subst hkk
          rw [if_pos rfl, if_pos rfl, lookup_cons_ne _ _ (fun h => hq h.symm)]
        · rw [if_neg hkk, if_neg hkk]

theorem lookup_append {α : Type} (k : K) : ∀ (d d' : List (K × α)),
    (d ++ d').lookup k = (d.lookup k).or (d'.lookup k)
  | [], d' => by simp
  | (q, b) :: l, d' => by
    by_cases h : k = q
    · subst h; simp [List.lookup]
    · rw [List.cons_append, lookup_cons_ne _ _ h, lookup_cons_ne _ _ h, lookup_append k l d']

theorem dictSet_get {α : Type} (d : List (K × α)) (k : K) (a : α) (k' : K) :
    (dictSet d k a).lookup k' = if k' = k then some a else d.lookup k' := by
  unfold dictSet
  by_cases h : (d.lookup k).isSome
  · rw [if_pos h, lookup_map_set, if_pos h]
  · rw [if_neg h, lookup_append]
    by_cases hk : k' = k
    · subst hk
      rw [if_pos rfl]
      have : d.lookup k' = none := by cases hd : d.lookup k' with
        | none => rfl
        | some a => rw [hd] at h; simp at h
      rw [this]; simp [List.lookup]
    · rw [if_neg hk, lookup_cons_ne _ _ hk]
      simp [List.lookup]

/-! ### Updating the variables -/

theorem correctStates_keys {o : VarOps S} {const : List K} {sl : List (K × Slice)} {dx : List ℝ} :
    ∀ {vars vars' : List (K × S)}, correctStates o const sl dx vars = .ok vars' →
      vars'.map Prod.fst = vars.map Prod.fst
  | [], vars', h => by cases h; rfl
  | (k, x) :: l, vars', h => by
    unfold correctStates at h
    split at h
    · obtain ⟨l', h1, h2⟩ := bind_ok h
      cases h2
      simp [correctStates_keys h1]
    · obtain ⟨s, h1, h⟩ := bind_ok h
      obtain ⟨x', h2, h⟩ := bind_ok h
      obtain ⟨l', h3, h⟩ := bind_ok h
      cases h
      simp [correctStates_keys h3]

theorem correctStates_const {o : VarOps S} {const : List K} {sl : List (K × Slice)} {dx : List ℝ} {q : K}
    (hq : q ∈ const) : ∀ {vars vars' : List (K × S)}, correctStates o const sl dx vars = .ok vars' →
      vars'.lookup q = vars.lookup q
  | [], vars', h => by cases h; rfl
  | (k, x) :: l, vars', h => by
    unfold correctStates at h
    split at h
    · obtain ⟨l', h1, h2⟩ := bind_ok h
      cases h2
      have ih := correctStates_const hq h1
      by_cases e : q = k
      · subst e; rw [lookup_cons_self, lookup_cons_self]
      · rw [lookup_cons_ne _ _ e, lookup_cons_ne _ _ e, ih]
    · rename_i hk
      obtain ⟨s, h1, h⟩ := bind_ok h
      obtain ⟨x', h2, h⟩ := bind_ok h
      obtain ⟨l', h3, h⟩ := bind_ok h
      cases h
      have ih := correctStates_const hq h3
      have e : q ≠ k := fun e => hk (e ▸ hq)
      rw [lookup_cons_ne _ _ e, lookup_cons_ne _ _ e, ih]

/-- A non-constant variable is moved by `plus` with its segment of the step. -/
theorem correctStates_free {o : VarOps S} {const : List K} {sl : List (K × Slice)} {dx : List ℝ} {q : K}
    (hq : q ∉ const) : ∀ {vars vars' : List (K × S)}, correctStates o const sl dx vars = .ok vars' →
      ∀ x, vars.lookup q = some x → ∃ s x', sl.lookup q = some s ∧
        o.plus x ((dx.drop s.start).take (s.stop - s.start)) = .ok x' ∧ vars'.lookup q = some x'
  | [], vars', h, x, hx => by simp [List.lookup] at hx
  | (k, y) :: l, vars', h, x, hx => by
    unfold correctStates at h
    split at h
    · rename_i hk
      obtain ⟨l', h1, h2⟩ := bind_ok h
      cases h2
      have e : q ≠ k := fun e => hq (e ▸ hk)
      rw [lookup_cons_ne _ _ e] at hx
      obtain ⟨s, x', a1, a2, a3⟩ := correctStates_free hq h1 x hx
      exact ⟨s, x', a1, a2, by rw [lookup_cons_ne _ _ e, a3]⟩
    · obtain ⟨s, h1, h⟩ := bind_ok h
      obtain ⟨x', h2, h⟩ := bind_ok h
      obtain ⟨l', h3, h⟩ := bind_ok h
      cases h
      by_cases e : q = k
      · subst e
        rw [lookup_cons_self] at hx
        cases hx
        exact ⟨s, x', dictGet_ok.1 h1, h2, lookup_cons_self _ _ _⟩
      · rw [lookup_cons_ne _ _ e] at hx
        obtain ⟨s, x', a1, a2, a3⟩ := correctStates_free hq h3 x hx
        exact ⟨s, x', a1, a2, by rw [lookup_cons_ne _ _ e, a3]⟩

/-! ### Loops -/

theorem iterLoop_inv {step : LoopState K S → Except Err (LoopState K S × Bool)} (I : LoopState K S → Prop)
    (hI : ∀ s r, I s → step s = .ok r → I r.1) : ∀ (k : ℕ) (s s' : LoopState K S), I s →
      iterLoop step k s = .ok s' → I s'
  | 0, s, s', h, e => by cases e; exact h
  | k + 1, s, s', h, e => by
    unfold iterLoop at e
    obtain ⟨r, h1, e⟩ := bind_ok e
    split at e
    · cases e; exact hI s r h h1
    · exact iterLoop_inv I hI k r.1 s' (hI s r h h1) e

theorem npMax_ok {n : ℕ} {v : Vec n} {x : ℝ} (h : npMax v = .ok x) :
    (∀ i, v i ≤ x) ∧ ∃ i, v i = x := by
  unfold npMax at h
  split at h
  · cases h
    refine ⟨fun i => Finset.le_sup' v (Finset.mem_univ i), ?_⟩
    obtain ⟨i, -, hi⟩ := Finset.exists_mem_eq_sup' (⟨⟨0, by assumption⟩, Finset.mem_univ _⟩ : Finset.univ.Nonempty) v
    exact ⟨i, hi.symm⟩
  · cases h

theorem spsolve_ok {n : ℕ} {A : Mat n n} {b δ : Vec n} (h : spsolve A b = .ok δ) :
    A.det ≠ 0 ∧ A *ᵥ δ = -b := by
  unfold spsolve at h
  split at h
  · cases h
  · rename_i hd
    cases h
    refine ⟨hd, ?_⟩
    have hu : IsUnit A.det := isUnit_iff_ne_zero.2 hd
    rw [Matrix.mulVec_mulVec, Matrix.mul_nonsing_inv _ hu, Matrix.one_mulVec]

/-- The denominator of the gain ratio is never negative. -/
theorem gainDen_nonneg (L : Lin) (mu : ℝ) (hmu : 0 ≤ mu) (δ : Vec L.n)
    (h : (L.A + mu • (1 : Mat L.n L.n)) *ᵥ δ = -L.b) : 0 ≤ gainDen δ L.b mu := by
  unfold gainDen
  have e : mu • δ - L.b = (2 * mu) • δ + L.A *ᵥ δ := by
    rw [sub_eq_add_neg, ← h, Matrix.add_mulVec, Matrix.smul_mulVec, Matrix.one_mulVec, two_mul, add_smul]
    abel
  have hA : δ ⬝ᵥ L.A *ᵥ δ = (L.H *ᵥ δ) ⬝ᵥ (L.H *ᵥ δ) := by
    unfold Lin.A
    rw [← Matrix.mulVec_mulVec, Matrix.dotProduct_mulVec, Matrix.vecMul_transpose]
  rw [e, dotProduct_add, dotProduct_smul, hA, smul_eq_mul]
  have h1 : 0 ≤ δ ⬝ᵥ δ := Finset.sum_nonneg fun i _ => mul_self_nonneg _
  have h2 : 0 ≤ (L.H *ᵥ δ) ⬝ᵥ (L.H *ᵥ δ) := Finset.sum_nonneg fun i _ => mul_self_nonneg _
  have := mul_nonneg (mul_nonneg zero_le_two hmu) h1
  linarith

/-- A step is accepted exactly when it decreases the cost. -/
theorem gainPositive_iff {num den : ℝ} (h : 0 ≤ den) : gainPositive num den = true ↔ 0 < num := by
  unfold gainPositive
  split
  · simp
  · rename_i hd
    have : 0 < den := lt_of_le_of_ne h (Ne.symm hd)
    simp [div_pos_iff, this, this.le, not_lt.2 this.le]

theorem gainFactor_ge (num den : ℝ) : 1 / 3 ≤ gainFactor num den := by
  unfold gainFactor
  split
  · exact le_refl _
  · exact le_max_left _ _

/-! ### The total cost -/

/-- Specification: the sum of the robust losses of the residuals at the given variables. -/
noncomputable def totalCost (vars : List (K × S)) : List (Residual K S × Loss) → Except Err ℝ
  | [] => .ok 0
  | (r, l) :: rest => do
    let xs ← lookupAll vars r.keys
    let err ← r.error xs
    let c ← totalCost vars rest
    return l.loss (listNorm err) + c

theorem asmLoop_cost {P : Prob K S} {vars : List (K × S)} : ∀ {i : ℕ} {l : List (Residual K S × Loss)} {a a' : Asm},
    asmLoop P vars i l a = .ok a' → ∃ c, totalCost vars l = .ok c ∧ a'.cost = a.cost + c
  | i, [], a, a', h => by
    cases h
    exact ⟨0, rfl, (add_zero _).symm⟩
  | i, (r, ls) :: rest, a, a', h => by
    unfold asmLoop at h
    obtain ⟨xs, h1, h⟩ := bind_ok h
    obtain ⟨err, h2, h⟩ := bind_ok h
    obtain ⟨jacs, h3, h⟩ := bind_ok h
    obtain ⟨s, h4, h⟩ := bind_ok h
    obtain ⟨e', h5, h⟩ := bind_ok h
    obtain ⟨H', h6, h⟩ := bind_ok h
    obtain ⟨c, hc, he⟩ := asmLoop_cost h
    refine ⟨ls.loss (listNorm err) + c, ?_, ?_⟩
    · unfold totalCost
      simp only [h1, h2, hc, bind, Except.bind]
      rfl
    · rw [he, add_assoc]

theorem linearize_cost {P : Prob K S} {vars : List (K × S)} {L : Lin} (h : P.linearize vars = .ok L) :
    totalCost vars (P.residuals.zip P.losses) = .ok L.cost := by
  unfold Prob.linearize at h
  obtain ⟨a, h1, h⟩ := bind_ok h
  cases h
  obtain ⟨c, hc, he⟩ := asmLoop_cost h1
  rw [hc, he, zero_add]

theorem linearize_shape {P : Prob K S} {vars : List (K × S)} {L : Lin} (h : P.linearize vars = .ok L) :
    L.m = P.sizeErr ∧ L.n = P.sizeState := by
  unfold Prob.linearize at h
  obtain ⟨a, h1, h⟩ := bind_ok h
  cases h
  exact ⟨rfl, rfl⟩

/-! ### Levenberg-Marquardt -/

/-- What holds of every loop state of the LM solver. -/
structure LmInv (P : Prob K S) (s : LoopState K S) : Prop where
  lin : P.linearize s.vars = .ok s.lin
  head : s.costs.head? = some s.lin.cost
  sorted : s.costs.Pairwise (· < ·)
  mu : 0 ≤ s.mu
  nu : 2 ≤ s.nu
  info : s.info = some ⟨_, s.lin.A⟩

/-- One pass: break without a change of variables, or a rejected step, or an accepted step that strictly
decreases the cost. -/
theorem lmStep_cases {o : VarOps S} {P : Prob K S} {s : LoopState K S} {r : LoopState K S × Bool}
    (hs : LmInv P s) (h : lmStep o P s = .ok r) :
    LmInv P r.1 ∧
    ((r.1.vars = s.vars ∧ r.1.lin = s.lin ∧ r.1.costs = s.costs ∧ s.mu ≤ r.1.mu ∧ (0 < s.mu → 0 < r.1.mu)) ∨
     (r.1.lin.cost < s.lin.cost ∧ r.1.costs = r.1.lin.cost :: s.costs ∧ (0 < s.mu → 0 < r.1.mu))) := by
  unfold lmStep at h
  obtain ⟨δ, hδ, h⟩ := bind_ok h
  split at h
  · cases h
    exact ⟨⟨hs.lin, hs.head, hs.sorted, hs.mu, hs.nu, hs.info⟩, Or.inl ⟨by first | rfl | trivial, by first | rfl | trivial, by first | rfl | trivial, le_refl _, id⟩⟩
  · obtain ⟨vt, hvt, h⟩ := bind_ok h
    obtain ⟨Lt, hLt, h⟩ := bind_ok h
    obtain ⟨g, hg, h⟩ := bind_ok h
    cases h
    have hden := gainDen_nonneg s.lin s.mu hs.mu δ (spsolve_ok hδ).2
    have hc : s.costs.headD 0 = s.lin.cost := by
      rw [List.headD_eq_head?_getD, hs.head]; rfl
    show LmInv P (lmUpdate s _ vt Lt _ g) ∧ _
    unfold lmUpdate
    rw [hc]
    by_cases hp : gainPositive (s.lin.cost - Lt.cost) (gainDen δ s.lin.b s.mu) = true
    · simp only [hp, if_true]
      have hlt : Lt.cost < s.lin.cost := by
        have := (gainPositive_iff hden).1 hp; linarith
      have hf := gainFactor_ge (s.lin.cost - Lt.cost) (gainDen δ s.lin.b s.mu)
      refine ⟨⟨hLt, rfl, ?_, ?_, le_refl _, rfl⟩, Or.inr ⟨hlt, by first | rfl | trivial, ?_⟩⟩
      · refine List.Pairwise.cons ?_ hs.sorted
        intro c hcm
        cases hcs : s.costs with
        | nil => rw [hcs] at hcm; simp at hcm
        | cons c0 cs =>
          have h0 := hs.head
          have hso := hs.sorted
          rw [hcs] at h0 hcm hso
          have h0' : c0 = s.lin.cost := by simpa using h0
          rcases List.mem_cons.1 hcm with rfl | hm
          · rw [h0']; exact hlt
          · have := (List.pairwise_cons.1 hso).1 c hm
            rw [h0'] at this; exact hlt.trans this
      · exact mul_nonneg hs.mu (by linarith)
      · intro hm; exact mul_pos hm (by linarith)
    · simp only [Bool.not_eq_true] at hp
      simp only [hp, Bool.false_eq_true, if_false]
      have hnu := hs.nu
      have hmu := hs.mu
      refine ⟨⟨hs.lin, hs.head, hs.sorted, by positivity, by show (2 : ℝ) ≤ 2 * s.nu; linarith, hs.info⟩,
        Or.inl ⟨by first | rfl | trivial, by first | rfl | trivial, by first | rfl | trivial, ?_, ?_⟩⟩
      · nlinarith
      · intro hm; exact mul_pos hm (by linarith)

end Verif
