import Verif.Model.Mixture
import Verif.Lemmas.LinAlg
import Verif.Lemmas.Composite
import Mathlib.Algebra.Order.BigOperators.Group.List
import Mathlib.Algebra.BigOperators.Ring.List
import Mathlib.Analysis.SpecialFunctions.Log.Deriv

/-! Auxiliary facts about Gaussian mixtures. -/

namespace Verif

set_option linter.unusedVariables false
set_option linter.unusedSectionVars false

variable {K S : Type} [DecidableEq K]

theorem argminGo_spec (l : List ℝ) : ∀ (pre : List ℝ) (best : ℕ) (v : ℝ), best < pre.length →
    pre.getD best 0 = v → (∀ j < pre.length, v ≤ pre.getD j 0) → (∀ j < best, v < pre.getD j 0) →
    argminGo l pre.length best v < (pre ++ l).length ∧
    (∀ j < (pre ++ l).length, (pre ++ l).getD (argminGo l pre.length best v) 0 ≤ (pre ++ l).getD j 0) ∧
    (∀ j < argminGo l pre.length best v, (pre ++ l).getD (argminGo l pre.length best v) 0 < (pre ++ l).getD j 0) := by
  induction l with
  | nil =>
    intro pre best v hb hv hle hlt
    simp only [argminGo, List.append_nil]
    subst hv
    exact ⟨hb, hle, hlt⟩
  | cons x l ih =>
    intro pre best v hb hv hle hlt
    have happ : pre ++ x :: l = (pre ++ [x]) ++ l := by simp
    have hlen : (pre ++ [x]).length = pre.length + 1 := by simp
    rw [happ]
    have hold : ∀ j < pre.length, (pre ++ [x]).getD j 0 = pre.getD j 0 := by
      intro j hj
      simp [List.getD, List.getElem?_append_left hj]
    have hnew : (pre ++ [x]).getD pre.length 0 = x := by simp [List.getD]
    unfold argminGo
    split
    · rename_i hx
      have := ih (pre ++ [x]) pre.length x (by rw [hlen]; omega) hnew
        (by
          intro j hj
          rw [hlen] at hj
          rcases Nat.lt_succ_iff_lt_or_eq.1 hj with h | h
          · rw [hold j h]; exact le_trans hx.le (hle j h)
          · rw [h, hnew])
        (by
          intro j hj
          rw [hold j hj]
          exact lt_of_lt_of_le hx (hle j hj))
      rw [hlen] at this
      exact this
    · rename_i hx
      have := ih (pre ++ [x]) best v (by rw [hlen]; omega) (by rw [hold best hb]; exact hv)
        (by
          intro j hj
          rw [hlen] at hj
          rcases Nat.lt_succ_iff_lt_or_eq.1 hj with h | h
          · rw [hold j h]; exact hle j h
          · rw [h, hnew]; exact not_lt.1 hx)
        (by
          intro j hj
          rw [hold j (by omega)]
          exact hlt j hj)
      rw [hlen] at this
      exact this

/-- `np.argmin` is the first position of a smallest entry. -/
theorem npArgmin_spec {l : List ℝ} {k : ℕ} (h : npArgmin l = .ok k) :
    k < l.length ∧ (∀ j < l.length, l.getD k 0 ≤ l.getD j 0) ∧ (∀ j < k, l.getD k 0 < l.getD j 0) := by
  cases l with
  | nil => cases h
  | cons x l =>
    have h' := Except.ok.inj h
    subst h'
    have := argminGo_spec l [x] 0 x (by simp) (by simp) (by
      intro j hj
      have : j = 0 := by simpa using hj
      subst this; simp) (by intro j hj; omega)
    simpa using this

theorem npArgmin_some {l : List ℝ} (h : l ≠ []) : ∃ k, npArgmin l = .ok k := by
  cases l with
  | nil => exact absurd rfl h
  | cons x l => exact ⟨_, rfl⟩

theorem zipWith_zip {α β γ : Type} (f : α → β → γ) : ∀ (l : List α) (m : List β),
    List.zipWith f l m = (l.zip m).map fun p => f p.1 p.2
  | [], _ => by simp
  | _ :: _, [] => by simp
  | a :: l, b :: m => by simp [zipWith_zip f l m]

theorem sumExp_zip (c : ℝ) (al : List ℝ) (es : List (List ℝ)) :
    sumExp c al es = ((al.zip es).map fun p => p.1 * Real.exp (c - halfSq p.2)).sum := by
  unfold sumExp; rw [zipWith_zip]

theorem sumExp_shift (c : ℝ) (al : List ℝ) (es : List (List ℝ)) :
    sumExp c al es = Real.exp c * sumExp 0 al es := by
  rw [sumExp_zip, sumExp_zip, ← List.sum_map_mul_left]
  congr 1
  apply List.map_congr_left
  intro p _
  rw [Real.exp_sub, Real.exp_sub, Real.exp_zero]
  ring

theorem mem_zip_left {α β : Type} {l : List α} {m : List β} {p : α × β} (h : p ∈ l.zip m) : p.1 ∈ l :=
  (List.of_mem_zip h).1

theorem sum_pos_of {α : Type} (l : List α) (f : α → ℝ) (h : ∀ a ∈ l, 0 < f a) (hl : l ≠ []) :
    0 < (l.map f).sum := by
  cases l with
  | nil => exact absurd rfl hl
  | cons a l =>
    simp only [List.map_cons, List.sum_cons]
    have h1 := h a (by simp)
    have h2 : 0 ≤ (l.map f).sum := List.sum_nonneg (by
      intro x hx
      obtain ⟨b, hb, rfl⟩ := List.mem_map.1 hx
      exact (h b (by simp [hb])).le)
    linarith

theorem sumExp_pos (c : ℝ) {al : List ℝ} {es : List (List ℝ)} (ha : ∀ a ∈ al, 0 < a) (h1 : al ≠ []) (h2 : es ≠ []) :
    0 < sumExp c al es := by
  rw [sumExp_zip]
  apply sum_pos_of
  · intro p hp
    exact mul_pos (ha _ (mem_zip_left hp)) (Real.exp_pos _)
  · cases al with
    | nil => exact absurd rfl h1
    | cons a al =>
      cases es with
      | nil => exact absurd rfl h2
      | cons e es => simp

/-- `log Σ α exp(c - f) = c + log Σ α exp(-f)`. -/
theorem log_sumExp (c : ℝ) {al : List ℝ} {es : List (List ℝ)} (ha : ∀ a ∈ al, 0 < a) (h1 : al ≠ []) (h2 : es ≠ []) :
    Real.log (sumExp c al es) = c + Real.log (sumExp 0 al es) := by
  rw [sumExp_shift, Real.log_mul (Real.exp_ne_zero _) (sumExp_pos 0 ha h1 h2).ne', Real.log_exp]

theorem npLog_pos {x : ℝ} (h : 0 < x) : npLog x = .ok (Real.log x) := by
  unfold npLog; rw [if_neg (not_le.2 h)]

theorem npLog_ok {x y : ℝ} (h : npLog x = .ok y) : 0 < x ∧ y = Real.log x := by
  unfold npLog at h
  split at h
  · cases h
  · rename_i hx; exact ⟨not_le.1 hx, (Except.ok.inj h).symm⟩

theorem npSqrt_ok {x y : ℝ} (h : npSqrt x = .ok y) : 0 ≤ x ∧ y = Real.sqrt x := by
  unfold npSqrt at h
  split at h
  · cases h
  · rename_i hx; exact ⟨not_lt.1 hx, (Except.ok.inj h).symm⟩

theorem npSqrt_nn {x : ℝ} (h : 0 ≤ x) : npSqrt x = .ok (Real.sqrt x) := by
  unfold npSqrt; rw [if_neg (not_lt.2 h)]

theorem halfSq_append (a b : List ℝ) : halfSq (a ++ b) = halfSq a + halfSq b := by
  simp [halfSq, mul_add]

theorem halfSq_nonneg (e : List ℝ) : 0 ≤ halfSq e := by
  unfold halfSq
  have : 0 ≤ (e.map fun x => x * x).sum := List.sum_nonneg (by
    intro x hx
    obtain ⟨b, hb, rfl⟩ := List.mem_map.1 hx
    exact mul_self_nonneg b)
  linarith

theorem halfSq_sqrt {x : ℝ} (h : 0 ≤ x) : halfSq [Real.sqrt 2 * Real.sqrt x] = x := by
  have h2 := Real.mul_self_sqrt (show (0:ℝ) ≤ 2 by norm_num)
  have hx := Real.mul_self_sqrt h
  simp only [halfSq, List.map_cons, List.map_nil, List.sum_cons, List.sum_nil, add_zero]
  nlinarith

theorem halfSq_sqrt1 {x : ℝ} (h : 0 ≤ x) : halfSq [Real.sqrt x] = 1 / 2 * x := by
  simp only [halfSq, List.map_cons, List.map_nil, List.sum_cons, List.sum_nil, add_zero, Real.mul_self_sqrt h]

theorem foldl_max_spec (l : List ℝ) : ∀ x : ℝ, (∀ a ∈ x :: l, a ≤ l.foldl max x) ∧ l.foldl max x ∈ x :: l := by
  induction l with
  | nil => intro x; simp
  | cons y l ih =>
    intro x
    obtain ⟨h1, h2⟩ := ih (max x y)
    simp only [List.foldl_cons]
    constructor
    · intro a ha
      have hm := h1 (max x y) (by simp)
      rcases List.mem_cons.1 ha with rfl | ha
      · exact le_trans (le_max_left _ _) hm
      · rcases List.mem_cons.1 ha with rfl | ha
        · exact le_trans (le_max_right _ _) hm
        · exact h1 a (by simp [ha])
    · rcases List.mem_cons.1 h2 with h | h
      · rw [h]
        rcases max_choice x y with h' | h' <;> rw [h'] <;> simp
      · simp [h]

theorem listMax_spec {l : List ℝ} (h : l ≠ []) : (∀ a ∈ l, a ≤ listMax l) ∧ listMax l ∈ l := by
  cases l with
  | nil => exact absurd rfl h
  | cons x l => exact foldl_max_spec l x

theorem guardAlphas_ok {al : List ℝ} {u : Unit} (h : guardAlphas al = .ok u) : ∀ a ∈ al, 0 < a := by
  unfold guardAlphas at h
  split at h
  · rename_i h'; exact h'
  · cases h

theorem pick_lookup {α : Type} (keys : List K) (xs : List α) (k : K) (x : α) (hk : k ∈ keys)
    (h : pyGet xs (keys.idxOf k) = .ok x) : dictGet (keys.zip xs) k = .ok x := by
  induction keys generalizing xs with
  | nil => simp at hk
  | cons a l ih =>
    cases xs with
    | nil => unfold pyGet at h; simp at h
    | cons y ys =>
      by_cases hak : a = k
      · subst hak
        rw [List.idxOf_cons_self] at h
        unfold pyGet at h
        simp only [List.getElem?_cons_zero] at h
        simp only [dictGet, List.zip_cons_cons, List.lookup_cons, beq_self_eq_true]
        cases h
        rfl
      · rw [List.idxOf_cons_ne _ hak] at h
        have hk' : k ∈ l := by
          rcases List.mem_cons.1 hk with h' | h'
          · exact absurd h'.symm hak
          · exact h'
        have := ih ys hk' (by
          unfold pyGet at h ⊢
          simpa using h)
        unfold dictGet at this ⊢
        simp only [List.zip_cons_cons, List.lookup_cons]
        have hb : (k == a) = false := by simpa using fun h => hak h.symm
        rw [hb]
        exact this

theorem pickAll_lookup {keys : List K} {xs : List S} : ∀ {ks : List K} {ys : List S}, (∀ k ∈ ks, k ∈ keys) →
    pickAll keys xs ks = .ok ys → lookupAll (keys.zip xs) ks = .ok ys
  | [], ys, _, h => by unfold pickAll at h; unfold lookupAll; exact h
  | k :: ks, ys, hk, h => by
    unfold pickAll at h
    obtain ⟨x, h1, h⟩ := bind_ok h
    obtain ⟨r, h2, h⟩ := bind_ok h
    cases h
    unfold lookupAll
    rw [pick_lookup keys xs k x (hk k (by simp)) h1, pickAll_lookup (fun k' hk' => hk k' (by simp [hk'])) h2]
    rfl

theorem addKeys_spec (ks : List K) : ∀ acc : List K,
    (∀ k, k ∈ ks.foldl (fun acc k => if k ∈ acc then acc else acc ++ [k]) acc ↔ k ∈ acc ∨ k ∈ ks) ∧
    (acc.Nodup → (ks.foldl (fun acc k => if k ∈ acc then acc else acc ++ [k]) acc).Nodup) := by
  induction ks with
  | nil => intro acc; simp
  | cons a ks ih =>
    intro acc
    simp only [List.foldl_cons]
    by_cases ha : a ∈ acc
    · rw [if_pos ha]
      obtain ⟨h1, h2⟩ := ih acc
      refine ⟨fun k => ?_, h2⟩
      rw [h1 k, List.mem_cons]
      constructor
      · rintro (h | h)
        · exact .inl h
        · exact .inr (.inr h)
      · rintro (h | rfl | h)
        · exact .inl h
        · exact .inl ha
        · exact .inr h
    · rw [if_neg ha]
      obtain ⟨h1, h2⟩ := ih (acc ++ [a])
      refine ⟨fun k => ?_, fun hn => h2 ?_⟩
      · rw [h1 k, List.mem_cons, List.mem_append, List.mem_singleton]
        tauto
      · rw [List.nodup_append]
        refine ⟨hn, List.nodup_singleton a, ?_⟩
        intro x hx y hy
        rw [List.mem_singleton] at hy
        subst hy
        rintro rfl
        exact ha hx

theorem unionKeys_spec (cs : List (MixComp K S)) :
    (∀ k, k ∈ unionKeys cs ↔ ∃ c ∈ cs, k ∈ c.res.keys) ∧ (unionKeys cs).Nodup := by
  unfold unionKeys
  suffices h : ∀ acc : List K,
      (∀ k, k ∈ cs.foldl (fun acc c => c.res.keys.foldl (fun acc k => if k ∈ acc then acc else acc ++ [k]) acc) acc ↔
        k ∈ acc ∨ ∃ c ∈ cs, k ∈ c.res.keys) ∧
      (acc.Nodup →
        (cs.foldl (fun acc c => c.res.keys.foldl (fun acc k => if k ∈ acc then acc else acc ++ [k]) acc) acc).Nodup) by
    obtain ⟨h1, h2⟩ := h []
    exact ⟨fun k => by rw [h1 k]; simp, h2 List.nodup_nil⟩
  induction cs with
  | nil => intro acc; simp
  | cons c cs ih =>
    intro acc
    simp only [List.foldl_cons]
    obtain ⟨h1, h2⟩ := addKeys_spec c.res.keys acc
    obtain ⟨h3, h4⟩ := ih (c.res.keys.foldl (fun acc k => if k ∈ acc then acc else acc ++ [k]) acc)
    refine ⟨fun k => ?_, fun hn => h4 (h2 hn)⟩
    rw [h3 k, h1 k]
    simp only [List.mem_cons, exists_eq_or_imp]
    tauto

end Verif
