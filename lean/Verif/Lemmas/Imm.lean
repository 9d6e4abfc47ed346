import Verif.Model.Imm
import Verif.Lemmas.Sigma

set_option linter.unusedVariables false
set_option linter.unusedSectionVars false

namespace Verif

open Matrix

variable {V U : Type} {n M : ℕ}

theorem seqFin_ok {α : Type} {M : ℕ} {f : Fin M → Except Err α} {g : Fin M → α}
    (h : seqFin M f = .ok g) : ∀ i, f i = .ok (g i) := by
  induction M with
  | zero => intro i; exact i.elim0
  | succ M ih =>
    unfold seqFin at h
    obtain ⟨a, ha, h⟩ := bind_ok h
    obtain ⟨r, hr, h⟩ := bind_ok h
    cases h
    intro i
    refine Fin.cases ?_ (fun j => ?_) i
    · simpa using ha
    · simpa using ih hr j

theorem seqFin_of {α : Type} {M : ℕ} {f : Fin M → Except Err α} {g : Fin M → α}
    (h : ∀ i, f i = .ok (g i)) : seqFin M f = .ok g := by
  induction M with
  | zero =>
    unfold seqFin
    congr 1
    funext i; exact i.elim0
  | succ M ih =>
    unfold seqFin
    rw [h 0, ih (g := fun i => g i.succ) (fun i => h i.succ)]
    simp only [bind, Except.bind, pure, Except.pure]
    congr 1
    funext i
    refine Fin.cases ?_ (fun j => ?_) i <;> simp

/-- the first exception of the sequence is one of the components' -/
theorem seqFin_error {α : Type} {M : ℕ} {f : Fin M → Except Err α} {e : Err}
    (h : seqFin M f = .error e) : ∃ i, f i = .error e := by
  induction M with
  | zero => cases h
  | succ M ih =>
    unfold seqFin at h
    cases h0 : f 0 with
    | error e' =>
      rw [h0] at h
      refine ⟨0, ?_⟩
      rw [h0]
      simpa [bind, Except.bind] using h
    | ok a =>
      rw [h0] at h
      simp only [bind, Except.bind] at h
      cases hr : seqFin M fun i => f i.succ with
      | error e' =>
        rw [hr] at h
        have : e' = e := by simpa using h
        subst this
        obtain ⟨i, hi⟩ := ih hr
        exact ⟨i.succ, hi⟩
      | ok r => rw [hr] at h; cases h

theorem argmaxFirst_spec {w : Fin M → ℝ} {i : Fin M} (h : argmaxFirst w = .ok i) :
    (∀ j, w j ≤ w i) ∧ ∀ j < i, ∃ l, w j < w l := by
  unfold argmaxFirst at h
  split at h
  · rename_i i' hi
    cases h
    have h1 := List.find?_some hi
    refine ⟨by simpa using h1, ?_⟩
    intro j hj
    rw [List.find?_eq_some_iff_append] at hi
    obtain ⟨_, as, bs, hab, hnot⟩ := hi
    have hmem : j ∈ as := by
      have hsorted : (List.finRange M).Pairwise (· < ·) := List.pairwise_lt_finRange M
      rw [hab] at hsorted
      have hj' : j ∈ as ++ i :: bs := by rw [← hab]; exact List.mem_finRange j
      rcases List.mem_append.1 hj' with h | h
      · exact h
      · rcases List.mem_cons.1 h with rfl | h
        · exact absurd hj (lt_irrefl _)
        · have := (List.pairwise_append.1 hsorted).2.1
          have := (List.pairwise_cons.1 this).1 j h
          exact absurd hj (not_lt.2 this.le)
    have := hnot j hmem
    simpa using this
  · cases h

theorem argmaxFirst_total (hM : M ≠ 0) (w : Fin M → ℝ) : ∃ i, argmaxFirst w = .ok i := by
  have : Nonempty (Fin M) := ⟨⟨0, Nat.pos_of_ne_zero hM⟩⟩
  obtain ⟨i, hi⟩ := Finite.exists_max w
  unfold argmaxFirst
  cases h : (List.finRange M).find? (fun i => decide (∀ j, w j ≤ w i)) with
  | some i => exact ⟨i, rfl⟩
  | none =>
    rw [List.find?_eq_none] at h
    exact absurd (by simpa using hi) (h i (List.mem_finRange i))

theorem outer_psd {m : ℕ} (v : Vec m) : (vecMulVec v v).PosSemidef := by
  have := posSemidef_vecMulVec_self_star v
  rwa [star_trivial] at this

theorem sum_psd {ι : Type} [Fintype ι] {m : ℕ} (f : ι → Mat m m) (h : ∀ i, (f i).PosSemidef) :
    (∑ i, f i).PosSemidef := by
  classical
  induction (Finset.univ : Finset ι) using Finset.induction_on with
  | empty => simpa using PosSemidef.zero
  | insert a s ha ih => rw [Finset.sum_insert ha]; exact psd_add (h a) ih

theorem gaussPdf_nonneg {m : ℕ} (z : Vec m) (S : Mat m m) : 0 ≤ gaussPdf z S := by
  unfold gaussPdf; positivity

theorem gaussPdf_pos {m : ℕ} (z : Vec m) {S : Mat m m} (h : 0 < S.det) : 0 < gaussPdf z S := by
  unfold gaussPdf
  apply div_pos (Real.exp_pos _)
  apply Real.sqrt_pos.2
  have := Real.pi_pos
  positivity

theorem fuse_details_m {e : EkfEnv V U n} {x x' : SWC V n} {y : Meas V n} {xjac : Option (St V)}
    {rej : Bool} {d : CorrectDetails} (h : e.fuse x y xjac rej = .ok (x', some d)) : d.m = y.m := by
  cases hy : y.model.evaluate x.state with
  | none =>
    rw [fuse_none e x y xjac rej hy] at h
    simp at h
  | some yc =>
    by_cases hd : (innovCov x y xjac).det = 0
    · rw [fuse_singular e x y xjac rej yc hy hd] at h; cases h
    · cases rej
      · rw [fuse_noreject e x y xjac yc hy hd] at h
        simp at h
        rw [← h.2]
      · rw [fuse_reject e x y xjac yc hy hd] at h
        split at h
        · simp at h
          rw [← h.2]
        · rw [fuse_noreject e x y xjac yc hy hd] at h
          simp at h
          rw [← h.2]

end Verif
