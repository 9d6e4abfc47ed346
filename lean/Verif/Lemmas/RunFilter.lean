import Verif.Model.RunFilter
import Verif.Lemmas.Iekf
import Mathlib.Tactic.Linarith
import Mathlib.Data.List.Basic

/-! Helper lemmas about the driver model. -/

namespace Verif

set_option linter.unusedVariables false
set_option linter.unusedSectionVars false

section sorting

variable {α : Type} (stamp : α → ℝ)

/-- time-sorted -/
def TimeSorted (l : List α) : Prop := l.Pairwise fun a b => stamp a ≤ stamp b

open Classical in
theorem sortByStamp_sorted (l : List α) : TimeSorted stamp (sortByStamp stamp l) := by
  unfold TimeSorted sortByStamp
  have := List.pairwise_mergeSort (le := fun a b => decide (stamp a ≤ stamp b))
    (fun a b c h1 h2 => by simp at h1 h2 ⊢; linarith)
    (fun a b => by simp; exact le_total _ _) l
  exact this.imp (fun h => by simpa using h)

theorem sortByStamp_perm (l : List α) : (sortByStamp stamp l).Perm l := List.mergeSort_perm _ _

theorem sortByStamp_mem {a : α} {l : List α} : a ∈ sortByStamp stamp l ↔ a ∈ l :=
  (sortByStamp_perm stamp l).mem_iff

open Classical in
theorem sortByStamp_stable (l : List α) (ys : List α) (h : TimeSorted stamp ys)
    (hs : ys.Sublist l) : ys.Sublist (sortByStamp stamp l) := by
  unfold sortByStamp
  exact List.sublist_mergeSort (le := fun a b => decide (stamp a ≤ stamp b))
    (fun a b c h1 h2 => by simp at h1 h2 ⊢; linarith)
    (fun a b => by simp; exact le_total _ _) (h.imp (fun h => by simpa using h)) hs

open Classical in
theorem sortByStamp_of_sorted (l : List α) (h : TimeSorted stamp l) : sortByStamp stamp l = l := by
  unfold sortByStamp
  exact List.mergeSort_of_pairwise (h.imp (fun h => by simpa using h))

open Classical in
theorem dropWhile_sorted {l : List α} (h : TimeSorted stamp l) (t : ℝ) :
    l.dropWhile (fun a => decide (stamp a < t)) = l.filter (fun a => decide (t ≤ stamp a)) := by
  induction l with
  | nil => rfl
  | cons a l ih =>
    rw [TimeSorted, List.pairwise_cons] at h
    by_cases ha : stamp a < t
    · rw [List.dropWhile_cons_of_pos (by simpa using ha), ih h.2,
        List.filter_cons_of_neg (by simpa using ha)]
    · rw [List.dropWhile_cons_of_neg (by simpa using ha)]
      symm
      rw [List.filter_eq_self]
      intro b hb
      simp
      rcases List.mem_cons.1 hb with rfl | hb
      · linarith
      · linarith [h.1 b hb]

open Classical in
theorem takeWhile_sorted {l : List α} (h : TimeSorted stamp l) (t : ℝ) :
    l.takeWhile (fun a => decide (stamp a < t)) = l.filter (fun a => decide (stamp a < t)) := by
  induction l with
  | nil => rfl
  | cons a l ih =>
    rw [TimeSorted, List.pairwise_cons] at h
    by_cases ha : stamp a < t
    · rw [List.takeWhile_cons_of_pos (by simpa using ha), ih h.2,
        List.filter_cons_of_pos (by simpa using ha)]
    · rw [List.takeWhile_cons_of_neg (by simpa using ha)]
      symm
      rw [List.filter_eq_nil_iff]
      intro b hb
      simp
      rcases List.mem_cons.1 hb with rfl | hb
      · linarith
      · linarith [h.1 b hb]

theorem TimeSorted.filter {l : List α} (h : TimeSorted stamp l) (p : α → Bool) :
    TimeSorted stamp (l.filter p) := List.Pairwise.filter _ h

end sorting

variable {X I Y : Type}

/-- folding `correct` over a list of measurements -/
noncomputable def fuseAll (f : FilterApi X I Y) (u : I) (ys : List Y) (x : X) : Except Err X :=
  ys.foldlM (fun x y => f.correct x y u) x

open Classical in
theorem fuseWhile_eq (f : FilterApi X I Y) (u : I) (t : ℝ) (rest : List Y) (x : X) :
    fuseWhile f u t rest x =
      (fuseAll f u (rest.takeWhile fun y => decide (f.ystamp y < t)) x).map
        (fun x' => (x', rest.dropWhile fun y => decide (f.ystamp y < t))) := by
  induction rest generalizing x with
  | nil => rfl
  | cons y rest ih =>
    unfold fuseWhile
    by_cases hy : f.ystamp y < t
    · rw [if_pos hy, List.takeWhile_cons_of_pos (by simpa using hy),
        List.dropWhile_cons_of_pos (by simpa using hy)]
      simp only [fuseAll, List.foldlM_cons, bind, Except.bind]
      cases f.correct x y u with
      | error e => rfl
      | ok x' => exact ih x'
    · rw [if_neg hy, List.takeWhile_cons_of_neg (by simpa using hy),
        List.dropWhile_cons_of_neg (by simpa using hy)]
      rfl

end Verif
