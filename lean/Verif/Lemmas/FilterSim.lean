import Verif.Model.RunFilter
import Mathlib.Data.List.Forall2
import Mathlib.Tactic.Ring
import Mathlib.Tactic.Linarith

/-!
Two runs of `run_filter` side by side: if every call of the one filter is matched by a call of the other, so are the
runs.
-/

namespace Verif

/-- Both computations succeed with related results, or both raise the same exception. -/
def ExRel {α β : Type} (R : α → β → Prop) : Except Err α → Except Err β → Prop
  | .ok a, .ok b => R a b
  | .error e, .error e' => e = e'
  | _, _ => False

theorem ExRel.bind {α β γ δ : Type} {R : α → β → Prop} {S : γ → δ → Prop} {a : Except Err α} {b : Except Err β}
    {f : α → Except Err γ} {g : β → Except Err δ} (h : ExRel R a b) (hf : ∀ x y, R x y → ExRel S (f x) (g y)) :
    ExRel S (a >>= f) (b >>= g) := by
  cases a <;> cases b
  · exact h
  · exact h.elim
  · exact h.elim
  · exact hf _ _ h

theorem ExRel.mono {α β : Type} {R S : α → β → Prop} {a : Except Err α} {b : Except Err β} (h : ExRel R a b)
    (hi : ∀ x y, R x y → S x y) : ExRel S a b := by
  cases a <;> cases b
  · exact h
  · exact h.elim
  · exact h.elim
  · exact hi _ _ h

theorem ExRel.map {α β γ δ : Type} {R : α → β → Prop} {S : γ → δ → Prop} {a : Except Err α} {b : Except Err β}
    {f : α → γ} {g : β → δ} (h : ExRel R a b) (hf : ∀ x y, R x y → S (f x) (g y)) :
    ExRel S (a.map f) (b.map g) := by
  cases a <;> cases b
  · exact h
  · exact h.elim
  · exact h.elim
  · exact hf _ _ h

variable {X X' I I' Y Y' : Type}

theorem forall2_pairs {α β : Type} {R : α → β → Prop} {l : List α} {l' : List β} (h : List.Forall₂ R l l') :
    ∃ p : List (α × β), p.map Prod.fst = l ∧ p.map Prod.snd = l' ∧ ∀ q ∈ p, R q.1 q.2 := by
  induction h with
  | nil => exact ⟨[], rfl, rfl, by simp⟩
  | @cons a b _ _ hab _ ih =>
    obtain ⟨p, h1, h2, h3⟩ := ih
    exact ⟨(a, b) :: p, by simp [h1], by simp [h2], by simpa using ⟨hab, fun x y hxy => h3 (x, y) hxy⟩⟩

theorem forall2_of_pairs {α β : Type} {R : α → β → Prop} : ∀ (p : List (α × β)), (∀ q ∈ p, R q.1 q.2) →
    List.Forall₂ R (p.map Prod.fst) (p.map Prod.snd)
  | [], _ => .nil
  | q :: p, h => .cons (h q (by simp)) (forall2_of_pairs p fun r hr => h r (by simp [hr]))

theorem sort_forall2 {s : I → ℝ} {s' : I' → ℝ} {T : ℝ} {R : I → I' → Prop} (hs : ∀ u u', R u u' → s' u' = s u + T)
    {l : List I} {l' : List I'} (h : List.Forall₂ R l l') :
    List.Forall₂ R (sortByStamp s l) (sortByStamp s' l') := by
  obtain ⟨p, rfl, rfl, hp⟩ := forall2_pairs h
  classical
  have e1 : sortByStamp s (p.map Prod.fst)
      = (p.mergeSort fun a b => decide (s a.1 ≤ s b.1)).map Prod.fst := by
    unfold sortByStamp
    rw [List.map_mergeSort (s := fun a b => decide (s a ≤ s b))]
    intro a _ b _; rfl
  have e2 : sortByStamp s' (p.map Prod.snd)
      = (p.mergeSort fun a b => decide (s a.1 ≤ s b.1)).map Prod.snd := by
    unfold sortByStamp
    rw [List.map_mergeSort (s := fun a b => decide (s' a ≤ s' b))]
    intro a ha b hb
    rw [hs _ _ (hp a ha), hs _ _ (hp b hb)]
    simp
  rw [e1, e2]
  exact forall2_of_pairs _ fun q hq => hp q ((List.mergeSort_perm p _).mem_iff.mp hq)

theorem dropWhile_forall2 {R : I → I' → Prop} {c : I → Bool} {c' : I' → Bool} (hc : ∀ u u', R u u' → c' u' = c u)
    {l : List I} {l' : List I'} (h : List.Forall₂ R l l') :
    List.Forall₂ R (l.dropWhile c) (l'.dropWhile c') := by
  induction h with
  | nil => exact .nil
  | @cons a b as bs hab h ih =>
    simp only [List.dropWhile_cons, hc _ _ hab]
    split
    · exact ih
    · exact .cons hab h

theorem drop_forall2 {s : I → ℝ} {s' : I' → ℝ} {T t0 : ℝ} {R : I → I' → Prop} (hs : ∀ u u', R u u' → s' u' = s u + T)
    {l : List I} {l' : List I'} (h : List.Forall₂ R l l') :
    List.Forall₂ R (dropBefore s t0 l) (dropBefore s' (t0 + T) l') := by
  have e : (∃ a ∈ l, t0 ≤ s a) ↔ ∃ a ∈ l', t0 + T ≤ s' a := by
    induction h with
    | nil => simp
    | @cons a b as bs hab h ih =>
      simp only [List.exists_mem_cons_iff, ih, hs _ _ hab]
      constructor <;> rintro (h | h)
      · exact .inl (by linarith)
      · exact .inr h
      · exact .inl (by linarith)
      · exact .inr h
  unfold dropBefore
  by_cases hx : ∃ a ∈ l, t0 ≤ s a
  · rw [if_pos hx, if_pos (e.mp hx)]
    refine dropWhile_forall2 (fun u u' hu => ?_) h
    rw [hs _ _ hu]
    simp
  · rw [if_neg hx, if_neg (fun h => hx (e.mpr h))]
    exact h

/-- A matching between two filters: a relation between their estimates which every call preserves, the stamps of
the second filter being those of the first plus `T`. -/
structure FilterSim (f : FilterApi X I Y) (g : FilterApi X' I' Y') (T : ℝ) (Rx : X → X' → Prop) (Ri : I → I' → Prop)
    (Ry : Y → Y' → Prop) : Prop where
  xstamp : ∀ x x', Rx x x' → g.xstamp x' = (f.xstamp x).map (· + T)
  istamp : ∀ u u', Ri u u' → g.istamp u' = f.istamp u + T
  ystamp : ∀ y y', Ry y y' → g.ystamp y' = f.ystamp y + T
  predict : ∀ x x' u u' dt, Rx x x' → Ri u u' → ExRel Rx (f.predict x u dt) (g.predict x' u' dt)
  correct : ∀ x x' u u' y y', Rx x x' → Ri u u' → Ry y y' → ExRel Rx (f.correct x y u) (g.correct x' y' u')

variable {f : FilterApi X I Y} {g : FilterApi X' I' Y'} {T : ℝ} {Rx : X → X' → Prop} {Ri : I → I' → Prop}
  {Ry : Y → Y' → Prop}

theorem FilterSim.fuseWhile (h : FilterSim f g T Rx Ri Ry) {u : I} {u' : I'} (hu : Ri u u') (tn : ℝ) {ys : List Y}
    {ys' : List Y'} (hy : List.Forall₂ Ry ys ys') : ∀ {x : X} {x' : X'}, Rx x x' →
    ExRel (fun p q => Rx p.1 q.1 ∧ List.Forall₂ Ry p.2 q.2) (fuseWhile f u tn ys x)
      (fuseWhile g u' (tn + T) ys' x') := by
  induction hy with
  | nil => intro x x' hx; exact ⟨hx, .nil⟩
  | @cons y y' ys ys' hyy hys ih =>
    intro x x' hx
    have e := h.ystamp _ _ hyy
    by_cases hl : f.ystamp y < tn
    · have e1 : Verif.fuseWhile f u tn (y :: ys) x
          = (f.correct x y u >>= fun x1 => Verif.fuseWhile f u tn ys x1) := if_pos hl
      have e2 : Verif.fuseWhile g u' (tn + T) (y' :: ys') x'
          = (g.correct x' y' u' >>= fun x1 => Verif.fuseWhile g u' (tn + T) ys' x1) :=
        if_pos (by rw [e]; linarith)
      rw [e1, e2]
      exact (h.correct _ _ _ _ _ _ hx hu hyy).bind fun a b hab => ih hab
    · have e1 : Verif.fuseWhile f u tn (y :: ys) x = .ok (x, y :: ys) := if_neg hl
      have e2 : Verif.fuseWhile g u' (tn + T) (y' :: ys') x' = .ok (x', y' :: ys') :=
        if_neg (by rw [e]; linarith)
      rw [e1, e2]
      exact ⟨hx, .cons hyy hys⟩

theorem FilterSim.predictTo (h : FilterSim f g T Rx Ri Ry) {u : I} {u' : I'} (hu : Ri u u') (tn : ℝ) {x : X} {x' : X'}
    (hx : Rx x x') : ExRel Rx (predictTo f x u tn) (predictTo g x' u' (tn + T)) := by
  have e := h.xstamp _ _ hx
  unfold Verif.predictTo
  cases hs : f.xstamp x with
  | none => rw [e, hs]; exact rfl
  | some t =>
    rw [e, hs]
    have e2 : tn + T - (t + T) = tn - t := by ring
    show ExRel Rx (f.predict x u (tn - t)) (g.predict x' u' (tn + T - (t + T)))
    rw [e2]
    exact h.predict _ _ _ _ _ hx hu

theorem FilterSim.runLoop (h : FilterSim f g T Rx Ri Ry) {us : List I} {us' : List I'} (hu : List.Forall₂ Ri us us') :
    ∀ {ys : List Y} {ys' : List Y'} {x : X} {x' : X'}, List.Forall₂ Ry ys ys' → Rx x x' →
    ExRel (List.Forall₂ Rx) (runLoop f us ys x) (runLoop g us' ys' x') := by
  induction hu with
  | nil => intro ys ys' x x' _ _; exact .nil
  | @cons u u' us us' huu hus ih =>
    intro ys ys' x x' hy hx
    cases hus with
    | nil => exact .nil
    | @cons v v' vs vs' hvv hvs =>
      show ExRel _ (Verif.fuseWhile f u (f.istamp v) ys x >>= fun p => Verif.predictTo f p.1 u (f.istamp v) >>= fun x2 =>
          Verif.runLoop f (v :: vs) p.2 x2 >>= fun rs => .ok (p.1 :: rs))
        (Verif.fuseWhile g u' (g.istamp v') ys' x' >>= fun p => Verif.predictTo g p.1 u' (g.istamp v') >>= fun x2 =>
          Verif.runLoop g (v' :: vs') p.2 x2 >>= fun rs => .ok (p.1 :: rs))
      rw [h.istamp _ _ hvv]
      refine (h.fuseWhile huu _ hy hx).bind fun p q hpq => ?_
      refine (h.predictTo huu _ hpq.1).bind fun a b hab => ?_
      refine (ih hpq.2 hab).bind fun rs rs' hrs => ?_
      exact .cons hpq.1 hrs

/-- Matching filters on matching data give matching results. -/
theorem FilterSim.runFilter (h : FilterSim f g T Rx Ri Ry) {x0 : X} {x0' : X'} (hx : Rx x0 x0') {ins : List I}
    {ins' : List I'} (hi : List.Forall₂ Ri ins ins') {meas : List Y} {meas' : List Y'}
    (hm : List.Forall₂ Ry meas meas') :
    ExRel (List.Forall₂ Rx) (runFilter f x0 ins meas) (runFilter g x0' ins' meas') := by
  have e := h.xstamp _ _ hx
  unfold Verif.runFilter
  cases hs : f.xstamp x0 with
  | none => rw [e, hs]; exact rfl
  | some t0 =>
    rw [e, hs]
    exact h.runLoop (drop_forall2 h.istamp (sort_forall2 h.istamp hi))
      (drop_forall2 h.ystamp (sort_forall2 h.ystamp hm)) hx

theorem FilterSim.runImmLoop (h : FilterSim f g T Rx Ri Ry) {us : List I} {us' : List I'}
    (hu : List.Forall₂ Ri us us') :
    ∀ {ys : List Y} {ys' : List Y'} {x : X} {x' : X'}, List.Forall₂ Ry ys ys' → Rx x x' →
    ExRel (List.Forall₂ Rx) (runImmLoop f us ys x) (runImmLoop g us' ys' x') := by
  induction hu with
  | nil => intro ys ys' x x' _ _; exact .nil
  | @cons u u' us us' huu hus ih =>
    intro ys ys' x x' hy hx
    cases hus with
    | nil => exact .nil
    | @cons v v' vs vs' hvv hvs =>
      show ExRel _ (Verif.fuseWhile f u (f.istamp v) ys x >>= fun p => Verif.predictTo f p.1 u (f.istamp v) >>= fun x2 =>
          Verif.runImmLoop f (v :: vs) p.2 x2 >>= fun rs => .ok (x :: rs))
        (Verif.fuseWhile g u' (g.istamp v') ys' x' >>= fun p => Verif.predictTo g p.1 u' (g.istamp v') >>= fun x2 =>
          Verif.runImmLoop g (v' :: vs') p.2 x2 >>= fun rs => .ok (x' :: rs))
      rw [h.istamp _ _ hvv]
      refine (h.fuseWhile huu _ hy hx).bind fun p q hpq => ?_
      refine (h.predictTo huu _ hpq.1).bind fun a b hab => ?_
      refine (ih hpq.2 hab).bind fun rs rs' hrs => ?_
      exact .cons hx hrs

/-- The same for `run_imm_filter`. -/
theorem FilterSim.runImm (h : FilterSim f g T Rx Ri Ry) {x0 : X} {x0' : X'} (hx : Rx x0 x0') {ins : List I}
    {ins' : List I'} (hi : List.Forall₂ Ri ins ins') {meas : List Y} {meas' : List Y'}
    (hm : List.Forall₂ Ry meas meas') :
    ExRel (List.Forall₂ Rx) (runImm f x0 ins meas) (runImm g x0' ins' meas') := by
  have e := h.xstamp _ _ hx
  unfold Verif.runImm
  cases hs : f.xstamp x0 with
  | none => rw [e, hs]; exact rfl
  | some t0 =>
    rw [e, hs]
    exact h.runImmLoop (drop_forall2 h.istamp (sort_forall2 h.istamp hi))
      (drop_forall2 h.ystamp (sort_forall2 h.ystamp hm)) hx

end Verif
