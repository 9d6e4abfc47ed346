import Verif.Lemmas.FilterSim
import Verif.Props.Imm
import Verif.Props.Ekf
import Verif.Props.RunFilter
import Verif.Model.RunFilters

/-!
C96: symmetries of the interacting multiple model filter. Copies of one model are that model's filter; the order in which the models
are listed does not matter.
-/

set_option linter.unusedVariables false
set_option linter.unusedSectionVars false

namespace Verif

open Matrix

variable {V U : Type} {n M : ℕ}

/-! ### Copies of one model -/

/-- The operations of the state at a single point: the difference of a state to itself is zero, with identity Jacobians. -/
structure ManifoldOps.AtZero (ops : ManifoldOps V n) : Prop where
  minus : ∀ v, ops.minus v v = 0
  plus : ∀ v, ops.plus v 0 = v
  minusJac : ∀ v, ops.minusJac v v = 1
  plusJac : ∀ v, ops.plusJac v 0 = 1

theorem predProb_pos {T : Mat M M} (hT : ∀ i j, 0 ≤ T i j) (hc : ∀ j, ∃ i, 0 < T i j) {p : Fin M → ℝ} (hp : ∀ i, 0 < p i) (j : Fin M) :
    0 < predProb T p j := by
  obtain ⟨i, hi⟩ := hc j
  exact Finset.sum_pos' (fun k _ => mul_nonneg (hT k j) (hp k).le) ⟨i, Finset.mem_univ i, mul_pos hi (hp i)⟩

theorem renormalize_pos {mu : Fin M → ℝ} (h : ∀ i, 0 < mu i) (i : Fin M) : 0 < renormalize mu i := by
  unfold renormalize
  split
  · exact div_pos (by norm_num) (Finset.sum_pos (fun _ _ => by norm_num) ⟨i, Finset.mem_univ i⟩)
  · exact div_pos (h i) (Finset.sum_pos (fun j _ => h j) ⟨i, Finset.mem_univ i⟩)

theorem seqFin_const_error {α : Type} {e : Err} : seqFin (M + 1) (fun _ => (.error e : Except Err α)) = .error e := rfl

theorem fuse_details {e : EkfEnv V U n} {x : SWC V n} {y : Meas V n} {rej : Bool} (hP : x.cov.PosSemidef)
    (hR : (y.model.covariance x.state).PosDef) {yc : Vec y.m} (hy : y.model.evaluate x.state = some yc) :
    ∃ x' b, e.fuse x y none rej = .ok (x', some ⟨y.m, fun i => y.value i - yc i, innovCov x y none, b⟩) := by
  have hd : (innovCov x y none).det ≠ 0 := pd_det (innov_pd hP _ hR)
  cases rej with
  | false => exact ⟨_, _, fuse_noreject e x y none yc hy hd⟩
  | true =>
    rw [fuse_reject e x y none yc hy hd]
    split
    · exact ⟨_, _, rfl⟩
    · exact ⟨_, _, fuse_noreject e x y none yc hy hd⟩

/-- All the models agree on the estimate. -/
def Agreed (m : Mixture V n (M + 1)) (x : SWC V n) : Prop :=
  m.states = (fun _ => x) ∧ (∀ i, 0 < m.probs i) ∧ x.cov.PosSemidef

/-- A measurement with a value and a positive definite covariance. -/
def Always (y : StMeas V n) : Prop :=
  ∀ s, (y.meas.model.covariance s).PosDef ∧ ∃ v, y.meas.model.evaluate s = some v

theorem interaction_agreed {f : Imm V U n (M + 1)} (hz : f.ops.AtZero) (hT : ∀ i j, 0 ≤ f.trans i j) (hc : ∀ j, ∃ i, 0 < f.trans i j)
    {m : Mixture V n (M + 1)} {x : SWC V n} (h : Agreed m x) : f.interaction m = .ok m := by
  obtain ⟨hs, hp, -⟩ := h
  unfold Imm.interaction
  have hpos := predProb_pos hT hc hp
  rw [if_neg (by rintro ⟨j, hj⟩; exact (hpos j).ne' hj)]
  rw [seqFin_of (g := fun _ => x)]
  · obtain ⟨s, p⟩ := m
    simp only at hs
    subst hs
    rfl
  · intro j
    rw [hs]
    refine C20_mixing_identical f.ops x (hz.minus _) (hz.plus _) (hz.minusJac _) (hz.plusJac _) (Nat.succ_ne_zero M) _ ?_
    unfold mixWeight
    simp only [mul_assoc, ← Finset.mul_sum]
    exact one_div_mul_cancel (hpos j).ne'

theorem agreed_sim {f : Imm V U n (M + 1)} {e : EkfEnv V U n} (hf : ∀ i, f.kfs i = e) (hz : f.ops.AtZero)
    (hT : ∀ i j, 0 ≤ f.trans i j) (hc : ∀ j, ∃ i, 0 < f.trans i j)
    (hQ : ∀ x u dt, 0 ≤ dt → (e.proc.covariance x u dt).PosSemidef) :
    FilterSim (immApi f) (ekfApi e) 0 Agreed Eq (fun y y' => y' = y ∧ Always y) where
  xstamp m x h := by
    show x.state.stamp = ((m.states 0).state.stamp).map _
    rw [h.1]; simp
  istamp u u' h := by rw [h, add_zero]; rfl
  ystamp y y' h := by rw [h.1, add_zero]; rfl
  predict m x u u' dt h hu := by
    subst hu
    obtain ⟨hs, hp, hP⟩ := h
    show ExRel Agreed (f.predict m (some ⟨u.value, some u.stamp⟩) (some dt)) (e.predict x (some ⟨u.value, some u.stamp⟩) (some dt) none)
    unfold Imm.predict
    simp only [hf, hs]
    cases hr : e.predict x (some ⟨u.value, some u.stamp⟩) (some dt) none with
    | error er => exact rfl
    | ok z =>
      rw [seqFin_of (g := fun _ => z) fun _ => rfl]
      exact ⟨rfl, hp, predict_psd e hQ x _ _ _ z hP hr⟩
  correct m x u u' y y' h hu hy := by
    subst hu
    obtain ⟨rfl, hy⟩ := hy
    show ExRel Agreed (f.interaction m >>= fun m' => f.correct m' y'.meas (some ⟨u.value, some u.stamp⟩))
      (e.correct x y'.meas (some ⟨u.value, some u.stamp⟩) none none)
    rw [interaction_agreed hz hT hc h]
    obtain ⟨hs, hp, hP⟩ := h
    show ExRel Agreed (f.correct m y'.meas (some ⟨u.value, some u.stamp⟩)) _
    unfold Imm.correct EkfEnv.correct correctLik
    simp only [hf, hs]
    unfold EkfEnv.correctD
    cases ha : e.advance x y'.meas (some ⟨u.value, some u.stamp⟩) with
    | error er => exact rfl
    | ok w =>
      have hw := advance_psd e hQ x _ _ w hP ha
      obtain ⟨hR, yc, hyc⟩ := hy w.state
      obtain ⟨z, b, hfz⟩ := fuse_details (e := e) (rej := (none : Option Bool).getD e.rejectOutliers) hw hR hyc
      have hzP := (fuse_psd e w y'.meas none _ (fun s => (hy s).1.posSemidef) hw z _ hfz).1
      show ExRel Agreed ((seqFin (M + 1) fun _ => (e.fuse w y'.meas none ((none : Option Bool).getD e.rejectOutliers) >>= fun p =>
          (match p.2 with
            | none => .error .keyError
            | some d => .ok (p.1, gaussPdf d.z d.S) : Except Err (SWC V n × ℝ)))) >>= fun r => .ok
          { states := fun i => (r i).1, probs := renormalize fun i => (r i).2 * predProb f.trans m.probs i })
        ((e.fuse w y'.meas none ((none : Option Bool).getD e.rejectOutliers)).map Prod.fst)
      rw [hfz]
      show ExRel Agreed ((seqFin (M + 1) fun _ =>
          (.ok (z, gaussPdf (fun i => y'.meas.value i - yc i) (innovCov w y'.meas none)) : Except Err (SWC V n × ℝ))) >>= fun r => .ok
          { states := fun i => (r i).1, probs := renormalize fun i => (r i).2 * predProb f.trans m.probs i }) (.ok z)
      rw [seqFin_of (g := fun _ => (z, gaussPdf (fun i => y'.meas.value i - yc i) (innovCov w y'.meas none))) fun _ => rfl]
      refine ⟨rfl, fun i => renormalize_pos (fun i => mul_pos (gaussPdf_pos _ ?_) (predProb_pos hT hc hp i)) i, hzP⟩
      exact (innov_pd hw _ hR).det_pos

/-- **C96, copies.** An IMM whose models are all the same EKF, with a transition matrix that leaves every mode reachable, is that EKF: in
every mixture recorded by `run_imm_filter` all the modes hold the estimate which the EKF has at that point (or both raise the same
exception). -/
theorem C96_copies (f : Imm V U n (M + 1)) (e : EkfEnv V U n) (hf : ∀ i, f.kfs i = e) (hz : f.ops.AtZero)
    (hT : ∀ i j, 0 ≤ f.trans i j) (hc : ∀ j, ∃ i, 0 < f.trans i j)
    (hQ : ∀ x u dt, 0 ≤ dt → (e.proc.covariance x u dt).PosSemidef) (x0 : SWC V n) (hP : x0.cov.PosSemidef)
    (ins : List (StInp U)) (ys : List (StMeas V n)) (hy : ∀ y ∈ ys, Always y) :
    (runImm (immApi f) ⟨fun _ => x0, fun _ => 1 / (M + 1)⟩ ins ys).map (List.map Mixture.states)
      = (runImm (ekfApi e) x0 ins ys).map (List.map fun x _ => x) := by
  have h := (agreed_sim hf hz hT hc hQ).runImm (x0 := ⟨fun _ => x0, fun _ => 1 / (M + 1)⟩) (x0' := x0)
    ⟨rfl, fun i => by positivity, hP⟩ (ins := ins) (ins' := ins) (List.forall₂_same.mpr fun _ _ => rfl)
    (meas := ys) (meas' := ys) (List.forall₂_same.mpr fun y hmem => ⟨rfl, hy y hmem⟩)
  cases h1 : runImm (immApi f) ⟨fun _ => x0, fun _ => 1 / (M + 1)⟩ ins ys with
  | error er =>
    cases h2 : runImm (ekfApi e) x0 ins ys with
    | error er' => rw [h1, h2] at h; rw [show er = er' from h]; rfl
    | ok rs => rw [h1, h2] at h; exact h.elim
  | ok ms =>
    cases h2 : runImm (ekfApi e) x0 ins ys with
    | error er' => rw [h1, h2] at h; exact h.elim
    | ok rs =>
      rw [h1, h2] at h
      have h3 : List.Forall₂ Agreed ms rs := h
      clear h h1 h2
      have h4 : ms.map Mixture.states = rs.map fun x _ => x := by
        induction h3 with
        | nil => rfl
        | cons hab _ ih => rw [List.map_cons, List.map_cons, hab.1, ih]
      exact congrArg Except.ok h4

/-! ### What `run_imm_filter` records -/

theorem loops {X I Y : Type} (f : FilterApi X I Y) : ∀ (us : List I) (ys : List Y) (x : X),
    (∀ er, runLoop f us ys x = .error er → runImmLoop f us ys x = .error er) ∧
    ∀ rs, runLoop f us ys x = .ok rs → ∃ ps, runImmLoop f us ys x = .ok ps ∧ ps.length = rs.length ∧
      (∀ p, ps[0]? = some p → p = x) ∧
      ∀ (k : ℕ) (r p : X), rs[k]? = some r → ps[k + 1]? = some p →
        ∃ u u', us[k]? = some u ∧ us[k + 1]? = some u' ∧ predictTo f r u (f.istamp u') = .ok p := by
  intro us
  induction us with
  | nil =>
    intro ys x
    refine ⟨fun er h => (by cases h), fun rs h => ?_⟩
    cases h
    exact ⟨[], rfl, rfl, by simp, by simp⟩
  | cons u us ih =>
    intro ys x
    cases us with
    | nil =>
      refine ⟨fun er h => (by cases h), fun rs h => ?_⟩
      cases h
      exact ⟨[], rfl, rfl, by simp, by simp⟩
    | cons u' us =>
      have e1 : runLoop f (u :: u' :: us) ys x = (fuseWhile f u (f.istamp u') ys x >>= fun p =>
        predictTo f p.1 u (f.istamp u') >>= fun x2 => runLoop f (u' :: us) p.2 x2 >>= fun rs => .ok (p.1 :: rs)) := rfl
      have e2 : runImmLoop f (u :: u' :: us) ys x = (fuseWhile f u (f.istamp u') ys x >>= fun p =>
        predictTo f p.1 u (f.istamp u') >>= fun x2 => runImmLoop f (u' :: us) p.2 x2 >>= fun rs => .ok (x :: rs)) := rfl
      rw [e1, e2]
      cases h1 : fuseWhile f u (f.istamp u') ys x with
      | error er => exact ⟨fun er' h => h, fun rs h => by cases h⟩
      | ok q =>
        obtain ⟨x1, ys1⟩ := q
        simp only [bind, Except.bind]
        cases h2 : predictTo f x1 u (f.istamp u') with
        | error er => exact ⟨fun er' h => h, fun rs h => by cases h⟩
        | ok x2 =>
          obtain ⟨i1, i2⟩ := ih ys1 x2
          simp only
          cases h3 : runLoop f (u' :: us) ys1 x2 with
          | error er =>
            rw [i1 er h3]
            exact ⟨fun er' h => h, fun rs h => by cases h⟩
          | ok rs1 =>
            obtain ⟨ps1, j1, j2, j3, j4⟩ := i2 rs1 h3
            rw [j1]
            refine ⟨fun er' h => (by cases h), fun rs h => ?_⟩
            cases h
            refine ⟨x :: ps1, rfl, by simp [j2], by simp [eq_comm], fun k r p hr hp => ?_⟩
            cases k with
            | zero =>
              simp only [List.getElem?_cons_zero, Option.some.injEq] at hr
              subst hr
              have hp : ps1[0]? = some p := by simpa using hp
              rw [j3 p hp]
              exact ⟨u, u', rfl, rfl, h2⟩
            | succ k =>
              have hr : rs1[k]? = some r := by simpa using hr
              have hp : ps1[k + 1]? = some p := by simpa using hp
              obtain ⟨v, v', k1, k2, k3⟩ := j4 k r p hr hp
              exact ⟨v, v', by simpa using k1, by simpa using k2, k3⟩

/-- **C96, what is recorded.** For any filter and any data, `run_imm_filter`'s loop raises the exceptions of `run_filter`'s loop, and its
records are `x0` followed by the predictions of `run_filter`'s estimates to the next input: record `k + 1` is the estimate `k` of
`run_filter` predicted from the retained input `k` to the stamp of input `k + 1`. -/
theorem C96_records {X I Y : Type} (f : FilterApi X I Y) (x0 : X) (t0 : ℝ) (hx : f.xstamp x0 = some t0) (ins : List I) (ys : List Y) :
    (∀ er, runFilter f x0 ins ys = .error er → runImm f x0 ins ys = .error er) ∧
    ∀ rs, runFilter f x0 ins ys = .ok rs → ∃ ps, runImm f x0 ins ys = .ok ps ∧ ps.length = rs.length ∧
      (∀ p, ps[0]? = some p → p = x0) ∧
      ∀ (k : ℕ) (r p : X), rs[k]? = some r → ps[k + 1]? = some p →
        ∃ u u', (dropBefore f.istamp t0 (sortByStamp f.istamp ins))[k]? = some u ∧
          (dropBefore f.istamp t0 (sortByStamp f.istamp ins))[k + 1]? = some u' ∧
          predictTo f r u (f.istamp u') = .ok p := by
  unfold runFilter runImm
  rw [hx]
  exact loops f _ _ _

/-! ### The order of the models -/

/-- If the first computation succeeds, so does the second, with a related result. -/
def ExLe {α β : Type} (R : α → β → Prop) (a : Except Err α) (b : Except Err β) : Prop := ∀ x, a = .ok x → ∃ y, b = .ok y ∧ R x y

theorem ExLe.bind {α β γ δ : Type} {R : α → β → Prop} {S : γ → δ → Prop} {a : Except Err α} {b : Except Err β}
    {f : α → Except Err γ} {g : β → Except Err δ} (h : ExLe R a b) (hf : ∀ x y, R x y → ExLe S (f x) (g y)) :
    ExLe S (a >>= f) (b >>= g) := by
  intro z hz
  obtain ⟨x, rfl, hx⟩ := bind_ok hz
  obtain ⟨y, rfl, hxy⟩ := h x rfl
  exact hf x y hxy z hx

section le

variable {X X' I Y : Type} {f : FilterApi X I Y} {g : FilterApi X' I Y} {Rx : X → X' → Prop} {Ry : Y → Prop}

/-- Every successful call of the one filter is matched by a successful call of the other. -/
structure FilterLe (f : FilterApi X I Y) (g : FilterApi X' I Y) (Rx : X → X' → Prop) (Ry : Y → Prop) : Prop where
  xstamp : ∀ x x', Rx x x' → g.xstamp x' = f.xstamp x
  istamp : g.istamp = f.istamp
  ystamp : g.ystamp = f.ystamp
  predict : ∀ x x' u dt, Rx x x' → ExLe Rx (f.predict x u dt) (g.predict x' u dt)
  correct : ∀ x x' u y, Rx x x' → Ry y → ExLe Rx (f.correct x y u) (g.correct x' y u)

theorem FilterLe.fuseWhile (h : FilterLe f g Rx Ry) (u : I) (tn : ℝ) : ∀ (ys : List Y) (x : X) (x' : X'), (∀ y ∈ ys, Ry y) → Rx x x' →
    ExLe (fun p q => Rx p.1 q.1 ∧ p.2 = q.2 ∧ ∀ y ∈ p.2, Ry y) (fuseWhile f u tn ys x) (fuseWhile g u tn ys x') := by
  intro ys
  induction ys with
  | nil =>
    intro x x' _ hx z hz
    cases hz
    exact ⟨_, rfl, hx, rfl, by simp⟩
  | cons y ys ih =>
    intro x x' hy hx
    by_cases hl : f.ystamp y < tn
    · have e1 : Verif.fuseWhile f u tn (y :: ys) x = (f.correct x y u >>= fun x1 => Verif.fuseWhile f u tn ys x1) := if_pos hl
      have e2 : Verif.fuseWhile g u tn (y :: ys) x' = (g.correct x' y u >>= fun x1 => Verif.fuseWhile g u tn ys x1) :=
        if_pos (by rw [h.ystamp]; exact hl)
      rw [e1, e2]
      exact (h.correct _ _ _ _ hx (hy y (by simp))).bind fun a b hab => ih a b (fun z hz => hy z (by simp [hz])) hab
    · have e1 : Verif.fuseWhile f u tn (y :: ys) x = .ok (x, y :: ys) := if_neg hl
      have e2 : Verif.fuseWhile g u tn (y :: ys) x' = .ok (x', y :: ys) := if_neg (by rw [h.ystamp]; exact hl)
      rw [e1, e2]
      intro z hz
      cases hz
      exact ⟨_, rfl, hx, rfl, hy⟩

theorem FilterLe.predictTo (h : FilterLe f g Rx Ry) (u : I) (tn : ℝ) {x : X} {x' : X'} (hx : Rx x x') :
    ExLe Rx (predictTo f x u tn) (predictTo g x' u tn) := by
  unfold Verif.predictTo
  rw [h.xstamp _ _ hx]
  cases f.xstamp x with
  | none => intro z hz; cases hz
  | some t => exact h.predict _ _ _ _ hx

theorem FilterLe.runImmLoop (h : FilterLe f g Rx Ry) : ∀ (us : List I) (ys : List Y) (x : X) (x' : X'), (∀ y ∈ ys, Ry y) → Rx x x' →
    ExLe (List.Forall₂ Rx) (runImmLoop f us ys x) (runImmLoop g us ys x') := by
  intro us
  induction us with
  | nil => intro ys x x' _ _ z hz; cases hz; exact ⟨_, rfl, .nil⟩
  | cons u us ih =>
    intro ys x x' hy hx
    cases us with
    | nil => intro z hz; cases hz; exact ⟨_, rfl, .nil⟩
    | cons v vs =>
      show ExLe _ (Verif.fuseWhile f u (f.istamp v) ys x >>= fun p => Verif.predictTo f p.1 u (f.istamp v) >>= fun x2 =>
          Verif.runImmLoop f (v :: vs) p.2 x2 >>= fun rs => .ok (x :: rs))
        (Verif.fuseWhile g u (g.istamp v) ys x' >>= fun p => Verif.predictTo g p.1 u (g.istamp v) >>= fun x2 =>
          Verif.runImmLoop g (v :: vs) p.2 x2 >>= fun rs => .ok (x' :: rs))
      rw [h.istamp]
      refine (h.fuseWhile u _ ys x x' hy hx).bind fun p q hpq => ?_
      refine (h.predictTo u _ hpq.1).bind fun a b hab => ?_
      rw [← hpq.2.1]
      refine (ih p.2 a b hpq.2.2 hab).bind fun rs rs' hrs => ?_
      intro z hz
      cases hz
      exact ⟨_, rfl, .cons hx hrs⟩

theorem FilterLe.runLoop (h : FilterLe f g Rx Ry) : ∀ (us : List I) (ys : List Y) (x : X) (x' : X'), (∀ y ∈ ys, Ry y) → Rx x x' →
    ExLe (List.Forall₂ Rx) (runLoop f us ys x) (runLoop g us ys x') := by
  intro us
  induction us with
  | nil => intro ys x x' _ _ z hz; cases hz; exact ⟨_, rfl, .nil⟩
  | cons u us ih =>
    intro ys x x' hy hx
    cases us with
    | nil => intro z hz; cases hz; exact ⟨_, rfl, .nil⟩
    | cons v vs =>
      show ExLe _ (Verif.fuseWhile f u (f.istamp v) ys x >>= fun p => Verif.predictTo f p.1 u (f.istamp v) >>= fun x2 =>
          Verif.runLoop f (v :: vs) p.2 x2 >>= fun rs => .ok (p.1 :: rs))
        (Verif.fuseWhile g u (g.istamp v) ys x' >>= fun p => Verif.predictTo g p.1 u (g.istamp v) >>= fun x2 =>
          Verif.runLoop g (v :: vs) p.2 x2 >>= fun rs => .ok (p.1 :: rs))
      rw [h.istamp]
      refine (h.fuseWhile u _ ys x x' hy hx).bind fun p q hpq => ?_
      refine (h.predictTo u _ hpq.1).bind fun a b hab => ?_
      rw [← hpq.2.1]
      refine (ih p.2 a b hpq.2.2 hab).bind fun rs rs' hrs => ?_
      intro z hz
      cases hz
      exact ⟨_, rfl, .cons hpq.1 hrs⟩

theorem dropBefore_mem {α : Type} {s : α → ℝ} {t : ℝ} {l : List α} {a : α} (h : a ∈ dropBefore s t l) : a ∈ l := by
  unfold dropBefore at h
  split at h
  · exact (List.dropWhile_sublist _).subset h
  · exact h

theorem FilterLe.runImm (h : FilterLe f g Rx Ry) {x0 : X} {x0' : X'} (hx : Rx x0 x0') (ins : List I) (ys : List Y) (hy : ∀ y ∈ ys, Ry y) :
    ExLe (List.Forall₂ Rx) (runImm f x0 ins ys) (runImm g x0' ins ys) := by
  unfold Verif.runImm
  rw [h.xstamp _ _ hx, h.istamp, h.ystamp]
  cases f.xstamp x0 with
  | none => intro z hz; cases hz
  | some t => exact h.runImmLoop _ _ _ _ (fun y hm => hy y ((List.mergeSort_perm ys _).mem_iff.mp (dropBefore_mem hm))) hx

theorem FilterLe.runFilter (h : FilterLe f g Rx Ry) {x0 : X} {x0' : X'} (hx : Rx x0 x0') (ins : List I) (ys : List Y)
    (hy : ∀ y ∈ ys, Ry y) : ExLe (List.Forall₂ Rx) (runFilter f x0 ins ys) (runFilter g x0' ins ys) := by
  unfold Verif.runFilter
  rw [h.xstamp _ _ hx, h.istamp, h.ystamp]
  cases f.xstamp x0 with
  | none => intro z hz; cases hz
  | some t => exact h.runLoop _ _ _ _ (fun y hm => hy y ((List.mergeSort_perm ys _).mem_iff.mp (dropBefore_mem hm))) hx

end le

/-- The same filter with its models listed in another order. -/
def Imm.permute (f : Imm V U n M) (σ : Equiv.Perm (Fin M)) : Imm V U n M := ⟨fun i => f.kfs (σ i), f.ops, f.trans.submatrix σ σ⟩

/-- The same mixture in another order. -/
def Mixture.permute (x : Mixture V n M) (σ : Equiv.Perm (Fin M)) : Mixture V n M := ⟨fun i => x.states (σ i), fun i => x.probs (σ i)⟩

theorem predProb_permute (T : Mat M M) (p : Fin M → ℝ) (σ : Equiv.Perm (Fin M)) (j : Fin M) :
    predProb (T.submatrix σ σ) (fun i => p (σ i)) j = predProb T p (σ j) := by
  unfold predProb
  simp only [submatrix_apply]
  exact Equiv.sum_comp σ fun i => T i (σ j) * p i

theorem renormalize_permute (mu : Fin M → ℝ) (σ : Equiv.Perm (Fin M)) (i : Fin M) :
    renormalize (fun i => mu (σ i)) i = renormalize mu (σ i) := by
  unfold renormalize
  have e : (∀ i, |mu (σ i)| ≤ 1 / 10 ^ 8) ↔ ∀ i, |mu i| ≤ 1 / 10 ^ 8 := (σ.surjective.forall (p := fun i => |mu i| ≤ 1 / 10 ^ 8)).symm
  by_cases h : ∀ i, |mu i| ≤ 1 / 10 ^ 8
  · rw [if_pos h, if_pos (e.mpr h)]
  · rw [if_neg h, if_neg (fun hc => h (e.mp hc))]
    rw [Equiv.sum_comp σ mu]

theorem mixing_permute (hM : M ≠ 0) {w : Fin M → ℝ} (hw : ∑ i, w i = 1) (xs : Fin M → SWC (Vec n) n)
    (hs : ∀ i j, (xs i).state.stamp = (xs j).state.stamp) (σ : Equiv.Perm (Fin M)) :
    gaussianMixing (vecOps n) (fun i => w (σ i)) (fun i => xs (σ i)) = gaussianMixing (vecOps n) w xs := by
  have hw' : ∑ i, w (σ i) = 1 := by rw [Equiv.sum_comp σ w]; exact hw
  obtain ⟨r, i, h1, h2, h3, h4, -⟩ := C20_mixing_vector hM w hw xs
  obtain ⟨r', i', h1', h2', h3', h4', -⟩ := C20_mixing_vector hM (fun i => w (σ i)) hw' (fun i => xs (σ i))
  rw [h1, h1']
  have hv : r'.state.value = r.state.value := by
    rw [h2, h2', Equiv.sum_comp σ fun i => w i • (xs i).state.value]
  have hc : r'.cov = r.cov := by
    rw [h3, h3', hv]
    exact Equiv.sum_comp σ fun i => w i • ((xs i).cov + vecMulVec ((xs i).state.value - r.state.value)
      ((xs i).state.value - r.state.value))
  have ht : r'.state.stamp = r.state.stamp := by rw [h4, h4']; exact hs _ _
  obtain ⟨⟨v, s⟩, P⟩ := r
  obtain ⟨⟨v', s'⟩, P'⟩ := r'
  simp only at hv hc ht
  rw [hv, hc, ht]

/-- All the modes have the same stamp. -/
def InStep (x : Mixture V n M) : Prop := ∃ t, ∀ i, (x.states i).state.stamp = some t

theorem predict_permute (f : Imm V U n M) (σ : Equiv.Perm (Fin M)) {x z : Mixture V n M} (hx : InStep x) {u : Inp U} {dt : ℝ}
    (h : f.predict x (some u) (some dt) = .ok z) :
    (f.permute σ).predict (x.permute σ) (some u) (some dt) = .ok (z.permute σ) ∧ InStep z := by
  unfold Imm.predict at h ⊢
  obtain ⟨r, hr, h⟩ := bind_ok h
  cases h
  have hk := seqFin_ok hr
  refine ⟨?_, ?_⟩
  · have e : seqFin M (fun i => ((f.permute σ).kfs i).predict ((x.permute σ).states i) (some u) (some dt) none)
        = .ok fun i => r (σ i) := seqFin_of fun i => hk (σ i)
    rw [e]
    rfl
  · obtain ⟨t, ht⟩ := hx
    refine ⟨t + dt, fun i => ?_⟩
    obtain ⟨t1, d, hp, hd, ⟨h1, _⟩ | ⟨u', _, h2⟩⟩ := predict_cases _ _ _ _ _ _ (hk i)
    · cases h1
    · obtain ⟨_, h3, h4⟩ := predictTime_ok hp
      simp only
      rw [h2]
      rcases h3 with h3 | ⟨h3, _⟩
      · rcases h4 with h4 | ⟨h4, _⟩
        · rw [ht i] at h3; cases h3; cases h4; rfl
        · cases h4
      · rw [ht i] at h3; cases h3

theorem interaction_permute (hM : M ≠ 0) (f : Imm (Vec n) U n M) (hops : f.ops = vecOps n) (σ : Equiv.Perm (Fin M)) {x z : Mixture (Vec n) n M}
    (hx : InStep x) (h : f.interaction x = .ok z) :
    (f.permute σ).interaction (x.permute σ) = .ok (z.permute σ) ∧ InStep z := by
  unfold Imm.interaction at h ⊢
  by_cases hc : ∃ j, predProb f.trans x.probs j = 0
  · rw [if_pos hc] at h; cases h
  · rw [if_neg hc] at h
    obtain ⟨t, ht⟩ := hx
    have hw : ∀ j, ∑ i, mixWeight f.trans x.probs i j = 1 := by
      intro j
      unfold mixWeight
      simp only [mul_assoc, ← Finset.mul_sum]
      exact one_div_mul_cancel fun h0 => hc ⟨j, h0⟩
    rw [if_neg (by
      rintro ⟨j, hj⟩
      exact hc ⟨σ j, by rw [← predProb_permute]; exact hj⟩)]
    obtain ⟨r, hr, h⟩ := bind_ok h
    cases h
    have hk := seqFin_ok hr
    rw [hops] at hk
    refine ⟨?_, t, fun j => ?_⟩
    · rw [seqFin_of (g := fun j => r (σ j))]
      · rfl
      · intro j
        rw [← hk (σ j), ← mixing_permute hM (hw (σ j)) x.states (fun i j => (ht i).trans (ht j).symm) σ, ← hops]
        show gaussianMixing f.ops (fun i => mixWeight (f.trans.submatrix σ σ) (fun i => x.probs (σ i)) i j) _ = _
        congr 1
        funext i
        unfold mixWeight
        rw [predProb_permute]
        rfl
    · obtain ⟨r', i, h1, -, -, h4, -⟩ := C20_mixing_vector hM _ (hw j) x.states
      simp only
      rw [hk j] at h1
      cases h1
      rw [h4]
      exact ht i

theorem correct_permute (f : Imm V U n M) (σ : Equiv.Perm (Fin M)) {x z : Mixture V n M} (hx : InStep x) {y : Meas V n}
    (hy : ∃ s, y.stamp = some s) {u : Inp U} (h : f.correct x y (some u) = .ok z) :
    (f.permute σ).correct (x.permute σ) y (some u) = .ok (z.permute σ) ∧ InStep z := by
  unfold Imm.correct at h ⊢
  obtain ⟨r, hr, h⟩ := bind_ok h
  cases h
  have hk := seqFin_ok hr
  refine ⟨?_, ?_⟩
  · have e : seqFin M (fun i => correctLik ((f.permute σ).kfs i) ((x.permute σ).states i) y (some u))
        = .ok fun i => r (σ i) := seqFin_of fun i => hk (σ i)
    rw [e]
    show Except.ok _ = Except.ok _
    congr 1
    unfold Mixture.permute
    congr 1
    funext i
    simp only
    rw [← renormalize_permute]
    congr 1
    funext j
    rw [← predProb_permute]
    rfl
  · obtain ⟨t, ht⟩ := hx
    obtain ⟨s, hs⟩ := hy
    obtain ⟨q, hq⟩ : ∃ q, stampAfter (some t) (some s) (some u).isSome = some q := by
      show ∃ q, (if s - t > 1 / 10 ^ 11 then some s else some t) = some q
      split <;> exact ⟨_, rfl⟩
    refine ⟨q, fun i => ?_⟩
    have hi := hk i
    unfold correctLik at hi
    obtain ⟨⟨x', d⟩, hd, hi⟩ := bind_ok hi
    have hc : (f.kfs i).correct (x.states i) y (some u) none none = .ok x' := by
      unfold EkfEnv.correct
      rw [hd]; rfl
    have h1 := C06_stamp _ _ _ _ _ _ x' hc
    rw [ht i, hs] at h1
    cases d with
    | none => cases hi
    | some d =>
      have e : (x', gaussPdf d.z d.S) = r i := Except.ok.inj hi
      show (r i).1.state.stamp = some q
      rw [← e]
      exact h1.trans hq

/-- **C96, order of the models.** On vector states: listing the models of an IMM in another order (the rows and columns of the transition
matrix and the initial mixture likewise) lists the modes of every recorded mixture in that order and changes nothing else. -/
theorem C96_order (f : Imm (Vec n) U n (M + 1)) (hops : f.ops = vecOps n) (σ : Equiv.Perm (Fin (M + 1)))
    (x0 : Mixture (Vec n) n (M + 1)) (hx : InStep x0) (ins : List (StInp U)) (ys : List (StMeas (Vec n) n))
    (rs : List (Mixture (Vec n) n (M + 1))) :
    runImm (immApi f) x0 ins ys = .ok rs ↔ runImm (immApi (f.permute σ)) (x0.permute σ) ins ys = .ok (rs.map fun r => r.permute σ) := by
  have key : ∀ (f : Imm (Vec n) U n (M + 1)) (hops : f.ops = vecOps n) (σ : Equiv.Perm (Fin (M + 1))) (x0 : Mixture (Vec n) n (M + 1))
      (hx : InStep x0) (rs : List (Mixture (Vec n) n (M + 1))), runImm (immApi f) x0 ins ys = .ok rs →
      runImm (immApi (f.permute σ)) (x0.permute σ) ins ys = .ok (rs.map fun r => r.permute σ) := by
    intro f hops σ x0 hx rs h
    have sim : FilterLe (immApi f) (immApi (f.permute σ)) (fun x x' => x' = x.permute σ ∧ InStep x) (fun _ => True) := by
      refine ⟨?_, rfl, rfl, ?_, ?_⟩
      · rintro x x' ⟨rfl, t, ht⟩
        show (x.states (σ 0)).state.stamp = (x.states 0).state.stamp
        rw [ht, ht]
      · rintro x x' u dt ⟨rfl, hx⟩ z hz
        obtain ⟨h1, h2⟩ := predict_permute f σ hx hz
        exact ⟨_, h1, rfl, h2⟩
      · rintro x x' u y ⟨rfl, hx⟩ - z hz
        have hz : (f.interaction x >>= fun w => f.correct w y.meas (some ⟨u.value, some u.stamp⟩)) = .ok z := hz
        obtain ⟨w, hw, hz⟩ := bind_ok hz
        obtain ⟨h1, h2⟩ := interaction_permute (Nat.succ_ne_zero M) f hops σ hx hw
        obtain ⟨h3, h4⟩ := correct_permute f σ h2 ⟨_, y.hstamp⟩ hz
        refine ⟨_, ?_, rfl, h4⟩
        show ((f.permute σ).interaction (x.permute σ) >>= fun w => (f.permute σ).correct w y.meas (some ⟨u.value, some u.stamp⟩)) = _
        rw [h1]
        exact h3
    obtain ⟨qs, hq, hf⟩ := sim.runImm (x0 := x0) (x0' := x0.permute σ) ⟨rfl, hx⟩ ins ys (fun _ _ => trivial) rs h
    rw [hq]
    congr 1
    clear hq h
    induction hf with
    | nil => rfl
    | cons hab _ ih => rw [List.map_cons, hab.1, ih]
  refine ⟨key f hops σ x0 hx rs, fun h => ?_⟩
  have h2 := key (f.permute σ) hops σ.symm (x0.permute σ) (by
    obtain ⟨t, ht⟩ := hx
    exact ⟨t, fun i => ht _⟩) _ h
  have e1 : (f.permute σ).permute σ.symm = f := by
    obtain ⟨k, o, T⟩ := f
    have hT : (T.submatrix σ σ).submatrix σ.symm σ.symm = T := by ext i j; simp
    unfold Imm.permute
    simp only [hT, Equiv.apply_symm_apply]
  have e2 : ∀ x : Mixture (Vec n) n (M + 1), (x.permute σ).permute σ.symm = x := by
    intro x
    unfold Mixture.permute
    simp
  rw [e1, e2, List.map_map] at h2
  rw [h2]
  congr 1
  refine (List.map_congr_left fun r _ => e2 r).trans (List.map_id _)

/-! ### The Gaussian sum filter -/

theorem gsfPredict_spec (e : EkfEnv V U n) {x z : Mixture V n M} (hx : InStep x) {u : Inp U} {dt : ℝ}
    (h : gsfPredict e x (some u) (some dt) = .ok z) :
    (∀ i, e.predict (x.states i) (some u) (some dt) none = .ok (z.states i)) ∧ z.probs = x.probs ∧ InStep z := by
  unfold gsfPredict at h
  obtain ⟨r, hr, h⟩ := bind_ok h
  cases h
  have hk := seqFin_ok hr
  refine ⟨hk, rfl, ?_⟩
  obtain ⟨t, ht⟩ := hx
  refine ⟨t + dt, fun i => ?_⟩
  obtain ⟨t1, d, hp, hd, ⟨h1, _⟩ | ⟨u', _, h2⟩⟩ := predict_cases _ _ _ _ _ _ (hk i)
  · cases h1
  · obtain ⟨_, h3, h4⟩ := predictTime_ok hp
    simp only
    rw [h2]
    rcases h3 with h3 | ⟨h3, _⟩
    · rcases h4 with h4 | ⟨h4, _⟩
      · rw [ht i] at h3; cases h3; cases h4; rfl
      · cases h4
    · rw [ht i] at h3; cases h3

theorem gsfCorrect_spec (e : EkfEnv V U n) {x z : Mixture V n M} (hx : InStep x) {y : Meas V n}
    (hy : ∃ s, y.stamp = some s) {u : Inp U} (h : gsfCorrect e x y (some u) = .ok z) :
    ∃ r : Fin M → SWC V n × ℝ, (∀ i, gsfCorrectLik e (x.states i) y (some u) = .ok (r i)) ∧
      z = ⟨fun i => (r i).1, renormalize fun i => x.probs i * (r i).2⟩ ∧
      (∀ i, e.correct (x.states i) y (some u) none none = .ok (z.states i)) ∧ InStep z := by
  unfold gsfCorrect at h
  obtain ⟨r, hr, h⟩ := bind_ok h
  cases h
  have hk := seqFin_ok hr
  have hc : ∀ i, e.correct (x.states i) y (some u) none none = .ok (r i).1 := by
    intro i
    have hi := hk i
    unfold gsfCorrectLik at hi
    obtain ⟨⟨x', d⟩, hd, hi⟩ := bind_ok hi
    unfold EkfEnv.correct
    rw [hd]
    cases d with
    | none => cases hi
    | some d =>
      simp only at hi
      split at hi
      · rw [← Except.ok.inj hi]; rfl
      · cases hi
  refine ⟨r, hk, rfl, hc, ?_⟩
  obtain ⟨t, ht⟩ := hx
  obtain ⟨s, hs⟩ := hy
  obtain ⟨q, hq⟩ : ∃ q, stampAfter (some t) (some s) (some u).isSome = some q := by
    show ∃ q, (if s - t > 1 / 10 ^ 11 then some s else some t) = some q
    split <;> exact ⟨_, rfl⟩
  refine ⟨q, fun i => ?_⟩
  have h1 := C06_stamp _ _ _ _ _ _ _ (hc i)
  rw [ht i, hs] at h1
  exact h1.trans hq

/-- **C96, Gaussian sum filter.** Whenever `run_gsf_filter` returns, its components are those of separate runs of `run_filter` from the
initial components: they never influence one another, only the weights. -/
theorem C96_gsf_components (e : EkfEnv V U n) (x0 : Mixture V n (M + 1)) (hx : InStep x0) (ins : List (StInp U)) (ys : List (StMeas V n))
    (rs : List (Mixture V n (M + 1))) (h : runFilter (gsfApi e) x0 ins ys = .ok rs) (i : Fin (M + 1)) :
    runFilter (ekfApi e) (x0.states i) ins ys = .ok (rs.map fun r => r.states i) := by
  have sim : FilterLe (gsfApi (M := M) e) (ekfApi e) (fun x x' => x' = x.states i ∧ InStep x) (fun _ => True) := by
    refine ⟨?_, rfl, rfl, ?_, ?_⟩
    · rintro x x' ⟨rfl, t, ht⟩
      show (x.states i).state.stamp = (x.states 0).state.stamp
      rw [ht, ht]
    · rintro x x' u dt ⟨rfl, hx⟩ z hz
      obtain ⟨h1, -, h2⟩ := gsfPredict_spec e hx hz
      exact ⟨_, h1 i, rfl, h2⟩
    · rintro x x' u y ⟨rfl, hx⟩ - z hz
      obtain ⟨r, -, -, h1, h2⟩ := gsfCorrect_spec e hx ⟨_, y.hstamp⟩ hz
      exact ⟨_, h1 i, rfl, h2⟩
  obtain ⟨qs, hq, hf⟩ := sim.runFilter (x0 := x0) (x0' := x0.states i) ⟨rfl, hx⟩ ins ys (fun _ _ => trivial) rs h
  rw [hq]
  congr 1
  clear hq h
  induction hf with
  | nil => rfl
  | cons hab _ ih => rw [List.map_cons, hab.1, ih]

/-- **C96, Gaussian sum filter, order.** The order of the components does not matter (any state type). -/
theorem C96_gsf_order (e : EkfEnv V U n) (σ : Equiv.Perm (Fin (M + 1))) (x0 : Mixture V n (M + 1)) (hx : InStep x0)
    (ins : List (StInp U)) (ys : List (StMeas V n)) (rs : List (Mixture V n (M + 1))) :
    runFilter (gsfApi e) x0 ins ys = .ok rs ↔ runFilter (gsfApi e) (x0.permute σ) ins ys = .ok (rs.map fun r => r.permute σ) := by
  have key : ∀ (σ : Equiv.Perm (Fin (M + 1))) (x0 : Mixture V n (M + 1)) (hx : InStep x0) (rs : List (Mixture V n (M + 1))),
      runFilter (gsfApi e) x0 ins ys = .ok rs → runFilter (gsfApi e) (x0.permute σ) ins ys = .ok (rs.map fun r => r.permute σ) := by
    intro σ x0 hx rs h
    have sim : FilterLe (gsfApi (M := M) e) (gsfApi e) (fun x x' => x' = x.permute σ ∧ InStep x) (fun _ => True) := by
      refine ⟨?_, rfl, rfl, ?_, ?_⟩
      · rintro x x' ⟨rfl, t, ht⟩
        show (x.states (σ 0)).state.stamp = (x.states 0).state.stamp
        rw [ht, ht]
      · rintro x x' u dt ⟨rfl, hx⟩ z hz
        obtain ⟨h1, h2, h3⟩ := gsfPredict_spec e hx hz
        refine ⟨z.permute σ, ?_, rfl, h3⟩
        show gsfPredict e (x.permute σ) _ _ = _
        unfold gsfPredict
        have e1 : seqFin (M + 1) (fun i => e.predict ((x.permute σ).states i) (some ⟨u.value, some u.stamp⟩) (some dt) none)
          = .ok fun i => z.states (σ i) := seqFin_of fun i => h1 (σ i)
        rw [e1]
        unfold Mixture.permute
        rw [h2]
        rfl
      · rintro x x' u y ⟨rfl, hx⟩ - z hz
        obtain ⟨r, h1, h2, -, h3⟩ := gsfCorrect_spec e hx ⟨_, y.hstamp⟩ hz
        refine ⟨z.permute σ, ?_, rfl, h3⟩
        show gsfCorrect e (x.permute σ) _ _ = _
        unfold gsfCorrect
        have e1 : seqFin (M + 1) (fun i => gsfCorrectLik e ((x.permute σ).states i) y.meas (some ⟨u.value, some u.stamp⟩))
          = .ok fun i => r (σ i) := seqFin_of fun i => h1 (σ i)
        rw [e1, h2]
        show Except.ok _ = Except.ok _
        congr 1
        unfold Mixture.permute
        congr 1
        funext i
        exact renormalize_permute (fun i => x.probs i * (r i).2) σ i
    obtain ⟨qs, hq, hf⟩ := sim.runFilter (x0 := x0) (x0' := x0.permute σ) ⟨rfl, hx⟩ ins ys (fun _ _ => trivial) rs h
    rw [hq]
    congr 1
    clear hq h
    induction hf with
    | nil => rfl
    | cons hab _ ih => rw [List.map_cons, hab.1, ih]
  refine ⟨key σ x0 hx rs, fun h => ?_⟩
  have h2 := key σ.symm (x0.permute σ) (by
    obtain ⟨t, ht⟩ := hx
    exact ⟨t, fun i => ht _⟩) _ h
  have e2 : ∀ x : Mixture V n (M + 1), (x.permute σ).permute σ.symm = x := by
    intro x
    unfold Mixture.permute
    simp
  rw [e2, List.map_map] at h2
  rw [h2]
  congr 1
  exact (List.map_congr_left fun r _ => e2 r).trans (List.map_id _)

/-! ### Cases -/

/-- Two copies of a scalar filter, either mode staying with probability 9/10. -/
example : ∃ (f : Imm (Vec 1) ℝ 1 2) (e : EkfEnv (Vec 1) ℝ 1), (∀ i, f.kfs i = e) ∧ f.ops.AtZero ∧ (∀ i j, 0 ≤ f.trans i j) ∧
    (∀ j, ∃ i, 0 < f.trans i j) ∧ f.ops = vecOps 1 ∧ InStep (⟨fun _ => est1 0, fun _ => 1 / 2⟩ : Mixture (Vec 1) 1 2) := by
  refine ⟨⟨fun _ => env1, vecOps 1, !![9 / 10, 1 / 10; 1 / 10, 9 / 10]⟩, env1, fun _ => rfl, ⟨fun v => sub_self v, fun v => add_zero v,
    fun _ => rfl, fun _ => rfl⟩, fun i j => ?_, fun j => ⟨j, ?_⟩, rfl, 0, fun i => rfl⟩
  · fin_cases i <;> fin_cases j <;> norm_num
  · fin_cases j <;> norm_num

/-- A Gaussian sum filter with two components, a measurement at time 1/2 and inputs at 0 and 1: the run returns one mixture. -/
example : ∃ rs, runFilter (gsfApi (M := 1) env1) ⟨fun _ => est1 0, fun _ => 1 / 2⟩ [⟨0, 0⟩, ⟨0, 1⟩]
    [⟨meas1 (1 / 2), 1 / 2, rfl⟩] = .ok rs ∧ rs.length = 1 := by
  have hP : (est1 0).cov.PosSemidef := Matrix.PosSemidef.one
  have hQ : ∀ x u dt, 0 ≤ dt → (env1.proc.covariance x u dt).PosSemidef := fun x u dt h => Matrix.PosSemidef.one.smul h
  have ha : env1.advance (est1 0) (meas1 (1 / 2)) (some ⟨0, some 0⟩)
      = .ok (env1.propagate (est1 0) ⟨0, some 0⟩ 0 (1 / 2 - 0) (est1 0).state) := by
    show (if (1 / 2 - 0 : ℝ) < -(10 ^ 10 : ℝ) then (Except.error Err.runtimeError : Except Err (SWC (Vec 1) 1)) else
      if (1 / 2 - 0 : ℝ) > (1 / 10 ^ 11 : ℝ) then env1.predict (est1 0) (some ⟨0, some 0⟩) (some (1 / 2 - 0)) none else .ok (est1 0)) = _
    rw [if_neg (by norm_num), if_pos (by norm_num), predict_some_some env1 (est1 0) _ 0 _ none rfl (by norm_num)]
    rfl
  set w := env1.propagate (est1 0) ⟨0, some 0⟩ 0 (1 / 2 - 0) (est1 0).state
  have hw := advance_psd env1 hQ _ _ _ w hP ha
  obtain ⟨z, b, hz⟩ := fuse_details (e := env1) (rej := (none : Option Bool).getD env1.rejectOutliers) (x := w) (y := meas1 (1 / 2)) hw
    (one_pd 1) rfl
  have hl : ∃ l, gsfCorrectLik env1 (est1 0) (meas1 (1 / 2)) (some ⟨0, some 0⟩) = .ok (z, l) := by
    unfold gsfCorrectLik EkfEnv.correctD
    rw [ha]
    show ∃ l, (env1.fuse w (meas1 (1 / 2)) none ((none : Option Bool).getD env1.rejectOutliers) >>= _) = _
    rw [hz]
    generalize hd : (⟨(meas1 (1 / 2)).m, _, innovCov w (meas1 (1 / 2)) none, b⟩ : CorrectDetails) = d
    have hm : d.m = 1 := by rw [← hd]; rfl
    refine ⟨gaussPdf d.z d.S, ?_⟩
    show (if d.m = 1 then (Except.ok (z, gaussPdf d.z d.S) : Except Err (SWC (Vec 1) 1 × ℝ)) else .error .valueError) = _
    rw [if_pos hm]
  obtain ⟨l, hl⟩ := hl
  have hzs : z.state.stamp = some (0 + (1 / 2 - 0)) := by
    obtain h | ⟨yc, -, -, h⟩ := fuse_cases env1 w _ none _ z _ hz
    · rw [h]; rfl
    · rw [h]; rfl
  have hc : gsfCorrect env1 ⟨fun _ : Fin 2 => est1 0, fun _ => 1 / 2⟩ (meas1 (1 / 2)) (some ⟨0, some 0⟩)
      = .ok ⟨fun _ => z, renormalize fun _ => 1 / 2 * l⟩ := by
    unfold gsfCorrect
    rw [seqFin_of (g := fun _ => (z, l)) fun _ => hl]
    rfl
  have hp : gsfPredict env1 ⟨fun _ : Fin 2 => z, renormalize fun _ => 1 / 2 * l⟩ (some ⟨0, some 0⟩) (some (1 - (0 + (1 / 2 - 0))))
      = .ok ⟨fun _ => env1.propagate z ⟨0, some 0⟩ (0 + (1 / 2 - 0)) (1 - (0 + (1 / 2 - 0))) z.state,
          renormalize fun _ => 1 / 2 * l⟩ := by
    unfold gsfPredict
    rw [seqFin_of fun _ => predict_some_some env1 z _ _ _ none hzs (by norm_num)]
    rfl
  refine ⟨[⟨fun _ => z, renormalize fun _ => 1 / 2 * l⟩], ?_, rfl⟩
  show runLoop _ (dropBefore _ 0 (sortByStamp _ _)) (dropBefore _ 0 (sortByStamp _ _)) _ = _
  rw [sortByStamp_of_sorted _ _ (by simp [TimeSorted, gsfApi]), sortByStamp_of_sorted _ _ (by simp [TimeSorted, gsfApi])]
  have d1 : dropBefore (gsfApi (M := 1) env1).istamp 0 [⟨0, 0⟩, ⟨0, 1⟩] = [⟨0, 0⟩, ⟨0, 1⟩] := by
    unfold dropBefore
    rw [if_pos ⟨⟨0, 0⟩, by simp, by simp [gsfApi]⟩]
    simp [gsfApi]
  have d2 : dropBefore (gsfApi (M := 1) env1).ystamp 0 [⟨meas1 (1 / 2), 1 / 2, rfl⟩] = [⟨meas1 (1 / 2), 1 / 2, rfl⟩] := by
    unfold dropBefore
    rw [if_pos ⟨_, List.mem_singleton.mpr rfl, by simp [gsfApi]⟩]
    simp [gsfApi]
  rw [d1, d2]
  have hf : fuseWhile (gsfApi (M := 1) env1) ⟨0, 0⟩ 1 [⟨meas1 (1 / 2), 1 / 2, rfl⟩] ⟨fun _ => est1 0, fun _ => 1 / 2⟩
      = .ok (⟨fun _ => z, renormalize fun _ => 1 / 2 * l⟩, []) := by
    have e : fuseWhile (gsfApi (M := 1) env1) ⟨0, 0⟩ 1 [⟨meas1 (1 / 2), 1 / 2, rfl⟩] ⟨fun _ => est1 0, fun _ => 1 / 2⟩
      = (gsfCorrect env1 ⟨fun _ : Fin 2 => est1 0, fun _ => 1 / 2⟩ (meas1 (1 / 2)) (some ⟨0, some 0⟩) >>= fun x1 =>
        fuseWhile (gsfApi (M := 1) env1) ⟨0, 0⟩ 1 [] x1) := if_pos (by show (1 / 2 : ℝ) < 1; norm_num)
    rw [e, hc]
    rfl
  show (fuseWhile (gsfApi (M := 1) env1) ⟨0, 0⟩ 1 _ _ >>= fun p => predictTo (gsfApi (M := 1) env1) p.1 ⟨0, 0⟩ 1 >>= fun x2 =>
    runLoop (gsfApi (M := 1) env1) [⟨0, 1⟩] p.2 x2 >>= fun rs => .ok (p.1 :: rs)) = _
  rw [hf]
  show (predictTo (gsfApi (M := 1) env1) ⟨fun _ => z, renormalize fun _ => 1 / 2 * l⟩ ⟨0, 0⟩ 1 >>= fun x2 => _) = _
  have ht : predictTo (gsfApi (M := 1) env1) ⟨fun _ => z, renormalize fun _ => 1 / 2 * l⟩ ⟨0, 0⟩ 1
      = gsfPredict env1 ⟨fun _ : Fin 2 => z, renormalize fun _ => 1 / 2 * l⟩ (some ⟨0, some 0⟩) (some (1 - (0 + (1 / 2 - 0)))) := by
    unfold predictTo
    show (match z.state.stamp with | none => _ | some t => _) = _
    rw [hzs]
    rfl
  rw [ht, hp]
  rfl

end Verif
