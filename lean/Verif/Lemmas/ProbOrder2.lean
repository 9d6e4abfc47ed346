import Verif.Lemmas.ProbOrder
import Verif.Props.LinearProblem
import Mathlib.LinearAlgebra.Matrix.NonsingularInverse

/-!
The order in which residuals and variables are added to a `Problem` does not matter: the solvers.
-/

set_option linter.unusedVariables false
set_option linter.unusedSectionVars false

namespace Verif

open Matrix

variable {K S : Type} [DecidableEq K]

/-! ### Permuted residuals and columns -/

theorem Locals.perm {const : List K} {vs : List (K × Slice)} {n : ℕ} {vars : List (K × S)}
    {l l' : List ((Residual K S × Loss) × ℕ)} (hp : l.Perm l') : ∀ {as : List (Asm × ℕ)}, Locals const vs n vars l as →
      ∃ as', Locals const vs n vars l' as' ∧ as.Perm as' := by
  induction hp with
  | nil => intro as h; exact ⟨as, h, List.Perm.refl _⟩
  | cons x _ ih =>
    intro as h
    cases h with
    | cons h1 h2 =>
      obtain ⟨as', g1, g2⟩ := ih h2
      exact ⟨_, .cons h1 g1, g2.cons _⟩
  | swap x y l =>
    intro as h
    cases h with
    | cons h1 h2 =>
      cases h2 with
      | cons h3 h4 => exact ⟨_, .cons h3 (.cons h1 h4), List.Perm.swap _ _ _⟩
  | trans _ _ ih1 ih2 =>
    intro as h
    obtain ⟨as1, g1, g2⟩ := ih1 h
    obtain ⟨as2, g3, g4⟩ := ih2 g1
    exact ⟨as2, g3, g2.trans g4⟩

theorem Locals.rel {n n' : ℕ} {const const' : List K} (hcst : ∀ k, k ∈ const ↔ k ∈ const') {vs vs' : List (K × Slice)}
    {σ : Fin n ≃ Fin n'} (hc : Corr vs vs' σ) {vars vars' : List (K × S)} (hv : ∀ ks, lookupAll vars' ks = lookupAll vars ks) :
    ∀ {l : List ((Residual K S × Loss) × ℕ)} {as : List (Asm × ℕ)}, Locals const vs n vars l as →
      ∃ as', Locals const' vs' n' vars' l as' ∧ List.Forall₂ (fun x x' => x'.2 = x.2 ∧ LocRel x.2 σ x.1 x'.1) as as'
  | _, _, .nil => ⟨[], .nil, .nil⟩
  | _, _, .cons h1 h2 => by
    obtain ⟨a', g1, g2⟩ := localAsm_rel hcst hc hv h1
    obtain ⟨as', g3, g4⟩ := Locals.rel hcst hc hv h2
    exact ⟨_, .cons g1 g3, .cons ⟨rfl, g2⟩ g4⟩

theorem forall2_sum {α β : Type} {R : α → β → Prop} {f : α → ℝ} {g : β → ℝ} (h : ∀ a b, R a b → g b = f a) :
    ∀ {l : List α} {l' : List β}, List.Forall₂ R l l' → (l'.map g).sum = (l.map f).sum
  | _, _, .nil => rfl
  | _, _, .cons h1 h2 => by rw [List.map_cons, List.map_cons, List.sum_cons, List.sum_cons, h _ _ h1, forall2_sum h h2]

/-- Normal equations that agree up to the order of the unknowns. -/
inductive LinRel {n n' : ℕ} (σ : Fin n ≃ Fin n') : Lin → Lin → Prop where
  | mk {m m' : ℕ} (e : Vec m) (H : Mat m n) (e' : Vec m') (H' : Mat m' n') (c : ℝ)
      (hA : ∀ i j, (H'ᵀ * H') (σ i) (σ j) = (Hᵀ * H) i j) (hb : ∀ i, (H'ᵀ *ᵥ e') (σ i) = (Hᵀ *ᵥ e) i) :
      LinRel σ ⟨m, n, e, H, c⟩ ⟨m', n', e', H', c⟩

/-- Two problems after `_compute_size_of_problem` that differ in the order of residuals and variables. -/
structure Reordered (P P' : Prob K S) (σ : Fin P.sizeState ≃ Fin P'.sizeState) : Prop where
  cfg : P'.cfg = P.cfg
  const : ∀ k, k ∈ P.constKeys ↔ k ∈ P'.constKeys
  corr : Corr P.varSlices P'.varSlices σ
  res : ∃ l l' : List ((Residual K S × Loss) × ℕ), l.map Prod.fst = P.residuals.zip P.losses ∧
    l'.map Prod.fst = P'.residuals.zip P'.losses ∧ Reserved P 0 0 l ∧ Reserved P' 0 0 l' ∧ l.Perm l'

theorem gram_fin {m n : ℕ} (H : ℕ → ℕ → ℝ) (i j : Fin n) :
    ((Matrix.of fun (q : Fin m) (c : Fin n) => H q c)ᵀ * (Matrix.of fun (q : Fin m) (c : Fin n) => H q c)) i j = gram H m i j := by
  rw [Matrix.mul_apply]
  exact Fin.sum_univ_eq_sum_range (fun q => H q i * H q j) m

theorem grad_fin {m n : ℕ} (H : ℕ → ℕ → ℝ) (e : ℕ → ℝ) (i : Fin n) :
    ((Matrix.of fun (q : Fin m) (c : Fin n) => H q c)ᵀ *ᵥ fun q : Fin m => e q) i = grad H e m i :=
  Fin.sum_univ_eq_sum_range (fun q => H q i * e q) m

theorem linearize_order {P P' : Prob K S} {σ : Fin P.sizeState ≃ Fin P'.sizeState} (hP : Reordered P P' σ) {vars vars' : List (K × S)}
    (hv : ∀ ks, lookupAll vars' ks = lookupAll vars ks) {L : Lin} (h : P.linearize vars = .ok L) :
    ∃ L', P'.linearize vars' = .ok L' ∧ LinRel σ L L' := by
  obtain ⟨l, l', e1, e2, r1, r2, hp⟩ := hP.res
  unfold Prob.linearize at h ⊢
  obtain ⟨a, h1, h⟩ := bind_ok h
  cases h
  rw [← e1] at h1
  have hz : ∀ (N M : ℕ) q, 0 ≤ q → ∀ c, (DMat.zeros N M).get q c = 0 := fun _ _ _ _ _ => rfl
  obtain ⟨as, h2⟩ := asmLoop_locals (n := P.sizeState) hP.corr.fits r1 rfl rfl (hz _ _) h1
  obtain ⟨a1, k1, k2, k3, k4⟩ := asmLoop_adds (n := P.sizeState) hP.corr.fits (a := ⟨fun _ => 0, DMat.zeros P.sizeErr P.sizeState, 0⟩) h2 r1
    rfl rfl (hz _ _)
  rw [h1] at k1
  cases k1
  obtain ⟨as1, h3, h4⟩ := h2.perm hp
  obtain ⟨as2, h5, h6⟩ := h3.rel hP.const hP.corr hv
  obtain ⟨a2, j1, j2, j3, j4⟩ := asmLoop_adds (n := P'.sizeState) hP.corr.fits' (a := ⟨fun _ => 0, DMat.zeros P'.sizeErr P'.sizeState, 0⟩) h5 r2
    rfl rfl (hz _ _)
  have hcost : a2.cost = a.cost := by
    rw [j4, k4, (h4.map _).sum_eq]
    congr 1
    exact forall2_sum (fun x x' hx => hx.2.cost) h6
  refine ⟨⟨P'.sizeErr, P'.sizeState, fun i => a2.e i, fun i j => a2.H.get i j, a2.cost⟩, ?_, ?_⟩
  · rw [← e2, j1]
    rfl
  · rw [hcost]
    refine .mk _ _ _ _ _ (fun i j => ?_) (fun i => ?_)
    · refine (gram_fin a2.H.get (σ i) (σ j)).trans (Eq.trans ?_ (gram_fin a.H.get i j).symm)
      rw [j2 _ _ (σ i).2 (σ j).2, k2 _ _ i.2 j.2, (h4.map _).sum_eq]
      congr 1
      refine forall2_sum (fun x x' hx => ?_) h6
      rw [hx.1]
      exact gram_congr fun q hq => ⟨hx.2.H q hq i, hx.2.H q hq j⟩
    · refine (grad_fin a2.H.get a2.e (σ i)).trans (Eq.trans ?_ (grad_fin a.H.get a.e i).symm)
      rw [j3 _ (σ i).2, k3 _ i.2, (h4.map _).sum_eq]
      congr 1
      refine forall2_sum (fun x x' hx => ?_) h6
      rw [hx.1]
      exact grad_congr fun q hq => ⟨hx.2.H q hq i, hx.2.e q hq⟩

/-- Two problems after `_compute_size_of_problem` with the same normal equations, up to the order of the unknowns. -/
structure ProbAlike (P P' : Prob K S) (σ : Fin P.sizeState ≃ Fin P'.sizeState) : Prop where
  cfg : P'.cfg = P.cfg
  const : ∀ k, k ∈ P.constKeys ↔ k ∈ P'.constKeys
  corr : Corr P.varSlices P'.varSlices σ
  lin : ∀ {vars vars' : List (K × S)}, (∀ ks, lookupAll vars' ks = lookupAll vars ks) → ∀ {L : Lin}, P.linearize vars = .ok L →
    ∃ L', P'.linearize vars' = .ok L' ∧ LinRel σ L L'

theorem Reordered.alike {P P' : Prob K S} {σ : Fin P.sizeState ≃ Fin P'.sizeState} (hP : Reordered P P' σ) : ProbAlike P P' σ :=
  ⟨hP.cfg, hP.const, hP.corr, fun hv _ h => linearize_order hP hv h⟩

/-! ### The linear algebra -/

theorem submatrix_of_rel {n n' : ℕ} (σ : Fin n ≃ Fin n') {A : Mat n n} {A' : Mat n' n'} (h : ∀ i j, A' (σ i) (σ j) = A i j) :
    A' = A.submatrix σ.symm σ.symm := by
  ext i j
  rw [Matrix.submatrix_apply, ← h, Equiv.apply_symm_apply, Equiv.apply_symm_apply]

theorem spsolve_rel {n n' : ℕ} (σ : Fin n ≃ Fin n') {A : Mat n n} {A' : Mat n' n'} {b : Vec n} {b' : Vec n'}
    (hA : ∀ i j, A' (σ i) (σ j) = A i j) (hb : ∀ i, b' (σ i) = b i) {δ : Vec n} (h : spsolve A b = .ok δ) :
    spsolve A' b' = .ok (δ ∘ σ.symm) := by
  have eA := submatrix_of_rel σ hA
  have eb : b' = b ∘ σ.symm := by
    funext i
    rw [Function.comp, ← hb, Equiv.apply_symm_apply]
  unfold spsolve at h ⊢
  rw [eA, Matrix.det_submatrix_equiv_self]
  split at h
  · cases h
  · rename_i hd
    rw [if_neg hd]
    cases h
    rw [Matrix.inv_submatrix_equiv, eb]
    congr 1
    rw [show -(b ∘ σ.symm) = (-b) ∘ σ.symm from rfl, Matrix.submatrix_mulVec_equiv]
    congr 2
    funext i
    simp

theorem npMax_rel {n n' : ℕ} (σ : Fin n ≃ Fin n') {v : Vec n} {v' : Vec n'} (hv : ∀ i, v' (σ i) = v i) {x : ℝ}
    (h : npMax v = .ok x) : npMax v' = .ok x := by
  obtain ⟨h1, i, h2⟩ := npMax_ok h
  have hn : 0 < n' := lt_of_le_of_lt (Nat.zero_le _) (σ i).2
  have hx : npMax v' = .ok (Finset.univ.sup' ⟨⟨0, hn⟩, Finset.mem_univ _⟩ v') := by
    unfold npMax; rw [dif_pos hn]
  rw [hx]
  obtain ⟨g1, j, g2⟩ := npMax_ok hx
  congr 1
  refine le_antisymm ?_ ?_
  · rw [← g2, ← Equiv.apply_symm_apply σ j, hv]; exact h1 _
  · rw [← h2, ← hv]; exact g1 _

theorem dot_rel {n n' : ℕ} (σ : Fin n ≃ Fin n') {a b : Vec n} {a' b' : Vec n'} (ha : ∀ i, a' (σ i) = a i) (hb : ∀ i, b' (σ i) = b i) :
    a' ⬝ᵥ b' = a ⬝ᵥ b := by
  unfold dotProduct
  rw [← Equiv.sum_comp σ]
  exact Finset.sum_congr rfl fun i _ => by rw [ha, hb]

theorem comp_symm_rel {n n' : ℕ} (σ : Fin n ≃ Fin n') (δ : Vec n) (i : Fin n) : (δ ∘ σ.symm) (σ i) = δ i := by
  simp

theorem vecNorm_rel {n n' : ℕ} (σ : Fin n ≃ Fin n') (δ : Vec n) : vecNorm (δ ∘ σ.symm) = vecNorm δ := by
  unfold vecNorm
  rw [dot_rel σ (comp_symm_rel σ δ) (comp_symm_rel σ δ)]

theorem LinRel.gradNorm {n n' : ℕ} {σ : Fin n ≃ Fin n'} {L L' : Lin} (h : LinRel σ L L') {g : ℝ} (hg : L.gradNorm = .ok g) :
    L'.gradNorm = .ok g := by
  cases h with
  | mk e H e' H' c hA hb =>
    unfold Lin.gradNorm at hg ⊢
    refine npMax_rel σ (fun i => ?_) hg
    show |(e' ᵥ* H') (σ i)| = |(e ᵥ* H) i|
    rw [← Matrix.mulVec_transpose, ← Matrix.mulVec_transpose, hb]

theorem LinRel.cost {n n' : ℕ} {σ : Fin n ≃ Fin n'} {L L' : Lin} (h : LinRel σ L L') : L'.cost = L.cost := by
  cases h; rfl

/-! ### The variables -/

/-- The same variables in another order. -/
structure SameVars (v v' : List (K × S)) : Prop where
  perm : v.Perm v'
  nodup : (v.map Prod.fst).Nodup

theorem SameVars.lookup {v v' : List (K × S)} (h : SameVars v v') (k : K) : v'.lookup k = v.lookup k := by
  have hn' : (v'.map Prod.fst).Nodup := (h.perm.map Prod.fst).nodup_iff.1 h.nodup
  cases e : v.lookup k with
  | some x => exact lookup_mem hn' (h.perm.mem_iff.1 (mem_of_lookup e))
  | none =>
    cases e' : v'.lookup k with
    | none => rfl
    | some x =>
      rw [lookup_mem h.nodup (h.perm.mem_iff.2 (mem_of_lookup e'))] at e
      cases e

theorem lookupAll_congr {v v' : List (K × S)} (h : ∀ k, v'.lookup k = v.lookup k) : ∀ ks, lookupAll v' ks = lookupAll v ks
  | [] => rfl
  | k :: ks => by
    unfold lookupAll
    unfold dictGet
    rw [h k, lookupAll_congr h ks]

theorem SameVars.lookupAll {v v' : List (K × S)} (h : SameVars v v') : ∀ ks, Verif.lookupAll v' ks = Verif.lookupAll v ks :=
  lookupAll_congr h.lookup

/-- `_correct_states` for one variable. -/
def correctOne (o : VarOps S) (const : List K) (sl : List (K × Slice)) (dx : List ℝ) (p : K × S) : Except Err (K × S) :=
  if p.1 ∈ const then .ok p
  else do
    let s ← dictGet sl p.1
    let x' ← o.plus p.2 ((dx.drop s.start).take (s.stop - s.start))
    return (p.1, x')

theorem correctStates_mapM (o : VarOps S) (const : List K) (sl : List (K × Slice)) (dx : List ℝ) :
    ∀ v : List (K × S), correctStates o const sl dx v = v.mapM (correctOne o const sl dx)
  | [] => rfl
  | (k, x) :: l => by
    rw [List.mapM_cons, ← correctStates_mapM o const sl dx l]
    generalize hl : correctStates o const sl dx l = C
    unfold correctStates correctOne
    rw [hl]
    by_cases hk : k ∈ const
    · rw [if_pos hk, if_pos hk]; rfl
    · rw [if_neg hk, if_neg hk]
      simp only [bind_assoc]
      rfl

theorem mapM_imp {α β : Type} {f g : α → Except Err β} (hfg : ∀ a b, f a = .ok b → g a = .ok b) :
    ∀ (l : List α) (u : List β), l.mapM f = .ok u → l.mapM g = .ok u
  | [], u, h => by cases h; rfl
  | a :: l, u, h => by
    rw [List.mapM_cons] at h
    obtain ⟨p, q1, h⟩ := bind_ok h
    obtain ⟨ps, q2, h⟩ := bind_ok h
    cases h
    rw [List.mapM_cons, hfg _ _ q1, ok_bindE, mapM_imp hfg l ps q2]
    rfl

theorem mapM_perm {α β : Type} {f : α → Except Err β} {l l' : List α} (hp : l.Perm l') :
    ∀ {w : List β}, l.mapM f = .ok w → ∃ w', l'.mapM f = .ok w' ∧ w.Perm w' := by
  induction hp with
  | nil => intro w h; cases h; exact ⟨[], rfl, List.Perm.refl _⟩
  | cons x _ ih =>
    intro w h
    rw [List.mapM_cons] at h
    obtain ⟨b, h1, h⟩ := bind_ok h
    obtain ⟨bs, h2, h⟩ := bind_ok h
    cases h
    obtain ⟨w', g1, g2⟩ := ih h2
    refine ⟨b :: w', ?_, g2.cons _⟩
    rw [List.mapM_cons, h1, ok_bindE, g1]
    rfl
  | swap x y l =>
    intro w h
    rw [List.mapM_cons] at h
    obtain ⟨b, h1, h⟩ := bind_ok h
    obtain ⟨bs, h2, h⟩ := bind_ok h
    rw [List.mapM_cons] at h2
    obtain ⟨c, h3, h2⟩ := bind_ok h2
    obtain ⟨cs, h4, h2⟩ := bind_ok h2
    cases h2
    cases h
    refine ⟨c :: b :: cs, ?_, List.Perm.swap _ _ _⟩
    rw [List.mapM_cons, h3, ok_bindE, List.mapM_cons, h1, ok_bindE, h4]
    rfl
  | trans _ _ ih1 ih2 =>
    intro w h
    obtain ⟨w1, g1, g2⟩ := ih1 h
    obtain ⟨w2, g3, g4⟩ := ih2 g1
    exact ⟨w2, g3, g2.trans g4⟩

theorem correctStates_order {o : VarOps S} {P P' : Prob K S} {σ : Fin P.sizeState ≃ Fin P'.sizeState} (hP : ProbAlike P P' σ)
    (δ : Vec P.sizeState) {v v' w : List (K × S)} (hv : SameVars v v')
    (h : correctStates o P.constKeys P.varSlices (List.ofFn δ) v = .ok w) :
    ∃ w', correctStates o P'.constKeys P'.varSlices (List.ofFn (δ ∘ σ.symm)) v' = .ok w' ∧ SameVars w w' := by
  have hk := correctStates_keys h
  rw [correctStates_mapM] at h
  have h1 : v.mapM (correctOne o P'.constKeys P'.varSlices (List.ofFn (δ ∘ σ.symm))) = .ok w := by
    refine mapM_imp (fun p q hq => ?_) _ _ h
    unfold correctOne at hq ⊢
    by_cases hc : p.1 ∈ P.constKeys
    · rw [if_pos hc] at hq
      rw [if_pos ((hP.const _).1 hc)]
      exact hq
    · rw [if_neg hc] at hq
      rw [if_neg (fun z => hc ((hP.const _).2 z))]
      obtain ⟨s, q1, hq⟩ := bind_ok hq
      have l1 := dictGet_ok.1 q1
      obtain ⟨s', l2⟩ := hP.corr.has _ _ l1
      rw [dictGet_ok.2 l2, ok_bindE]
      have f1 := hP.corr.fits _ _ l1
      have f2 := hP.corr.fits' _ _ l2
      have f3 := hP.corr.len _ _ _ l1 l2
      have e : ((List.ofFn (δ ∘ σ.symm)).drop s'.start).take (s'.stop - s'.start) =
          ((List.ofFn δ).drop s.start).take (s.stop - s.start) := by
        refine List.ext_getElem ?_ fun i g1 g2 => ?_
        · simp only [List.length_take, List.length_drop, List.length_ofFn]
          omega
        · simp only [List.length_take, List.length_drop, List.length_ofFn] at g1 g2
          simp only [List.getElem_take, List.getElem_drop, List.getElem_ofFn, Function.comp]
          congr 1
          rw [Equiv.symm_apply_eq]
          apply Fin.ext
          obtain ⟨p1, p2⟩ := hP.corr.pos _ _ _ l1 l2 ⟨s.start + i, by omega⟩
          have p3 := p1.1 ⟨by simp, by simp only; omega⟩
          have p4 := p2 (by simp) (by simp only; omega)
          simp only at p3 p4 ⊢
          omega
      rw [e]
      exact hq
  obtain ⟨w', g1, g2⟩ := mapM_perm hv.perm h1
  refine ⟨w', by rw [correctStates_mapM]; exact g1, g2, by rw [hk]; exact hv.nodup⟩

/-! ### The loops -/

/-- Information matrices that agree up to the order of the unknowns. -/
inductive InfoRel {n n' : ℕ} (σ : Fin n ≃ Fin n') : Option SqMat → Option SqMat → Prop where
  | none : InfoRel σ none none
  | some (A : Mat n n) (A' : Mat n' n') (h : ∀ i j, A' (σ i) (σ j) = A i j) : InfoRel σ (some ⟨n, A⟩) (some ⟨n', A'⟩)

structure LoopOrd {n n' : ℕ} (σ : Fin n ≃ Fin n') (s s' : LoopState K S) : Prop where
  vars : SameVars s.vars s'.vars
  lin : LinRel σ s.lin s'.lin
  costs : s'.costs = s.costs
  deltaCost : s'.deltaCost = s.deltaCost
  gradNorm : s'.gradNorm = s.gradNorm
  dx : s'.dx = s.dx
  info : InfoRel σ s.info s'.info
  mu : s'.mu = s.mu
  nu : s'.nu = s.nu

theorem gnStep_order {o : VarOps S} {P P' : Prob K S} {σ : Fin P.sizeState ≃ Fin P'.sizeState} (hP : ProbAlike P P' σ)
    {s t s' : LoopState K S} {b : Bool} (hs : LoopOrd σ s s') (h : gnStep o P s = .ok (t, b)) :
    ∃ t', gnStep o P' s' = .ok (t', b) ∧ LoopOrd σ t t' := by
  obtain ⟨sv, slin, sc, sd, sg, sx, si, smu, snu⟩ := s
  obtain ⟨sv', slin', sc', sd', sg', sx', si', smu', snu'⟩ := s'
  obtain ⟨h1, h2, h3, h4, h5, h6, h7, h8, h9⟩ := hs
  simp only at h1 h2 h3 h4 h5 h6 h7 h8 h9
  subst h3 h4 h5 h6 h8 h9
  unfold gnStep at h ⊢
  simp only at h ⊢
  rw [hP.cfg]
  by_cases hc : isConverged P.cfg sd' (sc'.headD 0) sx' sg' = true
  · rw [if_pos hc] at h
    rw [if_pos hc]
    cases h
    exact ⟨_, rfl, h1, h2, rfl, rfl, rfl, rfl, h7, rfl, rfl⟩
  · rw [if_neg hc] at h
    rw [if_neg hc]
    cases h2 with
    | mk e H e' H' c hA hb =>
      obtain ⟨δ, g1, h⟩ := bind_ok h
      obtain ⟨w, g2, h⟩ := bind_ok h
      obtain ⟨L1, g3, h⟩ := bind_ok h
      obtain ⟨g, g4, h⟩ := bind_ok h
      cases h
      have k1 : spsolve (Lin.A ⟨_, _, e', H', c⟩) (Lin.b ⟨_, _, e', H', c⟩) = .ok (δ ∘ σ.symm) := spsolve_rel σ hA hb g1
      obtain ⟨w', k2, k3⟩ := correctStates_order hP δ h1 g2
      obtain ⟨L1', k4, k5⟩ := hP.lin k3.lookupAll g3
      rw [k1, ok_bindE, k2, ok_bindE, k4, ok_bindE, k5.gradNorm g4, ok_bindE]
      refine ⟨_, rfl, ⟨k3, k5, ?_, ?_, rfl, vecNorm_rel σ δ, .some _ _ hA, rfl, rfl⟩⟩
      · show _ :: _ = _ :: _
        rw [k5.cost]
      · show deltaCostOf _ _ = deltaCostOf _ _
        rw [k5.cost]

theorem gainDen_rel {n n' : ℕ} (σ : Fin n ≃ Fin n') {δ b : Vec n} {b' : Vec n'} (hb : ∀ i, b' (σ i) = b i) (mu : ℝ) :
    gainDen (δ ∘ σ.symm) b' mu = gainDen δ b mu := by
  unfold gainDen
  rw [dot_rel σ (comp_symm_rel σ δ) (b := mu • δ - b)]
  intro i
  show mu * (δ ∘ σ.symm) (σ i) - b' (σ i) = mu * δ i - b i
  rw [comp_symm_rel, hb]

theorem lmStep_order {o : VarOps S} {P P' : Prob K S} {σ : Fin P.sizeState ≃ Fin P'.sizeState} (hP : ProbAlike P P' σ)
    {s t s' : LoopState K S} {b : Bool} (hs : LoopOrd σ s s') (h : lmStep o P s = .ok (t, b)) :
    ∃ t', lmStep o P' s' = .ok (t', b) ∧ LoopOrd σ t t' := by
  obtain ⟨sv, slin, sc, sd, sg, sx, si, smu, snu⟩ := s
  obtain ⟨sv', slin', sc', sd', sg', sx', si', smu', snu'⟩ := s'
  obtain ⟨h1, h2, h3, h4, h5, h6, h7, h8, h9⟩ := hs
  simp only at h1 h2 h3 h4 h5 h6 h7 h8 h9
  subst h3 h4 h5 h6 h8 h9
  have h2' := h2
  cases h2 with
  | mk e H e' H' c hA hb =>
    unfold lmStep at h ⊢
    simp only at h ⊢
    obtain ⟨δ, g1, h⟩ := bind_ok h
    have k1 : spsolve (Lin.A ⟨_, _, e', H', c⟩ + smu' • (1 : Mat _ _)) (Lin.b ⟨_, _, e', H', c⟩) = .ok (δ ∘ σ.symm) := by
      refine spsolve_rel σ (fun i j => ?_) hb g1
      show (H'ᵀ * H') (σ i) (σ j) + smu' * (1 : Mat _ _) (σ i) (σ j) = (Hᵀ * H) i j + smu' * (1 : Mat _ _) i j
      rw [hA, Matrix.one_apply, Matrix.one_apply]
      simp only [EmbeddingLike.apply_eq_iff_eq]
    rw [k1, ok_bindE]
    rw [hP.cfg, vecNorm_rel]
    by_cases hc : isConverged P.cfg sd' (sc'.headD 0) (vecNorm δ) sg' = true
    · rw [if_pos hc] at h
      rw [if_pos hc]
      cases h
      exact ⟨_, rfl, h1, h2', rfl, rfl, rfl, rfl, h7, rfl, rfl⟩
    · rw [if_neg hc] at h
      rw [if_neg hc]
      obtain ⟨w, g2, h⟩ := bind_ok h
      obtain ⟨L1, g3, h⟩ := bind_ok h
      obtain ⟨g, g4, h⟩ := bind_ok h
      cases h
      obtain ⟨w', k2, k3⟩ := correctStates_order hP δ h1 g2
      obtain ⟨L1', k4, k5⟩ := hP.lin k3.lookupAll g3
      rw [k2, ok_bindE, k4, ok_bindE, k5.gradNorm g4, ok_bindE]
      refine ⟨_, rfl, ?_⟩
      have ed : gainDen (δ ∘ σ.symm) (Lin.b ⟨_, _, e', H', c⟩) smu' = gainDen δ (Lin.b ⟨_, _, e, H, c⟩) smu' := gainDen_rel σ hb smu'
      rw [ed]
      unfold lmUpdate
      simp only
      rw [k5.cost]
      split
      · have kA := k5
        cases kA with
        | mk e1 H1 e1' H1' c1 hA1 hb1 => exact ⟨k3, k5, rfl, rfl, rfl, rfl, .some _ _ hA1, rfl, rfl⟩
      · exact ⟨h1, h2', rfl, rfl, rfl, rfl, h7, rfl, rfl⟩

theorem iterLoop_order {n n' : ℕ} {σ : Fin n ≃ Fin n'} {f f' : LoopState K S → Except Err (LoopState K S × Bool)}
    (hf : ∀ s t s' b, LoopOrd σ s s' → f s = .ok (t, b) → ∃ t', f' s' = .ok (t', b) ∧ LoopOrd σ t t') :
    ∀ (k : ℕ) {s t s' : LoopState K S}, LoopOrd σ s s' → iterLoop f k s = .ok t → ∃ t', iterLoop f' k s' = .ok t' ∧ LoopOrd σ t t'
  | 0, s, t, s', hs, h => by cases h; exact ⟨s', rfl, hs⟩
  | k + 1, s, t, s', hs, h => by
    unfold iterLoop at h
    obtain ⟨⟨r, b⟩, h1, h⟩ := bind_ok h
    obtain ⟨r', g1, g2⟩ := hf _ _ _ _ hs h1
    cases b with
    | true =>
      cases h
      refine ⟨r', ?_, g2⟩
      unfold iterLoop
      rw [g1]
      rfl
    | false =>
      obtain ⟨t', g3, g4⟩ := iterLoop_order hf k g2 h
      refine ⟨t', ?_, g4⟩
      unfold iterLoop
      rw [g1]
      exact g3

/-- What the results of the two solves have in common. -/
structure SolvedAlike (Q Q' : Prob K S) (σ : Fin Q.sizeState ≃ Fin Q'.sizeState) : Prop where
  vars : SameVars Q.vars Q'.vars
  costs : Q'.costHistory = Q.costHistory
  info : InfoRel σ Q.info Q'.info
  corr : Corr Q.varSlices Q'.varSlices σ
  cov : Q'.cov = Q.cov

theorem solveGN_order {o : VarOps S} {P P' Q : Prob K S} {σ : Fin P.sizeState ≃ Fin P'.sizeState} (hP : ProbAlike P P' σ)
    (hv : SameVars P.vars P'.vars) (hcov : P'.cov = P.cov) (h : solveGN o P = .ok Q) :
    ∃ (Q' : Prob K S) (τ : Fin Q.sizeState ≃ Fin Q'.sizeState), solveGN o P' = .ok Q' ∧ SolvedAlike Q Q' τ := by
  unfold solveGN at h
  obtain ⟨L, h3, h⟩ := bind_ok h
  obtain ⟨s, h4, h⟩ := bind_ok h
  obtain ⟨Lf, h5, h⟩ := bind_ok h
  obtain ⟨L', k1, k2⟩ := hP.lin hv.lookupAll h3
  obtain ⟨s', k3, k4⟩ := iterLoop_order (f' := gnStep o P') (fun s t s' b => gnStep_order hP) _
    (s := ⟨P.vars, L, [L.cost], none, none, 10, none, 0, 0⟩) (s' := ⟨P'.vars, L', [L'.cost], none, none, 10, none, 0, 0⟩)
    ⟨hv, k2, by show [_] = [_]; rw [k2.cost], rfl, rfl, rfl, .none, rfl, rfl⟩ h4
  obtain ⟨Lf', k5, k6⟩ := hP.lin k4.vars.lookupAll h5
  have hi := k4.info
  cases e1 : s.info with
  | none => rw [e1] at h; cases h
  | some A =>
    rw [e1] at h hi
    cases h
    generalize e2 : s'.info = B at hi
    cases hi with
    | some A A' hA =>
      refine ⟨{ P' with vars := s'.vars, costHistory := (Lf'.cost :: s'.costs).reverse, info := some ⟨_, A'⟩ }, σ, ?_, ?_⟩
      · unfold solveGN
        rw [k1, ok_bindE, hP.cfg, k3, ok_bindE, k5, ok_bindE, e2]
      · refine ⟨k4.vars, ?_, .some _ _ hA, hP.corr, hcov⟩
        show (_ :: _).reverse = (_ :: _).reverse
        rw [k6.cost, k4.costs]

theorem solveLM_order {o : VarOps S} {P P' Q : Prob K S} {σ : Fin P.sizeState ≃ Fin P'.sizeState} (hP : ProbAlike P P' σ)
    (hv : SameVars P.vars P'.vars) (hcov : P'.cov = P.cov) (h : solveLM o P = .ok Q) :
    ∃ (Q' : Prob K S) (τ : Fin Q.sizeState ≃ Fin Q'.sizeState), solveLM o P' = .ok Q' ∧ SolvedAlike Q Q' τ := by
  unfold solveLM at h
  obtain ⟨L, h3, h⟩ := bind_ok h
  obtain ⟨mx, h6, h⟩ := bind_ok h
  obtain ⟨s, h4, h⟩ := bind_ok h
  obtain ⟨Lf, h5, h⟩ := bind_ok h
  cases h
  obtain ⟨L', k1, k2⟩ := hP.lin hv.lookupAll h3
  have k2' := k2
  cases k2 with
  | mk e H e' H' c hA hb =>
    have k7 : npMax (fun j => (Lin.A ⟨_, _, e', H', c⟩) j j) = .ok mx := npMax_rel σ (fun i => hA i i) h6
    obtain ⟨s', k3, k4⟩ := iterLoop_order (f' := lmStep o P') (fun s t s' b => lmStep_order hP) _
      (s := ⟨P.vars, ⟨_, _, e, H, c⟩, [c], none, none, 10, some ⟨_, Lin.A ⟨_, _, e, H, c⟩⟩, P.cfg.tau * mx, 2⟩)
      (s' := ⟨P'.vars, ⟨_, _, e', H', c⟩, [c], none, none, 10, some ⟨_, Lin.A ⟨_, _, e', H', c⟩⟩, P.cfg.tau * mx, 2⟩)
      ⟨hv, k2', rfl, rfl, rfl, rfl, .some _ _ hA, rfl, rfl⟩ h4
    obtain ⟨Lf', k5, k6⟩ := hP.lin k4.vars.lookupAll h5
    refine ⟨{ P' with vars := s'.vars, costHistory := (Lf'.cost :: s'.costs).reverse, info := s'.info }, σ, ?_, ?_⟩
    · unfold solveLM
      rw [k1, ok_bindE, k7, ok_bindE, hP.cfg, k3, ok_bindE, k5, ok_bindE]
      rfl
    · refine ⟨k4.vars, ?_, k4.info, hP.corr, hcov⟩
      show (_ :: _).reverse = (_ :: _).reverse
      rw [k6.cost, k4.costs]

end Verif
