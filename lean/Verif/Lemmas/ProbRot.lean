import Verif.Props.Order

/-!
Residuals that are whitened with another square root of the information: the problem they make has the same normal equations.
-/

set_option linter.unusedVariables false
set_option linter.unusedSectionVars false

namespace Verif

open Matrix

variable {K S : Type} [DecidableEq K]

/-! ### Rotated residuals -/

/-- The Jacobian `J'` is `Q J` (both absent, or both with `m` rows). -/
inductive RotJac {m : ℕ} (Q : Mat m m) : Option DMat → Option DMat → Prop where
  | none : RotJac Q none none
  | some (J J' : DMat) (hr : J.rows = m) (hr' : J'.rows = m) (hc : J'.cols = J.cols)
      (h : ∀ (i : Fin m) (j : ℕ), j < J.cols → J'.get i j = ∑ k : Fin m, Q i k * J.get k j) : RotJac Q (some J) (some J')

/-- The residual `r'` is `r` premultiplied, at each point, by an orthogonal matrix (which may depend on the point). -/
inductive Rotated : Residual K S → Residual K S → Prop where
  | refl (r) : Rotated r r
  | rot (m : ℕ) (r r' : Residual K S) (keys : r'.keys = r.keys)
      (h : ∀ xs err, r.error xs = .ok err → err.length = m ∧ ∃ Q : Mat m m, Qᵀ * Q = 1 ∧
        r'.error xs = .ok (List.ofFn (Q *ᵥ fun i : Fin m => err.getD i 0)) ∧
        ∀ fl js, r.jacobians xs fl = .ok js → ∃ js', r'.jacobians xs fl = .ok js' ∧ List.Forall₂ (RotJac Q) js js') : Rotated r r'

theorem Rotated.keys_eq {r r' : Residual K S} (h : Rotated r r') : r'.keys = r.keys := by
  cases h with
  | refl => rfl
  | rot m _ _ hk h => exact hk

theorem Rotated.error_length {r r' : Residual K S} (h : Rotated r r') {xs : List S} {err : List ℝ} (he : r.error xs = .ok err) :
    ∃ err', r'.error xs = .ok err' ∧ err'.length = err.length := by
  cases h with
  | refl => exact ⟨err, he, rfl⟩
  | rot m _ _ hk h =>
    obtain ⟨h1, Q, h2, h3, h4⟩ := h xs err he
    exact ⟨_, h3, by simp [h1]⟩

theorem rot_dot {m : ℕ} {Q : Mat m m} (hQ : Qᵀ * Q = 1) (u v : Vec m) : (Q *ᵥ u) ⬝ᵥ (Q *ᵥ v) = u ⬝ᵥ v := by
  rw [Matrix.dotProduct_mulVec, Matrix.vecMul_mulVec, ← Matrix.dotProduct_mulVec, hQ, Matrix.one_mulVec]

theorem listNorm_rot {m : ℕ} {Q : Mat m m} (hQ : Qᵀ * Q = 1) {err : List ℝ} (hm : err.length = m) :
    listNorm (List.ofFn (Q *ᵥ fun i : Fin m => err.getD i 0)) = listNorm err := by
  subst hm
  have e1 : ∀ v : Vec err.length, ((List.ofFn v).map fun x => x * x).sum = v ⬝ᵥ v := by
    intro v
    rw [List.map_ofFn, List.sum_ofFn]
    rfl
  have e2 : err = List.ofFn fun i : Fin err.length => err.getD i 0 := by
    refine List.ext_getElem (by simp) fun i h1 h2 => ?_
    simp
  unfold listNorm
  rw [e1, rot_dot hQ, ← e1, ← e2]

/-- Rows premultiplied by `Q`. -/
structure RotRows {m : ℕ} (Q : Mat m m) (n : ℕ) (H H' : DMat) : Prop where
  rows : H.rows = m
  rows' : H'.rows = m
  cols : H.cols = n
  cols' : H'.cols = n
  get : ∀ (i : Fin m) (c : ℕ), c < n → H'.get i c = ∑ k : Fin m, Q i k * H.get k c

theorem placeJacs_rot {m n : ℕ} {Q : Mat m m} {vs : List (K × Slice)}
    (hf : ∀ k s, vs.lookup k = some s → s.start ≤ s.stop ∧ s.stop ≤ n) {w : ℝ} :
    ∀ {ks : List K} {js js' : List (Option DMat)} {H G H' : DMat}, List.Forall₂ (RotJac Q) js js' → RotRows Q n H H' →
      placeJacs vs ⟨0, m⟩ w ks js H = .ok G → ∃ G', placeJacs vs ⟨0, m⟩ w ks js' H' = .ok G' ∧ RotRows Q n G G'
  | [], js, js', H, G, H', hj, hr, h => by
    cases h
    exact ⟨H', by unfold placeJacs; rfl, hr⟩
  | k :: ks, [], js', H, G, H', hj, hr, h => by simp [placeJacs] at h
  | k :: ks, j0 :: js, js', H, G, H', hj, hr, h => by
    cases hj with
    | cons hj1 hj =>
      cases hj1 with
      | none => exact placeJacs_rot hf (ks := ks) hj hr h
      | some J J' hJ hJ' hJc hJg =>
        unfold placeJacs at h
        obtain ⟨cs, h1, h⟩ := bind_ok h
        obtain ⟨H1, h2, h⟩ := bind_ok h
        obtain ⟨f1, f2⟩ := hf k cs (dictGet_ok.1 h1)
        unfold DMat.setBlock at h2
        split at h2
        · rename_i hsh
          have hsh' : ((J'.scale w).rows = Slice.len ⟨0, m⟩ H'.rows ∨ (J'.scale w).rows = 1) ∧
              ((J'.scale w).cols = cs.len H'.cols ∨ (J'.scale w).cols = 1) := by
            rw [hr.rows', hr.cols']
            rw [hr.rows, hr.cols] at hsh
            show (J'.rows = _ ∨ J'.rows = 1) ∧ (J'.cols = _ ∨ J'.cols = 1)
            rw [hJ', hJc, ← hJ]
            have : J.rows = (J.scale w).rows := rfl
            refine ⟨?_, hsh.2⟩
            have h1 := hsh.1
            rw [← hJ] at h1
            exact h1
          have hcols : J.cols = cs.len n ∨ J.cols = 1 := by
            have := hsh.2
            rw [hr.cols] at this
            exact this
          cases h2
          obtain ⟨G', g1, g2⟩ := placeJacs_rot hf (ks := ks) (js := js) (w := w)
            (H := ⟨H.rows, H.cols, fun i j =>
              if (Slice.mk 0 m).start ≤ i ∧ i < (Slice.mk 0 m).stop ∧ cs.start ≤ j ∧ j < cs.stop then
                (J.scale w).get (if (J.scale w).rows = 1 then 0 else i - (Slice.mk 0 m).start) (if (J.scale w).cols = 1 then 0 else j - cs.start)
              else H.get i j⟩)
            (H' := ⟨H'.rows, H'.cols, fun i j =>
              if (Slice.mk 0 m).start ≤ i ∧ i < (Slice.mk 0 m).stop ∧ cs.start ≤ j ∧ j < cs.stop then
                (J'.scale w).get (if (J'.scale w).rows = 1 then 0 else i - (Slice.mk 0 m).start) (if (J'.scale w).cols = 1 then 0 else j - cs.start)
              else H'.get i j⟩) hj ⟨hr.rows, hr.rows', hr.cols, hr.cols', by
              intro i c hc
              simp only [DMat.scale, hJ, hJ', hJc]
              by_cases hin : cs.start ≤ c ∧ c < cs.stop
              · have hin0 : ∀ k : Fin m, (0 ≤ k.val ∧ k.val < m ∧ cs.start ≤ c ∧ c < cs.stop) := fun k => ⟨Nat.zero_le _, k.2, hin⟩
                have hrow : ∀ k : Fin m, (if m = 1 then 0 else k.val - 0) = k.val := by
                  intro k
                  split
                  · have := k.2; omega
                  · rfl
                simp only [if_pos (hin0 _), hrow]
                rw [hJg i _ (by
                  rcases hcols with q | q
                  · unfold Slice.len at q
                    split <;> omega
                  · rw [q]; simp), Finset.mul_sum]
                exact Finset.sum_congr rfl fun k _ => by ring
              · have hout : ∀ k : Fin m, ¬ (0 ≤ k.val ∧ k.val < m ∧ cs.start ≤ c ∧ c < cs.stop) := fun k q => hin q.2.2
                simp only [if_neg (hout _)]
                exact hr.get i c hc⟩ h
          refine ⟨G', ?_, g2⟩
          unfold placeJacs
          rw [h1, ok_bindE]
          unfold DMat.setBlock
          rw [if_pos hsh', ok_bindE]
          exact g1
        · cases h2

/-- Contributions of one residual with the same products. -/
structure SameGram (n ℓ : ℕ) (a a' : Asm) : Prop where
  gram : ∀ c d, c < n → d < n → gram a'.H.get ℓ c d = gram a.H.get ℓ c d
  grad : ∀ c, c < n → grad a'.H.get a'.e ℓ c = grad a.H.get a.e ℓ c
  cost : a'.cost = a.cost

theorem gram_dot (H : ℕ → ℕ → ℝ) (m c d : ℕ) : gram H m c d = (fun i : Fin m => H i c) ⬝ᵥ fun i : Fin m => H i d :=
  (Fin.sum_univ_eq_sum_range (fun q => H q c * H q d) m).symm

theorem grad_dot (H : ℕ → ℕ → ℝ) (e : ℕ → ℝ) (m c : ℕ) : grad H e m c = (fun i : Fin m => H i c) ⬝ᵥ fun i : Fin m => e i :=
  (Fin.sum_univ_eq_sum_range (fun q => H q c * e q) m).symm

theorem localAsm_rot {const : List K} {vs : List (K × Slice)} {n : ℕ}
    (hf : ∀ k s, vs.lookup k = some s → s.start ≤ s.stop ∧ s.stop ≤ n) {vars : List (K × S)} {p p' : Residual K S × Loss}
    (hp : Rotated p.1 p'.1) (hl : p'.2 = p.2) {ℓ : ℕ} (hℓ : ∀ xs err, p.1.error xs = .ok err → p'.1 = p.1 ∨ err.length = ℓ)
    {a : Asm} (h : localAsm const vs n vars p ℓ = .ok a) : ∃ a', localAsm const vs n vars p' ℓ = .ok a' ∧ SameGram n ℓ a a' := by
  obtain ⟨r, l⟩ := p
  obtain ⟨r', l'⟩ := p'
  simp only at hp hl hℓ
  subst hl
  cases hp with
  | refl => exact ⟨a, h, fun _ _ _ _ => rfl, fun _ _ => rfl, rfl⟩
  | rot m _ _ hk hrot =>
    unfold localAsm at h ⊢
    simp only at h ⊢
    obtain ⟨xs, h1, h⟩ := bind_ok h
    obtain ⟨err, h2, h⟩ := bind_ok h
    obtain ⟨jacs, h3, h⟩ := bind_ok h
    obtain ⟨e, h4, h⟩ := bind_ok h
    obtain ⟨H, h5, h⟩ := bind_ok h
    cases h
    rcases hℓ xs err h2 with hsame | hlen
    · subst hsame
      rw [h1, ok_bindE, h2, ok_bindE, h3, ok_bindE, h4, ok_bindE, h5, ok_bindE]
      exact ⟨_, rfl, fun _ _ _ _ => rfl, fun _ _ => rfl, rfl⟩
    obtain ⟨q1, Q, q2, q3, q4⟩ := hrot xs err h2
    obtain rfl : ℓ = m := by omega
    obtain ⟨js', q5, q6⟩ := q4 _ _ h3
    obtain ⟨H', q7, q8⟩ := placeJacs_rot hf (H' := DMat.zeros ℓ n) q6 ⟨rfl, rfl, rfl, rfl, fun i c _ => by simp [DMat.zeros]⟩ h5
    have hn := listNorm_rot q2 q1
    set w := Real.sqrt (l'.weight (listNorm err)) with hw
    have hseg : ∀ v : List ℝ, v.length = ℓ → setSeg ℓ (fun _ => 0) ⟨0, ℓ⟩ v =
        .ok fun i => if 0 ≤ i ∧ i < ℓ then v.getD (if v.length = 1 then 0 else i - 0) 0 else 0 := by
      intro v hv
      unfold setSeg
      rw [if_pos (Or.inl (by unfold Slice.len; simp only; omega))]
    have hat : ∀ (v : List ℝ), v.length = ℓ → ∀ i : Fin ℓ, (if 0 ≤ i.val ∧ i.val < ℓ then v.getD (if v.length = 1 then 0 else i.val - 0) 0 else 0) =
        v.getD i 0 := by
      intro v hv i
      rw [if_pos ⟨Nat.zero_le _, i.2⟩]
      congr 1
      split
      · have := i.2; omega
      · rfl
    have L1 : (err.map (w * ·)).length = ℓ := by simpa using q1
    have L2 : ((List.ofFn (Q *ᵥ fun i : Fin ℓ => err.getD i 0)).map (w * ·)).length = ℓ := by simp
    rw [hseg _ L1] at h4
    cases h4
    rw [hk, h1, ok_bindE, q3, ok_bindE, q5, ok_bindE, hn, ← hw, hseg _ L2, ok_bindE, q7, ok_bindE]
    have hcolv : ∀ c, c < n → (fun i : Fin ℓ => H'.get i c) = Q *ᵥ fun k : Fin ℓ => H.get k c := by
      intro c hc
      funext i
      exact q8.get i c hc
    refine ⟨_, rfl, fun c d hc hd => ?_, fun c hc => ?_, rfl⟩
    · rw [gram_dot, gram_dot]
      simp only
      rw [hcolv c hc, hcolv d hd, rot_dot q2]
    · rw [grad_dot, grad_dot]
      simp only [hat _ L1, hat _ L2]
      have e1 : (fun i : Fin ℓ => ((List.ofFn (Q *ᵥ fun i : Fin ℓ => err.getD i 0)).map (w * ·)).getD i 0) =
          Q *ᵥ fun i : Fin ℓ => (err.map (w * ·)).getD i 0 := by
        have e2 : (fun i : Fin ℓ => (err.map (w * ·)).getD i 0) = w • fun i : Fin ℓ => err.getD i 0 := by
          funext i
          simp [q1, List.getD]
        rw [e2, Matrix.mulVec_smul]
        funext i
        simp [List.getD]
      rw [e1, hcolv c hc, rot_dot q2]

/-! ### The problem -/

/-- The pairs of residuals and losses, with the number of rows of each. -/
def RotPair (p p' : (Residual K S × Loss) × ℕ) : Prop :=
  Rotated p.1.1 p'.1.1 ∧ p'.1.2 = p.1.2 ∧ p'.2 = p.2 ∧ ∀ xs err, p.1.1.error xs = .ok err → p'.1.1 = p.1.1 ∨ err.length = p.2

theorem Locals.rot {const : List K} {vs : List (K × Slice)} {n : ℕ}
    (hf : ∀ k s, vs.lookup k = some s → s.start ≤ s.stop ∧ s.stop ≤ n) {vars : List (K × S)} :
    ∀ {l l' : List ((Residual K S × Loss) × ℕ)} {as : List (Asm × ℕ)}, List.Forall₂ RotPair l l' → Locals const vs n vars l as →
      ∃ as', Locals const vs n vars l' as' ∧ List.Forall₂ (fun x x' => x'.2 = x.2 ∧ SameGram n x.2 x.1 x'.1) as as'
  | _, _, _, .nil, .nil => ⟨[], .nil, .nil⟩
  | _, _, _, .cons (a := (p, ℓ)) (b := (p', ℓ')) hp hl, .cons h1 h2 => by
    obtain ⟨q1, q2, q3, q4⟩ := hp
    simp only at q1 q2 q3 q4
    subst q3
    obtain ⟨a', g1, g2⟩ := localAsm_rot hf q1 q2 q4 h1
    obtain ⟨as', g3, g4⟩ := Locals.rot hf hl h2
    exact ⟨_, .cons g1 g3, .cons ⟨rfl, g2⟩ g4⟩

theorem Reserved.rot {P P' : Prob K S} (h1 : P'.resSlices = P.resSlices) (h2 : P'.sizeErr = P.sizeErr) :
    ∀ {l l' : List ((Residual K S × Loss) × ℕ)} {i base : ℕ}, List.Forall₂ RotPair l l' → Reserved P i base l → Reserved P' i base l'
  | _, _, i, base, .nil, h => by
    show base = P'.sizeErr
    rw [h2]; exact h
  | _, _, i, base, .cons (a := (p, ℓ)) (b := (p', ℓ')) hp hl, h => by
    obtain ⟨q1, q2, q3, q4⟩ := hp
    simp only at q3
    subst q3
    refine ⟨by rw [h1]; exact h.1, Reserved.rot h1 h2 hl h.2⟩

theorem linearize_rot {P P' : Prob K S} (hn : P'.sizeState = P.sizeState) (hc : P'.constKeys = P.constKeys)
    (hs : P'.varSlices = P.varSlices) (hr : P'.resSlices = P.resSlices) (he : P'.sizeErr = P.sizeErr)
    (hf : ∀ k s, P.varSlices.lookup k = some s → s.start ≤ s.stop ∧ s.stop ≤ P.sizeState)
    {l l' : List ((Residual K S × Loss) × ℕ)} (e1 : l.map Prod.fst = P.residuals.zip P.losses)
    (e2 : l'.map Prod.fst = P'.residuals.zip P'.losses) (r1 : Reserved P 0 0 l) (hl : List.Forall₂ RotPair l l')
    {vars vars' : List (K × S)} (hv : ∀ ks, lookupAll vars' ks = lookupAll vars ks) {L : Lin} (h : P.linearize vars = .ok L) :
    ∃ L', P'.linearize vars' = .ok L' ∧ LinRel (finCongr hn.symm) L L' := by
  have r2 : Reserved P' 0 0 l' := r1.rot hr he hl
  unfold Prob.linearize at h ⊢
  obtain ⟨a, h1, h⟩ := bind_ok h
  cases h
  rw [← e1] at h1
  have hz : ∀ (N M : ℕ) q, 0 ≤ q → ∀ c, (DMat.zeros N M).get q c = 0 := fun _ _ _ _ _ => rfl
  obtain ⟨as, h2⟩ := asmLoop_locals (n := P.sizeState) hf r1 rfl rfl (hz _ _) h1
  obtain ⟨a1, k1, k2, k3, k4⟩ := asmLoop_adds (n := P.sizeState) hf (a := ⟨fun _ => 0, DMat.zeros P.sizeErr P.sizeState, 0⟩) h2 r1
    rfl rfl (hz _ _)
  rw [h1] at k1
  cases k1
  obtain ⟨as0, h3, h4⟩ := h2.rot hf hl
  obtain ⟨as2, h5, h6⟩ := h3.rel (fun _ => Iff.rfl) (Corr.refl hf) hv
  have hf' : ∀ k s, P'.varSlices.lookup k = some s → s.start ≤ s.stop ∧ s.stop ≤ P'.sizeState := by rw [hs, hn]; exact hf
  have h5' : Locals P'.constKeys P'.varSlices P'.sizeState vars' l' as2 := by rw [hc, hs, hn]; exact h5
  obtain ⟨a2, j1, j2, j3, j4⟩ := asmLoop_adds (n := P'.sizeState) hf' (a := ⟨fun _ => 0, DMat.zeros P'.sizeErr P'.sizeState, 0⟩) h5' r2
    rfl rfl (hz _ _)
  have hcost : a2.cost = a.cost := by
    rw [j4, k4]
    congr 1
    exact (forall2_sum (fun x x' hx => hx.2.cost) h6).trans (forall2_sum (fun x x' hx => hx.2.cost) h4)
  refine ⟨⟨P'.sizeErr, P'.sizeState, fun i => a2.e i, fun i j => a2.H.get i j, a2.cost⟩, ?_, ?_⟩
  · rw [← e2, j1]
    rfl
  · rw [hcost]
    refine .mk _ _ _ _ _ (fun i j => ?_) (fun i => ?_)
    · refine (gram_fin a2.H.get _ _).trans (Eq.trans ?_ (gram_fin a.H.get i j).symm)
      show gram _ _ i.val j.val = _
      rw [j2 i.val j.val (by rw [hn]; exact i.2) (by rw [hn]; exact j.2), k2 _ _ i.2 j.2]
      congr 1
      refine (forall2_sum (f := fun x => gram x.1.H.get x.2 i j) (fun x x' hx => ?_) h6).trans (forall2_sum (fun x x' hx => ?_) h4)
      · rw [hx.1]
        exact gram_congr fun q hq => ⟨hx.2.H q hq i, hx.2.H q hq j⟩
      · rw [hx.1]
        exact hx.2.gram i j i.2 j.2
    · refine (grad_fin a2.H.get a2.e _).trans (Eq.trans ?_ (grad_fin a.H.get a.e i).symm)
      show grad _ _ _ i.val = _
      rw [j3 i.val (by rw [hn]; exact i.2), k3 _ i.2]
      congr 1
      refine (forall2_sum (f := fun x => grad x.1.H.get x.1.e x.2 i) (fun x x' hx => ?_) h6).trans (forall2_sum (fun x x' hx => ?_) h4)
      · rw [hx.1]
        exact grad_congr fun q hq => ⟨hx.2.H q hq i, hx.2.e q hq⟩
      · rw [hx.1]
        exact hx.2.grad i i.2

theorem eq_of_perm_keys {α : Type} {v v' : List (K × α)} (hp : v.Perm v') (hk : v'.map Prod.fst = v.map Prod.fst)
    (hn : (v.map Prod.fst).Nodup) : v' = v := by
  have hsv : SameVars v v' := ⟨hp, hn⟩
  have hl : v'.length = v.length := by simpa using congrArg List.length hk
  refine List.ext_getElem hl fun i h1 h2 => ?_
  have k1 : v'[i].1 = v[i].1 := by
    have := List.getElem_of_eq hk (i := i) (by simpa using h1)
    simpa using this
  have m1 : v'.lookup v'[i].1 = some v'[i].2 := lookup_mem ((hp.map Prod.fst).nodup_iff.1 hn) (List.getElem_mem h1)
  have m2 : v.lookup v[i].1 = some v[i].2 := lookup_mem hn (List.getElem_mem h2)
  rw [hsv.lookup, k1, m2] at m1
  exact Prod.ext k1 (Option.some.inj m1).symm

/-- `solve` on a fresh problem, with each residual replaced by a rotated one. -/
theorem solve_rot {o : VarOps S} {P Q : Prob K S} {rs : List (Residual K S)} (hr : List.Forall₂ Rotated P.residuals rs)
    (hkeys : (P.varsInit.map Prod.fst).Nodup) (hlen : P.losses.length = P.residuals.length)
    (hfresh : P.varSlices = [] ∧ P.cov = none ∧ P.info = none ∧ P.costHistory = []) (h : P.solve o = .ok Q) :
    ∃ Q', ({ P with residuals := rs } : Prob K S).solve o = .ok Q' ∧ Q'.vars = Q.vars ∧ Q'.costHistory = Q.costHistory ∧
      ∀ (k1 k2 : K) (r : Option DMat × Prob K S), Q.getCovarianceBlock k1 k2 = .ok r →
        ∃ r', Q'.getCovarianceBlock k1 k2 = .ok r' ∧ SameBlock r.1 r'.1 := by
  have h0 := h
  unfold Prob.solve at h0
  obtain ⟨P1, h1, -⟩ := bind_ok h0
  clear h0
  replace h1 : P.started o = .ok P1 := h1
  obtain ⟨r1, r2, r3⟩ := started_slices h1
  obtain ⟨e1, e2, e3, e4, e5, e6, e7, e8⟩ := started_fields h1
  obtain ⟨T, t1, t2⟩ := started_table h1 hfresh.1 hkeys
  have hok := rowSlices_ok r1
  have hrow : ∀ (rs1 rs2 : List (Residual K S)) (idx : ℕ), List.Forall₂ Rotated rs1 rs2 → ∀ t, rowSlices P.varsInit rs1 idx = .ok t →
      rowSlices P.varsInit rs2 idx = .ok t := by
    intro rs1 rs2 idx hf
    induction hf generalizing idx with
    | nil => intro t h; exact h
    | cons hp hl ih =>
      intro t h
      unfold rowSlices at h
      obtain ⟨xs, a1, h⟩ := bind_ok h
      obtain ⟨e, a2, h⟩ := bind_ok h
      obtain ⟨⟨sl, tot⟩, a3, h⟩ := bind_ok h
      obtain ⟨e', b1, b2⟩ := hp.error_length a2
      unfold rowSlices
      rw [hp.keys_eq, a1, ok_bindE, b1, ok_bindE, b2, ih _ _ a3, ok_bindE]
      exact h
  have g1 : ({ P with residuals := rs } : Prob K S).started o = .ok { P1 with residuals := rs } := by
    unfold Prob.started Prob.computeSize at h1 ⊢
    simp only at h1 ⊢
    obtain ⟨t, a1, h1⟩ := bind_ok h1
    rw [hrow _ _ _ hr _ a1, ok_bindE]
    cases h1
    rfl
  have hfst : (P.residuals.zip P.losses).map Prod.fst = P.residuals := List.map_fst_zip (by omega)
  have hsz : ∀ r ∈ P.residuals, ∃ xs e, lookupAll P.varsInit r.keys = .ok xs ∧ r.error xs = .ok e ∧ e.length = rowCount P.varsInit r := by
    intro r hr
    obtain ⟨xs, e, h1, h2⟩ := hok r hr
    refine ⟨xs, e, h1, h2, ?_⟩
    unfold rowCount
    rw [h1, ok_bindE, h2]
  have gres := rowSlices_of (v := P.varsInit) (rowCount P.varsInit) P.residuals 0 hsz
  rw [gres] at r1
  have r1' := Except.ok.inj r1
  have hres : Reserved P1 0 0 ((P.residuals.zip P.losses).map fun p => (p, rowCount P.varsInit p.1)) := by
    refine reserved_of (v := P.varsInit) _ _ 0 0 (fun j => ?_) ?_
    · rw [hfst, Nat.zero_add, r1']
    · rw [hfst, r1']
  have hpair : ∀ (rs1 rs2 : List (Residual K S)) (ls : List Loss), List.Forall₂ Rotated rs1 rs2 → (∀ r ∈ rs1, r ∈ P.residuals) →
      ∃ l', List.Forall₂ RotPair ((rs1.zip ls).map fun p => (p, rowCount P.varsInit p.1)) l' ∧ l'.map Prod.fst = rs2.zip ls := by
    intro rs1 rs2 ls hf
    induction hf generalizing ls with
    | nil => intro _; exact ⟨[], .nil, by simp⟩
    | cons hp hl ih =>
      rename_i r r' _ _
      intro hm
      cases ls with
      | nil => exact ⟨[], by simp, by simp⟩
      | cons x ls =>
        obtain ⟨l', c1, c2⟩ := ih ls fun r hr => hm r (List.mem_cons_of_mem _ hr)
        refine ⟨((r', x), rowCount P.varsInit r) :: l', ?_, ?_⟩
        · refine List.Forall₂.cons ⟨hp, rfl, rfl, fun xs err he => ?_⟩ c1
          show r' = r ∨ err.length = rowCount P.varsInit r
          obtain ⟨xs0, err0, f1, f2, f3⟩ := hsz r (hm r List.mem_cons_self)
          cases hp with
          | refl => exact Or.inl rfl
          | rot m _ _ hk hrot =>
            right
            have := (hrot _ _ he).1
            have := (hrot _ _ f2).1
            omega
        · simp [c2]
  obtain ⟨l', c1, c2⟩ := hpair _ _ P.losses hr (fun _ h => h)
  have hal : ProbAlike P1 { P1 with residuals := rs } (finCongr rfl) :=
    ⟨rfl, fun _ => Iff.rfl, Corr.refl T.fits, fun hv L hL => linearize_rot (P := P1) (P' := { P1 with residuals := rs }) rfl rfl rfl rfl rfl
      T.fits (by rw [List.map_map, e4, e5]; exact List.map_id _) (by rw [c2]; simp only [e5]) hres c1 hv hL⟩
  have hch : P1.costHistory = P.costHistory := by
    unfold Prob.started Prob.computeSize at h1
    obtain ⟨⟨rs, m⟩, q1, h1⟩ := bind_ok h1
    cases h1
    rfl
  obtain ⟨Q', σ, k1, k2, k3⟩ := solve_of_alike (P := P) (P' := { P with residuals := rs }) rfl h1 g1 hal
    ⟨List.Perm.refl _, by rw [e6]; exact hkeys⟩ rfl (by rw [e8]; exact hfresh.2.1) (by rw [e7]; exact hfresh.2.2.1)
    (by show P1.info = none; rw [e7]; exact hfresh.2.2.1) rfl h
  refine ⟨Q', k1, ?_, k2.costs, k2.block k3⟩
  have w1 := (C36_constant o _ _ h).2.1
  have w2 : Q'.vars.map Prod.fst = P.varsInit.map Prod.fst := (C36_constant o _ _ k1).2.1
  exact eq_of_perm_keys k2.vars.perm (w2.trans w1.symm) k2.vars.nodup

end Verif
