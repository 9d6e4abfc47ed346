import Verif.Props.GaussNewton

/-!
C40 for linear least squares problems over vector states.
-/

namespace Verif

set_option linter.unusedVariables false
set_option linter.unusedSectionVars false

open Matrix

variable {K : Type} [DecidableEq K]

/-- `VectorState` (`lib/states.py:21-55`) as a variable of a problem: `dof` and `plus`
(a direction of another size raises `ValueError`). -/
def vecVarOps : VarOps (List ℝ) where
  dof := List.length
  plus x dx := if dx.length = x.length then .ok (List.zipWith (· + ·) x dx) else .error .valueError

/-- Error of a linear residual: `b + Σ J_t x_t`, `n` components. -/
noncomputable def linErr (n : ℕ) (b : ℕ → ℝ) (Js : List DMat) (xs : List (List ℝ)) : List ℝ :=
  (List.range n).map fun a =>
    b a + ((Js.zip xs).map fun p => ∑ c ∈ Finset.range p.1.cols, p.1.get a c * p.2.getD c 0).sum

/-- A linear residual with constant Jacobians, computed only for the keys that are asked for. -/
noncomputable def linRes (ks : List K) (Js : List DMat) (n : ℕ) (b : ℕ → ℝ) : Residual K (List ℝ) where
  keys := ks
  error xs := .ok (linErr n b Js xs)
  jacobians _ flags := .ok (List.zipWith (fun J f => if f then some J else none) Js flags)

/-- A linear least squares problem: distinct keys, L2 losses, linear residuals with Jacobians of the right shapes. -/
structure LinearProblem (P : Prob K (List ℝ)) : Prop where
  keys : (P.varsInit.map Prod.fst).Nodup
  losses : P.losses = P.residuals.map fun _ => l2Loss
  residuals : ∀ r ∈ P.residuals, ∃ (ks : List K) (Js : List DMat) (n : ℕ) (b : ℕ → ℝ), r = linRes ks Js n b ∧
    ks.Nodup ∧ Js.length = ks.length ∧ ∀ (t : ℕ) (k : K) (J : DMat), ks[t]? = some k → Js[t]? = some J →
      J.rows = n ∧ ∃ x, P.varsInit.lookup k = some x ∧ J.cols = x.length

/-- Assignments of the same variables with the same sizes. -/
def SameShape (v0 v : List (K × List ℝ)) : Prop :=
  v.map Prod.fst = v0.map Prod.fst ∧ v.map (fun p => p.2.length) = v0.map fun p => p.2.length

theorem SameShape.lookup : ∀ {v0 v : List (K × List ℝ)}, SameShape v0 v → ∀ {k : K} {x : List ℝ},
    v0.lookup k = some x → ∃ y, v.lookup k = some y ∧ y.length = x.length
  | [], v, h, k, x, hx => by simp at hx
  | (q, x0) :: l0, [], h, k, x, hx => by simp [SameShape] at h
  | (q, x0) :: l0, (q', y0) :: l, h, k, x, hx => by
    obtain ⟨h1, h2⟩ := h
    simp only [List.map_cons, List.cons.injEq] at h1 h2
    obtain ⟨rfl, h1⟩ := h1
    by_cases e : k = q'
    · subst e
      rw [lookup_cons_self] at hx ⊢
      cases hx
      exact ⟨y0, rfl, h2.1⟩
    · rw [lookup_cons_ne _ _ e] at hx ⊢
      exact SameShape.lookup ⟨h1, h2.2⟩ hx

theorem lookupAll_of {S : Type} [Inhabited S] {v : List (K × S)} : ∀ {ks : List K},
    (∀ k ∈ ks, ∃ x, v.lookup k = some x) → lookupAll v ks = .ok (ks.map fun k => (v.lookup k).getD default)
  | [], h => rfl
  | k :: ks, h => by
    obtain ⟨x, hx⟩ := h k (by simp)
    have ih := lookupAll_of (v := v) (ks := ks) fun q hq => h q (by simp [hq])
    unfold lookupAll
    rw [dictGet_ok.2 hx, ih]
    simp only [bind, Except.bind, List.map_cons, hx]
    rfl

/-! ### Whether the assembly succeeds depends only on sizes and Jacobians -/

theorem setBlock_transfer {A A' B C : DMat} {s1 s2 : Slice} {w w' : ℝ}
    (h : A.setBlock s1 s2 (B.scale w) = .ok A') (hr : C.rows = A.rows) (hc : C.cols = A.cols) :
    ∃ C', C.setBlock s1 s2 (B.scale w') = .ok C' := by
  unfold DMat.setBlock at h ⊢
  split at h
  · rename_i hh
    refine ⟨_, if_pos ?_⟩
    rw [hr, hc]; exact hh
  · cases h

theorem placeJacs_transfer {S : Type} {vs : List (K × Slice)} {s : Slice} {w w' : ℝ} : ∀ {ks : List K}
    {js : List (Option DMat)} {A A' C : DMat}, placeJacs vs s w ks js A = .ok A' → C.rows = A.rows →
    C.cols = A.cols → ∃ C', placeJacs vs s w' ks js C = .ok C'
  | [], js, A, A', C, h, hr, hc => ⟨C, rfl⟩
  | k :: ks, [], A, A', C, h, hr, hc => by simp [placeJacs] at h
  | k :: ks, none :: js, A, A', C, h, hr, hc => by
    unfold placeJacs at h ⊢
    exact placeJacs_transfer (S := S) h hr hc
  | k :: ks, some J :: js, A, A', C, h, hr, hc => by
    unfold placeJacs at h
    obtain ⟨cs, h1, h⟩ := bind_ok h
    obtain ⟨A1, h2, h⟩ := bind_ok h
    obtain ⟨C1, h2'⟩ := setBlock_transfer (w' := w') h2 hr hc
    obtain ⟨f1, f2, -⟩ := setBlock_frame h2
    obtain ⟨f1', f2', -⟩ := setBlock_frame h2'
    obtain ⟨C', h3⟩ := placeJacs_transfer (S := S) (w' := w') (C := C1) h (by rw [f1, f1', hr]) (by rw [f2, f2', hc])
    refine ⟨C', ?_⟩
    unfold placeJacs
    simp only [h1, h2', bind, Except.bind]
    exact h3

theorem asmLoop_transfer {S : Type} {P : Prob K S} {v v' : List (K × S)} : ∀ {l : List (Residual K S × Loss)} {i : ℕ}
    {a a' b : Asm}, asmLoop P v i l a = .ok a' → b.H.rows = a.H.rows → b.H.cols = a.H.cols →
    (∀ p ∈ l, ∀ xs err jacs, lookupAll v p.1.keys = .ok xs → p.1.error xs = .ok err →
      p.1.jacobians xs (p.1.keys.map fun k => !(P.constKeys.contains k)) = .ok jacs →
      ∃ xs' err', lookupAll v' p.1.keys = .ok xs' ∧ p.1.error xs' = .ok err' ∧ err'.length = err.length ∧
        p.1.jacobians xs' (p.1.keys.map fun k => !(P.constKeys.contains k)) = .ok jacs) →
    ∃ b', asmLoop P v' i l b = .ok b'
  | [], i, a, a', b, h, hr, hc, hp => ⟨b, rfl⟩
  | (r, ls) :: l, i, a, a', b, h, hr, hc, hp => by
    unfold asmLoop at h
    obtain ⟨xs, h1, h⟩ := bind_ok h
    obtain ⟨err, h2, h⟩ := bind_ok h
    obtain ⟨jacs, h3, h⟩ := bind_ok h
    obtain ⟨s, h4, h⟩ := bind_ok h
    obtain ⟨e', h5, h⟩ := bind_ok h
    obtain ⟨H', h6, h⟩ := bind_ok h
    obtain ⟨xs', err', g1, g2, g3, g4⟩ := hp (r, ls) (by simp) xs err jacs h1 h2 h3
    replace g1 : lookupAll v' r.keys = .ok xs' := g1
    replace g2 : r.error xs' = .ok err' := g2
    replace g4 : r.jacobians xs' (r.keys.map fun k => !(P.constKeys.contains k)) = .ok jacs := g4
    have hseg : ∃ e'', setSeg P.sizeErr b.e s (err'.map (Real.sqrt (ls.weight (listNorm err')) * ·)) = .ok e'' := by
      unfold setSeg at h5 ⊢
      split at h5
      · rename_i hh
        refine ⟨_, if_pos ?_⟩
        simp only [List.length_map] at hh ⊢
        rw [g3]; exact hh
      · cases h5
    obtain ⟨e'', h5'⟩ := hseg
    obtain ⟨H'', h6'⟩ := placeJacs_transfer (S := S) (w' := Real.sqrt (ls.weight (listNorm err'))) h6 hr hc
    obtain ⟨p1, p2, -⟩ := placeJacs_frame h6
    obtain ⟨p1', p2', -⟩ := placeJacs_frame h6'
    obtain ⟨b', hb⟩ := asmLoop_transfer (b := ⟨e'', H'', b.cost + ls.loss (listNorm err')⟩) h
      (by show H''.rows = H'.rows; rw [p1, p1', hr]) (by show H''.cols = H'.cols; rw [p2, p2', hc])
      (fun p hp' => hp p (by simp [hp']))
    refine ⟨b', ?_⟩
    unfold asmLoop
    simp only [g1, g2, g4, h4, h5', h6', bind, Except.bind]
    exact hb

theorem linearize_transfer {S : Type} {P : Prob K S} {v v' : List (K × S)} {L : Lin} (h : P.linearize v = .ok L)
    (hp : ∀ p ∈ P.residuals.zip P.losses, ∀ xs err jacs, lookupAll v p.1.keys = .ok xs → p.1.error xs = .ok err →
      p.1.jacobians xs (p.1.keys.map fun k => !(P.constKeys.contains k)) = .ok jacs →
      ∃ xs' err', lookupAll v' p.1.keys = .ok xs' ∧ p.1.error xs' = .ok err' ∧ err'.length = err.length ∧
        p.1.jacobians xs' (p.1.keys.map fun k => !(P.constKeys.contains k)) = .ok jacs) :
    ∃ L', P.linearize v' = .ok L' := by
  unfold Prob.linearize at h
  obtain ⟨a, h1, h⟩ := bind_ok h
  obtain ⟨b', hb⟩ := asmLoop_transfer (b := ⟨fun _ => 0, DMat.zeros P.sizeErr P.sizeState, 0⟩) h1 rfl rfl hp
  exact ⟨_, by unfold Prob.linearize; rw [hb]; rfl⟩

/-! ### Moving vector variables -/

/-- `x` moved by the components of `δ` from position `start` on. -/
def moveVec {n : ℕ} (δ : Vec n) (start : ℕ) (x : List ℝ) : List ℝ :=
  x.mapIdx fun c xc => xc + if h : start + c < n then δ ⟨start + c, h⟩ else 0

theorem moveVec_get {n : ℕ} (δ : Vec n) (start : ℕ) (x : List ℝ) (c : ℕ) (h1 : c < (moveVec δ start x).length)
    (h2 : c < x.length) :
    (moveVec δ start x)[c] = x[c] + if h : start + c < n then δ ⟨start + c, h⟩ else 0 := List.getElem_mapIdx

/-- All free variables moved. -/
def moveAll {n : ℕ} (const : List K) (sl : List (K × Slice)) (δ : Vec n) (v : List (K × List ℝ)) :
    List (K × List ℝ) :=
  v.map fun p => if p.1 ∈ const then p else (p.1, moveVec δ ((sl.lookup p.1).getD ⟨0, 0⟩).start p.2)

theorem vec_plus {n : ℕ} (δ : Vec n) (s : Slice) (x : List ℝ) (h1 : s.stop = s.start + x.length) (h2 : s.stop ≤ n) :
    vecVarOps.plus x (((List.ofFn δ).drop s.start).take (s.stop - s.start)) = .ok (moveVec δ s.start x) := by
  have hlen : (((List.ofFn δ).drop s.start).take (s.stop - s.start)).length = x.length := by
    rw [List.length_take, List.length_drop, List.length_ofFn]; omega
  show (if _ then _ else _) = _
  rw [if_pos hlen]
  congr 1
  refine List.ext_getElem ?_ ?_
  · rw [List.length_zipWith, hlen]; simp [moveVec]
  · intro c hc1 hc2
    have hcx : c < x.length := by simpa [moveVec] using hc2
    rw [List.getElem_zipWith]
    rw [moveVec_get _ _ _ _ _ hcx, dif_pos (by omega)]
    congr 1
    rw [List.getElem_take, List.getElem_drop, List.getElem_ofFn]

/-- The slices fit the variables. -/
def SlicesFit (const : List K) (sl : List (K × Slice)) (n : ℕ) (v : List (K × List ℝ)) : Prop :=
  ∀ p ∈ v, p.1 ∉ const → ∃ s : Slice, sl.lookup p.1 = some s ∧ s.stop = s.start + p.2.length ∧ s.stop ≤ n

theorem correct_vec {n : ℕ} {const : List K} {sl : List (K × Slice)} (δ : Vec n) : ∀ {v : List (K × List ℝ)},
    SlicesFit const sl n v → correctStates vecVarOps const sl (List.ofFn δ) v = .ok (moveAll const sl δ v)
  | [], h => rfl
  | (k, x) :: v, h => by
    have ih := correct_vec δ (v := v) fun p hp => h p (by simp [hp])
    unfold correctStates
    by_cases hk : k ∈ const
    · rw [if_pos hk, ih]
      simp only [bind, Except.bind, moveAll, List.map_cons, if_pos hk]
      rfl
    · obtain ⟨s, hs1, hs2, hs3⟩ := h (k, x) (by simp) hk
      rw [if_neg hk, dictGet_ok.2 hs1]
      simp only [bind, Except.bind]
      rw [vec_plus δ s x hs2 hs3, ih]
      simp only [moveAll, List.map_cons, if_neg hk]
      rw [hs1]
      rfl

theorem moveAll_shape {n : ℕ} {const : List K} {sl : List (K × Slice)} (δ : Vec n) (v : List (K × List ℝ)) :
    SameShape v (moveAll const sl δ v) := by
  unfold SameShape moveAll
  rw [List.map_map, List.map_map]
  constructor
  · refine List.map_congr_left fun p _ => ?_
    simp only [Function.comp]
    split <;> rfl
  · refine List.map_congr_left fun p _ => ?_
    simp only [Function.comp]
    split
    · rfl
    · simp [moveVec]

theorem moveAll_fit {n : ℕ} {const : List K} {sl : List (K × Slice)} {δ : Vec n} {v : List (K × List ℝ)}
    (h : SlicesFit const sl n v) : SlicesFit const sl n (moveAll const sl δ v) := by
  intro p hp hc
  unfold moveAll at hp
  obtain ⟨q, hq, rfl⟩ := List.mem_map.1 hp
  by_cases hk : q.1 ∈ const
  · rw [if_pos hk] at hc; exact absurd hk hc
  · rw [if_neg hk] at hc ⊢
    obtain ⟨s, hs1, hs2, hs3⟩ := h q hq hk
    exact ⟨s, hs1, by simpa [moveVec] using hs2, hs3⟩

theorem moveVec_zero {n : ℕ} (st : ℕ) (x : List ℝ) : moveVec (0 : Vec n) st x = x := by
  refine List.ext_getElem (by simp [moveVec]) fun c h1 h2 => ?_
  rw [moveVec_get _ _ _ _ _ h2]
  split <;> simp

theorem moveVec_add {n : ℕ} (δ δ' : Vec n) (st : ℕ) (x : List ℝ) :
    moveVec δ' st (moveVec δ st x) = moveVec (δ + δ') st x := by
  refine List.ext_getElem (by simp [moveVec]) fun c h1 h2 => ?_
  have h3 : c < x.length := by simpa [moveVec] using h2
  rw [moveVec_get _ _ _ _ _ (by simpa [moveVec] using h3), moveVec_get _ _ _ _ _ h3, moveVec_get _ _ _ _ _ h3]
  split
  · simp only [Pi.add_apply]; ring
  · ring

theorem moveAll_zero {n : ℕ} (const : List K) (sl : List (K × Slice)) (v : List (K × List ℝ)) :
    moveAll const sl (0 : Vec n) v = v := by
  unfold moveAll
  conv_rhs => rw [← List.map_id v]
  refine List.map_congr_left fun p _ => ?_
  split
  · rfl
  · rw [moveVec_zero]; rfl

theorem moveAll_add {n : ℕ} (const : List K) (sl : List (K × Slice)) (δ δ' : Vec n) (v : List (K × List ℝ)) :
    moveAll const sl δ' (moveAll const sl δ v) = moveAll const sl (δ + δ') v := by
  unfold moveAll
  rw [List.map_map]
  refine List.map_congr_left fun p _ => ?_
  simp only [Function.comp]
  by_cases h : p.1 ∈ const
  · simp [h]
  · simp [h, moveVec_add]

theorem moveAll_lookup {n : ℕ} (const : List K) (sl : List (K × Slice)) (δ : Vec n) (k : K) :
    ∀ v : List (K × List ℝ), (moveAll const sl δ v).lookup k =
      (v.lookup k).map fun x => if k ∈ const then x else moveVec δ ((sl.lookup k).getD ⟨0, 0⟩).start x
  | [] => rfl
  | (q, x) :: v => by
    have ih := moveAll_lookup const sl δ k v
    unfold moveAll at ih ⊢
    rw [List.map_cons]
    by_cases e : k = q
    · subst e
      by_cases hk : k ∈ const
      · simp only [if_pos hk]; rw [lookup_cons_self, lookup_cons_self]; rfl
      · simp only [if_neg hk]; rw [lookup_cons_self, lookup_cons_self]; rfl
    · by_cases hq : q ∈ const
      · simp only [if_pos hq]; rw [lookup_cons_ne _ _ e, lookup_cons_ne _ _ e]; exact ih
      · simp only [if_neg hq]; rw [lookup_cons_ne _ _ e, lookup_cons_ne _ _ e]; exact ih

/-! ### Linear problems are affine -/

/-- The value of variable `k`. -/
def valOf (v : List (K × List ℝ)) (k : K) : List ℝ := (v.lookup k).getD []

/-- The direction of variable `k` inside a stacked direction. -/
noncomputable def dirOf {n : ℕ} (sl : List (K × Slice)) (δ : Vec n) (k : K) (c : ℕ) : ℝ :=
  if h : ((sl.lookup k).getD ⟨0, 0⟩).start + c < n then δ ⟨((sl.lookup k).getD ⟨0, 0⟩).start + c, h⟩ else 0

theorem lookup_mem {S : Type} {v : List (K × S)} (hn : (v.map Prod.fst).Nodup) {k : K} {x : S} (h : (k, x) ∈ v) :
    v.lookup k = some x := by
  induction v with
  | nil => simp at h
  | cons p v ih =>
    obtain ⟨q, y⟩ := p
    rcases List.mem_cons.1 h with e | h'
    · cases e; exact lookup_cons_self _ _ _
    · have hne : k ≠ q := by
        rintro rfl
        exact (List.nodup_cons.1 hn).1 (List.mem_map.2 ⟨(k, x), h', rfl⟩)
      rw [lookup_cons_ne _ _ hne]
      exact ih (List.nodup_cons.1 hn).2 h'

theorem mem_of_lookup {S : Type} : ∀ {v : List (K × S)} {k : K} {x : S}, v.lookup k = some x → (k, x) ∈ v
  | [], k, x, h => by simp at h
  | (q, y) :: v, k, x, h => by
    by_cases e : k = q
    · subst e; rw [lookup_cons_self] at h; cases h; simp
    · rw [lookup_cons_ne _ _ e] at h
      exact List.mem_cons_of_mem _ (mem_of_lookup h)

theorem linear_fit {P P1 : Prob K (List ℝ)} (hP : LinearProblem P) (h : P.started vecVarOps = .ok P1) :
    SlicesFit P1.constKeys P1.varSlices P1.sizeState P.varsInit := by
  obtain ⟨e1, e2, e3, e4, e5, e6, -, -⟩ := started_fields h
  obtain ⟨-, h2, h3⟩ := started_slices h
  obtain ⟨c1, c2⟩ := colSlices_spec (o := vecVarOps) (const := P.constKeys) P.varsInit 0 P.varSlices hP.keys
  simp only [Nat.zero_add] at c1 c2
  rw [← h3] at c1
  rw [← h2] at c2
  intro p hp hk
  rw [e3] at hk
  have hm : p ∈ freeVars P.constKeys P.varsInit := by
    unfold freeVars; rw [List.mem_filter]; exact ⟨hp, by simpa using hk⟩
  obtain ⟨j, hj, hj'⟩ := List.getElem_of_mem hm
  have hjj : (freeVars P.constKeys P.varsInit)[j]? = some (p.1, p.2) := by rw [List.getElem?_eq_getElem hj, hj']
  have hjl : j < (freeDofs vecVarOps P.constKeys P.varsInit).length := by simpa [freeDofs] using hj
  refine ⟨_, c2 j p.1 p.2 hjj, ?_, ?_⟩
  · show pre _ (j + 1) = pre _ j + _
    rw [pre_succ _ j hjl]
    congr 1
    simp only [freeDofs, List.getElem_map, hj']
    rfl
  · show pre _ _ ≤ _
    rw [c1]; exact pre_le_sum _ _

/-- What evaluating a linear residual gives at an assignment of the right shape. -/
theorem linear_eval {P : Prob K (List ℝ)} (hP : LinearProblem P) {v : List (K × List ℝ)}
    (hv : SameShape P.varsInit v) {ks : List K} {Js : List DMat} {n : ℕ} {b : ℕ → ℝ} (hlen : Js.length = ks.length)
    (hsh : ∀ (t : ℕ) (k : K) (J : DMat), ks[t]? = some k → Js[t]? = some J →
      J.rows = n ∧ ∃ x, P.varsInit.lookup k = some x ∧ J.cols = x.length) :
    lookupAll v (linRes ks Js n b).keys = .ok (ks.map (valOf v)) ∧
    (linRes ks Js n b).error (ks.map (valOf v)) = .ok (linErr n b Js (ks.map (valOf v))) ∧
    (linErr n b Js (ks.map (valOf v))).length = n := by
  refine ⟨?_, rfl, by simp [linErr]⟩
  have := lookupAll_of (v := v) (ks := ks) (fun k hk => by
    obtain ⟨t, ht, ht'⟩ := List.getElem_of_mem hk
    obtain ⟨-, x, hx, -⟩ := hsh t k (Js[t]'(by omega)) (by rw [List.getElem?_eq_getElem ht, ht'])
      (List.getElem?_eq_getElem _)
    obtain ⟨y, hy, -⟩ := hv.lookup hx
    exact ⟨y, hy⟩)
  exact this

theorem linErr_getD {n : ℕ} {b : ℕ → ℝ} {Js : List DMat} {xs : List (List ℝ)} {a : ℕ} (ha : a < n) :
    (linErr n b Js xs).getD a 0 =
      b a + ((Js.zip xs).map fun p => ∑ c ∈ Finset.range p.1.cols, p.1.get a c * p.2.getD c 0).sum := by
  unfold linErr
  rw [List.getD_eq_getElem?_getD, List.getElem?_map, List.getElem?_range ha]
  rfl

/-- The Jacobians a linear residual returns. -/
def linJacs (const : List K) (ks : List K) (Js : List DMat) : List (Option DMat) :=
  List.zipWith (fun J f => if f then some J else none) Js (ks.map fun k => !(const.contains k))

theorem linJacs_get {const ks : List K} {Js : List DMat} {t : ℕ} {k : K} {J : DMat} (h1 : ks[t]? = some k)
    (h2 : Js[t]? = some J) : (linJacs const ks Js)[t]? = some (if k ∈ const then none else some J) := by
  unfold linJacs
  rw [List.getElem?_zipWith, h2, List.getElem?_map, h1]
  by_cases hk : k ∈ const <;> simp [hk]

theorem linJacs_some {const ks : List K} {Js : List DMat} {t : ℕ} {k : K} {J : DMat} (hlen : Js.length = ks.length)
    (h1 : ks[t]? = some k) (h2 : (linJacs const ks Js)[t]? = some (some J)) : k ∉ const ∧ Js[t]? = some J := by
  have ht : t < ks.length := (List.getElem?_eq_some_iff.1 h1).1
  have hJ : Js[t]? = some (Js[t]'(by omega)) := List.getElem?_eq_getElem _
  rw [linJacs_get h1 hJ] at h2
  by_cases hk : k ∈ const
  · rw [if_pos hk] at h2; cases h2
  · rw [if_neg hk] at h2
    refine ⟨hk, ?_⟩
    rw [hJ]
    simpa using h2

/-- The change of a linear residual when the variables move. -/
theorem linErr_move {P P1 : Prob K (List ℝ)} (hP : LinearProblem P) (h : P.started vecVarOps = .ok P1)
    (δ : Vec P1.sizeState) {ks : List K} {Js : List DMat} {n : ℕ} {b : ℕ → ℝ} (hnd : ks.Nodup)
    (hlen : Js.length = ks.length)
    (hsh : ∀ (t : ℕ) (k : K) (J : DMat), ks[t]? = some k → Js[t]? = some J →
      J.rows = n ∧ ∃ x, P.varsInit.lookup k = some x ∧ J.cols = x.length) {a : ℕ} (ha : a < n) :
    (linErr n b Js (ks.map (valOf (moveAll P.constKeys P1.varSlices δ P.varsInit)))).getD a 0 =
      (linErr n b Js (ks.map (valOf P.varsInit))).getD a 0 +
      ((freeVars P.constKeys P.varsInit).map fun p => ∑ c ∈ Finset.range (vecVarOps.dof p.2),
        jacOf ks (linJacs P.constKeys ks Js) p.1 a c * dirOf P1.varSlices δ p.1 c).sum := by
  rw [linErr_getD ha, linErr_getD ha, add_assoc]
  congr 1
  -- the contribution of one key
  let G : K → ℝ := fun k => ∑ c ∈ Finset.range (valOf P.varsInit k).length,
    jacOf ks (linJacs P.constKeys ks Js) k a c * dirOf P1.varSlices δ k c
  have hz : ∀ X : K → List ℝ, (Js.zip (ks.map X)).map (fun p => ∑ c ∈ Finset.range p.1.cols, p.1.get a c * p.2.getD c 0) =
      (ks.zip Js).map fun p => ∑ c ∈ Finset.range p.2.cols, p.2.get a c * (X p.1).getD c 0 := by
    intro X
    clear ha hsh hnd G
    induction ks generalizing Js with
    | nil => simp
    | cons k ks ih =>
      cases Js with
      | nil => simp
      | cons J Js =>
        simp only [List.map_cons, List.zip_cons_cons, List.cons.injEq]
        exact ⟨by first | rfl | trivial, ih (by simpa using hlen)⟩
  rw [hz, hz]
  have hterm : ∀ p ∈ ks.zip Js, ∑ c ∈ Finset.range p.2.cols,
      p.2.get a c * (valOf (moveAll P.constKeys P1.varSlices δ P.varsInit) p.1).getD c 0 =
      (∑ c ∈ Finset.range p.2.cols, p.2.get a c * (valOf P.varsInit p.1).getD c 0) + G p.1 := by
    rintro ⟨k, J⟩ hp
    obtain ⟨t, ht, ht'⟩ := List.getElem_of_mem hp
    rw [List.length_zip] at ht
    have hk : ks[t]? = some k := by
      rw [List.getElem?_eq_getElem (by omega)]
      have := congrArg Prod.fst ht'
      rw [List.getElem_zip] at this
      exact congrArg some this
    have hJ : Js[t]? = some J := by
      rw [List.getElem?_eq_getElem (by omega)]
      have := congrArg Prod.snd ht'
      rw [List.getElem_zip] at this
      exact congrArg some this
    obtain ⟨-, x, hx, hcols⟩ := hsh t k J hk hJ
    have hval : valOf P.varsInit k = x := by unfold valOf; rw [hx]; rfl
    have hjac : ∀ c, jacOf ks (linJacs P.constKeys ks Js) k a c = if k ∈ P.constKeys then 0 else J.get a c := by
      intro c
      unfold jacOf
      rw [zip_lookup_at hnd hk (linJacs_get hk hJ)]
      by_cases hc : k ∈ P.constKeys <;> simp [hc]
    have hmv : valOf (moveAll P.constKeys P1.varSlices δ P.varsInit) k =
        if k ∈ P.constKeys then x else moveVec δ ((P1.varSlices.lookup k).getD ⟨0, 0⟩).start x := by
      unfold valOf
      rw [moveAll_lookup, hx]
      rfl
    show _ = _ + ∑ c ∈ Finset.range (valOf P.varsInit k).length, _
    simp only [hval, hmv, hjac]
    rw [← hcols, ← Finset.sum_add_distrib]
    refine Finset.sum_congr rfl fun c hc => ?_
    rw [Finset.mem_range, hcols] at hc
    by_cases hk' : k ∈ P.constKeys
    · simp [hk']
    · rw [if_neg hk', if_neg hk']
      have e1 : (moveVec δ ((P1.varSlices.lookup k).getD ⟨0, 0⟩).start x).getD c 0 =
          x.getD c 0 + dirOf P1.varSlices δ k c := by
        have hc' : c < (moveVec δ ((P1.varSlices.lookup k).getD ⟨0, 0⟩).start x).length := by
          simpa [moveVec] using hc
        rw [List.getD_eq_getElem?_getD, List.getElem?_eq_getElem hc', List.getD_eq_getElem?_getD,
          List.getElem?_eq_getElem hc]
        exact moveVec_get _ _ _ _ hc' hc
      rw [e1]
      ring
  rw [List.map_congr_left hterm, List.sum_map_add]
  congr 1
  have hfst : ((ks.zip Js).map fun p => G p.1) = ks.map G := by
    have : (ks.zip Js).map Prod.fst = ks := List.map_fst_zip (by omega)
    conv_rhs => rw [← this]
    rw [List.map_map]
    rfl
  rw [hfst]
  have hfree : ((freeVars P.constKeys P.varsInit).map fun p => ∑ c ∈ Finset.range (vecVarOps.dof p.2),
        jacOf ks (linJacs P.constKeys ks Js) p.1 a c * dirOf P1.varSlices δ p.1 c) =
      ((freeVars P.constKeys P.varsInit).map Prod.fst).map G := by
    rw [List.map_map]
    refine List.map_congr_left fun p hp => ?_
    have : P.varsInit.lookup p.1 = some p.2 := lookup_mem hP.keys (List.mem_of_mem_filter hp)
    show _ = ∑ c ∈ Finset.range (valOf P.varsInit p.1).length, _
    unfold valOf
    rw [this]
    rfl
  rw [hfree]
  have hfn := freeVars_nodup (const := P.constKeys) hP.keys
  rw [← List.sum_toFinset G hnd, ← List.sum_toFinset G hfn]
  have hu : ∀ k, G k ≠ 0 → (k ∈ ks ↔ k ∈ (freeVars P.constKeys P.varsInit).map Prod.fst) := by
    intro k hG
    obtain ⟨c, -, hc⟩ := Finset.exists_ne_zero_of_sum_ne_zero hG
    have hj : jacOf ks (linJacs P.constKeys ks Js) k a c ≠ 0 := left_ne_zero_of_mul hc
    unfold jacOf at hj
    cases hl : (ks.zip (linJacs P.constKeys ks Js)).lookup k with
    | none => rw [hl] at hj; exact absurd rfl hj
    | some oj =>
      rw [hl] at hj
      cases oj with
      | none => exact absurd rfl hj
      | some J =>
        obtain ⟨t, t1, t2⟩ := lookup_zip_at hl
        obtain ⟨hkc, hJ⟩ := linJacs_some hlen t1 t2
        obtain ⟨-, x, hx, -⟩ := hsh t k J t1 hJ
        refine ⟨fun _ => ?_, fun _ => List.mem_of_getElem? t1⟩
        refine List.mem_map.2 ⟨(k, x), ?_, rfl⟩
        unfold freeVars
        rw [List.mem_filter]
        exact ⟨mem_of_lookup hx, by simpa using hkc⟩
  rw [← Finset.sum_filter_ne_zero (s := ks.toFinset),
    ← Finset.sum_filter_ne_zero (s := ((freeVars P.constKeys P.varsInit).map Prod.fst).toFinset)]
  refine Finset.sum_congr ?_ fun _ _ => rfl
  ext k
  simp only [Finset.mem_filter, List.mem_toFinset]
  constructor
  · rintro ⟨a1, a2⟩; exact ⟨(hu k a2).1 a1, a2⟩
  · rintro ⟨a1, a2⟩; exact ⟨(hu k a2).2 a1, a2⟩

/-- The rows of one residual of a linear problem at any assignment of the right shape. -/
theorem linear_rows {P P1 : Prob K (List ℝ)} (hP : LinearProblem P) (h : P.started vecVarOps = .ok P1)
    {v : List (K × List ℝ)} (hv : SameShape P.varsInit v) {e : Vec P1.sizeErr} {H : Mat P1.sizeErr P1.sizeState}
    {c : ℝ} (hL : P1.linearize v = .ok ⟨P1.sizeErr, P1.sizeState, e, H, c⟩) (q : Fin P1.sizeErr) :
    ∃ (ks : List K) (Js : List DMat) (n : ℕ) (b : ℕ → ℝ) (i a : ℕ) (s : Slice),
      P.residuals[i]? = some (linRes ks Js n b) ∧ P1.resSlices[i]? = some s ∧ (q : ℕ) = s.start + a ∧ a < n ∧
      e q = (linErr n b Js (ks.map (valOf v))).getD a 0 ∧
      ∀ δ : Vec P1.sizeState, (H *ᵥ δ) q =
        ((freeVars P.constKeys P.varsInit).map fun p => ∑ c ∈ Finset.range (vecVarOps.dof p.2),
          jacOf ks (linJacs P.constKeys ks Js) p.1 a c * dirOf P1.varSlices δ p.1 c).sum := by
  obtain ⟨rows1, rows2, -, -, -, rows6⟩ := C37_rows vecVarOps P P1 h
  obtain ⟨i, ⟨s, hs, hs1, hs2⟩, -⟩ := rows6 q q.2
  have hi : i < P.residuals.length := rows1 ▸ (List.getElem?_eq_some_iff.1 hs).1
  have hir : P.residuals[i]? = some P.residuals[i] := List.getElem?_eq_getElem hi
  obtain ⟨ks, Js, n, b, hr, hnd, hlen, hsh⟩ := hP.residuals _ (List.getElem_mem hi)
  rw [hr] at hir
  obtain ⟨xs0, e0, s0, r1, r2, r3, r4⟩ := rows2 i _ hir
  rw [hs] at r3; cases r3
  obtain ⟨l1, l2, l3⟩ := linear_eval (b := b) hP ⟨rfl, rfl⟩ hlen hsh (v := P.varsInit)
  rw [l1] at r1; cases r1
  rw [l2] at r2
  injection r2 with r2
  rw [← r2, l3] at r4
  obtain ⟨m1, m2, m3⟩ := linear_eval (b := b) hP hv hlen hsh
  have hz : (P.residuals.zip P.losses)[i]? = some (linRes ks Js n b, l2Loss) := by
    rw [hP.losses, List.getElem?_zip_eq_some]
    refine ⟨hir, ?_⟩
    rw [List.getElem?_map, hir]
    rfl
  have key := fun δ : Vec P1.sizeState => row_direction vecVarOps P P1 h hP.keys v hv.1 _ hL
    (dirOf P1.varSlices δ) δ (by
      intro k x s' c' p hp hsl hc hpc
      unfold dirOf
      rw [hsl]
      show _ = if h : s'.start + c' < P1.sizeState then δ ⟨s'.start + c', h⟩ else 0
      rw [dif_pos (by rw [← hpc]; exact p.2)]
      congr 1
      exact Fin.ext hpc) i _ l2Loss hz s hs _ _ (linJacs P.constKeys ks Js) m1 m2 rfl (by rw [m3]; omega) hnd
    (by
      intro t k J t1 hk t2
      exact (linJacs_some hlen t1 t2).1 hk)
    (by
      intro t k J x t1 t2 hx
      obtain ⟨-, hJ⟩ := linJacs_some hlen t1 t2
      obtain ⟨g1, x', g2, g3⟩ := hsh t k J t1 hJ
      rw [lookup_mem hP.keys hx] at g2
      cases g2
      exact ⟨by rw [m3]; exact g1, g3⟩) q (q - s.start) (by omega) (by rw [m3]; omega)
  refine ⟨ks, Js, n, b, i, q - s.start, s, hir, hs, by omega, by omega, ?_, fun δ => ?_⟩
  · have := (key 0).1
    simp only [l2Loss, Real.sqrt_one, one_mul] at this
    exact this
  · have := (key δ).2
    simp only [l2Loss, Real.sqrt_one, one_mul] at this
    exact this

theorem linRes_inj {ks ks' : List K} {Js Js' : List DMat} {n n' : ℕ} {b b' : ℕ → ℝ}
    (h : linRes ks Js n b = linRes ks' Js' n' b') : ks = ks' ∧
      (∀ xs, linErr n b Js xs = linErr n' b' Js' xs) ∧
      ∀ flags, List.zipWith (fun J f => if f = true then some J else none) Js flags =
        List.zipWith (fun J f => if f = true then some J else none) Js' flags := by
  unfold linRes at h
  injection h with h1 h2 h3
  refine ⟨h1, fun xs => ?_, fun fl => ?_⟩
  · exact Except.ok.inj (congrFun h2 xs)
  · exact Except.ok.inj (congrFun (congrFun h3 []) fl)

/-- The cost of a linear problem is half the squared norm of the stacked error. -/
theorem linear_cost {P P1 : Prob K (List ℝ)} (hP : LinearProblem P) (h : P.started vecVarOps = .ok P1)
    {v : List (K × List ℝ)} (hv : SameShape P.varsInit v) {e : Vec P1.sizeErr} {H : Mat P1.sizeErr P1.sizeState}
    {c : ℝ} (hL : P1.linearize v = .ok ⟨P1.sizeErr, P1.sizeState, e, H, c⟩) : c = 1 / 2 * (e ⬝ᵥ e) := by
  obtain ⟨e1, e2, e3, e4, e5, e6, -, -⟩ := started_fields h
  obtain ⟨hr, -, -⟩ := started_slices h
  obtain ⟨sizes, ⟨hl, hs⟩, hlen, htot, hsl⟩ := rowSlices_spec hr
  simp only [Nat.zero_add] at htot hsl
  have hc := linearize_cost hL
  rw [e4, e5] at hc
  have hzl : (P.residuals.zip P.losses).length = sizes.length := by
    rw [List.length_zip, hP.losses, List.length_map]; omega
  have hb : ∀ i : ℕ, ∃ E : List ℝ, ∀ (r : Residual K (List ℝ)) (ls : Loss),
      (P.residuals.zip P.losses)[i]? = some (r, ls) →
      ls = l2Loss ∧ (∃ xs, lookupAll v r.keys = .ok xs ∧ r.error xs = .ok E) ∧
      E.length = sizes.getD i 0 ∧ ∀ a (ha : pre sizes i + a < P1.sizeErr), a < sizes.getD i 0 →
        e ⟨pre sizes i + a, ha⟩ = E.getD a 0 := by
    intro i
    by_cases hi : i < (P.residuals.zip P.losses).length
    · obtain ⟨⟨r, ls⟩, hx⟩ : ∃ x, (P.residuals.zip P.losses)[i]? = some x := ⟨_, List.getElem?_eq_getElem hi⟩
      have hx' := hx
      rw [List.getElem?_zip_eq_some] at hx'
      obtain ⟨hx1, hx2⟩ := hx'
      simp only at hx1 hx2
      obtain ⟨ks, Js, n, b, rfl, hnd, hlen', hsh⟩ := hP.residuals r (List.mem_of_getElem? hx1)
      obtain ⟨m1, m2, m3⟩ := linear_eval (b := b) hP hv hlen' hsh
      obtain ⟨l1, l2, l3⟩ := linear_eval (b := b) hP ⟨rfl, rfl⟩ hlen' hsh (v := P.varsInit)
      obtain ⟨xs0, e0, g1, g2, g3⟩ := hs i _ hx1
      rw [l1] at g1; cases g1
      rw [l2] at g2
      injection g2 with g2
      rw [← g2, l3] at g3
      have hsz : sizes.getD i 0 = n := by rw [List.getD_eq_getElem?_getD, g3]; rfl
      refine ⟨linErr n b Js (ks.map (valOf v)), ?_⟩
      intro r' ls' hrl
      rw [hx] at hrl
      cases hrl
      refine ⟨?_, ⟨_, m1, m2⟩, by rw [m3, hsz], ?_⟩
      · rw [hP.losses, List.getElem?_map, hx1] at hx2
        exact (Option.some.inj hx2).symm
      · intro a ha haa
        rw [hsz] at haa
        have hz : (P.residuals.zip P.losses)[i]? = some (linRes ks Js n b, ls) := hx
        have hls : ls = l2Loss := by
          rw [hP.losses, List.getElem?_map, hx1] at hx2
          exact (Option.some.inj hx2).symm
        have hsi : sizes.getD i 0 = pre sizes (i + 1) - pre sizes i := by
          rw [pre_succ sizes i (by omega), List.getD_eq_getElem?_getD, List.getElem?_eq_getElem (by omega),
            Nat.add_sub_cancel_left]
          rfl
        have := (C37_block vecVarOps P P1 h hP.keys v hv.1 _ hL i _ ls hz _ (hsl i (by omega)) _ _
          (linJacs P.constKeys ks Js) m1 m2 rfl (by rw [m3, ← hsi, hsz]) hnd (by
            intro t k J t1 hk t2
            exact (linJacs_some hlen' t1 t2).1 hk) ⟨_, ha⟩ a rfl (by rw [m3]; exact haa)).1
        rw [hls] at this
        simp only [l2Loss, Real.sqrt_one, one_mul] at this
        exact this
    · refine ⟨[], fun r ls hx => ?_⟩
      exact absurd (List.getElem?_eq_some_iff.1 hx).1 hi
  choose E hE using hb
  have hsum := totalCost_sum hc E (fun _ => l2Loss) (fun i r ls hi => by
    obtain ⟨g1, g2, -⟩ := hE i r ls hi
    exact ⟨g1.symm, g2⟩)
  refine Eq.trans (show c = _ from hsum) ?_
  show _ = 1 / 2 * ∑ q, e q * e q
  rw [Finset.sum_fin_eq_sum_range, sum_pre_all _ sizes htot, hzl, Finset.mul_sum]
  refine Finset.sum_congr rfl fun i hi => ?_
  rw [Finset.mem_range] at hi
  obtain ⟨⟨r, ls⟩, hx⟩ : ∃ x, (P.residuals.zip P.losses)[i]? = some x :=
    ⟨_, List.getElem?_eq_getElem (by omega)⟩
  obtain ⟨-, -, g3, g4⟩ := hE i r ls hx
  show 1 / 2 * listNorm (E i) * listNorm (E i) = _
  have hnn : listNorm (E i) * listNorm (E i) = ∑ a ∈ Finset.range (sizes.getD i 0), (E i).getD a 0 * (E i).getD a 0 := by
    unfold listNorm
    rw [Real.mul_self_sqrt]
    · rw [← g3]
      generalize E i = l
      induction l with
      | nil => simp
      | cons x l ih =>
        rw [List.map_cons, List.sum_cons, List.length_cons, Finset.sum_range_succ', ih, add_comm]
        rfl
    · refine List.sum_nonneg ?_
      intro y hy
      obtain ⟨z, -, rfl⟩ := List.mem_map.1 hy
      exact mul_self_nonneg z
  rw [mul_assoc, hnn]
  congr 1
  refine Finset.sum_congr rfl fun a ha => ?_
  rw [Finset.mem_range] at ha
  have hq : pre sizes i + a < P1.sizeErr := by
    rw [htot]
    have h1 := pre_le_sum sizes (i + 1)
    have hsi : sizes.getD i 0 = pre sizes (i + 1) - pre sizes i := by
      rw [pre_succ sizes i hi, List.getD_eq_getElem?_getD, List.getElem?_eq_getElem hi, Nat.add_sub_cancel_left]
      rfl
    omega
  rw [dif_pos hq, g4 a hq ha]

/-- A linear problem over vector states is affine. -/
theorem linear_affine {P P1 : Prob K (List ℝ)} (hP : LinearProblem P) (h : P.started vecVarOps = .ok P1)
    {e : Vec P1.sizeErr} {H : Mat P1.sizeErr P1.sizeState} {c : ℝ}
    (hL : P1.linearize P.varsInit = .ok ⟨P1.sizeErr, P1.sizeState, e, H, c⟩) :
    AffineProb vecVarOps P1 P.varsInit P1.sizeErr P1.sizeState e H := by
  obtain ⟨e1, e2, e3, e4, e5, e6, -, -⟩ := started_fields h
  have hfit := linear_fit hP h
  refine ⟨?_, ?_, ?_⟩
  · rw [correct_vec 0 hfit, moveAll_zero]
  · intro δ δ' v hv
    rw [correct_vec δ hfit] at hv
    cases hv
    rw [correct_vec δ' (moveAll_fit hfit), correct_vec (δ + δ') hfit, moveAll_add]
  · intro δ v hv
    rw [correct_vec δ hfit] at hv
    have hv' : v = moveAll P.constKeys P1.varSlices δ P.varsInit := by
      rw [e3] at hv; exact (Except.ok.inj hv).symm
    clear hv
    subst hv'
    have hsh := moveAll_shape (const := P.constKeys) (sl := P1.varSlices) δ P.varsInit
    obtain ⟨L', hL'⟩ := linearize_transfer (v' := moveAll P.constKeys P1.varSlices δ P.varsInit) hL (by
      intro p hp xs err jacs q1 q2 q3
      rw [e4, e5] at hp
      obtain ⟨ks, Js, n, b, hr, hnd, hlen, hs⟩ := hP.residuals p.1 (List.of_mem_zip hp).1
      obtain ⟨r, ls⟩ := p
      simp only at hr q1 q2 q3 ⊢
      subst hr
      obtain ⟨m1, m2, m3⟩ := linear_eval (b := b) hP hsh hlen hs
      obtain ⟨l1, l2, l3⟩ := linear_eval (b := b) hP ⟨rfl, rfl⟩ hlen hs (v := P.varsInit)
      rw [l1] at q1; cases q1
      rw [l2] at q2; cases q2
      exact ⟨_, _, m1, m2, by rw [m3, l3], q3⟩)
    obtain ⟨m', n', eL, HL, cL⟩ := L'
    obtain ⟨hm', hn'⟩ := linearize_shape hL'
    simp only at hm' hn'
    subst hm' hn'
    have heq : eL = e + H *ᵥ δ ∧ ∀ δ', HL *ᵥ δ' = H *ᵥ δ' := by
      have hrow : ∀ q, eL q = (e + H *ᵥ δ) q ∧ ∀ δ', (HL *ᵥ δ') q = (H *ᵥ δ') q := by
        intro q
        obtain ⟨ks, Js, n, b, i, a, s, r1, r2, r3, r4, r5, r6⟩ := linear_rows hP h (v := P.varsInit) ⟨rfl, rfl⟩ hL q
        obtain ⟨ks', Js', n', b', i', a', s', r1', r2', r3', r4', r5', r6'⟩ := linear_rows hP h hsh hL' q
        obtain ⟨ks0, Js0, n0, b0, hr, hnd, hlen, hs⟩ := hP.residuals _ (List.mem_of_getElem? r1)
        obtain ⟨rows1, rows2, -, -, -, rows6⟩ := C37_rows vecVarOps P P1 h
        have hlen1 : ∀ {ks : List K} {Js : List DMat} {n : ℕ} {b : ℕ → ℝ} {i : ℕ} {s : Slice}, P.residuals[i]? = some (linRes ks Js n b) → P1.resSlices[i]? = some s →
            s.stop = s.start + n := by
          intro ks Js n b i s q1 q2
          obtain ⟨xs0, e0, s0, w1, w2, w3, w4⟩ := rows2 i _ q1
          rw [q2] at w3; cases w3
          cases w2
          rw [w4]; simp [linErr]
        have hst := hlen1 r1 r2
        have hst' := hlen1 r1' r2'
        obtain ⟨i0, -, huni⟩ := rows6 q q.2
        have hii : i = i' := (huni i ⟨s, r2, by omega, by omega⟩).trans (huni i' ⟨s', r2', by omega, by omega⟩).symm
        subst hii
        rw [r2] at r2'; cases r2'
        have haa : a = a' := by omega
        subst haa
        rw [r1] at r1'
        obtain ⟨rfl, hE, hJ⟩ := linRes_inj (Option.some.inj r1')
        have hjj : linJacs P.constKeys ks Js = linJacs P.constKeys ks Js' := hJ _
        obtain ⟨rfl, hE0, hJ0⟩ := linRes_inj hr
        have hnn0 : n = n0 := by
          have := congrArg List.length (hE0 [])
          simpa [linErr] using this
        subst hnn0
        have hjj0 : linJacs P.constKeys ks Js = linJacs P.constKeys ks Js0 := hJ0 _
        refine ⟨?_, fun δ' => ?_⟩
        · rw [r5', ← hE, Pi.add_apply, r5, r6 δ, hE0, hE0, hjj0]
          exact linErr_move hP h δ hnd hlen hs r4
        · rw [r6', r6, hjj]
      exact ⟨funext fun q => (hrow q).1, fun δ' => funext fun q => (hrow q).2 δ'⟩
    obtain ⟨he, hH⟩ := heq
    have hHH : HL = H := Matrix.mulVec_injective (funext hH)
    have hcc := linear_cost hP h hsh hL'
    subst hHH he
    rw [hL', hcc]

theorem moveAll_eq_of {n : ℕ} {const : List K} {sl : List (K × Slice)} {δ : Vec n} : ∀ {v0 v : List (K × List ℝ)},
    (v0.map Prod.fst).Nodup → SameShape v0 v →
    (∀ k x y, (k, x) ∈ v0 → (k, y) ∈ v → if k ∈ const then y = x
      else moveVec δ ((sl.lookup k).getD ⟨0, 0⟩).start x = y) → moveAll const sl δ v0 = v
  | [], v, hn, hs, h => by
    have : v = [] := by simpa [SameShape] using hs.1
    rw [this]; rfl
  | (k, x) :: v0, [], hn, hs, h => by simp [SameShape] at hs
  | (k, x) :: v0, (k', y) :: v, hn, hs, h => by
    obtain ⟨h1, h2⟩ := hs
    simp only [List.map_cons, List.cons.injEq] at h1 h2
    obtain ⟨rfl, h1⟩ := h1
    have ih := moveAll_eq_of (const := const) (sl := sl) (δ := δ) (List.nodup_cons.1 hn).2 ⟨h1, h2.2⟩
      (fun k x y a b => h k x y (by simp [a]) (by simp [b]))
    have h0 := h k' x y (by simp) (by simp)
    unfold moveAll at ih ⊢
    rw [List.map_cons, ih]
    by_cases hk : k' ∈ const
    · rw [if_pos hk] at h0 ⊢; rw [h0]
    · rw [if_neg hk] at h0 ⊢; rw [h0]

open Classical in
/-- Every assignment of the same shape that agrees on the constants is reached by moving the free variables. -/
theorem move_surjective {P P1 : Prob K (List ℝ)} (hP : LinearProblem P) (h : P.started vecVarOps = .ok P1)
    {v : List (K × List ℝ)} (hv : SameShape P.varsInit v)
    (hc : ∀ k ∈ P.constKeys, v.lookup k = P.varsInit.lookup k) :
    ∃ δ : Vec P1.sizeState, moveAll P.constKeys P1.varSlices δ P.varsInit = v := by
  obtain ⟨e1, e2, e3, e4, e5, e6, -, -⟩ := started_fields h
  obtain ⟨-, -, huniq⟩ := C37_columns vecVarOps P P1 h hP.keys
  have hfit := linear_fit hP h
  rw [e3] at hfit
  let Q : ℕ → K → Prop := fun p k => (∃ x, (k, x) ∈ freeVars P.constKeys P.varsInit) ∧
      ∃ s : Slice, P1.varSlices.lookup k = some s ∧ s.start ≤ p ∧ p < s.stop
  let D : K → ℕ → ℝ := fun k p => (valOf v k).getD (p - ((P1.varSlices.lookup k).getD ⟨0, 0⟩).start) 0 -
    (valOf P.varsInit k).getD (p - ((P1.varSlices.lookup k).getD ⟨0, 0⟩).start) 0
  refine ⟨fun p => if hq : ∃ k, Q p k then D hq.choose p else 0, ?_⟩
  refine moveAll_eq_of hP.keys hv ?_
  intro k x y hx hy
  have hkv : (v.map Prod.fst).Nodup := by rw [hv.1]; exact hP.keys
  have hlx := lookup_mem hP.keys hx
  have hly := lookup_mem hkv hy
  by_cases hk : k ∈ P.constKeys
  · rw [if_pos hk]
    have := hc k hk
    rw [hlx, hly] at this
    exact Option.some.inj this
  · rw [if_neg hk]
    obtain ⟨s, hs1, hs2, hs3⟩ := hfit (k, x) hx hk
    obtain ⟨y', hy', hlen⟩ := hv.lookup hlx
    rw [hly] at hy'
    cases hy'
    simp only at hs1 hs2
    rw [hs1]
    show moveVec _ s.start x = y
    refine List.ext_getElem (by simp [moveVec, hlen]) fun c h1 h2 => ?_
    have hcx : c < x.length := by omega
    rw [moveVec_get _ _ _ _ h1 hcx, dif_pos (by omega)]
    have hQ : Q (s.start + c) k := by
      refine ⟨⟨x, ?_⟩, s, hs1, by omega, by omega⟩
      unfold freeVars
      rw [List.mem_filter]
      exact ⟨hx, by simpa using hk⟩
    have hex : ∃ k, Q (s.start + c) k := ⟨k, hQ⟩
    simp only []
    rw [dif_pos hex]
    have hch : hex.choose = k := by
      obtain ⟨k0, -, hu⟩ := huniq (s.start + c) (by omega)
      exact (hu _ hex.choose_spec).trans (hu _ hQ).symm
    rw [hch]
    show _ + ((valOf v k).getD _ 0 - (valOf P.varsInit k).getD _ 0) = _
    unfold valOf
    rw [hs1, hlx, hly]
    show x[c] + (y.getD (s.start + c - s.start) 0 - x.getD (s.start + c - s.start) 0) = y[c]
    rw [Nat.add_sub_cancel_left, List.getD_eq_getElem?_getD, List.getD_eq_getElem?_getD,
      List.getElem?_eq_getElem hcx, List.getElem?_eq_getElem h2]
    simp

/-- **C40.** Linear least squares over vector states: whenever Gauss-Newton (any positive number of iterations, any
initial point) returns, the variables it returns are the unique minimizer of the total cost among all assignments of
the same variables with the same sizes and the same constants. -/
theorem C40_linear (P P' : Prob K (List ℝ)) (hP : LinearProblem P) (hs : P.cfg.solver = "GN")
    (hit : 0 < P.cfg.maxIters) (h : P.solve vecVarOps = .ok P') :
    SameShape P.varsInit P'.vars ∧ (∀ k ∈ P.constKeys, P'.vars.lookup k = P.varsInit.lookup k) ∧
    ∃ cf, totalCost P'.vars (P.residuals.zip P.losses) = .ok cf ∧
      ∀ v, SameShape P.varsInit v → (∀ k ∈ P.constKeys, v.lookup k = P.varsInit.lookup k) →
        ∃ c, totalCost v (P.residuals.zip P.losses) = .ok c ∧ cf ≤ c ∧ (c = cf → v = P'.vars) := by
  obtain ⟨P1, hP1, h'⟩ := solve_GN hs h
  obtain ⟨e1, e2, e3, e4, e5, e6, -, -⟩ := started_fields hP1
  have hsolve := h
  unfold solveGN at h'
  obtain ⟨L, h2, h'⟩ := bind_ok h'
  obtain ⟨s, h3, h'⟩ := bind_ok h'
  clear h'
  rw [e6] at h2 h3
  obtain ⟨m, n, e, H, c⟩ := L
  obtain ⟨hm, hn⟩ := linearize_shape h2
  simp only at hm hn
  subst hm hn
  have haff := linear_affine hP hP1 h2
  have hd : (Hᵀ * H).det ≠ 0 := by
    obtain ⟨N, hN⟩ : ∃ N, P1.cfg.maxIters = N + 1 := ⟨P1.cfg.maxIters - 1, by rw [e1]; omega⟩
    rw [hN] at h3
    unfold iterLoop at h3
    obtain ⟨r, hr, h3⟩ := bind_ok h3
    unfold gnStep at hr
    rw [if_neg (by simp [isConverged])] at hr
    obtain ⟨δ, g1, hr⟩ := bind_ok hr
    exact (spsolve_ok g1).1
  obtain ⟨hfin, cf, hcf, hmin⟩ := C40_gn_affine vecVarOps P P1 P' hs hit hP1 hsolve _ _ e H haff hd
  have hfit := linear_fit hP hP1
  have hP'v : P'.vars = moveAll P.constKeys P1.varSlices (gnDelta e H) P.varsInit := by
    rw [correct_vec _ hfit, e3] at hfin
    exact (Except.ok.inj hfin).symm
  refine ⟨by rw [hP'v]; exact moveAll_shape _ _, (C36_constant vecVarOps P P' hsolve).2.2, cf, hcf, ?_⟩
  intro v hv hcv
  obtain ⟨δ, hδ⟩ := move_surjective hP hP1 hv hcv
  refine hmin δ v ?_
  rw [correct_vec δ hfit, e3, hδ]

/-- From a reachable point of an affine problem the Gauss-Newton loop never fails. -/
theorem gn_loop_ok {S : Type} {o : VarOps S} {P : Prob K S} {v0 : List (K × S)} {m n : ℕ} {e : Vec m} {H : Mat m n}
    (ha : AffineProb o P v0 m n e H) (hd : (Hᵀ * H).det ≠ 0) (hn : 0 < n)
    (hok : ∀ δ : Vec n, ∃ v, correctStates o P.constKeys P.varSlices (List.ofFn δ) v0 = .ok v) :
    ∀ (k : ℕ) (s : LoopState K S) (δ : Vec n),
      correctStates o P.constKeys P.varSlices (List.ofFn δ) v0 = .ok s.vars →
      P.linearize s.vars = .ok s.lin → (s.info.isSome ∨ (0 < k ∧ s.deltaCost = none)) →
      ∃ s', iterLoop (gnStep o P) k s = .ok s' ∧ s'.info.isSome ∧ ∃ L, P.linearize s'.vars = .ok L
  | 0, s, δ, h1, h2, h3 => by
    rcases h3 with h3 | ⟨h3, -⟩
    · exact ⟨s, rfl, h3, _, h2⟩
    · exact absurd h3 (lt_irrefl _)
  | k + 1, s, δ, h1, h2, h3 => by
    by_cases hconv : isConverged P.cfg s.deltaCost (s.costs.headD 0) s.dx s.gradNorm = true
    · have hi : s.info.isSome := by
        rcases h3 with h3 | ⟨-, h3⟩
        · exact h3
        · rw [h3] at hconv; simp [isConverged] at hconv
      refine ⟨s, ?_, hi, _, h2⟩
      unfold iterLoop gnStep
      rw [if_pos hconv]
      rfl
    · have hlin : s.lin = ⟨m, n, e + H *ᵥ δ, H, 1 / 2 * ((e + H *ᵥ δ) ⬝ᵥ (e + H *ᵥ δ))⟩ := by
        have := ha.lin δ s.vars h1
        rw [h2] at this
        exact Except.ok.inj this
      obtain ⟨v, hv⟩ := hok (δ + (Hᵀ * H)⁻¹ *ᵥ (-(Hᵀ *ᵥ (e + H *ᵥ δ))))
      have hstep : ∃ r : LoopState K S, gnStep o P s = .ok (r, false) ∧ r.vars = v ∧ P.linearize v = .ok r.lin ∧
          r.info.isSome := by
        obtain ⟨sv, sl, sc, sd, sg, sx, si, smu, snu⟩ := s
        simp only at hlin h1 hconv
        subst hlin
        have hv' := (ha.add δ ((Hᵀ * H)⁻¹ *ᵥ (-(Hᵀ *ᵥ (e + H *ᵥ δ)))) sv h1).trans hv
        have hl' := ha.lin _ v hv
        unfold gnStep
        rw [if_neg hconv]
        have hsp : spsolve (Lin.mk m n (e + H *ᵥ δ) H (1 / 2 * ((e + H *ᵥ δ) ⬝ᵥ (e + H *ᵥ δ)))).A
            (Lin.mk m n (e + H *ᵥ δ) H (1 / 2 * ((e + H *ᵥ δ) ⬝ᵥ (e + H *ᵥ δ)))).b =
            .ok ((Hᵀ * H)⁻¹ *ᵥ (-(Hᵀ *ᵥ (e + H *ᵥ δ)))) := if_neg hd
        simp only [hsp, hv', hl', bind, Except.bind]
        unfold Lin.gradNorm npMax
        simp only [hn, dif_pos]
        exact ⟨_, rfl, rfl, rfl, rfl⟩
      obtain ⟨r, hr, hr1, hr2, hr3⟩ := hstep
      obtain ⟨s', g1, g2, g3⟩ := gn_loop_ok ha hd hn hok k r _ (by rw [hr1]; exact hv) (by rw [hr1]; exact hr2)
        (Or.inl hr3)
      refine ⟨s', ?_, g2, g3⟩
      unfold iterLoop
      rw [hr]
      exact g1

/-- **C40.** And it does return: if the initial linearization succeeds, there is at least one free component and the
information matrix is invertible. -/
theorem C40_returns (P P1 : Prob K (List ℝ)) (hP : LinearProblem P) (hs : P.cfg.solver = "GN")
    (hit : 0 < P.cfg.maxIters) (hP1 : P.started vecVarOps = .ok P1) (L : Lin)
    (hL : P1.linearize P.varsInit = .ok L) (hd : L.A.det ≠ 0) (hn : 0 < L.n) :
    ∃ P', P.solve vecVarOps = .ok P' := by
  obtain ⟨e1, e2, e3, e4, e5, e6, -, -⟩ := started_fields hP1
  obtain ⟨m, n, e, H, c⟩ := L
  obtain ⟨hm, hn'⟩ := linearize_shape hL
  simp only at hm hn'
  subst hm hn'
  have haff := linear_affine hP hP1 hL
  have hfit := linear_fit hP hP1
  obtain ⟨s', g1, g2, L', g3⟩ := gn_loop_ok haff hd hn (fun δ => ⟨_, correct_vec δ hfit⟩) P1.cfg.maxIters
    ⟨P.varsInit, ⟨P1.sizeErr, P1.sizeState, e, H, c⟩, [c], none, none, 10, none, 0, 0⟩ 0 haff.zero hL
    (Or.inr ⟨by rw [e1]; exact hit, rfl⟩)
  obtain ⟨A, hA⟩ := Option.isSome_iff_exists.1 g2
  refine ⟨{ P1 with vars := s'.vars, costHistory := (L'.cost :: s'.costs).reverse, info := some A }, ?_⟩
  unfold Prob.solve
  show (do let P1 ← P.started vecVarOps; _ : Except Err (Prob K (List ℝ))) = _
  rw [hP1]
  simp only [bind, Except.bind]
  rw [if_pos hs]
  unfold solveGN
  rw [e6, hL]
  simp only [bind, Except.bind]
  rw [g1]
  simp only [g3, hA]

/-- **C40.** The information matrix that Gauss-Newton leaves behind on an affine problem is `HᵀH`, for the one Jacobian `H` of the
whole stacked problem, however many iterations were made. -/
theorem C40_information {S : Type} (o : VarOps S) (P P1 P' : Prob K S) (hs : P.cfg.solver = "GN")
    (hP1 : P.started o = .ok P1) (h : P.solve o = .ok P')
    (m n : ℕ) (e : Vec m) (H : Mat m n) (ha : AffineProb o P1 P.varsInit m n e H) :
    P'.info = some ⟨n, Hᵀ * H⟩ ∧ P'.varSlices = P1.varSlices ∧ P'.cov = P.cov ∧ P'.varsInit = P.varsInit ∧
      P'.residuals = P.residuals ∧ P'.losses = P.losses ∧ P'.constKeys = P.constKeys ∧ P'.cfg = P.cfg := by
  obtain ⟨e1, e2, e3, e4, e5, e6, e7, e8⟩ := started_fields hP1
  have hcov := solve_cov o P P' h
  obtain ⟨P1', hP1', h⟩ := solve_GN hs h
  rw [hP1] at hP1'
  obtain rfl : P1 = P1' := Except.ok.inj hP1'
  unfold solveGN at h
  obtain ⟨L, h2, h⟩ := bind_ok h
  obtain ⟨s, h3, h⟩ := bind_ok h
  obtain ⟨Lf, h4, h⟩ := bind_ok h
  have hinv := iterLoop_inv (fun s : LoopState K S => (∃ δ : Vec n,
      correctStates o P1.constKeys P1.varSlices (List.ofFn δ) P.varsInit = .ok s.vars) ∧
      P1.linearize s.vars = .ok s.lin ∧ (s.info = none ∨ s.info = some ⟨n, Hᵀ * H⟩)) (by
    rintro s r ⟨⟨δ, hδ⟩, hl, hi⟩ hr
    have hlin : s.lin = ⟨m, n, e + H *ᵥ δ, H, 1 / 2 * ((e + H *ᵥ δ) ⬝ᵥ (e + H *ᵥ δ))⟩ := by
      have := ha.lin δ s.vars hδ
      rw [hl] at this
      exact Except.ok.inj this
    obtain ⟨sv, sl, sc, sd, sg, sx, si, smu, snu⟩ := s
    simp only at hlin hδ hl hi
    subst hlin
    unfold gnStep at hr
    split at hr
    · cases hr; exact ⟨⟨δ, hδ⟩, hl, hi⟩
    · obtain ⟨δ', g1, hr⟩ := bind_ok hr
      obtain ⟨w, g2, hr⟩ := bind_ok hr
      obtain ⟨L', g3, hr⟩ := bind_ok hr
      obtain ⟨g, g4, hr⟩ := bind_ok hr
      cases hr
      refine ⟨⟨δ + δ', ?_⟩, g3, Or.inr rfl⟩
      rw [← ha.add δ δ' sv hδ]
      exact g2) _ _ _ ⟨⟨0, by rw [e6]; exact ha.zero⟩, h2, Or.inl rfl⟩ h3
  obtain ⟨-, -, hi⟩ := hinv
  rcases hi with hi | hi
  · rw [hi] at h; cases h
  · rw [hi] at h
    cases h
    exact ⟨rfl, rfl, hcov, e2, e4, e5, e3, e1⟩

/-- **C40, C41.** Linear least squares, end to end: after the first `solve`, `get_covariance_block(k1, k2)` is the block of the
inverse of `HᵀH`, `H` the Jacobian of the stacked problem. -/
theorem C40_covariance (P P1 P' : Prob K (List ℝ)) (hP : LinearProblem P) (hs : P.cfg.solver = "GN")
    (hit : 0 < P.cfg.maxIters) (hP1 : P.started vecVarOps = .ok P1) (h : P.solve vecVarOps = .ok P') (hc : P.cov = none)
    (L : Lin) (hL : P1.linearize P.varsInit = .ok L) (hd : L.A.det ≠ 0)
    (k1 k2 : K) (s1 s2 : Slice) (h1 : P1.varSlices.lookup k1 = some s1) (h2 : P1.varSlices.lookup k2 = some s2) :
    (P'.getCovarianceBlock k1 k2).map Prod.fst = .ok (some (SqMat.block ⟨L.n, (L.Hᵀ * L.H)⁻¹⟩ s1 s2)) := by
  obtain ⟨m, n, e, H, c⟩ := L
  obtain ⟨hm, hn⟩ := linearize_shape hL
  simp only at hm hn
  subst hm hn
  have haff := linear_affine hP hP1 hL
  obtain ⟨hi, hv, hcv, -⟩ := C40_information vecVarOps P P1 P' hs hP1 h _ _ e H haff
  rw [C41_first_query P' ⟨P1.sizeState, Hᵀ * H⟩ hi hd (hcv.trans hc) k1 k2 s1 s2 (by rw [hv]; exact h1)
    (by rw [hv]; exact h2)]
  rfl

theorem totalCost_nonneg {S : Type} {vars : List (K × S)} : ∀ {l : List (Residual K S × Loss)} {c : ℝ},
    totalCost vars l = .ok c → (∀ p ∈ l, ∀ x, 0 ≤ p.2.loss x) → 0 ≤ c
  | [], c, h, hl => by cases h; exact le_refl _
  | (r, ls) :: l, c, h, hl => by
    unfold totalCost at h
    obtain ⟨xs, h1, h⟩ := bind_ok h
    obtain ⟨err, h2, h⟩ := bind_ok h
    obtain ⟨c', h3, h⟩ := bind_ok h
    cases h
    exact add_nonneg (hl (r, ls) (by simp) _) (totalCost_nonneg h3 fun p hp => hl p (by simp [hp]))

/-! ### A concrete case: one scalar variable, residual `2 x - 6` -/

/-- The example problem. -/
noncomputable def exProb : Prob ℕ (List ℝ) where
  cfg := ⟨"GN", 5, none, none, none, 1⟩
  varsInit := [(7, [0])]
  constKeys := []
  residuals := [linRes [7] [⟨1, 1, fun _ _ => 2⟩] 1 fun _ => -6]
  losses := [l2Loss]
  vars := []
  varSlices := []
  resSlices := []
  sizeErr := 0
  sizeState := 0
  costHistory := []
  info := none
  cov := none

theorem exProb_linear : LinearProblem exProb where
  keys := by simp [exProb]
  losses := rfl
  residuals := by
    intro r hr
    simp only [exProb, List.mem_singleton] at hr
    refine ⟨[7], [⟨1, 1, fun _ _ => 2⟩], 1, fun _ => -6, hr, by simp, rfl, ?_⟩
    intro t k J h1 h2
    cases t with
    | succ t => simp at h1
    | zero =>
      simp only [List.getElem?_cons_zero, Option.some.injEq] at h1 h2
      subst h1 h2
      exact ⟨rfl, [0], rfl, rfl⟩

theorem exProb_linearize : ∃ P1 L, exProb.started vecVarOps = .ok P1 ∧ P1.linearize exProb.varsInit = .ok L ∧
    L.A.det ≠ 0 ∧ 0 < L.n := by
  refine ⟨{ exProb with vars := [(7, [0])], varSlices := [(7, ⟨0, 1⟩)], resSlices := [⟨0, 1⟩], sizeErr := 1, sizeState := 1 },
    ⟨1, 1, fun _ => -6, fun _ _ => 2, 18⟩, ?_, ?_, ?_, one_pos⟩
  · simp [Prob.started, Prob.computeSize, exProb, rowSlices, lookupAll, dictGet, linRes, linErr, colSlices, vecVarOps,
      dictSet, bind, Except.bind, List.lookup, pure, Except.pure]
  · simp [Prob.linearize, exProb, asmLoop, lookupAll, dictGet, linRes, linErr, bind, Except.bind, List.lookup, pure,
      Except.pure, pyGet, setSeg, Slice.len, placeJacs, DMat.setBlock, DMat.scale, DMat.zeros, l2Loss, listNorm]
    norm_num
  · rw [Matrix.det_fin_one]
    show (∑ i : Fin 1, (2 : ℝ) * 2) ≠ 0
    norm_num

example : ∃ P', exProb.solve vecVarOps = .ok P' ∧ P'.vars = [(7, [3])] := by
  obtain ⟨P1, L, h1, h2, h3, h4⟩ := exProb_linearize
  obtain ⟨P', hP'⟩ := C40_returns exProb P1 exProb_linear rfl (by decide) h1 L h2 h3 h4
  refine ⟨P', hP', ?_⟩
  obtain ⟨-, -, cf, hcf, hmin⟩ := C40_linear exProb P' exProb_linear rfl (by decide) hP'
  obtain ⟨c, hc, hle, heq⟩ := hmin [(7, [3])] ⟨rfl, rfl⟩ (fun k hk => by simp [exProb] at hk)
  have hc0 : c = 0 := by
    have e : totalCost [(7, [3])] (exProb.residuals.zip exProb.losses) = .ok 0 := by
      simp [exProb, totalCost, lookupAll, dictGet, linRes, linErr, bind, Except.bind, List.lookup, pure, Except.pure,
        l2Loss, listNorm]
      norm_num
    rw [e] at hc
    exact (Except.ok.inj hc).symm
  have hcf0 : 0 ≤ cf := by
    have := totalCost_nonneg hcf (by intro p hp x; simp [exProb] at hp; rw [hp]; exact C42_l2.nonneg x)
    exact this
  exact (heq (by linarith)).symm

end Verif
