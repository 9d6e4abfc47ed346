import Verif.Lemmas.Problem

/-!
Row and column bookkeeping of the least squares problem.
-/

namespace Verif

set_option linter.unusedVariables false
set_option linter.unusedSectionVars false

open Matrix

variable {K S : Type} [DecidableEq K]

/-! ### Consecutive intervals -/

/-- Sum of the first `i` sizes. -/
def pre (sizes : List ℕ) (i : ℕ) : ℕ := (sizes.take i).sum

theorem pre_zero (l : List ℕ) : pre l 0 = 0 := by simp [pre]

theorem pre_cons_succ (a : ℕ) (l : List ℕ) (i : ℕ) : pre (a :: l) (i + 1) = a + pre l i := by simp [pre]

theorem pre_length (l : List ℕ) : pre l l.length = l.sum := by simp [pre]

theorem pre_le_succ : ∀ (l : List ℕ) (i : ℕ), pre l i ≤ pre l (i + 1)
  | [], i => by simp [pre]
  | a :: l, 0 => by simp [pre]
  | a :: l, i + 1 => by
    rw [pre_cons_succ, pre_cons_succ]
    exact Nat.add_le_add_left (pre_le_succ l i) a

theorem pre_mono (l : List ℕ) {i j : ℕ} (h : i ≤ j) : pre l i ≤ pre l j := by
  induction h with
  | refl => exact le_refl _
  | step _ ih => exact ih.trans (pre_le_succ l _)

theorem pre_le_sum (l : List ℕ) (i : ℕ) : pre l i ≤ l.sum := by
  by_cases h : i ≤ l.length
  · rw [← pre_length]; exact pre_mono l h
  · unfold pre; rw [List.take_of_length_le (by omega)]

theorem pre_succ : ∀ (l : List ℕ) (i : ℕ) (h : i < l.length), pre l (i + 1) = pre l i + l[i]
  | a :: l, 0, _ => by simp [pre]
  | a :: l, i + 1, h => by
    rw [pre_cons_succ, pre_cons_succ, pre_succ l i (by simpa using h)]
    simp [Nat.add_assoc]

/-- Every position below the total lies in exactly one interval. -/
theorem pre_partition (l : List ℕ) (a : ℕ) (h : a < l.sum) :
    ∃! i : ℕ, i < l.length ∧ pre l i ≤ a ∧ a < pre l (i + 1) := by
  have hex : ∃ i, a < pre l (i + 1) := by
    refine ⟨l.length, ?_⟩
    have := pre_le_succ l l.length
    rw [pre_length] at this
    omega
  classical
  let i := Nat.find hex
  have hi : a < pre l (i + 1) := Nat.find_spec hex
  have hlow : pre l i ≤ a := by
    by_contra hc
    push Not at hc
    have hi0 : i ≠ 0 := by
      intro h0
      rw [h0, pre_zero] at hc
      omega
    have := Nat.find_min hex (m := i - 1) (by show i - 1 < i; omega)
    rw [show i - 1 + 1 = i by omega] at this
    exact this hc
  have hlen : i < l.length := by
    by_contra hc
    push Not at hc
    have := pre_mono l hc
    rw [pre_length] at this
    omega
  refine ⟨i, ⟨hlen, hlow, hi⟩, ?_⟩
  rintro j ⟨hj1, hj2, hj3⟩
  rcases Nat.lt_trichotomy j i with h | h | h
  · have := pre_mono l (show j + 1 ≤ i by omega); omega
  · exact h
  · have := pre_mono l (show i + 1 ≤ j by omega); omega

/-! ### Rows -/

/-- The list of error sizes of the residuals at the given variables. -/
def ErrSizes (vars : List (K × S)) (rs : List (Residual K S)) (sizes : List ℕ) : Prop :=
  sizes.length = rs.length ∧ ∀ (i : ℕ) (r : Residual K S), rs[i]? = some r → ∃ (xs : List S) (e : List ℝ), lookupAll vars r.keys = .ok xs ∧
    r.error xs = .ok e ∧ sizes[i]? = some e.length

theorem rowSlices_spec {vars : List (K × S)} : ∀ {rs : List (Residual K S)} {idx tot : ℕ} {sl : List Slice},
    rowSlices vars rs idx = .ok (sl, tot) →
    ∃ sizes, ErrSizes vars rs sizes ∧ sl.length = rs.length ∧ tot = idx + sizes.sum ∧
      ∀ i, i < rs.length → sl[i]? = some ⟨idx + pre sizes i, idx + pre sizes (i + 1)⟩
  | [], idx, tot, sl, h => by
    cases h
    refine ⟨[], ⟨rfl, fun i r hr => by simp at hr⟩, rfl, rfl, fun i hi => by simp at hi⟩
  | r :: rs, idx, tot, sl, h => by
    unfold rowSlices at h
    obtain ⟨xs, h1, h⟩ := bind_ok h
    obtain ⟨e, h2, h⟩ := bind_ok h
    obtain ⟨⟨sl', tot'⟩, h3, h⟩ := bind_ok h
    cases h
    obtain ⟨sizes, ⟨hs1, hs2⟩, hlen, htot, hsl⟩ := rowSlices_spec h3
    refine ⟨e.length :: sizes, ⟨by simp [hs1], ?_⟩, by simp [hlen], ?_, ?_⟩
    · intro i r' hr'
      cases i with
      | zero =>
        simp only [List.getElem?_cons_zero, Option.some.injEq] at hr'
        subst hr'
        exact ⟨xs, e, h1, h2, rfl⟩
      | succ i =>
        simp only [List.getElem?_cons_succ] at hr' ⊢
        exact hs2 i r' hr'
    · rw [htot, List.sum_cons]; omega
    · intro i hi
      cases i with
      | zero => simp [pre]
      | succ i =>
        simp only [List.getElem?_cons_succ]
        rw [hsl i (by simpa using hi), pre_cons_succ, pre_cons_succ, Nat.add_assoc, Nat.add_assoc]

/-! ### Columns -/

/-- The non-constant variables in order. -/
def freeVars (const : List K) (vars : List (K × S)) : List (K × S) := vars.filter fun p => !(const.contains p.1)

/-- Their numbers of degrees of freedom. -/
def freeDofs (o : VarOps S) (const : List K) (vars : List (K × S)) : List ℕ :=
  (freeVars const vars).map fun p => o.dof p.2

theorem colSlices_other {o : VarOps S} {const : List K} {k : K} : ∀ (l : List (K × S)) (idx : ℕ)
    (d : List (K × Slice)), k ∉ l.map Prod.fst → (colSlices o const l idx d).1.lookup k = d.lookup k
  | [], idx, d, h => rfl
  | (q, x) :: l, idx, d, h => by
    have h1 : k ≠ q := fun e => h (by simp [e])
    have h2 : k ∉ l.map Prod.fst := fun e => h (by simp [List.map_cons, e])
    unfold colSlices
    split
    · exact colSlices_other l _ _ h2
    · rw [colSlices_other l _ _ h2, dictSet_get, if_neg h1]

theorem colSlices_spec {o : VarOps S} {const : List K} : ∀ (l : List (K × S)) (idx : ℕ) (d : List (K × Slice)),
    (l.map Prod.fst).Nodup →
    (colSlices o const l idx d).2 = idx + (freeDofs o const l).sum ∧
    ∀ j k x, (freeVars const l)[j]? = some (k, x) → (colSlices o const l idx d).1.lookup k =
      some ⟨idx + pre (freeDofs o const l) j, idx + pre (freeDofs o const l) (j + 1)⟩
  | [], idx, d, h => by
    refine ⟨rfl, fun j k x hj => ?_⟩
    simp [freeVars] at hj
  | (q, x) :: l, idx, d, h => by
    have hn : q ∉ l.map Prod.fst := (List.nodup_cons.1 h).1
    have hn' := (List.nodup_cons.1 h).2
    by_cases hq : q ∈ const
    · have ih := colSlices_spec l idx d hn' (o := o) (const := const)
      have e1 : freeVars const ((q, x) :: l) = freeVars const l := by
        unfold freeVars; rw [List.filter_cons_of_neg]; simp [hq]
      have e2 : freeDofs o const ((q, x) :: l) = freeDofs o const l := by unfold freeDofs; rw [e1]
      rw [e1, e2]
      unfold colSlices
      rw [if_pos hq]
      exact ih
    · have ih := colSlices_spec l (idx + o.dof x) (dictSet d q ⟨idx, idx + o.dof x⟩) hn' (o := o) (const := const)
      have e1 : freeVars const ((q, x) :: l) = (q, x) :: freeVars const l := by
        unfold freeVars; rw [List.filter_cons_of_pos]; simp [hq]
      have e2 : freeDofs o const ((q, x) :: l) = o.dof x :: freeDofs o const l := by
        unfold freeDofs; rw [e1]; rfl
      rw [e1, e2]
      unfold colSlices
      rw [if_neg hq]
      refine ⟨by rw [ih.1, List.sum_cons]; omega, ?_⟩
      intro j k y hj
      cases j with
      | zero =>
        simp only [List.getElem?_cons_zero, Option.some.injEq, Prod.mk.injEq] at hj
        obtain ⟨rfl, rfl⟩ := hj
        rw [colSlices_other l _ _ hn, dictSet_get, if_pos rfl, pre_cons_succ, pre_zero, pre_zero]
        rfl
      | succ j =>
        simp only [List.getElem?_cons_succ] at hj
        rw [ih.2 j k y hj, pre_cons_succ, pre_cons_succ, Nat.add_assoc, Nat.add_assoc]

/-! ### Placing the Jacobians -/

theorem setBlock_frame {A A' B : DMat} {s1 s2 : Slice} (h : A.setBlock s1 s2 B = .ok A') :
    A'.rows = A.rows ∧ A'.cols = A.cols ∧
    ∀ i j, ¬ (s1.start ≤ i ∧ i < s1.stop ∧ s2.start ≤ j ∧ j < s2.stop) → A'.get i j = A.get i j := by
  unfold DMat.setBlock at h
  split at h
  · cases h
    refine ⟨rfl, rfl, fun i j hij => ?_⟩
    show (if _ then _ else _) = _
    rw [if_neg hij]
  · cases h

/-- Columns touched by the Jacobians of a residual. -/
def Touched (vs : List (K × Slice)) (ks : List K) (js : List (Option DMat)) (c : ℕ) : Prop :=
  ∃ (t : ℕ) (k : K) (J : DMat) (cs : Slice), ks[t]? = some k ∧ js[t]? = some (some J) ∧
    vs.lookup k = some cs ∧ cs.start ≤ c ∧ c < cs.stop

theorem placeJacs_frame {vs : List (K × Slice)} {s : Slice} {w : ℝ} : ∀ {ks : List K} {js : List (Option DMat)}
    {H H' : DMat}, placeJacs vs s w ks js H = .ok H' →
    H'.rows = H.rows ∧ H'.cols = H.cols ∧
    (∀ i j, ¬ (s.start ≤ i ∧ i < s.stop) → H'.get i j = H.get i j) ∧
    (∀ i j, ¬ Touched vs ks js j → H'.get i j = H.get i j)
  | [], js, H, H', h => by
    cases h
    exact ⟨rfl, rfl, fun _ _ _ => rfl, fun _ _ _ => rfl⟩
  | k :: ks, [], H, H', h => by simp [placeJacs] at h
  | k :: ks, none :: js, H, H', h => by
    unfold placeJacs at h
    obtain ⟨a, b, c, d⟩ := placeJacs_frame h
    refine ⟨a, b, c, fun i j hj => d i j fun ⟨t, k', J, cs, h1, h2, h3⟩ => hj ⟨t + 1, k', J, cs, ?_, ?_, h3⟩⟩
    · simpa using h1
    · simpa using h2
  | k :: ks, some J :: js, H, H', h => by
    unfold placeJacs at h
    obtain ⟨cs, h1, h⟩ := bind_ok h
    obtain ⟨H1, h2, h⟩ := bind_ok h
    obtain ⟨a, b, c, d⟩ := placeJacs_frame h
    obtain ⟨a', b', c'⟩ := setBlock_frame h2
    refine ⟨a.trans a', b.trans b', fun i j hi => ?_, fun i j hj => ?_⟩
    · rw [c i j hi, c' i j (fun hx => hi ⟨hx.1, hx.2.1⟩)]
    · rw [d i j, c' i j]
      · rintro ⟨-, -, hx1, hx2⟩
        exact hj ⟨0, k, J, cs, rfl, rfl, dictGet_ok.1 h1, hx1, hx2⟩
      · rintro ⟨t, k', J', cs', g1, g2, g3⟩
        exact hj ⟨t + 1, k', J', cs', by simpa using g1, by simpa using g2, g3⟩

/-- The slices of the keys that have a Jacobian do not overlap (for different positions). -/
def DisjointCols (vs : List (K × Slice)) (ks : List K) (js : List (Option DMat)) : Prop :=
  ∀ (t t' : ℕ) (k k' : K) (J J' : DMat) (cs cs' : Slice), t ≠ t' → ks[t]? = some k → ks[t']? = some k' →
    js[t]? = some (some J) → js[t']? = some (some J') → vs.lookup k = some cs → vs.lookup k' = some cs' →
    ∀ c, ¬ (cs.start ≤ c ∧ c < cs.stop ∧ cs'.start ≤ c ∧ c < cs'.stop)

theorem placeJacs_block {vs : List (K × Slice)} {s : Slice} {w : ℝ} (hs : s.start ≤ s.stop) :
    ∀ {ks : List K} {js : List (Option DMat)} {H H' : DMat}, placeJacs vs s w ks js H = .ok H' →
    DisjointCols vs ks js → s.stop ≤ H.rows →
    ∀ (t : ℕ) (k : K) (J : DMat) (cs : Slice), ks[t]? = some k → js[t]? = some (some J) → vs.lookup k = some cs →
      cs.start ≤ cs.stop → cs.stop ≤ H.cols → J.rows = s.stop - s.start → J.cols = cs.stop - cs.start →
      ∀ a c, a < J.rows → c < J.cols → H'.get (s.start + a) (cs.start + c) = w * J.get a c
  | [], js, H, H', h, hd, hr, t, k, J, cs, g1, g2, g3, g4, g5, g6, g7, a, c, ha, hc => by simp at g1
  | k :: ks, [], H, H', h, hd, hr, t, k', J, cs, g1, g2, g3, g4, g5, g6, g7, a, c, ha, hc => by
    simp [placeJacs] at h
  | k :: ks, none :: js, H, H', h, hd, hr, t, k', J, cs, g1, g2, g3, g4, g5, g6, g7, a, c, ha, hc => by
    unfold placeJacs at h
    cases t with
    | zero => simp at g2
    | succ t =>
      refine placeJacs_block hs h ?_ hr t k' J cs (by simpa using g1) (by simpa using g2) g3 g4 g5 g6 g7 a c ha hc
      intro t1 t2 k1 k2 J1 J2 c1 c2 hne q1 q2 q3 q4
      exact hd (t1 + 1) (t2 + 1) k1 k2 J1 J2 c1 c2 (by omega) (by simpa using q1) (by simpa using q2)
        (by simpa using q3) (by simpa using q4)
  | k :: ks, some J0 :: js, H, H', h, hd, hr, t, k', J, cs, g1, g2, g3, g4, g5, g6, g7, a, c, ha, hc => by
    unfold placeJacs at h
    obtain ⟨cs0, h1, h⟩ := bind_ok h
    obtain ⟨H1, h2, h⟩ := bind_ok h
    obtain ⟨f1, f2, -⟩ := setBlock_frame h2
    cases t with
    | zero =>
      simp only [List.getElem?_cons_zero, Option.some.injEq] at g1 g2
      subst g1 g2
      have hcs : cs0 = cs := by
        have := dictGet_ok.1 h1
        rw [g3] at this
        exact (Option.some.inj this).symm
      subst hcs
      obtain ⟨-, -, -, fr⟩ := placeJacs_frame h
      rw [fr]
      · obtain ⟨A', e1, e2, e3, e4, e5⟩ := setBlock_exact H (J0.scale w) s.start (s.stop - s.start) cs0.start
          (cs0.stop - cs0.start) (by omega) (by omega) g6 g7
        have hh : H1 = A' := by
          rw [show s.start + (s.stop - s.start) = s.stop by omega,
            show cs0.start + (cs0.stop - cs0.start) = cs0.stop by omega] at e1
          rw [e1] at h2
          exact (Except.ok.inj h2).symm
        rw [hh, e4 a c (by omega) (by omega)]
        rfl
      · rintro ⟨t, k1, J1, c1, q1, q2, q3, q4, q5⟩
        exact hd 0 (t + 1) k k1 J0 J1 cs0 c1 (by omega) rfl (by simpa using q1) rfl (by simpa using q2) g3 q3
          (cs0.start + c) ⟨by omega, by omega, q4, q5⟩
    | succ t =>
      refine placeJacs_block hs h ?_ (by rw [f1]; exact hr) t k' J cs (by simpa using g1) (by simpa using g2) g3 g4
        (by rw [f2]; exact g5) g6 g7 a c ha hc
      intro t1 t2 k1 k2 J1 J2 c1 c2 hne q1 q2 q3 q4
      exact hd (t1 + 1) (t2 + 1) k1 k2 J1 J2 c1 c2 (by omega) (by simpa using q1) (by simpa using q2)
        (by simpa using q3) (by simpa using q4)

/-! ### The assembly loop -/

theorem setSeg_ok {n : ℕ} {e e' : ℕ → ℝ} {s : Slice} {v : List ℝ} (h : setSeg n e s v = .ok e') :
    (∀ i, ¬ (s.start ≤ i ∧ i < s.stop) → e' i = e i) ∧
    (v.length = s.stop - s.start → ∀ a, a < v.length → e' (s.start + a) = v.getD a 0) := by
  unfold setSeg at h
  split at h
  · cases h
    refine ⟨fun i hi => ?_, fun hv a ha => ?_⟩
    · show (if _ then _ else _) = _
      rw [if_neg hi]
    · show (if _ then _ else _) = _
      rw [if_pos ⟨by omega, by omega⟩]
      by_cases h1 : v.length = 1
      · rw [if_pos h1, show a = 0 by omega]
      · rw [if_neg h1, Nat.add_sub_cancel_left]
  · cases h

/-- Rows outside the slices of the residuals processed are untouched. -/
theorem asmLoop_frame {P : Prob K S} {vars : List (K × S)} : ∀ {l : List (Residual K S × Loss)} {i : ℕ} {a a' : Asm},
    asmLoop P vars i l a = .ok a' → a'.H.rows = a.H.rows ∧ a'.H.cols = a.H.cols ∧
    ∀ q, (∀ j s, i ≤ j → j < i + l.length → P.resSlices[j]? = some s → ¬ (s.start ≤ q ∧ q < s.stop)) →
      a'.e q = a.e q ∧ ∀ c, a'.H.get q c = a.H.get q c
  | [], i, a, a', h => by
    cases h
    exact ⟨rfl, rfl, fun _ _ => ⟨rfl, fun _ => rfl⟩⟩
  | (r, ls) :: rest, i, a, a', h => by
    unfold asmLoop at h
    obtain ⟨xs, h1, h⟩ := bind_ok h
    obtain ⟨err, h2, h⟩ := bind_ok h
    obtain ⟨jacs, h3, h⟩ := bind_ok h
    obtain ⟨s, h4, h⟩ := bind_ok h
    obtain ⟨e', h5, h⟩ := bind_ok h
    obtain ⟨H', h6, h⟩ := bind_ok h
    obtain ⟨f1, f2, f3⟩ := asmLoop_frame h
    obtain ⟨p1, p2, p3, -⟩ := placeJacs_frame h6
    refine ⟨f1.trans p1, f2.trans p2, fun q hq => ?_⟩
    have hs : P.resSlices[i]? = some s := by
      unfold pyGet at h4
      cases hi : P.resSlices[i]? with
      | none => rw [hi] at h4; cases h4
      | some s' => rw [hi] at h4; cases h4; rfl
    have hout : ¬ (s.start ≤ q ∧ q < s.stop) := hq i s (le_refl _) (by simp) hs
    obtain ⟨g1, g2⟩ := f3 q (fun j s' hj hj' hs' => hq j s' (by omega) (by simp only [List.length_cons]; omega) hs')
    exact ⟨g1.trans ((setSeg_ok h5).1 q hout), fun c => (g2 c).trans (p3 q c hout)⟩

theorem asmLoop_split {P : Prob K S} {vars : List (K × S)} : ∀ {l1 l2 : List (Residual K S × Loss)} {i : ℕ}
    {a a' : Asm}, asmLoop P vars i (l1 ++ l2) a = .ok a' →
    ∃ a1, asmLoop P vars i l1 a = .ok a1 ∧ asmLoop P vars (i + l1.length) l2 a1 = .ok a'
  | [], l2, i, a, a', h => ⟨a, rfl, h⟩
  | (r, ls) :: l1, l2, i, a, a', h => by
    rw [List.cons_append] at h
    unfold asmLoop at h
    obtain ⟨xs, h1, h⟩ := bind_ok h
    obtain ⟨err, h2, h⟩ := bind_ok h
    obtain ⟨jacs, h3, h⟩ := bind_ok h
    obtain ⟨s, h4, h⟩ := bind_ok h
    obtain ⟨e', h5, h⟩ := bind_ok h
    obtain ⟨H', h6, h⟩ := bind_ok h
    obtain ⟨a1, g1, g2⟩ := asmLoop_split h
    refine ⟨a1, ?_, ?_⟩
    · unfold asmLoop
      simp only [h1, h2, h3, h4, h5, h6, bind, Except.bind]
      exact g1
    · rw [List.length_cons, show i + (l1.length + 1) = i + 1 + l1.length by omega]
      exact g2

/-- The rows of one residual in the assembled error and Jacobian. -/
theorem asmLoop_residual {P : Prob K S} {vars : List (K × S)} {l : List (Residual K S × Loss)} {a a' : Asm}
    (h : asmLoop P vars 0 l a = .ok a')
    (hdis : ∀ (i j : ℕ) (s s' : Slice), i ≠ j → P.resSlices[i]? = some s → P.resSlices[j]? = some s' →
      ∀ q, ¬ (s.start ≤ q ∧ q < s.stop ∧ s'.start ≤ q ∧ q < s'.stop))
    (i : ℕ) (r : Residual K S) (ls : Loss) (hi : l[i]? = some (r, ls)) (s : Slice) (hs : P.resSlices[i]? = some s) :
    ∃ xs err jacs e1 a1 H0 H1, lookupAll vars r.keys = .ok xs ∧ r.error xs = .ok err ∧
      r.jacobians xs (r.keys.map fun k => !(P.constKeys.contains k)) = .ok jacs ∧
      setSeg P.sizeErr e1 s (err.map (Real.sqrt (ls.weight (listNorm err)) * ·)) = .ok a1 ∧
      placeJacs P.varSlices s (Real.sqrt (ls.weight (listNorm err))) r.keys jacs H0 = .ok H1 ∧
      H0.rows = a.H.rows ∧ H0.cols = a.H.cols ∧
      ∀ q, s.start ≤ q → q < s.stop → a'.e q = a1 q ∧
        (∀ c, a'.H.get q c = H1.get q c) ∧ (∀ c, H0.get q c = a.H.get q c) := by
  have hil : i < l.length := (List.getElem?_eq_some_iff.1 hi).1
  have hsplit : l = l.take i ++ ((r, ls) :: l.drop (i + 1)) := by
    have h2 : l[i] = (r, ls) := (List.getElem?_eq_some_iff.1 hi).2
    rw [← h2, List.getElem_cons_drop, List.take_append_drop]
  rw [hsplit] at h
  obtain ⟨a0, g1, g2⟩ := asmLoop_split h
  have hlen : (l.take i).length = i := by rw [List.length_take]; omega
  rw [hlen, Nat.zero_add] at g2
  unfold asmLoop at g2
  obtain ⟨xs, h1, g2⟩ := bind_ok g2
  obtain ⟨err, h2, g2⟩ := bind_ok g2
  obtain ⟨jacs, h3, g2⟩ := bind_ok g2
  obtain ⟨s', h4, g2⟩ := bind_ok g2
  have hs' : s' = s := by
    unfold pyGet at h4
    rw [hs] at h4
    exact (Except.ok.inj h4).symm
  subst hs'
  obtain ⟨e', h5, g2⟩ := bind_ok g2
  obtain ⟨H', h6, g2⟩ := bind_ok g2
  obtain ⟨f1, f2, f3⟩ := asmLoop_frame g1
  obtain ⟨-, -, k3⟩ := asmLoop_frame g2
  refine ⟨xs, err, jacs, a0.e, e', a0.H, H', h1, h2, h3, h5, h6, f1, f2, fun q hq1 hq2 => ?_⟩
  have before := f3 q (fun j s'' hj hj' hs'' hx => by
    rw [hlen] at hj'
    exact hdis i j s' s'' (by omega) hs hs'' q ⟨hq1, hq2, hx.1, hx.2⟩)
  have after := k3 q (fun j s'' hj hj' hs'' hx =>
    hdis i j s' s'' (by omega) hs hs'' q ⟨hq1, hq2, hx.1, hx.2⟩)
  exact ⟨after.1, after.2, before.2⟩

end Verif
