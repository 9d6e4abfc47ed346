import Verif.Props.HeapAny

/-!
C86, concrete models: a process model of the library that copies its argument, and the same model written in place.
-/

namespace Verif.Heap

open Verif Matrix

set_option linter.unusedVariables false

variable {n : ℕ}

/-! ### Models -/

/-- `lib/models.py:59-68` (`SingleIntegrator`): `x = x.copy(); x.value = x.value + dt * u.value; return x`, the
identity as Jacobian and `dt**2 * Q` as covariance. -/
noncomputable def singleIntegrator (Exp : LieCls → Arr → Arr) (k : ℕ) (Q : Mat n n) : HProc (Vec n) n where
  evaluate h r u dt := do
    let (x, h1) ← copyState Exp k h r
    let v ← valueOf h1 x
    let a ← readArr h1 v
    let (v', h2) := alloc h1 (.arr (.vec (List.zipWith (· + ·) a.ravel (List.ofFn (dt • u.value)))))
    let h3 ← setValue h2 x v'
    return (x, h3)
  jacobian h _ _ _ := .ok (1, h)
  covariance h _ _ dt := .ok (dt ^ 2 • Q, h)

/-- The same model without the copy (not in the repository: a mistake that the documentation of `ProcessModel`,
`types.py:261-326`, does not warn about). -/
noncomputable def inPlaceIntegrator (Q : Mat n n) : HProc (Vec n) n where
  evaluate h r u dt := do
    let v ← valueOf h r
    let a ← readArr h v
    let (v', h1) := alloc h (.arr (.vec (List.zipWith (· + ·) a.ravel (List.ofFn (dt • u.value)))))
    let h2 ← setValue h1 r v'
    return (r, h2)
  jacobian h _ _ _ := .ok (1, h)
  covariance h _ _ dt := .ok (dt ^ 2 • Q, h)

/-- The value-level model. -/
noncomputable def integratorModel (Q : Mat n n) : ProcModel (Vec n) (Vec n) n where
  evaluate x u dt := ⟨x.value + dt • u.value, x.stamp⟩
  jacobian _ _ _ := 1
  covariance _ _ dt := dt ^ 2 • Q

/-- A `VectorState` of dimension `n` as a vector. -/
def vecView (n : ℕ) : View (Vec n) n where
  val t := match t with
    | .vec l _ _ => fun i => l.getD i 0
    | _ => 0
  Dom t := ∃ l s i, t = .vec l s i ∧ l.length = n
  dof := by rintro t ⟨l, s, i, rfl, h⟩; simpa [STree.dof] using h
  copied_val := by rintro t ⟨l, s, i, rfl, h⟩; rfl
  copied_dom := by rintro t ⟨l, s, i, rfl, h⟩; exact ⟨l, s, i, rfl, h⟩
  stamp_val := by rintro t s' ⟨l, s, i, rfl, h⟩; rfl
  stamp_dom := by rintro t s' ⟨l, s, i, rfl, h⟩; exact ⟨l, s', i, rfl, h⟩

theorem getD_add (l : List ℝ) (v : Vec n) (hl : l.length = n) (i : Fin n) :
    (List.zipWith (· + ·) l (List.ofFn v)).getD i 0 = l.getD i 0 + v i := by
  have h1 : (i : ℕ) < l.length := by rw [hl]; exact i.2
  simp only [List.getD_eq_getElem?_getD, List.getElem?_zipWith]
  rw [List.getElem?_eq_getElem h1, List.getElem?_eq_getElem (by simp)]
  simp

/-- C86: `SingleIntegrator` is a model to which `C86_predict` and `C86_correct` apply. -/
theorem C86_single_integrator (Exp : LieCls → Arr → Arr) (k : ℕ) (Q : Mat n n) :
    Implements (vecView n) k (singleIntegrator Exp k Q) (integratorModel Q) where
  evaluate := by
    rintro h r t u dt hc ⟨l, s, i, rfl, hl⟩
    obtain ⟨r', new, h1, h2, h3, h4, h5⟩ := copy_spec Exp k h r _ hc
    have h5' : contents k (h ++ new) r' = some (.vec l s i) := h5
    obtain ⟨v, g1, g2⟩ := contents_vec_inv h5'
    obtain ⟨k', rfl⟩ : ∃ k', k = k' + 1 := by
      cases k with
      | zero => cases hc
      | succ k' => exact ⟨k', rfl⟩
    have hw : Work h (h ++ new) := ⟨new, rfl, h4⟩
    generalize hH : h ++ new = H at *
    have a2 : Work h (H ++ [.arr (.vec (List.zipWith (· + ·) l (List.ofFn (dt • u.value))))]) := hw.arr _
    have e3 : setValue (H ++ [.arr (.vec (List.zipWith (· + ·) l (List.ofFn (dt • u.value))))]) r' H.length
        = .ok ((H ++ [Obj.arr (.vec (List.zipWith (· + ·) l (List.ofFn (dt • u.value))))]).set r'
            (.vec H.length l.length s i)) := by
      unfold setValue; rw [get_grow g1]
    have w3 : Work h ((H ++ [Obj.arr (.vec (List.zipWith (· + ·) l (List.ofFn (dt • u.value))))]).set r'
            (.vec H.length l.length s i)) := by
      refine a2.set h2 _ ?_
      intro q hq
      simp only [Obj.refs, List.mem_singleton] at hq
      subst hq
      exact ⟨hw.len, by simp⟩
    have hlen : (List.zipWith (· + ·) l (List.ofFn (dt • u.value))).length = l.length := by simp [hl]
    obtain ⟨N, hN, fN⟩ := w3
    refine ⟨r', N, .vec (List.zipWith (· + ·) l (List.ofFn (dt • u.value))) s i, ?_, fN, h2, ?_, ?_, ?_⟩
    · show (copyState Exp (k' + 1) h r >>= _) = _
      rw [h1]
      show (valueOf H r' >>= _) = _
      have : valueOf H r' = .ok v := by unfold valueOf; rw [g1]
      rw [this]
      show (readArr H v >>= _) = _
      rw [readArr_of g2]
      show (setValue (H ++ [_]) r' H.length >>= _) = _
      rw [show (Arr.vec l).ravel = l from rfl, e3, ← hN]
      rfl
    · rw [← hN]
      refine contents_vec k' ?_ (v := H.length) ?_
      · rw [set_get_eq (by simp; exact Nat.le_of_lt h3), hlen]
      · have : r' ≠ H.length := Nat.ne_of_lt h3
        unfold arrAt
        rw [set_get_ne this, get_last]
    · exact ⟨_, s, i, rfl, by rw [hlen, hl]⟩
    · funext j
      exact getD_add l (dt • u.value) hl j
  jacobian := fun h r t u dt _ _ => ⟨[], by simp [singleIntegrator, integratorModel], FreshFrom.nil _ _⟩
  covariance := fun h r t u dt _ _ => ⟨[], by simp [singleIntegrator, integratorModel], FreshFrom.nil _ _⟩

/-- The filter around `SingleIntegrator`. -/
noncomputable def integratorFilter (Exp : LieCls → Arr → Arr) (P : LiePlus) (k : ℕ) (Q : Mat n n) (rej : Bool)
    (chi : ℕ → ℝ) : HEkf (Vec n) n :=
  ⟨singleIntegrator Exp k Q, rej, chi, Exp, P, k⟩

/-- C86: the filter around `SingleIntegrator` refines the value-level filter, so that `C86_predict`, `C86_correct` and
`C87_run_filter` apply to it. -/
theorem C86_integrator_filter (Exp : LieCls → Arr → Arr) (P : LiePlus) (k : ℕ) (Q : Mat n n) (rej : Bool)
    (chi : ℕ → ℝ) :
    Refines (vecView n) (integratorFilter Exp P k Q rej chi) ⟨integratorModel Q, rej, fun v dx => v + dx, chi⟩ where
  proc := C86_single_integrator Exp k Q
  reject := rfl
  chi2 := rfl
  plus := by
    rintro t dx ⟨l, s, i, rfl, hl⟩
    refine ⟨.vec (List.zipWith (· + ·) l (List.ofFn dx)) s i, ?_, ⟨_, s, i, rfl, by simp [hl]⟩, ?_⟩
    · simp only [plusTree, plusLeaf]
      rw [if_pos (by simp [hl])]
    · funext j
      exact getD_add l dx hl j

/-- `lib/models.py:212-219`-like position measurement of a vector state: reads the state, allocates nothing. -/
noncomputable def readMeas (k : ℕ) (value : Vec n) (stamp : Option ℝ) (R : Mat n n) : HMeas n where
  m := n
  value := value
  stamp := stamp
  evaluate h r := match contents k h r with
    | some t => .ok (some ((vecView n).val t), h)
    | none => .error .attributeError
  jacobian h _ := .ok (1, h)
  covariance h _ := .ok (R, h)

theorem C86_read_meas (k : ℕ) (value : Vec n) (stamp : Option ℝ) (R : Mat n n) :
    MeasImplements (vecView n) k (readMeas k value stamp R)
      ⟨fun x => some x.value, fun _ => (1 : Mat n n), fun _ => R⟩ where
  evaluate := fun h r t hc _ => ⟨[], by simp only [readMeas, hc, List.append_nil]; rfl, FreshFrom.nil _ _⟩
  jacobian := fun h r t _ _ => ⟨[], by simp [readMeas], FreshFrom.nil _ _⟩
  covariance := fun h r t _ _ => ⟨[], by simp [readMeas], FreshFrom.nil _ _⟩

/-- A concrete estimate that the filter can work on. -/
theorem exHeap2_sees : Sees (vecView 2) 1 exHeap2 4 ⟨⟨fun i => [1, 2].getD i 0, some 0⟩, 1⟩ :=
  ⟨.vec [1, 2] (some 0) none, exHeap2_contents, ⟨_, _, _, rfl, rfl⟩, rfl⟩

/-- The hypotheses of `C86_predict` and `C86_correct` are met. -/
example (Exp : LieCls → Arr → Arr) (P : LiePlus) (chi : ℕ → ℝ) (u : Vec 2) (y : Vec 2) :
    Tracks (vecView 2) 1 exHeap2
      ((integratorFilter Exp P 1 1 false chi).predict exHeap2 4 (some ⟨u, some 0⟩) (some 1) none)
      (EkfEnv.predict ⟨integratorModel 1, false, fun v dx => v + dx, chi⟩ ⟨⟨fun i => [1, 2].getD i 0, some 0⟩, 1⟩
        (some ⟨u, some 0⟩) (some 1) none) ∧
    Tracks (vecView 2) 1 exHeap2
      ((integratorFilter Exp P 1 1 false chi).correct exHeap2 4 (readMeas 1 y (some 1) 1) (some ⟨u, some 0⟩) none none)
      (EkfEnv.correct ⟨integratorModel 1, false, fun v dx => v + dx, chi⟩ ⟨⟨fun i => [1, 2].getD i 0, some 0⟩, 1⟩
        ((readMeas 1 y (some 1) 1).pure ⟨fun x => some x.value, fun _ => (1 : Mat 2 2), fun _ => 1⟩)
        (some ⟨u, some 0⟩) none none) :=
  ⟨C86_predict (C86_integrator_filter Exp P 1 1 false chi) exHeap2_wf exHeap2_sees _ _ (Or.inl ⟨rfl, rfl⟩),
    C86_correct (C86_integrator_filter Exp P 1 1 false chi) exHeap2_wf exHeap2_sees _ (C86_read_meas 1 y (some 1) 1) _
      (Or.inl ⟨rfl, rfl⟩) _⟩

/-! ### The model that works in place -/

/-- The in-place model is code in the sense of `C86_correct_any_models` and `C86_predict_any_models`. -/
theorem C86_in_place_is_code (Q : Mat n n) : ProcCode [] (inPlaceIntegrator Q) where
  evaluate := by
    intro h r u dt r' h' he
    have he' : (valueOf h r >>= fun v => readArr h v >>= fun a =>
        setValue (h ++ [.arr (.vec (List.zipWith (· + ·) a.ravel (List.ofFn (dt • u.value))))]) r h.length >>= fun h2 =>
        Except.ok (r, h2)) = .ok (r', h') := he
    obtain ⟨v, _, he1⟩ := ebind he'
    obtain ⟨a, _, he2⟩ := ebind he1
    obtain ⟨h2, e3, he3⟩ := ebind he2
    cases he3
    obtain ⟨o', rfl, ho'⟩ := setValue_any e3
    generalize List.zipWith (· + ·) a.ravel (List.ofFn (dt • u.value)) = L
    have hrun : runCmds [.new (.arr (.vec L)), .store 0 o'] h [r]
        = ((h ++ [Obj.arr (.vec L)]).set r o', [r, h.length]) := by
      have s1 : (Cmd.new (.arr (.vec L))).step h [r] = (h ++ [Obj.arr (.vec L)], [r, h.length]) := by
        simp [Cmd.step, Obj.refs]
      show runCmds [.store 0 o'] ((Cmd.new (.arr (.vec L))).step h [r]).1 ((Cmd.new (.arr (.vec L))).step h [r]).2 = _
      rw [s1]
      show (Cmd.store 0 o').step (h ++ [Obj.arr (.vec L)]) [r, h.length] = _
      simp only [Cmd.step, List.getElem?_cons_zero]
      rw [if_pos (by rw [ho']; simp)]
    refine ⟨[.new (.arr (.vec L)), .store 0 o'], ?_, ?_⟩
    · rw [hrun]
    · intro q hq
      rw [List.mem_singleton.mp hq, hrun]
      simp
  jacobian := by
    intro h r u dt A h' he
    cases he
    exact ⟨[], rfl, by simp⟩
  covariance := by
    intro h r u dt A h' he
    cases he
    exact ⟨[], rfl, by simp⟩

/-- C86 (the defect): `predict` makes a copy "so we dont modify the input", but hands the original state to the
process model. With a model that updates its argument and returns it, the estimate returned has the caller's own state
object as its state, and the caller's estimate has been moved to the new time (value and stamp), keeping its old
covariance. -/
theorem C86_predict_in_place (f : HEkf (Vec n) n) (Q : Mat n n) (hf : f.proc = inPlaceIntegrator Q) {h : Heap}
    {x xs xc : Ref} {l : List ℝ} {s : Option ℝ} {i : Id} {P : Mat n n} (hx : h[x]? = some (.swc xs xc))
    (hc : contentsSwc f.depth h x = some (.vec l s i, ⟨n, P⟩)) (u : Inp (Vec n)) {dt : Option ℝ} {tkm1 d : ℝ}
    (ht : predictTime s (some u) dt = .ok (tkm1, d)) :
    ∃ (x' c' : Ref) (h' : Heap), f.predict h x (some u) dt none = .ok (x', h') ∧ h'[x']? = some (.swc xs c') ∧
      h'[x]? = some (.swc xs xc) ∧
      contentsSwc f.depth h' x
        = some (.vec (List.zipWith (· + ·) l (List.ofFn (d • u.value))) (some (tkm1 + d)) i, ⟨n, P⟩) ∧
      contentsSwc f.depth h' x'
        = some (.vec (List.zipWith (· + ·) l (List.ofFn (d • u.value))) (some (tkm1 + d)) i,
            ⟨n, symmetrize (1 * P * (1 : Mat n n)ᵀ + d ^ 2 • Q)⟩) ∧
      ∀ q o, q ≠ xs → h[q]? = some o → h'[q]? = some o := by
  obtain ⟨s', c', g1, g2, g3, g4⟩ := contentsSwc_inv hc
  rw [hx] at g1
  cases g1
  obtain ⟨k', hk⟩ : ∃ k', f.depth = k' + 1 := by
    cases hd : f.depth with
    | zero => rw [hd] at g2; cases g2
    | succ k' => exact ⟨k', rfl⟩
  obtain ⟨xn, n1, q1, l1, l1', f1, c1⟩ := copySwc_spec f.Exp h x _ hc
  obtain ⟨a, b, b1, _, _, _⟩ := contentsSwc_inv c1
  have hn : l.length = n := by simpa [STree.dof] using g4.symm
  obtain ⟨v, v1, v2⟩ := contents_vec_inv g2
  have hxlt := get_lt hx
  have hslt := get_lt v1
  have hclt := get_lt (arrAt_some g3)
  have G1 : (h ++ n1)[x]? = some (.swc xs xc) := get_grow hx
  have G2 : (h ++ n1)[xs]? = some (.vec v l.length s i) := get_grow v1
  have G3 : arrAt (h ++ n1) v = some (.vec l) := arrAt_grow v2
  have G4 : arrAt (h ++ n1) xc = some (.mat n n P) := arrAt_grow g3
  have hl1 : h.length ≤ (h ++ n1).length := by simp
  have W1 : ∀ q o, h[q]? = some o → (h ++ n1)[q]? = some o := fun q o ho => get_grow ho
  generalize h ++ n1 = H at *
  have nxs : xs ≠ x := by rintro rfl; rw [hx] at v1; cases v1
  have nxn : xn ≠ x := by omega
  have nsn : xs ≠ xn := by omega
  have ncs : xs ≠ xc := by
    rintro rfl
    have := arrAt_some g3
    rw [v1] at this; cases this
  have ncn : xn ≠ xc := by omega
  generalize hL : List.zipWith (· + ·) l (List.ofFn (d • u.value)) = L at *
  have hLl : L.length = l.length := by rw [← hL]; simp [hn]
  -- the heap after `evaluate`
  have e3 : setValue (H ++ [.arr (.vec L)]) xs H.length
      = .ok ((H ++ [Obj.arr (.vec L)]).set xs (.vec H.length l.length s i)) := by
    unfold setValue; rw [get_grow G2]
  have K1 : ((H ++ [Obj.arr (.vec L)]).set xs (.vec H.length l.length s i))[x]? = some (.swc xs xc) := by
    rw [set_get_ne nxs, get_grow G1]
  have K2 : ((H ++ [Obj.arr (.vec L)]).set xs (.vec H.length l.length s i))[xs]?
      = some (.vec H.length l.length s i) := set_get_eq (by simp; omega) _
  have K3 : ((H ++ [Obj.arr (.vec L)]).set xs (.vec H.length l.length s i))[H.length]? = some (.arr (.vec L)) := by
    rw [set_get_ne (by omega), get_last]
  have K4 : ((H ++ [Obj.arr (.vec L)]).set xs (.vec H.length l.length s i))[xc]? = some (.arr (.mat n n P)) := by
    rw [set_get_ne ncs, get_grow (arrAt_some G4)]
  have K5 : ((H ++ [Obj.arr (.vec L)]).set xs (.vec H.length l.length s i))[xn]? = some (.swc a b) := by
    rw [set_get_ne nsn, get_grow b1]
  have Klen : H.length < ((H ++ [Obj.arr (.vec L)]).set xs (.vec H.length l.length s i)).length := by simp
  have W3 : ∀ q o, q ≠ xs → h[q]? = some o →
      ((H ++ [Obj.arr (.vec L)]).set xs (.vec H.length l.length s i))[q]? = some o := by
    intro q o hq ho; rw [set_get_ne hq.symm, get_grow (W1 q o ho)]
  generalize (H ++ [Obj.arr (.vec L)]).set xs (.vec H.length l.length s i) = H3 at *
  have nvn : xn ≠ H.length := by omega
  -- writing into the copy
  obtain ⟨M1, hM1⟩ : ∃ M1 : Mat n n, M1 = 1 * P * (1 : Mat n n)ᵀ + d ^ 2 • Q := ⟨_, rfl⟩
  have s4 : setSwcState H3 xn xs = .ok (H3.set xn (.swc xs b)) := by unfold setSwcState; rw [K5]
  have J : ∀ q o, q ≠ xn → H3[q]? = some o → (H3.set xn (.swc xs b))[q]? = some o := by
    intro q o hq ho; rw [set_get_ne hq.symm, ho]
  have J5 : (H3.set xn (.swc xs b))[xn]? = some (.swc xs b) := set_get_eq (get_lt K5) _
  have K1' := J _ _ nxn.symm K1
  have K2' := J _ _ nsn K2
  have K3' := J _ _ nvn.symm K3
  have K4' := J _ _ ncn.symm K4
  have W4 : ∀ q o, q ≠ xs → h[q]? = some o → (H3.set xn (.swc xs b))[q]? = some o :=
    fun q o hq ho => J q o (by have := get_lt ho; omega) (W3 q o hq ho)
  generalize H3.set xn (.swc xs b) = H4 at *
  have s6 : setSwcCov (H4 ++ [.arr (.mat n n M1)]) xn H4.length
      = .ok ((H4 ++ [Obj.arr (.mat n n M1)]).set xn (.swc xs H4.length)) := by
    unfold setSwcCov; rw [get_grow J5]
  have J6 : ((H4 ++ [Obj.arr (.mat n n M1)]).set xn (.swc xs H4.length))[xn]? = some (.swc xs H4.length) :=
    set_get_eq (get_lt (get_grow J5)) _
  have R : ∀ q o, q ≠ xn → H4[q]? = some o →
      ((H4 ++ [Obj.arr (.mat n n M1)]).set xn (.swc xs H4.length))[q]? = some o := by
    intro q o hq ho; rw [set_get_ne hq.symm, get_grow ho]
  have L1 := R _ _ nxn.symm K1'
  have L2 := R _ _ nsn K2'
  have L3 := R _ _ nvn.symm K3'
  have L4 := R _ _ ncn.symm K4'
  have W6 : ∀ q o, q ≠ xs → h[q]? = some o →
      ((H4 ++ [Obj.arr (.mat n n M1)]).set xn (.swc xs H4.length))[q]? = some o :=
    fun q o hq ho => R q o (by have := get_lt ho; omega) (W4 q o hq ho)
  generalize (H4 ++ [Obj.arr (.mat n n M1)]).set xn (.swc xs H4.length) = H6 at *
  have s8 : setSwcCov (H6 ++ [.arr (.mat n n (symmetrize M1))]) xn H6.length
      = .ok ((H6 ++ [Obj.arr (.mat n n (symmetrize M1))]).set xn (.swc xs H6.length)) := by
    unfold setSwcCov; rw [get_grow J6]
  have J8 : ((H6 ++ [Obj.arr (.mat n n (symmetrize M1))]).set xn (.swc xs H6.length))[xn]?
      = some (.swc xs H6.length) := set_get_eq (get_lt (get_grow J6)) _
  have R8 : ∀ q o, q ≠ xn → H6[q]? = some o →
      ((H6 ++ [Obj.arr (.mat n n (symmetrize M1))]).set xn (.swc xs H6.length))[q]? = some o := by
    intro q o hq ho; rw [set_get_ne hq.symm, get_grow ho]
  have N5 : arrAt ((H6 ++ [Obj.arr (.mat n n (symmetrize M1))]).set xn (.swc xs H6.length)) H6.length
      = some (.mat n n (symmetrize M1)) := by
    unfold arrAt
    rw [set_get_ne (Nat.ne_of_lt (get_lt J6)), get_last]
  have N1 := R8 _ _ nxn.symm L1
  have N2 := R8 _ _ nsn L2
  have N3 := R8 _ _ nvn.symm L3
  have N4 := R8 _ _ ncn.symm L4
  have W8 : ∀ q o, q ≠ xs → h[q]? = some o →
      ((H6 ++ [Obj.arr (.mat n n (symmetrize M1))]).set xn (.swc xs H6.length))[q]? = some o :=
    fun q o hq ho => R8 q o (by have := get_lt ho; omega) (W6 q o hq ho)
  generalize (H6 ++ [Obj.arr (.mat n n (symmetrize M1))]).set xn (.swc xs H6.length) = H8 at *
  have s9 : setStamp H8 xs (some (tkm1 + d)) = .ok (H8.set xs (.vec H.length l.length (some (tkm1 + d)) i)) := by
    unfold setStamp; rw [N2]
  refine ⟨xn, H6.length, H8.set xs (.vec H.length l.length (some (tkm1 + d)) i), ?_, ?_, ?_, ?_, ?_, ?_⟩
  · unfold HEkf.predict
    rw [q1]
    show (readSwc H x >>= _) = _
    rw [readSwc_of G1]
    show (stampOf H xs >>= _) = _
    have : stampOf H xs = .ok s := by unfold stampOf; rw [G2]
    rw [this]
    show (predictTime s (some u) dt >>= _) = _
    rw [ht]
    show f.propagate H x xn u tkm1 d xs = _
    unfold HEkf.propagate
    rw [hf]
    show (readSwc H x >>= _) = _
    rw [readSwc_of G1]
    show ((inPlaceIntegrator Q).evaluate H xs u d >>= _) = _
    have hev : (inPlaceIntegrator Q).evaluate H xs u d = .ok (xs, H3) := by
      show (valueOf H xs >>= _) = _
      have : valueOf H xs = .ok v := by unfold valueOf; rw [G2]
      rw [this]
      show (readArr H v >>= _) = _
      rw [readArr_of G3]
      show (setValue (H ++ [.arr (.vec (List.zipWith (· + ·) l (List.ofFn (d • u.value))))]) xs H.length >>= _) = _
      rw [hL, e3]
      rfl
    rw [hev]
    show (setSwcState H3 xn xs >>= _) = _
    rw [s4]
    show (readSwc H4 x >>= _) = _
    rw [readSwc_of K1']
    show (readMat n H4 xc >>= _) = _
    rw [readMat_of (M := P) (by unfold arrAt; rw [K4'])]
    show (setSwcCov (H4 ++ [.arr (.mat n n (1 * P * (1 : Mat n n)ᵀ + d ^ 2 • Q))]) xn H4.length >>= _) = _
    rw [← hM1, s6]
    show (setSwcCov (H6 ++ [.arr (.mat n n (symmetrize M1))]) xn H6.length >>= _) = _
    rw [s8]
    show (readSwc H8 xn >>= _) = _
    rw [readSwc_of J8]
    show (setStamp H8 xs _ >>= _) = _
    rw [s9]
    rfl
  · rw [set_get_ne nsn, J8]
  · rw [set_get_ne nxs, N1]
  · rw [hk]
    refine contentsSwc_intro (s := xs) (c := xc) (by rw [set_get_ne nxs, N1]) (contents_vec k' (v := H.length) ?_ ?_) ?_ ?_
    · rw [set_get_eq (get_lt N2), hLl]
    · unfold arrAt; rw [set_get_ne (by omega), N3]
    · unfold arrAt; rw [set_get_ne ncs, N4]
    · simp only [STree.dof]; omega
  · rw [hk, ← hM1]
    refine contentsSwc_intro (s := xs) (c := H6.length) (by rw [set_get_ne nsn, J8])
      (contents_vec k' (v := H.length) ?_ ?_) ?_ ?_
    · rw [set_get_eq (get_lt N2), hLl]
    · unfold arrAt; rw [set_get_ne (by omega), N3]
    · exact arrAt_set_ne (by unfold arrAt; rw [N2]) _ N5
    · simp only [STree.dof]; omega
  · intro q o hq ho
    rw [set_get_ne hq.symm, W8 q o hq ho]

/-- The hypotheses of `C86_predict_in_place` are met. -/
example : exHeap2[4]? = some (.swc 3 1) ∧ contentsSwc 1 exHeap2 4 = some (.vec [1, 2] (some 0) none, ⟨2, 1⟩) ∧
    predictTime (some 0) (some (⟨(1 : Vec 2), some 1⟩ : Inp (Vec 2))) none = .ok (0, 1) := by
  refine ⟨rfl, exHeap2_contents, ?_⟩
  show (if (1 : ℝ) - 0 < 0 then Except.error Err.runtimeError else Except.ok ((0 : ℝ), (1 : ℝ) - 0)) = _
  norm_num

end Verif.Heap
