import Verif.Lemmas.Heap

/-!
Copies of estimates, mixtures and inputs.
-/

namespace Verif.Heap

open Verif

set_option linter.unusedVariables false

/-- A copy as seen through an observation. -/
def CopySpecG {α : Type} (obs : Heap → Ref → Option α) (h : Heap) (v : α) (res : Except Err (Ref × Heap)) : Prop :=
  ∃ (r' : Ref) (new : Heap), res = .ok (r', h ++ new) ∧ h.length ≤ r' ∧ r' < (h ++ new).length ∧
    FreshFrom h.length h new ∧ obs (h ++ new) r' = some v

theorem copyAll_specG {α : Type} {f : Heap → Ref → Except Err (Ref × Heap)} {obs : Heap → Ref → Option α}
    {c : α → α} {P : α → Prop}
    (hg : ∀ h new r v, obs h r = some v → obs (h ++ new) r = some v)
    (ih : ∀ h r v, obs h r = some v → P v → CopySpecG obs h (c v) (f h r)) :
    ∀ (l : List Ref) (h : Heap) (vs : List α), l.mapM (obs h) = some vs → (∀ v ∈ vs, P v) →
      ∃ (rs : List Ref) (new : Heap), copyAll f h l = .ok (rs, h ++ new) ∧
        (∀ q ∈ rs, h.length ≤ q ∧ q < (h ++ new).length) ∧ FreshFrom h.length h new ∧
        rs.mapM (obs (h ++ new)) = some (vs.map c)
  | [], h, ts, hts, _ => by
    have : ts = [] := by simpa using hts.symm
    subst this
    refine ⟨[], [], by simp [copyAll], by simp, FreshFrom.nil _ _, by simp⟩
  | r :: l, h, ts, hts, hP => by
    rw [List.mapM_cons] at hts
    obtain ⟨t, ht, hts⟩ := obind hts
    obtain ⟨ts', hts', hts⟩ := obind hts
    have hts : t :: ts' = ts := by simpa using hts
    subst hts
    obtain ⟨r', n1, h1, h2, h3, h4, h5⟩ := ih h r t ht (hP t (by simp))
    obtain ⟨rs, n2, g1, g2, g3, g4⟩ := copyAll_specG hg ih l (h ++ n1) ts'
      (mapM_mono hts' fun a t _ ha => hg _ _ _ _ ha) (fun v hv => hP v (by simp [hv]))
    rw [List.append_assoc] at g1 g2 g4
    refine ⟨r' :: rs, n1 ++ n2, ?_, ?_, ?_, ?_⟩
    · unfold copyAll
      rw [h1]
      show (copyAll f (h ++ n1) l >>= _) = _
      rw [g1]; rfl
    · intro q hq
      rcases List.mem_cons.mp hq with rfl | hq
      · refine ⟨h2, lt_of_lt_of_le h3 ?_⟩
        simp only [List.length_append]; omega
      · refine ⟨le_trans ?_ (g2 q hq).1, (g2 q hq).2⟩
        simp
    · refine h4.append (g3.weaken ?_)
      simp
    · rw [List.mapM_cons]
      have := hg _ n2 _ _ h5
      rw [List.append_assoc] at this
      rw [this, g4]
      simp

/-! ### Degrees of freedom -/

theorem dof_rebuilt (n : String) (s : Option ℝ) (t : STree) : (rebuilt n s t).dof = t.dof := by
  cases t <;> simp [rebuilt, STree.dof]

mutual
theorem dof_copied : ∀ t : STree, (copied t).dof = t.dof
  | .vec _ _ _ => rfl
  | .lie _ _ _ _ _ _ => rfl
  | .comp l s i => by
    show STree.dofs (copiedAll l) = STree.dofs l
    exact dofs_copied l
  | .imu n g a s i => by
    show (rebuilt _ _ n).dof + ((rebuilt _ _ g).dof + ((rebuilt _ _ a).dof + 0)) = _
    rw [dof_rebuilt, dof_rebuilt, dof_rebuilt]; rfl

theorem dofs_copied : ∀ l : List STree, STree.dofs (copiedAll l) = STree.dofs l
  | [] => rfl
  | t :: ts => by
    show (copied t).dof + STree.dofs (copiedAll ts) = _
    rw [dof_copied t, dofs_copied ts]; rfl
end

theorem dofOf_list {k : ℕ} {h : Heap} (ih : ∀ r t, contents k h r = some t → dofOf k h r = .ok t.dof) :
    ∀ (l : List Ref) (ts : List STree), l.mapM (contents k h) = some ts →
      ∃ ds : List ℕ, l.mapM (dofOf k h) = .ok ds ∧ ds.sum = STree.dofs ts
  | [], ts, hts => by
    have : ts = [] := by simpa using hts.symm
    subst this
    exact ⟨[], rfl, rfl⟩
  | r :: l, ts, hts => by
    rw [List.mapM_cons] at hts
    obtain ⟨t, ht, hts⟩ := obind hts
    obtain ⟨ts', hts', hts⟩ := obind hts
    have hts : t :: ts' = ts := by simpa using hts
    subst hts
    obtain ⟨ds, h1, h2⟩ := dofOf_list ih l ts' hts'
    refine ⟨t.dof :: ds, ?_, ?_⟩
    · rw [List.mapM_cons, ih r t ht, h1]; rfl
    · rw [List.sum_cons, h2]; rfl

theorem dofOf_contents : ∀ {k : ℕ} {h : Heap} {r : Ref} {t : STree}, contents k h r = some t →
    dofOf k h r = .ok t.dof
  | 0, h, r, t, hc => by cases hc
  | k + 1, h, r, t, hc => by
    unfold contents at hc
    unfold dofOf
    cases ho : h[r]? with
    | none => rw [ho] at hc; cases hc
    | some o =>
      rw [ho] at hc
      cases o with
      | vec v d s i =>
        obtain ⟨a, ha, hc1⟩ := obind hc
        obtain ⟨l', hl, hc2⟩ := obind hc1
        obtain ⟨rfl, rfl⟩ := asVec_some hl
        cases hc2; rfl
      | lie c v s i d =>
        obtain ⟨a, ha, hc1⟩ := obind hc
        obtain ⟨l', hl, hc2⟩ := obind hc1
        cases hc2; rfl
      | comp v s i =>
        obtain ⟨l, hl, hc1⟩ := obind hc
        obtain ⟨ts, hts, hc2⟩ := obind hc1
        cases hc2
        obtain ⟨ds, h1, h2⟩ := dofOf_list (fun r t => dofOf_contents) l ts hts
        show (readList h v >>= _) = _
        rw [readList_of hl]
        show (List.mapM (dofOf k h) l >>= _) = _
        rw [h1]
        show Except.ok ds.sum = _
        rw [h2]; rfl
      | imuState v s i =>
        obtain ⟨l, hl, hc1⟩ := obind hc
        obtain ⟨ts, hts, hc2⟩ := obind hc1
        obtain ⟨ds, h1, h2⟩ := dofOf_list (fun r t => dofOf_contents) l ts hts
        obtain ⟨n, M, s0, i0, d, g, s1, i1, a, s2, i2, rfl, rfl⟩ := asImu_some hc2
        show (readList h v >>= _) = _
        rw [readList_of hl]
        show (List.mapM (dofOf k h) l >>= _) = _
        rw [h1]
        show Except.ok ds.sum = _
        rw [h2]; rfl
      | _ => cases hc

/-! ### Estimates -/

theorem contentsSwc_inv {k : ℕ} {h : Heap} {r : Ref} {v : STree × Σ n, Mat n n} (hc : contentsSwc k h r = some v) :
    ∃ s c, h[r]? = some (.swc s c) ∧ contents k h s = some v.1 ∧ arrAt h c = some (.mat v.2.1 v.2.1 v.2.2) ∧
      v.2.1 = v.1.dof := by
  unfold contentsSwc at hc
  cases ho : h[r]? with
  | none => rw [ho] at hc; cases hc
  | some o =>
    rw [ho] at hc
    cases o with
    | swc s c =>
      obtain ⟨t, ht, hc1⟩ := obind hc
      obtain ⟨a, ha, hc2⟩ := obind hc1
      cases a with
      | vec _ => cases hc2
      | mat n m M =>
        simp only [] at hc2
        split at hc2
        · rename_i e
          subst e
          split at hc2
          · rename_i e2
            cases hc2
            exact ⟨s, c, rfl, ht, ha, e2⟩
          · cases hc2
        · cases hc2
    | _ => cases hc

theorem contentsSwc_intro {k : ℕ} {h : Heap} {r s c : Ref} {t : STree} {n : ℕ} {M : Mat n n}
    (hr : h[r]? = some (.swc s c)) (ht : contents k h s = some t) (hM : arrAt h c = some (.mat n n M))
    (hn : n = t.dof) : contentsSwc k h r = some (t, ⟨n, M⟩) := by
  unfold contentsSwc
  rw [hr]
  show (contents k h s >>= _) = _
  rw [ht]
  show (arrAt h c >>= _) = _
  rw [hM]
  show (if e : n = n then if n = t.dof then some (t, (⟨n, M.submatrix id (Fin.cast e)⟩ : Σ n, Mat n n)) else none
    else none) = _
  rw [dif_pos rfl, if_pos hn]; rfl

theorem contentsSwc_grow {k : ℕ} (h new : Heap) (r : Ref) (v : STree × Σ n, Mat n n)
    (hc : contentsSwc k h r = some v) : contentsSwc k (h ++ new) r = some v := by
  obtain ⟨s, c, h1, h2, h3, h4⟩ := contentsSwc_inv hc
  exact contentsSwc_intro (get_grow h1) (contents_grow h2) (arrAt_grow h3) h4

theorem newSwc_spec {k : ℕ} {h : Heap} {s c : Ref} {t : STree} {n : ℕ} {M : Mat n n}
    (ht : contents k h s = some t) (hM : arrAt h c = some (.mat n n M)) (hn : n = t.dof) :
    newSwc k h s c = .ok (h.length, h ++ [.swc s c]) := by
  unfold newSwc
  rw [readArr_of hM]
  show (if n ≠ n then _ else _) = _
  rw [if_neg (fun hne => hne rfl)]
  show (dofOf k h s >>= _) = _
  rw [dofOf_contents ht]
  show (if n ≠ t.dof then _ else _) = _
  rw [if_neg (fun hne => hne hn)]; rfl

theorem copySwc_spec (Exp : LieCls → Arr → Arr) {k : ℕ} (h : Heap) (r : Ref) (v : STree × Σ n, Mat n n)
    (hc : contentsSwc k h r = some v) :
    CopySpecG (contentsSwc k) h (copied v.1, v.2) (copySwc Exp k h r) := by
  obtain ⟨s, c, h1, h2, h3, h4⟩ := contentsSwc_inv hc
  obtain ⟨s', new, g1, g2, g3, g4, g5⟩ := copy_spec Exp k h s v.1 h2
  have e5 : contents k (h ++ new ++ [Obj.arr (.mat v.2.1 v.2.1 v.2.2)]) s' = some (copied v.1) := contents_grow g5
  have e6 : arrAt (h ++ new ++ [Obj.arr (.mat v.2.1 v.2.1 v.2.2)]) (h ++ new).length
      = some (.mat v.2.1 v.2.1 v.2.2) := by unfold arrAt; rw [get_last]
  have e7 : v.2.1 = (copied v.1).dof := by rw [dof_copied, h4]
  have e : copySwc Exp k h r = .ok ((h ++ new).length + 1,
      h ++ (new ++ [.arr (.mat v.2.1 v.2.1 v.2.2), .swc s' (h ++ new).length])) := by
    unfold copySwc readSwc
    rw [h1]
    show (copyState Exp k h s >>= _) = _
    rw [g1]
    show (copyArr (h ++ new) c >>= _) = _
    rw [copyArr_spec (arrAt_grow h3)]
    show newSwc k _ s' (h ++ new).length = _
    rw [newSwc_spec e5 e6 e7]
    simp [Nat.add_assoc]
  refine ⟨_, _, e, ?_, ?_, ?_, ?_⟩
  · simp only [List.length_append]; omega
  · simp only [List.length_append, List.length_cons, List.length_nil]; omega
  · refine g4.append ?_
    intro o ho q hq
    simp only [List.mem_cons, List.not_mem_nil, or_false] at ho
    rcases ho with rfl | rfl
    · simp [Obj.refs] at hq
    · simp only [Obj.refs, List.mem_cons, List.not_mem_nil, or_false] at hq
      simp only [List.length_append, List.length_cons, List.length_nil] at g3 ⊢
      rcases hq with rfl | rfl
      · omega
      · simp
  · have a1 : (h ++ (new ++ [Obj.arr (.mat v.2.1 v.2.1 v.2.2), .swc s' (h ++ new).length]))
        = (h ++ new ++ [Obj.arr (.mat v.2.1 v.2.1 v.2.2)]) ++ [.swc s' (h ++ new).length] := by simp
    rw [a1]
    refine contentsSwc_intro ?_ (contents_grow e5) (arrAt_grow e6) e7
    have : (h ++ new).length + 1 = (h ++ new ++ [Obj.arr (.mat v.2.1 v.2.1 v.2.2)]).length := by simp [Nat.add_assoc]
    rw [this, get_last]

/-! ### Mixtures -/

theorem copyMix_spec (Exp : LieCls → Arr → Arr) {k : ℕ} (h : Heap) (r : Ref)
    (v : List (STree × Σ n, Mat n n) × Arr) (hc : contentsMix k h r = some v) :
    CopySpecG (contentsMix k) h (v.1.map fun x => (copied x.1, x.2), v.2) (copyMix Exp k h r) := by
  unfold contentsMix at hc
  unfold copyMix
  cases ho : h[r]? with
  | none => rw [ho] at hc; cases hc
  | some o =>
    rw [ho] at hc
    cases o with
    | mix l p =>
      obtain ⟨xs, hxs, hc1⟩ := obind hc
      obtain ⟨ts, hts, hc2⟩ := obind hc1
      obtain ⟨a, ha, hc3⟩ := obind hc2
      cases hc3
      obtain ⟨rs, new, g1, g2, g3, g4⟩ := copyAll_specG (c := fun x => (copied x.1, x.2)) (P := fun _ => True)
        contentsSwc_grow (fun h r v hv _ => copySwc_spec Exp h r v hv) xs h ts hts (fun _ _ => trivial)
      have e : (do
          let xs ← readList h l
          let (xs', h1) ← copyAll (copySwc Exp k) h xs
          let (l', h2) := alloc h1 (.list xs')
          let (p', h3) ← copyArr h2 p
          return alloc h3 (.mix l' p') : Except Err (Ref × Heap))
          = .ok ((h ++ new).length + 2,
            h ++ (new ++ [.list rs, .arr a, .mix (h ++ new).length ((h ++ new).length + 1)])) := by
        rw [readList_of hxs]
        show (copyAll (copySwc Exp k) h xs >>= _) = _
        rw [g1]
        show (copyArr (h ++ new ++ [.list rs]) p >>= _) = _
        rw [copyArr_spec (arrAt_grow (arrAt_grow ha))]
        show Except.ok (alloc _ _) = _
        simp [alloc, Nat.add_assoc]
      refine ⟨_, _, e, ?_, ?_, ?_, ?_⟩
      · simp only [List.length_append]; omega
      · simp only [List.length_append, List.length_cons, List.length_nil]; omega
      · refine g3.append ?_
        intro o ho q hq
        simp only [List.mem_cons, List.not_mem_nil, or_false] at ho
        simp only [List.length_append, List.length_cons, List.length_nil] at g2 ⊢
        rcases ho with rfl | rfl | rfl
        · have := g2 q (by simpa [Obj.refs] using hq)
          omega
        · simp [Obj.refs] at hq
        · simp only [Obj.refs, List.mem_cons, List.not_mem_nil, or_false] at hq
          rcases hq with rfl | rfl <;> simp only [List.length_append] <;> omega
      · unfold contentsMix
        rw [← List.append_assoc, get_off]
        show (listAt _ _ >>= _) = _
        rw [show (h ++ new).length = (h ++ new).length + 0 from rfl, listAt_off (i := 0) (a := rs) rfl]
        show (List.mapM (contentsSwc k _) rs >>= _) = _
        rw [mapM_mono g4 (fun a t _ ha => contentsSwc_grow _ _ _ _ ha)]
        show (arrAt _ ((h ++ new).length + 1) >>= _) = _
        rw [arrAt_off (i := 1) (a := a) rfl]
        rfl
    | _ => cases hc

/-! ### Inputs -/

theorem covAt_grow {h new : Heap} {c : Option Ref} {C : Option Arr} (hc : covAt h c = some C) :
    covAt (h ++ new) c = some C := by
  cases c with
  | none => exact hc
  | some c =>
    simp only [covAt] at hc ⊢
    cases ha : arrAt h c with
    | none => rw [ha] at hc; cases hc
    | some a => rw [arrAt_grow ha]; rw [ha] at hc; exact hc

theorem vecAt_some {h : Heap} {r : Ref} {l : List ℝ} (hc : vecAt h r = some l) : arrAt h r = some (.vec l) := by
  unfold vecAt at hc
  obtain ⟨a, ha, hc⟩ := obind hc
  cases a with
  | vec l' => cases hc; exact ha
  | mat _ _ _ => cases hc

theorem vecAt_of {h : Heap} {r : Ref} {l : List ℝ} (ha : arrAt h r = some (.vec l)) : vecAt h r = some l := by
  unfold vecAt
  rw [ha]; rfl

theorem vecAt_grow {h new : Heap} {r : Ref} {l : List ℝ} (hc : vecAt h r = some l) :
    vecAt (h ++ new) r = some l := vecAt_of (arrAt_grow (vecAt_some hc))

theorem contentsInput_grow : ∀ {k : ℕ} (h new : Heap) (r : Ref) (t : ITree),
    contentsInput k h r = some t → contentsInput k (h ++ new) r = some t
  | 0, h, new, r, t, hc => by cases hc
  | k + 1, h, new, r, t, hc => by
    unfold contentsInput at hc ⊢
    cases ho : h[r]? with
    | none => rw [ho] at hc; cases hc
    | some o =>
      rw [get_grow ho]
      rw [ho] at hc
      cases o with
      | vinput v s i c =>
        obtain ⟨a, ha, hc1⟩ := obind hc
        obtain ⟨C, hC, hc2⟩ := obind hc1
        show (arrAt (h ++ new) v >>= _) = _
        rw [arrAt_grow ha]
        show (covAt (h ++ new) c >>= _) = _
        rw [covAt_grow hC]; exact hc2
      | imu g a wg wa s i c =>
        obtain ⟨g', hg, hc1⟩ := obind hc
        obtain ⟨a', ha, hc2⟩ := obind hc1
        obtain ⟨wg', hwg, hc3⟩ := obind hc2
        obtain ⟨wa', hwa, hc4⟩ := obind hc3
        obtain ⟨C, hC, hc5⟩ := obind hc4
        show (vecAt (h ++ new) g >>= _) = _
        rw [vecAt_grow hg]
        show (vecAt (h ++ new) a >>= _) = _
        rw [vecAt_grow ha]
        show (vecAt (h ++ new) wg >>= _) = _
        rw [vecAt_grow hwg]
        show (vecAt (h ++ new) wa >>= _) = _
        rw [vecAt_grow hwa]
        show (covAt (h ++ new) c >>= _) = _
        rw [covAt_grow hC]; exact hc5
      | cinput l =>
        obtain ⟨xs, hxs, hc1⟩ := obind hc
        obtain ⟨ts, hts, hc2⟩ := obind hc1
        show (listAt (h ++ new) l >>= _) = _
        rw [listAt_grow hxs]
        show (List.mapM (contentsInput k (h ++ new)) xs >>= _) = _
        rw [mapM_mono hts (fun a t _ ha => contentsInput_grow _ _ _ _ ha)]
        exact hc2
      | _ => cases hc

mutual
/-- No `VectorInput` with a covariance inside. -/
def ITree.noVecCov : ITree → Prop
  | .vec _ _ _ C => C = none
  | .imu _ _ _ _ _ _ _ => True
  | .comp l => ITree.noVecCovs l

/-- For a list. -/
def ITree.noVecCovs : List ITree → Prop
  | [] => True
  | t :: ts => t.noVecCov ∧ ITree.noVecCovs ts
end

theorem noVecCovs_mem : ∀ {l : List ITree}, ITree.noVecCovs l → ∀ t ∈ l, t.noVecCov
  | [], _, t, ht => by cases ht
  | a :: l, h, t, ht => by
    rcases List.mem_cons.mp ht with rfl | ht
    · exact h.1
    · exact noVecCovs_mem h.2 t ht

theorem ravelArr_spec {h : Heap} {v : Ref} {l : List ℝ} (ha : arrAt h v = some (.vec l)) :
    ravelArr h v = .ok (h.length, h ++ [.arr (.vec l)]) := by
  unfold ravelArr
  rw [readArr_of ha]; rfl

theorem copyCov_spec {h : Heap} {c : Option Ref} {C : Option Arr} (hc : covAt h c = some C) :
    ∃ (c' : Option Ref) (new : Heap), copyCov h c = .ok (c', h ++ new) ∧ FreshFrom h.length h new ∧
      (∀ q ∈ c'.toList, h.length ≤ q ∧ q < (h ++ new).length) ∧ covAt (h ++ new) c' = some C := by
  cases c with
  | none =>
    refine ⟨none, [], by simp [copyCov], FreshFrom.nil _ _, by simp, ?_⟩
    exact hc
  | some c =>
    simp only [covAt] at hc
    cases ha : arrAt h c with
    | none => rw [ha] at hc; cases hc
    | some a =>
      rw [ha] at hc
      have hC : some a = C := by simpa using hc
      subst hC
      refine ⟨some h.length, [.arr a], ?_, ?_, ?_, ?_⟩
      · unfold copyCov
        show (copyArr h c >>= _) = _
        rw [copyArr_spec ha]; rfl
      · intro o ho q hq
        rw [List.mem_singleton.mp ho] at hq
        simp [Obj.refs] at hq
      · intro q hq
        simp at hq; subst hq; simp
      · have := arrAt_off (h := h) (new := [.arr a]) (i := 0) (a := a) rfl
        simp only [covAt]
        rw [Nat.add_zero] at this
        rw [this]; rfl

theorem copyInput_spec : ∀ (k : ℕ) (h : Heap) (r : Ref) (t : ITree),
    contentsInput k h r = some t → t.noVecCov → CopySpecG (contentsInput k) h t (copyInput k h r)
  | 0, h, r, t, hc, _ => by cases hc
  | k + 1, h, r, t, hc, hn => by
    unfold contentsInput at hc
    unfold copyInput
    cases ho : h[r]? with
    | none => rw [ho] at hc; cases hc
    | some o =>
      rw [ho] at hc
      cases o with
      | vinput v s i c =>
        obtain ⟨a, ha, hc1⟩ := obind hc
        obtain ⟨C, hC, hc2⟩ := obind hc1
        cases hc2
        have hn : C = none := hn
        subst hn
        have hcn : c = none := by
          cases c with
          | none => rfl
          | some c =>
            simp only [covAt] at hC
            cases harr : arrAt h c with
            | none => rw [harr] at hC; cases hC
            | some b => rw [harr] at hC; simp at hC
        subst hcn
        have e : (do let (v', h1) ← copyArr h v; return newVinput h1 v' s i none : Except Err (Ref × Heap))
            = .ok (h.length + 1, h ++ [.arr a, .vinput h.length s i none]) := by
          rw [copyArr_spec ha]
          show Except.ok (newVinput _ _ _ _ _) = _
          simp [newVinput, alloc]
        refine ⟨_, _, e, by omega, by simp, ?_, ?_⟩
        · intro o ho q hq
          simp only [List.mem_cons, List.not_mem_nil, or_false] at ho
          rcases ho with rfl | rfl
          · simp [Obj.refs] at hq
          · simp [Obj.refs] at hq; subst hq; simp
        · unfold contentsInput
          rw [get_off]
          show (arrAt _ h.length >>= _) = _
          rw [show arrAt (h ++ [.arr a, .vinput h.length s i none]) h.length = some a from arrAt_off (i := 0) rfl]
          rfl
      | imu g a wg wa s i c =>
        obtain ⟨g', hg, hc1⟩ := obind hc
        obtain ⟨a', ha, hc2⟩ := obind hc1
        obtain ⟨wg', hwg, hc3⟩ := obind hc2
        obtain ⟨wa', hwa, hc4⟩ := obind hc3
        obtain ⟨C, hC, hc5⟩ := obind hc4
        cases hc5
        obtain ⟨c', n0, f1, f2, f3, f4⟩ := copyCov_spec hC
        have q1 := arrAt_grow (new := n0) (vecAt_some hg)
        have q2 := arrAt_grow (new := n0) (vecAt_some ha)
        have q3 := arrAt_grow (new := n0) (vecAt_some hwg)
        have q4 := arrAt_grow (new := n0) (vecAt_some hwa)
        generalize hH : h ++ n0 = H at *
        have e : (do
            let (c', h0) ← copyCov h c
            let (g', h1) ← copyArr h0 g
            let (a', h2) ← copyArr h1 a
            let (wg', h3) ← copyArr h2 wg
            let (wa', h4) ← copyArr h3 wa
            newImu h4 g' a' wg' wa' s i c' : Except Err (Ref × Heap))
            = .ok (H.length + 8, H ++ [.arr (.vec g'), .arr (.vec a'), .arr (.vec wg'), .arr (.vec wa'),
                .arr (.vec g'), .arr (.vec a'), .arr (.vec wg'), .arr (.vec wa'),
                .imu (H.length + 4) (H.length + 5) (H.length + 6) (H.length + 7) s i c']) := by
          rw [f1]
          show (copyArr H g >>= _) = _
          rw [copyArr_spec q1]
          show (copyArr (H ++ [.arr (.vec g')]) a >>= _) = _
          rw [copyArr_spec (arrAt_grow q2)]
          show (copyArr (H ++ [.arr (.vec g')] ++ [.arr (.vec a')]) wg >>= _) = _
          rw [copyArr_spec (arrAt_grow (arrAt_grow q3))]
          show (copyArr (H ++ [.arr (.vec g')] ++ [.arr (.vec a')] ++ [.arr (.vec wg')]) wa >>= _) = _
          rw [copyArr_spec (arrAt_grow (arrAt_grow (arrAt_grow q4)))]
          show newImu (H ++ [.arr (.vec g')] ++ [.arr (.vec a')] ++ [.arr (.vec wg')] ++ [.arr (.vec wa')]) _ _ _ _ s i
            c' = _
          have eH : H ++ [Obj.arr (.vec g')] ++ [.arr (.vec a')] ++ [.arr (.vec wg')] ++ [.arr (.vec wa')]
              = H ++ [.arr (.vec g'), .arr (.vec a'), .arr (.vec wg'), .arr (.vec wa')] := by simp
          rw [eH]
          simp only [List.length_append, List.length_singleton]
          unfold newImu
          have p1 : arrAt (H ++ [.arr (.vec g'), .arr (.vec a'), .arr (.vec wg'), .arr (.vec wa')]) H.length
              = some (.vec g') := arrAt_off (i := 0) rfl
          have p2 : arrAt (H ++ [.arr (.vec g'), .arr (.vec a'), .arr (.vec wg'), .arr (.vec wa')]) (H.length + 1)
              = some (.vec a') := arrAt_off (i := 1) rfl
          have p3 : arrAt (H ++ [.arr (.vec g'), .arr (.vec a'), .arr (.vec wg'), .arr (.vec wa')]) (H.length + 1 + 1)
              = some (.vec wg') := arrAt_off (i := 2) rfl
          have p4 : arrAt (H ++ [.arr (.vec g'), .arr (.vec a'), .arr (.vec wg'), .arr (.vec wa')])
              (H.length + 1 + 1 + 1) = some (.vec wa') := arrAt_off (i := 3) rfl
          rw [ravelArr_spec p1]
          show (ravelArr _ (H.length + 1) >>= _) = _
          rw [ravelArr_spec (arrAt_grow p2)]
          show (ravelArr _ (H.length + 1 + 1) >>= _) = _
          rw [ravelArr_spec (arrAt_grow (arrAt_grow p3))]
          show (ravelArr _ (H.length + 1 + 1 + 1) >>= _) = _
          rw [ravelArr_spec (arrAt_grow (arrAt_grow (arrAt_grow p4)))]
          show Except.ok (alloc _ _) = _
          simp [alloc]
        subst hH
        rw [List.append_assoc] at e
        refine ⟨_, _, e, ?_, ?_, ?_, ?_⟩
        · simp only [List.length_append]; omega
        · simp only [List.length_append, List.length_cons, List.length_nil]; omega
        · refine f2.append ?_
          intro o ho q hq
          simp only [List.mem_cons, List.not_mem_nil, or_false] at ho
          simp only [List.length_append, List.length_cons, List.length_nil] at f3 ⊢
          rcases ho with rfl | rfl | rfl | rfl | rfl | rfl | rfl | rfl | rfl <;>
            simp only [Obj.refs, List.not_mem_nil] at hq
          simp only [List.mem_cons] at hq
          rcases hq with rfl | rfl | rfl | rfl | hq
          · simp only [List.length_append]; omega
          · simp only [List.length_append]; omega
          · simp only [List.length_append]; omega
          · simp only [List.length_append]; omega
          · have := f3 q hq; omega
        · rw [← List.append_assoc]
          unfold contentsInput
          rw [get_off]
          show (vecAt _ ((h ++ n0).length + 4) >>= _) = _
          rw [vecAt_of (arrAt_off (i := 4) rfl)]
          show (vecAt _ ((h ++ n0).length + 5) >>= _) = _
          rw [vecAt_of (arrAt_off (i := 5) rfl)]
          show (vecAt _ ((h ++ n0).length + 6) >>= _) = _
          rw [vecAt_of (arrAt_off (i := 6) rfl)]
          show (vecAt _ ((h ++ n0).length + 7) >>= _) = _
          rw [vecAt_of (arrAt_off (i := 7) rfl)]
          show (covAt _ c' >>= _) = _
          rw [covAt_grow f4]
          rfl
      | cinput l =>
        obtain ⟨xs, hxs, hc1⟩ := obind hc
        obtain ⟨ts, hts, hc2⟩ := obind hc1
        cases hc2
        obtain ⟨rs, new, g1, g2, g3, g4⟩ := copyAll_specG (c := fun x => x) (P := ITree.noVecCov)
          contentsInput_grow (fun h r v hv hP => copyInput_spec k h r v hv hP) xs h ts hts
          (noVecCovs_mem hn)
        have e : (do
            let xs ← readList h l
            let (xs', h1) ← copyAll (copyInput k) h xs
            let (l', h2) := alloc h1 (.list xs')
            return alloc h2 (.cinput l') : Except Err (Ref × Heap))
            = .ok ((h ++ new).length + 1, h ++ (new ++ [.list rs, .cinput (h ++ new).length])) := by
          rw [readList_of hxs]
          show (copyAll (copyInput k) h xs >>= _) = _
          rw [g1]
          show Except.ok (alloc (h ++ new ++ [.list rs]) (.cinput (h ++ new).length)) = _
          simp [alloc, Nat.add_assoc]
        refine ⟨_, _, e, ?_, ?_, ?_, ?_⟩
        · simp only [List.length_append]; omega
        · simp only [List.length_append, List.length_cons, List.length_nil]; omega
        · refine g3.append ?_
          intro o ho q hq
          simp only [List.mem_cons, List.not_mem_nil, or_false] at ho
          simp only [List.length_append, List.length_cons, List.length_nil] at g2 ⊢
          rcases ho with rfl | rfl
          · have := g2 q (by simpa [Obj.refs] using hq)
            omega
          · simp [Obj.refs] at hq; subst hq; simp
        · unfold contentsInput
          rw [← List.append_assoc, get_off]
          show (listAt _ _ >>= _) = _
          rw [show (h ++ new).length = (h ++ new).length + 0 from rfl, listAt_off (i := 0) (a := rs) rfl]
          show (List.mapM (contentsInput k _) rs >>= _) = _
          rw [mapM_mono g4 (fun a t _ ha => contentsInput_grow _ _ _ _ ha)]
          simp
      | _ => cases hc

end Verif.Heap
