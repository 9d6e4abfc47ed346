import Verif.Lemmas.HeapSwc

/-!
`plus` on the heap.
-/

namespace Verif.Heap

open Verif

set_option linter.unusedVariables false

theorem ebind {α β : Type} {x : Except Err α} {f : α → Except Err β} {b : β} (h : (x >>= f) = .ok b) :
    ∃ a, x = .ok a ∧ f a = .ok b := by
  cases x with
  | error e => cases h
  | ok a => exact ⟨a, rfl, h⟩

theorem contents_comp_inv {k : ℕ} {h : Heap} {r : Ref} {ts : List STree} {s : Option ℝ} {i : Id}
    (hc : contents (k + 1) h r = some (.comp ts s i)) :
    ∃ v l, h[r]? = some (.comp v s i) ∧ listAt h v = some l ∧ l.mapM (contents k h) = some ts := by
  unfold contents at hc
  cases ho : h[r]? with
  | none => rw [ho] at hc; cases hc
  | some o =>
    rw [ho] at hc
    cases o with
    | vec v d s i =>
      obtain ⟨a, ha, hc1⟩ := obind hc
      obtain ⟨l', hl, hc2⟩ := obind hc1
      cases hc2
    | lie c v s i d =>
      obtain ⟨a, ha, hc1⟩ := obind hc
      obtain ⟨l', hl, hc2⟩ := obind hc1
      cases hc2
    | comp v s i =>
      obtain ⟨l, hl, hc1⟩ := obind hc
      obtain ⟨ts', hts, hc2⟩ := obind hc1
      cases hc2
      exact ⟨v, l, rfl, hl, hts⟩
    | imuState v s i =>
      obtain ⟨l, hl, hc1⟩ := obind hc
      obtain ⟨ts', hts, hc2⟩ := obind hc1
      obtain ⟨_, _, _, _, _, _, _, _, _, _, _, _, hc⟩ := asImu_some hc2
      cases hc
    | _ => cases hc

theorem contents_imu_inv {k : ℕ} {h : Heap} {r : Ref} {n g a : STree} {s : Option ℝ} {i : Id}
    (hc : contents (k + 1) h r = some (.imu n g a s i)) :
    ∃ v l, h[r]? = some (.imuState v s i) ∧ listAt h v = some l ∧ l.mapM (contents k h) = some [n, g, a] ∧
      asImu s i [n, g, a] = some (.imu n g a s i) := by
  unfold contents at hc
  cases ho : h[r]? with
  | none => rw [ho] at hc; cases hc
  | some o =>
    rw [ho] at hc
    cases o with
    | vec v d s i =>
      obtain ⟨a, ha, hc1⟩ := obind hc
      obtain ⟨l', hl, hc2⟩ := obind hc1
      cases hc2
    | lie c v s i d =>
      obtain ⟨a, ha, hc1⟩ := obind hc
      obtain ⟨l', hl, hc2⟩ := obind hc1
      cases hc2
    | comp v s i =>
      obtain ⟨l, hl, hc1⟩ := obind hc
      obtain ⟨ts', hts, hc2⟩ := obind hc1
      cases hc2
    | imuState v s' i' =>
      obtain ⟨l, hl, hc1⟩ := obind hc
      obtain ⟨ts', hts, hc2⟩ := obind hc1
      obtain ⟨n', M, s0, i0, d, g', s1, i1, a', s2, i2, rfl, he⟩ := asImu_some hc2
      cases he
      exact ⟨v, l, rfl, hl, hts, rfl⟩
    | _ => cases hc

theorem contents_comp {k : ℕ} {h : Heap} {r v : Ref} {l : List Ref} {ts : List STree} {s : Option ℝ} {i : Id}
    (hr : h[r]? = some (.comp v s i)) (hl : listAt h v = some l) (hts : l.mapM (contents k h) = some ts) :
    contents (k + 1) h r = some (.comp ts s i) := by
  unfold contents
  rw [hr]
  show (listAt h v >>= _) = _
  rw [hl]
  show (List.mapM (contents k h) l >>= _) = _
  rw [hts]; rfl

theorem contents_imu {k : ℕ} {h : Heap} {r v : Ref} {l : List Ref} {ts : List STree} {t : STree} {s : Option ℝ}
    {i : Id} (hr : h[r]? = some (.imuState v s i)) (hl : listAt h v = some l)
    (hts : l.mapM (contents k h) = some ts) (ht : asImu s i ts = some t) : contents (k + 1) h r = some t := by
  unfold contents
  rw [hr]
  show (listAt h v >>= _) = _
  rw [hl]
  show (List.mapM (contents k h) l >>= _) = _
  rw [hts]; exact ht

/-- A write to a new object, seen as a change of the new part. -/
theorem set_new {h new : Heap} {n : Ref} (hn : h.length ≤ n) (o : Obj) :
    (h ++ new).set n o = h ++ new.set (n - h.length) o := by
  rw [List.set_append_right n o hn]

theorem FreshFrom.set {m : ℕ} {h new : Heap} (hf : FreshFrom m h new) (j : ℕ) (o : Obj)
    (ho : ∀ q ∈ o.refs, m ≤ q ∧ q < (h ++ new).length) : FreshFrom m h (new.set j o) := by
  intro o' ho' q hq
  have hlen : (h ++ new.set j o).length = (h ++ new).length := by simp
  rw [hlen]
  rcases List.mem_or_eq_of_mem_set ho' with h' | rfl
  · exact hf o' h' q hq
  · exact ho q hq

theorem set_get_eq {h : Heap} {n : Ref} (hn : n < h.length) (o : Obj) : (h.set n o)[n]? = some o := by
  rw [List.getElem?_set, if_pos rfl, if_pos hn]

theorem set_get_ne {h : Heap} {n r : Ref} (hn : n ≠ r) (o : Obj) : (h.set n o)[r]? = h[r]? := by
  rw [List.getElem?_set, if_neg hn]

mutual
theorem plusTree_copied (P : LiePlus) : ∀ (t : STree) (dx : List ℝ), plusTree P (copied t) dx = plusTree P t dx
  | .vec _ _ _, _ => rfl
  | .lie _ _ _ _ _ _, _ => rfl
  | .comp l s i, dx => by
    show (plusTrees P (copiedAll l) dx >>= _) = (plusTrees P l dx >>= _)
    rw [plusTrees_copied P l dx]
  | .imu n g a s i, dx => by
    have e : ∀ (nm : String) (t : STree), rebuilt nm s (rebuilt nm s t) = rebuilt nm s t := by
      intro nm t; cases t <;> simp [rebuilt]
    simp only [copied, plusTree, dof_rebuilt, e]

theorem plusTrees_copied (P : LiePlus) : ∀ (l : List STree) (dx : List ℝ),
    plusTrees P (copiedAll l) dx = plusTrees P l dx
  | [], _ => rfl
  | t :: ts, dx => by
    show (plusTree P (copied t) (dx.take (copied t).dof) >>= fun t' =>
      plusTrees P (copiedAll ts) (dx.drop (copied t).dof) >>= fun ts' => pure (t' :: ts')) = _
    rw [dof_copied, plusTree_copied P t]
    simp only [plusTrees_copied P ts]
    rfl
end

/-- What `plus` returns: a fresh object with the given contents. -/
theorem plusAll_spec {f : Heap → Ref → List ℝ → Except Err (Ref × Heap)} {P : LiePlus} {k : ℕ}
    (ih : ∀ h r t dx t', contents k h r = some t → plusTree P t dx = .ok t' → CopySpec k h t' (f h r dx)) :
    ∀ (l : List Ref) (h : Heap) (ts ts' : List STree) (dx : List ℝ), l.mapM (contents k h) = some ts →
      plusTrees P ts dx = .ok ts' →
      ∃ (rs : List Ref) (new : Heap), plusAll k f h l dx = .ok (rs, h ++ new) ∧
        (∀ q ∈ rs, h.length ≤ q ∧ q < (h ++ new).length) ∧ FreshFrom h.length h new ∧
        rs.mapM (contents k (h ++ new)) = some ts'
  | [], h, ts, ts', dx, hts, hp => by
    have : ts = [] := by simpa using hts.symm
    subst this
    cases hp
    refine ⟨[], [], by simp [plusAll], by simp, FreshFrom.nil _ _, by simp⟩
  | r :: l, h, ts, ts', dx, hts, hp => by
    rw [List.mapM_cons] at hts
    obtain ⟨t, ht, hts⟩ := obind hts
    obtain ⟨ts1, hts1, hts⟩ := obind hts
    have hts : t :: ts1 = ts := by simpa using hts
    subst hts
    obtain ⟨t', ht', hp1⟩ := ebind hp
    obtain ⟨ts1', hts1', hp2⟩ := ebind hp1
    cases hp2
    obtain ⟨r', n1, h1, h2, h3, h4, h5⟩ := ih h r t _ t' ht ht'
    obtain ⟨rs, n2, g1, g2, g3, g4⟩ := plusAll_spec ih l (h ++ n1) ts1 ts1' (dx.drop t.dof)
      (mapM_mono hts1 fun a t _ ha => contents_grow ha) hts1'
    rw [List.append_assoc] at g1 g2 g4
    refine ⟨r' :: rs, n1 ++ n2, ?_, ?_, ?_, ?_⟩
    · unfold plusAll
      rw [dofOf_contents ht]
      show (f h r (dx.take t.dof) >>= _) = _
      rw [h1]
      show (plusAll k f (h ++ n1) l (dx.drop t.dof) >>= _) = _
      rw [g1]; rfl
    · intro q hq
      rcases List.mem_cons.mp hq with rfl | hq
      · refine ⟨h2, lt_of_lt_of_le h3 ?_⟩
        simp only [List.length_append]; omega
      · refine ⟨le_trans ?_ (g2 q hq).1, (g2 q hq).2⟩
        simp
    · refine h4.append (g3.weaken ?_)
      simp
    · rw [List.mapM_cons]
      have := contents_grow (new := n2) h5
      rw [List.append_assoc] at this
      rw [this, g4]
      simp

/-- The new part of the heap is closed (relative to the part below it). -/
theorem closed_fresh {h new : Heap} (hf : FreshFrom h.length h new) :
    Closed (h ++ new) (fun q => h.length ≤ q ∧ q < (h ++ new).length) := by
  intro r o ho hr q hq
  have : o ∈ new := by
    rw [List.getElem?_append_right hr.1] at ho
    exact List.mem_of_getElem? ho
  exact hf o this q hq

/-- The common last step for composites: new elements, a new list, the attribute rebound. -/
theorem plus_comp_step {k : ℕ} {h n1 n2 : Heap} {n v : Ref} {rs : List Ref} {ts' : List STree}
    (hn1 : h.length ≤ n) (hn2 : n < (h ++ n1).length) (hf1 : FreshFrom h.length h n1)
    (g2 : ∀ q ∈ rs, (h ++ n1).length ≤ q ∧ q < (h ++ n1 ++ n2).length)
    (g3 : FreshFrom (h ++ n1).length (h ++ n1) n2)
    (g4 : rs.mapM (contents k (h ++ n1 ++ n2)) = some ts') (o : Obj)
    (ho : o.refs = [(h ++ n1 ++ n2).length]) :
    ∃ new, (h ++ n1 ++ n2 ++ [Obj.list rs]).set n o = h ++ new ∧ n < (h ++ new).length ∧ FreshFrom h.length h new ∧
      (h ++ new)[n]? = some o ∧ listAt (h ++ new) (h ++ n1 ++ n2).length = some rs ∧
      rs.mapM (contents k (h ++ new)) = some ts' := by
  have hlen : n < (h ++ n1 ++ n2 ++ [Obj.list rs]).length := by
    simp only [List.length_append] at hn2 ⊢; omega
  refine ⟨(n1 ++ n2 ++ [Obj.list rs]).set (n - h.length) o, ?_, ?_, ?_, ?_, ?_, ?_⟩
  · rw [← set_new hn1]; simp
  · simp only [List.length_append, List.length_set, List.length_cons, List.length_nil] at hn2 ⊢; omega
  · refine FreshFrom.set ?_ _ _ ?_
    · refine FreshFrom.append (hf1.append (g3.weaken (by simp))) ?_
      intro o' ho' q hq
      rw [List.mem_singleton.mp ho'] at hq
      have := g2 q (by simpa [Obj.refs] using hq)
      simp only [List.length_append, List.length_cons, List.length_nil] at this ⊢
      omega
    · intro q hq
      rw [ho] at hq
      rw [List.mem_singleton.mp hq]
      simp only [List.length_append, List.length_cons, List.length_nil]
      omega
  · have e : h ++ (n1 ++ n2 ++ [Obj.list rs]).set (n - h.length) o = (h ++ n1 ++ n2 ++ [Obj.list rs]).set n o := by
      rw [← set_new hn1]; simp
    rw [e, set_get_eq hlen]
  · have e : h ++ (n1 ++ n2 ++ [Obj.list rs]).set (n - h.length) o = (h ++ n1 ++ n2 ++ [Obj.list rs]).set n o := by
      rw [← set_new hn1]; simp
    unfold listAt
    have hne : n ≠ (h ++ n1 ++ n2).length := by simp only [List.length_append] at hn2 ⊢; omega
    rw [e, set_get_ne hne, get_last]
  · have e : h ++ (n1 ++ n2 ++ [Obj.list rs]).set (n - h.length) o = (h ++ n1 ++ n2 ++ [Obj.list rs]).set n o := by
      rw [← set_new hn1]; simp
    rw [← g4]
    refine mapM_congr fun q hq => ?_
    refine contents_frame (closed_fresh g3) ?_ k q (g2 q hq)
    intro r hr
    have hne : n ≠ r := by omega
    rw [e, set_get_ne hne, List.getElem?_append_left hr.2]

theorem plusLeaf_shape {P : LiePlus} {dx : List ℝ} {t t' : STree} (h : plusLeaf P dx t = .ok t') :
    (∃ l s i, t = .vec l s i ∧ t' = .vec (List.zipWith (· + ·) l dx) s i ∧ dx.length = l.length) ∨
    (∃ c n M M' s i d, t = .lie c n M s i d ∧ t' = .lie c n M' s i d ∧ P c d n M dx = .ok M') := by
  cases t with
  | vec l s i =>
    simp only [plusLeaf] at h
    split at h
    · rename_i hl
      cases h
      exact Or.inl ⟨l, s, i, rfl, rfl, hl⟩
    · cases h
  | lie c n M s i d =>
    obtain ⟨M', hM, h⟩ := ebind h
    cases h
    exact Or.inr ⟨c, n, M, M', s, i, d, rfl, rfl, hM⟩
  | comp _ _ _ => cases h
  | imu _ _ _ _ _ => cases h

theorem plus_spec (Exp : LieCls → Arr → Arr) (P : LiePlus) : ∀ (k : ℕ) (h : Heap) (r : Ref) (t : STree)
    (dx : List ℝ) (t' : STree), contents k h r = some t → plusTree P t dx = .ok t' →
    CopySpec k h t' (plusState Exp P k h r dx)
  | 0, h, r, t, dx, t', hc, hp => by cases hc
  | k + 1, h, r, t, dx, t', hc, hp => by
    obtain ⟨n, n1, c1, c2, c3, c4, c5⟩ := copy_spec Exp (k + 1) h r t hc
    unfold plusState
    rw [c1]
    cases t with
    | vec l s i =>
      obtain ⟨v, hr, hv⟩ := contents_vec_inv hc
      obtain ⟨w, hw1, hw2⟩ := contents_vec_inv c5
      simp only [plusTree] at hp
      rcases plusLeaf_shape hp with ⟨l', s', i', e1, rfl, hl⟩ | ⟨_, _, _, _, _, _, _, e1, _, _⟩
      · cases e1
        have hv0 : valueOf (h ++ n1) n = .ok w := by unfold valueOf; rw [hw1]
        have hset : setValue (h ++ n1 ++ [Obj.arr (.vec (List.zipWith (· + ·) l dx))]) n (h ++ n1).length
            = .ok ((h ++ n1 ++ [Obj.arr (.vec (List.zipWith (· + ·) l dx))]).set n
              (.vec (h ++ n1).length l.length s i)) := by
          unfold setValue
          rw [get_grow hw1]
        have hres : (match (h ++ n1)[r]? with
            | some (.vec _ d _ _) =>
              if dx.length = d then do
                let v ← valueOf (h ++ n1) n
                let a ← readArr (h ++ n1) v
                let (v', h2) := alloc (h ++ n1) (.arr (.vec (List.zipWith (· + ·) a.ravel dx)))
                let h3 ← setValue h2 n v'
                return (n, h3)
              else .error .valueError
            | some (.lie c v _ _ dir) => do
              let M ← readSquare (h ++ n1) v
              let M' ← P c dir M.1 M.2 dx
              let (v', h2) := alloc (h ++ n1) (.arr (.mat M.1 M.1 M'))
              let h3 ← setValue h2 n v'
              return (n, h3)
            | _ => do
              let v ← valueOf (h ++ n1) n
              let l ← readList (h ++ n1) v
              let (l', h2) ← plusAll k (plusState Exp P k) (h ++ n1) l dx
              let (v', h3) := alloc h2 (.list l')
              let h4 ← setValue h3 n v'
              return (n, h4) : Except Err (Ref × Heap))
            = .ok (n, (h ++ n1 ++ [Obj.arr (.vec (List.zipWith (· + ·) l dx))]).set n
                (.vec (h ++ n1).length l.length s i)) := by
          rw [get_grow hr]
          simp only []
          rw [if_pos hl, hv0]
          show (readArr (h ++ n1) w >>= _) = _
          rw [readArr_of hw2]
          show (setValue (h ++ n1 ++ [Obj.arr (.vec (List.zipWith (· + ·) l dx))]) n (h ++ n1).length >>= _) = _
          rw [hset]; rfl
        have hlen : (List.zipWith (· + ·) l dx).length = l.length := by
          rw [List.length_zipWith, hl, min_self]
        refine ⟨n, (n1 ++ [Obj.arr (.vec (List.zipWith (· + ·) l dx))]).set (n - h.length)
          (.vec (h ++ n1).length l.length s i), ?_, c2, ?_, ?_, ?_⟩
        · rw [← set_new c2, ← List.append_assoc]; exact hres
        · simp only [List.length_append, List.length_set, List.length_cons, List.length_nil] at c3 ⊢; omega
        · refine FreshFrom.set (c4.append ?_) _ _ ?_
          · intro o ho q hq
            rw [List.mem_singleton.mp ho] at hq
            simp [Obj.refs] at hq
          · intro q hq
            simp only [Obj.refs, List.mem_singleton] at hq
            subst hq
            simp only [List.length_append, List.length_cons, List.length_nil]
            omega
        · rw [← set_new c2, ← List.append_assoc]
          have h1 := set_get_eq (h := h ++ n1 ++ [Obj.arr (.vec (List.zipWith (· + ·) l dx))]) (n := n)
            (by simp only [List.length_append] at c3 ⊢; omega) (.vec (h ++ n1).length l.length s i)
          rw [← hlen] at h1 ⊢
          refine contents_vec k h1 ?_
          unfold arrAt
          rw [set_get_ne (by simp only [List.length_append] at c3 ⊢; omega), get_last]
      · cases e1
    | lie c m M s i d =>
      obtain ⟨v, hr, hv, hd⟩ := contents_lie_inv hc
      obtain ⟨w, hw1, hw2, _⟩ := contents_lie_inv c5
      simp only [plusTree] at hp
      rcases plusLeaf_shape hp with ⟨_, _, _, e1, _, _⟩ | ⟨_, _, _, M', _, _, _, e1, rfl, hM⟩
      · cases e1
      · cases e1
        have hset : setValue (h ++ n1 ++ [Obj.arr (.mat m m M')]) n (h ++ n1).length
            = .ok ((h ++ n1 ++ [Obj.arr (.mat m m M')]).set n (.lie c (h ++ n1).length s i d)) := by
          unfold setValue
          rw [get_grow hw1]
        have hrd : readSquare (h ++ n1) v = .ok ⟨m, M⟩ := by
          unfold readSquare
          rw [readArr_of (arrAt_grow hv)]
          show (if e : m = m then Except.ok (⟨m, M.submatrix id (Fin.cast e)⟩ : Σ n, Mat n n)
            else Except.error Err.valueError) = _
          rw [dif_pos rfl]; rfl
        have hres : (match (h ++ n1)[r]? with
            | some (.vec _ d _ _) =>
              if dx.length = d then do
                let v ← valueOf (h ++ n1) n
                let a ← readArr (h ++ n1) v
                let (v', h2) := alloc (h ++ n1) (.arr (.vec (List.zipWith (· + ·) a.ravel dx)))
                let h3 ← setValue h2 n v'
                return (n, h3)
              else .error .valueError
            | some (.lie c v _ _ dir) => do
              let M ← readSquare (h ++ n1) v
              let M' ← P c dir M.1 M.2 dx
              let (v', h2) := alloc (h ++ n1) (.arr (.mat M.1 M.1 M'))
              let h3 ← setValue h2 n v'
              return (n, h3)
            | _ => do
              let v ← valueOf (h ++ n1) n
              let l ← readList (h ++ n1) v
              let (l', h2) ← plusAll k (plusState Exp P k) (h ++ n1) l dx
              let (v', h3) := alloc h2 (.list l')
              let h4 ← setValue h3 n v'
              return (n, h4) : Except Err (Ref × Heap))
            = .ok (n, (h ++ n1 ++ [Obj.arr (.mat m m M')]).set n (.lie c (h ++ n1).length s i d)) := by
          rw [get_grow hr]
          simp only []
          rw [hrd]
          show (P c d m M dx >>= _) = _
          rw [hM]
          show (setValue (h ++ n1 ++ [Obj.arr (.mat m m M')]) n (h ++ n1).length >>= _) = _
          rw [hset]; rfl
        refine ⟨n, (n1 ++ [Obj.arr (.mat m m M')]).set (n - h.length) (.lie c (h ++ n1).length s i d), ?_, c2,
          ?_, ?_, ?_⟩
        · rw [← set_new c2, ← List.append_assoc]; exact hres
        · simp only [List.length_append, List.length_set, List.length_cons, List.length_nil] at c3 ⊢; omega
        · refine FreshFrom.set (c4.append ?_) _ _ ?_
          · intro o ho q hq
            rw [List.mem_singleton.mp ho] at hq
            simp [Obj.refs] at hq
          · intro q hq
            simp only [Obj.refs, List.mem_singleton] at hq
            subst hq
            simp only [List.length_append, List.length_cons, List.length_nil]
            omega
        · rw [← set_new c2, ← List.append_assoc]
          have h1 := set_get_eq (h := h ++ n1 ++ [Obj.arr (.mat m m M')]) (n := n)
            (by simp only [List.length_append] at c3 ⊢; omega) (.lie c (h ++ n1).length s i d)
          refine contents_lie (M := ⟨m, M'⟩) k h1 ?_ (asSquare_mat M' hd)
          unfold arrAt
          rw [set_get_ne (by simp only [List.length_append] at c3 ⊢; omega), get_last]
    | comp ts s i =>
      obtain ⟨v0, l0, hr, _, _⟩ := contents_comp_inv hc
      obtain ⟨w, l, hw1, hw2, hw3⟩ := contents_comp_inv c5
      simp only [plusTree] at hp
      obtain ⟨ts', hts', hp1⟩ := ebind hp
      cases hp1
      obtain ⟨rs, n2, g1, g2, g3, g4⟩ := plusAll_spec (plus_spec Exp P k) l (h ++ n1) (copiedAll ts) ts' dx hw3
        (by rw [plusTrees_copied]; exact hts')
      obtain ⟨new, f1, f2, f3, f4, f5, f6⟩ := plus_comp_step (v := w) c2 c3 c4 g2 g3 g4
        (.comp (h ++ n1 ++ n2).length s i) rfl
      refine ⟨n, new, ?_, c2, f2, f3, contents_comp f4 f5 f6⟩
      have hv0 : valueOf (h ++ n1) n = .ok w := by unfold valueOf; rw [hw1]
      have hset : setValue (h ++ n1 ++ n2 ++ [Obj.list rs]) n (h ++ n1 ++ n2).length
          = .ok ((h ++ n1 ++ n2 ++ [Obj.list rs]).set n (.comp (h ++ n1 ++ n2).length s i)) := by
        unfold setValue
        rw [get_grow (get_grow hw1)]
      simp only [bind, Except.bind]
      rw [get_grow hr]
      show (valueOf (h ++ n1) n >>= _) = _
      rw [hv0]
      show (readList (h ++ n1) w >>= _) = _
      rw [readList_of hw2]
      show (plusAll k (plusState Exp P k) (h ++ n1) l dx >>= _) = _
      rw [g1]
      show (setValue (h ++ n1 ++ n2 ++ [Obj.list rs]) n (h ++ n1 ++ n2).length >>= _) = _
      rw [hset, f1]; rfl
    | imu na ga aa s i =>
      obtain ⟨v0, l0, hr, _, _, _⟩ := contents_imu_inv hc
      obtain ⟨w, l, hw1, hw2, hw3, hw4⟩ := contents_imu_inv c5
      simp only [plusTree] at hp
      obtain ⟨nn, hnn, hp1⟩ := ebind hp
      obtain ⟨gg, hgg, hp2⟩ := ebind hp1
      obtain ⟨ag, hag, hp3⟩ := ebind hp2
      cases hp3
      obtain ⟨m, M, s0, i0, d, gl, s1, i1, al, s2, i2, e1, e2⟩ := asImu_some hw4
      simp only [List.cons.injEq, and_true] at e1
      obtain ⟨e3, e4, e5⟩ := e1
      have hpl : plusTrees P [rebuilt "pose" s na, rebuilt "gyro_bias" s ga, rebuilt "accel_bias" s aa] dx
          = .ok [nn, gg, ag] := by
        simp only [plusTrees, dof_rebuilt]
        have hnn' := hnn
        have hgg' := hgg
        have hag' := hag
        rw [e3] at hnn'
        rw [e4] at hgg'
        rw [e5] at hag'
        rw [e3, e4, e5]
        simp only [plusTree, hnn', hgg', hag']
        rfl
      have hshape : asImu s i [nn, gg, ag] = some (.imu nn gg ag s i) := by
        rw [e3] at hnn; rw [e4] at hgg; rw [e5] at hag
        rcases plusLeaf_shape hnn with ⟨_, _, _, q, _⟩ | ⟨_, _, _, _, _, _, _, q, rfl, _⟩ <;> cases q
        rcases plusLeaf_shape hgg with ⟨_, _, _, q, rfl, _⟩ | ⟨_, _, _, _, _, _, _, q, _, _⟩ <;> cases q
        rcases plusLeaf_shape hag with ⟨_, _, _, q, rfl, _⟩ | ⟨_, _, _, _, _, _, _, q, _, _⟩ <;> cases q
        rfl
      obtain ⟨rs, n2, g1, g2, g3, g4⟩ := plusAll_spec (plus_spec Exp P k) l (h ++ n1) _ _ dx hw3 hpl
      obtain ⟨new, f1, f2, f3, f4, f5, f6⟩ := plus_comp_step (v := w) c2 c3 c4 g2 g3 g4
        (.imuState (h ++ n1 ++ n2).length s i) rfl
      refine ⟨n, new, ?_, c2, f2, f3, contents_imu f4 f5 f6 hshape⟩
      have hv0 : valueOf (h ++ n1) n = .ok w := by unfold valueOf; rw [hw1]
      have hset : setValue (h ++ n1 ++ n2 ++ [Obj.list rs]) n (h ++ n1 ++ n2).length
          = .ok ((h ++ n1 ++ n2 ++ [Obj.list rs]).set n (.imuState (h ++ n1 ++ n2).length s i)) := by
        unfold setValue
        rw [get_grow (get_grow hw1)]
      simp only [bind, Except.bind]
      rw [get_grow hr]
      show (valueOf (h ++ n1) n >>= _) = _
      rw [hv0]
      show (readList (h ++ n1) w >>= _) = _
      rw [readList_of hw2]
      show (plusAll k (plusState Exp P k) (h ++ n1) l dx >>= _) = _
      rw [g1]
      show (setValue (h ++ n1 ++ n2 ++ [Obj.list rs]) n (h ++ n1 ++ n2).length >>= _) = _
      rw [hset, f1]; rfl

end Verif.Heap
